/-
  Property theorems: boolean operations on shifted curves, C116.
-/
import Verif.Props.MovedHits
import Verif.Model.BoolEntry

set_option linter.unusedSectionVars false
set_option linter.unusedSimpArgs false

namespace Curvo.Props

open Curvo Curvo.Curve Curvo.Spec Curvo.Intersect

/-! ### Clipping does not look at the curves -/

namespace Bool2
open Curvo.Boolean

section clip
variable {K : Type} [LinearOrder K] {S S' C C' : Type} {f : C → C'} {g : S → S'}

/-- A region with its boundaries mapped. -/
def mapRegion (f : C → C') (r : Region C) : Region C' := ⟨f r.exterior, r.interiors.map f⟩

theorem chunkSpans_map {trim : Bool → K × K → Res (List S)} {trim' : Bool → K × K → Res (List S')}
    (ht : ∀ s r, trim' s r = Except.map (List.map g) (trim s r)) (ns : Nodes K) (c : NodeId × NodeId) :
    ns.chunkSpans trim' c = Except.map (List.map g) (ns.chunkSpans trim c) := by
  unfold Nodes.chunkSpans
  simp only [map_bind']
  refine bind_congr fun s0 => bind_congr fun s1 => bind_congr fun p0 => bind_congr fun p1 => ?_
  cases s0 <;> cases s1 <;> simp only [pure_eq_ok, ok_bind] <;> first | rfl | (rw [map_ite', ht]; rfl)

theorem loopRegion_map {trim : Bool → K × K → Res (List S)} {trim' : Bool → K × K → Res (List S')} {compound : List S → Res C}
    {compound' : List S' → Res C'} (ht : ∀ s r, trim' s r = Except.map (List.map g) (trim s r))
    (hc : ∀ l, compound' (l.map g) = Except.map f (compound l)) (ns : Nodes K) (nodes : List NodeId) :
    ns.loopRegion trim' compound' nodes = Except.map (Option.map (mapRegion f)) (ns.loopRegion trim compound nodes) := by
  unfold Nodes.loopRegion
  have e := mapM_map' (f := ns.chunkSpans trim) (f' := ns.chunkSpans trim') (g := id) (List.map g)
    (fun c => chunkSpans_map ht ns c) (Nodes.chunks nodes)
  rw [List.map_id] at e
  rw [e, bind_map', map_bind']
  refine bind_congr fun spans => ?_
  rw [map_ite', ← List.map_flatten, hc, List.isEmpty_map, bind_map', map_bind']
  rfl

theorem loops_map {trim : Bool → K × K → Res (List S)} {trim' : Bool → K × K → Res (List S')} {compound : List S → Res C}
    {compound' : List S' → Res C'} (ht : ∀ s r, trim' s r = Except.map (List.map g) (trim s r))
    (hc : ∀ l, compound' (l.map g) = Except.map f (compound l)) (ns : Nodes K) : ∀ (fuel : ℕ) (visited : List NodeId) (rs : List (Region C)),
    ns.loops trim' compound' fuel visited (rs.map (mapRegion f)) =
      Except.map (List.map (mapRegion f)) (ns.loops trim compound fuel visited rs)
  | 0, _, _ => rfl
  | fuel + 1, visited, rs => by
    rw [Nodes.loops, Nodes.loops, map_bind']
    refine bind_congr fun s => ?_
    cases s with
    | none => rfl
    | some start =>
      simp only []
      rw [map_bind']
      refine bind_congr fun w => ?_
      obtain ⟨v, nodes⟩ := w
      simp only []
      rw [loopRegion_map ht hc, bind_map', map_bind']
      refine bind_congr fun r => ?_
      have e : rs.map (mapRegion f) ++ (Option.map (mapRegion f) r).toList = (rs ++ r.toList).map (mapRegion f) := by
        cases r <;> simp
      rw [e]
      exact loops_map ht hc ns fuel v (rs ++ r.toList)

theorem clip_map {deg : Boolean.Inter K → Degeneracy K} {cc sc : Res Bool} {trim : Bool → K × K → Res (List S)}
    {trim' : Bool → K × K → Res (List S')} {compound : List S → Res C}
    {compound' : List S' → Res C'} (ht : ∀ s r, trim' s r = Except.map (List.map g) (trim s r))
    (hc : ∀ l, compound' (l.map g) = Except.map f (compound l)) (subject other : C) (op : Op) (its : List (Boolean.Inter K)) :
    clip deg cc sc trim' compound' (f subject) (f other) op its =
      Except.map (List.map (mapRegion f)) (clip deg cc sc trim compound subject other op its) := by
  unfold clip
  simp only [map_bind']
  refine bind_congr fun its => bind_congr fun ccs => bind_congr fun scc => ?_
  rw [map_ite']
  congr 1
  · cases scc <;> cases ccs <;> cases op <;> rfl
  · exact loops_map ht hc _ _ _ []

theorem select_map {I I' : Type} {deg : I → Degeneracy K} {deg' : I' → Degeneracy K} {h : I → I'} (hd : ∀ x, deg' (h x) = deg x) (l : List I) :
    select deg' (l.map h) = Except.map (List.map h) (select deg l) := by
  have hall : ((l.map h).map fun it => (it, deg' it)) = (l.map fun it => (it, deg it)).map fun x => (h x.1, x.2) := by
    rw [List.map_map, List.map_map]
    exact List.map_congr_left fun x _ => by simp [hd]
  unfold select
  simp only [hall]
  generalize (l.map fun it => (it, deg it)) = all
  have hreg : ((all.map fun x => (h x.1, x.2)).filter fun x => x.2.isNone).map (·.1) =
      ((all.filter fun x => x.2.isNone).map (·.1)).map h := by
    rw [List.filter_map, List.map_map, List.map_map]; rfl
  have hrest : ((all.map fun x => (h x.1, x.2)).filter fun x => !x.2.isNone) =
      (all.filter fun x => !x.2.isNone).map fun x => (h x.1, x.2) := by
    rw [List.filter_map]; rfl
  rw [hreg, hrest]
  generalize ((all.filter fun x => x.2.isNone).map (·.1)) = reg
  generalize (all.filter fun x => !x.2.isNone) = rest
  have hmax : maxDeg (rest.map fun x => (h x.1, x.2)) = (maxDeg rest).map fun x => (h x.1, x.2) := by
    cases rest with
    | nil => rfl
    | cons x xs =>
      simp only [List.map_cons, maxDeg, Option.map_some]
      congr 1
      induction xs generalizing x with
      | nil => rfl
      | cons y ys ih =>
        simp only [List.map_cons, List.foldl_cons]
        rw [← ih]
        congr 1
        split <;> rfl
  rw [hmax, List.length_map]
  by_cases hp : reg.length % 2 = 0
  · simp only [if_pos hp, List.length_map]
    rfl
  · simp only [if_neg hp]
    cases maxDeg rest with
    | none =>
      simp only [Option.map_none, List.length_map, if_neg hp]
      rfl
    | some x =>
      simp only [Option.map_some, List.length_append, List.length_map, List.length_singleton]
      rw [map_ite']
      simp [pure_eq_ok, Except.map]

theorem clipHits_map {H H' : Type} {h : H → H'} {classify : H → Res (Degeneracy K)} {classify' : H' → Res (Degeneracy K)}
    (hk : ∀ x, classify' (h x) = classify x) {inter : H → Boolean.Inter K} {inter' : H' → Boolean.Inter K} (hi : ∀ x, inter' (h x) = inter x)
    {cc sc : Res Bool} {trim : Bool → K × K → Res (List S)}
    {trim' : Bool → K × K → Res (List S')} {compound : List S → Res C}
    {compound' : List S' → Res C'} (ht : ∀ s r, trim' s r = Except.map (List.map g) (trim s r))
    (hc : ∀ l, compound' (l.map g) = Except.map f (compound l)) (subject other : C) (op : Op) (hits : List H) :
    clipHits classify' inter' cc sc trim' compound' (f subject) (f other) op (hits.map h) =
      Except.map (List.map (mapRegion f)) (clipHits classify inter cc sc trim compound subject other op hits) := by
  unfold clipHits
  rw [mapM_map' (f := fun h => do let d ← classify h; pure (h, d)) (g := h) (fun x : H × Degeneracy K => (h x.1, x.2)) (by
    intro x
    rw [hk, map_bind']
    rfl) hits, bind_map', map_bind']
  refine bind_congr fun ds => ?_
  rw [select_map (deg := fun x : H × Degeneracy K => x.2) (h := fun x : H × Degeneracy K => (h x.1, x.2)) (fun _ => rfl), bind_map', map_bind']
  refine bind_congr fun sel => ?_
  have e : ((sel.map fun x => (h x.1, x.2)).map fun x => inter' x.1) = sel.map fun x => inter x.1 := by
    rw [List.map_map]
    exact List.map_congr_left fun x _ => hi x.1
  rw [e]
  exact clip_map ht hc subject other op _

end clip

end Bool2

/-! ### Compound curves -/

section compound
variable {K : Type} [Field K] [LinearOrder K] [IsStrictOrderedRing K] {W : Type} [AddCommGroup W] [Module K W]
  {A : W →ₗ[K] W} {t : W} {dist : W → W → K}

open Curvo.Compound

theorem direction_moved (hd : ∀ p q, dist (A p + t) (A q + t) = dist p q) (eps tol : K) (a b : Curve K (W × K)) :
    direction eps tol dist (a.mapCps (affHom A t)) (b.mapCps (affHom A t)) = direction eps tol dist a b := by
  have ea : (a.mapCps (affHom A t)).knotsDomain = a.knotsDomain := rfl
  have eb : (b.mapCps (affHom A t)).knotsDomain = b.knotsDomain := rfl
  unfold direction
  rw [ea, eb]
  simp only [pointAt_affine, bind_map', hd]

theorem findDir_moved (hd : ∀ p q, dist (A p + t) (A q + t) = dist p q) (eps tol : K) (last : Curve K (W × K)) : ∀ l : List (Curve K (W × K)),
    findDir eps tol dist (last.mapCps (affHom A t)) (l.map (mapCps (affHom A t))) = findDir eps tol dist last l
  | [] => rfl
  | c :: cs => by
    rw [List.map_cons, findDir, findDir, direction_moved hd, findDir_moved hd eps tol last cs]

theorem place_moved (connected : List (Curve K (W × K))) (current : ℕ) (next : Curve K (W × K)) (d : Dir) :
    Compound.place (connected.map (mapCps (affHom A t))) current (next.mapCps (affHom A t)) d =
      Except.map (List.map (mapCps (affHom A t))) (Compound.place connected current next d) := by
  cases d with
  | forward => simp [Compound.place, pure_eq_ok, Except.map]
  | backward => simp [Compound.place, pure_eq_ok, Except.map, List.map_take, List.map_drop]
  | facing =>
    simp only [Compound.place]
    rw [invert_map, bind_map', map_bind']
    exact bind_congr fun inv => by simp [pure_eq_ok, Except.map]
  | opposite =>
    simp only [Compound.place]
    rw [invert_map, bind_map', map_ite', map_bind']
    congr 1
    exact bind_congr fun inv => by simp [pure_eq_ok, Except.map, List.map_take, List.map_drop]

theorem connect_moved (hd : ∀ p q, dist (A p + t) (A q + t) = dist p q) (eps tol : K) : ∀ (fuel : ℕ) (connected l : List (Curve K (W × K))),
    connect eps tol dist fuel (connected.map (mapCps (affHom A t))) (l.map (mapCps (affHom A t))) =
      Except.map (List.map (mapCps (affHom A t))) (connect eps tol dist fuel connected l)
  | fuel, connected, [] => by cases fuel <;> rfl
  | 0, connected, c :: cs => rfl
  | fuel + 1, connected, c :: cs => by
    rw [List.map_cons, connect, connect]
    rw [List.length_map, map_bind']
    refine bind_congr fun current => ?_
    rw [getR_map, bind_map', map_bind']
    refine bind_congr fun last => ?_
    have := findDir_moved hd eps tol last (c :: cs)
    rw [List.map_cons] at this
    rw [this, map_bind']
    refine bind_congr fun found => ?_
    cases found with
    | none => rfl
    | some x =>
      obtain ⟨i, dd⟩ := x
      simp only []
      rw [← List.map_cons, getR_map, bind_map', map_bind']
      refine bind_congr fun next => ?_
      rw [place_moved, bind_map', map_bind']
      refine bind_congr fun conn => ?_
      rw [List.eraseIdx_map]
      exact connect_moved hd eps tol fuel conn _

theorem align_moved {V V' : Type} (L : V → V') : ∀ (off : K) (l : List (Curve K V)),
    align off (l.map (mapCps L)) = Except.map (List.map (mapCps L)) (align off l)
  | _, [] => rfl
  | off, c :: cs => by
    rw [List.map_cons, align, align]
    simp only [map_bind']
    refine bind_congr fun start => bind_congr fun l => bind_congr fun off' => ?_
    rw [align_moved L off' cs, bind_map']
    rfl

theorem compound_new_moved (hd : ∀ p q, dist (A p + t) (A q + t) = dist p q) (eps tol : K) (spans : List (Curve K (W × K))) :
    Compound.new eps tol dist (spans.map (mapCps (affHom A t))) =
      Except.map (List.map (mapCps (affHom A t))) (Compound.new eps tol dist spans) := by
  unfold Compound.new
  rw [getR_map, bind_map', map_bind']
  refine bind_congr fun first => ?_
  rw [← List.map_tail, List.length_map]
  have := connect_moved hd eps tol (spans.length - 1) [first] spans.tail
  rw [List.map_singleton] at this
  rw [this, bind_map', map_bind']
  exact bind_congr fun c => align_moved _ 0 c

theorem trimSpan_moved {V V' : Type} [AddCommGroup V] [Module K V] [AddCommGroup V'] [Module K V'] (L : V →ₗ[K] V') (eps teps t0 t1 : K)
    (c : Curve K V) : trimSpan eps teps t0 t1 (c.mapCps L) = Except.map (List.map (mapCps L)) (trimSpan eps teps t0 t1 c) := by
  have ek : (c.mapCps L).knotsDomain = c.knotsDomain := rfl
  unfold trimSpan
  simp only []
  rw [ek, map_bind']
  refine bind_congr fun d => ?_
  by_cases h1 : d.1 + teps ≤ min t0 t1 ∧ min t0 t1 ≤ d.2 - teps <;> by_cases h2 : d.1 + teps ≤ max t0 t1 ∧ max t0 t1 ≤ d.2 - teps <;>
    by_cases h3 : t0 < t1 <;> by_cases h4 : min t0 t1 ≤ d.1 ∧ d.1 ≤ max t0 t1 <;>
    simp only [if_pos, if_neg, h1, h2, h3, h4, not_false_eq_true, and_self, if_true, tryTrimRange_map, trySplit_map, bind_map', map_bind'] <;> rfl

theorem compound_trim_moved {V V' : Type} [AddCommGroup V] [Module K V] [AddCommGroup V'] [Module K V'] (L : V →ₗ[K] V') (eps teps t0 t1 : K)
    (spans : List (Curve K V)) : Compound.tryTrimRange eps teps t0 t1 (spans.map (mapCps L)) =
      Except.map (List.map (mapCps L)) (Compound.tryTrimRange eps teps t0 t1 spans) := by
  unfold Compound.tryTrimRange
  rw [mapM_map' (List.map (mapCps L)) (fun c => trimSpan_moved L eps teps t0 t1 c) spans, bind_map', map_bind']
  exact bind_congr fun r => by simp [pure_eq_ok, Except.map, List.map_flatten]

end compound

/-! ### Boolean operations -/

section boolean
open Curvo.Boolean Bool2

variable {K : Type} [Field K] [LinearOrder K] [IsStrictOrderedRing K] {t : Fin 2 → K}

theorem det_shifted (p q r : Fin 2 → K) : Misc.det (toPair (p + t)) (toPair (q + t)) (toPair (r + t)) =
    Misc.det (toPair p) (toPair q) (toPair r) := by
  simp [Misc.det, toPair]; try ring

theorem rangesMeet_shifted (tol a0 a1 b0 b1 s : K) : Misc.rangesMeet tol (a0 + s) (a1 + s) (b0 + s) (b1 + s) = Misc.rangesMeet tol a0 a1 b0 b1 := by
  unfold Misc.rangesMeet
  simp only [min_add_add_right, max_add_add_right]
  have e1 : min b0 b1 + s - tol - (max a0 a1 + s + tol) = min b0 b1 - tol - (max a0 a1 + tol) := by ring
  have e2 : max b0 b1 + s + tol - (min a0 a1 + s - tol) = max b0 b1 + tol - (min a0 a1 - tol) := by ring
  rw [e1, e2]

theorem lineIntersects_shifted (tol : K) (p q r s : Fin 2 → K) :
    Misc.lineIntersects tol (toPair (p + t)) (toPair (q + t)) (toPair (r + t)) (toPair (s + t)) =
      Misc.lineIntersects tol (toPair p) (toPair q) (toPair r) (toPair s) := by
  unfold Misc.lineIntersects Misc.orientation
  simp only [det_shifted]
  have e0 : ∀ p : Fin 2 → K, (toPair (p + t)).1 = (toPair p).1 + t 0 := fun p => rfl
  have e1 : ∀ p : Fin 2 → K, (toPair (p + t)).2 = (toPair p).2 + t 1 := fun p => rfl
  simp only [e0, e1, rangesMeet_shifted]

theorem degeneracy_shifted (norm : (Fin 2 → K) → K) (eps tol : K) (a b : PCurve K) (u v : K) :
    degeneracy norm eps tol (shiftedCurve t a) (shiftedCurve t b) u v = degeneracy norm eps tol a b u v := by
  unfold degeneracy
  simp only [pointAt_shifted, bind_map', lineIntersects_shifted, add_sub_add_right_eq_sub]

/-- An operand shifted by `t`. -/
def shiftedOp (t : Fin 2 → K) : PCurve K ⊕ List (PCurve K) → PCurve K ⊕ List (PCurve K)
  | .inl c => .inl (shiftedCurve t c)
  | .inr l => .inr (l.map (shiftedCurve t))

/-- The pieces of an operand. -/
def operandSpans : PCurve K ⊕ List (PCurve K) → List (PCurve K)
  | .inl c => [c]
  | .inr l => l

/-- A hit shifted by `t`. -/
def shiftedHit (t : Fin 2 → K) (h : CHit K) : CHit K := ⟨((shiftedCurve t h.a.1.1, h.a.1.2 + t), h.a.2), ((shiftedCurve t h.b.1.1, h.b.1.2 + t), h.b.2)⟩

variable {E : Env K}

theorem compound_shifted (l : List (PCurve K)) : E.compound (l.map (shiftedCurve t)) = Except.map (List.map (shiftedCurve t)) (E.compound l) :=
  compound_new_moved (A := LinearMap.id) (fun p q => by simp) E.eps E.joinTol l

theorem into_shifted (X : PCurve K ⊕ List (PCurve K)) : E.into (shiftedOp t X) = Except.map (List.map (shiftedCurve t)) (E.into X) := by
  cases X with
  | inl c => exact compound_shifted [c]
  | inr l => rfl

theorem trim_shifted (X Y : PCurve K ⊕ List (PCurve K)) (s : Bool) (r : K × K) :
    E.trim (shiftedOp t X) (shiftedOp t Y) s r = Except.map (List.map (shiftedCurve t)) (E.trim X Y s r) := by
  have k1 : ∀ c : PCurve K, (shiftedCurve t c).tryTrimRange E.eps r.1 r.2 = Except.map (List.map (shiftedCurve t)) (c.tryTrimRange E.eps r.1 r.2) :=
    fun c => by
      have e := tryTrimRange_map (affHom LinearMap.id t) E.eps c r.1 r.2
      exact e
  have k2 : ∀ l : List (PCurve K), Compound.tryTrimRange E.eps E.trimTol r.1 r.2 (l.map (shiftedCurve t)) =
      Except.map (List.map (shiftedCurve t)) (Compound.tryTrimRange E.eps E.trimTol r.1 r.2 l) :=
    fun l => compound_trim_moved (affHom LinearMap.id t) E.eps E.trimTol r.1 r.2 l
  unfold Env.trim
  cases s
  · cases Y with
    | inl c => simp only [shiftedOp, Bool.false_eq_true, if_false, k1]
    | inr l => simp only [shiftedOp, Bool.false_eq_true, if_false, k2]
  · cases X with
    | inl c => simp only [shiftedOp, if_true, k1]
    | inr l => simp only [shiftedOp, if_true, k2]

theorem firstPoint_shifted (X : PCurve K ⊕ List (PCurve K)) : E.firstPoint (shiftedOp t X) = Except.map (· + t) (E.firstPoint X) := by
  have key : ∀ c : PCurve K, (shiftedCurve t c).firstPoint E.eps = Except.map (· + t) (c.firstPoint E.eps) := by
    intro c
    unfold Curve.firstPoint
    have ek : (shiftedCurve t c).knotsDomain = c.knotsDomain := rfl
    rw [ek, map_bind']
    exact bind_congr fun d => pointAt_shifted c _
  cases X with
  | inl c => exact key c
  | inr l =>
    simp only [shiftedOp, Env.firstPoint]
    rw [getR_map, bind_map', map_bind']
    exact bind_congr key

/-- The queries of the library answer alike for the shifted operands. -/
structure ShiftInvariant (E : Env K) (t : Fin 2 → K) (X Y : PCurve K ⊕ List (PCurve K)) : Prop where
  find : ∀ a ∈ operandSpans X ++ operandSpans Y, ∀ b ∈ operandSpans X ++ operandSpans Y,
    E.find (shiftedCurve t a) (shiftedCurve t b) = Except.map (List.map (movedHit LinearMap.id t)) (E.find a b)
  inX : ∀ p, E.containsIn (shiftedOp t X) (p + t) = E.containsIn X p
  inY : ∀ p, E.containsIn (shiftedOp t Y) (p + t) = E.containsIn Y p

theorem clip_shifted {X Y : PCurve K ⊕ List (PCurve K)} (h : ShiftInvariant E t X Y) (op : Op) (hits : List (CHit K)) :
    E.clip op (shiftedOp t X) (shiftedOp t Y) (hits.map (shiftedHit t)) =
      Except.map (List.map (mapRegion (List.map (shiftedCurve t)))) (E.clip op X Y hits) := by
  unfold Env.clip
  rw [into_shifted, bind_map', map_bind']
  refine bind_congr fun s => ?_
  rw [into_shifted, bind_map', map_bind']
  refine bind_congr fun o => ?_
  rw [firstPoint_shifted, firstPoint_shifted, bind_map', bind_map']
  simp only [h.inX, h.inY]
  exact clipHits_map (h := shiftedHit t) (fun x => degeneracy_shifted E.norm E.eps E.tol x.a.1.1 x.b.1.1 x.a.2 x.b.2) (fun _ => rfl)
    (fun s r => trim_shifted X Y s r) (fun l => compound_shifted l) s o op hits

theorem findTagged_shifted {X Y : PCurve K ⊕ List (PCurve K)} (h : ShiftInvariant E t X Y) {a b : PCurve K}
    (ha : a ∈ operandSpans X ++ operandSpans Y) (hb : b ∈ operandSpans X ++ operandSpans Y) :
    E.findTagged (shiftedCurve t a) (shiftedCurve t b) = Except.map (List.map (shiftedHit t)) (E.findTagged a b) := by
  unfold Env.findTagged
  rw [h.find a ha b hb, bind_map', map_bind']
  refine bind_congr fun hs => ?_
  simp only [pure_eq_ok, Except.map, List.map_map]
  rfl

theorem mapHit_shifted (h : CHit K) : mapHit (fun x : PCurve K × (Fin 2 → K) => (shiftedCurve t x.1, x.2 + t)) h = shiftedHit t h := rfl

theorem compoundCurve_shifted {X Y : PCurve K ⊕ List (PCurve K)} (h : ShiftInvariant E t X Y) {l : List (PCurve K)} {b : PCurve K}
    (hl : ∀ a ∈ l, a ∈ operandSpans X ++ operandSpans Y) (hb : b ∈ operandSpans X ++ operandSpans Y) :
    Intersect.compoundCurve (fun s => E.findTagged s (shiftedCurve t b)) (l.map (shiftedCurve t)) =
      Except.map (List.map (shiftedHit t)) (Intersect.compoundCurve (fun s => E.findTagged s b) l) :=
  compoundCurve_map (f := shiftedCurve t) (g := fun x : PCurve K × (Fin 2 → K) => (shiftedCurve t x.1, x.2 + t))
    (fun s hs => findTagged_shifted h (hl s hs) hb) fun _ => rfl

/-- **Boolean operations do not depend on where the curves are**: the union, intersection and difference of two shifted curves are the
    shifted regions, and they fail exactly when they fail on the curves. -/
theorem C116_curves {a b : PCurve K} (h : ShiftInvariant E t (.inl a) (.inl b)) (op : Op) :
    E.curveCurve op (shiftedCurve t a) (shiftedCurve t b) = Except.map (List.map (mapRegion (List.map (shiftedCurve t)))) (E.curveCurve op a b) := by
  unfold Env.curveCurve
  rw [findTagged_shifted h (by simp [operandSpans]) (by simp [operandSpans]), bind_map', map_bind']
  exact bind_congr fun hits => clip_shifted h op hits

/-- The same for a compound curve and a curve. -/
theorem C116_compound_curve {a : List (PCurve K)} {b : PCurve K} (h : ShiftInvariant E t (.inr a) (.inl b)) (op : Op) :
    E.compoundCurve op (a.map (shiftedCurve t)) (shiftedCurve t b) =
      Except.map (List.map (mapRegion (List.map (shiftedCurve t)))) (E.compoundCurve op a b) := by
  unfold Env.compoundCurve
  rw [compoundCurve_shifted h (by intro x hx; simp [operandSpans, hx]) (by simp [operandSpans]), bind_map', map_bind']
  exact bind_congr fun hits => clip_shifted h op hits

/-- The same for a curve and a compound curve. -/
theorem C116_curve_compound {a : PCurve K} {b : List (PCurve K)} (h : ShiftInvariant E t (.inl a) (.inr b)) (op : Op) :
    E.curveCompound op (shiftedCurve t a) (b.map (shiftedCurve t)) =
      Except.map (List.map (mapRegion (List.map (shiftedCurve t)))) (E.curveCompound op a b) := by
  unfold Env.curveCompound
  rw [compoundCurve_shifted h (by intro x hx; simp [operandSpans, hx]) (by simp [operandSpans]), bind_map', map_bind']
  refine bind_congr fun hits => ?_
  have e : (hits.map (shiftedHit t)).insertionSort (fun x y => x.b.2 ≤ y.b.2) =
      (hits.insertionSort fun x y => x.b.2 ≤ y.b.2).map (shiftedHit t) :=
    (List.map_insertionSort (fun x y : CHit K => x.b.2 ≤ y.b.2) (fun x y : CHit K => x.b.2 ≤ y.b.2) (shiftedHit t) hits
      fun a _ b _ => Iff.rfl).symm
  simp only []
  rw [e, List.map_map]
  have e2 : ((hits.insertionSort fun x y => x.b.2 ≤ y.b.2).map ((fun h : CHit K => (⟨h.b, h.a⟩ : CHit K)) ∘ shiftedHit t)) =
      ((hits.insertionSort fun x y => x.b.2 ≤ y.b.2).map fun h => (⟨h.b, h.a⟩ : CHit K)).map (shiftedHit t) := by
    rw [List.map_map]; rfl
  rw [e2]
  exact clip_shifted h op _

/-- The same for two compound curves. -/
theorem C116_compounds {a b : List (PCurve K)} (h : ShiftInvariant E t (.inr a) (.inr b)) (op : Op) :
    E.compoundCompound op (a.map (shiftedCurve t)) (b.map (shiftedCurve t)) =
      Except.map (List.map (mapRegion (List.map (shiftedCurve t)))) (E.compoundCompound op a b) := by
  unfold Env.compoundCompound Intersect.compoundCompound
  have key : ∀ l : List (PCurve K), (∀ o ∈ l, o ∈ b) →
      ((l.map (shiftedCurve t)).mapM fun o => Intersect.compoundCurve (fun s => E.findTagged s o) (a.map (shiftedCurve t))) =
      Except.map (List.map (List.map (shiftedHit t))) (l.mapM fun o => Intersect.compoundCurve (fun s => E.findTagged s o) a) := by
    intro l
    induction l with
    | nil => intro _; rfl
    | cons o l ih =>
      intro hl
      rw [List.map_cons, List.mapM_cons, List.mapM_cons, compoundCurve_shifted h (by intro x hx; simp [operandSpans, hx])
        (by simp [operandSpans, hl o]), ih fun x hx => hl x (by simp [hx]), bind_map', map_bind']
      refine bind_congr fun x => ?_
      rw [bind_map', map_bind']
      rfl
  rw [key b fun _ h => h, bind_map', bind_assoc, bind_assoc, map_bind']
  refine bind_congr fun r => ?_
  simp only [pure_eq_ok, ok_bind]
  rw [← List.map_flatten]
  exact clip_shifted h op _

/-! ### The queries of the library -/

open Curvo.Contains Curvo.Bfgs

/-- The boolean operations with the modelled queries: intersections by bounding boxes and the quasi-Newton solver, containment by the
    closest point search and the ray; `rnd` and `rndC` are the random numbers, `opt` the options given to all of them. -/
def libraryEnv (norm normSq : (Fin 2 → K) → K) (dot : (Fin 2 → K) → (Fin 2 → K) → K) (nrm2 : (Fin 2 → K) → K)
    (eps big tol joinTol trimTol stepTol costTol : K) (rnd : ℕ → K) (rndC : ℕ → ℕ → K) (pos fuel : ℕ) (opt : Option (Contains.Options K)) :
    Env K where
  norm := norm
  eps := eps
  tol := tol
  joinTol := joinTol
  trimTol := trimTol
  find := Intersect.curveCurve eps big rnd pos fuel norm normSq (opt.getD .default).division (opt.getD .default).minDist
    (solveCurves dot nrm2 eps stepTol costTol (opt.getD .default).maxIters)
  contains c := curveContains eps big norm (Closest.findClosestPoint norm dot eps c) rnd pos fuel opt c
  containsC spans := compoundContains eps big norm (Compound.findClosestPoint norm normSq dot eps spans) rndC pos fuel opt spans

/-- The curve can be moved in the intersection and in the containment queries. -/
structure Shiftable (eps big : K) (rnd : ℕ → K) (t : Fin 2 → K) (opt : Option (Contains.Options K)) (c : PCurve K) : Prop where
  movable : Movable eps big rnd LinearMap.id t ⟨c, (c.hi - c.lo) / (opt.getD .default).division⟩
  room : ∀ q ∈ c.cps, ∀ i, |(q.2⁻¹ • q.1) i| ≤ big / 5 ∧ |(q.2⁻¹ • q.1) i + t i| ≤ big / 5

variable {norm normSq : (Fin 2 → K) → K} {dot : (Fin 2 → K) → (Fin 2 → K) → K} {nrm2 : (Fin 2 → K) → K}
    {eps big tol joinTol trimTol stepTol costTol : K} {rnd : ℕ → K} {rndC : ℕ → ℕ → K} {pos fuel : ℕ} {opt : Option (Contains.Options K)}

/-- **The library's own queries do not depend on where the curves are**, so nor do its boolean operations (`C116_curves`,
    `C116_compound_curve`, `C116_curve_compound`, `C116_compounds`), for every random stream. -/
theorem C116_library (hr : ∀ n, 0 ≤ rnd n ∧ rnd n ≤ 1) (hrC : ∀ s n, 0 ≤ rndC s n ∧ rndC s n ≤ 1) {X Y : PCurve K ⊕ List (PCurve K)}
    (hX : operandSpans X ≠ []) (hY : operandSpans Y ≠ [])
    (h : ∀ c ∈ operandSpans X ++ operandSpans Y, Shiftable eps big rnd t opt c)
    (hC : ∀ c ∈ operandSpans X ++ operandSpans Y, ∀ s, Shiftable eps big (rndC s) t opt c) :
    ShiftInvariant (libraryEnv norm normSq dot nrm2 eps big tol joinTol trimTol stepTol costTol rnd rndC pos fuel opt) t X Y where
  find a ha b hb := C115_curves (A := LinearMap.id) AxisMap.id (fun _ _ => rfl) (fun _ => rfl) (fun _ => rfl) hr (h a ha).movable (h b hb).movable
    nrm2 pos fuel _ stepTol costTol _
  inX p := by
    cases X with
    | inl c =>
      have hc := h c (by simp [operandSpans])
      exact C115_contains hr opt hc.movable hc.room p pos fuel
    | inr l =>
      refine C115_contains_compound hrC opt hX (fun s c hm => ?_) (fun c hc => ?_) (compound_closest_shifted l) p pos fuel
      · exact (hC c (List.mem_append_left _ (List.fst_mem_of_mem_zipIdx hm)) s).movable
      · exact (h c (List.mem_append_left _ hc)).room
  inY p := by
    cases Y with
    | inl c =>
      have hc := h c (by simp [operandSpans])
      exact C115_contains hr opt hc.movable hc.room p pos fuel
    | inr l =>
      refine C115_contains_compound hrC opt hY (fun s c hm => ?_) (fun c hc => ?_) (compound_closest_shifted l) p pos fuel
      · exact (hC c (List.mem_append_right _ (List.fst_mem_of_mem_zipIdx hm)) s).movable
      · exact (h c (List.mem_append_right _ hc)).room

end boolean

/-! ### Witness -/

/-- The closed cubic of C115, upside down. -/
def exDropDown : Curve ℚ ((Fin 2 → ℚ) × ℚ) where
  degree := 3
  cps := [(![0, 2], 1), (![4, -1], 1), (![-4, -1], 1), (![0, 2], 1)]
  knots := [0, 0, 0, 0, 1, 1, 1, 1]

theorem exDropDown_good : exDropDown.Good (1/1000000) where
  cps_pos := by decide
  knots_len := by decide
  good := by
    refine ⟨by norm_num, by decide, ?_, ?_, ?_, ?_, ?_⟩
    · intro i j hij hj
      exact (by decide +kernel : ∀ i ≤ 7, ∀ j ≤ 7, i ≤ j → kf exDropDown.knots i ≤ kf exDropDown.knots j)
        i (by have : j ≤ 7 := hj; omega) j hj hij
    all_goals simp [exDropDown, kf]; try norm_num

theorem exDrop_shiftable (rnd : ℕ → ℚ) (hr : ∀ n, 0 ≤ rnd n ∧ rnd n ≤ 1) : Shiftable (1/1000000) 1000000 rnd ![7, -3] none exDrop where
  movable := exDrop_movable rnd hr
  room := by decide +kernel

theorem exDropDown_shiftable (rnd : ℕ → ℚ) (hr : ∀ n, 0 ≤ rnd n ∧ rnd n ≤ 1) : Shiftable (1/1000000) 1000000 rnd ![7, -3] none exDropDown where
  movable :=
    { good := exDropDown_good
      pos := by simp [exDropDown]
      room := by decide +kernel
      generic := generic_of_ends hr exDropDown_good (by simp [exDropDown]) (by decide +kernel) (by decide +kernel) (by norm_num) }
  room := by decide +kernel

/-- Boolean operations of the two closed cubics, as curves. -/
example (op : Boolean.Op) (rnd : ℕ → ℚ) (hr : ∀ n, 0 ≤ rnd n ∧ rnd n ≤ 1) (pos fuel : ℕ) :=
  C116_curves (a := exDrop) (b := exDropDown) (t := ![7, -3])
    (C116_library (eps := 1/1000000) (big := 1000000) (tol := 1/1000000) (joinTol := 1/10000) (trimTol := 1/1000000) (stepTol := 1/1000000)
      (costTol := 1/1000000) (norm := fun x => |x 0| + |x 1|) (normSq := fun x => x 0 * x 0 + x 1 * x 1)
      (dot := fun x y => x 0 * y 0 + x 1 * y 1) (nrm2 := fun x => |x 0| + |x 1|) (opt := none) (pos := pos) (fuel := fuel) hr (fun _ => hr)
      (by simp [operandSpans]) (by simp [operandSpans])
      (by intro c hc; simp only [operandSpans, List.cons_append, List.nil_append, List.mem_cons, List.not_mem_nil, or_false] at hc
          rcases hc with rfl | rfl
          exacts [exDrop_shiftable rnd hr, exDropDown_shiftable rnd hr])
      (by intro c hc s; simp only [operandSpans, List.cons_append, List.nil_append, List.mem_cons, List.not_mem_nil, or_false] at hc
          rcases hc with rfl | rfl
          exacts [exDrop_shiftable rnd hr, exDropDown_shiftable rnd hr])) op

/-- The same as compound curves, and mixed. -/
example (rnd : ℕ → ℚ) (hr : ∀ n, 0 ≤ rnd n ∧ rnd n ≤ 1) (pos fuel : ℕ) (X Y : Boolean.PCurve ℚ ⊕ List (Boolean.PCurve ℚ))
    (hX : X = .inl exDrop ∨ X = .inr [exDrop]) (hY : Y = .inl exDropDown ∨ Y = .inr [exDropDown]) :
    ShiftInvariant (libraryEnv (fun x => |x 0| + |x 1|) (fun x => x 0 * x 0 + x 1 * x 1) (fun x y => x 0 * y 0 + x 1 * y 1)
      (fun x => |x 0| + |x 1|) (1/1000000) 1000000 (1/1000000) (1/10000) (1/1000000) (1/1000000) (1/1000000) rnd (fun _ => rnd) pos fuel none)
      ![7, -3] X Y := by
  have eX : operandSpans X = [exDrop] := by rcases hX with rfl | rfl <;> rfl
  have eY : operandSpans Y = [exDropDown] := by rcases hY with rfl | rfl <;> rfl
  refine C116_library hr (fun _ => hr) (by simp [eX]) (by simp [eY]) (fun c hc => ?_) (fun c hc s => ?_)
  all_goals
    rw [eX, eY] at hc
    simp only [List.cons_append, List.nil_append, List.mem_cons, List.not_mem_nil, or_false] at hc
    rcases hc with rfl | rfl
    exacts [exDrop_shiftable rnd hr, exDropDown_shiftable rnd hr]

end Curvo.Props

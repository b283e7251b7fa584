/-
  C87: the result of a boolean operation on two closed curves that cross is made of closed loops, and these consist of exactly
  the parts of both curves that belong to the boundary of the result.
-/
import Verif.Props.BoolArcs
import Verif.Props.Degeneracy

set_option linter.unusedSectionVars false

namespace Curvo.Props

open Curvo.Knots Curvo.Spec Curvo.Curve Curvo.Compound Curvo.Boolean

variable {K : Type} [Field K] [LinearOrder K] [IsStrictOrderedRing K]
variable {W : Type} [AddCommGroup W] [Module K W]

/-! ### Specification -/

/-- A distance. -/
structure Metric (dist : W → W → K) : Prop where
  self : ∀ x, dist x x = 0
  symm : ∀ x y, dist x y = dist y x
  tri : ∀ x y z, dist x z ≤ dist x y + dist y z

/-- The points on a list of curves. -/
def Trace (eps : K) (spans : List (Curve K (W × K))) (Q : W) : Prop :=
  ∃ c ∈ spans, ∃ t, c.lo ≤ t ∧ t ≤ c.hi ∧ c.pointAt eps t = .ok Q

/-- Consecutive domains from zero on, with small gaps at the joints and between the end and the start. -/
structure ClosedLoop (tol : K) (dist : W → W → K) (out : List (Curve K (W × K))) : Prop where
  ne : out ≠ []
  domains : Consecutive out
  joints : Joined tol dist out
  closed : ∀ c ∈ out.getLast?, ∀ d ∈ out.head?, dist (stopPt c) (startPt d) < tol

/-- Two closed curves (`X true`, `X false`) that cross in places `P`, away from their joints and from each other. -/
structure Crossing (eps teps tol δ : K) (dist : W → W → K) (X : Bool → List (Curve K (W × K))) (its : List (Boolean.Inter K))
    (P : ℕ → W) : Prop where
  circuit : ∀ s, Circuit eps δ dist (X s)
  /-- crossings are inside of spans and off their knots -/
  inner : ∀ s, ∀ i ∈ its, Inner eps teps (X s) (keyOf s i)
  gap : ∀ s, its.Pairwise fun i j => eps ≤ |keyOf s i - keyOf s j|
  /-- both curves pass near the place at their parameter -/
  near : ∀ s k i, its[k]? = some i → ∀ c ∈ X s, c.lo ≤ keyOf s i → keyOf s i ≤ c.hi → ∀ Q, c.pointAt eps (keyOf s i) = .ok Q →
    dist Q (P k) ≤ δ
  hits : ∀ k m, k < its.length → m < its.length → k ≠ m → tol + 2 * δ ≤ dist (P k) (P m)
  hitJoint : ∀ k, k < its.length → ∀ s, ∀ c ∈ X s, tol + 2 * δ ≤ dist (P k) (startPt c)
  joints : ∀ s, ∀ c ∈ X s, ∀ d ∈ X s, c.lo ≠ d.lo → tol + 2 * δ ≤ dist (startPt c) (startPt d)
  others : ∀ c ∈ X true, ∀ d ∈ X false, tol + 2 * δ ≤ dist (startPt c) (startPt d)

/-! ### Traces -/

theorem Moved.trace {eps : K} {c c' : Curve K (W × K)} (h : Fine eps c) (hm : Moved c c') (Q : W) :
    Trace eps [c'] Q ↔ Trace eps [c] Q := by
  have hf := (Moved.ends h hm).1
  obtain ⟨β, rfl⟩ := hm
  have := affine_good h.good (α := 1) (β := β) (le_refl _)
  simp only [one_mul] at this
  obtain ⟨hg, hlo, hhi, he⟩ := this
  have key : ∀ u, c.lo ≤ u → u ≤ c.hi → Curve.pointAt eps { c with knots := c.knots.map fun x => x + β } (u + β) = c.pointAt eps u := by
    intro u a b
    rw [(C09_point_at_positive_weights h.good h.pos a b).1,
      (C09_point_at_positive_weights hf.good hf.pos (by rw [hlo]; linarith) (by rw [hhi]; linarith)).1, he u a b]
  constructor
  · rintro ⟨d, hd, t, a, b, e⟩
    obtain rfl := List.mem_singleton.1 hd
    rw [hlo] at a
    rw [hhi] at b
    refine ⟨c, by simp, t - β, by linarith, by linarith, ?_⟩
    rw [← key _ (by linarith) (by linarith), sub_add_cancel]
    exact e
  · rintro ⟨d, hd, t, a, b, e⟩
    obtain rfl := List.mem_singleton.1 hd
    exact ⟨_, List.mem_singleton.2 rfl, t + β, by rw [hlo]; linarith, by rw [hhi]; linarith, by rw [key t a b]; exact e⟩

theorem Oriented.trace {eps : K} {c c' : Curve K (W × K)} (h : Whole eps c) (ho : Oriented c c') (Q : W) :
    Trace eps [c'] Q ↔ Trace eps [c] Q := by
  rcases ho with rfl | e
  · exact Iff.rfl
  obtain ⟨c'', e', hg, -, hlo, hhi, hp⟩ := C13_invert_reverses h.fine.good h.cont
  rw [e] at e'
  obtain rfl := Except.ok.inj e'
  generalize kf c.knots 0 + kf c.knots (c.knots.length - 1) = m at *
  have key : ∀ u, c.lo ≤ u → u ≤ c.hi → c'.pointAt eps (m - u) = c.pointAt eps u := by
    intro u a b
    rw [Curve.pointAt, hp u a b]; rfl
  constructor
  · rintro ⟨d, hd, t, a, b, q⟩
    obtain rfl := List.mem_singleton.1 hd
    rw [hlo] at a
    rw [hhi] at b
    refine ⟨c, by simp, m - t, by linarith, by linarith, ?_⟩
    rw [← key _ (by linarith) (by linarith), sub_sub_cancel]
    exact q
  · rintro ⟨d, hd, t, a, b, q⟩
    obtain rfl := List.mem_singleton.1 hd
    exact ⟨c', by simp, m - t, by rw [hlo]; linarith, by rw [hhi]; linarith, by rw [key t a b]; exact q⟩

theorem trace_iff {eps : K} {l : List (Curve K (W × K))} {Q : W} : Trace eps l Q ↔ ∃ c ∈ l, Trace eps [c] Q := by
  constructor
  · rintro ⟨c, hc, t, h⟩
    exact ⟨c, hc, c, by simp, t, h⟩
  · rintro ⟨c, hc, d, hd, t, h⟩
    obtain rfl := List.mem_singleton.1 hd
    exact ⟨d, hc, t, h⟩

theorem forall₂_trace {eps : K} {R : Curve K (W × K) → Curve K (W × K) → Prop} {l m : List (Curve K (W × K))}
    (h : List.Forall₂ R l m) (hR : ∀ c ∈ l, ∀ d, R c d → ∀ Q, Trace eps [d] Q ↔ Trace eps [c] Q) (Q : W) :
    Trace eps m Q ↔ Trace eps l Q := by
  rw [trace_iff, trace_iff]
  induction h with
  | nil => rfl
  | @cons c d l m h1 h2 ih =>
    have := ih fun c hc => hR c (List.mem_cons_of_mem _ hc)
    simp only [List.mem_cons, exists_eq_or_imp, this, hR c (by simp) d h1 Q]

theorem perm_trace {eps : K} {l m : List (Curve K (W × K))} (h : l.Perm m) (Q : W) : Trace eps l Q ↔ Trace eps m Q := by
  rw [trace_iff, trace_iff]
  constructor <;> rintro ⟨c, hc, h'⟩
  · exact ⟨c, h.subset hc, h'⟩
  · exact ⟨c, h.symm.subset hc, h'⟩

/-! ### The spans of a piece as edges -/

section edges
variable {eps teps tol δ : K} {dist : W → W → K} {X : Bool → List (Curve K (W × K))} {its : List (Boolean.Inter K)} {P : ℕ → W}

/-- Places: crossings and joints. -/
abbrev Label (K : Type) := ℕ ⊕ (Bool × K)

/-- The place at a parameter of a curve. -/
def labelAt (X : Bool → List (Curve K (W × K))) (its : List (Boolean.Inter K)) (s : Bool) (x : K) : Label K :=
  match its.findIdx? fun i => decide (keyOf s i = x) with
  | some k => .inl k
  | none => .inr (s, if x = hiOf (X s) then loOf (X s) else x)

/-- The position of a place. -/
def labelPos (X : Bool → List (Curve K (W × K))) (P : ℕ → W) : Label K → W
  | .inl k => P k
  | .inr (s, x) => jointAt (X s) x

theorem Crossing.keys_nodup (h : Crossing eps teps tol δ dist X its P) (heps : 0 < eps) (s : Bool) : (its.map (keyOf s)).Nodup := by
  rw [List.Nodup, List.pairwise_map]
  refine (h.gap s).imp fun h' e => ?_
  rw [e, sub_self, abs_zero] at h'
  exact absurd heps (not_lt.2 h')

theorem Crossing.label_hit (h : Crossing eps teps tol δ dist X its P) (heps : 0 < eps) {s : Bool} {k : ℕ} {i : Boolean.Inter K}
    (hk : its[k]? = some i) : labelAt X its s (keyOf s i) = .inl k := by
  rw [labelAt]
  cases hf : its.findIdx? fun j => decide (keyOf s j = keyOf s i) with
  | none =>
    rw [List.findIdx?_eq_none_iff] at hf
    have := hf i (List.mem_of_getElem? hk)
    simp at this
  | some m =>
    obtain ⟨hm, he, -⟩ := List.findIdx?_eq_some_iff_getElem.1 hf
    rw [decide_eq_true_eq] at he
    have hnd := h.keys_nodup heps s
    have h1 : (its.map (keyOf s))[m]? = some (keyOf s i) := by rw [List.getElem?_map, List.getElem?_eq_getElem hm, Option.map_some, he]
    have h2 : (its.map (keyOf s))[k]? = some (keyOf s i) := by rw [List.getElem?_map, hk]; rfl
    have : m = k := (List.getElem?_inj (by simpa using hm) hnd).1 (h1.trans h2.symm)
    rw [this]

theorem label_joint {s : Bool} {x : K} (hx : x ∉ its.map (keyOf s)) :
    labelAt X its s x = .inr (s, if x = hiOf (X s) then loOf (X s) else x) := by
  rw [labelAt]
  have : (its.findIdx? fun j => decide (keyOf s j = x)) = none := by
    rw [List.findIdx?_eq_none_iff]
    intro i hi
    simp only [decide_eq_false_iff_not]
    rintro rfl
    exact hx (List.mem_map.2 ⟨i, hi, rfl⟩)
  rw [this]

theorem Crossing.lo_not_key (h : Crossing eps teps tol δ dist X its P) (hteps : 0 < teps) {s : Bool} {c : Curve K (W × K)}
    (hc : c ∈ X s) : c.lo ∉ its.map (keyOf s) ∧ c.hi ∉ its.map (keyOf s) := by
  have hlt := (h.circuit s).lt
  constructor
  · intro hm
    obtain ⟨i, hi, e⟩ := List.mem_map.1 hm
    have := inner_cases hteps hlt (h.circuit s).chain (h.inner s i hi) c hc
    rw [e] at this
    have hl := hlt c hc
    rcases this with g | g | g
    · exact lt_irrefl _ g
    · linarith [g.1]
    · linarith
  · intro hm
    obtain ⟨i, hi, e⟩ := List.mem_map.1 hm
    obtain ⟨d, hd, hw⟩ := h.inner s i hi
    rw [e] at hw
    have hl := hlt c hc
    have := chain_pairwise hlt (h.circuit s).chain
    obtain ⟨i, hi, rfl⟩ := List.getElem_of_mem hc
    obtain ⟨j, hj, rfl⟩ := List.getElem_of_mem hd
    rw [List.pairwise_iff_getElem] at this
    rcases lt_trichotomy i j with h' | h' | h'
    · have := this i j hi hj h'
      linarith [hw.1]
    · subst h'; linarith [hw.2.1]
    · have := this j i hj hi h'
      linarith [hw.2.1]

/-- The edge of a part of an arc. -/
def partEdge (X : Bool → List (Curve K (W × K))) (its : List (Boolean.Inter K)) (s : Bool)
    (x : (Curve K (W × K) × K × K) × Curve K (W × K)) : Edge K W (Label K) :=
  ⟨x.2, true, labelAt X its s x.1.2.1, labelAt X its s x.1.2.2⟩

/-- A joint inside of the arc of a piece. -/
def JointOf (X : Bool → List (Curve K (W × K))) (p : Piece K) (ℓ : Label K) : Prop :=
  ∃ c ∈ X p.curve, ℓ = .inr (p.curve, c.lo) ∧ covers p.params c.lo = true

/-- The arc of a piece as a list of edges in the direction of the walk. -/
structure EdgesOf (eps δ : K) (dist : W → W → K) (X : Bool → List (Curve K (W × K))) (its : List (Boolean.Inter K)) (P : ℕ → W)
    (p : Piece K) (es : List (Edge K W (Label K))) : Prop where
  ne : es ≠ []
  chain : es.IsChain fun e f => e.dst = f.src
  last : ∀ e ∈ es.getLast?, e.dst = .inl p.dst
  srcs : ∃ J, es.map Edge.src = .inl p.src :: J ∧ J.Nodup ∧ ∀ ℓ ∈ J, JointOf X p ℓ
  whole : ∀ e ∈ es, Whole eps e.curve
  near : ∀ e ∈ es, e.Near dist (labelPos X P) δ

theorem isChain_zip {α β : Type} {R : α → α → Prop} : ∀ {l : List α} {m : List β}, l.IsChain R → (l.zip m).IsChain fun x y => R x.1 y.1
  | [], _, _ => by simp
  | [a], [], _ => by simp
  | [a], b :: m, _ => by simp
  | a :: a' :: l, [], _ => by simp
  | a :: a' :: l, [b], _ => by simp
  | a :: a' :: l, b :: b' :: m, h => by
    rw [List.isChain_cons_cons] at h
    rw [List.zip_cons_cons, List.zip_cons_cons, List.isChain_cons_cons]
    exact ⟨h.1, isChain_zip (l := a' :: l) (m := b' :: m) h.2⟩

theorem Crossing.edges (h : Crossing eps teps tol δ dist X its P) (hd : Metric dist) (hδ : 0 ≤ δ) (heps : 0 < eps) (hteps : 0 < teps)
    {p : Piece K} (hf : p.Fits its) (hne : p.src ≠ p.dst) {ds : List (Curve K (W × K))}
    (hcut : List.Forall₂ (Cut eps) (arcParts (X p.curve) p.params.1 p.params.2) ds) :
    ∃ es, EdgesOf eps δ dist X its P p es ∧ (es.map Edge.curve).Perm ds := by
  obtain ⟨i, j, hi, hj, hpar⟩ := hf
  have hX := h.circuit p.curve
  -- the ends of the arc
  obtain ⟨k0, k1, i0, i1, hk0, hk1, e0, e1, hk⟩ : ∃ k0 k1 i0 i1, its[k0]? = some i0 ∧ its[k1]? = some i1 ∧
      p.params.1 = keyOf p.curve i0 ∧ p.params.2 = keyOf p.curve i1 ∧
      (k0, k1) = (if p.forward then (p.src, p.dst) else (p.dst, p.src)) := by
    cases hfw : p.forward with
    | true =>
      rw [hfw, if_pos rfl] at hpar
      exact ⟨p.src, p.dst, i, j, hi, hj, by rw [hpar], by rw [hpar], by simp⟩
    | false =>
      rw [hfw, if_neg (by simp)] at hpar
      exact ⟨p.dst, p.src, j, i, hj, hi, by rw [hpar], by rw [hpar], by simp⟩
  have hk01 : k0 ≠ k1 := by
    cases hfw : p.forward <;> rw [hfw] at hk <;> simp only [Bool.false_eq_true, if_false, if_true, Prod.mk.injEq] at hk
    · rw [hk.1, hk.2]; exact hne.symm
    · rw [hk.1, hk.2]; exact hne
  have in0 : Inner eps teps (X p.curve) p.params.1 := by rw [e0]; exact h.inner _ _ (List.mem_of_getElem? hk0)
  have in1 : Inner eps teps (X p.curve) p.params.2 := by rw [e1]; exact h.inner _ _ (List.mem_of_getElem? hk1)
  have hpp : p.params.1 ≠ p.params.2 := by
    intro e
    rw [e0, e1] at e
    have a1 : (its.map (keyOf p.curve))[k0]? = some (keyOf p.curve i0) := by rw [List.getElem?_map, hk0]; rfl
    have a2 : (its.map (keyOf p.curve))[k1]? = some (keyOf p.curve i0) := by rw [List.getElem?_map, hk1, e]; rfl
    have hl : k0 < (its.map (keyOf p.curve)).length := by
      rw [List.length_map]
      exact (List.getElem?_eq_some_iff.1 hk0).1
    exact hk01 ((List.getElem?_inj hl (h.keys_nodup heps _)).1 (a1.trans a2.symm))
  obtain ⟨f1, f2, f3, f4, f5, f6⟩ := arc_facts hX (hX.inner_mem hteps in0) (hX.inner_mem hteps in1) hpp
  rw [show (p.params.1, p.params.2) = p.params from rfl] at f6
  have l0 : labelAt X its p.curve p.params.1 = .inl k0 := by rw [e0]; exact h.label_hit heps hk0
  have l1 : labelAt X its p.curve p.params.2 = .inl k1 := by rw [e1]; exact h.label_hit heps hk1
  have llo : ∀ c ∈ X p.curve, labelAt X its p.curve c.lo = .inr (p.curve, c.lo) := by
    intro c hc
    rw [label_joint (h.lo_not_key hteps hc).1, if_neg]
    have := hX.lt c hc
    have := (chain_lo_le hX.lt hX.chain c hc).2
    intro e; linarith
  have lhi : ∀ c ∈ X p.curve, labelAt X its p.curve c.hi = .inr (p.curve, if c.hi = hiOf (X p.curve) then loOf (X p.curve) else c.hi) :=
    fun c hc => label_joint (h.lo_not_key hteps hc).2
  generalize hA : arcParts (X p.curve) p.params.1 p.params.2 = A at *
  -- the edges along the curve
  let es := (A.zip ds).map (partEdge X its p.curve)
  have hlen := hcut.length_eq
  have hmem : ∀ x ∈ A.zip ds, x.1 ∈ A ∧ Cut eps x.1 x.2 := by
    intro x hx
    exact ⟨(List.of_mem_zip (a := x.1) (b := x.2) hx).1, (List.forall₂_iff_zip.1 hcut).2 hx⟩
  have hcurves : es.map Edge.curve = ds := by
    show ((A.zip ds).map (partEdge X its p.curve)).map Edge.curve = ds
    rw [List.map_map]
    have : (Edge.curve ∘ partEdge X its p.curve) = (Prod.snd : (Curve K (W × K) × K × K) × Curve K (W × K) → _) := rfl
    rw [this, List.map_snd_zip (by omega)]
  have hsrcs : es.map Edge.src = A.map fun q => labelAt X its p.curve q.2.1 := by
    show ((A.zip ds).map (partEdge X its p.curve)).map Edge.src = _
    rw [List.map_map]
    have : (Edge.src ∘ partEdge X its p.curve) = (fun q : Curve K (W × K) × K × K => labelAt X its p.curve q.2.1) ∘ Prod.fst := rfl
    rw [this, ← List.map_map, List.map_fst_zip (by omega)]
  have hdsts : es.map Edge.dst = A.map fun q => labelAt X its p.curve q.2.2 := by
    show ((A.zip ds).map (partEdge X its p.curve)).map Edge.dst = _
    rw [List.map_map]
    have : (Edge.dst ∘ partEdge X its p.curve) = (fun q : Curve K (W × K) × K × K => labelAt X its p.curve q.2.2) ∘ Prod.fst := rfl
    rw [this, ← List.map_map, List.map_fst_zip (by omega)]
  have hes : es ≠ [] := by
    intro e
    have := congrArg List.length hsrcs
    rw [e, List.map_nil, List.length_nil, List.length_map] at this
    exact f3 (List.length_eq_zero_iff.1 this.symm)
  have hchain : es.IsChain fun e f => e.dst = f.src := by
    show ((A.zip ds).map (partEdge X its p.curve)).IsChain _
    rw [List.isChain_map]
    refine (isChain_zip f4).imp_of_mem_imp ?_
    intro x y hx hy hxy
    show labelAt X its p.curve x.1.2.2 = labelAt X its p.curve y.1.2.1
    rcases hxy with e | ⟨ex, ey⟩
    · rw [e]
    · obtain ⟨c, hc⟩ : ∃ c, (X p.curve).getLast? = some c := by
        cases hX' : (X p.curve).getLast? with
        | none => exact absurd (List.getLast?_eq_none_iff.1 hX') hX.ne
        | some c => exact ⟨c, rfl⟩
      obtain ⟨d, hd'⟩ : ∃ d, (X p.curve).head? = some d := by
        cases hX' : (X p.curve).head? with
        | none => exact absurd (List.head?_eq_none_iff.1 hX') hX.ne
        | some c => exact ⟨c, rfl⟩
      have hc' : hiOf (X p.curve) = c.hi := by rw [hiOf, hc]
      have hd'' : loOf (X p.curve) = d.lo := by rw [loOf, hd']
      rw [ex, ey, hc', hd'', lhi c (List.mem_of_getLast? hc), llo d (List.mem_of_head? hd'), if_pos hc'.symm, hd'']
  have hwhole : ∀ e ∈ es, Whole eps e.curve := by
    intro e he
    obtain ⟨x, hx, rfl⟩ := List.mem_map.1 he
    exact (hmem x hx).2.2
  have hnear : ∀ e ∈ es, e.Near dist (labelPos X P) δ := by
    intro e he
    obtain ⟨x, hx, rfl⟩ := List.mem_map.1 he
    obtain ⟨hxA, hxc⟩ := hmem x hx
    obtain ⟨g1, g2, g3, g4, g5, g6, g7⟩ := f6 x.1 hxA
    have hw := hX.whole _ g1
    obtain ⟨s1, s2⟩ := hxc.ends hw.fine.good g2 g3 g4
    have hkey : ∀ k i, its[k]? = some i → x.1.1.lo ≤ keyOf p.curve i → keyOf p.curve i ≤ x.1.1.hi →
        dist (spotAt x.1.1 (keyOf p.curve i)) (P k) ≤ δ := fun k i hk a b =>
      h.near p.curve k i hk x.1.1 g1 a b _ (C09_point_at_positive_weights hw.fine.good hw.fine.pos a b).1
    constructor
    · show dist (startPt x.2) (labelPos X P (labelAt X its p.curve x.1.2.1)) ≤ δ
      rw [s1]
      rcases g5 with e | ⟨e, -⟩
      · rw [e, l0, e0]
        exact hkey k0 i0 hk0 (by rw [← e0, ← e]; exact g2) (by rw [← e0, ← e]; exact g3.trans g4)
      · rw [e, llo _ g1]
        show dist (startPt x.1.1) (jointAt (X p.curve) x.1.1.lo) ≤ δ
        rw [hX.jointAt_lo g1, hd.self]
        exact hδ
    · show dist (stopPt x.2) (labelPos X P (labelAt X its p.curve x.1.2.2)) ≤ δ
      rw [s2]
      rcases g6 with e | e
      · rw [e, l1, e1]
        exact hkey k1 i1 hk1 (by rw [← e1, ← e]; exact g2.trans g3) (by rw [← e1, ← e]; exact g4)
      · rw [e, lhi _ g1]
        obtain ⟨d, hd1, hd2, hd3⟩ := hX.next g1
        rw [← hd2]
        show dist (stopPt x.1.1) (jointAt (X p.curve) d.lo) ≤ δ
        rw [hX.jointAt_lo hd1]
        exact hd3
  -- sources and the joints among them
  obtain ⟨a, A', hAA⟩ := List.exists_cons_of_ne_nil f3
  have ha0 : a.2.1 = p.params.1 := f1 a (by rw [hAA]; rfl)
  have hJ : ∀ q ∈ A', q.1 ∈ X p.curve ∧ q.2.1 = q.1.lo ∧ covers p.params q.2.1 = true := by
    intro q hq
    obtain ⟨g1, -, -, -, g5, -⟩ := f6 q (by rw [hAA]; exact List.mem_cons_of_mem _ hq)
    rcases g5 with g5 | g5
    · rw [hAA, List.map_cons, List.nodup_cons] at f5
      exact absurd (List.mem_map.2 ⟨q, hq, by rw [g5, ha0]⟩) f5.1
    · exact ⟨g1, g5⟩
  have hsrc : es.map Edge.src = .inl k0 :: (A'.map fun q => (.inr (p.curve, q.2.1) : Label K)) := by
    rw [hsrcs, hAA, List.map_cons, ha0, l0]
    congr 1
    refine List.map_congr_left fun q hq => ?_
    obtain ⟨g1, g2, -⟩ := hJ q hq
    rw [g2]
    exact llo _ g1
  have hJn : (A'.map fun q => (.inr (p.curve, q.2.1) : Label K)).Nodup := by
    rw [hAA, List.map_cons, List.nodup_cons] at f5
    have := f5.2.map (f := fun x => (.inr (p.curve, x) : Label K)) (fun x y hxy => by simpa using hxy)
    rwa [List.map_map] at this
  have hJm : ∀ ℓ ∈ A'.map fun q => (.inr (p.curve, q.2.1) : Label K), JointOf X p ℓ := by
    intro ℓ hℓ
    obtain ⟨q, hq, rfl⟩ := List.mem_map.1 hℓ
    obtain ⟨g1, g2, g3⟩ := hJ q hq
    exact ⟨q.1, g1, by rw [g2], by rw [← g2]; exact g3⟩
  have hlast : ∀ e ∈ es.getLast?, e.dst = .inl k1 := by
    intro e he
    have h1 : (es.map Edge.dst).getLast? = some e.dst := by rw [List.getLast?_map, he]; rfl
    rw [hdsts, List.getLast?_map] at h1
    obtain ⟨b, hb, hb'⟩ := Option.map_eq_some_iff.1 h1
    rw [← hb', f2 b hb, l1]
  clear_value es
  cases hfw : p.forward with
  | true =>
    rw [hfw] at hk
    simp only [if_true, Prod.mk.injEq] at hk
    refine ⟨es, ⟨hes, hchain, ?_, ⟨_, by rw [← hk.1]; exact hsrc, hJn, hJm⟩, hwhole, hnear⟩, by rw [hcurves]⟩
    intro e he
    rw [hlast e he, hk.2]
  | false =>
    rw [hfw] at hk
    simp only [Bool.false_eq_true, if_false, Prod.mk.injEq] at hk
    refine ⟨es.reverse.map Edge.flip, ⟨by simpa using hes, ?_, ?_, ?_, ?_, ?_⟩, ?_⟩
    · rw [List.isChain_map, List.isChain_reverse]
      exact hchain.imp fun a b h => h.symm
    · intro e he
      simp only [List.getLast?_map, List.getLast?_reverse, Option.mem_def, Option.map_eq_some_iff] at he
      obtain ⟨e', he', rfl⟩ := he
      show e'.src = _
      have h1 : (es.map Edge.src).head? = some e'.src := by rw [List.head?_map, he']; rfl
      rw [hsrc, List.head?_cons] at h1
      rw [← Option.some.inj h1, hk.1]
    · refine ⟨(A'.map fun q => (.inr (p.curve, q.2.1) : Label K)).reverse, ?_, List.nodup_reverse.2 hJn,
        fun ℓ hℓ => hJm ℓ (List.mem_reverse.1 hℓ)⟩
      have e1 : (es.reverse.map Edge.flip).map Edge.src = (es.map Edge.dst).reverse := by
        rw [List.map_map, ← List.map_reverse]
        rfl
      obtain ⟨e, es', hee⟩ := List.exists_cons_of_ne_nil hes
      have e2 : es.map Edge.dst = es'.map Edge.src ++ [.inl k1] := by
        have := chain_dst es' e (by rw [← hee]; exact hchain)
        rw [hee, this]
        congr 2
        refine hlast _ ?_
        rw [Option.mem_def, hee]
        exact List.getLast?_eq_some_getLast _
      have e3 : es'.map Edge.src = A'.map fun q => (.inr (p.curve, q.2.1) : Label K) := by
        rw [hee, List.map_cons] at hsrc
        exact (List.cons.inj hsrc).2
      rw [e1, e2, e3, List.reverse_append, hk.2]
      rfl
    · intro e he
      obtain ⟨e', he', rfl⟩ := List.mem_map.1 he
      exact hwhole e' (List.mem_reverse.1 he')
    · intro e he
      obtain ⟨e', he', rfl⟩ := List.mem_map.1 he
      exact Edge.flip_near (hnear e' (List.mem_reverse.1 he'))
    · rw [List.map_map]
      show (es.reverse.map Edge.curve).Perm ds
      rw [List.map_reverse, hcurves]
      exact List.reverse_perm _

/-! ### A loop of pieces -/

theorem Crossing.params (h : Crossing eps teps tol δ dist X its P) {p : Piece K} (hf : p.Fits its) (hne : p.src ≠ p.dst) :
    Inner eps teps (X p.curve) p.params.1 ∧ Inner eps teps (X p.curve) p.params.2 ∧
      (p.params.1 + eps ≤ p.params.2 ∨ p.params.2 + eps ≤ p.params.1) := by
  obtain ⟨i, j, hi, hj, hpar⟩ := hf
  have hgap : eps ≤ |keyOf p.curve i - keyOf p.curve j| := by
    obtain ⟨hi', rfl⟩ := List.getElem?_eq_some_iff.1 hi
    obtain ⟨hj', rfl⟩ := List.getElem?_eq_some_iff.1 hj
    have := List.pairwise_iff_getElem.1 (h.gap p.curve)
    rcases lt_or_gt_of_ne hne with h' | h'
    · exact this _ _ hi' hj' h'
    · rw [abs_sub_comm]
      exact this _ _ hj' hi' h'
  have hi' := h.inner p.curve i (List.mem_of_getElem? hi)
  have hj' := h.inner p.curve j (List.mem_of_getElem? hj)
  rw [hpar]
  rw [le_abs] at hgap
  cases p.forward
  · simp only [Bool.false_eq_true, if_false]
    refine ⟨hj', hi', ?_⟩
    rcases hgap with g | g
    · left; linarith
    · right; linarith
  · simp only [if_true]
    refine ⟨hi', hj', ?_⟩
    rcases hgap with g | g
    · right; linarith
    · left; linarith

theorem pairwise_of_count {α : Type} {f : α → Bool} : ∀ {l : List α}, (l.filter f).length ≤ 1 →
    l.Pairwise fun a b => ¬ (f a = true ∧ f b = true)
  | [], _ => .nil
  | a :: l, h => by
    rw [List.pairwise_cons]
    by_cases ha : f a = true
    · rw [List.filter_cons_of_pos ha, List.length_cons] at h
      have h0 : l.filter f = [] := List.length_eq_zero_iff.1 (by omega)
      rw [List.filter_eq_nil_iff] at h0
      refine ⟨fun b hb hab => h0 b hb hab.2, pairwise_of_count (by rw [List.filter_eq_nil_iff.2 h0]; simp)⟩
    · rw [List.filter_cons_of_neg ha] at h
      exact ⟨fun b _ hab => ha hab.1, pairwise_of_count h⟩

theorem forall₂_pairwise {α β : Type} {R : α → β → Prop} {D : α → α → Prop} {E : β → β → Prop}
    (hDE : ∀ a b x y, R a x → R b y → D a b → E x y) : ∀ {l : List α} {m : List β}, List.Forall₂ R l m → l.Pairwise D → m.Pairwise E
  | [], [], _, _ => .nil
  | a :: l, x :: m, .cons h1 h2, h => by
    rw [List.pairwise_cons] at h ⊢
    refine ⟨?_, forall₂_pairwise hDE h2 h.2⟩
    intro y hy
    obtain ⟨b, hb, hby⟩ := forall₂_mem_right h2 hy
    exact hDE a b x y h1 hby (h.1 b hb)

/-- The spans and the edges of a list of pieces. -/
theorem Crossing.collect (h : Crossing eps teps tol δ dist X its P) (hd : Metric dist) (hδ : 0 ≤ δ) (heps : 0 < eps)
    (hteps : 0 < teps) {trim : Bool → K × K → Res (List (Curve K (W × K)))}
    (htrim : ∀ s t0 t1, Inner eps teps (X s) t0 → Inner eps teps (X s) t1 → (t0 + eps ≤ t1 ∨ t1 + eps ≤ t0) →
      ∃ ds ds', trim s (t0, t1) = .ok ds ∧ ds.Perm ds' ∧ List.Forall₂ (Cut eps) (arcParts (X s) t0 t1) ds') :
    ∀ {lp : List (Piece K)}, (∀ p ∈ lp, p.Fits its ∧ p.src ≠ p.dst) →
    ∃ dss ess, (lp.mapM fun p => trim p.curve p.params) = .ok dss ∧ List.Forall₂ (EdgesOf eps δ dist X its P) lp ess ∧
      (ess.flatten.map Edge.curve).Perm dss.flatten ∧
      ∀ Q, Trace eps dss.flatten Q ↔ ∃ p ∈ lp, ∃ q ∈ arcParts (X p.curve) p.params.1 p.params.2, ∃ t, q.2.1 ≤ t ∧ t ≤ q.2.2 ∧
        q.1.pointAt eps t = .ok Q
  | [], _ => ⟨[], [], rfl, .nil, .refl _, by simp [Trace]⟩
  | p :: lp, hp => by
    obtain ⟨dss, ess, h1, h2, h3, h4⟩ := Crossing.collect h hd hδ heps hteps htrim (lp := lp) fun q hq => hp q (List.mem_cons_of_mem _ hq)
    obtain ⟨hf, hne⟩ := hp p (by simp)
    obtain ⟨i0, i1, hg⟩ := h.params hf hne
    obtain ⟨ds, ds', t1, t2, t3⟩ := htrim p.curve p.params.1 p.params.2 i0 i1 hg
    obtain ⟨es, e1, e2⟩ := h.edges hd hδ heps hteps hf hne t3
    have htr : ∀ Q, Trace eps ds Q ↔ ∃ q ∈ arcParts (X p.curve) p.params.1 p.params.2, ∃ t, q.2.1 ≤ t ∧ t ≤ q.2.2 ∧
        q.1.pointAt eps t = .ok Q := by
      intro Q
      rw [perm_trace t2]
      constructor
      · rintro ⟨d, hd, t, a, b, e⟩
        obtain ⟨q, hq, hqd⟩ := forall₂_mem_right t3 hd
        rw [hqd.1.lo] at a
        rw [hqd.1.hi] at b
        refine ⟨q, hq, t, a, b, ?_⟩
        rw [Curve.pointAt, ← hqd.1.same t a b]
        exact e
      · rintro ⟨q, hq, t, a, b, e⟩
        obtain ⟨d, hd, hqd⟩ := forall₂_mem t3 hq
        refine ⟨d, hd, t, by rw [hqd.1.lo]; exact a, by rw [hqd.1.hi]; exact b, ?_⟩
        rw [Curve.pointAt, hqd.1.same t a b]
        exact e
    refine ⟨ds :: dss, es :: ess, ?_, .cons e1 h2, ?_, ?_⟩
    · rw [List.mapM_cons, show trim p.curve p.params = .ok ds from t1, ok_bind, h1]; rfl
    · rw [List.flatten_cons, List.flatten_cons, List.map_append]
      exact (e2.trans t2.symm).append h3
    · intro Q
      rw [List.flatten_cons]
      have : Trace eps (ds ++ dss.flatten) Q ↔ Trace eps ds Q ∨ Trace eps dss.flatten Q := by
        simp only [Trace, List.mem_append, or_and_right, exists_or]
      rw [this, htr, h4]
      simp only [List.mem_cons, exists_eq_or_imp]

theorem edges_chain : ∀ {lp : List (Piece K)} {ess : List (List (Edge K W (Label K)))},
    List.Forall₂ (EdgesOf eps δ dist X its P) lp ess → lp.IsChain (fun p q => p.dst = q.src) →
    ess.flatten.IsChain (fun e f => e.dst = f.src) ∧ (∀ p ∈ lp.head?, ∀ e ∈ ess.flatten.head?, e.src = .inl p.src) ∧
      (∀ p ∈ lp.getLast?, ∀ e ∈ ess.flatten.getLast?, e.dst = .inl p.dst)
  | [], [], _, _ => by simp
  | p :: lp, es :: ess, .cons h1 h2, hc => by
    have hc' := List.isChain_cons.1 hc
    obtain ⟨g1, g2, g3⟩ := edges_chain h2 hc'.2
    have hhead : ∀ e ∈ es.head?, e.src = .inl p.src := by
      intro e he
      obtain ⟨J, hJ, -⟩ := h1.srcs
      have : (es.map Edge.src).head? = some e.src := by rw [List.head?_map, he]; rfl
      rw [hJ, List.head?_cons] at this
      exact (Option.some.inj this).symm
    rw [List.flatten_cons]
    refine ⟨?_, ?_, ?_⟩
    · rw [List.isChain_append]
      refine ⟨h1.chain, g1, ?_⟩
      intro e he f hf
      cases lp with
      | nil => cases h2; simp at hf
      | cons q lp =>
        rw [h1.last e he, g2 q rfl f hf, hc'.1 q rfl]
    · intro q hq e he
      obtain rfl := Option.some.inj hq
      rw [List.head?_append_of_ne_nil _ h1.ne] at he
      exact hhead e he
    · intro q hq e he
      cases lp with
      | nil =>
        cases h2
        rw [List.flatten_nil, List.append_nil] at he
        obtain rfl := Option.some.inj hq
        exact h1.last e he
      | cons q' lp =>
        have hne : ess.flatten ≠ [] := by
          cases h2 with
          | cons h3 _ => simp [h3.ne]
        rw [List.getLast?_append_of_ne_nil _ hne] at he
        exact g3 q (by simpa using hq) e he

theorem Crossing.loop (h : Crossing eps teps tol δ dist X its P) (hd : Metric dist) (hδ : 0 ≤ δ) (htol : 2 * δ < tol) (heps : 0 < eps)
    (hteps : 0 < teps) {trim : Bool → K × K → Res (List (Curve K (W × K)))}
    (htrim : ∀ s t0 t1, Inner eps teps (X s) t0 → Inner eps teps (X s) t1 → (t0 + eps ≤ t1 ∨ t1 + eps ≤ t0) →
      ∃ ds ds', trim s (t0, t1) = .ok ds ∧ ds.Perm ds' ∧ List.Forall₂ (Cut eps) (arcParts (X s) t0 t1) ds')
    {lp : List (Piece K)} (hne : lp ≠ []) (hl : Linked lp) (hf : ∀ p ∈ lp, p.Fits its)
    (hn : (lp.flatMap fun p => [(p.curve, p.src), (p.curve, p.dst)]).Nodup)
    (hc : ∀ (s : Bool) (t : K), t ∉ its.map (keyOf s) → (lp.filter fun p => (p.curve == s) && covers p.params t).length ≤ 1) :
    ∃ out, pieceRegion trim (Compound.new eps tol dist) lp = .ok (some ⟨out, []⟩) ∧ ClosedLoop tol dist out ∧
      ∀ Q, Trace eps out Q ↔ ∃ p ∈ lp, ∃ q ∈ arcParts (X p.curve) p.params.1 p.params.2, ∃ t, q.2.1 ≤ t ∧ t ≤ q.2.2 ∧
        q.1.pointAt eps t = .ok Q := by
  rw [List.nodup_flatMap] at hn
  obtain ⟨hn1, hn2⟩ := hn
  have hsd : ∀ p ∈ lp, p.src ≠ p.dst := by
    intro p hp e
    have := hn1 p hp
    simp [e] at this
  obtain ⟨dss, ess, h1, h2, h3, h4⟩ := h.collect hd hδ heps hteps htrim (lp := lp) fun p hp => ⟨hf p hp, hsd p hp⟩
  have hlen0 : 0 < lp.length := List.length_pos_iff.2 hne
  have hlen : 2 ≤ lp.length := by
    by_contra hlt
    have h1 : lp.length = 1 := by omega
    have g := List.getElem?_eq_getElem hlen0
    have := (hl 0 lp[0] lp[0] g (by rw [h1]; exact g)).2
    cases hc : lp[0].curve <;> rw [hc] at this <;> cases this
  have hchain : lp.IsChain fun p q => p.dst = q.src := by
    rw [List.isChain_iff_getElem]
    intro i hi
    refine (hl i _ _ (List.getElem?_eq_getElem (by omega)) ?_).1
    rw [Nat.mod_eq_of_lt hi]
    exact List.getElem?_eq_getElem hi
  have hclose : ∀ p ∈ lp.getLast?, ∀ q ∈ lp.head?, p.dst = q.src := by
    intro p hp q hq
    refine (hl (lp.length - 1) p q ?_ ?_).1
    · rw [← List.getLast?_eq_getElem?]; exact hp
    · rw [Nat.sub_add_cancel hlen0, Nat.mod_self, ← List.head?_eq_getElem?]; exact hq
  obtain ⟨c1, c2, c3⟩ := edges_chain h2 hchain
  have hring : Ring ess.flatten := by
    refine ⟨c1, ?_⟩
    intro e he f hf
    obtain ⟨p, hp⟩ : ∃ p, lp.getLast? = some p := ⟨_, List.getLast?_eq_some_getLast hne⟩
    obtain ⟨q, hq⟩ : ∃ q, lp.head? = some q := ⟨_, List.head?_eq_some_head hne⟩
    rw [c3 p hp e he, c2 q hq f hf, hclose p hp q hq]
  have hcyc : 2 ≤ ess.flatten.length := by
    rcases lp with - | ⟨p, - | ⟨q, lp⟩⟩
    · simp at hlen
    · simp at hlen
    · cases h2 with
      | cons a1 a2 =>
        cases a2 with
        | cons b1 b2 =>
          have := List.length_pos_iff.2 a1.ne
          have := List.length_pos_iff.2 b1.ne
          simp only [List.flatten_cons, List.length_append]
          omega
  -- no place twice
  have hsrc : lp.Pairwise fun p q => p.src ≠ q.src := by
    rw [List.pairwise_iff_getElem] at hn2 ⊢
    intro i j hi hj hij e
    have hdis := hn2 i j hi hj hij
    by_cases hcv : lp[i].curve = lp[j].curve
    · exact hdis (a := (lp[i].curve, lp[i].src)) (by simp) (by rw [hcv, e]; simp)
    · -- the piece before arrives at the same place on the other curve
      obtain ⟨k, hk, hki⟩ : ∃ k, k < lp.length ∧ (k + 1) % lp.length = i := by
        by_cases h0 : i = 0
        · exact ⟨lp.length - 1, by omega, by rw [Nat.sub_add_cancel hlen0, Nat.mod_self, h0]⟩
        · exact ⟨i - 1, by omega, by rw [Nat.sub_add_cancel (by omega), Nat.mod_eq_of_lt hi]⟩
      obtain ⟨g1, g2⟩ := hl k lp[k] lp[i] (List.getElem?_eq_getElem hk) (by rw [hki]; exact List.getElem?_eq_getElem hi)
      have g3 : lp[k].curve = lp[j].curve := by
        cases hx : lp[i].curve <;> cases hy : lp[j].curve <;> cases hz : lp[k].curve <;> simp_all
      have heq : (lp[k].curve, lp[k].dst) = (lp[j].curve, lp[j].src) := by rw [g3, g1, e]
      rcases lt_trichotomy k j with hkj | rfl | hkj
      · exact hn2 k j hk hj hkj (a := (lp[k].curve, lp[k].dst)) (by simp) (by rw [heq]; simp)
      · have := hsd lp[k] (List.getElem_mem _)
        exact this (Prod.mk.inj heq).2.symm
      · exact hn2 j k hj hk hkj (a := (lp[k].curve, lp[k].dst)) (by rw [heq]; simp) (by simp)
  have hjoint : lp.Pairwise fun p q => ∀ ℓ, JointOf X p ℓ → JointOf X q ℓ → False := by
    rw [List.pairwise_iff_getElem]
    rintro i j hi hj hij ℓ ⟨c, hcm, e1, k1⟩ ⟨d, hdm, e2, k2⟩
    rw [e1] at e2
    obtain ⟨g1, g2⟩ := Prod.mk.inj (Sum.inr.inj e2)
    have := pairwise_of_count (hc lp[i].curve c.lo (h.lo_not_key hteps hcm).1)
    rw [List.pairwise_iff_getElem] at this
    refine this i j hi hj hij ⟨by simp [k1], ?_⟩
    rw [← g1, g2, k2]
    simp
  have hnodup : (ess.flatten.map Edge.src).Nodup := by
    rw [List.map_flatten, List.nodup_flatten]
    have hss : List.Forall₂ (fun p (S : List (Label K)) => ∃ J, S = .inl p.src :: J ∧ J.Nodup ∧ ∀ ℓ ∈ J, JointOf X p ℓ) lp
        (ess.map (List.map Edge.src)) := by
      rw [List.forall₂_map_right_iff]
      exact h2.imp fun p es he => he.srcs
    constructor
    · intro S hS
      obtain ⟨p, -, J, rfl, hJ1, hJ2⟩ := forall₂_mem_right hss hS
      rw [List.nodup_cons]
      refine ⟨fun hm => ?_, hJ1⟩
      obtain ⟨c, -, e, -⟩ := hJ2 _ hm
      cases e
    · refine forall₂_pairwise ?_ hss (hsrc.and hjoint)
      rintro p q S T ⟨J, rfl, -, hJ⟩ ⟨J', rfl, -, hJ'⟩ ⟨d1, d2⟩ ℓ hS hT
      rcases List.mem_cons.1 hS with rfl | hS
      · rcases List.mem_cons.1 hT with e | hT
        · exact d1 (Sum.inl.inj e)
        · obtain ⟨c, -, e, -⟩ := hJ' _ hT
          cases e
      · rcases List.mem_cons.1 hT with rfl | hT
        · obtain ⟨c, -, e, -⟩ := hJ _ hS
          cases e
        · exact d2 ℓ (hJ _ hS) (hJ' _ hT)
  -- all places are crossings or joints
  have hplace : ∀ ℓ ∈ ess.flatten.map Edge.src, (∃ k, k < its.length ∧ ℓ = .inl k) ∨ ∃ s, ∃ c ∈ X s, ℓ = .inr (s, c.lo) := by
    intro ℓ hℓ
    rw [List.map_flatten] at hℓ
    obtain ⟨S, hS, hℓ⟩ := List.mem_flatten.1 hℓ
    obtain ⟨es, hes, rfl⟩ := List.mem_map.1 hS
    obtain ⟨p, hp, hpe⟩ := forall₂_mem_right h2 hes
    obtain ⟨J, hJ, -, hJ2⟩ := hpe.srcs
    rw [hJ] at hℓ
    rcases List.mem_cons.1 hℓ with rfl | hℓ
    · obtain ⟨u, v, hu, -⟩ := hf p hp
      exact .inl ⟨p.src, (List.getElem?_eq_some_iff.1 hu).1, rfl⟩
    · obtain ⟨c, hc, e, -⟩ := hJ2 ℓ hℓ
      exact .inr ⟨p.curve, c, hc, e⟩
  have hjpos : ∀ s, ∀ c ∈ X s, labelPos X P (.inr (s, c.lo)) = startPt c := fun s c hc => (h.circuit s).jointAt_lo hc
  have hsep : ∀ ℓ ∈ ess.flatten.map Edge.src, ∀ m ∈ ess.flatten.map Edge.src, ℓ ≠ m →
      tol + 2 * δ ≤ dist (labelPos X P ℓ) (labelPos X P m) := by
    intro ℓ hℓ m hm hlm
    rcases hplace ℓ hℓ with ⟨k, hk, rfl⟩ | ⟨s, c, hcs, rfl⟩
    · rcases hplace m hm with ⟨k', hk', rfl⟩ | ⟨s', c', hcs', rfl⟩
      · exact h.hits k k' hk hk' fun e => hlm (by rw [e])
      · rw [hjpos _ _ hcs']
        exact h.hitJoint k hk s' c' hcs'
    · rcases hplace m hm with ⟨k', hk', rfl⟩ | ⟨s', c', hcs', rfl⟩
      · rw [hjpos _ _ hcs, hd.symm]
        exact h.hitJoint k' hk' s c hcs
      · rw [hjpos _ _ hcs, hjpos _ _ hcs']
        by_cases hss : s = s'
        · subst hss
          exact h.joints s c hcs c' hcs' fun e => hlm (by rw [e])
        · cases s <;> cases s'
          · exact absurd rfl hss
          · rw [hd.symm]; exact h.others c' hcs' c hcs
          · exact h.others c hcs c' hcs'
          · exact absurd rfl hss
  have hw : ∀ e ∈ ess.flatten, Whole eps e.curve ∧ e.Near dist (labelPos X P) δ := by
    intro e he
    obtain ⟨es, hes, he⟩ := List.mem_flatten.1 he
    obtain ⟨p, hp, hpe⟩ := forall₂_mem_right h2 hes
    exact ⟨hpe.whole e he, hpe.near e he⟩
  obtain ⟨out, used, used', o1, o2, o3, o4, o5, o6, o7⟩ := ring_new (eps := eps) hd.symm hd.tri htol hring hcyc hnodup (fun e he => (hw e he).1)
    (fun e he => (hw e he).2) hsep h3.symm
  have hused : ∀ c ∈ used, Whole eps c := by
    intro c hc
    obtain ⟨e, he, rfl⟩ := List.mem_map.1 (h3.symm.subset (o2.subset hc))
    exact (hw e he).1
  have hdl : 2 ≤ dss.flatten.length := by
    have := h3.length_eq
    rw [List.length_map] at this
    omega
  refine ⟨out, ?_, ⟨?_, o5, o6, o7⟩, ?_⟩
  · rw [pieceRegion, h1, ok_bind, if_neg (by
      rw [List.isEmpty_iff]
      intro e
      rw [e] at hdl
      simp at hdl), o1, ok_bind]
    rfl
  · rintro rfl
    have e1 := o4.length_eq
    have e2 := o3.length_eq
    have e3 := o2.length_eq
    simp only [List.length_nil] at e1
    omega
  · intro Q
    rw [← h4 Q, ← perm_trace o2 Q, ← forall₂_trace o3 (fun c hc d hcd Q => Oriented.trace (hused c hc) hcd Q) Q]
    refine forall₂_trace o4 (fun c hc d hcd Q => Moved.trace ?_ hcd Q) Q
    obtain ⟨c', hc', hcc⟩ := forall₂_mem_right o3 hc
    exact (Oriented.ends (hused c' hc').fine (hused c' hc').cont hcc).1

/-! ### All loops -/

/-- `clip` for crossing curves: closed loops which consist of the wanted parts of both curves. -/
theorem Crossing.clip (h : Crossing eps teps tol δ dist X its P) (hd : Metric dist) (hδ : 0 ≤ δ) (htol : 2 * δ < tol) (heps : 0 < eps)
    (hteps : 0 < teps) {trim : Bool → K × K → Res (List (Curve K (W × K)))}
    (htrim : ∀ s t0 t1, Inner eps teps (X s) t0 → Inner eps teps (X s) t1 → (t0 + eps ≤ t1 ∨ t1 + eps ≤ t0) →
      ∃ ds ds', trim s (t0, t1) = .ok ds ∧ ds.Perm ds' ∧ List.Forall₂ (Cut eps) (arcParts (X s) t0 t1) ds')
    {deg : Boolean.Inter K → Degeneracy K} {its0 : List (Boolean.Inter K)} (hsel : select deg its0 = .ok its) (hn : its ≠ [])
    (op : Op) (ccs scc : Bool) (subject other : List (Curve K (W × K))) :
    ∃ rs, Boolean.clip deg (.ok ccs) (.ok scc) trim (Compound.new eps tol dist) subject other op its0 = .ok rs ∧
      (∀ r ∈ rs, r.interiors = [] ∧ ClosedLoop tol dist r.exterior) ∧
      ∀ Q, Trace eps (rs.flatMap fun r => r.exterior) Q ↔ ∃ s, ∃ c ∈ X s, ∃ t, c.lo ≤ t ∧ t ≤ c.hi ∧ c.pointAt eps t = .ok Q ∧
        (t ∈ its.map (keyOf s) ∨ insideAt (if s then ccs else scc) (its.map (keyOf s)) t = wantsInside op s) := by
  obtain ⟨lps, w1, w2, w3, w4⟩ := C39_walk (ccs := ccs) (scc := scc) trim (Compound.new eps tol dist) subject other op hsel hn
  have w4' := fun s t (ht : t ∉ its.map (keyOf s)) => w4 s t (h.keys_nodup heps s) ht
  have hnd : (lps.flatten.flatMap fun p => [(p.curve, p.src), (p.curve, p.dst)]).Nodup := w3.nodup_iff.2 (allNodes_nodup _)
  have hsub : ∀ lp ∈ lps, lp.Sublist lps.flatten := fun lp hlp => List.sublist_flatten_of_mem hlp
  have hloop : ∀ lp ∈ lps, ∃ out, pieceRegion trim (Compound.new eps tol dist) lp = .ok (some ⟨out, []⟩) ∧ ClosedLoop tol dist out ∧
      ∀ Q, Trace eps out Q ↔ ∃ p ∈ lp, ∃ q ∈ arcParts (X p.curve) p.params.1 p.params.2, ∃ t, q.2.1 ≤ t ∧ t ≤ q.2.2 ∧
        q.1.pointAt eps t = .ok Q := by
    intro lp hlp
    obtain ⟨a1, a2, a3⟩ := w2 lp hlp
    refine h.loop hd hδ htol heps hteps htrim a1 a2 a3 (hnd.sublist ((hsub lp hlp).flatMap _)) ?_
    intro s t ht
    refine (((hsub lp hlp).filter _).length_le).trans ?_
    rw [w4' s t ht]
    have hone : ∀ (q : Prop) [Decidable q], (if q then 1 else 0) ≤ 1 := by intro q _; by_cases hq : q <;> simp [hq]
    exact hone _
  have hall : ∀ {l : List (List (Piece K))}, (∀ lp ∈ l, lp ∈ lps) → ∃ outs : List (List (Curve K (W × K))),
      l.mapM (pieceRegion trim (Compound.new eps tol dist)) = .ok (outs.map fun o => some ⟨o, []⟩) ∧ (∀ o ∈ outs, ClosedLoop tol dist o) ∧
      ∀ Q, Trace eps outs.flatten Q ↔ ∃ p ∈ l.flatten, ∃ q ∈ arcParts (X p.curve) p.params.1 p.params.2, ∃ t, q.2.1 ≤ t ∧ t ≤ q.2.2 ∧
        q.1.pointAt eps t = .ok Q := by
    intro l
    induction l with
    | nil => intro _; exact ⟨[], rfl, by simp, by simp [Trace]⟩
    | cons lp l ih =>
      intro hl
      obtain ⟨out, o1, o2, o3⟩ := hloop lp (hl lp (by simp))
      obtain ⟨outs, p1, p2, p3⟩ := ih fun x hx => hl x (List.mem_cons_of_mem _ hx)
      refine ⟨out :: outs, ?_, ?_, ?_⟩
      · rw [List.mapM_cons, o1, ok_bind, p1]; rfl
      · intro o ho
        rcases List.mem_cons.1 ho with rfl | ho
        · exact o2
        · exact p2 o ho
      · intro Q
        have : Trace eps (out :: outs).flatten Q ↔ Trace eps out Q ∨ Trace eps outs.flatten Q := by
          simp only [Trace, List.flatten_cons, List.mem_append, or_and_right, exists_or]
        rw [this, o3, p3]
        simp only [List.flatten_cons, List.mem_append, or_and_right, exists_or]
  obtain ⟨outs, p1, p2, p3⟩ := hall (l := lps) fun _ h => h
  have hrs : ((outs.map fun o => some (⟨o, []⟩ : Region (List (Curve K (W × K))))).map Option.toList).flatten =
      outs.map fun o => ⟨o, []⟩ := by
    clear p1 p2 p3
    induction outs with
    | nil => rfl
    | cons o outs ih => rw [List.map_cons, List.map_cons, List.flatten_cons, ih]; rfl
  refine ⟨outs.map fun o => ⟨o, []⟩, ?_, ?_, ?_⟩
  · rw [w1, p1]
    show Except.ok _ = _
    rw [hrs]
  · intro r hr
    obtain ⟨o, ho, rfl⟩ := List.mem_map.1 hr
    exact ⟨rfl, p2 o ho⟩
  · intro Q
    have e1 : (outs.map fun o => (⟨o, []⟩ : Region (List (Curve K (W × K))))).flatMap (fun r => r.exterior) = outs.flatten := by
      rw [List.flatMap_map]
      simp [List.flatMap_def]
    rw [e1, p3]
    have hpiece : ∀ p ∈ lps.flatten, p.Fits its ∧ p.src ≠ p.dst := by
      intro p hp
      obtain ⟨lp, hlp, hpl⟩ := List.mem_flatten.1 hp
      refine ⟨(w2 lp hlp).2.2 p hpl, fun e => ?_⟩
      have := (List.nodup_flatMap.1 hnd).1 p hp
      simp [e] at this
    constructor
    · rintro ⟨p, hp, q, hq, t, a, b, e⟩
      obtain ⟨f1, f2⟩ := hpiece p hp
      obtain ⟨i0, i1, hg⟩ := h.params f1 f2
      have hX := h.circuit p.curve
      have hne : p.params.1 ≠ p.params.2 := by intro e; rw [e] at hg; rcases hg with g | g <;> linarith
      obtain ⟨-, -, -, -, -, g⟩ := arc_facts hX (hX.inner_mem hteps i0) (hX.inner_mem hteps i1) hne
      obtain ⟨g1, g2, g3, g4, -, -, g7⟩ := g q hq
      refine ⟨p.curve, q.1, g1, t, g2.trans a, b.trans g4, e, ?_⟩
      by_cases hk : t ∈ its.map (keyOf p.curve)
      · exact .inl hk
      right
      have hkeys : p.params.1 ∈ its.map (keyOf p.curve) ∧ p.params.2 ∈ its.map (keyOf p.curve) := by
        obtain ⟨u, v, hu, hv, hpar⟩ := f1
        have hu' := List.mem_map_of_mem (f := keyOf p.curve) (List.mem_of_getElem? hu)
        have hv' := List.mem_map_of_mem (f := keyOf p.curve) (List.mem_of_getElem? hv)
        rw [hpar]
        cases p.forward
        · exact ⟨hv', hu'⟩
        · exact ⟨hu', hv'⟩
      rcases g7 t a b with rfl | rfl | hcov
      · exact absurd hkeys.1 hk
      · exact absurd hkeys.2 hk
      · by_contra hw
        have := w4' p.curve t hk
        rw [if_neg hw, List.length_eq_zero_iff, List.filter_eq_nil_iff] at this
        exact this p hp (by simpa using hcov)
    · rintro ⟨s, c, hc, t, a, b, e, ht⟩
      have finish : ∀ p ∈ lps.flatten, p.curve = s → (t = p.params.1 ∨ t = p.params.2 ∨ covers p.params t = true) →
          ∃ p ∈ lps.flatten, ∃ q ∈ arcParts (X p.curve) p.params.1 p.params.2, ∃ t, q.2.1 ≤ t ∧ t ≤ q.2.2 ∧ q.1.pointAt eps t = .ok Q := by
        rintro p hp rfl hcov
        obtain ⟨f1, f2⟩ := hpiece p hp
        obtain ⟨i0, i1, hg⟩ := h.params f1 f2
        have hne : p.params.1 ≠ p.params.2 := by intro e; rw [e] at hg; rcases hg with g | g <;> linarith
        obtain ⟨q, hq, rfl, q1, q2⟩ := arc_covered (h.circuit p.curve) hteps i0 i1 hne hc a b hcov
        exact ⟨p, hp, q, hq, t, q1, q2, e⟩
      by_cases hk : t ∈ its.map (keyOf s)
      · obtain ⟨i, hi, rfl⟩ := List.mem_map.1 hk
        obtain ⟨k, hk', rfl⟩ := List.getElem_of_mem hi
        have hm : (s, k) ∈ allNodes its.length := (mem_allNodes).2 hk'
        obtain ⟨p, hp, hpk⟩ := List.mem_flatMap.1 (w3.symm.subset hm)
        have hps : p.curve = s ∧ (p.src = k ∨ p.dst = k) := by
          simp only [List.mem_cons, Prod.mk.injEq, List.not_mem_nil, or_false] at hpk
          rcases hpk with ⟨g1, g2⟩ | ⟨g1, g2⟩
          · exact ⟨g1.symm, .inl g2.symm⟩
          · exact ⟨g1.symm, .inr g2.symm⟩
        refine finish p hp hps.1 ?_
        obtain ⟨⟨u, v, hu, hv, hpar⟩, -⟩ := hpiece p hp
        have hkk : its[k]? = some its[k] := List.getElem?_eq_getElem hk'
        rw [hpar, hps.1]
        rcases hps.2 with rfl | rfl
        · rw [hkk] at hu
          obtain rfl := Option.some.inj hu
          cases p.forward
          · exact .inr (.inl rfl)
          · exact .inl rfl
        · rw [hkk] at hv
          obtain rfl := Option.some.inj hv
          cases p.forward
          · exact .inl rfl
          · exact .inr (.inl rfl)
      · have hw := ht.resolve_left hk
        have := w4' s t hk
        rw [if_pos hw] at this
        obtain ⟨p, hp⟩ := List.exists_mem_of_length_pos (by rw [this]; exact one_pos)
        rw [List.mem_filter, Bool.and_eq_true, beq_iff_eq] at hp
        exact finish p hp.1 hp.2.1 (.inr (.inr hp.2.2))

end edges

/-! ### Inside and outside -/

/-- A two-valued function on `[lo, hi]` that changes exactly at the parameters of a list. -/
structure Flips (lo hi : K) (ts : List K) (I : K → Bool) : Prop where
  const : ∀ t t', lo ≤ t → t ≤ t' → t' ≤ hi → (∀ k ∈ ts, ¬ (t ≤ k ∧ k ≤ t')) → I t' = I t
  flip : ∀ k ∈ ts, ∀ t t', lo ≤ t → t < k → k < t' → t' ≤ hi → (∀ x ∈ ts, t ≤ x → x ≤ t' → x = k) → I t' = !I t

theorem Flips.insideAt {lo hi : K} {ts : List K} {I : K → Bool} (h : Flips lo hi ts I) (hnd : ts.Nodup)
    (hts : ∀ k ∈ ts, lo < k ∧ k < hi) : ∀ (n : ℕ) (t : K), crossed ts t = n → lo ≤ t → t ≤ hi → t ∉ ts → I t = (I lo ^^ odd n)
  | 0, t, hn, h1, h2, h3 => by
    rw [crossed, List.length_eq_zero_iff, List.filter_eq_nil_iff] at hn
    have := h.const lo t le_rfl h1 h2 (fun k hk ⟨_, b⟩ => by
      have := hn k hk
      simp only [decide_eq_true_eq, not_lt] at this
      exact h3 (le_antisymm b this ▸ hk))
    rw [this]
    simp [odd]
  | n + 1, t, hn, h1, h2, h3 => by
    -- the last crossing before
    have hne : (ts.toFinset.filter (· < t)).Nonempty := by
      have hpos : 0 < (ts.filter fun x => decide (x < t)).length := by rw [crossed] at hn; omega
      obtain ⟨x, hx⟩ := List.exists_mem_of_length_pos hpos
      rw [List.mem_filter, decide_eq_true_eq] at hx
      exact ⟨x, by simpa using hx⟩
    obtain ⟨k, hk, hmax⟩ := Finset.exists_max_image _ id hne
    simp only [Finset.mem_filter, List.mem_toFinset, id] at hk hmax
    -- a parameter between this one and the one before
    obtain ⟨m, hm1, hm2, hm3⟩ : ∃ m, lo ≤ m ∧ m < k ∧ ∀ x ∈ ts, x < k → x < m := by
      by_cases hG : (ts.toFinset.filter (· < k)).Nonempty
      · obtain ⟨a, ha, hamax⟩ := Finset.exists_max_image _ id hG
        simp only [Finset.mem_filter, List.mem_toFinset, id] at ha hamax
        refine ⟨(a + k) / 2, ?_, by linarith [ha.2], ?_⟩
        · have := (hts a ha.1).1
          linarith [ha.2]
        · intro x hx hxk
          have := hamax x ⟨hx, hxk⟩
          linarith [ha.2]
      · refine ⟨lo, le_rfl, (hts k hk.1).1, ?_⟩
        intro x hx hxk
        exact absurd ⟨x, by simpa using ⟨hx, hxk⟩⟩ hG
    have hmt : m ∉ ts := fun hm => lt_irrefl m (hm3 m hm hm2)
    have hset : (ts.filter fun x => decide (x < t)).toFinset = insert k (ts.filter fun x => decide (x < m)).toFinset := by
      ext x
      simp only [List.mem_toFinset, List.mem_filter, decide_eq_true_eq, Finset.mem_insert]
      constructor
      · rintro ⟨a, b⟩
        rcases (hmax x ⟨a, b⟩).eq_or_lt with g | g
        · exact .inl g
        · exact .inr ⟨a, hm3 x a g⟩
      · rintro (rfl | ⟨a, b⟩)
        · exact hk
        · exact ⟨a, b.trans (hm2.trans hk.2)⟩
    have hcard : crossed ts t = crossed ts m + 1 := by
      have c1 := List.toFinset_card_of_nodup (hnd.filter fun x => decide (x < t))
      have c2 := List.toFinset_card_of_nodup (hnd.filter fun x => decide (x < m))
      rw [crossed, crossed, ← c1, ← c2, hset, Finset.card_insert_of_notMem]
      simp only [List.mem_toFinset, List.mem_filter, decide_eq_true_eq, not_and, not_lt]
      exact fun _ => hm2.le
    have ih := Flips.insideAt h hnd hts n m (by omega) hm1 ((hm2.trans hk.2).le.trans h2) hmt
    rw [h.flip k hk.1 m t hm1 hm2 hk.2 h2 (fun x hx a b => by
      rcases (hmax x ⟨hx, lt_of_le_of_ne b fun e => h3 (e ▸ hx)⟩).eq_or_lt with g | g
      · exact g
      · exact absurd (hm3 x hx g) (not_lt.2 a)), ih, odd_succ]
    cases I lo <;> cases odd n <;> rfl

/-! ### Entry points -/

section entry

/-- The spans of an operand. -/
def spansOf : PCurve K ⊕ List (PCurve K) → List (PCurve K)
  | .inl c => [c]
  | .inr spans => spans

theorem select_regular {its : List (Boolean.Inter K)} (he : its.length % 2 = 0) :
    select (fun _ => (Degeneracy.none : Degeneracy K)) its = .ok its := by
  have h1 : ((its.map fun it => (it, (Degeneracy.none : Degeneracy K))).filter fun x => x.2.isNone).map (·.1) = its := by
    rw [List.filter_eq_self.2 (by
      intro x hx
      obtain ⟨i, -, rfl⟩ := List.mem_map.1 hx
      rfl), List.map_map]
    exact List.map_id _
  unfold select
  simp only [h1, if_pos he]
  rfl

theorem into_ok {E : Env K} {δ : K} {x : PCurve K ⊕ List (PCurve K)} (h : Circuit E.eps δ (fun p q => E.norm (p - q)) (spansOf x)) :
    ∃ s, E.into x = .ok s := by
  cases x with
  | inr spans => exact ⟨spans, rfl⟩
  | inl c =>
    have hw := h.whole c (by simp [spansOf])
    have hl := hw.fine.good.knots_len
    have hp := hw.fine.good.cps_pos
    obtain ⟨out, ho, -⟩ := align_full (eps := E.eps) (tol := 1) (dist := fun p q => E.norm (p - q)) (cs := [c])
      (by simpa using hw.fine) (by simpa using hw.full) (by simp [Joined])
    refine ⟨out, ?_⟩
    show Compound.new E.eps E.joinTol _ [c] = .ok out
    rw [Compound.new, show getR [c] 0 = .ok c from rfl, ok_bind]
    show (do let connected ← Compound.connect E.eps E.joinTol _ 0 [c] []; Compound.align 0 connected) = _
    rw [Compound.connect]
    exact ho

theorem arc_ok {E : Env K} {δ : K} (heps : 0 < E.eps) (hteps : 0 < E.trimTol) {subject other : PCurve K ⊕ List (PCurve K)}
    (h : ∀ s : Bool, Circuit E.eps δ (fun p q => E.norm (p - q)) (spansOf (if s then subject else other))) (s : Bool) (t0 t1 : K)
    (h0 : Inner E.eps E.trimTol (spansOf (if s then subject else other)) t0)
    (h1 : Inner E.eps E.trimTol (spansOf (if s then subject else other)) t1) (hg : t0 + E.eps ≤ t1 ∨ t1 + E.eps ≤ t0) :
    ∃ ds ds', E.trim subject other s (t0, t1) = .ok ds ∧ ds.Perm ds' ∧
      List.Forall₂ (Cut E.eps) (arcParts (spansOf (if s then subject else other)) t0 t1) ds' := by
  have h := h s
  unfold Env.trim
  generalize (if s then subject else other) = x at *
  cases x with
  | inl c => exact arc_curve heps hteps h h0 h1 hg
  | inr spans => exact arc_compound heps hteps h h0 h1 hg

/-- Boolean operations on two closed curves that cross properly away from their joints, in places that are further apart than
    the tolerance: the operation succeeds, every loop of the result is closed, and the loops together pass exactly through the
    crossings and the points of either curve that are wanted: outside of the other curve for the union, inside for the
    intersection, outside of the clip and inside of the subject for the difference. `I s t` tells whether curve `s` (`true`
    the subject) is inside of the other one at `t`. -/
theorem C87_boundary {E : Env K} {δ : K} (hd : Metric fun p q => E.norm (p - q)) (hδ : 0 ≤ δ) (htol : 2 * δ < E.joinTol)
    (heps : 0 < E.eps) (hteps : 0 < E.trimTol) (op : Op) {subject other : PCurve K ⊕ List (PCurve K)} {hits : List (CHit K)}
    {ds sel : List (CHit K × Degeneracy K)}
    (hclass : (hits.mapM fun h => do let d ← E.classify h; pure (h, d)) = .ok ds) (hsel : select (fun x => x.2) ds = .ok sel)
    (hne : sel ≠ []) {P : ℕ → Fin 2 → K}
    (hx : Crossing E.eps E.trimTol E.joinTol δ (fun p q => E.norm (p - q)) (fun s : Bool => spansOf (if s then subject else other))
      (sel.map fun x => interOf x.1) P)
    {I : Bool → K → Bool}
    (hI : ∀ s, Flips (loOf (spansOf (if s then subject else other))) (hiOf (spansOf (if s then subject else other)))
      (sel.map fun x => keyOf s (interOf x.1)) (I s))
    (hccs : (do let p ← E.firstPoint subject; E.containsIn other p) = .ok (I true (loOf (spansOf subject))))
    (hscc : (do let p ← E.firstPoint other; E.containsIn subject p) = .ok (I false (loOf (spansOf other)))) :
    ∃ rs, E.clip op subject other hits = .ok rs ∧
      (∀ r ∈ rs, r.interiors = [] ∧ ClosedLoop E.joinTol (fun p q => E.norm (p - q)) r.exterior) ∧
      ∀ Q, Trace E.eps (rs.flatMap fun r => r.exterior) Q ↔
        ∃ s : Bool, ∃ c ∈ spansOf (if s then subject else other), ∃ t, c.lo ≤ t ∧ t ≤ c.hi ∧ c.pointAt E.eps t = .ok Q ∧
          (t ∈ (sel.map fun x => keyOf s (interOf x.1)) ∨ I s t = wantsInside op s) := by
  have heven := (C38_select hsel).1
  obtain ⟨s, hs⟩ := into_ok (hx.circuit true)
  obtain ⟨o, ho⟩ := into_ok (hx.circuit false)
  simp only [if_true] at hs
  simp only [Bool.false_eq_true, if_false] at ho
  have hkeys : ∀ s, (sel.map fun x => interOf x.1).map (keyOf s) = sel.map fun x => keyOf s (interOf x.1) := by
    intro s; rw [List.map_map]; rfl
  obtain ⟨rs, r1, r2, r3⟩ := hx.clip hd hδ htol heps hteps (arc_ok heps hteps hx.circuit)
    (select_regular (its := sel.map fun x => interOf x.1) (by simpa using heven)) (by simpa using hne) op
    (I true (loOf (spansOf subject))) (I false (loOf (spansOf other))) s o
  refine ⟨rs, ?_, r2, ?_⟩
  · rw [Env.clip, hs, ok_bind, ho, ok_bind, clipHits, hclass, ok_bind, hsel, ok_bind, hccs, hscc]
    exact r1
  · intro Q
    rw [r3]
    refine exists_congr fun s => exists_congr fun c => and_congr_right fun hc => exists_congr fun t => and_congr_right fun a =>
      and_congr_right fun b => and_congr_right fun _ => ?_
    rw [hkeys]
    by_cases hk : t ∈ sel.map fun x => keyOf s (interOf x.1)
    · exact ⟨fun _ => .inl hk, fun _ => .inl hk⟩
    · have hX := hx.circuit s
      obtain ⟨g1, g2⟩ := chain_lo_le hX.lt hX.chain c hc
      have := (hI s).insideAt (by rw [← hkeys]; exact hx.keys_nodup heps s) (by
        intro k hk
        rw [← hkeys] at hk
        obtain ⟨i, hi, rfl⟩ := List.mem_map.1 hk
        exact hX.inner_mem hteps (hx.inner s i hi)) _ t rfl (g1.trans a) (b.trans g2) hk
      rw [this, insideAt]
      cases s <;> rfl

end entry

/-! ### Two overlapping squares -/

section squares

/-- The boundary of `[0, 4] × [0, 4]` as one curve. -/
def exField : PCurve ℚ where
  degree := 1
  knots := [0, 0, 1, 2, 3, 4, 4]
  cps := [(![0, 0], 1), (![4, 0], 1), (![4, 4], 1), (![0, 4], 1), (![0, 0], 1)]

/-- The boundary of `[2, 6] × [2, 6]` as a compound curve of two spans. -/
def exYardA : PCurve ℚ where
  degree := 1
  knots := [0, 0, 1, 2, 2]
  cps := [(![2, 2], 1), (![6, 2], 1), (![6, 6], 1)]

def exYardB : PCurve ℚ where
  degree := 1
  knots := [2, 2, 3, 4, 4]
  cps := [(![6, 6], 1), (![2, 6], 1), (![2, 2], 1)]

/-- Strictly between the extreme coordinates of the control points, which is right for these squares. -/
def exWithin (spans : List (PCurve ℚ)) (p : Fin 2 → ℚ) : Bool :=
  [0, 1].all fun i : Fin 2 => (spans.any fun c => c.cps.any fun q => decide (q.1 i < p i)) &&
    (spans.any fun c => c.cps.any fun q => decide (p i < q.1 i))

/-- The crossings found, `(4, 2)` and `(2, 4)`. -/
def exCorners : List (CHit ℚ) :=
  [⟨((exField, ![4, 2]), 3 / 2), ((exYardA, ![4, 2]), 1 / 2)⟩, ⟨((exField, ![2, 4]), 5 / 2), ((exYardB, ![2, 4]), 7 / 2)⟩]

def exYardEnv : Env ℚ where
  norm v := max |v 0| |v 1|
  eps := 1 / 100000
  tol := 1 / 1000000
  joinTol := 1 / 10000
  trimTol := 1 / 100000
  find _ _ := .ok []
  contains c p := .ok (exWithin [c] p)
  containsC spans p := .ok (exWithin spans p)

theorem exYard_metric : Metric fun p q => exYardEnv.norm (p - q) where
  self x := by simp [exYardEnv]
  symm x y := by simp only [exYardEnv, Pi.sub_apply]; rw [abs_sub_comm (x 0), abs_sub_comm (x 1)]
  tri x y z := by
    simp only [exYardEnv, Pi.sub_apply]
    refine max_le ?_ ?_
    · exact (abs_sub_le _ (y 0) _).trans (add_le_add (le_max_left _ _) (le_max_left _ _))
    · exact (abs_sub_le _ (y 1) _).trans (add_le_add (le_max_right _ _) (le_max_right _ _))

theorem exField_whole : Whole (1 / 100000) exField where
  fine := by
    refine ⟨⟨by decide, by decide, ⟨by norm_num, by decide, ?_, ?_, ?_, ?_, ?_⟩⟩, by simp [exField]⟩
    · exact mono_of_sorted (by decide +kernel) (by decide +kernel)
    all_goals norm_num [exField, kf]
  cont := by
    intro i h1 h2
    have h1 : 1 < i := h1
    have h2 : i + 1 ≤ 4 := h2
    have h3 : i ≤ 3 := by omega
    interval_cases i <;> norm_num [kf, exField]
  full := by norm_num [FullDomain, exField, kf, Curve.lo, Curve.hi]

theorem exYardA_whole : Whole (1 / 100000) exYardA where
  fine := by
    refine ⟨⟨by decide, by decide, ⟨by norm_num, by decide, ?_, ?_, ?_, ?_, ?_⟩⟩, by simp [exYardA]⟩
    · exact mono_of_sorted (by decide +kernel) (by decide +kernel)
    all_goals norm_num [exYardA, kf]
  cont := by
    intro i h1 h2
    have h1 : 1 < i := h1
    have h2 : i + 1 ≤ 2 := h2
    omega
  full := by norm_num [FullDomain, exYardA, kf, Curve.lo, Curve.hi]

theorem exYardB_whole : Whole (1 / 100000) exYardB where
  fine := by
    refine ⟨⟨by decide, by decide, ⟨by norm_num, by decide, ?_, ?_, ?_, ?_, ?_⟩⟩, by simp [exYardB]⟩
    · exact mono_of_sorted (by decide +kernel) (by decide +kernel)
    all_goals norm_num [exYardB, kf]
  cont := by
    intro i h1 h2
    have h1 : 1 < i := h1
    have h2 : i + 1 ≤ 2 := h2
    omega
  full := by norm_num [FullDomain, exYardB, kf, Curve.lo, Curve.hi]

/-- The ends of a curve from its points. -/
theorem ends_of_pointAt {eps : K} {c : Curve K (W × K)} (h : Whole eps c) {p q : W} (hp : c.pointAt eps c.lo = .ok p)
    (hq : c.pointAt eps c.hi = .ok q) : startPt c = p ∧ stopPt c = q := by
  have hlt := good_lo_lt_hi h.fine.good
  have e1 := (C09_point_at_positive_weights h.fine.good h.fine.pos (u := c.lo) le_rfl hlt.le).1
  have e2 := (C09_point_at_positive_weights h.fine.good h.fine.pos (u := c.hi) hlt.le le_rfl).1
  rw [hp] at e1
  rw [hq] at e2
  exact ⟨(Except.ok.inj e1).symm, (Except.ok.inj e2).symm⟩

theorem exField_ends : startPt exField = ![0, 0] ∧ stopPt exField = ![0, 0] :=
  ends_of_pointAt exField_whole (res_eq_of_ofFn (by decide +kernel)) (res_eq_of_ofFn (by decide +kernel))

theorem exYardA_ends : startPt exYardA = ![2, 2] ∧ stopPt exYardA = ![6, 6] :=
  ends_of_pointAt exYardA_whole (res_eq_of_ofFn (by decide +kernel)) (res_eq_of_ofFn (by decide +kernel))

theorem exYardB_ends : startPt exYardB = ![6, 6] ∧ stopPt exYardB = ![2, 2] :=
  ends_of_pointAt exYardB_whole (res_eq_of_ofFn (by decide +kernel)) (res_eq_of_ofFn (by decide +kernel))

/-- The operands. -/
def exField' : PCurve ℚ ⊕ List (PCurve ℚ) := .inl exField
def exYard' : PCurve ℚ ⊕ List (PCurve ℚ) := .inr [exYardA, exYardB]

theorem exYard_crossing : Crossing exYardEnv.eps exYardEnv.trimTol exYardEnv.joinTol 0 (fun p q => exYardEnv.norm (p - q))
    (fun s : Bool => spansOf (if s then exField' else exYard')) ((exCorners.map fun h => (h, (Degeneracy.none : Degeneracy ℚ))).map
      fun x => interOf x.1) (fun k => if k = 0 then ![4, 2] else ![2, 4]) where
  circuit := by
    rintro (_ | _)
    · refine ⟨by simp [spansOf, exYard'], ?_, ?_, ?_, ?_⟩
      · simpa [spansOf, exYard'] using ⟨exYardA_whole, exYardB_whole⟩
      · norm_num [spansOf, exYard', exYardA, exYardB, kf, Curve.lo, Curve.hi]
      · simp [spansOf, exYard', exYardA_ends, exYardB_ends, exYardEnv]
      · simp [spansOf, exYard', exYardA_ends, exYardB_ends, exYardEnv]
    · refine ⟨by simp [spansOf, exField'], ?_, ?_, ?_, ?_⟩
      · intro c hc; obtain rfl := List.mem_singleton.1 hc; exact exField_whole
      · simp [spansOf, exField']
      · simp [spansOf, exField']
      · simp [spansOf, exField', exField_ends, exYardEnv]
  inner := by
    rintro (_ | _) i hi
    · simp only [exCorners, List.map_cons, List.map_nil, List.mem_cons, List.not_mem_nil, or_false] at hi
      rcases hi with rfl | rfl
      · exact ⟨exYardA, by simp [spansOf, exYard'], by decide +kernel, by decide +kernel, by decide +kernel⟩
      · exact ⟨exYardB, by simp [spansOf, exYard'], by decide +kernel, by decide +kernel, by decide +kernel⟩
    · simp only [exCorners, List.map_cons, List.map_nil, List.mem_cons, List.not_mem_nil, or_false] at hi
      rcases hi with rfl | rfl
      · exact ⟨exField, by simp [spansOf, exField'], by decide +kernel, by decide +kernel, by decide +kernel⟩
      · exact ⟨exField, by simp [spansOf, exField'], by decide +kernel, by decide +kernel, by decide +kernel⟩
  gap := by decide +kernel
  near := by
    have key : ∀ (c : PCurve ℚ) (t : ℚ) (p : Fin 2 → ℚ), c.pointAt exYardEnv.eps t = .ok p → ∀ Q, c.pointAt exYardEnv.eps t = .ok Q →
        exYardEnv.norm (Q - p) ≤ 0 := by
      intro c t p h Q hQ
      rw [h] at hQ
      obtain rfl := Except.ok.inj hQ
      exact (exYard_metric.self p).le
    intro s k i hk c hc h1 h2 Q hQ
    have hk2 : k < 2 := by
      have := List.getElem?_eq_some_iff.1 hk
      simpa [exCorners] using this.1
    interval_cases k <;> obtain rfl := Option.some.inj hk <;> cases s
    · simp only [spansOf, exYard', Bool.false_eq_true, if_false, List.mem_cons, List.not_mem_nil, or_false] at hc
      rcases hc with rfl | rfl
      · exact key exYardA (1 / 2) _ (res_eq_of_ofFn (by decide +kernel)) Q hQ
      · exact absurd h1 (by decide +kernel)
    · simp only [spansOf, exField', if_true, List.mem_cons, List.not_mem_nil, or_false] at hc
      subst hc
      exact key exField (3 / 2) _ (res_eq_of_ofFn (by decide +kernel)) Q hQ
    · simp only [spansOf, exYard', Bool.false_eq_true, if_false, List.mem_cons, List.not_mem_nil, or_false] at hc
      rcases hc with rfl | rfl
      · exact absurd h2 (by decide +kernel)
      · exact key exYardB (7 / 2) _ (res_eq_of_ofFn (by decide +kernel)) Q hQ
    · simp only [spansOf, exField', if_true, List.mem_cons, List.not_mem_nil, or_false] at hc
      subst hc
      exact key exField (5 / 2) _ (res_eq_of_ofFn (by decide +kernel)) Q hQ
  hits := by
    intro k m hk hm hkm
    have hk : k < 2 := hk
    have hm : m < 2 := hm
    interval_cases k <;> interval_cases m
    · exact absurd rfl hkm
    · decide +kernel
    · decide +kernel
    · exact absurd rfl hkm
  hitJoint := by
    intro k hk s c hc
    have hk : k < 2 := hk
    cases s
    · simp only [spansOf, exYard', Bool.false_eq_true, if_false, List.mem_cons, List.not_mem_nil, or_false] at hc
      rcases hc with rfl | rfl
      · rw [exYardA_ends.1]; interval_cases k <;> decide +kernel
      · rw [exYardB_ends.1]; interval_cases k <;> decide +kernel
    · simp only [spansOf, exField', if_true, List.mem_cons, List.not_mem_nil, or_false] at hc
      subst hc
      rw [exField_ends.1]; interval_cases k <;> decide +kernel
  joints := by
    intro s c hc d hd hne
    cases s
    · simp only [spansOf, exYard', Bool.false_eq_true, if_false, List.mem_cons, List.not_mem_nil, or_false] at hc hd
      rcases hc with rfl | rfl <;> rcases hd with rfl | rfl
      · exact absurd rfl hne
      · rw [exYardA_ends.1, exYardB_ends.1]; decide +kernel
      · rw [exYardA_ends.1, exYardB_ends.1]; decide +kernel
      · exact absurd rfl hne
    · simp only [spansOf, exField', if_true, List.mem_cons, List.not_mem_nil, or_false] at hc hd
      subst hc hd
      exact absurd rfl hne
  others := by
    intro c hc d hd
    simp only [spansOf, exField', if_true, List.mem_cons, List.not_mem_nil, or_false] at hc
    simp only [spansOf, exYard', Bool.false_eq_true, if_false, List.mem_cons, List.not_mem_nil, or_false] at hd
    subst hc
    rcases hd with rfl | rfl
    · rw [exField_ends.1, exYardA_ends.1]; decide +kernel
    · rw [exField_ends.1, exYardB_ends.1]; decide +kernel

/-- Both crossings are regular. -/
theorem exCorners_regular : (exCorners.mapM fun h => do let d ← exYardEnv.classify h; pure (h, d)) =
    .ok (exCorners.map fun h => (h, (Degeneracy.none : Degeneracy ℚ))) := by
  have key : ∀ h, (match exYardEnv.classify h with | .ok .none => true | _ => false) = true → exYardEnv.classify h = .ok .none := by
    intro h
    cases exYardEnv.classify h with
    | error e => simp
    | ok d => cases d <;> simp
  simp only [exCorners, List.mapM_cons, List.mapM_nil, List.map_cons, List.map_nil]
  rw [key _ (by decide +kernel), key _ (by decide +kernel)]
  rfl

/-- The parts inside of the other square. -/
def exInside : Bool → ℚ → Bool
  | true, t => decide (3 / 2 < t ∧ t < 5 / 2)
  | false, t => decide (t < 1 / 2 ∨ 7 / 2 < t)

theorem exInside_flips (s : Bool) : Flips (loOf (spansOf (if s then exField' else exYard'))) (hiOf (spansOf (if s then exField' else exYard')))
    ((exCorners.map fun h => (h, (Degeneracy.none : Degeneracy ℚ))).map fun x => keyOf s (interOf x.1)) (exInside s) := by
  cases s
  · refine ⟨?_, ?_⟩
    · intro t t' h1 h2 h3 h
      have g1 := h (1 / 2) (by decide +kernel)
      have g2 := h (7 / 2) (by decide +kernel)
      simp only [exInside, decide_eq_decide]
      constructor <;> intro q <;> by_contra q' <;> push Not at q' <;> rcases q with q | q
      · linarith [q'.1]
      · exact g2 ⟨q'.2, q.le⟩
      · exact g1 ⟨q.le, q'.1⟩
      · linarith [q'.2]
    · intro k hk t t' h1 h2 h3 h4 h
      have e1 := h (1 / 2) (by decide +kernel)
      have e2 := h (7 / 2) (by decide +kernel)
      have hk : k = 1 / 2 ∨ k = 7 / 2 := by simpa [exCorners, keyOf, interOf] using hk
      rcases hk with rfl | rfl
      · have : t' < 7 / 2 := by
          by_contra q; push Not at q
          have := e2 (by linarith) q
          norm_num at this
        have l1 : exInside false t = true := by simp only [exInside, decide_eq_true_eq]; exact .inl h2
        have l2 : exInside false t' = false := by
          simp only [exInside, decide_eq_false_iff_not, not_or, not_lt]; exact ⟨h3.le, this.le⟩
        rw [l1, l2]; rfl
      · have : 1 / 2 < t := by
          by_contra q; push Not at q
          have := e1 q (by linarith)
          norm_num at this
        have l1 : exInside false t = false := by
          simp only [exInside, decide_eq_false_iff_not, not_or, not_lt]; exact ⟨this.le, h2.le⟩
        have l2 : exInside false t' = true := by simp only [exInside, decide_eq_true_eq]; exact .inr h3
        rw [l1, l2]; rfl
  · refine ⟨?_, ?_⟩
    · intro t t' h1 h2 h3 h
      have g1 := h (3 / 2) (by decide +kernel)
      have g2 := h (5 / 2) (by decide +kernel)
      simp only [exInside, decide_eq_decide]
      constructor <;> rintro ⟨a, b⟩
      · refine ⟨?_, by linarith⟩
        by_contra q; push Not at q
        exact g1 ⟨q, a.le⟩
      · refine ⟨by linarith, ?_⟩
        by_contra q; push Not at q
        exact g2 ⟨b.le, q⟩
    · intro k hk t t' h1 h2 h3 h4 h
      have e1 := h (3 / 2) (by decide +kernel)
      have e2 := h (5 / 2) (by decide +kernel)
      have hk : k = 3 / 2 ∨ k = 5 / 2 := by simpa [exCorners, keyOf, interOf] using hk
      rcases hk with rfl | rfl
      · have : t' < 5 / 2 := by
          by_contra q; push Not at q
          have := e2 (by linarith) q
          norm_num at this
        have l1 : exInside true t = false := by
          simp only [exInside, decide_eq_false_iff_not, not_and, not_lt]; exact fun q => absurd q (by linarith)
        have l2 : exInside true t' = true := by simp only [exInside, decide_eq_true_eq]; exact ⟨h3, this⟩
        rw [l1, l2]; rfl
      · have : 3 / 2 < t := by
          by_contra q; push Not at q
          have := e1 q (by linarith)
          norm_num at this
        have l1 : exInside true t = true := by simp only [exInside, decide_eq_true_eq]; exact ⟨this, h2⟩
        have l2 : exInside true t' = false := by
          simp only [exInside, decide_eq_false_iff_not, not_and, not_lt]; exact fun _ => h3.le
        rw [l1, l2]; rfl

example (op : Op) : ∃ rs, exYardEnv.clip op exField' exYard' exCorners = .ok rs ∧
    (∀ r ∈ rs, r.interiors = [] ∧ ClosedLoop exYardEnv.joinTol (fun p q => exYardEnv.norm (p - q)) r.exterior) ∧
    ∀ Q, Trace exYardEnv.eps (rs.flatMap fun r => r.exterior) Q ↔
      ∃ s : Bool, ∃ c ∈ spansOf (if s then exField' else exYard'), ∃ t, c.lo ≤ t ∧ t ≤ c.hi ∧ c.pointAt exYardEnv.eps t = .ok Q ∧
        (t ∈ ((exCorners.map fun h => (h, (Degeneracy.none : Degeneracy ℚ))).map fun x => keyOf s (interOf x.1)) ∨
          exInside s t = wantsInside op s) :=
  C87_boundary exYard_metric le_rfl (by norm_num [exYardEnv]) (by norm_num [exYardEnv]) (by norm_num [exYardEnv]) op
    exCorners_regular (by rfl) (by simp [exCorners]) exYard_crossing exInside_flips (by decide +kernel) (by decide +kernel)

end squares

end Curvo.Props

/-
  C110: laws of the boolean operations on two closed curves that cross properly.
-/
import Verif.Props.BoolRegion
import Verif.Props.Degeneracy
import Verif.Props.Curve4

set_option linter.unusedSectionVars false
set_option linter.unusedSimpArgs false

namespace Curvo.Props

open Curvo.Knots Curvo.Spec Curvo.Curve Curvo.Compound Curvo.Boolean Curvo.Intersect

variable {K : Type} [Field K] [LinearOrder K] [IsStrictOrderedRing K]

/-- The two operands of `s` (`true` the subject). -/
abbrev operand (a b : PCurve K ⊕ List (PCurve K)) (s : Bool) : PCurve K ⊕ List (PCurve K) := if s then a else b

/-- Distances and tolerances as in C87. -/
structure Sane (E : Env K) (δ : K) : Prop where
  metric : Metric fun p q => E.norm (p - q)
  nonneg : 0 ≤ δ
  small : 2 * δ < E.joinTol
  eps : 0 < E.eps
  trim : 0 < E.trimTol

/-- Two closed curves that cross properly in the intersections selected, as in C87. -/
structure Overlapping (E : Env K) (δ : K) (a b : PCurve K ⊕ List (PCurve K)) (hits : List (CHit K))
    (sel : List (CHit K × Degeneracy K)) (I : Bool → K → Bool) : Prop where
  classified : ∃ ds, (hits.mapM fun h => do let d ← E.classify h; pure (h, d)) = .ok ds ∧ select (fun x => x.2) ds = .ok sel
  ne : sel ≠ []
  cross : ∃ P, Crossing E.eps E.trimTol E.joinTol δ (fun p q => E.norm (p - q)) (fun s : Bool => spansOf (operand a b s))
      (sel.map fun x => interOf x.1) P
  flips : ∀ s, Flips (loOf (spansOf (operand a b s))) (hiOf (spansOf (operand a b s))) (sel.map fun x => keyOf s (interOf x.1)) (I s)
  startA : (do let p ← E.firstPoint a; E.containsIn b p) = .ok (I true (loOf (spansOf a)))
  startB : (do let p ← E.firstPoint b; E.containsIn a p) = .ok (I false (loOf (spansOf b)))

/-- **C87**: the two containment tests of an operation are made with the points where the operands start. -/
theorem C87_start_point {E : Env K} {δ : K} {dist : (Fin 2 → K) → (Fin 2 → K) → K} {a : PCurve K ⊕ List (PCurve K)}
    (h : Circuit E.eps δ dist (spansOf a)) :
    ∃ c ∈ spansOf a, c.lo = loOf (spansOf a) ∧ E.firstPoint a = .ok (startPt c) ∧ c.pointAt E.eps c.lo = .ok (startPt c) := by
  obtain ⟨c, cs, hX⟩ := List.exists_cons_of_ne_nil h.ne
  have hc : c ∈ spansOf a := by rw [hX]; exact List.mem_cons_self
  have hw := (h.whole c hc).fine
  have hp : c.pointAt E.eps c.lo = .ok (startPt c) :=
    (C09_point_at_positive_weights hw.good hw.pos le_rfl (good_lo_lt_hi hw.good).le).1
  refine ⟨c, hc, by rw [hX]; rfl, ?_, hp⟩
  cases a with
  | inl d =>
    obtain rfl : d = c := by simpa [spansOf] using (List.cons.inj hX).1
    rw [Env.firstPoint, (C67_end_points hw.good).1, hp]
  | inr spans =>
    have : spans = c :: cs := hX
    rw [Env.firstPoint, this, getR_eq_ok (by simp), ok_bind]
    simp only [List.getElem_cons_zero]
    rw [(C67_end_points hw.good).1, hp]

/-- A point of one of the operands at a crossing or where it is inside (`w = true`) or outside (`w = false`) of the other one. -/
def OnPart (E : Env K) (a b : PCurve K ⊕ List (PCurve K)) (sel : List (CHit K × Degeneracy K)) (I : Bool → K → Bool) (s w : Bool)
    (Q : Fin 2 → K) : Prop :=
  ∃ c ∈ spansOf (operand a b s), ∃ t, c.lo ≤ t ∧ t ≤ c.hi ∧ c.pointAt E.eps t = .ok Q ∧
    (t ∈ (sel.map fun x => keyOf s (interOf x.1)) ∨ I s t = w)

theorem Overlapping.result {E : Env K} {δ : K} {a b : PCurve K ⊕ List (PCurve K)} {hits : List (CHit K)}
    {sel : List (CHit K × Degeneracy K)} {I : Bool → K → Bool} (hE : Sane E δ) (h : Overlapping E δ a b hits sel I) (op : Op) :
    ∃ rs, E.clip op a b hits = .ok rs ∧ ∀ Q, Trace E.eps (rs.flatMap fun r => r.exterior) Q ↔
      OnPart E a b sel I true (wantsInside op true) Q ∨ OnPart E a b sel I false (wantsInside op false) Q := by
  obtain ⟨ds, h1, h2⟩ := h.classified
  obtain ⟨P, hP⟩ := h.cross
  obtain ⟨rs, r1, -, r2⟩ := C87_boundary hE.metric hE.nonneg hE.small hE.eps hE.trim op h1 h2 h.ne hP h.flips h.startA h.startB
  refine ⟨rs, r1, fun Q => ?_⟩
  rw [r2]
  constructor
  · rintro ⟨s, hs⟩
    cases s
    · exact .inr hs
    · exact .inl hs
  · rintro (hs | hs)
    · exact ⟨true, hs⟩
    · exact ⟨false, hs⟩

theorem onPart_or {E : Env K} {a b : PCurve K ⊕ List (PCurve K)} {sel : List (CHit K × Degeneracy K)} {I : Bool → K → Bool}
    {s : Bool} {Q : Fin 2 → K} : OnPart E a b sel I s true Q ∨ OnPart E a b sel I s false Q ↔ Trace E.eps (spansOf (operand a b s)) Q := by
  constructor
  · rintro (⟨c, hc, t, h1, h2, e, -⟩ | ⟨c, hc, t, h1, h2, e, -⟩) <;> exact ⟨c, hc, t, h1, h2, e⟩
  · rintro ⟨c, hc, t, h1, h2, e⟩
    cases hI : I s t
    · exact .inr ⟨c, hc, t, h1, h2, e, .inr hI⟩
    · exact .inl ⟨c, hc, t, h1, h2, e, .inr hI⟩

/-- **C110**: the boundaries of the union and of the intersection share out the two curves: together they pass through exactly the
    points of the operands. The same holds for the two differences. -/
theorem C110_shared_out {E : Env K} {δ : K} {a b : PCurve K ⊕ List (PCurve K)} {hits : List (CHit K)}
    {sel : List (CHit K × Degeneracy K)} {I : Bool → K → Bool} (hE : Sane E δ) (h : Overlapping E δ a b hits sel I) :
    ∃ U N, E.clip .union a b hits = .ok U ∧ E.clip .inter a b hits = .ok N ∧ ∀ Q,
      (Trace E.eps (U.flatMap fun r => r.exterior) Q ∨ Trace E.eps (N.flatMap fun r => r.exterior) Q) ↔
        (Trace E.eps (spansOf a) Q ∨ Trace E.eps (spansOf b) Q) := by
  obtain ⟨U, hU, u⟩ := h.result hE .union
  obtain ⟨N, hN, n⟩ := h.result hE .inter
  refine ⟨U, N, hU, hN, fun Q => ?_⟩
  have ha := onPart_or (E := E) (a := a) (b := b) (sel := sel) (I := I) (s := true) (Q := Q)
  have hb := onPart_or (E := E) (a := a) (b := b) (sel := sel) (I := I) (s := false) (Q := Q)
  rw [u, n]
  simp only [wantsInside] at *
  simp only [operand, if_true, Bool.false_eq_true, if_false] at ha hb
  rw [← ha, ← hb]
  tauto

/-- **C110**: the difference and the intersection divide the subject: together their boundaries pass through exactly the points of
    the subject and those of the other curve inside of it. -/
theorem C110_divided {E : Env K} {δ : K} {a b : PCurve K ⊕ List (PCurve K)} {hits : List (CHit K)}
    {sel : List (CHit K × Degeneracy K)} {I : Bool → K → Bool} (hE : Sane E δ) (h : Overlapping E δ a b hits sel I) :
    ∃ D N, E.clip .diff a b hits = .ok D ∧ E.clip .inter a b hits = .ok N ∧ ∀ Q,
      (Trace E.eps (D.flatMap fun r => r.exterior) Q ∨ Trace E.eps (N.flatMap fun r => r.exterior) Q) ↔
        (Trace E.eps (spansOf a) Q ∨ OnPart E a b sel I false true Q) := by
  obtain ⟨D, hD, d⟩ := h.result hE .diff
  obtain ⟨N, hN, n⟩ := h.result hE .inter
  refine ⟨D, N, hD, hN, fun Q => ?_⟩
  have ha := onPart_or (E := E) (a := a) (b := b) (sel := sel) (I := I) (s := true) (Q := Q)
  rw [d, n]
  simp only [wantsInside, Bool.not_true, Bool.not_false] at *
  simp only [operand, if_true] at ha
  rw [← ha]
  tauto

/-! ### Exchanging the operands -/

theorem crossed_eq {ts ts' : List K} (hn : ts.Nodup) (hn' : ts'.Nodup) (h : ∀ t, t ∈ ts' ↔ t ∈ ts) (t : K) :
    crossed ts' t = crossed ts t := by
  have : ts'.Perm ts := (List.perm_ext_iff_of_nodup hn' hn).2 h
  exact (this.filter _).length_eq

theorem keys_facts {E : Env K} {δ : K} {a b : PCurve K ⊕ List (PCurve K)} {hits : List (CHit K)}
    {sel : List (CHit K × Degeneracy K)} {I : Bool → K → Bool} (hE : Sane E δ) (h : Overlapping E δ a b hits sel I) (s : Bool) :
    (sel.map fun x => keyOf s (interOf x.1)).Nodup ∧
    (∀ k ∈ sel.map fun x => keyOf s (interOf x.1), loOf (spansOf (operand a b s)) < k ∧ k < hiOf (spansOf (operand a b s))) ∧
    ∀ c ∈ spansOf (operand a b s), loOf (spansOf (operand a b s)) ≤ c.lo ∧ c.hi ≤ hiOf (spansOf (operand a b s)) := by
  obtain ⟨P, hP⟩ := h.cross
  have hkeys : (sel.map fun x => interOf x.1).map (keyOf s) = sel.map fun x => keyOf s (interOf x.1) := by
    rw [List.map_map]; rfl
  have hX := hP.circuit s
  refine ⟨by rw [← hkeys]; exact hP.keys_nodup hE.eps s, ?_, fun c hc => chain_lo_le hX.lt hX.chain c hc⟩
  intro k hk
  rw [← hkeys] at hk
  obtain ⟨i, hi, rfl⟩ := List.mem_map.1 hk
  exact hX.inner_mem hE.trim (hP.inner s i hi)

/-- **C110**: union and intersection do not depend on the order of the operands: if the same crossings are selected (in any order), the
    results have the same boundary. -/
theorem C110_commutative {E : Env K} {δ : K} {a b : PCurve K ⊕ List (PCurve K)} {hits hits' : List (CHit K)}
    {sel sel' : List (CHit K × Degeneracy K)} {I I' : Bool → K → Bool} (hE : Sane E δ) (h : Overlapping E δ a b hits sel I)
    (h' : Overlapping E δ b a hits' sel' I')
    (hk : ∀ s t, t ∈ (sel'.map fun x => keyOf (!s) (interOf x.1)) ↔ t ∈ (sel.map fun x => keyOf s (interOf x.1)))
    {op : Op} (hop : op ≠ .diff) :
    ∃ rs rs', E.clip op a b hits = .ok rs ∧ E.clip op b a hits' = .ok rs' ∧
      ∀ Q, Trace E.eps (rs'.flatMap fun r => r.exterior) Q ↔ Trace E.eps (rs.flatMap fun r => r.exterior) Q := by
  obtain ⟨rs, r1, r2⟩ := h.result hE op
  obtain ⟨rs', r1', r2'⟩ := h'.result hE op
  refine ⟨rs, rs', r1, r1', fun Q => ?_⟩
  rw [r2, r2']
  have hsp : ∀ s, operand b a (!s) = operand a b s := by intro s; cases s <;> rfl
  -- the same sides
  have h0 : ∀ s, I' (!s) (loOf (spansOf (operand a b s))) = I s (loOf (spansOf (operand a b s))) := by
    intro s
    cases s
    · have e1 := h.startB
      rw [h'.startA] at e1
      exact Except.ok.inj e1
    · have e1 := h.startA
      rw [h'.startB] at e1
      exact Except.ok.inj e1
  have hpart : ∀ s w, OnPart E b a sel' I' (!s) w Q ↔ OnPart E a b sel I s w Q := by
    intro s w
    obtain ⟨n1, i1, d1⟩ := keys_facts hE h s
    obtain ⟨n2, i2, d2⟩ := keys_facts hE h' (!s)
    rw [hsp] at i2 d2
    unfold OnPart
    rw [hsp]
    refine exists_congr fun c => and_congr_right fun hc => exists_congr fun t => and_congr_right fun g1 => and_congr_right fun g2 =>
      and_congr_right fun _ => ?_
    rw [hk s t]
    by_cases ht : t ∈ sel.map fun x => keyOf s (interOf x.1)
    · exact ⟨fun _ => .inl ht, fun _ => .inl ht⟩
    · have e1 := (h.flips s).insideAt n1 i1 _ t rfl ((d1 c hc).1.trans g1) (g2.trans (d1 c hc).2) ht
      have hf := h'.flips (!s)
      rw [hsp] at hf
      have e2 := hf.insideAt n2 i2 _ t rfl ((d1 c hc).1.trans g1) (g2.trans (d1 c hc).2) (by rw [hk s t]; exact ht)
      rw [crossed_eq n1 n2 (hk s), h0 s] at e2
      rw [e1, e2]
  have p1 := hpart true
  have p2 := hpart false
  simp only [Bool.not_true, Bool.not_false] at p1 p2
  have hw : wantsInside op true = wantsInside op false := by cases op <;> simp_all [wantsInside]
  rw [hw, p1, p2, or_comm]

/-- An intersection seen from the other curve. -/
def swapHit (h : CHit K) : CHit K := ⟨h.b, h.a⟩

theorem ChordsCross.swap {a0 a1 b0 b1 : Fin 2 → K} (h : ChordsCross a0 a1 b0 b1) : ChordsCross b0 b1 a0 a1 := by
  obtain ⟨h1, x, y, x0, x1, y0, y1, e⟩ := h
  refine ⟨fun h => h1 ?_, y, x, y0, y1, x0, x1, fun i => (e i).symm⟩
  simp only [area2] at h ⊢
  linear_combination -h

/-- **C110**: the classification of an intersection does not depend on the order of the curves. -/
theorem C110_classify {E : Env K} (ht : 0 ≤ E.tol) {h : CHit K} {d : Degeneracy K} (hd : E.classify h = .ok d) :
    E.classify (swapHit h) = .ok d := by
  simp only [Env.classify, swapHit, degeneracy] at hd ⊢
  obtain ⟨a0, e1, hd⟩ := bind_eq_ok.1 hd
  obtain ⟨a1, e2, hd⟩ := bind_eq_ok.1 hd
  obtain ⟨b0, e3, hd⟩ := bind_eq_ok.1 hd
  obtain ⟨b1, e4, hd⟩ := bind_eq_ok.1 hd
  rw [e1, e2, e3, e4, ok_bind, ok_bind, ok_bind, ok_bind]
  by_cases hx : ChordsCross a0 a1 b0 b1
  · rw [if_pos ((lineIntersects_chords ht _ _ _ _).2 hx)] at hd
    rw [if_pos ((lineIntersects_chords ht _ _ _ _).2 hx.swap)]
    obtain ⟨ta, f1, hd⟩ := bind_eq_ok.1 hd
    obtain ⟨tb, f2, hd⟩ := bind_eq_ok.1 hd
    rw [f1, f2, ok_bind, ok_bind, ← hd]
    simp only [mul_comm]
  · rw [if_neg (by rw [lineIntersects_chords ht]; exact hx)] at hd
    rw [if_neg (by rw [lineIntersects_chords ht]; exact fun h => hx h.swap), hd]

theorem maxDeg_map {A B : Type} (f : A → B) (l : List (A × Degeneracy K)) :
    maxDeg (l.map fun x => (f x.1, x.2)) = (maxDeg l).map fun x => (f x.1, x.2) := by
  cases l with
  | nil => rfl
  | cons x xs =>
    simp only [List.map_cons, maxDeg, Option.map_some]
    congr 1
    induction xs generalizing x with
    | nil => rfl
    | cons y ys ih =>
      simp only [List.map_cons, List.foldl_cons]
      split
      · exact ih x
      · exact ih y

theorem select_map {A B : Type} (f : A → B) (deg : B → Degeneracy K) (l : List A) :
    select deg (l.map f) = (select (fun x => deg (f x)) l).map fun r => r.map f := by
  have e1 : (l.map f).map (fun it => (it, deg it)) = (l.map fun it => (it, deg (f it))).map fun x => (f x.1, x.2) := by
    simp [List.map_map, Function.comp_def]
  have e2 : ∀ P : A × Degeneracy K → Bool, ∀ Q : B × Degeneracy K → Bool, (∀ x, Q (f x.1, x.2) = P x) →
      (((l.map fun it => (it, deg (f it))).map fun x => (f x.1, x.2)).filter Q) =
        ((l.map fun it => (it, deg (f it))).filter P).map fun x => (f x.1, x.2) := by
    intro P Q h
    rw [List.filter_map]
    congr 1
    apply List.filter_congr
    intro x _
    exact h x
  unfold select
  simp only []
  rw [e1, e2 (fun x => x.2.isNone) _ (fun _ => rfl), e2 (fun x => !x.2.isNone) _ (fun _ => rfl), maxDeg_map]
  generalize (l.map fun it => (it, deg (f it))).filter (fun x => x.2.isNone) = reg
  cases maxDeg ((l.map fun it => (it, deg (f it))).filter fun x => !x.2.isNone) with
  | none =>
    by_cases h : reg.length % 2 = 0 <;> simp [h, Except.map, pure_eq_ok]
  | some m =>
    by_cases h : reg.length % 2 = 0
    · simp [h, Except.map, pure_eq_ok]
    · have : (reg.length + 1) % 2 = 0 := by omega
      simp [h, this, Except.map, pure_eq_ok]

/-- The classification of the exchanged intersections. -/
theorem classify_swap {E : Env K} (ht : 0 ≤ E.tol) : ∀ {hits : List (CHit K)} {ds : List (CHit K × Degeneracy K)},
    (hits.mapM fun h => do let d ← E.classify h; pure (h, d)) = .ok ds →
    ((hits.map swapHit).mapM fun h => do let d ← E.classify h; pure (h, d)) = .ok (ds.map fun x => (swapHit x.1, x.2))
  | [], ds, h => by
    rw [List.mapM_nil] at h
    obtain rfl := Except.ok.inj h
    rfl
  | x :: xs, ds, h => by
    rw [List.mapM_cons] at h
    obtain ⟨y, h1, h⟩ := bind_eq_ok.1 h
    obtain ⟨d, h3, h1'⟩ := bind_eq_ok.1 h1
    obtain rfl := Except.ok.inj h1'
    obtain ⟨ys, h2, h⟩ := bind_eq_ok.1 h
    obtain rfl := Except.ok.inj h
    rw [List.map_cons, List.mapM_cons, C110_classify ht h3, classify_swap ht h2]
    rfl

/-- The same situation seen from the other operand. -/
theorem Overlapping.swap {E : Env K} {δ : K} {a b : PCurve K ⊕ List (PCurve K)} {hits : List (CHit K)}
    {sel : List (CHit K × Degeneracy K)} {I : Bool → K → Bool} (hE : Sane E δ) (ht : 0 ≤ E.tol) (h : Overlapping E δ a b hits sel I) :
    Overlapping E δ b a (hits.map swapHit) (sel.map fun x => (swapHit x.1, x.2)) (fun s => I (!s)) := by
  have hsp : ∀ s, operand b a s = operand a b (!s) := by intro s; cases s <;> rfl
  have hkey : ∀ s (x : CHit K), keyOf s (interOf (swapHit x)) = keyOf (!s) (interOf x) := by intro s x; cases s <;> rfl
  have hks : ∀ s, ((sel.map fun x => (swapHit x.1, x.2)).map fun x => keyOf s (interOf x.1)) = sel.map fun x => keyOf (!s) (interOf x.1) := by
    intro s; simp [List.map_map, Function.comp_def, hkey]
  refine ⟨?_, ?_, ?_, ?_, ?_, ?_⟩
  · obtain ⟨ds, h1, h2⟩ := h.classified
    refine ⟨_, classify_swap ht h1, ?_⟩
    rw [select_map (fun x : CHit K × Degeneracy K => (swapHit x.1, x.2))]
    simp only [h2]; rfl
  · have := h.ne
    simpa using this
  · obtain ⟨P, hP⟩ := h.cross
    refine ⟨P, ?_⟩
    have hits' : ((sel.map fun x => (swapHit x.1, x.2)).map fun x => interOf x.1) = (sel.map fun x => interOf x.1).map fun i => ⟨i.b, i.a⟩ := by
      simp [List.map_map, Function.comp_def, interOf, swapHit]
    have hk' : ∀ s (i : Boolean.Inter K), keyOf s (⟨i.b, i.a⟩ : Boolean.Inter K) = keyOf (!s) i := by intro s i; cases s <;> rfl
    rw [hits']
    refine ⟨?_, ?_, ?_, ?_, ?_, ?_, ?_, ?_⟩
    · intro s; rw [hsp]; exact hP.circuit _
    · intro s i hi
      obtain ⟨j, hj, rfl⟩ := List.mem_map.1 hi
      rw [hsp, hk']; exact hP.inner _ j hj
    · intro s
      rw [List.pairwise_map]
      simp only [hk']; exact hP.gap _
    · intro s k i hi
      rw [List.getElem?_map, Option.map_eq_some_iff] at hi
      obtain ⟨j, hj, rfl⟩ := hi
      rw [hsp, hk']; exact hP.near _ k j hj
    · intro k m hk hm; rw [List.length_map] at hk hm; exact hP.hits k m hk hm
    · intro k hk s; rw [List.length_map] at hk; rw [hsp]; exact hP.hitJoint k hk _
    · intro s; rw [hsp]; exact hP.joints _
    · intro c hc d hd
      rw [hE.metric.symm]
      exact hP.others d hd c hc
  · intro s
    rw [hks, hsp]; exact h.flips _
  · exact h.startB
  · exact h.startA

/-- **C110**: union and intersection of two curves in either order have the same boundary, when the same intersections are given. -/
theorem C110_exchange {E : Env K} {δ : K} {a b : PCurve K ⊕ List (PCurve K)} {hits : List (CHit K)}
    {sel : List (CHit K × Degeneracy K)} {I : Bool → K → Bool} (hE : Sane E δ) (ht : 0 ≤ E.tol) (h : Overlapping E δ a b hits sel I)
    {op : Op} (hop : op ≠ .diff) :
    ∃ rs rs', E.clip op a b hits = .ok rs ∧ E.clip op b a (hits.map swapHit) = .ok rs' ∧
      ∀ Q, Trace E.eps (rs'.flatMap fun r => r.exterior) Q ↔ Trace E.eps (rs.flatMap fun r => r.exterior) Q := by
  refine C110_commutative hE h (h.swap hE ht) (fun s t => ?_) hop
  have hkey : ∀ s (x : CHit K), keyOf s (interOf (swapHit x)) = keyOf (!s) (interOf x) := by intro s x; cases s <;> rfl
  simp [List.map_map, Function.comp_def, hkey]

/-- **C110**: the two differences share out the two curves as well. -/
theorem C110_differences {E : Env K} {δ : K} {a b : PCurve K ⊕ List (PCurve K)} {hits : List (CHit K)}
    {sel : List (CHit K × Degeneracy K)} {I : Bool → K → Bool} (hE : Sane E δ) (ht : 0 ≤ E.tol) (h : Overlapping E δ a b hits sel I) :
    ∃ D D', E.clip .diff a b hits = .ok D ∧ E.clip .diff b a (hits.map swapHit) = .ok D' ∧ ∀ Q,
      (Trace E.eps (D.flatMap fun r => r.exterior) Q ∨ Trace E.eps (D'.flatMap fun r => r.exterior) Q) ↔
        (Trace E.eps (spansOf a) Q ∨ Trace E.eps (spansOf b) Q) := by
  obtain ⟨D, hD, d⟩ := h.result hE .diff
  obtain ⟨D', hD', d'⟩ := (h.swap hE ht).result hE .diff
  refine ⟨D, D', hD, hD', fun Q => ?_⟩
  have ha := onPart_or (E := E) (a := a) (b := b) (sel := sel) (I := I) (s := true) (Q := Q)
  have hb := onPart_or (E := E) (a := a) (b := b) (sel := sel) (I := I) (s := false) (Q := Q)
  have hp : ∀ s w, OnPart E b a (sel.map fun x => (swapHit x.1, x.2)) (fun s => I (!s)) s w Q ↔ OnPart E a b sel I (!s) w Q := by
    intro s w
    have hkey : ∀ s (x : CHit K), keyOf s (interOf (swapHit x)) = keyOf (!s) (interOf x) := by intro s x; cases s <;> rfl
    unfold OnPart
    rw [show operand b a s = operand a b (!s) by cases s <;> rfl]
    simp only [List.map_map, Function.comp_def, hkey]
  rw [d, d', hp, hp]
  simp only [wantsInside, Bool.not_true, Bool.not_false] at *
  simp only [operand, if_true, Bool.false_eq_true, if_false] at ha hb
  rw [← ha, ← hb]
  tauto

/-! ### Two overlapping squares -/

example : ∃ c ∈ spansOf exYard', c.lo = loOf (spansOf exYard') ∧ exYardEnv.firstPoint exYard' = .ok (startPt c) ∧
    c.pointAt exYardEnv.eps c.lo = .ok (startPt c) :=
  C87_start_point (exYard_crossing.circuit false)

theorem exYard_sane : Sane exYardEnv 0 :=
  ⟨exYard_metric, le_rfl, by norm_num [exYardEnv], by norm_num [exYardEnv], by norm_num [exYardEnv]⟩

theorem exYard_overlapping : Overlapping exYardEnv 0 exField' exYard' exCorners (exCorners.map fun h => (h, (Degeneracy.none : Degeneracy ℚ)))
    exInside :=
  ⟨⟨_, exCorners_regular, by rfl⟩, by simp [exCorners], ⟨_, exYard_crossing⟩, exInside_flips, by decide +kernel, by decide +kernel⟩

example : ∃ rs rs', exYardEnv.clip .union exField' exYard' exCorners = .ok rs ∧
    exYardEnv.clip .union exYard' exField' (exCorners.map swapHit) = .ok rs' ∧
    ∀ Q, Trace exYardEnv.eps (rs'.flatMap fun r => r.exterior) Q ↔ Trace exYardEnv.eps (rs.flatMap fun r => r.exterior) Q :=
  C110_exchange exYard_sane (by norm_num [exYardEnv]) exYard_overlapping (by decide)

example : ∃ U N, exYardEnv.clip .union exField' exYard' exCorners = .ok U ∧ exYardEnv.clip .inter exField' exYard' exCorners = .ok N ∧
    ∀ Q, (Trace exYardEnv.eps (U.flatMap fun r => r.exterior) Q ∨ Trace exYardEnv.eps (N.flatMap fun r => r.exterior) Q) ↔
      (Trace exYardEnv.eps (spansOf exField') Q ∨ Trace exYardEnv.eps (spansOf exYard') Q) :=
  C110_shared_out exYard_sane exYard_overlapping

end Curvo.Props

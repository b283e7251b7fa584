/-
  Evaluation of the model equals the B-spline sum (basis for C09 and everything after it).
-/
import Verif.Lemmas.Res
import Verif.Lemmas.Knot
import Verif.Lemmas.BSpline2
import Verif.Props.Knot
import Verif.Spec.Curve

set_option linter.unusedSectionVars false

namespace Curvo.Curve

open Curvo.Spec Curvo.Knots

variable {K : Type} [Field K] [LinearOrder K]
variable {V : Type} [AddCommGroup V] [Module K V]

theorem sumPoints_eq {cps : List V} {b : ℕ → K} {off p : ℕ} (h : off + p < cps.length) :
    sumPoints cps ((List.range (p + 1)).map b) off p =
      .ok ((Finset.range (p + 1)).sum fun r => b r • cps.getD (off + r) 0) := by
  unfold sumPoints
  rw [foldlM_sum (g := fun r => b r • cps.getD (off + r) 0)]
  · simp
  · intro acc i hi
    rw [getR_eq_getD (0 : V) (by omega), getR_eq_getD (0 : K) (by simpa using hi)]
    simp only [ok_bind, pure_eq_ok, List.getD_eq_getElem?_getD, List.getElem?_map,
      List.getElem?_range hi, Option.map_some, Option.getD_some]

theorem Good.lastIndex {eps : K} {c : Curve K V} (h : c.Good eps) :
    c.lastIndex = .ok (c.cps.length - 1) := by
  have := h.cps_pos
  have := h.knots_len
  rw [Curve.lastIndex, subR_eq_ok (by omega), ok_bind, subR_eq_ok (by omega)]
  congr 1; omega

/-- evaluation when the span search answers `s`, a non degenerate span -/
theorem point_of_span {eps : K} {c : Curve K V} {u : K} (h : c.Good eps) {s : ℕ}
    (hs : findKnotSpanIndex eps c.knots (c.cps.length - 1) c.degree u = .ok s)
    (hps : c.degree ≤ s) (hsn : s ≤ c.cps.length - 1) (hspan : kf c.knots s < kf c.knots (s + 1)) :
    c.point eps u = .ok ((Finset.range (c.degree + 1)).sum fun r =>
      NS (kf c.knots) s c.degree (s - c.degree + r) u • c.cps.getD (s - c.degree + r) 0) := by
  have hl := h.knots_len
  have := h.cps_pos
  rw [point, h.lastIndex, ok_bind, hs, ok_bind, basisFunctions_eq c.degree hps (by omega)
    (fun i j hi hj hj' => ne_across h.good.mono hspan i j hi hj (by omega)), ok_bind,
    subR_eq_ok hps, ok_bind, sumPoints_eq (by omega)]

theorem inSpan_lt {k : ℕ → K} {b u : K} {s : ℕ} (h : InSpan k b u s) : k s < k (s + 1) := by
  unfold InSpan at h
  split at h
  · exact lt_of_lt_of_le h.1 h.2
  · exact lt_of_le_of_lt h.1 h.2

theorem inSpan_le {k : ℕ → K} {b u : K} {s : ℕ} (h : InSpan k b u s) : k s ≤ u ∧ u ≤ k (s + 1) := by
  unfold InSpan at h
  split at h
  · exact ⟨h.1.le, h.2⟩
  · exact ⟨h.1, h.2.le⟩

theorem hi_eq {c : Curve K V} {eps : K} (h : c.Good eps) :
    kf c.knots (c.cps.length - 1 + 1) = c.hi := by
  have := h.cps_pos
  rw [Nat.sub_add_cancel this]; rfl

variable [IsStrictOrderedRing K]

/-- Every parameter of the domain of a good curve has an active span. -/
theorem Good.exists_span {eps : K} {c : Curve K V} {u : K} (h : c.Good eps) (h1 : c.lo ≤ u)
    (h2 : u ≤ c.hi) : ∃ s, findKnotSpanIndex eps c.knots (c.cps.length - 1) c.degree u = .ok s ∧
      c.degree ≤ s ∧ s ≤ c.cps.length - 1 ∧ InSpan (kf c.knots) c.hi u s := by
  have := h.cps_pos
  have hl := h.knots_len
  rw [← hi_eq h] at h2 ⊢
  exact Props.C01_span_brackets (by omega) h.good h1 h2

/-- The model evaluates to the B-spline sum over all control points. -/
theorem point_eq_eval {eps : K} {c : Curve K V} {u : K} (h : c.Good eps) (h1 : c.lo ≤ u)
    (h2 : u ≤ c.hi) : c.point eps u = .ok (c.eval u) := by
  obtain ⟨s, hs, hps, hsn, hin⟩ := h.exists_span h1 h2
  rw [point_of_span h hs hps hsn (inSpan_lt hin), eval,
    curve_eq_span h.good.mono _ hps hsn (by rw [hi_eq h]; exact hin)]

/-- The denotation on an active span. -/
theorem eval_eq_span {eps : K} {c : Curve K V} {u : K} (h : c.Good eps) {s : ℕ} (hps : c.degree ≤ s)
    (hsn : s ≤ c.cps.length - 1) (hin : InSpan (kf c.knots) c.hi u s) :
    c.eval u = (Finset.range (c.degree + 1)).sum fun r =>
      NS (kf c.knots) s c.degree (s - c.degree + r) u • c.cps.getD (s - c.degree + r) 0 := by
  rw [eval, curve_eq_span h.good.mono _ hps hsn (by rw [hi_eq h]; exact hin)]

/-- The denotation on an active span, as a sum over all control points. -/
theorem eval_eq_NS {eps : K} {c : Curve K V} {u : K} (h : c.Good eps) {s : ℕ}
    (hsn : s ≤ c.cps.length - 1) (hin : InSpan (kf c.knots) c.hi u s) :
    c.eval u = (Finset.range c.cps.length).sum fun i =>
      NS (kf c.knots) s c.degree i u • c.cps.getD i 0 := by
  have hpos := h.cps_pos
  rw [eval, curve, Nat.sub_add_cancel hpos]
  apply Finset.sum_congr rfl
  intro i hi
  have := Finset.mem_range.1 hi
  have hin' : InSpan (kf c.knots) (kf c.knots c.cps.length) u s := hin
  rw [N_eq_NS h.good.mono (s := s) (by omega) hin' _ _ (by omega)]

/-- For continuous knots any non degenerate span whose closure contains `u` may be used. -/
theorem eval_eq_closed_span {eps : K} {c : Curve K V} {u : K} (h : c.Good eps)
    (hc : ContKnots (kf c.knots) c.degree (c.cps.length - 1)) {s : ℕ} (hps : c.degree ≤ s)
    (hsn : s ≤ c.cps.length - 1) (hspan : kf c.knots s < kf c.knots (s + 1))
    (h1 : kf c.knots s ≤ u) (h2 : u ≤ kf c.knots (s + 1)) :
    c.eval u = (Finset.range c.cps.length).sum fun i =>
      NS (kf c.knots) s c.degree i u • c.cps.getD i 0 := by
  have hpos := h.cps_pos
  have hlo : c.lo ≤ u := le_trans (h.good.mono _ _ hps (by omega)) h1
  have hhi : u ≤ c.hi := by
    refine le_trans h2 ?_
    rw [← hi_eq h]; exact h.good.mono _ _ (by omega) (by omega)
  by_cases hu : u = c.hi
  · have : InSpan (kf c.knots) c.hi u s := by
      rw [InSpan, if_pos hu]
      refine ⟨?_, h2⟩
      rw [hu]; refine lt_of_lt_of_le hspan ?_
      rw [← hi_eq h]; exact h.good.mono _ _ (by omega) (by omega)
    exact eval_eq_NS h hsn this
  · rcases lt_or_eq_of_le h2 with hlt | heq
    · exact eval_eq_NS h hsn (by rw [InSpan, if_neg hu]; exact ⟨h1, hlt⟩)
    · obtain ⟨s₁, _, hps1, hsn1, hin⟩ := h.exists_span hlo hhi
      have hin' := hin
      rw [InSpan, if_neg hu] at hin'
      have hlt : s < s₁ := by
        by_contra hge
        have := h.good.mono (s₁ + 1) (s + 1) (by omega) (by omega)
        exact absurd (lt_of_lt_of_le hin'.2 this) (by rw [heq]; exact lt_irrefl _)
      have hm : ∀ j, s < j → j ≤ s₁ → kf c.knots j = u := by
        intro j hj hj'
        apply le_antisymm
        · exact le_trans (h.good.mono _ _ hj' (by omega)) hin'.1
        · rw [heq]; exact h.good.mono _ _ hj (by omega)
      have hmul : s₁ ≤ s + c.degree := by
        by_contra hgt
        have := hc (s + 1) (by omega) (by omega)
        rw [hm (s + 1) (by omega) (by omega), hm (s + 1 + c.degree) (by omega) (by omega)] at this
        exact lt_irrefl _ this
      rw [eval_eq_NS h hsn1 hin]
      apply Finset.sum_congr rfl
      intro i _
      rw [NS_cont hlt hm (by rw [heq]; exact hspan.ne) hin'.2.ne' _ hmul]

end Curvo.Curve

/-
  Property theorems about end points, closedness and sampling with parameters: C61, C67.
-/
import Verif.Props.Curve2
import Verif.Props.Bezier

set_option linter.unusedSectionVars false

namespace Curvo.Props

open Curvo Curvo.Knots Curvo.Spec Curvo.Curve

variable {K : Type} [Field K] [LinearOrder K] [IsStrictOrderedRing K]
variable {V W : Type} [AddCommGroup V] [Module K V] [AddCommGroup W] [Module K W]

/-- Sampling with parameters returns the same points as sampling without, each paired with its parameter. -/
theorem C61_with_parameter {eps : K} {c : Curve K (W × K)} {start stop : K} {n : ℕ} (hn : 2 ≤ n)
    {r : List (K × W)} (h : c.sampleRegularRangeWithParameter eps start stop n = .ok r) :
    c.sampleRegularRange eps start stop n = .ok (r.map Prod.snd) ∧
    (∀ i (hi : i < r.length), r[i].1 = start + i * ((stop - start) / ((n : K) - 1)) ∧
      c.pointAt eps r[i].1 = .ok r[i].2) := by
  have hden : ((n : K) - 1) ≠ 0 := by
    have : (2 : K) ≤ n := by exact_mod_cast hn
    intro h; linarith
  have h' := mapM_ok_inv h
  have hlen : r.length = n := by simpa using h'.length_eq.symm
  have key : ∀ i (hi : i < r.length), r[i].1 = start + i * ((stop - start) / ((n : K) - 1)) ∧
      c.pointAt eps r[i].1 = .ok r[i].2 := by
    intro i hi
    have := List.Forall₂.get h' (i := i) (by simpa using (by omega : i < n)) hi
    rw [divR_eq_ok hden, ok_bind] at this
    obtain ⟨p, hp, e⟩ := bind_eq_ok.1 this
    have e : ((_ : K), p) = r[i] := Except.ok.inj e
    simp only [List.get_eq_getElem, List.getElem_range] at e hp
    rw [← e]
    exact ⟨rfl, hp⟩
  refine ⟨?_, key⟩
  have : r.map Prod.snd = (List.range n).map fun i => ((r.map Prod.snd)[i]?).getD 0 := by
    apply List.ext_getElem
    · simp [hlen]
    · intro i h1 h2
      simp at h1
      simp [h1]
  rw [this]
  apply mapM_ok
  intro i hi
  have hi : i < r.length := by rw [hlen]; exact List.mem_range.1 hi
  rw [divR_eq_ok hden, ok_bind]
  obtain ⟨k1, k2⟩ := key i hi
  rw [← k1, k2]
  simp [hi]

example : ∃ r, exCurve.sampleRegularRangeWithParameter (1/1000) 1 3 3 = .ok r ∧ r.map Prod.fst = [1, 2, 3] := by
  refine ⟨(match exCurve.sampleRegularRangeWithParameter (1/1000) 1 3 3 with | .ok r => r | .error _ => []), ?_, ?_⟩ <;>
    decide +kernel

/-! ### C67 -/

theorem lo_lt_hi {eps : K} {c : Curve K V} (h : c.Good eps) : c.lo < c.hi := by
  have := h.good.le
  have := h.cps_pos
  refine lt_of_lt_of_le h.good.first ?_
  rw [← hi_eq h]; exact h.good.mono _ _ (by omega) (by omega)

/-- The first point is the curve at the start of its domain and the end point the curve at its end. -/
theorem C67_end_points {eps : K} {c : Curve K (W × K)} (h : c.Good eps) :
    c.firstPoint eps = c.pointAt eps c.lo ∧ c.endPoint eps = c.pointAt eps c.hi := by
  constructor
  · rw [firstPoint, knotsDomain_eq h]; rfl
  · rw [endPoint, knotsDomain_eq h]; rfl

/-- For a curve clamped at both ends these are the first and the last control point. -/
theorem C67_end_points_clamped {eps : K} {c : Curve K (W × K)} (h : c.Good eps) (hw : ∀ p ∈ c.cps, p.2 ≠ 0)
    (hs : kf c.knots 0 = kf c.knots c.degree) (he : kf c.knots c.cps.length = kf c.knots (c.cps.length + c.degree)) :
    ∃ pts, c.dehomogenizedCps = .ok pts ∧ ∃ a b, pts.head? = some a ∧ pts.getLast? = some b ∧
      c.firstPoint eps = .ok a ∧ c.endPoint eps = .ok b := by
  have hpos := h.cps_pos
  have e1 : c.dehomogenizedCps = .ok (c.cps.map fun p => p.2⁻¹ • p.1) := by
    unfold Curve.dehomogenizedCps
    apply mapM_ok
    intro p hp
    rw [Curve.dehomogenize, if_pos (hw p hp)]; rfl
  obtain ⟨f1, f2⟩ := C67_end_points h
  have hg0 : c.cps.getD 0 0 = c.cps[0] := by simp [List.getD_eq_getElem?_getD, hpos]
  have hg1 : c.cps.getD (c.cps.length - 1) 0 = c.cps[c.cps.length - 1] := by
    rw [List.getD_eq_getElem?_getD, List.getElem?_eq_getElem (by omega)]; rfl
  refine ⟨_, e1, (c.cps[0]).2⁻¹ • (c.cps[0]).1, (c.cps[c.cps.length - 1]).2⁻¹ • (c.cps[c.cps.length - 1]).1, ?_, ?_, ?_, ?_⟩
  · rw [List.head?_map, List.head?_eq_getElem?, List.getElem?_eq_getElem hpos]; rfl
  · rw [List.getLast?_map, List.getLast?_eq_getElem?, List.getElem?_eq_getElem (by omega)]; rfl
  · rw [f1, pointAt, C11_clamped_start h hs, ok_bind, hg0, dehomogenize, if_pos (hw _ (List.getElem_mem _))]; rfl
  · rw [f2, pointAt, C11_clamped_end h he, ok_bind, hg1, dehomogenize, if_pos (hw _ (List.getElem_mem _))]; rfl

/-- A sorted list whose head occurs at least `k + 1` times has it at index `k`. -/
theorem kf_of_count_head {ks : List K} (hsort : ks.Pairwise (· ≤ ·)) (hne : ks ≠ []) {k : ℕ}
    (hc : k + 1 ≤ ks.count (ks.head hne)) : kf ks 0 = kf ks k := by
  have hlen : k < ks.length := lt_of_lt_of_le hc List.count_le_length
  have h0 : kf ks 0 = ks.head hne := by
    cases ks with
    | nil => exact absurd rfl hne
    | cons a l => rfl
  by_contra hcon
  have hm := mono_of_sorted (m := ks.length - 1) hsort (by omega)
  have hlt : kf ks 0 < kf ks k := lt_of_le_of_ne (hm 0 k (by omega) (by omega)) hcon
  have hdrop : (ks.drop k).count (ks.head hne) = 0 := by
    rw [List.count_eq_zero]
    intro hmem
    obtain ⟨i, hi, e⟩ := List.mem_iff_getElem.1 hmem
    rw [List.length_drop] at hi
    rw [List.getElem_drop] at e
    have : kf ks (k + i) = ks.head hne := by
      rw [← e, kf, List.getD_eq_getElem?_getD, List.getElem?_eq_getElem (by omega)]; rfl
    have h2 := hm k (k + i) (by omega) (by omega)
    rw [this, ← h0] at h2
    exact absurd hlt (not_lt.2 h2)
  have hsplit : ks.count (ks.head hne) = (ks.take k).count (ks.head hne) + (ks.drop k).count (ks.head hne) := by
    have := List.count_append (a := ks.head hne) (l₁ := ks.take k) (l₂ := ks.drop k)
    rwa [List.take_append_drop] at this
  have htake : (ks.take k).count (ks.head hne) ≤ k := le_trans List.count_le_length (by simp)
  omega

theorem kf_of_count_last {ks : List K} (hsort : ks.Pairwise (· ≤ ·)) (hne : ks ≠ []) {k : ℕ}
    (hc : k + 1 ≤ ks.count (ks.getLast hne)) : kf ks (ks.length - 1 - k) = kf ks (ks.length - 1) := by
  have hlen : k < ks.length := lt_of_lt_of_le hc List.count_le_length
  have h0 : kf ks (ks.length - 1) = ks.getLast hne := by
    rw [kf, List.getD_eq_getElem?_getD, ← List.getLast?_eq_getElem?, List.getLast?_eq_some_getLast hne]; rfl
  by_contra hcon
  have hm := mono_of_sorted (m := ks.length - 1) hsort (by omega)
  have hlt : kf ks (ks.length - 1 - k) < kf ks (ks.length - 1) :=
    lt_of_le_of_ne (hm _ _ (by omega) (by omega)) hcon
  have htake : (ks.take (ks.length - k)).count (ks.getLast hne) = 0 := by
    rw [List.count_eq_zero]
    intro hmem
    obtain ⟨i, hi, e⟩ := List.mem_iff_getElem.1 hmem
    rw [List.length_take] at hi
    rw [List.getElem_take] at e
    have : kf ks i = ks.getLast hne := by
      rw [← e, kf, List.getD_eq_getElem?_getD, List.getElem?_eq_getElem (by omega)]; rfl
    have h2 := hm i (ks.length - 1 - k) (by omega) (by omega)
    rw [this, ← h0] at h2
    exact absurd hlt (not_lt.2 h2)
  have hsplit : ks.count (ks.getLast hne) =
      (ks.take (ks.length - k)).count (ks.getLast hne) + (ks.drop (ks.length - k)).count (ks.getLast hne) := by
    have := List.count_append (a := ks.getLast hne) (l₁ := ks.take (ks.length - k)) (l₂ := ks.drop (ks.length - k))
    rwa [List.take_append_drop] at this
  have hdrop : (ks.drop (ks.length - k)).count (ks.getLast hne) ≤ k :=
    le_trans List.count_le_length (by simp; omega)
  omega

/-- The closedness test compares the two end points of the curve, clamped or not. (Knots are assumed equal or
    further than the tolerance apart: the code takes knots within the tolerance as equal.) -/
theorem C67_is_closed {eps : K} {c : Curve K (W × K)} (h : c.Good eps) (hw : ∀ p ∈ c.cps, 0 < p.2)
    (hsep : ∀ x ∈ c.knots, ∀ y ∈ c.knots, x ≠ y → eps < |x - y|) (dist : W → W → K) :
    ∃ a b, c.firstPoint eps = .ok a ∧ c.endPoint eps = .ok b ∧
      c.isClosed eps dist = .ok (decide (dist a b < eps * 10)) := by
  have hpos := h.cps_pos
  have hkl := h.knots_len
  have hne : c.knots ≠ [] := by intro e; rw [e] at hkl; simp at hkl
  have hsort : c.knots.Pairwise (· ≤ ·) := by
    rw [List.pairwise_iff_getElem]
    intro i j hi hj hij
    have := h.good.mono i j (by omega) (by omega)
    simpa [kf, List.getD_eq_getElem?_getD, hi, hj] using this
  obtain ⟨b, eb, hb⟩ := C06_is_clamped h.good.eps_nonneg hne hsort hsep c.degree
  have hlh := lo_lt_hi h
  cases b with
  | true =>
    obtain ⟨c1, c2⟩ := hb.1 rfl
    have hs := kf_of_count_head hsort hne c1
    have he := kf_of_count_last hsort hne c2
    rw [hkl] at he
    have he' : kf c.knots c.cps.length = kf c.knots (c.cps.length + c.degree) := by
      rw [show c.cps.length + c.degree + 1 - 1 - c.degree = c.cps.length by omega] at he
      rw [he]; rfl
    obtain ⟨pts, ep, x, y, hx, hy, h1, h2⟩ := C67_end_points_clamped h (fun p hp => (hw p hp).ne') hs he'
    refine ⟨x, y, h1, h2, ?_⟩
    have hlen : pts.length = c.cps.length := by simpa using (mapM_ok_inv ep).length_eq.symm
    rw [isClosed, eb, ok_bind, if_pos rfl, ep, ok_bind, getR_ok_iff.2 (by rw [← hx, List.head?_eq_getElem?]), ok_bind,
      subR_eq_ok (by omega), ok_bind, getR_ok_iff.2 (show pts[c.cps.length - 1]? = some y by
        rw [← hy, List.getLast?_eq_getElem?, hlen])]
    rfl
  | false =>
    obtain ⟨f1, f2⟩ := C67_end_points h
    obtain ⟨p1, _⟩ := C09_point_at_positive_weights h hw (le_refl _) hlh.le
    obtain ⟨p2, _⟩ := C09_point_at_positive_weights h hw hlh.le (le_refl _)
    refine ⟨_, _, by rw [f1, p1], by rw [f2, p2], ?_⟩
    rw [isClosed, eb, ok_bind, if_neg (by simp), knotsDomain_eq h, ok_bind]
    simp only []
    rw [p1, ok_bind, p2]
    rfl

/-- Witness: an open curve, and a closed one. -/
example : ∃ a b, exCurve.firstPoint (1/1000) = .ok a ∧ exCurve.endPoint (1/1000) = .ok b ∧
      exCurve.isClosed (1/1000) (fun a b => |a.1 - b.1| + |a.2 - b.2|) = .ok (decide (|a.1 - b.1| + |a.2 - b.2| < 1/1000 * 10)) :=
  C67_is_closed exCurve_good exCurve_weights exKnots_sep _

example : exCurve.isClosed (1/1000) (fun a b => |a.1 - b.1| + |a.2 - b.2|) = .ok false := by decide +kernel

example : ({ exCurve with cps := [((0, 0), 1), ((2, 4), 2), ((3, 1), 1), ((4, 4), 1/2), ((5, 0), 1), ((0, 0), 3)] } :
    Curve ℚ ((ℚ × ℚ) × ℚ)).isClosed (1/1000) (fun a b => |a.1 - b.1| + |a.2 - b.2|) = .ok true := by decide +kernel

end Curvo.Props

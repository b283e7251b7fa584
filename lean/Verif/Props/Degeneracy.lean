/-
  C86: classification of the intersections of two curves by the boolean operations.
-/
import Mathlib.Tactic.Linarith
import Mathlib.Tactic.FieldSimp
import Mathlib.Tactic.LinearCombination
import Verif.Model.BoolEntry
import Verif.Props.Polygon
import Verif.Props.TraverseParams
import Verif.Props.Surface2
import Mathlib.Data.Real.Sqrt

set_option linter.unusedSectionVars false

namespace Curvo.Props

open Curvo.Boolean

variable {K : Type} [Field K] [LinearOrder K] [IsStrictOrderedRing K]

/-! ### Specification -/

/-- The scalar product and the signed area of two directions of the plane. -/
def dot2 (v w : Fin 2 → K) : K := v 0 * w 0 + v 1 * w 1
def area2 (v w : Fin 2 → K) : K := v 0 * w 1 - v 1 * w 0

/-- Two chords of the plane share a point and are not parallel. -/
def ChordsCross (a0 a1 b0 b1 : Fin 2 → K) : Prop :=
  area2 (a1 - a0) (b1 - b0) ≠ 0 ∧
    ∃ x y : K, 0 ≤ x ∧ x ≤ 1 ∧ 0 ≤ y ∧ y ≤ 1 ∧ ∀ i, a0 i + x * (a1 i - a0 i) = b0 i + y * (b1 i - b0 i)

/-- `x` is the euclidean length of `v`. -/
def IsLength (x : K) (v : Fin 2 → K) : Prop := 0 ≤ x ∧ x * x = dot2 v v

theorem IsLength.pos {x : K} {v w : Fin 2 → K} (h : IsLength x v) (hv : area2 v w ≠ 0 ∨ area2 w v ≠ 0) : 0 < x := by
  refine lt_of_le_of_ne h.1 fun h0 => ?_
  have h2 := h.2
  rw [← h0] at h2
  simp only [dot2, zero_mul] at h2
  have e0 : v 0 = 0 := by nlinarith [mul_self_nonneg (v 0), mul_self_nonneg (v 1)]
  have e1 : v 1 = 0 := by nlinarith [mul_self_nonneg (v 0), mul_self_nonneg (v 1)]
  rcases hv with h | h <;> exact h (by simp [area2, e0, e1])

/-! ### The line test -/

theorem lineIntersects_chords {tol : K} (ht : 0 ≤ tol) (a0 a1 b0 b1 : Fin 2 → K) :
    Misc.lineIntersects tol (toPair a0) (toPair a1) (toPair b0) (toPair b1) = true ↔ ChordsCross a0 a1 b0 b1 := by
  have hmeet : SegmentsMeet (toPair a0) (toPair a1) (toPair b0) (toPair b1) ↔
      ∃ x y : K, 0 ≤ x ∧ x ≤ 1 ∧ 0 ≤ y ∧ y ≤ 1 ∧ ∀ i, a0 i + x * (a1 i - a0 i) = b0 i + y * (b1 i - b0 i) := by
    constructor
    · rintro ⟨x, y, h1, h2, h3, h4, h5, h6⟩
      refine ⟨x, y, h1, h2, h3, h4, fun i => ?_⟩
      fin_cases i
      · exact h5
      · exact h6
    · rintro ⟨x, y, h1, h2, h3, h4, h5⟩
      exact ⟨x, y, h1, h2, h3, h4, h5 0, h5 1⟩
  by_cases hc : Misc.det (toPair a0) (toPair a1) (toPair b0) = 0 ∧ Misc.det (toPair a0) (toPair a1) (toPair b1) = 0 ∧
      Misc.det (toPair b0) (toPair b1) (toPair a0) = 0 ∧ Misc.det (toPair b0) (toPair b1) (toPair a1) = 0
  · rw [C58_collinear_false tol hc]
    constructor
    · intro h; cases h
    · rintro ⟨h, -⟩
      exfalso
      apply h
      have h1 := hc.1
      have h2 := hc.2.1
      simp only [Misc.det, toPair] at h1 h2
      simp only [area2, Pi.sub_apply]
      linear_combination h2 - h1
  · rw [C58_intersects_iff ht hc, hmeet]
    refine ⟨fun h => ⟨fun h0 => hc ?_, h⟩, fun h => h.2⟩
    obtain ⟨x, y, -, -, -, -, h⟩ := h
    have e0 := h 0
    have e1 := h 1
    simp only [area2, Pi.sub_apply] at h0
    simp only [Misc.det, toPair]
    refine ⟨?_, ?_, ?_, ?_⟩
    · linear_combination (a1 0 - a0 0) * -e1 + (a1 1 - a0 1) * e0 - y * h0
    · linear_combination (a1 0 - a0 0) * -e1 + (a1 1 - a0 1) * e0 + (1 - y) * h0
    · linear_combination (b1 0 - b0 0) * e1 - (b1 1 - b0 1) * e0 + x * h0
    · linear_combination (b1 0 - b0 0) * e1 - (b1 1 - b0 1) * e0 + (x - 1) * h0

/-! ### C86 -/

variable {norm : (Fin 2 → K) → K} {eps tol s t : K} {a b : PCurve K} {a0 a1 b0 b1 : Fin 2 → K}

/-- The classification looks at the chords of the two curves from one ten thousandth before to one ten thousandth after the
    parameters of the intersection. It always answers: regular if and only if the chords cross with an angle whose cosine
    is below 0.9975, otherwise the cosine if they cross, otherwise that they do not cross. -/
theorem C86_classify (ht : 0 ≤ tol) (ha0 : a.pointAt eps (s - 1 / 10000) = .ok a0) (ha1 : a.pointAt eps (s + 1 / 10000) = .ok a1)
    (hb0 : b.pointAt eps (t - 1 / 10000) = .ok b0) (hb1 : b.pointAt eps (t + 1 / 10000) = .ok b1)
    (hna : IsLength (norm (a1 - a0)) (a1 - a0)) (hnb : IsLength (norm (b1 - b0)) (b1 - b0)) :
    (ChordsCross a0 a1 b0 b1 ∧ |dot2 (a1 - a0) (b1 - b0)| < 9975 / 10000 * (norm (a1 - a0) * norm (b1 - b0)) ∧
      degeneracy norm eps tol a b s t = .ok .none) ∨
    (∃ x, ChordsCross a0 a1 b0 b1 ∧ 9975 / 10000 ≤ x ∧
      |dot2 (a1 - a0) (b1 - b0)| = x * (norm (a1 - a0) * norm (b1 - b0)) ∧
      degeneracy norm eps tol a b s t = .ok (.angle x)) ∨
    (¬ ChordsCross a0 a1 b0 b1 ∧ degeneracy norm eps tol a b s t = .ok .lineIntersection) := by
  have hd : degeneracy norm eps tol a b s t =
      if Misc.lineIntersects tol (toPair a0) (toPair a1) (toPair b0) (toPair b1) then (do
        let ta ← divV (a1 - a0) (norm (a1 - a0))
        let tb ← divV (b1 - b0) (norm (b1 - b0))
        pure (if |∑ i, ta i * tb i| < collinearDot then .none else .angle |∑ i, ta i * tb i|))
      else pure .lineIntersection := by
    rw [degeneracy, paramStep, ha0, ok_bind, ha1, ok_bind, hb0, ok_bind, hb1, ok_bind]
  by_cases hx : ChordsCross a0 a1 b0 b1
  · have pa := hna.pos (.inl hx.1)
    have pb := hnb.pos (.inr hx.1)
    have pp := mul_pos pa pb
    rw [if_pos ((lineIntersects_chords ht _ _ _ _).2 hx), divV, if_neg pa.ne', ok_bind, divV, if_neg pb.ne', ok_bind] at hd
    obtain ⟨c, hc⟩ : ∃ c, c = |∑ i, ((norm (a1 - a0))⁻¹ • (a1 - a0)) i * ((norm (b1 - b0))⁻¹ • (b1 - b0)) i| := ⟨_, rfl⟩
    rw [← hc] at hd
    have hcos : |dot2 (a1 - a0) (b1 - b0)| = c * (norm (a1 - a0) * norm (b1 - b0)) := by
      have hs : (∑ i, ((norm (a1 - a0))⁻¹ • (a1 - a0)) i * ((norm (b1 - b0))⁻¹ • (b1 - b0)) i) *
          (norm (a1 - a0) * norm (b1 - b0)) = dot2 (a1 - a0) (b1 - b0) := by
        rw [Fin.sum_univ_two]
        simp only [Pi.smul_apply, smul_eq_mul, dot2]
        field_simp
      rw [← hs, abs_mul, abs_of_pos pp, hc]
    by_cases hlt : c < 9975 / 10000
    · left
      rw [collinearDot, if_pos hlt] at hd
      exact ⟨hx, by rw [hcos]; exact mul_lt_mul_of_pos_right hlt pp, hd⟩
    · right; left
      rw [collinearDot, if_neg hlt] at hd
      exact ⟨c, hx, not_lt.1 hlt, hcos, hd⟩
  · right; right
    rw [if_neg (by rw [lineIntersects_chords ht]; exact hx)] at hd
    exact ⟨hx, hd⟩

/-- When the curves are straight around the intersection, the answer depends on the angle of the two lines only: regular if
    it is more than about four degrees, degenerate otherwise. -/
theorem C86_lines (ht : 0 ≤ tol) {p d e : Fin 2 → K}
    (ha : ∀ u, |u - s| ≤ 1 / 10000 → a.pointAt eps u = .ok (p + (u - s) • d))
    (hb : ∀ u, |u - t| ≤ 1 / 10000 → b.pointAt eps u = .ok (p + (u - t) • e))
    {nd ne : K} (hnd : IsLength nd d) (hne : IsLength ne e)
    (hnorm : ∀ v, IsLength (norm v) v) (hde : area2 d e ≠ 0) :
    degeneracy norm eps tol a b s t = .ok .none ↔ |dot2 d e| < 9975 / 10000 * (nd * ne) := by
  have hh : |(1 / 10000 : K)| ≤ 1 / 10000 := by rw [abs_of_nonneg (by norm_num)]
  have ha0 := ha (s - 1 / 10000) (by rw [show s - 1 / 10000 - s = -(1 / 10000) by ring, abs_neg]; exact hh)
  have ha1 := ha (s + 1 / 10000) (by rw [show s + 1 / 10000 - s = 1 / 10000 by ring]; exact hh)
  have hb0 := hb (t - 1 / 10000) (by rw [show t - 1 / 10000 - t = -(1 / 10000) by ring, abs_neg]; exact hh)
  have hb1 := hb (t + 1 / 10000) (by rw [show t + 1 / 10000 - t = 1 / 10000 by ring]; exact hh)
  have hva : (p + (s + 1 / 10000 - s) • d) - (p + (s - 1 / 10000 - s) • d) = (1 / 5000 : K) • d := by
    ext i; simp only [Pi.sub_apply, Pi.add_apply, Pi.smul_apply, smul_eq_mul]; ring
  have hvb : (p + (t + 1 / 10000 - t) • e) - (p + (t - 1 / 10000 - t) • e) = (1 / 5000 : K) • e := by
    ext i; simp only [Pi.sub_apply, Pi.add_apply, Pi.smul_apply, smul_eq_mul]; ring
  have hx : ChordsCross (p + (s - 1 / 10000 - s) • d) (p + (s + 1 / 10000 - s) • d) (p + (t - 1 / 10000 - t) • e)
      (p + (t + 1 / 10000 - t) • e) := by
    refine ⟨?_, 1 / 2, 1 / 2, by norm_num, by norm_num, by norm_num, by norm_num, fun i => ?_⟩
    · rw [hva, hvb]
      intro h0
      apply hde
      simp only [area2, Pi.smul_apply, smul_eq_mul] at h0 ⊢
      linear_combination 25000000 * h0
    · simp only [Pi.add_apply, Pi.smul_apply, smul_eq_mul]
      ring
  have len : ∀ {v : Fin 2 → K} {n : K}, IsLength n v → norm ((1 / 5000 : K) • v) = 1 / 5000 * n := by
    intro v n hn
    have h := hnorm ((1 / 5000 : K) • v)
    have e : norm ((1 / 5000 : K) • v) * norm ((1 / 5000 : K) • v) = (1 / 5000 * n) * (1 / 5000 * n) := by
      rw [h.2]
      have := hn.2
      simp only [dot2, Pi.smul_apply, smul_eq_mul] at this ⊢
      linear_combination (-1 / 25000000) * this
    have h5 : (0 : K) ≤ 1 / 5000 * n := mul_nonneg (by norm_num) hn.1
    rcases mul_self_eq_mul_self_iff.1 e with h' | h'
    · exact h'
    · have := h.1
      have : norm ((1 / 5000 : K) • v) = 0 := le_antisymm (by rw [h']; linarith) this
      rw [this] at h'
      rw [this]; linarith
  have hdot : dot2 ((1 / 5000 : K) • d) ((1 / 5000 : K) • e) = 1 / 25000000 * dot2 d e := by
    simp only [dot2, Pi.smul_apply, smul_eq_mul]; ring
  have habs : |dot2 ((1 / 5000 : K) • d) ((1 / 5000 : K) • e)| = 1 / 25000000 * |dot2 d e| := by
    rw [hdot, abs_mul, abs_of_nonneg (by norm_num)]
  have pd := hnd.pos (.inl hde)
  have pe := hne.pos (.inr hde)
  rcases C86_classify ht ha0 ha1 hb0 hb1 (hnorm _) (hnorm _) with ⟨-, h, hr⟩ | ⟨x, -, h1, h2, hr⟩ | ⟨h, -⟩
  · rw [hva, hvb, habs, len hnd, len hne] at h
    refine ⟨fun _ => ?_, fun _ => hr⟩
    linarith
  · rw [hva, hvb, habs, len hnd, len hne] at h2
    refine ⟨fun h => ?_, fun h => ?_⟩
    · rw [hr] at h; cases h
    · exfalso
      have := mul_le_mul_of_nonneg_right h1 (mul_pos pd pe).le
      linarith
  · exact absurd hx h

/-- Curves that touch without crossing: if a line separates the chords, the intersection is degenerate, and boolean
    operations do not count it as a crossing. -/
theorem C86_touch (ht : 0 ≤ tol) (ha0 : a.pointAt eps (s - 1 / 10000) = .ok a0) (ha1 : a.pointAt eps (s + 1 / 10000) = .ok a1)
    (hb0 : b.pointAt eps (t - 1 / 10000) = .ok b0) (hb1 : b.pointAt eps (t + 1 / 10000) = .ok b1)
    (n : Fin 2 → K) (c : K) (h1 : c < dot2 n a0) (h2 : c < dot2 n a1) (h3 : dot2 n b0 ≤ c) (h4 : dot2 n b1 ≤ c) :
    degeneracy norm eps tol a b s t = .ok .lineIntersection := by
  have hx : ¬ ChordsCross a0 a1 b0 b1 := by
    rintro ⟨-, x, y, x0, x1, y0, y1, h⟩
    have e0 := h 0
    have e1 := h 1
    simp only [dot2] at h1 h2 h3 h4
    have l : n 0 * (a0 0 + x * (a1 0 - a0 0)) + n 1 * (a0 1 + x * (a1 1 - a0 1)) =
        (1 - x) * (n 0 * a0 0 + n 1 * a0 1) + x * (n 0 * a1 0 + n 1 * a1 1) := by ring
    have r : n 0 * (b0 0 + y * (b1 0 - b0 0)) + n 1 * (b0 1 + y * (b1 1 - b0 1)) =
        (1 - y) * (n 0 * b0 0 + n 1 * b0 1) + y * (n 0 * b1 0 + n 1 * b1 1) := by ring
    rw [e0, e1, r] at l
    have r1 := mul_le_mul_of_nonneg_left h3 (sub_nonneg.2 y1)
    have r2 := mul_le_mul_of_nonneg_left h4 y0
    have l1 := mul_le_mul_of_nonneg_left h1.le (sub_nonneg.2 x1)
    have l2 := mul_le_mul_of_nonneg_left h2.le x0
    rcases lt_or_eq_of_le x0 with hx0 | hx0
    · have := mul_lt_mul_of_pos_left h2 hx0
      nlinarith
    · rw [← hx0] at l l1
      nlinarith
  rw [degeneracy, paramStep, ha0, ok_bind, ha1, ok_bind, hb0, ok_bind, hb1, ok_bind,
    if_neg (by rw [lineIntersects_chords ht]; exact hx)]
  rfl

/-! ### Witnesses -/

/-- The straight line from `p` to `q` over `[0, 1]`. -/
def stroke (p q : Fin 2 → K) : PCurve K where
  degree := 1
  knots := [0, 0, 1, 1]
  cps := [(p, 1), (q, 1)]

theorem stroke_good (p q : Fin 2 → K) (he : 0 ≤ eps) (he1 : eps ≤ 1) : (stroke p q).Good eps where
  cps_pos := by simp [stroke]
  knots_len := by simp [stroke]
  good := by
    refine ⟨he, by simp [stroke], ?_, ?_, ?_, ?_, ?_⟩
    · exact mono_of_sorted (by simp [stroke]) (by simp [stroke])
    · norm_num [stroke, kf]
    · norm_num [stroke, kf]
    · simpa [stroke, kf] using he1
    · simpa [stroke, kf] using he1

theorem stroke_pointAt (p q : Fin 2 → K) (he : 0 ≤ eps) (he1 : eps ≤ 1) {u : K} (h0 : 0 ≤ u) (h1 : u ≤ 1) :
    (stroke p q).pointAt eps u = .ok ((1 - u) • p + u • q) := by
  rw [(C09_point_at_positive_weights (stroke_good p q he he1) (by simp [stroke]) (u := u) (by simpa [stroke, kf, Curve.lo] using h0)
    (by simpa [stroke, kf, Curve.hi] using h1)).1, linear_bezier_eval (c := stroke p q) rfl rfl rfl h0 h1]
  simp

/-- The euclidean norm of the plane. -/
noncomputable def euclid (v : Fin 2 → ℝ) : ℝ := Real.sqrt (dot2 v v)

theorem euclid_isLength (v : Fin 2 → ℝ) : IsLength (euclid v) v :=
  ⟨Real.sqrt_nonneg _, Real.mul_self_sqrt (add_nonneg (mul_self_nonneg _) (mul_self_nonneg _))⟩

/-- The diagonals of the unit square. -/
example : degeneracy euclid (1 / 10 ^ 8) 0 (stroke ![0, 0] ![1, 1]) (stroke ![0, 1] ![1, 0]) (1 / 2) (1 / 2) = .ok .none := by
  refine (C86_lines (p := ![1 / 2, 1 / 2]) (d := ![1, 1]) (e := ![1, -1]) le_rfl ?_ ?_ (euclid_isLength _) (euclid_isLength _)
    euclid_isLength (by norm_num [area2])).2 ?_
  · intro u hu
    obtain ⟨h1, h2⟩ := abs_le.1 hu
    rw [stroke_pointAt _ _ (by norm_num) (by norm_num) (by linarith) (by linarith)]
    congr 1
    ext i
    fin_cases i <;> simp
  · intro u hu
    obtain ⟨h1, h2⟩ := abs_le.1 hu
    rw [stroke_pointAt _ _ (by norm_num) (by norm_num) (by linarith) (by linarith)]
    congr 1
    ext i
    fin_cases i
    · simp
    · simp; ring
  · have e : dot2 ![1, 1] ![1, -1] = (0 : ℝ) := by norm_num [dot2]
    rw [e, abs_zero]
    exact mul_pos (by norm_num) (mul_pos ((euclid_isLength _).pos (w := ![0, 1]) (.inl (by norm_num [area2])))
      ((euclid_isLength _).pos (w := ![0, 1]) (.inl (by norm_num [area2]))))

/-- Two lines that cross at about one degree. -/
example : degeneracy euclid (1 / 10 ^ 8) 0 (stroke ![0, 0] ![1, 0]) (stroke ![0, -1 / 100] ![1, 1 / 100]) (1 / 2) (1 / 2) ≠
    .ok .none := by
  rw [Ne, C86_lines (p := ![1 / 2, 0]) (d := ![1, 0]) (e := ![1, 1 / 50]) le_rfl ?_ ?_ (euclid_isLength _) (euclid_isLength _)
    euclid_isLength (by norm_num [area2])]
  · have e : dot2 ![1, 0] ![1, 1 / 50] = (1 : ℝ) := by norm_num [dot2]
    have h1 : euclid ![1, 0] = 1 := by simp [euclid, dot2]
    have h2 : euclid ![1, 1 / 50] ≤ 10025 / 10000 := by
      unfold euclid
      rw [Real.sqrt_le_left (by norm_num)]
      norm_num [dot2]
    rw [e, h1, abs_one, not_lt]
    linarith
  · intro u hu
    obtain ⟨h1, h2⟩ := abs_le.1 hu
    rw [stroke_pointAt _ _ (by norm_num) (by norm_num) (by linarith) (by linarith)]
    congr 1
    ext i
    fin_cases i <;> simp
  · intro u hu
    obtain ⟨h1, h2⟩ := abs_le.1 hu
    rw [stroke_pointAt _ _ (by norm_num) (by norm_num) (by linarith) (by linarith)]
    congr 1
    ext i
    fin_cases i
    · simp
    · simp; ring

/-- The parabola `(t, t ^ 2)` with its domain scaled to `[0, m]`. -/
def dish (m : ℚ) : PCurve ℚ where
  degree := 2
  knots := [0, 0, 0, m, m, m]
  cps := [(![0, 0], 1), (![1 / 2, 0], 1), (![1, 1], 1)]

/-- The parabola touches the line below it in the middle of `[-1, 1]`. -/
example (norm : (Fin 2 → ℚ) → ℚ) : degeneracy norm (1 / 10 ^ 8) 0
    { degree := 2, knots := [0, 0, 0, 1, 1, 1], cps := [(![-1, 1], 1), (![0, -1], 1), (![1, 1], 1)] }
    (stroke ![-1, 0] ![1, 0]) (1 / 2) (1 / 2) = .ok .lineIntersection :=
  C86_touch (a0 := ![-1 / 5000, 1 / 25000000]) (a1 := ![1 / 5000, 1 / 25000000]) (b0 := ![-1 / 5000, 0]) (b1 := ![1 / 5000, 0])
    le_rfl (res_eq_of_ofFn (by decide +kernel)) (res_eq_of_ofFn (by decide +kernel)) (res_eq_of_ofFn (by decide +kernel))
    (res_eq_of_ofFn (by decide +kernel)) ![0, 1] 0 (by decide +kernel) (by decide +kernel) (by decide +kernel) (by decide +kernel)

/-! ### Limits of the classification -/

/-- The step of one ten thousandth is taken in the parameter, whatever the length of the domain. A parabola crossed at a
    right angle: with the domain `[0, 1]` the crossing is regular. The same parabola with its domain scaled to
    `[0, 1 / 5000]` is crossed at the same point with the same angle, but the chord is the whole parabola, which misses the
    chord of the line: the crossing is taken for a degenerate one. -/
theorem C86_depends_on_scale (norm : (Fin 2 → ℚ) → ℚ) (hnorm : ∀ v, v ≠ 0 → norm v ≠ 0) :
    (dish 1).pointAt (1 / 10 ^ 8) (1 / 2) = .ok ![1 / 2, 1 / 4] ∧
    (dish (1 / 5000)).pointAt (1 / 10 ^ 8) (1 / 10000) = .ok ![1 / 2, 1 / 4] ∧
    (stroke ![0, 3 / 4] ![1, -1 / 4]).pointAt (1 / 10 ^ 8) (1 / 2) = .ok ![1 / 2, (1 / 4 : ℚ)] ∧
    degeneracy norm (1 / 10 ^ 8) 0 (dish 1) (stroke ![0, 3 / 4] ![1, -1 / 4]) (1 / 2) (1 / 2) = .ok .none ∧
    degeneracy norm (1 / 10 ^ 8) 0 (dish (1 / 5000)) (stroke ![0, 3 / 4] ![1, -1 / 4]) (1 / 10000) (1 / 2) =
      .ok .lineIntersection := by
  refine ⟨res_eq_of_ofFn (by decide +kernel), res_eq_of_ofFn (by decide +kernel), res_eq_of_ofFn (by decide +kernel), ?_, ?_⟩
  · have a0 : (dish 1).pointAt (1 / 10 ^ 8) (1 / 2 - 1 / 10000) = .ok ![4999 / 10000, 24990001 / 100000000] :=
      res_eq_of_ofFn (by decide +kernel)
    have a1 : (dish 1).pointAt (1 / 10 ^ 8) (1 / 2 + 1 / 10000) = .ok ![5001 / 10000, 25010001 / 100000000] :=
      res_eq_of_ofFn (by decide +kernel)
    have b0 : (stroke ![0, 3 / 4] ![1, -1 / 4]).pointAt (1 / 10 ^ 8) (1 / 2 - 1 / 10000) =
        .ok ![4999 / 10000, (2501 / 10000 : ℚ)] := res_eq_of_ofFn (by decide +kernel)
    have b1 : (stroke ![0, 3 / 4] ![1, -1 / 4]).pointAt (1 / 10 ^ 8) (1 / 2 + 1 / 10000) =
        .ok ![5001 / 10000, (2499 / 10000 : ℚ)] := res_eq_of_ofFn (by decide +kernel)
    have va : (![5001 / 10000, 25010001 / 100000000] - ![4999 / 10000, 24990001 / 100000000] : Fin 2 → ℚ) =
        ![1 / 5000, 1 / 5000] := by ext i; fin_cases i <;> norm_num
    have vb : (![5001 / 10000, 2499 / 10000] - ![4999 / 10000, 2501 / 10000] : Fin 2 → ℚ) = ![1 / 5000, -1 / 5000] := by
      ext i; fin_cases i <;> norm_num
    rw [degeneracy, paramStep, a0, ok_bind, a1, ok_bind, b0, ok_bind, b1, ok_bind, if_pos (by decide +kernel), va, vb, divV,
      if_neg (hnorm _ fun h => by have := congrFun h 0; norm_num at this), ok_bind, divV,
      if_neg (hnorm _ fun h => by have := congrFun h 0; norm_num at this), ok_bind, Fin.sum_univ_two]
    have : (norm ![1 / 5000, 1 / 5000])⁻¹ * (1 / 5000) * ((norm ![1 / 5000, -1 / 5000])⁻¹ * (1 / 5000)) +
        (norm ![1 / 5000, 1 / 5000])⁻¹ * (1 / 5000) * ((norm ![1 / 5000, -1 / 5000])⁻¹ * (-1 / 5000)) = 0 := by ring
    simp only [Pi.smul_apply, smul_eq_mul, Matrix.cons_val_zero, Matrix.cons_val_one, this, abs_zero]
    rw [if_pos (by norm_num [collinearDot])]
    rfl
  · have hx : ¬ ChordsCross (![0, 0] : Fin 2 → ℚ) ![1, 1] ![4999 / 10000, 2501 / 10000] ![5001 / 10000, 2499 / 10000] := by
      rw [← lineIntersects_chords (tol := 0) le_rfl]
      decide +kernel
    have a0 : (dish (1 / 5000)).pointAt (1 / 10 ^ 8) (1 / 10000 - 1 / 10000) = .ok ![0, 0] :=
      res_eq_of_ofFn (by decide +kernel)
    have a1 : (dish (1 / 5000)).pointAt (1 / 10 ^ 8) (1 / 10000 + 1 / 10000) = .ok ![1, 1] :=
      res_eq_of_ofFn (by decide +kernel)
    have b0 : (stroke ![0, 3 / 4] ![1, -1 / 4]).pointAt (1 / 10 ^ 8) (1 / 2 - 1 / 10000) =
        .ok ![4999 / 10000, (2501 / 10000 : ℚ)] := res_eq_of_ofFn (by decide +kernel)
    have b1 : (stroke ![0, 3 / 4] ![1, -1 / 4]).pointAt (1 / 10 ^ 8) (1 / 2 + 1 / 10000) =
        .ok ![5001 / 10000, (2499 / 10000 : ℚ)] := res_eq_of_ofFn (by decide +kernel)
    rw [degeneracy, paramStep, a0, ok_bind, a1, ok_bind, b0, ok_bind, b1, ok_bind,
      if_neg (by rw [lineIntersects_chords le_rfl]; exact hx)]
    rfl

theorem cubic_bezier_eval {V : Type} [AddCommGroup V] [Module K V] {c : Curve K V} (hd : c.degree = 3)
    (hk : c.knots = [0, 0, 0, 0, 1, 1, 1, 1]) {p q r w : V}
    (hc : c.cps = [p, q, r, w]) {u : K} (h1 : 0 ≤ u) (h2 : u ≤ 1) :
    c.eval u = (1 - u) ^ 3 • p + (3 * u * (1 - u) ^ 2) • q + (3 * u ^ 2 * (1 - u)) • r + u ^ 3 • w := by
  have hm : Spec.MonoUpTo (kf c.knots) (c.cps.length - 1 + c.degree + 1) := by
    rw [hk, hc, hd]
    exact mono_of_sorted (ks := [0, 0, 0, 0, 1, 1, 1, 1]) (by simp) (by simp)
  have hin : Spec.InSpan (kf c.knots) c.hi u 3 := by
    have : c.hi = 1 := by simp [Curve.hi, hk, hc, kf]
    rw [Spec.InSpan, this, hk]
    split_ifs with h
    · rw [h]; simp [kf]
    · simp only [kf]; exact ⟨h1, lt_of_le_of_ne h2 h⟩
  rw [Curve.eval_eq_evalB (by simp [hc]), Curve.evalB_eq_NS hm (by simp [hc]) hin, hc, hd, hk]
  simp [Finset.sum_range_succ, Spec.NS, kf]
  congr 1
  · congr 1
    · congr 1
      · congr 1
        ring
      · congr 1
        ring
    · congr 1
      ring
  · congr 1
    ring

/-- The cubic `(t, (t - 1 / 2) ^ 3)`. -/
noncomputable def inflection : PCurve ℝ where
  degree := 3
  knots := [0, 0, 0, 0, 1, 1, 1, 1]
  cps := [(![0, -1 / 8], 1), (![1 / 3, 1 / 8], 1), (![2 / 3, -1 / 8], 1), (![1, 1 / 8], 1)]

theorem inflection_good : inflection.Good (1 / 10 ^ 8) where
  cps_pos := by simp [inflection]
  knots_len := by simp [inflection]
  good := by
    refine ⟨by norm_num, by simp [inflection], ?_, ?_, ?_, ?_, ?_⟩
    · exact mono_of_sorted (by simp [inflection]) (by simp [inflection])
    all_goals norm_num [inflection, kf]

theorem inflection_pointAt {u : ℝ} (h0 : 0 ≤ u) (h1 : u ≤ 1) :
    inflection.pointAt (1 / 10 ^ 8) u = .ok ![u, (u - 1 / 2) ^ 3] := by
  have he : inflection.eval u = (![u, (u - 1 / 2) ^ 3], 1) := by
    rw [cubic_bezier_eval (c := inflection) rfl rfl rfl h0 h1]
    ext i
    · fin_cases i
      · simp; ring
      · simp; ring
    · simp; ring
  rw [(C09_point_at_positive_weights inflection_good (by simp [inflection]) (u := u) (by simpa [inflection, kf, Curve.lo] using h0)
    (by simpa [inflection, kf, Curve.hi] using h1)).1, he]
  simp

/-- A crossing at which the curves are tangent is not regular: the cubic `(t, (t - 1 / 2) ^ 3)` passes from below the
    horizontal axis to above it, and the only intersection is classified by its angle. -/
theorem C86_tangent_crossing :
    (∀ u : ℝ, 0 ≤ u → u ≤ 1 → ∃ q, inflection.pointAt (1 / 10 ^ 8) u = .ok q ∧ (u < 1 / 2 → q 1 < 0) ∧ (1 / 2 < u → 0 < q 1)) ∧
    ∃ x, degeneracy euclid (1 / 10 ^ 8) 0 inflection (stroke ![0, 0] ![1, 0]) (1 / 2) (1 / 2) = .ok (.angle x) := by
  constructor
  · intro u h0 h1
    refine ⟨_, inflection_pointAt h0 h1, fun h => ?_, fun h => ?_⟩
    · show (u - 1 / 2) ^ 3 < 0
      exact Odd.pow_neg ⟨1, rfl⟩ (by linarith)
    · show 0 < (u - 1 / 2) ^ 3
      exact pow_pos (by linarith) 3
  · have hs : ∀ u : ℝ, 0 ≤ u → u ≤ 1 → (stroke ![0, 0] ![1, 0]).pointAt (1 / 10 ^ 8) u = .ok ![u, 0] := by
      intro u h0 h1
      rw [stroke_pointAt _ _ (by norm_num) (by norm_num) h0 h1]
      congr 1
      ext i
      fin_cases i <;> simp
    have vb : (![1 / 2 + 1 / 10000, 0] - ![1 / 2 - 1 / 10000, 0] : Fin 2 → ℝ) = ![1 / 5000, 0] := by
      ext i; fin_cases i <;> norm_num
    have va : (![1 / 2 + 1 / 10000, (1 / 2 + 1 / 10000 - 1 / 2) ^ 3] - ![1 / 2 - 1 / 10000, (1 / 2 - 1 / 10000 - 1 / 2) ^ 3] :
        Fin 2 → ℝ) = ![1 / 5000, 2 / 10 ^ 12] := by
      ext i; fin_cases i <;> norm_num
    have hx : ChordsCross (![1 / 2 - 1 / 10000, (1 / 2 - 1 / 10000 - 1 / 2) ^ 3] : Fin 2 → ℝ)
        ![1 / 2 + 1 / 10000, (1 / 2 + 1 / 10000 - 1 / 2) ^ 3] ![1 / 2 - 1 / 10000, 0] ![1 / 2 + 1 / 10000, 0] := by
      refine ⟨by rw [va, vb]; norm_num [area2], 1 / 2, 1 / 2, by norm_num, by norm_num, by norm_num, by norm_num, fun i => ?_⟩
      fin_cases i <;> norm_num
    rcases C86_classify (norm := euclid) (tol := 0) (s := 1 / 2) (t := 1 / 2) le_rfl
      (inflection_pointAt (by norm_num) (by norm_num)) (inflection_pointAt (by norm_num) (by norm_num))
      (hs _ (by norm_num) (by norm_num)) (hs _ (by norm_num) (by norm_num))
      (euclid_isLength _) (euclid_isLength _) with ⟨-, h, -⟩ | ⟨x, -, -, -, h⟩ | ⟨h, -⟩
    · exfalso
      rw [va, vb] at h
      have e : dot2 ![1 / 5000, 2 / 10 ^ 12] ![1 / 5000, 0] = (1 / 25000000 : ℝ) := by norm_num [dot2]
      have h1 : euclid ![1 / 5000, 0] = 1 / 5000 := by
        rw [euclid, show dot2 ![1 / 5000, 0] ![1 / 5000, 0] = ((1 / 5000) ^ 2 : ℝ) by norm_num [dot2], Real.sqrt_sq (by norm_num)]
      have h2 : euclid ![1 / 5000, 2 / 10 ^ 12] ≤ 1001 / 5000000 := by
        unfold euclid
        rw [Real.sqrt_le_left (by norm_num)]
        norm_num [dot2]
      rw [e, h1, abs_of_pos (by norm_num)] at h
      linarith
    · exact ⟨x, h⟩
    · exact absurd hx h

end Curvo.Props

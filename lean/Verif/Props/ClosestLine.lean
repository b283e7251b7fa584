/-
  C55: the closest parameter on a straight curve.
-/
import Verif.Props.Closest

set_option linter.unusedSectionVars false

namespace Curvo.Props

open Curvo Curvo.Curve Curvo.Spec Curvo.Closest
open scoped InnerProductSpace

variable {E : Type} [NormedAddCommGroup E] [InnerProductSpace ℝ E] {eps : ℝ} {c : Curve ℝ (E × ℝ)}

theorem newtonRun_fixed {eps : ℝ} {step : ℝ → Res ℝ} {x : ℝ} (hx : step x = .ok x) : ∀ n prev, newtonRun eps step n prev x = .ok x
  | 0, _ => rfl
  | n + 1, prev => by
    rw [newtonRun]
    split_ifs
    · rfl
    · rw [hx, ok_bind]
      exact newtonRun_fixed hx n _

/-- **Straight curves**: on an open curve with positive weights that runs along a line with constant speed (whatever its degree and
    knots) the search returns the parameter of the closest point of the curve. -/
theorem C55_line (h : c.Good eps) (hw : ∀ p ∈ c.cps, 0 < p.2) (hp : 1 ≤ c.degree) (pt : E)
    (hopen : c.isClosed eps (fun a b : E => ‖a - b‖) = .ok false) {A T : E} (hT : T ≠ 0)
    (hline : ∀ t, c.lo ≤ t → t ≤ c.hi → curvePoint c t = A + t • T) :
    ∃ u, findClosestParameter (fun v : E => ‖v‖) (fun v w => ⟪v, w⟫_ℝ) eps c pt = .ok u ∧ c.lo ≤ u ∧ u ≤ c.hi ∧
      findClosestPoint (fun v : E => ‖v‖) (fun v w => ⟪v, w⟫_ℝ) eps c pt = .ok (curvePoint c u) ∧
      ∀ t, c.lo ≤ t → t ≤ c.hi → ‖curvePoint c u - pt‖ ≤ ‖curvePoint c t - pt‖ := by
  have hlt := lo_lt_hi h
  have hTT : 0 < ⟪T, T⟫_ℝ := real_inner_self_pos.2 hT
  obtain ⟨u0, eu, h1, h2⟩ := guess_mem h hw hp (fun v : E => ‖v‖) (fun v w => ⟪v, w⟫_ℝ) pt
  set x : ℝ := ⟪T, pt - A⟫_ℝ / ⟪T, T⟫_ℝ with hx
  have hstep : ∀ u, c.lo ≤ u → u ≤ c.hi → newtonStep (fun v w : E => ⟪v, w⟫_ℝ) eps c pt (c.lo, c.hi) false u =
      .ok (max c.lo (min c.hi x)) := by
    intro u hu1 hu2
    obtain ⟨s, -, hps, hsn, hin⟩ := h.exists_span hu1 hu2
    have hs : s < c.cps.length := by have := h.cps_pos; omega
    obtain ⟨g1, g2⟩ := C55_objective h hw pt hu1 hu2 hs hin
    obtain ⟨S, hS⟩ : ∃ S, S = {t | InSpan (kf c.knots) c.hi t s} := ⟨_, rfl⟩
    have hU : UniqueDiffOn ℝ S := by rw [hS]; exact spanSet_uniqueDiff (Curve.inSpan_lt hin)
    have hu : u ∈ S := by rw [hS]; exact hin
    have hdom : ∀ t ∈ S, c.lo ≤ t ∧ t ≤ c.hi := by
      intro t ht
      rw [hS] at ht
      have ht : InSpan (kf c.knots) c.hi t s := ht
      have h1 : c.lo ≤ kf c.knots s := h.good.mono _ _ hps (by omega)
      have h2 : kf c.knots (s + 1) ≤ c.hi := h.good.mono _ _ (by omega) (by omega)
      unfold InSpan at ht
      split_ifs at ht
      · exact ⟨h1.trans ht.1.le, ht.2.trans h2⟩
      · exact ⟨h1.trans ht.1, ht.2.le.trans h2⟩
    rw [← hS] at g1 g2
    have hL : ∀ t, HasDerivAt (fun t : ℝ => A + t • T) T t := by
      intro t
      have := ((hasDerivAt_id t).smul_const T).const_add A
      simpa using this
    have hD : ∀ t ∈ S, HasDerivWithinAt (fun t => 1 / 2 * ‖curvePoint c t - pt‖ ^ 2) (⟪T, A + t • T - pt⟫_ℝ) S t := by
      intro t ht
      have hd := ((((hL t).hasDerivWithinAt (s := S)).sub_const pt).norm_sq).const_mul (1 / 2 : ℝ)
      rw [real_inner_comm]
      refine (hd.congr_deriv (by ring)).congr ?_ ?_
      · intro y hy
        rw [hline y (hdom y hy).1 (hdom y hy).2]
      · rw [hline t (hdom t ht).1 (hdom t ht).2]
    have e1 := (hD u hu).derivWithin (hU u hu)
    have e2 : iteratedDerivWithin 2 (fun t => 1 / 2 * ‖curvePoint c t - pt‖ ^ 2) S u = ⟪T, T⟫_ℝ := by
      rw [iteratedDerivWithin_succ, derivWithin_congr (f := fun t => ⟪T, A + t • T - pt⟫_ℝ)]
      · have := ((hasDerivWithinAt_const u S T).inner ℝ (((hL u).hasDerivWithinAt (s := S)).sub_const pt))
        simp only [inner_zero_left, add_zero] at this
        exact this.derivWithin (hU u hu)
      · intro t ht
        rw [iteratedDerivWithin_one]
        exact (hD t ht).derivWithin (hU t ht)
      · rw [iteratedDerivWithin_one]
        exact e1
    rw [e1] at g1
    rw [e2] at g2
    rw [newtonStep, g1, ok_bind, g2, ok_bind, divR_eq_ok hTT.ne', ok_bind, C55_open_constrain (show (c.lo, c.hi).1 ≤ (c.lo, c.hi).2 from hlt.le)]
    have : u - 1 / ⟪T, T⟫_ℝ * ⟪T, A + u • T - pt⟫_ℝ = x := by
      rw [hx, inner_sub_right, inner_add_right, inner_smul_right, inner_sub_right]
      field_simp
      ring
    rw [this]
    rfl
  set y := max c.lo (min c.hi x) with hy
  have y1 : c.lo ≤ y := le_max_left _ _
  have y2 : y ≤ c.hi := max_le hlt.le (min_le_left _ _)
  have key : findClosestParameter (fun v : E => ‖v‖) (fun v w => ⟪v, w⟫_ℝ) eps c pt = .ok y := by
    rw [findClosestParameter, knotsDomain_eq h, ok_bind, eu, ok_bind, hopen, ok_bind]
    show newtonRun eps _ (4 + 1) none u0 = _
    rw [newtonRun, if_neg (by simp), hstep u0 h1 h2, ok_bind]
    exact newtonRun_fixed (hstep y y1 y2) 4 _
  refine ⟨y, key, y1, y2, ?_, ?_⟩
  · rw [findClosestPoint, key, ok_bind, (C09_point_at_positive_weights h hw y1 y2).1]
    rfl
  · intro t t1 t2
    rw [hline y y1 y2, hline t t1 t2]
    refine le_of_sq_le_sq (norm_nonneg _) ?_
    have hsq : ∀ r : ℝ, ‖A + r • T - pt‖ ^ 2 = ‖A - pt‖ ^ 2 - ⟪T, T⟫_ℝ * x ^ 2 + ⟪T, T⟫_ℝ * (r - x) ^ 2 := by
      intro r
      have e : A + r • T - pt = (A - pt) + r • T := by abel
      have hxT : ⟪T, T⟫_ℝ * x = ⟪T, pt - A⟫_ℝ := by rw [hx]; field_simp
      have hin : ⟪A - pt, T⟫_ℝ = - ⟪T, pt - A⟫_ℝ := by
        rw [real_inner_comm, ← inner_neg_right, neg_sub]
      rw [e, norm_add_sq_real, inner_smul_right, norm_smul, mul_pow, Real.norm_eq_abs, sq_abs, ← real_inner_self_eq_norm_sq T, hin,
        ← hxT]
      ring
    have hyt : (y - x) ^ 2 ≤ (t - x) ^ 2 := by
      rcases le_total x c.lo with hc | hc
      · have : y = c.lo := by rw [hy, min_eq_right (hc.trans hlt.le), max_eq_left hc]
        rw [this]
        nlinarith
      · rcases le_total x c.hi with hc' | hc'
        · have : y = x := by rw [hy, min_eq_right hc', max_eq_right hc]
          rw [this]
          nlinarith [sq_nonneg (t - x)]
        · have : y = c.hi := by rw [hy, min_eq_left hc', max_eq_right hlt.le]
          rw [this]
          nlinarith
    rw [hsq, hsq]
    nlinarith

theorem exStep_point {u : ℝ} (h1 : exStep.lo ≤ u) (h2 : u ≤ exStep.hi) : curvePoint exStep u = 0 + u • (2 : ℝ) := by
  have hin : InSpan (kf exStep.knots) exStep.hi u exStep.degree := by
    have : u ∈ {t | InSpan (kf exStep.knots) exStep.hi t exStep.degree} := by
      rw [exStep_bezier.span]; exact ⟨h1, h2⟩
    exact this
  have hhi : exStep.hi = 1 := by simp [exStep, Curve.hi, kf]
  have hin' : InSpan (kf ([0, 0, 1, 1] : List ℝ)) 1 u 1 := by rw [hhi] at hin; exact hin
  have h0 : ¬ InSpan (kf ([0, 0, 1, 1] : List ℝ)) 1 u 0 := by
    intro h; have := inSpan_lt h; simp [kf] at this
  have h2 : ¬ InSpan (kf ([0, 0, 1, 1] : List ℝ)) 1 u 2 := by
    intro h; have := inSpan_lt h; simp [kf] at this
  have e : exStep.eval u = Spec.N (kf ([0, 0, 1, 1] : List ℝ)) 1 1 0 u • ((0 : ℝ), (1 : ℝ)) +
      Spec.N (kf ([0, 0, 1, 1] : List ℝ)) 1 1 1 u • ((2 : ℝ), (1 : ℝ)) := by
    simp [Curve.eval, Spec.curve, exStep, Finset.sum_range_succ, kf]
  have hev : exStep.eval u = (2 * u, 1) := by
    rw [e]
    simp only [Spec.N, if_neg h0, if_neg h2, if_pos hin']
    simp [kf]
    ring
  rw [curvePoint, hev]
  simp
  ring

theorem exStep_open : exStep.isClosed (1/1000) (fun a b : ℝ => ‖a - b‖) = .ok false := by
  norm_num [exStep, Curve.isClosed, Knots.isClamped, Knots.multiplicity, Knots.multGo, unwrapR, dehomogenize, Curve.dehomogenizedCps, getR, subR, bind, Except.bind, pure, Except.pure]

/-- Witness: from every point of the line the search finds the closest point of the segment from 0 to 2; from 5 it is the end. -/
example (pt : ℝ) := C55_line exStep_good exStep_bezier.weights (by decide) pt exStep_open two_ne_zero (fun _ => exStep_point)

example : findClosestPoint (fun v : ℝ => ‖v‖) (fun v w => ⟪v, w⟫_ℝ) (1/1000) exStep 5 = .ok 2 := by
  obtain ⟨u, -, h1, h2, h3, h4⟩ := C55_line exStep_good exStep_bezier.weights (by decide) 5 exStep_open two_ne_zero (fun _ => exStep_point)
  have hhi : exStep.hi = 1 := by simp [exStep, Curve.hi, kf]
  have := h4 exStep.hi (lo_lt_hi exStep_good).le le_rfl
  rw [exStep_point h1 h2, exStep_point (lo_lt_hi exStep_good).le le_rfl, hhi] at this
  rw [h3, exStep_point h1 h2]
  rw [hhi] at h2
  norm_num at this
  rw [abs_of_nonpos (by linarith)] at this
  have : u = 1 := by linarith
  rw [this]
  norm_num

end Curvo.Props

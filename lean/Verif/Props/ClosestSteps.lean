/-
  C55: the steps of the closest point searches, and the search on a flat patch.
-/
import Verif.Props.ClosestLine
import Verif.Props.SurfaceDeriv
import Mathlib.Analysis.Complex.Basic
import Mathlib.Analysis.InnerProductSpace.Basic

set_option linter.unusedSectionVars false
set_option linter.unusedSimpArgs false

namespace Curvo.Props

open Curvo Curvo.Curve Curvo.Spec Curvo.Closest
open scoped InnerProductSpace

section steps

theorem newtonRun_steps {eps : ℝ} {step : ℝ → Res ℝ} : ∀ (n : ℕ) (prev : Option ℝ) (u r : ℝ), newtonRun eps step n prev u = .ok r →
    ∃ k ≤ n, ∃ x : ℕ → ℝ, x 0 = u ∧ x k = r ∧ (∀ j < k, step (x j) = .ok (x (j + 1))) ∧
      (∀ j, 1 ≤ j → j < k → eps ≤ |x j - x (j - 1)|) ∧ (1 ≤ k → ∀ p ∈ prev, eps ≤ |u - p|) ∧
      (k = n ∨ (1 ≤ k ∧ |x k - x (k - 1)| < eps) ∨ (k = 0 ∧ ∃ p ∈ prev, |u - p| < eps))
  | 0, prev, u, r, e => by
    have : u = r := Except.ok.inj e
    exact ⟨0, le_refl _, fun _ => u, rfl, this, by simp, by omega, by omega, Or.inl rfl⟩
  | n + 1, prev, u, r, e => by
    rw [newtonRun] at e
    split_ifs at e with hp
    · have hur : u = r := Except.ok.inj e
      refine ⟨0, by omega, fun _ => u, rfl, hur, by simp, by omega, by omega, Or.inr (Or.inr ⟨rfl, ?_⟩)⟩
      cases prev with
      | none => simp at hp
      | some p => exact ⟨p, rfl, by simpa using hp⟩
    · obtain ⟨u', e1, e2⟩ := bind_eq_ok.1 e
      obtain ⟨k, hk, x, x0, xk, hs, hl, hq, ht⟩ := newtonRun_steps n (some u) u' r e2
      have hq' : 1 ≤ k → eps ≤ |u' - u| := fun h => hq h u rfl
      refine ⟨k + 1, by omega, fun j => if j = 0 then u else x (j - 1), rfl, by simpa using xk, ?_, ?_, ?_, ?_⟩
      · intro j hj
        rcases Nat.eq_zero_or_pos j with h0 | h0
        · subst h0; simp [e1, x0]
        · have := hs (j - 1) (by omega)
          rw [show j - 1 + 1 = j by omega] at this
          simpa [Nat.ne_of_gt h0] using this
      · intro j h1 h2
        rcases Nat.lt_or_ge 1 j with hj | hj
        · have := hl (j - 1) (by omega) (by omega)
          simpa [show j ≠ 0 by omega, show j - 1 ≠ 0 by omega] using this
        · have hj1 : j = 1 := by omega
          subst hj1
          simpa [x0] using hq' (by omega)
      · intro _ p hpp
        cases prev with
        | none => simp at hpp
        | some q =>
          have : q = p := by simpa using hpp
          subst this
          simpa using hp
      · rcases ht with h | ⟨h1, h⟩ | ⟨h1, p, hpu, h⟩
        · exact Or.inl (by omega)
        · refine Or.inr (Or.inl ⟨by omega, ?_⟩)
          simpa [show k ≠ 0 by omega] using h
        · refine Or.inr (Or.inl ⟨by omega, ?_⟩)
          subst h1
          have : u = p := by simpa using hpu
          subst this
          simpa [x0] using h

variable {E : Type} [NormedAddCommGroup E] [InnerProductSpace ℝ E] {eps : ℝ} {c : Curve ℝ (E × ℝ)}

/-- **The steps of the search**: on an open curve with positive weights the answer is reached from a parameter of the domain by at
    most five Newton steps for half the squared distance, each cut off at the ends of the domain; the search stops at the first step
    that moves by less than the tolerance, and only then if it makes fewer than five. -/
theorem C55_steps (h : c.Good eps) (hw : ∀ p ∈ c.cps, 0 < p.2) (hp : 1 ≤ c.degree) (pt : E)
    (hopen : c.isClosed eps (fun a b : E => ‖a - b‖) = .ok false) {u : ℝ}
    (hu : findClosestParameter (fun v : E => ‖v‖) (fun v w => ⟪v, w⟫_ℝ) eps c pt = .ok u) :
    ∃ k ≤ 5, ∃ x : ℕ → ℝ, x k = u ∧ (∀ j ≤ k, c.lo ≤ x j ∧ x j ≤ c.hi) ∧
      (∀ j < k, ∃ s g H, InSpan (kf c.knots) c.hi (x j) s ∧
        g = derivWithin (fun t => 1 / 2 * ‖curvePoint c t - pt‖ ^ 2) {t | InSpan (kf c.knots) c.hi t s} (x j) ∧
        H = iteratedDerivWithin 2 (fun t => 1 / 2 * ‖curvePoint c t - pt‖ ^ 2) {t | InSpan (kf c.knots) c.hi t s} (x j) ∧
        H ≠ 0 ∧ x (j + 1) = max c.lo (min c.hi (x j - g / H))) ∧
      (∀ j, 1 ≤ j → j < k → eps ≤ |x j - x (j - 1)|) ∧ (k = 5 ∨ (1 ≤ k ∧ |x k - x (k - 1)| < eps)) := by
  have hlt := lo_lt_hi h
  obtain ⟨u0, eu, h1, h2⟩ := guess_mem h hw hp (fun v : E => ‖v‖) (fun v w => ⟪v, w⟫_ℝ) pt
  rw [findClosestParameter, knotsDomain_eq h, ok_bind, eu, ok_bind, hopen, ok_bind] at hu
  obtain ⟨k, hk, x, x0, xk, hs, hl, -, ht⟩ := newtonRun_steps 5 none u0 u hu
  have hdom : ∀ j ≤ k, c.lo ≤ x j ∧ x j ≤ c.hi := by
    intro j
    induction j with
    | zero => intro _; rw [x0]; exact ⟨h1, h2⟩
    | succ j ih =>
      intro hj
      obtain ⟨a, b⟩ := ih (by omega)
      have e := hs j (by omega)
      rcases step_open h hw (fun v w : E => ⟪v, w⟫_ℝ) pt a b with ⟨u', e', a', b'⟩ | ⟨-, e'⟩
      · rw [e'] at e
        have : u' = x (j + 1) := Except.ok.inj e
        rw [← this]
        exact ⟨a', b'⟩
      · rw [e'] at e
        simp at e
  refine ⟨k, hk, x, xk, hdom, fun j hj => ?_, hl, ?_⟩
  · obtain ⟨a, b⟩ := hdom j hj.le
    obtain ⟨s, -, hps, hsn, hin⟩ := h.exists_span a b
    have hsl : s < c.cps.length := by have := h.cps_pos; omega
    obtain ⟨g1, g2⟩ := C55_objective h hw pt a b hsl hin
    have e := hs j hj
    rw [newtonStep, g1, ok_bind, g2, ok_bind] at e
    refine ⟨s, _, _, hin, rfl, rfl, ?_, ?_⟩
    · intro h0
      rw [h0] at e
      simp [divR] at e
    · by_cases h0 : iteratedDerivWithin 2 (fun t => 1 / 2 * ‖curvePoint c t - pt‖ ^ 2) {t | InSpan (kf c.knots) c.hi t s} (x j) = 0
      · rw [h0] at e
        simp [divR] at e
      · rw [divR_eq_ok h0, ok_bind, C55_open_constrain (show (c.lo, c.hi).1 ≤ (c.lo, c.hi).2 from hlt.le)] at e
        rw [← Except.ok.inj e, one_div, inv_mul_eq_div]
  · rcases ht with h | h | ⟨-, p, hp, -⟩
    · exact Or.inl h
    · exact Or.inr h
    · simp at hp

/-- Witness: the segment from 0 to 2. -/
example (pt : ℝ) : ∃ u, findClosestParameter (fun v : ℝ => ‖v‖) (fun v w => ⟪v, w⟫_ℝ) (1/1000) exStep pt = .ok u ∧
    ∃ k ≤ 5, ∃ x : ℕ → ℝ, x k = u ∧ (k = 5 ∨ (1 ≤ k ∧ |x k - x (k - 1)| < 1/1000)) := by
  obtain ⟨u, hu, -⟩ := C55_line exStep_good exStep_bezier.weights (by decide) pt exStep_open two_ne_zero (fun _ => exStep_point)
  obtain ⟨k, hk, x, hx, -, -, -, he⟩ := C55_steps exStep_good exStep_bezier.weights (by decide) pt exStep_open hu
  exact ⟨u, hu, k, hk, x, hx, he⟩

end steps

/-! ### Flat patches -/

section patch
open Curvo.Tess

variable {E : Type} [NormedAddCommGroup E] [InnerProductSpace ℝ E] {eps : ℝ} {S : Surface ℝ (E × ℝ)}

theorem iter_affine {f : ℝ → E} {s : Set ℝ} (hs : UniqueDiffOn ℝ s) {B T : E} (hf : ∀ t ∈ s, f t = B + t • T) {x : ℝ} (hx : x ∈ s) :
    iteratedDerivWithin 0 f s x = B + x • T ∧ iteratedDerivWithin 1 f s x = T ∧ iteratedDerivWithin 2 f s x = 0 := by
  have hL : ∀ t, HasDerivWithinAt (fun t : ℝ => B + t • T) T s t := by
    intro t
    have := (((hasDerivAt_id t).smul_const T).const_add B).hasDerivWithinAt (s := s)
    simpa using this
  have h1 : ∀ t ∈ s, iteratedDerivWithin 1 f s t = T := by
    intro t ht
    rw [iteratedDerivWithin_one, derivWithin_congr hf (hf t ht)]
    exact (hL t).derivWithin (hs t ht)
  refine ⟨by rw [iteratedDerivWithin_zero]; exact hf x hx, h1 x hx, ?_⟩
  rw [iteratedDerivWithin_succ, derivWithin_congr (f := fun _ => T) h1 (h1 x hx)]
  simp

theorem flat_derivatives (h : S.Good eps) (hw : ∀ row ∈ S.cps, ∀ p ∈ row, 0 < p.2) {A T U : E}
    (hflat : ∀ x, (domRect S).Mem x → surfPoint S x = A + x.1 • T + x.2 • U) {x : ℝ × ℝ} (hx : (domRect S).Mem x) :
    S.rationalDerivatives eps x.1 x.2 2 = .ok [[surfPoint S x, U, 0], [T, 0], [0]] := by
  obtain ⟨h1, h2, h3, h4⟩ := hx
  have := h.rows_pos
  have := h.cols_pos
  obtain ⟨su, eu, pu, nu, iu⟩ := h.exists_span_u h1 h2
  obtain ⟨sv, ev, pv, nv, iv⟩ := h.exists_span_v h3 h4
  have hne := (surf_weight_pos h hw h1 h2 h3 h4).ne'
  have hr := C27_rational_derivatives h h1 h2 h3 h4 (by omega) (by omega) iu iv hne 2
  have hS1 : UniqueDiffOn ℝ {t | InSpan (kf S.uKnots) S.uhi t su} := spanSet_uniqueDiff (b := S.uhi) (Curve.inSpan_lt iu)
  have hS2 : UniqueDiffOn ℝ {t | InSpan (kf S.vKnots) S.vhi t sv} := spanSet_uniqueDiff (b := S.vhi) (Curve.inSpan_lt iv)
  have hdu : ∀ t, InSpan (kf S.uKnots) S.uhi t su → S.ulo ≤ t ∧ t ≤ S.uhi := by
    intro t ht
    have a : S.ulo ≤ kf S.uKnots su := h.u_good.mono _ _ pu (by omega)
    have b : kf S.uKnots (su + 1) ≤ S.uhi := h.u_good.mono _ _ (by omega) (by omega)
    unfold InSpan at ht
    split_ifs at ht
    · exact ⟨a.trans ht.1.le, ht.2.trans b⟩
    · exact ⟨a.trans ht.1, ht.2.le.trans b⟩
  have hdv : ∀ t, InSpan (kf S.vKnots) S.vhi t sv → S.vlo ≤ t ∧ t ≤ S.vhi := by
    intro t ht
    have a : S.vlo ≤ kf S.vKnots sv := h.v_good.mono _ _ pv (by omega)
    have b : kf S.vKnots (sv + 1) ≤ S.vhi := h.v_good.mono _ _ (by omega) (by omega)
    unfold InSpan at ht
    split_ifs at ht
    · exact ⟨a.trans ht.1.le, ht.2.trans b⟩
    · exact ⟨a.trans ht.1, ht.2.le.trans b⟩
  have hP : ∀ v', InSpan (kf S.vKnots) S.vhi v' sv → ∀ u', InSpan (kf S.uKnots) S.uhi u' su →
      (S.eval u' v').2⁻¹ • (S.eval u' v').1 = (A + v' • U) + u' • T := by
    intro v' hv u' hu
    have := hflat (u', v') ⟨(hdu _ hu).1, (hdu _ hu).2, (hdv _ hv).1, (hdv _ hv).2⟩
    simp only [surfPoint] at this
    rw [this]
    abel
  have hi : ∀ v', InSpan (kf S.vKnots) S.vhi v' sv → _ := fun v' hv => iter_affine hS1 (hP v' hv) iu
  have o0 := iter_affine hS2 (f := fun v' => iteratedDerivWithin 0 (fun u' => (S.eval u' v').2⁻¹ • (S.eval u' v').1)
    {t | InSpan (kf S.uKnots) S.uhi t su} x.1) (B := A + x.1 • T) (T := U) (fun v' hv => by
      refine (hi v' hv).1.trans ?_
      abel) iv
  have o1 := iter_affine hS2 (f := fun v' => iteratedDerivWithin 1 (fun u' => (S.eval u' v').2⁻¹ • (S.eval u' v').1)
    {t | InSpan (kf S.uKnots) S.uhi t su} x.1) (B := T) (T := (0 : E)) (fun v' hv => by
      refine (hi v' hv).2.1.trans ?_
      simp) iv
  have o2 := iter_affine hS2 (f := fun v' => iteratedDerivWithin 2 (fun u' => (S.eval u' v').2⁻¹ • (S.eval u' v').1)
    {t | InSpan (kf S.uKnots) S.uhi t su} x.1) (B := 0) (T := (0 : E)) (fun v' hv => by
      refine (hi v' hv).2.2.trans ?_
      simp) iv
  rw [hr]
  have e0 : surfPoint S x = A + x.1 • T + x.2 • U := hflat x ⟨h1, h2, h3, h4⟩
  show Except.ok [[_, _, _], [_, _], [_]] = _
  beta_reduce
  rw [o0.1, o0.2.1, o0.2.2, o1.1, o1.2.1, o2.1, e0]
  simp

/-- The squared distance from a flat patch in terms of the foot of the perpendicular. -/
theorem flat_distance {A T U pt : E} {f : ℝ × ℝ} (hT : ⟪T, A + f.1 • T + f.2 • U - pt⟫_ℝ = 0)
    (hU : ⟪U, A + f.1 • T + f.2 • U - pt⟫_ℝ = 0) (x : ℝ × ℝ) :
    ‖A + x.1 • T + x.2 • U - pt‖ ^ 2 = ‖A + f.1 • T + f.2 • U - pt‖ ^ 2 + ‖(x.1 - f.1) • T + (x.2 - f.2) • U‖ ^ 2 := by
  have e : A + x.1 • T + x.2 • U - pt = (A + f.1 • T + f.2 • U - pt) + ((x.1 - f.1) • T + (x.2 - f.2) • U) := by
    rw [sub_smul, sub_smul]; abel
  rw [e, norm_add_sq_real, inner_add_right, inner_smul_right, inner_smul_right, real_inner_comm, hT, real_inner_comm, hU]
  ring

/-- One step on a flat patch: a quarter of the way to the foot of the perpendicular, unless the point is reached. -/
theorem flat_step (h : S.Good eps) (hw : ∀ row ∈ S.cps, ∀ p ∈ row, 0 < p.2) {A T U pt : E}
    (hflat : ∀ x, (domRect S).Mem x → surfPoint S x = A + x.1 • T + x.2 • U) (hTT : eps ≤ ⟪T, T⟫_ℝ) (hUU : eps ≤ ⟪U, U⟫_ℝ)
    (hdet : ⟪T, T⟫_ℝ * ⟪U, U⟫_ℝ - ⟪T, U⟫_ℝ * ⟪T, U⟫_ℝ ≠ 0) {f : ℝ × ℝ} (hf : (domRect S).Mem f)
    (hT : ⟪T, A + f.1 • T + f.2 • U - pt⟫_ℝ = 0) (hU : ⟪U, A + f.1 • T + f.2 • U - pt⟫_ℝ = 0)
    {st : (ℝ × ℝ) × ℝ} (hx : (domRect S).Mem st.1) (hc : st.2 = ‖surfPoint S st.1 - pt‖) :
    ∃ st', surfaceStep (fun v : E => ‖v‖) (fun v w => ⟪v, w⟫_ℝ) eps S pt (S.ulo, S.uhi) (S.vlo, S.vhi) false false st = .ok st' ∧
      (domRect S).Mem st'.1 ∧ st'.2 = ‖surfPoint S st'.1 - pt‖ ∧ (st'.2 < st.2 ∨ st' = st) ∧
      ((st.2 < 1 / 100000 ∧ st' = st) ∨ (¬ st.2 < 1 / 100000 ∧ st'.1 - f = (3 / 4 : ℝ) • (st.1 - f))) := by
  obtain ⟨⟨u, v⟩, k⟩ := st
  obtain ⟨f1, f2⟩ := f
  have hx' := hx
  obtain ⟨m1, m2, m3, m4⟩ := hx
  have hf' := hf
  obtain ⟨n1, n2, n3, n4⟩ := hf
  simp only at m1 m2 m3 m4 n1 n2 n3 n4 hc hT hU
  simp only [domRect] at m1 m2 m3 m4 n1 n2 n3 n4
  have hp := hflat (u, v) hx'
  simp only at hp
  have e := flat_derivatives h hw hflat hx'
  have epr : propose (fun v : E => ‖v‖) (fun v w => ⟪v, w⟫_ℝ) eps S pt (u, v) =
      .ok (if k < 1 / 100000 then none else some (u + (f1 - u) * (1 / 4), v + (f2 - v) * (1 / 4))) := by
    rw [propose, surf_pointAt h hw hx', ok_bind, e, ok_bind]
    simp only [show get2R [[surfPoint S (u, v), U, 0], [T, 0], [0]] 1 0 = .ok T from rfl,
      show get2R [[surfPoint S (u, v), U, 0], [T, 0], [0]] 0 1 = .ok U from rfl,
      show get2R [[surfPoint S (u, v), U, 0], [T, 0], [0]] 2 0 = .ok (0 : E) from rfl,
      show get2R [[surfPoint S (u, v), U, 0], [T, 0], [0]] 0 2 = .ok (0 : E) from rfl,
      show get2R [[surfPoint S (u, v), U, 0], [T, 0], [0]] 1 1 = .ok (0 : E) from rfl, ok_bind, inner_zero_left, add_zero,
      if_neg (not_lt.2 hTT), if_neg (not_lt.2 hUU), ← hc]
    split_ifs
    · rfl
    · rw [solve2, if_neg hdet]
      have gT : ⟪T, surfPoint S (u, v) - pt⟫_ℝ = (u - f1) * ⟪T, T⟫_ℝ + (v - f2) * ⟪T, U⟫_ℝ := by
        have : surfPoint S (u, v) - pt = (A + f1 • T + f2 • U - pt) + ((u - f1) • T + (v - f2) • U) := by
          rw [hp, sub_smul, sub_smul]; abel
        rw [this, inner_add_right, hT, inner_add_right, inner_smul_right, inner_smul_right, zero_add]
      have gU : ⟪U, surfPoint S (u, v) - pt⟫_ℝ = (u - f1) * ⟪T, U⟫_ℝ + (v - f2) * ⟪U, U⟫_ℝ := by
        have : surfPoint S (u, v) - pt = (A + f1 • T + f2 • U - pt) + ((u - f1) • T + (v - f2) • U) := by
          rw [hp, sub_smul, sub_smul]; abel
        rw [this, inner_add_right, hU, inner_add_right, inner_smul_right, inner_smul_right, zero_add, real_inner_comm]
      rw [ok_bind, gT, gU]
      congr 3
      · congr 2
        rw [div_eq_iff hdet]
        ring
      · congr 2
        rw [div_eq_iff hdet]
        ring
  rw [surfaceStep, epr, ok_bind]
  by_cases hk : k < 1 / 100000
  · rw [if_pos hk]
    exact ⟨_, rfl, hx', hc, Or.inr rfl, Or.inl ⟨hk, rfl⟩⟩
  · rw [if_neg hk]
    have c1 : constrainEps eps (S.ulo, S.uhi) false (u + (f1 - u) * (1 / 4)) = u + (f1 - u) * (1 / 4) := by
      rw [constrainEps, if_neg (by simp only; linarith), if_neg (by simp only; linarith)]
    have c2 : constrainEps eps (S.vlo, S.vhi) false (v + (f2 - v) * (1 / 4)) = v + (f2 - v) * (1 / 4) := by
      rw [constrainEps, if_neg (by simp only; linarith), if_neg (by simp only; linarith)]
    have hm : (domRect S).Mem (u + (f1 - u) * (1 / 4), v + (f2 - v) * (1 / 4)) := by
      refine ⟨?_, ?_, ?_, ?_⟩ <;> simp only [domRect] <;> linarith
    simp only [c1, c2]
    rw [cost_ok h hw _ pt hm, ok_bind]
    have d1 := flat_distance (f := (f1, f2)) hT hU (u, v)
    have d2 := flat_distance (f := (f1, f2)) hT hU (u + (f1 - u) * (1 / 4), v + (f2 - v) * (1 / 4))
    rw [← hflat _ hx'] at d1
    rw [← hflat _ hm] at d2
    have e3 : (u + (f1 - u) * (1 / 4) - f1) • T + (v + (f2 - v) * (1 / 4) - f2) • U = (3 / 4 : ℝ) • ((u - f1) • T + (v - f2) • U) := by
      rw [smul_add, smul_smul, smul_smul]
      congr 2 <;> ring
    simp only [e3, norm_smul, mul_pow] at d1 d2
    have h34 : ‖(3 / 4 : ℝ)‖ ^ 2 = 9 / 16 := by norm_num
    rw [h34] at d2
    have hle : ‖surfPoint S (u + (f1 - u) * (1 / 4), v + (f2 - v) * (1 / 4)) - pt‖ ≤ k := by
      rw [hc]
      refine le_of_sq_le_sq (norm_nonneg _) ?_
      nlinarith [sq_nonneg ‖(u - f1) • T + (v - f2) • U‖]
    rw [if_neg (not_lt.2 hle)]
    refine ⟨_, rfl, hm, rfl, ?_, Or.inr ⟨hk, ?_⟩⟩
    · rcases hle.lt_or_eq with hl | hl
      · exact Or.inl hl
      · right
        have hz : ‖(u - f1) • T + (v - f2) • U‖ ^ 2 = 0 := by
          rw [← hc] at d1
          rw [hl] at d2
          nlinarith
        have hz' : (u - f1) • T + (v - f2) • U = 0 := by
          rw [← norm_eq_zero]; exact pow_eq_zero_iff (two_ne_zero) |>.1 hz
        have z1 : (u - f1) * ⟪T, T⟫_ℝ + (v - f2) * ⟪T, U⟫_ℝ = 0 := by
          have := congrArg (fun z => ⟪T, z⟫_ℝ) hz'
          simpa [inner_add_right, inner_smul_right] using this
        have z2 : (u - f1) * ⟪T, U⟫_ℝ + (v - f2) * ⟪U, U⟫_ℝ = 0 := by
          have := congrArg (fun z => ⟪U, z⟫_ℝ) hz'
          simpa [inner_add_right, inner_smul_right, real_inner_comm] using this
        have hu0 : u - f1 = 0 := by
          have : (u - f1) * (⟪T, T⟫_ℝ * ⟪U, U⟫_ℝ - ⟪T, U⟫_ℝ * ⟪T, U⟫_ℝ) = 0 := by linear_combination ⟪U, U⟫_ℝ * z1 - ⟪T, U⟫_ℝ * z2
          exact (mul_eq_zero.1 this).resolve_right hdet
        have hv0 : v - f2 = 0 := by
          have : (v - f2) * (⟪T, T⟫_ℝ * ⟪U, U⟫_ℝ - ⟪T, U⟫_ℝ * ⟪T, U⟫_ℝ) = 0 := by linear_combination ⟪T, T⟫_ℝ * z2 - ⟪T, U⟫_ℝ * z1
          exact (mul_eq_zero.1 this).resolve_right hdet
        have a : f1 = u := by linarith
        have b : f2 = v := by linarith
        subst a b
        simp only [sub_self, zero_mul, add_zero] at hl ⊢
        rw [hc]
    · ext
      · simp; ring
      · simp; ring

theorem run_stays {eps : ℝ} {nrm2 : ℝ × ℝ → ℝ} {step : (ℝ × ℝ) × ℝ → Res ((ℝ × ℝ) × ℝ)} {st : (ℝ × ℝ) × ℝ} (hs : step st = .ok st) :
    ∀ n prev, surfaceRun eps nrm2 step n prev st st = .ok st.1
  | 0, _ => rfl
  | n + 1, prev => by
    rw [surfaceRun]
    split_ifs
    · rfl
    · rw [hs, ok_bind, if_neg (lt_irrefl _)]
      exact run_stays hs n _

theorem flat_run (h : S.Good eps) (h0 : 0 < eps) (hw : ∀ row ∈ S.cps, ∀ p ∈ row, 0 < p.2) {A T U pt : E}
    (hflat : ∀ x, (domRect S).Mem x → surfPoint S x = A + x.1 • T + x.2 • U) (hTT : eps ≤ ⟪T, T⟫_ℝ) (hUU : eps ≤ ⟪U, U⟫_ℝ)
    (hdet : ⟪T, T⟫_ℝ * ⟪U, U⟫_ℝ - ⟪T, U⟫_ℝ * ⟪T, U⟫_ℝ ≠ 0) {f : ℝ × ℝ} (hf : (domRect S).Mem f)
    (hT : ⟪T, A + f.1 • T + f.2 • U - pt⟫_ℝ = 0) (hU : ⟪U, A + f.1 • T + f.2 • U - pt⟫_ℝ = 0)
    {nrm2 : ℝ × ℝ → ℝ} (hn2 : ∀ (t : ℝ) p, nrm2 (t • p) = |t| * nrm2 p) :
    ∀ (n : ℕ) (prev : Option (ℝ × ℝ)) (st : (ℝ × ℝ) × ℝ), (domRect S).Mem st.1 → st.2 = ‖surfPoint S st.1 - pt‖ →
      (∀ p ∈ prev, st.1 - f = (3 / 4 : ℝ) • (p - f)) →
      ∃ r, surfaceRun eps nrm2 (surfaceStep (fun v : E => ‖v‖) (fun v w => ⟪v, w⟫_ℝ) eps S pt (S.ulo, S.uhi) (S.vlo, S.vhi) false false)
          n prev st st = .ok r ∧ (domRect S).Mem r ∧
        (‖surfPoint S r - pt‖ < 1 / 100000 ∨ nrm2 (r - f) < 3 * eps ∨ r - f = (3 / 4 : ℝ) ^ n • (st.1 - f))
  | 0, prev, st, hx, hc, hp => ⟨st.1, rfl, hx, Or.inr (Or.inr (by simp))⟩
  | n + 1, prev, st, hx, hc, hp => by
    rw [surfaceRun]
    split_ifs with ht
    · refine ⟨st.1, rfl, hx, Or.inr (Or.inl ?_)⟩
      cases prev with
      | none => simp at ht
      | some p =>
        have hp := hp p rfl
        have e : st.1 - p = (-(1 / 3) : ℝ) • (st.1 - f) := by
          have : p - f = (4 / 3 : ℝ) • (st.1 - f) := by
            rw [hp, smul_smul]; norm_num
          have e : st.1 - p = (st.1 - f) - (p - f) := by abel
          rw [e, this]
          module
        simp only [Option.any_some, decide_eq_true_eq] at ht
        rw [e, hn2] at ht
        rw [show |(-(1 / 3) : ℝ)| = 1 / 3 by norm_num] at ht
        linarith
    · obtain ⟨st', e, hm, hc', hlt, hcase⟩ := flat_step h hw hflat hTT hUU hdet hf hT hU hx hc
      rw [e, ok_bind]
      have hbest : (if st'.2 < st.2 then st' else st) = st' := by
        rcases hlt with hl | hl
        · rw [if_pos hl]
        · rw [hl, if_neg (lt_irrefl _)]
      rw [hbest]
      rcases hcase with ⟨hk, hst⟩ | ⟨hk, hst⟩
      · rw [hst] at e ⊢
        exact ⟨_, run_stays e n _, hx, Or.inl (hc ▸ hk)⟩
      · obtain ⟨r, er, hr, hcon⟩ := flat_run h h0 hw hflat hTT hUU hdet hf hT hU hn2 n (some st.1) st' hm hc' (by
          intro p hp
          have : st.1 = p := by simpa using hp
          rw [← this]; exact hst)
        refine ⟨r, er, hr, ?_⟩
        rcases hcon with hcon | hcon | hcon
        · exact Or.inl hcon
        · exact Or.inr (Or.inl hcon)
        · refine Or.inr (Or.inr ?_)
          rw [hcon, hst, smul_smul, pow_succ]

/-- **Flat patches**: on a patch of a plane with constant speed (whatever its degrees and knots) that is open in both directions,
    when the foot of the perpendicular is on the patch, the search succeeds. Its answer is within 1/100000 of the target, or its
    parameters are within three tolerances of the foot, or they are those of the start brought a hundred times by a quarter of the
    way towards the foot. -/
theorem C55_plane {M : Metric ℝ E} (h : S.Good eps) (h0 : 0 < eps) (hw : ∀ row ∈ S.cps, ∀ p ∈ row, 0 < p.2) (hd : GridDegrees S)
    (hn : NormLike (fun v : E => ‖v‖) M.normSq) (dflt : Options ℝ) {fuel : ℕ} (hfuel : max dflt.minDepth dflt.maxDepth < fuel) {pt : E}
    {pts : List (List E)} (hpts : S.dehomogenizedCps = .ok pts) (hu : uClosed (fun v : E => ‖v‖) eps pts = .ok false)
    (hv : vClosed (fun v : E => ‖v‖) eps pts = .ok false) {A T U : E}
    (hflat : ∀ x, S.ulo ≤ x.1 → x.1 ≤ S.uhi → S.vlo ≤ x.2 → x.2 ≤ S.vhi → surfPoint S x = A + x.1 • T + x.2 • U)
    (hTT : eps ≤ ‖T‖ ^ 2) (hUU : eps ≤ ‖U‖ ^ 2) (hdet : ⟪T, U⟫_ℝ ^ 2 ≠ ‖T‖ ^ 2 * ‖U‖ ^ 2) {f : ℝ × ℝ}
    (f1 : S.ulo ≤ f.1) (f2 : f.1 ≤ S.uhi) (f3 : S.vlo ≤ f.2) (f4 : f.2 ≤ S.vhi)
    (hT : ⟪T, surfPoint S f - pt⟫_ℝ = 0) (hU : ⟪U, surfPoint S f - pt⟫_ℝ = 0)
    {nrm2 : ℝ × ℝ → ℝ} (hn2 : ∀ (t : ℝ) p, nrm2 (t • p) = |t| * nrm2 p) :
    ∃ r g : ℝ × ℝ, findClosestParameterS (fun v : E => ‖v‖) (fun v w => ⟪v, w⟫_ℝ) nrm2 M eps fuel dflt S pt = .ok r ∧
      findClosestPointS (fun v : E => ‖v‖) (fun v w => ⟪v, w⟫_ℝ) nrm2 M eps fuel dflt S pt = .ok (surfPoint S r) ∧
      (S.ulo ≤ r.1 ∧ r.1 ≤ S.uhi ∧ S.vlo ≤ r.2 ∧ r.2 ≤ S.vhi) ∧ (S.ulo ≤ g.1 ∧ g.1 ≤ S.uhi ∧ S.vlo ≤ g.2 ∧ g.2 ≤ S.vhi) ∧
      (‖surfPoint S r - pt‖ < 1 / 100000 ∨ nrm2 (r - f) < 3 * eps ∨ r - f = (3 / 4 : ℝ) ^ 100 • (g - f)) := by
  obtain ⟨t, et, ht⟩ := closest_mesh (M := M) h hw hd dflt hfuel
  obtain ⟨hg, -⟩ := vertexGuess_spec h ht hn pt
  have hfl : ∀ x, (domRect S).Mem x → surfPoint S x = A + x.1 • T + x.2 • U := fun x hx => hflat x hx.1 hx.2.1 hx.2.2.1 hx.2.2.2
  have hf : (domRect S).Mem f := ⟨f1, f2, f3, f4⟩
  rw [hfl f hf] at hT hU
  obtain ⟨r, e, hm, hcon⟩ := flat_run h h0 hw hfl (by rwa [real_inner_self_eq_norm_sq]) (by rwa [real_inner_self_eq_norm_sq]) (by
      rw [real_inner_self_eq_norm_sq, real_inner_self_eq_norm_sq]
      intro hz
      apply hdet
      linarith) hf hT hU hn2 100 none
    (vertexGuess M S t pt, ‖surfPoint S (vertexGuess M S t pt) - pt‖) hg rfl (by simp)
  have key : findClosestParameterS (fun v : E => ‖v‖) (fun v w => ⟪v, w⟫_ℝ) nrm2 M eps fuel dflt S pt = .ok r := by
    rw [findS_eq h hw et ht hn pt, hpts, ok_bind, hu, ok_bind, hv, ok_bind]
    exact e
  refine ⟨r, vertexGuess M S t pt, key, ?_, ⟨hm.1, hm.2.1, hm.2.2.1, hm.2.2.2⟩, ⟨hg.1, hg.2.1, hg.2.2.1, hg.2.2.2⟩, hcon⟩
  rw [findClosestPointS, key, ok_bind, surf_pointAt h hw hm]

/-- Witness: the parallelogram with the corners 0, 2, i, 2 + i of the complex plane. -/
def exTile : Surface ℝ (ℂ × ℝ) where
  uDegree := 1
  vDegree := 1
  uKnots := [0, 0, 1, 1]
  vKnots := [0, 0, 1, 1]
  cps := [[(0, 1), (Complex.I, 1)], [(2, 1), (2 + Complex.I, 1)]]

theorem exTile_good : exTile.Good (1/1000) where
  rows_pos := by decide
  u_len := by decide
  u_good := by
    refine ⟨by norm_num, by decide, ?_, ?_, ?_, ?_, ?_⟩
    · exact mono_of_sorted (ks := [0, 0, 1, 1]) (by simp) (by simp [exTile])
    all_goals simp [exTile, kf]; try norm_num
  cols_pos := by decide
  v_good := by
    refine ⟨by norm_num, by decide, ?_, ?_, ?_, ?_, ?_⟩
    · exact mono_of_sorted (ks := [0, 0, 1, 1]) (by simp) (by simp [exTile, Surface.cols])
    all_goals simp [exTile, kf, Surface.cols]; try norm_num
  rect := by simp [exTile, Surface.cols]

theorem exTile_degrees : GridDegrees exTile := by
  refine ⟨Or.inr ⟨rfl, ?_⟩, Or.inr ⟨rfl, ?_⟩⟩
  · intro i h1 h2
    have : i < 2 := h2
    have : i = 1 := by omega
    subst this
    simp [exTile, kf]
  · intro i h1 h2
    have : i < 2 := h2
    have : i = 1 := by omega
    subst this
    simp [exTile, kf]

theorem exTile_weights : ∀ row ∈ exTile.cps, ∀ p ∈ row, 0 < p.2 := by
  intro row hr p hp
  simp only [exTile, List.mem_cons, List.not_mem_nil, or_false] at hr
  rcases hr with rfl | rfl <;> simp only [List.mem_cons, List.not_mem_nil, or_false] at hp <;> rcases hp with rfl | rfl <;> norm_num

theorem exTile_bounds : exTile.ulo = 0 ∧ exTile.uhi = 1 ∧ exTile.vlo = 0 ∧ exTile.vhi = 1 := by
  refine ⟨?_, ?_, ?_, ?_⟩ <;> simp [exTile, Surface.ulo, Surface.uhi, Surface.vlo, Surface.vhi, Surface.cols, kf]

theorem tent {t : ℝ} (h1 : 0 ≤ t) (h2 : t ≤ 1) :
    Spec.N (kf ([0, 0, 1, 1] : List ℝ)) 1 1 0 t = 1 - t ∧ Spec.N (kf ([0, 0, 1, 1] : List ℝ)) 1 1 1 t = t := by
  have h0 : ¬ InSpan (kf ([0, 0, 1, 1] : List ℝ)) 1 t 0 := by
    intro h; have := inSpan_lt h; simp [kf] at this
  have h2' : ¬ InSpan (kf ([0, 0, 1, 1] : List ℝ)) 1 t 2 := by
    intro h; have := inSpan_lt h; simp [kf] at this
  have hin : InSpan (kf ([0, 0, 1, 1] : List ℝ)) 1 t 1 := by
    rcases h2.lt_or_eq with h | h
    · simp [InSpan, kf, h1, h, h.ne]
    · subst h
      simp [InSpan, kf]
  constructor
  · simp only [Spec.N, if_neg h0, if_neg h2', if_pos hin]
    simp [kf]
  · simp only [Spec.N, if_neg h0, if_neg h2', if_pos hin]
    simp [kf]

theorem exTile_flat (x : ℝ × ℝ) (h1 : exTile.ulo ≤ x.1) (h2 : x.1 ≤ exTile.uhi) (h3 : exTile.vlo ≤ x.2) (h4 : x.2 ≤ exTile.vhi) :
    surfPoint exTile x = 0 + x.1 • (2 : ℂ) + x.2 • Complex.I := by
  obtain ⟨b1, b2, b3, b4⟩ := exTile_bounds
  obtain ⟨p1, p2⟩ := tent (b1 ▸ h1) (b2 ▸ h2)
  obtain ⟨q1, q2⟩ := tent (b3 ▸ h3) (b4 ▸ h4)
  have e : exTile.eval x.1 x.2 = (x.1 • (2 : ℂ) + x.2 • Complex.I, 1) := by
    have : exTile.eval x.1 x.2 = ((1 - x.1) * (1 - x.2)) • ((0 : ℂ), (1 : ℝ)) + ((1 - x.1) * x.2) • (Complex.I, (1 : ℝ)) +
        ((x.1 * (1 - x.2)) • ((2 : ℂ), (1 : ℝ)) + (x.1 * x.2) • (2 + Complex.I, (1 : ℝ))) := by
      rw [Surface.eval, b2, b4]
      show (Finset.range 2).sum (fun i => (Finset.range 2).sum fun j =>
        (Spec.N (kf ([0, 0, 1, 1] : List ℝ)) 1 1 i x.1 * Spec.N (kf ([0, 0, 1, 1] : List ℝ)) 1 1 j x.2) • exTile.cp i j) = _
      simp only [Finset.sum_range_succ, Finset.sum_range_zero, zero_add, p1, p2, q1, q2]
      simp [exTile, Surface.cp]
    rw [this]
    ext
    · simp; ring
    · simp; ring
  rw [surfPoint, e]
  simp

/-- Witness: above a point of the tile the search finds it to the precision stated. -/
example (M : Metric ℝ ℂ) (hn : NormLike (fun v : ℂ => ‖v‖) M.normSq) {p : ℝ × ℝ} (h1 : 0 ≤ p.1) (h2 : p.1 ≤ 1) (h3 : 0 ≤ p.2) (h4 : p.2 ≤ 1) :
    ∃ r g : ℝ × ℝ, findClosestParameterS (fun v : ℂ => ‖v‖) (fun v w => ⟪v, w⟫_ℝ) (fun q => |q.1| + |q.2|) M (1/1000) 9
        { normTolerance := 1/100 } exTile (p.1 • (2 : ℂ) + p.2 • Complex.I) = .ok r ∧
      (‖surfPoint exTile r - (p.1 • (2 : ℂ) + p.2 • Complex.I)‖ < 1 / 100000 ∨ |r.1 - p.1| + |r.2 - p.2| < 3 * (1 / 1000) ∨
        r - p = (3 / 4 : ℝ) ^ 100 • (g - p)) := by
  obtain ⟨b1, b2, b3, b4⟩ := exTile_bounds
  have hp := exTile_flat p (by rwa [b1]) (by rwa [b2]) (by rwa [b3]) (by rwa [b4])
  obtain ⟨r, g, e, -, -, -, hc⟩ := C55_plane (M := M) (pt := p.1 • (2 : ℂ) + p.2 • Complex.I) (f := p) (A := 0) (T := 2) (U := Complex.I)
    (nrm2 := fun q => |q.1| + |q.2|) exTile_good (by norm_num) exTile_weights exTile_degrees hn
    { normTolerance := 1/100 } (fuel := 9) (by decide) (pts := [[0, Complex.I], [2, 2 + Complex.I]]) (by
      simp [exTile, Surface.dehomogenizedCps, dehomogenize, unwrapR, bind, Except.bind, pure, Except.pure])
    (by norm_num [uClosed, unwrapR, List.range_succ, getR, bind, Except.bind, pure, Except.pure])
    (by norm_num [vClosed, unwrapR, getR, bind, Except.bind, pure, Except.pure]) exTile_flat
    (by norm_num) (by norm_num) (by norm_num [Complex.inner]) (by rwa [b1]) (by rwa [b2]) (by rwa [b3]) (by rwa [b4])
    (by rw [hp]; simp) (by rw [hp]; simp) (by intro t q; simp [abs_mul]; ring)
  exact ⟨r, g, e, hc⟩

end patch

end Curvo.Props

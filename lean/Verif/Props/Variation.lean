/-
  C89: a curve crosses a hyperplane at most as often as its control polygon.
-/
import Mathlib.Tactic.IntervalCases
import Verif.Lemmas.Variation
import Verif.Props.BBox
import Verif.Props.TraverseParams

set_option linter.unusedSectionVars false

namespace Curvo.Props

open Curvo.Spec Curvo.Curve

variable {K : Type} [Field K] [LinearOrder K] [IsStrictOrderedRing K]
variable {W : Type} [AddCommGroup W] [Module K W]

theorem good_knots {eps : K} {c : Curve K (W × K)} (h : c.Good eps) :
    Knots (kf c.knots) c.lo c.hi c.degree (c.cps.length - 1) := by
  have hpos := h.cps_pos
  have hg := h.good
  refine ⟨hg.le, hg.mono, rfl, hi_eq h, ?_⟩
  refine lt_of_lt_of_le hg.first ?_
  rw [← hi_eq h]
  exact hg.mono _ _ (by have := hg.le; omega) (by omega)

/-- The height of a point of the curve above a hyperplane, times its weight, is a spline. -/
theorem height_eq_spl {eps : K} {c : Curve K (W × K)} (h : c.Good eps) (hw : ∀ p ∈ c.cps, 0 < p.2) (f : W →ₗ[K] K) (d : K)
    {u : K} (h1 : c.lo ≤ u) (h2 : u ≤ c.hi) {q : W} (hq : c.pointAt eps u = .ok q) :
    (c.eval u).2 * (f q - d) =
      spl (kf c.knots) c.hi c.degree (c.cps.length - 1) (fun i => f (c.cps.getD i 0).1 - d * (c.cps.getD i 0).2) u ∧
    0 < (c.eval u).2 := by
  obtain ⟨e, hpos⟩ := C09_point_at_positive_weights h hw h1 h2
  rw [e] at hq
  obtain rfl := Except.ok.inj hq
  refine ⟨?_, hpos⟩
  rw [map_smul, smul_eq_mul, mul_sub, ← mul_assoc, mul_inv_cancel₀ hpos.ne', one_mul, mul_comm _ d]
  have hev : c.eval u = (Finset.range (c.cps.length - 1 + 1)).sum fun i =>
      N (kf c.knots) c.hi c.degree i u • c.cps.getD i 0 := by
    rw [Curve.eval, Spec.curve, hi_eq h]
  rw [hev, spl, Prod.fst_sum, Prod.snd_sum, map_sum, Finset.mul_sum, ← Finset.sum_sub_distrib]
  apply Finset.sum_congr rfl
  intro i _
  simp only [Prod.smul_fst, Prod.smul_snd, map_smul, smul_eq_mul]
  ring

theorem height_cp {c : Curve K (W × K)} (hw : ∀ p ∈ c.cps, 0 < p.2) (f : W →ₗ[K] K) (d : K) {i : ℕ} (hi : i < c.cps.length) :
    f (c.cps.getD i 0).1 - d * (c.cps.getD i 0).2 = (c.cps.getD i 0).2 * (f (proj (c.cps.getD i 0)) - d) ∧
    0 < (c.cps.getD i 0).2 := by
  have hm : c.cps.getD i 0 ∈ c.cps := by
    rw [List.getD_eq_getElem?_getD, List.getElem?_eq_getElem hi]
    exact List.getElem_mem _
  have hpos := hw _ hm
  refine ⟨?_, hpos⟩
  rw [proj, map_smul, smul_eq_mul, mul_sub, ← mul_assoc, mul_inv_cancel₀ hpos.ne', one_mul, mul_comm _ d]

/-- Alternating signs from the sign of the first value. -/
theorem alternating {g : ℕ → K} {m : ℕ} (h0 : g 0 ≠ 0) (h : ∀ j, j < m → g j * g (j + 1) < 0) :
    ∀ j, j ≤ m → 0 < g 0 * (-1) ^ j * g j := by
  intro j
  induction j with
  | zero => intro _; rw [pow_zero, mul_one]; exact mul_self_pos.2 h0
  | succ j ih =>
    intro hj
    have i1 := ih (by omega)
    have i2 := h j (by omega)
    have key : g 0 * (-1) ^ j * g (j + 1) < 0 := by
      by_contra hc
      nlinarith [mul_nonneg (not_lt.1 hc) (sq_nonneg (g j)), mul_pos i1 (neg_pos.2 i2)]
    rw [pow_succ]
    have e2 : g 0 * ((-1) ^ j * -1) * g (j + 1) = - (g 0 * (-1) ^ j * g (j + 1)) := by ring
    rw [e2]; linarith

/-- Neighbours of an alternating sequence have opposite signs. -/
theorem opposite {σ x y : K} {j : ℕ} (h1 : 0 < σ * (-1) ^ j * x) (h2 : 0 < σ * (-1) ^ (j + 1) * y) : x * y < 0 := by
  rw [pow_succ] at h2
  generalize he : σ * (-1) ^ j = e at h1
  have h2' : e * y < 0 := by
    have : σ * ((-1) ^ j * -1) * y = - (e * y) := by rw [← he]; ring
    linarith
  by_contra hc
  nlinarith [mul_nonneg (not_lt.1 hc) (sq_nonneg e), mul_pos h1 (neg_pos.2 h2')]

/-- **C89**: if the points of a curve with positive weights at `m + 1` increasing parameters lie alternately on both sides
    of a hyperplane, then so do `m + 1` control points, in the order of the control polygon, beginning on the same side. -/
theorem C89_variation_diminishing {eps : K} {c : Curve K (W × K)} (h : c.Good eps) (hp : 1 ≤ c.degree)
    (hw : ∀ p ∈ c.cps, 0 < p.2) (f : W →ₗ[K] K) (d : K) {m : ℕ} {x : ℕ → K} {q : ℕ → W}
    (hx : ∀ j, j ≤ m → c.lo ≤ x j ∧ x j ≤ c.hi) (hm : ∀ j, j < m → x j < x (j + 1))
    (hq : ∀ j, j ≤ m → c.pointAt eps (x j) = .ok (q j)) (h0 : f (q 0) ≠ d)
    (hs : ∀ j, j < m → (f (q j) - d) * (f (q (j + 1)) - d) < 0) :
    ∃ φ : ℕ → ℕ, (∀ j, j ≤ m → φ j < c.cps.length) ∧ (∀ j, j < m → φ j < φ (j + 1)) ∧
      0 < (f (q 0) - d) * (f (proj (c.cps.getD (φ 0) 0)) - d) ∧
      ∀ j, j < m → (f (proj (c.cps.getD (φ j) 0)) - d) * (f (proj (c.cps.getD (φ (j + 1)) 0)) - d) < 0 := by
  have hpos := h.cps_pos
  have halt := alternating (g := fun j => f (q j) - d) (sub_ne_zero.2 h0) hs
  have hval : ∀ j, j ≤ m → 0 < (f (q 0) - d) * (-1) ^ j * spl (kf c.knots) c.hi c.degree (c.cps.length - 1)
      (fun i => f (c.cps.getD i 0).1 - d * (c.cps.getD i 0).2) (x j) := by
    intro j hj
    obtain ⟨e1, e2⟩ := height_eq_spl h hw f d (hx j hj).1 (hx j hj).2 (hq j hj)
    rw [← e1]
    have := mul_pos e2 (halt j hj)
    calc (0 : K) < _ := this
      _ = _ := by ring
  obtain ⟨φ, a1, a2, a3⟩ := Alt.of_values (good_knots h) hp hx hm hval
  have hφ : ∀ j, j ≤ m → φ j < c.cps.length := fun j hj => by have := a1 j hj; omega
  have hcp : ∀ j, j ≤ m → 0 < (f (q 0) - d) * (-1) ^ j * (f (proj (c.cps.getD (φ j) 0)) - d) := by
    intro j hj
    have := a3 j hj
    obtain ⟨e1, e2⟩ := height_cp hw f d (hφ j hj)
    simp only [e1] at this
    by_contra hc
    nlinarith [mul_nonneg e2.le (neg_nonneg.2 (not_lt.1 hc))]
  refine ⟨φ, hφ, a2, ?_, fun j hj => opposite (hcp j hj.le) (hcp (j + 1) hj)⟩
  have := hcp 0 (Nat.zero_le _)
  rwa [pow_zero, mul_one] at this

/-- **C89**: a hyperplane separates at most as many consecutive points of the curve as it has control points less one. -/
theorem C89_at_most {eps : K} {c : Curve K (W × K)} (h : c.Good eps) (hp : 1 ≤ c.degree)
    (hw : ∀ p ∈ c.cps, 0 < p.2) (f : W →ₗ[K] K) (d : K) {m : ℕ} {x : ℕ → K} {q : ℕ → W}
    (hx : ∀ j, j ≤ m → c.lo ≤ x j ∧ x j ≤ c.hi) (hm : ∀ j, j < m → x j < x (j + 1))
    (hq : ∀ j, j ≤ m → c.pointAt eps (x j) = .ok (q j)) (hs : ∀ j, j < m → (f (q j) - d) * (f (q (j + 1)) - d) < 0) :
    m + 1 ≤ c.cps.length := by
  rcases Nat.eq_zero_or_pos m with e | e
  · have := h.cps_pos; omega
  · have h0 : f (q 0) ≠ d := fun e0 => by have := hs 0 e; rw [e0, sub_self, zero_mul] at this; exact lt_irrefl _ this
    obtain ⟨φ, a1, a2, -, -⟩ := C89_variation_diminishing h hp hw f d hx hm hq h0 hs
    have hgrow : ∀ j, j ≤ m → j ≤ φ j := by
      intro j
      induction j with
      | zero => intro _; omega
      | succ j ih => intro hj; have := ih (by omega); have := a2 j (by omega); omega
    have := hgrow m (le_refl _)
    have := a1 m (le_refl _)
    omega

/-- **C89**: if the control points never go back in a direction, the curve never goes back in it. -/
theorem C89_monotone {eps : K} {c : Curve K (W × K)} (h : c.Good eps) (hp : 1 ≤ c.degree) (hw : ∀ p ∈ c.cps, 0 < p.2)
    (f : W →ₗ[K] K)
    (hf : ∀ i, i + 1 < c.cps.length → f (proj (c.cps.getD i 0)) ≤ f (proj (c.cps.getD (i + 1) 0)))
    {u v : K} (h1 : c.lo ≤ u) (huv : u ≤ v) (h2 : v ≤ c.hi) :
    ∃ P Q, c.pointAt eps u = .ok P ∧ c.pointAt eps v = .ok Q ∧ f P ≤ f Q := by
  have e1 := (C09_point_at_positive_weights h hw h1 (le_trans huv h2)).1
  have e2 := (C09_point_at_positive_weights h hw (le_trans h1 huv) h2).1
  refine ⟨_, _, e1, e2, ?_⟩
  generalize (c.eval u).2⁻¹ • (c.eval u).1 = P at e1 ⊢
  generalize (c.eval v).2⁻¹ • (c.eval v).1 = Q at e2 ⊢
  rcases huv.eq_or_lt with rfl | huv
  · rw [e1] at e2; rw [Except.ok.inj e2]
  by_contra hc
  rw [not_le] at hc
  have hmid : f Q < (f P + f Q) / 2 ∧ (f P + f Q) / 2 < f P := by constructor <;> linarith
  obtain ⟨φ, a1, a2, a3, a4⟩ := C89_variation_diminishing h hp hw f ((f P + f Q) / 2) (m := 1)
    (x := fun j => if j = 0 then u else v) (q := fun j => if j = 0 then P else Q)
    (fun j hj => by
      show c.lo ≤ (if j = 0 then u else v) ∧ (if j = 0 then u else v) ≤ c.hi
      split_ifs
      · exact ⟨h1, le_trans huv.le h2⟩
      · exact ⟨le_trans h1 huv.le, h2⟩)
    (fun j hj => by rw [show j = 0 by omega]; simpa using huv)
    (fun j hj => by
      show c.pointAt eps (if j = 0 then u else v) = .ok (if j = 0 then P else Q)
      split_ifs
      · exact e1
      · exact e2)
    (by simpa using hmid.2.ne')
    (fun j hj => by
      rw [show j = 0 by omega]
      simp only [if_true, Nat.zero_add, if_neg one_ne_zero]
      exact mul_neg_of_pos_of_neg (sub_pos.2 hmid.2) (sub_neg.2 hmid.1))
  simp only [if_true] at a3
  have hlt := a2 0 (by omega)
  have hmono : ∀ i j, i ≤ j → j < c.cps.length → f (proj (c.cps.getD i 0)) ≤ f (proj (c.cps.getD j 0)) := by
    intro i j hij
    induction j, hij using Nat.le_induction with
    | base => intro _; exact le_refl _
    | succ j _ ih => intro hj; exact le_trans (ih (by omega)) (hf j hj)
  have hle := hmono _ _ hlt.le (a1 1 (le_refl _))
  have p1 := (pos_iff_pos_of_mul_pos a3).1 (sub_pos.2 hmid.2)
  have p2 := neg_of_mul_neg_right (a4 0 (by omega)) p1.le
  simp only [Nat.zero_add] at p2 hle
  linarith

/-! ### A concrete case -/

/-- The height function of the witness, `y`. -/
def yCoord : (Fin 2 → ℚ) →ₗ[ℚ] ℚ := LinearMap.proj 1

/-- Four parameters of the curve and the points there. -/
def exWave : ℕ → ℚ := fun j => [0, 3/4, 5/4, 2].getD j 0
def exWaveAt : ℕ → Fin 2 → ℚ := fun j => [![0, 0], ![69/53, 84/53], ![91/41, 46/41], ![5, 5]].getD j 0

theorem exWave_at : ∀ j, j ≤ 3 → exPlane.pointAt (1/1000) (exWave j) = .ok (exWaveAt j) := by
  intro j hj
  interval_cases j <;> exact res_eq_of_ofFn (by decide +kernel)

theorem exWave_sides : ∀ j, j < 3 → (yCoord (exWaveAt j) - 6/5) * (yCoord (exWaveAt (j + 1)) - 6/5) < 0 := by
  intro j hj
  interval_cases j <;> simp [exWaveAt, yCoord] <;> norm_num

/-- The curve crosses the line `y = 6/5` three times; with its four control points it could not do so more often. -/
example : ∃ φ : ℕ → ℕ, (∀ j, j ≤ 3 → φ j < 4) ∧ (∀ j, j < 3 → φ j < φ (j + 1)) ∧
    0 < (yCoord (exWaveAt 0) - 6/5) * (yCoord (proj (exPlane.cps.getD (φ 0) 0)) - 6/5) ∧
    ∀ j, j < 3 → (yCoord (proj (exPlane.cps.getD (φ j) 0)) - 6/5) * (yCoord (proj (exPlane.cps.getD (φ (j + 1)) 0)) - 6/5) < 0 :=
  C89_variation_diminishing exPlane_good (by decide) exPlane_weights yCoord (6/5) (x := exWave)
    (fun j hj => by interval_cases j <;> decide +kernel) (fun j hj => by interval_cases j <;> decide +kernel) exWave_at
    (by simp [exWaveAt, yCoord]; norm_num) exWave_sides

example : 3 + 1 ≤ exPlane.cps.length :=
  C89_at_most exPlane_good (by decide) exPlane_weights yCoord (6/5) (x := exWave)
    (fun j hj => by interval_cases j <;> decide +kernel) (fun j hj => by interval_cases j <;> decide +kernel) exWave_at
    exWave_sides

/-- The control points of the curve go from left to right, and so does the curve. -/
example : ∃ P Q : Fin 2 → ℚ, exPlane.pointAt (1/1000) (1/3) = .ok P ∧ exPlane.pointAt (1/1000) (7/4) = .ok Q ∧
    (LinearMap.proj 0 : (Fin 2 → ℚ) →ₗ[ℚ] ℚ) P ≤ (LinearMap.proj 0 : (Fin 2 → ℚ) →ₗ[ℚ] ℚ) Q :=
  C89_monotone exPlane_good (by decide) exPlane_weights (LinearMap.proj 0)
    (fun i hi => by
      have hi' : i < 3 := by simp [exPlane] at hi; omega
      interval_cases i <;> simp [exPlane, proj]; norm_num)
    (by decide +kernel) (by norm_num) (by decide +kernel)

end Curvo.Props

/-
  C81, C82: the quasi-Newton solver of the intersection queries.
-/
import Verif.Model.Bfgs
import Verif.Props.Closest
import Verif.Props.Compound
import Verif.Props.TraverseParams
import Mathlib.LinearAlgebra.Matrix.DotProduct
import Mathlib.LinearAlgebra.Matrix.Symmetric
import Mathlib.Tactic.LinearCombination

set_option linter.unusedSectionVars false

namespace Curvo.Props

open Curvo.Knots Curvo.Spec Curvo.Curve Curvo.Bfgs Matrix

variable {K : Type} [Field K] [LinearOrder K] [IsStrictOrderedRing K] {n : ℕ}

/-! ### C81: the update -/

theorem update_eq {h0 h1 : Matrix (Fin n) (Fin n) K} {s y : Fin n → K} (h : update h0 s y = some h1) :
    y ⬝ᵥ s ≠ 0 ∧ h1 = (h0 + ((y ⬝ᵥ s + y ⬝ᵥ (h0 *ᵥ y)) / ((y ⬝ᵥ s) * (y ⬝ᵥ s))) • vecMulVec s s) -
      (1 / (y ⬝ᵥ s)) • (vecMulVec (h0 *ᵥ y) s + vecMulVec s (h0 *ᵥ y)) := by
  unfold update at h
  simp only at h
  split_ifs at h with hz
  exact ⟨hz, (Option.some.inj h).symm⟩

/-- The new matrix applied to a vector. -/
theorem update_mulVec {h0 h1 : Matrix (Fin n) (Fin n) K} {s y : Fin n → K} (h : update h0 s y = some h1) (x : Fin n → K) :
    h1 *ᵥ x = h0 *ᵥ x + ((y ⬝ᵥ s + y ⬝ᵥ (h0 *ᵥ y)) / ((y ⬝ᵥ s) * (y ⬝ᵥ s)) * (s ⬝ᵥ x)) • s -
      ((s ⬝ᵥ x) / (y ⬝ᵥ s)) • (h0 *ᵥ y) - (((h0 *ᵥ y) ⬝ᵥ x) / (y ⬝ᵥ s)) • s := by
  obtain ⟨hz, rfl⟩ := update_eq h
  rw [sub_mulVec, add_mulVec, smul_mulVec, smul_mulVec, add_mulVec, vecMulVec_mulVec, vecMulVec_mulVec, vecMulVec_mulVec]
  ext i
  simp only [Pi.sub_apply, Pi.add_apply, Pi.smul_apply, smul_eq_mul, MulOpposite.smul_eq_mul_unop, MulOpposite.unop_op]
  ring

/-- The secant equation: the new inverse Hessian takes the change of the gradient to the step. -/
theorem C81_secant {h0 h1 : Matrix (Fin n) (Fin n) K} {s y : Fin n → K} (hs : h0.IsSymm) (h : update h0 s y = some h1) :
    h1 *ᵥ y = s := by
  obtain ⟨hz, -⟩ := update_eq h
  rw [update_mulVec h]
  have e : (h0 *ᵥ y) ⬝ᵥ y = y ⬝ᵥ (h0 *ᵥ y) := dotProduct_comm _ _
  rw [e, dotProduct_comm s y]
  ext i
  simp only [Pi.sub_apply, Pi.add_apply, Pi.smul_apply, smul_eq_mul]
  field_simp
  ring

theorem C81_symmetric {h0 h1 : Matrix (Fin n) (Fin n) K} {s y : Fin n → K} (hs : h0.IsSymm) (h : update h0 s y = some h1) :
    h1.IsSymm := by
  obtain ⟨hz, rfl⟩ := update_eq h
  ext i j
  have := hs.apply i j
  simp only [transpose_apply, Matrix.sub_apply, Matrix.add_apply, Matrix.smul_apply, smul_eq_mul, vecMulVec_apply]
  rw [this]
  ring

/-- Positive definite: symmetric with positive values. -/
def PosDefinite (h : Matrix (Fin n) (Fin n) K) : Prop := h.IsSymm ∧ ∀ x, x ≠ 0 → 0 < x ⬝ᵥ (h *ᵥ x)

/-- If the gradient grows along the step, the new matrix is positive definite again. -/
theorem C81_positive {h0 h1 : Matrix (Fin n) (Fin n) K} {s y : Fin n → K} (hp : PosDefinite h0) (hys : 0 < y ⬝ᵥ s)
    (h : update h0 s y = some h1) : PosDefinite h1 := by
  refine ⟨C81_symmetric hp.1 h, fun x hx => ?_⟩
  obtain ⟨c, hc⟩ : ∃ c, c = (s ⬝ᵥ x) / (y ⬝ᵥ s) := ⟨_, rfl⟩
  have hsym : ∀ u v : Fin n → K, u ⬝ᵥ (h0 *ᵥ v) = v ⬝ᵥ (h0 *ᵥ u) := by
    intro u v
    rw [dotProduct_mulVec, ← mulVec_transpose, hp.1.eq, dotProduct_comm]
  have key : x ⬝ᵥ (h1 *ᵥ x) = (x - c • y) ⬝ᵥ (h0 *ᵥ (x - c • y)) + c * c * (y ⬝ᵥ s) := by
    rw [update_mulVec h, mulVec_sub, mulVec_smul]
    simp only [dotProduct_sub, dotProduct_add, dotProduct_smul, sub_dotProduct, smul_dotProduct, smul_eq_mul]
    rw [dotProduct_comm (h0 *ᵥ y) x, hsym y x, dotProduct_comm x s, show s ⬝ᵥ x = c * (y ⬝ᵥ s) by rw [hc]; field_simp]
    field_simp
    ring
  rw [key]
  by_cases hz : x - c • y = 0
  · have hc0 : c ≠ 0 := by
      rintro rfl
      simp at hz
      exact hx hz
    have : 0 < c * c := mul_self_pos.2 hc0
    rw [hz]
    simp only [zero_dotProduct, zero_add]
    positivity
  · have := hp.2 _ hz
    have : 0 ≤ c * c * (y ⬝ᵥ s) := mul_nonneg (mul_self_nonneg c) hys.le
    linarith [hp.2 _ hz]

/-- The step is a direction of descent. -/
theorem C81_descent_direction {h : Matrix (Fin n) (Fin n) K} (hp : PosDefinite h) {g : Fin n → K} (hg : g ≠ 0) :
    g ⬝ᵥ (-(h *ᵥ g)) < 0 := by
  rw [dotProduct_neg]
  have := hp.2 g hg
  linarith

theorem identity_positive : PosDefinite (1 : Matrix (Fin n) (Fin n) K) := by
  refine ⟨isSymm_one, fun x hx => ?_⟩
  rw [one_mulVec]
  obtain ⟨i, hi⟩ : ∃ i, x i ≠ 0 := by
    by_contra hne
    push Not at hne
    exact hx (funext hne)
  unfold dotProduct
  have h1 : 0 < x i * x i := mul_self_pos.2 hi
  have : x i * x i ≤ ∑ j, x j * x j := Finset.single_le_sum (f := fun j => x j * x j) (fun j _ => mul_self_nonneg (x j)) (Finset.mem_univ i)
  linarith

/-! ### C81: the line search -/

/-- `x` is refused as a candidate for the factor `t`. -/
def Refused (cost : (Fin n → K) → Res K) (f0 df0 t : K) (x : Fin n → K) : Prop :=
  cost x = .error .err ∨ ∃ f, cost x = .ok f ∧ f0 + 1 / 10 * t * df0 ≤ f

theorem lineSearch_spec {cost : (Fin n → K) → Res K} {tol norm f0 df0 : K} {x0 step : Fin n → K} :
    ∀ {k : ℕ} {t t' : K} {x x' : Fin n → K} {f f' : Option K} {it it' : ℕ},
    lineSearch cost tol norm f0 df0 x0 step k t x f it = .ok (t', x', f', it') →
    ∃ j ≤ k, t' = t * (1 / 2) ^ j ∧ it' ≤ it + k ∧ (0 < k → it < it') ∧ it + j ≤ it' ∧
      (∀ i < j, Refused cost f0 df0 (t * (1 / 2) ^ i) (x0 + (t * (1 / 2) ^ i) • step)) ∧
      ((∃ y, f' = some y ∧ x' = x0 + t' • step ∧ cost x' = .ok y ∧ y < f0 + 1 / 10 * t' * df0) ∨
       ((j = k ∨ t' * norm < tol) ∧
         ((j = 0 ∧ x' = x ∧ f' = f) ∨ (0 < j ∧ x' = x0 + (2 * t') • step ∧
           ((cost x' = .error .err ∧ f' = none) ∨ ∃ y, cost x' = .ok y ∧ f' = some y)))))
  | 0, t, t', x, x', f, f', it, it', h => by
    obtain ⟨rfl, rfl, rfl, rfl⟩ : t = t' ∧ x = x' ∧ f = f' ∧ it = it' := by
      have := Except.ok.inj h
      simpa using this
    exact ⟨0, le_refl _, by simp, by simp, by simp, by simp, by simp, .inr ⟨.inl rfl, .inl ⟨rfl, rfl, rfl⟩⟩⟩
  | k + 1, t, t', x, x', f, f', it, it', h => by
    unfold lineSearch at h
    by_cases hs : t * norm < tol
    · rw [if_pos hs] at h
      obtain ⟨rfl, rfl, rfl, rfl⟩ : t = t' ∧ x = x' ∧ f = f' ∧ it + 1 = it' := by
        have := Except.ok.inj h
        simpa using this
      exact ⟨0, by omega, by simp, by omega, by omega, by omega, by simp, .inr ⟨.inr hs, .inl ⟨rfl, rfl, rfl⟩⟩⟩
    · rw [if_neg hs] at h
      simp only at h
      -- one more halving
      have again : ∀ fx : Option K, Refused cost f0 df0 t (x0 + t • step) →
          ((cost (x0 + t • step) = .error .err ∧ fx = none) ∨ ∃ y, cost (x0 + t • step) = .ok y ∧ fx = some y) →
          lineSearch cost tol norm f0 df0 x0 step k (t * (1 / 2)) (x0 + t • step) fx (it + 1) = .ok (t', x', f', it') →
          ∃ j ≤ k + 1, t' = t * (1 / 2) ^ j ∧ it' ≤ it + (k + 1) ∧ (0 < k + 1 → it < it') ∧ it + j ≤ it' ∧
            (∀ i < j, Refused cost f0 df0 (t * (1 / 2) ^ i) (x0 + (t * (1 / 2) ^ i) • step)) ∧
            ((∃ y, f' = some y ∧ x' = x0 + t' • step ∧ cost x' = .ok y ∧ y < f0 + 1 / 10 * t' * df0) ∨
             ((j = k + 1 ∨ t' * norm < tol) ∧
               ((j = 0 ∧ x' = x ∧ f' = f) ∨ (0 < j ∧ x' = x0 + (2 * t') • step ∧
                 ((cost x' = .error .err ∧ f' = none) ∨ ∃ y, cost x' = .ok y ∧ f' = some y))))) := by
        intro fx hr hfx h
        obtain ⟨j, h1, h2, h3, h4, h5, h6, h7⟩ := lineSearch_spec h
        refine ⟨j + 1, by omega, by rw [h2, pow_succ]; ring, by omega, fun _ => ?_, by omega, ?_, ?_⟩
        · omega
        · intro i hi
          cases i with
          | zero => simpa using hr
          | succ i =>
            have := h6 i (by omega)
            rwa [mul_assoc, ← pow_succ'] at this
        · rcases h7 with h7 | ⟨h7, h8⟩
          · exact .inl h7
          · refine .inr ⟨h7.imp (fun h7 => by omega) id, .inr ⟨by omega, ?_⟩⟩
            rcases h8 with ⟨h8, rfl, rfl⟩ | ⟨-, h9, h10⟩
            · subst h8
              have : 2 * t' = t := by rw [h2]; ring
              rw [this]
              exact ⟨rfl, hfx⟩
            · exact ⟨h9, h10⟩
      cases hc : cost (x0 + t • step) with
      | ok y =>
        rw [hc] at h
        simp only at h
        by_cases hy : 1 / 10 * t * df0 ≤ y - f0
        · rw [if_pos hy] at h
          exact again _ (.inr ⟨y, hc, by linarith⟩) (.inr ⟨y, hc, rfl⟩) h
        · rw [if_neg hy] at h
          obtain ⟨rfl, rfl, rfl, rfl⟩ : t = t' ∧ x0 + t • step = x' ∧ some y = f' ∧ it + 1 = it' := by
            have := Except.ok.inj h
            simpa using this
          exact ⟨0, by omega, by simp, by omega, by omega, by omega, by simp,
            .inl ⟨y, rfl, rfl, hc, by linarith [not_le.1 hy]⟩⟩
      | error e =>
        rw [hc] at h
        cases e
        case err => exact again _ (.inl hc) (.inl ⟨hc, rfl⟩) h
        all_goals simp at h

/-- What one iteration returns. -/
theorem nextIter_spec {P : Problem K n} {nrm : (Fin n → K) → K} {tol : K} {st st' : State K n} {g0 : Fin n → K}
    (hg : st.gradient = some g0 ∨ st.gradient = none ∧ P.gradient st.param = .ok g0) (h : nextIter P nrm tol st = .ok st') :
    ∃ (t : K) (x1 : Fin n → K) (f1 : Option K) (it : ℕ),
      lineSearch P.cost tol (nrm (-(st.hessian.getD 1 *ᵥ g0))) st.cost (g0 ⬝ᵥ (-(st.hessian.getD 1 *ᵥ g0))) st.param
        (-(st.hessian.getD 1 *ᵥ g0)) st.maxIters 1 st.param (some st.cost) 0 = .ok (t, x1, f1, it) ∧
      it ≤ st.maxIters ∧ st'.param = x1 ∧ st'.cost = f1.getD st.cost ∧ st'.prevCost = some st.cost ∧
      st'.maxIters = st.maxIters - it ∧ st'.iter = st.iter + 1 ∧
      st'.best = (if f1.getD st.cost < st.bestCost then x1 else st.best) ∧
      st'.bestCost = (if f1.getD st.cost < st.bestCost then f1.getD st.cost else st.bestCost) ∧
      ((∃ g1, P.gradient x1 = .ok g1 ∧ st'.gradient = some g1 ∧
          ((∃ h1, update (st.hessian.getD 1) (t • (-(st.hessian.getD 1 *ᵥ g0))) (g1 - g0) = some h1 ∧
            st'.hessian = some h1 ∧ st'.finite = st.finite) ∨
           (update (st.hessian.getD 1) (t • (-(st.hessian.getD 1 *ᵥ g0))) (g1 - g0) = none ∧ st'.finite = false))) ∨
       (P.gradient x1 = .error .nonfinite ∧ st'.finite = false)) := by
  have e0 : oldGradient P st = .ok g0 := by
    unfold oldGradient
    rcases hg with hg | ⟨hg, hg'⟩
    · rw [hg]; rfl
    · rw [hg]; exact hg'
  unfold nextIter at h
  simp only at h
  rw [e0, ok_bind] at h
  obtain ⟨⟨t, x1, f1, it⟩, e1, h⟩ := bind_eq_ok.1 h
  simp only at h
  obtain ⟨left, e2, h⟩ := bind_eq_ok.1 h
  have hle : it ≤ st.maxIters := by
    unfold subR at e2
    split_ifs at e2 with hle
    exact hle
  rw [subR_eq_ok hle] at e2
  obtain rfl := Except.ok.inj e2
  refine ⟨t, x1, f1, it, e1, hle, ?_⟩
  cases hg1 : P.gradient x1 with
  | ok g1 =>
    rw [hg1] at h
    simp only at h
    cases hu : update (st.hessian.getD 1) (t • (-(st.hessian.getD 1 *ᵥ g0))) (g1 - g0) with
    | none =>
      rw [hu] at h
      simp only at h
      obtain rfl := Except.ok.inj h
      exact ⟨rfl, rfl, rfl, rfl, rfl, by simp, by simp, .inl ⟨g1, rfl, rfl, .inr ⟨hu, rfl⟩⟩⟩
    | some h1 =>
      rw [hu] at h
      simp only at h
      obtain rfl := Except.ok.inj h
      exact ⟨rfl, rfl, rfl, rfl, rfl, by simp, by simp, .inl ⟨g1, rfl, rfl, .inl ⟨h1, hu, rfl, rfl⟩⟩⟩
  | error e =>
    rw [hg1] at h
    cases e <;> simp at h
    obtain rfl := h
    exact ⟨rfl, rfl, rfl, rfl, rfl, by simp, by simp, .inr ⟨rfl, rfl⟩⟩

/-- **C81** One iteration from a positive definite matrix and a gradient that is not zero: the step goes against the gradient, the factor is the
    first of 1, 1/2, 1/4, … whose candidate is not refused, the cost decreases by more than a tenth of what the slope
    predicts, and the new matrix satisfies the secant equation (and is positive definite again if the gradient has grown
    along the step). Or all the factors that fit the tolerance are refused; then the last refused candidate is taken. -/
theorem C81_step {P : Problem K n} {nrm : (Fin n → K) → K} {tol : K} {st st' : State K n} {g0 : Fin n → K}
    (hg : st.gradient = some g0 ∨ st.gradient = none ∧ P.gradient st.param = .ok g0)
    (hp : PosDefinite (st.hessian.getD 1)) (h0 : g0 ≠ 0) (h : nextIter P nrm tol st = .ok st') :
    ∃ (j : ℕ) (d : Fin n → K), d = -(st.hessian.getD 1 *ᵥ g0) ∧ g0 ⬝ᵥ d < 0 ∧ j ≤ st.maxIters ∧
      (∀ i < j, Refused P.cost st.cost (g0 ⬝ᵥ d) ((1 / 2) ^ i) (st.param + ((1 / 2 : K) ^ i) • d)) ∧
      ((st'.param = st.param + ((1 / 2 : K) ^ j) • d ∧ P.cost st'.param = .ok st'.cost ∧
          st'.cost < st.cost + 1 / 10 * (1 / 2) ^ j * (g0 ⬝ᵥ d) ∧ st'.cost < st.cost ∧
          ∀ g1, P.gradient st'.param = .ok g1 → (g1 - g0) ⬝ᵥ (st'.param - st.param) ≠ 0 →
            ∃ h1, st'.hessian = some h1 ∧ h1 *ᵥ (g1 - g0) = st'.param - st.param ∧ h1.IsSymm ∧
              (0 < (g1 - g0) ⬝ᵥ (st'.param - st.param) → PosDefinite h1)) ∨
       ((j = st.maxIters ∨ (1 / 2) ^ j * nrm d < tol) ∧
          st'.param = (if j = 0 then st.param else st.param + (2 * (1 / 2 : K) ^ j) • d))) := by
  obtain ⟨t, x1, f1, it, e, hle, hx, hf, -, -, -, -, -, hd⟩ := nextIter_spec hg h
  obtain ⟨j, hj, ht, -, -, -, hr, hend⟩ := lineSearch_spec e
  rw [one_mul] at ht
  simp only [one_mul] at hr
  have hneg := C81_descent_direction hp h0
  refine ⟨j, _, rfl, hneg, hj, hr, ?_⟩
  rcases hend with ⟨y, rfl, hx', hc, hy⟩ | ⟨hstop, hx'⟩
  · left
    rw [ht] at hx' hy
    simp only [Option.getD_some] at hf
    rw [hx, hf]
    have hpos : (0 : K) < (1 / 2) ^ j := by positivity
    have hlt : 1 / 10 * (1 / 2) ^ j * (g0 ⬝ᵥ (-(st.hessian.getD 1 *ᵥ g0))) < 0 :=
      mul_neg_of_pos_of_neg (by positivity) hneg
    refine ⟨hx', hc, hy, by linarith, fun g1 hg1 hne => ?_⟩
    have hs : x1 - st.param = t • (-(st.hessian.getD 1 *ᵥ g0)) := by rw [hx', ht]; simp
    rw [hs] at hne ⊢
    rcases hd with ⟨g1', hg1', hgr, hd⟩ | ⟨hg1', -⟩
    · rw [hg1] at hg1'
      obtain rfl := Except.ok.inj hg1'
      rcases hd with ⟨h1, hu, hh, -⟩ | ⟨hu, -⟩
      · exact ⟨h1, hh, C81_secant hp.1 hu, C81_symmetric hp.1 hu, fun hpos => C81_positive hp hpos hu⟩
      · exfalso
        unfold update at hu
        simp only at hu
        rw [if_neg hne] at hu
        simp at hu
    · rw [hg1] at hg1'
      simp at hg1'
  · right
    rw [ht] at hstop hx'
    refine ⟨hstop, ?_⟩
    rw [hx]
    rcases hx' with ⟨h1, h2, -⟩ | ⟨h1, h2, -⟩
    · rw [if_pos h1]; exact h2
    · rw [if_neg (by omega)]; exact h2

/-! ### C82: the run -/

/-- From the one state the iteration goes to the other. -/
def Next (P : Problem K n) (nrm : (Fin n → K) → K) (stepTol costTol : K) (st st' : State K n) : Prop :=
  stops nrm stepTol costTol st = false ∧ nextIter P nrm stepTol st = .ok st'

/-- The state before the first iteration. -/
def initial (x0 : Fin n → K) (f0 : K) (maxIters : ℕ) : State K n :=
  { param := x0, cost := f0, prevCost := none, gradient := none, hessian := none, finite := true, maxIters := maxIters,
    iter := 0, best := x0, bestCost := f0 }

theorem nextIter_gradient {P : Problem K n} {nrm : (Fin n → K) → K} {tol : K} {st st' : State K n}
    (h : nextIter P nrm tol st = .ok st') :
    ∃ g0, st.gradient = some g0 ∨ st.gradient = none ∧ P.gradient st.param = .ok g0 := by
  unfold nextIter at h
  simp only at h
  obtain ⟨g0, e, -⟩ := bind_eq_ok.1 h
  unfold oldGradient at e
  cases hg : st.gradient with
  | some g => exact ⟨g, .inl rfl⟩
  | none =>
    rw [hg] at e
    exact ⟨g0, .inr ⟨rfl, e⟩⟩

/-- The best parameters have the best cost, and no state seen is better. -/
structure Best (P : Problem K n) (st : State K n) : Prop where
  cost : P.cost st.best = .ok st.bestCost
  le : st.bestCost ≤ st.cost

theorem nextIter_best {P : Problem K n} {nrm : (Fin n → K) → K} {tol : K} {st st' : State K n} (hb : Best P st)
    (h : nextIter P nrm tol st = .ok st') :
    Best P st' ∧ st'.bestCost ≤ st.bestCost ∧
      ((st'.best = st.best ∧ st'.bestCost = st.bestCost) ∨
       (st'.best = st'.param ∧ st'.bestCost = st'.cost ∧ st'.cost < st.bestCost)) := by
  obtain ⟨g0, hg⟩ := nextIter_gradient h
  obtain ⟨t, x1, f1, it, e, hle, hx, hf, -, -, -, h1, h2, -⟩ := nextIter_spec hg h
  obtain ⟨j, hj, ht, -, -, -, hr, hend⟩ := lineSearch_spec e
  by_cases hlt : f1.getD st.cost < st.bestCost
  · rw [if_pos hlt] at h1 h2
    have hc : P.cost x1 = .ok (f1.getD st.cost) := by
      rcases hend with ⟨y, rfl, -, hc, -⟩ | ⟨-, ⟨-, -, rfl⟩ | ⟨-, -, ⟨-, rfl⟩ | ⟨y, hc, rfl⟩⟩⟩
      · exact hc
      · exact absurd (hb.le) (not_le.2 (by simpa using hlt))
      · exact absurd (hb.le) (not_le.2 (by simpa using hlt))
      · exact hc
    exact ⟨⟨by rw [h1, h2]; exact hc, by rw [h2, hf]⟩, by rw [h2]; exact hlt.le,
      .inr ⟨by rw [h1, hx], by rw [h2, hf], by rw [hf]; exact hlt⟩⟩
  · rw [if_neg hlt] at h1 h2
    exact ⟨⟨by rw [h1, h2]; exact hb.cost, by rw [h2, hf]; exact not_lt.1 hlt⟩, h2.le, .inl ⟨h1, h2⟩⟩

theorem loop_best {P : Problem K n} {nrm : (Fin n → K) → K} {stepTol costTol : K} :
    ∀ {fuel : ℕ} {st r : State K n}, Best P st → loop P nrm stepTol costTol fuel st = .ok r →
    Best P r ∧ r.bestCost ≤ st.bestCost ∧ (∀ s, Relation.ReflTransGen (Next P nrm stepTol costTol) st s → r.bestCost ≤ s.cost) ∧
      ((r.best = st.best ∧ r.bestCost = st.bestCost) ∨ ∃ s, Relation.ReflTransGen (Next P nrm stepTol costTol) st s ∧
        s.param = r.best ∧ s.cost = r.bestCost)
  | 0, st, r, hb, h => by simp [loop] at h
  | fuel + 1, st, r, hb, h => by
    unfold loop at h
    by_cases hs : stops nrm stepTol costTol st = true
    · rw [if_pos hs] at h
      obtain rfl := Except.ok.inj h
      refine ⟨hb, le_refl _, fun s hr => ?_, .inl ⟨rfl, rfl⟩⟩
      rcases Relation.ReflTransGen.cases_head hr with rfl | ⟨s', hn, -⟩
      · exact hb.le
      · rw [hn.1] at hs
        simp at hs
    · rw [if_neg hs] at h
      obtain ⟨st', e, h⟩ := bind_eq_ok.1 h
      have hn : Next P nrm stepTol costTol st st' := ⟨by simpa using hs, e⟩
      obtain ⟨hb', hle, hw⟩ := nextIter_best hb e
      obtain ⟨i1, i2, i3, i4⟩ := loop_best hb' h
      refine ⟨i1, i2.trans hle, fun s hr => ?_, ?_⟩
      · rcases Relation.ReflTransGen.cases_head hr with rfl | ⟨s', hn', hr⟩
        · exact (i2.trans hle).trans hb.le
        · have : s' = st' := by
            have := hn'.2
            rw [e] at this
            exact (Except.ok.inj this).symm
          subst this
          exact i3 s hr
      · rcases i4 with ⟨h1, h2⟩ | ⟨s, hr, h1, h2⟩
        · rcases hw with ⟨w1, w2⟩ | ⟨w1, w2, -⟩
          · exact .inl ⟨by rw [h1, w1], by rw [h2, w2]⟩
          · exact .inr ⟨st', .single hn, by rw [h1, w1], by rw [h2, w2]⟩
        · exact .inr ⟨s, .head hn hr, h1, h2⟩

/-- **C82** The result of a run is the best of the parameters the iteration visits: its cost is known, is not above the
    cost of the start, nor above the cost of any state of the run, and is the cost of one of them. -/
theorem C82_best {P : Problem K n} {nrm : (Fin n → K) → K} {stepTol costTol : K} {maxIters fuel : ℕ} {x0 x : Fin n → K}
    (h : run P nrm stepTol costTol maxIters fuel x0 = .ok x) :
    ∃ f0 f, P.cost x0 = .ok f0 ∧ P.cost x = .ok f ∧ f ≤ f0 ∧
      (∀ s, Relation.ReflTransGen (Next P nrm stepTol costTol) (initial x0 f0 maxIters) s → f ≤ s.cost) ∧
      ∃ s, Relation.ReflTransGen (Next P nrm stepTol costTol) (initial x0 f0 maxIters) s ∧ s.param = x ∧ s.cost = f := by
  unfold run at h
  obtain ⟨f0, e0, h⟩ := bind_eq_ok.1 h
  obtain ⟨r, e, h⟩ := bind_eq_ok.1 h
  obtain rfl := Except.ok.inj h
  obtain ⟨i1, i2, i3, i4⟩ := loop_best (st := initial x0 f0 maxIters) ⟨e0, le_refl _⟩ e
  refine ⟨f0, r.bestCost, e0, i1.cost, i2, i3, ?_⟩
  rcases i4 with ⟨h1, h2⟩ | ⟨s, h1, h2, h3⟩
  · exact ⟨_, .refl, h1.symm, h2.symm⟩
  · exact ⟨s, h1, h2, h3⟩

/-- If nothing is below the cost of the start, the start is returned. -/
theorem C82_exact_start {P : Problem K n} {nrm : (Fin n → K) → K} {stepTol costTol : K} {maxIters fuel : ℕ} {x0 x : Fin n → K}
    {f0 : K} (h0 : P.cost x0 = .ok f0) (hmin : ∀ y f, P.cost y = .ok f → f0 ≤ f)
    (h : run P nrm stepTol costTol maxIters fuel x0 = .ok x) : x = x0 := by
  have key : ∀ (fuel : ℕ) (st r : State K n), Best P st → st.bestCost = f0 → loop P nrm stepTol costTol fuel st = .ok r →
      r.best = st.best := by
    intro fuel
    induction fuel with
    | zero => intro st r _ _ h; simp [loop] at h
    | succ fuel ih =>
      intro st r hb hf h
      unfold loop at h
      split_ifs at h
      · obtain rfl := Except.ok.inj h; rfl
      · obtain ⟨st', e, h⟩ := bind_eq_ok.1 h
        obtain ⟨hb', hle, hw⟩ := nextIter_best hb e
        rcases hw with ⟨w1, w2⟩ | ⟨w1, w2, w3⟩
        · rw [ih st' r hb' (by rw [w2, hf]) h, w1]
        · have := hmin _ _ hb'.cost
          rw [w2] at this
          rw [hf] at w3
          exact absurd this (not_le.2 w3)
  unfold run at h
  rw [h0, ok_bind] at h
  obtain ⟨r, e, h⟩ := bind_eq_ok.1 h
  obtain rfl := Except.ok.inj h
  exact key _ _ _ ⟨h0, le_refl _⟩ rfl e

/-- Cost and gradient are defined at the same places, and fail in the two ways the code foresees. -/
def Total (P : Problem K n) : Prop :=
  ∀ x, (∃ f g, P.cost x = .ok f ∧ P.gradient x = .ok g) ∨ (P.cost x = .error .err ∧ P.gradient x = .error .nonfinite)

theorem lineSearch_total {P : Problem K n} (hP : Total P) {tol norm f0 df0 : K} {x0 step : Fin n → K} :
    ∀ (k : ℕ) (t : K) (x : Fin n → K) (f : Option K) (it : ℕ), ∃ r, lineSearch P.cost tol norm f0 df0 x0 step k t x f it = .ok r
  | 0, _, _, _, _ => ⟨_, rfl⟩
  | k + 1, t, x, f, it => by
    unfold lineSearch
    split_ifs
    · exact ⟨_, rfl⟩
    · simp only
      rcases hP (x0 + t • step) with ⟨y, -, e, -⟩ | ⟨e, -⟩
      · rw [e]
        simp only
        split_ifs
        · exact lineSearch_total hP k _ _ _ _
        · exact ⟨_, rfl⟩
      · rw [e]
        exact lineSearch_total hP k _ _ _ _

theorem nextIter_total {P : Problem K n} (hP : Total P) {nrm : (Fin n → K) → K} {tol : K} {st : State K n} {g0 : Fin n → K}
    (hg : st.gradient = some g0 ∨ st.gradient = none ∧ P.gradient st.param = .ok g0) :
    ∃ st', nextIter P nrm tol st = .ok st' := by
  have e0 : oldGradient P st = .ok g0 := by
    unfold oldGradient
    rcases hg with hg | ⟨hg, hg'⟩
    · rw [hg]; rfl
    · rw [hg]; exact hg'
  unfold nextIter
  simp only
  rw [e0, ok_bind]
  obtain ⟨⟨t, x1, f1, it⟩, e⟩ := lineSearch_total hP (tol := tol) (norm := nrm (-(st.hessian.getD 1 *ᵥ g0))) (f0 := st.cost)
    (df0 := g0 ⬝ᵥ (-(st.hessian.getD 1 *ᵥ g0))) (x0 := st.param) (step := -(st.hessian.getD 1 *ᵥ g0)) st.maxIters 1 st.param
    (some st.cost) 0
  obtain ⟨j, -, -, hit, -⟩ := lineSearch_spec e
  rw [e, ok_bind]
  simp only
  rw [subR_eq_ok (by omega), ok_bind]
  rcases hP x1 with ⟨y, g1, -, hg1⟩ | ⟨-, hg1⟩
  · rw [hg1]
    simp only
    cases update (st.hessian.getD 1) (t • (-(st.hessian.getD 1 *ᵥ g0))) (g1 - g0) <;> exact ⟨_, rfl⟩
  · rw [hg1]
    exact ⟨_, rfl⟩

theorem loop_total {P : Problem K n} (hP : Total P) {nrm : (Fin n → K) → K} {stepTol costTol : K} :
    ∀ (fuel : ℕ) (st : State K n), st.maxIters < fuel →
    (st.finite = true → ∃ g0, st.gradient = some g0 ∨ st.gradient = none ∧ P.gradient st.param = .ok g0) →
    ∃ r, loop P nrm stepTol costTol fuel st = .ok r
  | 0, _, h, _ => by omega
  | fuel + 1, st, hf, hg => by
    unfold loop
    by_cases hs : stops nrm stepTol costTol st = true
    · rw [if_pos hs]; exact ⟨_, rfl⟩
    · rw [if_neg hs]
      have hs : stops nrm stepTol costTol st = false := by simpa using hs
      unfold stops at hs
      simp only [Bool.or_eq_false_iff, decide_eq_false_iff_not, Bool.not_eq_false'] at hs
      obtain ⟨⟨⟨⟨-, hfin⟩, -⟩, -⟩, hit⟩ := hs
      obtain ⟨g0, hg⟩ := hg hfin
      obtain ⟨st', e⟩ := nextIter_total hP (nrm := nrm) (tol := stepTol) hg
      rw [e, ok_bind]
      obtain ⟨t, x1, f1, it, el, hle, -, -, -, hm, -, -, -, hd⟩ := nextIter_spec hg e
      obtain ⟨j, -, -, -, hpos, -⟩ := lineSearch_spec el
      have := hpos (by omega)
      refine loop_total hP fuel st' (by omega) fun hfin' => ?_
      rcases hd with ⟨g1, -, hgr, -⟩ | ⟨-, hd⟩
      · exact ⟨g1, .inl hgr⟩
      · rw [hd] at hfin'; simp at hfin'

/-- **C82** The run ends after at most `maxIters` iterations, without fault, if the cost of the start is defined. -/
theorem C82_terminates {P : Problem K n} (hP : Total P) {nrm : (Fin n → K) → K} {stepTol costTol : K} {maxIters fuel : ℕ}
    (hf : maxIters < fuel) {x0 : Fin n → K} {f0 : K} (h0 : P.cost x0 = .ok f0) :
    ∃ x, run P nrm stepTol costTol maxIters fuel x0 = .ok x := by
  obtain ⟨r, e⟩ := loop_total hP (nrm := nrm) (stepTol := stepTol) (costTol := costTol) fuel (initial x0 f0 maxIters) hf (fun _ => by
    rcases hP x0 with ⟨f, g, -, hg⟩ | ⟨h, -⟩
    · exact ⟨g, .inr ⟨rfl, hg⟩⟩
    · rw [h0] at h; simp at h)
  refine ⟨r.best, ?_⟩
  unfold run
  rw [h0, ok_bind]
  unfold initial at e
  rw [e]
  rfl

end Curvo.Props

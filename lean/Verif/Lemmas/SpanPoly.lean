/-
  The polynomial that a B-spline basis function is on one knot span, and its derivatives.
-/
import Mathlib.Algebra.Polynomial.Derivative
import Mathlib.Algebra.Polynomial.AlgebraMap
import Mathlib.Algebra.Polynomial.Degree.Lemmas
import Mathlib.Tactic.LinearCombination
import Verif.Lemmas.BSpline

set_option linter.unusedSectionVars false

namespace Curvo.Spec

open Polynomial

variable {K : Type} [Field K] [LinearOrder K]

/-- The Cox–de Boor recursion, started from the characteristic function of span `s`, in polynomials. -/
noncomputable def spanPoly (k : ℕ → K) (s : ℕ) : ℕ → ℕ → K[X]
  | 0, i => if i = s then 1 else 0
  | p + 1, i =>
    (X - C (k i)) * (C (k (i + p + 1) - k i)⁻¹ * spanPoly k s p i) +
    (C (k (i + p + 2)) - X) * (C (k (i + p + 2) - k (i + 1))⁻¹ * spanPoly k s p (i + 1))

theorem spanPoly_eval (k : ℕ → K) (s : ℕ) (u : K) : ∀ p i, (spanPoly k s p i).eval u = NS k s p i u
  | 0, i => by unfold spanPoly NS; split_ifs <;> simp
  | p + 1, i => by
    rw [spanPoly, NS]
    simp only [eval_add, eval_mul, eval_sub, eval_X, eval_C, spanPoly_eval k s u p i, spanPoly_eval k s u p (i + 1)]
    rw [div_eq_mul_inv, div_eq_mul_inv]; ring

theorem spanPoly_zero_left (k : ℕ → K) (s : ℕ) : ∀ p i, i + p < s → spanPoly k s p i = 0
  | 0, i, h => by rw [spanPoly, if_neg (by omega)]
  | p + 1, i, h => by
    rw [spanPoly, spanPoly_zero_left k s p i (by omega), spanPoly_zero_left k s p (i + 1) (by omega)]; simp

theorem spanPoly_zero_right (k : ℕ → K) (s : ℕ) : ∀ p i, s < i → spanPoly k s p i = 0
  | 0, i, h => by rw [spanPoly, if_neg (by omega)]
  | p + 1, i, h => by
    rw [spanPoly, spanPoly_zero_right k s p i (by omega), spanPoly_zero_right k s p (i + 1) (by omega)]; simp

/-- A divided basis polynomial, the summand of the recursion and of the derivative formula. -/
noncomputable def divPoly (k : ℕ → K) (s p i : ℕ) : K[X] := C (k (i + p + 1) - k i)⁻¹ * spanPoly k s p i

theorem spanPoly_succ (k : ℕ → K) (s p i : ℕ) : spanPoly k s (p + 1) i =
    (X - C (k i)) * divPoly k s p i + (C (k (i + p + 2)) - X) * divPoly k s p (i + 1) := by
  rw [spanPoly, divPoly, divPoly, show i + 1 + p + 1 = i + p + 2 by omega]

/-- The derivative of a basis polynomial of degree `p + 1`. -/
theorem spanPoly_derivative {k : ℕ → K} {s : ℕ} :
    ∀ p i, (∀ i j, i ≤ s → s < j → j ≤ s + (p + 1) → k j ≠ k i) → derivative (spanPoly k s (p + 1) i) = C ((p : K) + 1) * (divPoly k s p i - divPoly k s p (i + 1))
  | 0, i, _ => by
    rw [spanPoly_succ]
    have h0 : ∀ j, derivative (divPoly k s 0 j) = 0 := by
      intro j
      rw [divPoly, spanPoly]; split_ifs <;> simp
    simp [h0]
    ring
  | p + 1, i, hk => by
    have ih : ∀ j, derivative (divPoly k s (p + 1) j) =
        C (k (j + p + 2) - k j)⁻¹ * (C ((p : K) + 1) * (divPoly k s p j - divPoly k s p (j + 1))) := by
      intro j
      rw [divPoly, derivative_mul, derivative_C, zero_mul, zero_add, spanPoly_derivative p j fun a b h1 h2 h3 => hk a b h1 h2 (by omega),
        show j + (p + 1) + 1 = j + p + 2 by omega]
    have e : ∀ j, divPoly k s (p + 1) j = C (k (j + p + 2) - k j)⁻¹ *
        ((X - C (k j)) * divPoly k s p j + (C (k (j + p + 2)) - X) * divPoly k s p (j + 1)) := by
      intro j
      rw [divPoly, spanPoly_succ, show j + (p + 1) + 1 = j + p + 2 by omega]
    -- the two reciprocals cancel where the divided polynomial is not zero
    have key : (C (k (i + p + 2) - k i)⁻¹ * C (k (i + p + 2) - k i) -
        C (k (i + 1 + p + 2) - k (i + 1))⁻¹ * C (k (i + 1 + p + 2) - k (i + 1))) * divPoly k s p (i + 1) = 0 := by
      by_cases hs : i + 1 ≤ s ∧ s ≤ i + 1 + p
      · have h1 : k (i + p + 2) - k i ≠ 0 := sub_ne_zero.2 (hk _ _ (by omega) (by omega) (by omega))
        have h2 : k (i + 1 + p + 2) - k (i + 1) ≠ 0 := sub_ne_zero.2 (hk _ _ (by omega) (by omega) (by omega))
        rw [← C_mul, ← C_mul, inv_mul_cancel₀ h1, inv_mul_cancel₀ h2]; simp
      · have : spanPoly k s p (i + 1) = 0 := by
          rcases not_and_or.1 hs with h | h
          · exact spanPoly_zero_right _ _ _ _ (by omega)
          · exact spanPoly_zero_left _ _ _ _ (by omega)
        rw [divPoly, this]; simp
    rw [spanPoly_succ]
    simp only [derivative_add, derivative_mul, derivative_sub, derivative_X, derivative_C, ih, sub_zero, zero_sub,
      one_mul, neg_one_mul]
    have ei := e i
    have ei1 := e (i + 1)
    push_cast
    rw [show i + (p + 1) + 2 = i + 1 + p + 2 by omega]
    simp only [C_sub, C_add, C_1] at key ⊢
    generalize hA : divPoly k s p i = A at *
    generalize hB : divPoly k s p (i + 1) = B at *
    generalize hD : divPoly k s p (i + 1 + 1) = D at *
    linear_combination (-(C (p : K) + 1)) * (ei - ei1) + (-(C (p : K) + 1)) * key

/-- The coefficients of the iterated derivative in the basis polynomials of lower degree, as in the recursion of
    The NURBS Book (2.9); `A n j` belongs to the basis polynomial `i + j` of degree `p - n`. -/
def dcoef (k : ℕ → K) (p i : ℕ) : ℕ → ℕ → K
  | 0, j => if j = 0 then 1 else 0
  | n + 1, j =>
    (dcoef k p i n j - if j = 0 then 0 else dcoef k p i n (j - 1)) / (k (i + j + (p - n)) - k (i + j))

theorem dcoef_zero (k : ℕ → K) (p i : ℕ) : ∀ n j, n < j → dcoef k p i n j = 0
  | 0, j, h => by rw [dcoef, if_neg (by omega)]
  | n + 1, j, h => by
    rw [dcoef, dcoef_zero k p i n j (by omega), if_neg (by omega), dcoef_zero k p i n (j - 1) (by omega)]; simp

/-- `p (p-1) … (p-n+1)`. -/
def fallF (p : ℕ) : ℕ → K
  | 0 => 1
  | n + 1 => fallF p n * ((p - n : ℕ) : K)

theorem iterate_derivative_spanPoly {k : ℕ → K} {s : ℕ} (p i : ℕ)
    (hk : ∀ i j, i ≤ s → s < j → j ≤ s + p → k j ≠ k i) :
    ∀ n, n ≤ p → derivative^[n] (spanPoly k s p i) =
      C (fallF p n) * (Finset.range (n + 1)).sum fun j => C (dcoef k p i n j) * spanPoly k s (p - n) (i + j)
  | 0, _ => by simp [fallF, dcoef]
  | n + 1, hn => by
    rw [Function.iterate_succ_apply', iterate_derivative_spanPoly p i hk n (by omega), derivative_C_mul,
      derivative_sum]
    have e : ∀ j, derivative (C (dcoef k p i n j) * spanPoly k s (p - n) (i + j)) =
        C ((p - n : ℕ) : K) * (C (dcoef k p i n j) * divPoly k s (p - (n + 1)) (i + j) -
          C (dcoef k p i n j) * divPoly k s (p - (n + 1)) (i + j + 1)) := by
      intro j
      rw [derivative_C_mul]
      have := spanPoly_derivative (k := k) (s := s) (p - (n + 1)) (i + j)
        fun a b h1 h2 h3 => hk a b h1 h2 (by omega)
      rw [show p - (n + 1) + 1 = p - n by omega] at this
      rw [this, show ((p - (n + 1) : ℕ) : K) + 1 = ((p - n : ℕ) : K) by
        rw [← Nat.cast_succ]; congr 1; omega]
      ring
    simp only [e]
    rw [← Finset.mul_sum, Finset.sum_sub_distrib, fallF, C_mul, mul_assoc]
    congr 2
    have e2 : ∀ j, C (dcoef k p i (n + 1) j) * spanPoly k s (p - (n + 1)) (i + j) =
        C (dcoef k p i n j) * divPoly k s (p - (n + 1)) (i + j) -
          C (if j = 0 then 0 else dcoef k p i n (j - 1)) * divPoly k s (p - (n + 1)) (i + j) := by
      intro j
      rw [dcoef, divPoly, show i + j + (p - (n + 1)) + 1 = i + j + (p - n) by omega, div_eq_mul_inv, C_mul, C_sub]
      ring
    simp only [e2]
    rw [Finset.sum_sub_distrib]
    congr 1
    · rw [Finset.sum_range_succ (n := n + 1), dcoef_zero k p i n (n + 1) (by omega)]; simp
    · rw [Finset.sum_range_succ' (n := n + 1)]
      simp [add_assoc]

theorem spanPoly_natDegree (k : ℕ → K) (s : ℕ) : ∀ q j, (spanPoly k s q j).natDegree ≤ q := by
    intro q
    induction q with
    | zero => intro j; rw [spanPoly]; split_ifs <;> simp
    | succ q ih =>
      intro j
      rw [spanPoly]
      refine natDegree_add_le_of_degree_le ?_ ?_
      · refine (natDegree_mul_le).trans ?_
        have h1 : (X - C (k j) : K[X]).natDegree ≤ 1 := natDegree_X_sub_C_le _
        have h2 := (natDegree_C_mul_le (k (j + q + 1) - k j)⁻¹ (spanPoly k s q j)).trans (ih j)
        omega
      · refine (natDegree_mul_le).trans ?_
        have h1 : (C (k (j + q + 2)) - X : K[X]).natDegree ≤ 1 := by
          rw [← neg_sub, natDegree_neg]; exact natDegree_X_sub_C_le _
        have h2 := (natDegree_C_mul_le (k (j + q + 2) - k (j + 1))⁻¹ (spanPoly k s q (j + 1))).trans (ih (j + 1))
        omega

theorem iterate_derivative_spanPoly_high (k : ℕ → K) (s p i n : ℕ) (hn : p < n) :
    derivative^[n] (spanPoly k s p i) = 0 :=
  iterate_derivative_eq_zero (lt_of_le_of_lt (spanPoly_natDegree k s p i) hn)

end Curvo.Spec

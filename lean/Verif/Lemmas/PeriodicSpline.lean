/-
  Periodic splines of odd degree that vanish at all their knots are zero: the integral of the square of the middle derivative
  vanishes by partial integration.
-/
import Mathlib.Algebra.Polynomial.Roots
import Mathlib.Algebra.Polynomial.Taylor
import Mathlib.Analysis.Calculus.Deriv.Polynomial
import Mathlib.MeasureTheory.Integral.IntervalIntegral.FundThmCalculus
import Mathlib.MeasureTheory.Integral.IntervalIntegral.IntegrationByParts
import Mathlib.Topology.Algebra.Polynomial
import Verif.Lemmas.BSpline2
import Verif.Lemmas.Whitney

set_option linter.unusedSectionVars false

namespace Curvo.Spec

open Polynomial

/-- Partial integration of polynomials. -/
theorem poly_parts (P Q : ℝ[X]) (a b : ℝ) :
    (∫ x in a..b, P.eval x * (derivative Q).eval x) =
      P.eval b * Q.eval b - P.eval a * Q.eval a - ∫ x in a..b, (derivative P).eval x * Q.eval x :=
  intervalIntegral.integral_mul_deriv_eq_deriv_mul (fun x _ => P.hasDerivAt x) (fun x _ => Q.hasDerivAt x)
    ((derivative P).continuous.intervalIntegrable _ _) ((derivative Q).continuous.intervalIntegrable _ _)

/-- A polynomial whose square has no integral is zero. -/
theorem poly_sq_zero {Q : ℝ[X]} {a b : ℝ} (hab : a < b) (h : (∫ x in a..b, Q.eval x * Q.eval x) ≤ 0) : Q = 0 := by
  by_contra hQ
  have hfin : (Q.roots.toFinset : Set ℝ).Finite := Finset.finite_toSet _
  obtain ⟨x, hx, hx'⟩ := (Set.Icc_infinite hab).exists_notMem_finite hfin
  have hne : Q.eval x ≠ 0 := by
    intro h0
    apply hx'
    simp [hQ, h0]
  refine absurd h (not_le.2 ?_)
  refine intervalIntegral.integral_pos hab (Q.continuous.mul Q.continuous).continuousOn (fun y _ => mul_self_nonneg _)
    ⟨x, hx, mul_self_pos.2 hne⟩

section pieces
variable {P : ℕ → ℝ[X]} {t : ℕ → ℝ} {n r : ℕ}

theorem pieces_telescope {g : ℕ → ℝ[X]} (hjoin : ∀ j, j < n → (g j).eval (t (j + 1)) = (g (j + 1)).eval (t (j + 1)))
    (hper : (g n).eval (t n) = (g 0).eval (t 0)) :
    ((Finset.range n).sum fun j => (g j).eval (t (j + 1)) - (g j).eval (t j)) = 0 := by
  rw [Finset.sum_congr rfl fun j hj => by rw [hjoin j (Finset.mem_range.1 hj)],
    Finset.sum_range_sub (fun j => (g j).eval (t j)), hper, sub_self]

/-- Moving derivatives from one factor to the other. -/
theorem pieces_move (hjoin : ∀ j, j < n → ∀ m, m < 2 * r - 1 →
      (derivative^[m] (P j)).eval (t (j + 1)) = (derivative^[m] (P (j + 1))).eval (t (j + 1)))
    (hper : ∀ m, m < 2 * r - 1 → (derivative^[m] (P n)).eval (t n) = (derivative^[m] (P 0)).eval (t 0)) :
    ∀ i, i + 1 ≤ r → ((Finset.range n).sum fun j => ∫ x in (t j)..(t (j + 1)),
        (derivative^[r + i] (P j)).eval x * (derivative^[r - i] (P j)).eval x) =
      (-1) ^ i * (Finset.range n).sum fun j => ∫ x in (t j)..(t (j + 1)),
        (derivative^[r] (P j)).eval x * (derivative^[r] (P j)).eval x := by
  intro i
  induction i with
  | zero => intro _; simp
  | succ i ih =>
    intro hi
    have ih' := ih (by omega)
    have e : ∀ j, (∫ x in (t j)..(t (j + 1)), (derivative^[r + i] (P j)).eval x * (derivative^[r - i] (P j)).eval x) =
        ((derivative^[r + i] (P j) * derivative^[r - (i + 1)] (P j)).eval (t (j + 1)) -
          (derivative^[r + i] (P j) * derivative^[r - (i + 1)] (P j)).eval (t j)) -
        ∫ x in (t j)..(t (j + 1)), (derivative^[r + (i + 1)] (P j)).eval x * (derivative^[r - (i + 1)] (P j)).eval x := by
      intro j
      have e1 : derivative^[r - i] (P j) = derivative (derivative^[r - (i + 1)] (P j)) := by
        rw [← Function.iterate_succ_apply' derivative, show (r - (i + 1)).succ = r - i by omega]
      have e2 : derivative^[r + (i + 1)] (P j) = derivative (derivative^[r + i] (P j)) := by
        rw [← Function.iterate_succ_apply' derivative]; rfl
      rw [e1, e2, poly_parts, eval_mul, eval_mul]
    simp only [e] at ih'
    rw [Finset.sum_sub_distrib, pieces_telescope (g := fun j => derivative^[r + i] (P j) * derivative^[r - (i + 1)] (P j))
      (fun j hj => by rw [eval_mul, eval_mul, hjoin j hj _ (by omega), hjoin j hj _ (by omega)])
      (by rw [eval_mul, eval_mul, hper _ (by omega), hper _ (by omega)]), zero_sub] at ih'
    rw [pow_succ, mul_neg_one, neg_mul, ← ih', neg_neg]

/-- **Periodic splines of odd degree that vanish at their knots**, as pieces. -/
theorem pieces_zero (hr : 1 ≤ r) (ht : ∀ j, j < n → t j < t (j + 1)) (hn : r ≤ n) (hdeg : ∀ j, (P j).natDegree ≤ 2 * r - 1)
    (hjoin : ∀ j, j < n → ∀ m, m < 2 * r - 1 →
      (derivative^[m] (P j)).eval (t (j + 1)) = (derivative^[m] (P (j + 1))).eval (t (j + 1)))
    (hper : ∀ m, m < 2 * r - 1 → (derivative^[m] (P n)).eval (t n) = (derivative^[m] (P 0)).eval (t 0))
    (hz : ∀ j, j < n → (P j).eval (t j) = 0) : ∀ j, j < n → P j = 0 := by
  -- zeros at both ends
  have hz' : ∀ j, j < n → (P j).eval (t (j + 1)) = 0 := by
    intro j hj
    have h1 := hjoin j hj 0 (by omega)
    simp only [Function.iterate_zero, id] at h1
    rw [h1]
    rcases Nat.lt_or_ge (j + 1) n with h | h
    · exact hz _ h
    · have : j + 1 = n := by omega
      rw [this]
      have h2 := hper 0 (by omega)
      simp only [Function.iterate_zero, id] at h2
      rw [h2]
      exact hz 0 (by omega)
  have hsum := pieces_move hjoin hper (r - 1) (by omega)
  have hlhs : ((Finset.range n).sum fun j => ∫ x in (t j)..(t (j + 1)),
      (derivative^[r + (r - 1)] (P j)).eval x * (derivative^[r - (r - 1)] (P j)).eval x) = 0 := by
    apply Finset.sum_eq_zero
    intro j hj
    have hj' := Finset.mem_range.1 hj
    have hc : (derivative^[r + (r - 1)] (P j)).natDegree = 0 := by
      have h1 := Polynomial.natDegree_iterate_derivative (P j) (r + (r - 1))
      have h2 := hdeg j
      omega
    rw [Polynomial.eq_C_of_natDegree_eq_zero hc, show r - (r - 1) = 1 by omega]
    simp only [eval_C, Function.iterate_one]
    rw [intervalIntegral.integral_const_mul, intervalIntegral.integral_eq_sub_of_hasDerivAt
      (fun x _ => (P j).hasDerivAt x) ((derivative (P j)).continuous.intervalIntegrable _ _), hz j hj', hz' j hj', sub_zero, mul_zero]
  rw [hlhs] at hsum
  have htot : ((Finset.range n).sum fun j => ∫ x in (t j)..(t (j + 1)),
      (derivative^[r] (P j)).eval x * (derivative^[r] (P j)).eval x) = 0 := by
    rcases mul_eq_zero.1 hsum.symm with h | h
    · exact absurd h (pow_ne_zero _ (by norm_num))
    · exact h
  have hnn : ∀ j ∈ Finset.range n, 0 ≤ ∫ x in (t j)..(t (j + 1)), (derivative^[r] (P j)).eval x * (derivative^[r] (P j)).eval x := by
    intro j hj
    exact intervalIntegral.integral_nonneg (ht j (Finset.mem_range.1 hj)).le fun x _ => mul_self_nonneg _
  have hD : ∀ j, j < n → derivative^[r] (P j) = 0 := fun j hj =>
    poly_sq_zero (ht j hj) ((Finset.sum_eq_zero_iff_of_nonneg hnn).1 htot j (Finset.mem_range.2 hj)).le
  -- one polynomial
  have hstep : ∀ j, j + 1 < n → P (j + 1) = P j := by
    intro j hj
    rw [← sub_eq_zero]
    apply Polynomial.eq_zero_of_hasseDeriv_eq_zero _ (t (j + 1))
    intro m
    have hf : (m.factorial : ℝ[X]) * hasseDeriv m (P (j + 1) - P j) = derivative^[m] (P (j + 1) - P j) := by
      rw [← nsmul_eq_mul, ← Polynomial.factorial_smul_hasseDeriv]; rfl
    have h0 : (derivative^[m] (P (j + 1) - P j)).eval (t (j + 1)) = 0 := by
      rw [Polynomial.iterate_derivative_sub, eval_sub]
      rcases Nat.lt_or_ge m r with h | h
      · by_cases h' : m < 2 * r - 1
        · rw [hjoin j (by omega) m h', sub_self]
        · have : m = 0 ∧ r = 1 := by omega
          omega
      · obtain ⟨d, rfl⟩ : ∃ d, m = d + r := ⟨m - r, by omega⟩
        rw [Function.iterate_add_apply, Function.iterate_add_apply, hD _ hj, hD _ (by omega)]
        simp
    rw [← hf, eval_mul, eval_natCast] at h0
    exact (mul_eq_zero.1 h0).resolve_left (by exact_mod_cast Nat.factorial_ne_zero m)
  have hall : ∀ j, j < n → P j = P 0 := by
    intro j
    induction j with
    | zero => intro _; rfl
    | succ j ih => intro hj; rw [hstep j hj, ih (by omega)]
  intro j hj
  rw [hall j hj]
  have hdeg0 : (P 0).natDegree < r := by
    by_contra hge
    have h1 : (derivative^[r] (P 0)) = 0 := hD 0 (by omega)
    have h2 : (derivative^[(P 0).natDegree] (P 0)) = 0 := by
      rw [show (P 0).natDegree = ((P 0).natDegree - r) + r by omega, Function.iterate_add_apply, h1]; simp
    have h3 := Polynomial.coeff_iterate_derivative (k := (P 0).natDegree) (P 0) 0
    rw [h2, coeff_zero, zero_add, nsmul_eq_mul] at h3
    rcases mul_eq_zero.1 h3.symm with h | h
    · have := Nat.cast_eq_zero.1 h
      rw [Nat.descFactorial_self] at this
      exact Nat.factorial_ne_zero _ this
    · have hP : P 0 = 0 := leadingCoeff_eq_zero.1 h
      rw [hP] at hge
      simp at hge
      omega
  have hinj : ∀ i j, i < j → j < n → t i < t j := by
    intro i j hij
    induction j with
    | zero => omega
    | succ j ih =>
      intro hj
      rcases Nat.lt_or_ge i j with h | h
      · exact (ih h (by omega)).trans (ht j (by omega))
      · rw [show i = j by omega]; exact ht j (by omega)
  apply Polynomial.eq_zero_of_natDegree_lt_card_of_eval_eq_zero' (P 0) ((Finset.range n).image t)
  · intro x hx
    obtain ⟨i, hi, rfl⟩ := Finset.mem_image.1 hx
    rw [← hall i (Finset.mem_range.1 hi)]
    exact hz i (Finset.mem_range.1 hi)
  · rw [Finset.card_image_of_injOn, Finset.card_range]
    · omega
    · intro a ha b hb hab
      simp only [Finset.coe_range, Set.mem_Iio] at ha hb
      rcases lt_trichotomy a b with h | h | h
      · exact absurd hab (hinj a b h hb).ne
      · exact h
      · exact absurd hab.symm (hinj b a h ha).ne

end pieces

theorem iterate_derivative_comp_shift {K : Type} [Field K] (Q : K[X]) (T : K) :
    ∀ m, derivative^[m] (Q.comp (X + C T)) = (derivative^[m] Q).comp (X + C T) := by
  intro m
  induction m with
  | zero => rfl
  | succ m ih =>
    rw [Function.iterate_succ_apply', ih, Function.iterate_succ_apply', derivative_comp]
    simp

/-- Over a periodic knot sequence the basis polynomials repeat. -/
theorem spanPoly_periodic {K : Type} [Field K] [LinearOrder K] [IsStrictOrderedRing K] {k : ℕ → K} {n : ℕ} {T : K} (hT : ∀ j, k (j + n) = k j + T) (s p i : ℕ) :
    (spanPoly k (s + n) p (i + n)).comp (X + C T) = spanPoly k s p i := by
  apply Polynomial.funext
  intro u
  rw [eval_comp, eval_add, eval_X, eval_C, spanPoly_eval, spanPoly_eval, ← NS_shift]
  have : (fun j => k (j + n)) = fun j => 1 * k j + T := by funext j; rw [hT, one_mul]
  rw [this]
  conv_lhs => rw [show u + T = 1 * u + T by rw [one_mul]]
  exact NS_affine one_ne_zero p i

/-- At a simple knot the derivatives below the degree of the basis polynomials of neighbouring spans agree. -/
theorem spanPoly_join {K : Type} [Field K] [LinearOrder K] [IsStrictOrderedRing K] {k : ℕ → K} (hk : StrictMono k) {s p m : ℕ}
    (hm : m < p) (i : ℕ) :
    (derivative^[m] (spanPoly k s p i)).eval (k (s + 1)) = (derivative^[m] (spanPoly k (s + 1) p i)).eval (k (s + 1)) := by
  rw [iterate_derivative_spanPoly p i (fun a b h1 h2 _ => (hk (by omega)).ne') m hm.le,
    iterate_derivative_spanPoly p i (fun a b h1 h2 _ => (hk (by omega)).ne') m hm.le]
  simp only [eval_mul, eval_C, eval_finsetSum, spanPoly_eval]
  congr 1
  apply Finset.sum_congr rfl
  intro j _
  rw [NS_cont (s := s) (s₁ := s + 1) (by omega) (fun l a b => by rw [show l = s + 1 by omega]) (hk (by omega)).ne
    (hk (by omega)).ne' _ (by omega)]

/-- **Periodic splines of odd degree that vanish at their knots are zero.** -/
theorem periodic_zero {k : ℕ → ℝ} (hk : StrictMono k) {n r : ℕ} {T : ℝ} (hr : 1 ≤ r) (hn : 2 * r ≤ n)
    (hT : ∀ j, k (j + n) = k j + T) {x : ℕ → ℝ} (hx : ∀ i, x (i + n) = x i)
    (hz : ∀ i, i < n → ((Finset.range (2 * r - 1 + n + 1)).sum fun j =>
      x j * NS k (2 * r - 1 + i) (2 * r - 1) j (k (2 * r - 1 + i))) = 0) : ∀ i, i < n → x i = 0 := by
  obtain ⟨p, hp⟩ : ∃ p, p = 2 * r - 1 := ⟨_, rfl⟩
  rw [← hp] at hz
  have hPD : ∀ j m, derivative^[m] ((Finset.range (p + n + 1)).sum fun i => C (x i) * spanPoly k (p + j) p i) =
      (Finset.range (p + n + 1)).sum fun i => C (x i) * derivative^[m] (spanPoly k (p + j) p i) := by
    intro j m
    rw [Polynomial.iterate_derivative_sum]
    exact Finset.sum_congr rfl fun i _ => Polynomial.iterate_derivative_C_mul _ _ _
  have hzero := pieces_zero (P := fun j => (Finset.range (p + n + 1)).sum fun i => C (x i) * spanPoly k (p + j) p i)
    (t := fun j => k (p + j)) (n := n) (r := r) hr (fun j _ => hk (by omega)) (by omega)
    (fun j => by
      rw [← hp]
      apply Polynomial.natDegree_sum_le_of_forall_le
      intro i _
      exact (natDegree_C_mul_le _ _).trans (spanPoly_natDegree k _ p i))
    (fun j hj m hm => by
      rw [hPD, hPD, eval_finsetSum, eval_finsetSum]
      apply Finset.sum_congr rfl
      intro i _
      rw [eval_mul, eval_mul, ← add_assoc, spanPoly_join hk (by omega)])
    (fun m hm => by
      rw [hPD, hPD, eval_finsetSum, eval_finsetSum]
      have e1 : ((Finset.range (p + n + 1)).sum fun i =>
            (C (x i) * derivative^[m] (spanPoly k (p + n) p i)).eval (k (p + n))) =
          (Finset.range (p + 1)).sum fun i => (C (x (n + i)) * derivative^[m] (spanPoly k (p + n) p (n + i))).eval (k (p + n)) := by
        rw [show p + n + 1 = n + (p + 1) by omega, Finset.sum_range_add, Finset.sum_eq_zero, zero_add]
        intro i hi
        have := Finset.mem_range.1 hi
        rw [spanPoly_zero_left k (p + n) p i (by omega)]; simp
      have e2 : ((Finset.range (p + n + 1)).sum fun i =>
            (C (x i) * derivative^[m] (spanPoly k (p + 0) p i)).eval (k (p + 0))) =
          (Finset.range (p + 1)).sum fun i => (C (x i) * derivative^[m] (spanPoly k (p + 0) p i)).eval (k (p + 0)) := by
        rw [show p + n + 1 = p + 1 + n by omega, Finset.sum_range_add, Finset.sum_eq_zero (s := Finset.range n), add_zero]
        intro i _
        rw [spanPoly_zero_right k (p + 0) p _ (by omega)]; simp
      rw [e1, e2]
      apply Finset.sum_congr rfl
      intro i _
      rw [add_comm n i, hx, eval_mul, eval_mul, ← spanPoly_periodic hT (p + 0) p i, iterate_derivative_comp_shift, eval_comp,
        hT]
      simp)
    (fun j hj => by
      rw [eval_finsetSum, ← hz j hj]
      apply Finset.sum_congr rfl
      intro i _
      rw [eval_mul, eval_C, spanPoly_eval])
  intro i hi
  have h0 : ((Finset.range (p + n + 1)).sum fun l => C (x l) * spanPoly k (p + i) p l) = 0 := hzero i hi
  refine local_indep (k := k) (s := p + i) p (by omega) (fun a b h1 h2 _ => (hk (Nat.lt_of_le_of_lt h1 h2)).ne') x ?_ i (by omega) (by omega)
  rw [← h0, show p + n + 1 = (p + i + 1) + (n - i) by omega, Finset.sum_range_add _ (p + i + 1) (n - i), Finset.sum_eq_zero (s := Finset.range (n - i)), add_zero]
  intro l _
  rw [spanPoly_zero_right k (p + i) p _ (by omega)]; simp

end Curvo.Spec

/-
  Facts about the Cox–de Boor specification: span-local polynomials, support, partition of unity,
  non-negativity.
-/
import Mathlib.Tactic.Linarith
import Mathlib.Tactic.Ring
import Mathlib.Tactic.FieldSimp
import Mathlib.Algebra.BigOperators.Intervals
import Mathlib.Algebra.BigOperators.Ring.Finset
import Mathlib.Algebra.Order.BigOperators.Group.Finset
import Verif.Spec.BSpline

set_option linter.unusedSectionVars false

namespace Curvo.Spec

variable {K : Type} [Field K] [LinearOrder K]

/-- Span-local basis: the Cox–de Boor recursion started from the characteristic function of the
    single span `s`, i.e. the polynomial that `N` is on span `s`, extended to all parameters. -/
def NS (k : ℕ → K) (s : ℕ) : ℕ → ℕ → K → K
  | 0, i, _ => if i = s then 1 else 0
  | p + 1, i, u =>
    (u - k i) / (k (i + p + 1) - k i) * NS k s p i u +
    (k (i + p + 2) - u) / (k (i + p + 2) - k (i + 1)) * NS k s p (i + 1) u

theorem NS_eq_zero_left (k : ℕ → K) (s : ℕ) (u : K) :
    ∀ p i, i + p < s → NS k s p i u = 0 := by
  intro p
  induction p with
  | zero => intro i h; simp [NS]; omega
  | succ p ih =>
    intro i h
    simp only [NS]
    rw [ih i (by omega), ih (i + 1) (by omega)]; simp

theorem NS_eq_zero_right (k : ℕ → K) (s : ℕ) (u : K) :
    ∀ p i, s < i → NS k s p i u = 0 := by
  intro p
  induction p with
  | zero => intro i h; simp [NS]; omega
  | succ p ih =>
    intro i h
    simp only [NS]
    rw [ih i (by omega), ih (i + 1) (by omega)]; simp

theorem inSpan_unique {k : ℕ → K} {m : ℕ} (hk : MonoUpTo k m) {b u : K} {i j : ℕ}
    (hi : i + 1 ≤ m) (hj : j + 1 ≤ m) (h : InSpan k b u i) (h' : InSpan k b u j) : i = j := by
  have key : ∀ a c : ℕ, c + 1 ≤ m → InSpan k b u a → InSpan k b u c → ¬ a < c := by
    intro a c hc ha hc' hlt
    have h1 : k (a + 1) ≤ k c := hk _ _ hlt (by omega)
    unfold InSpan at ha hc'
    split at ha
    · rename_i hb; rw [if_pos hb] at hc'
      exact absurd (lt_of_lt_of_le hc'.1 (le_trans ha.2 h1)) (lt_irrefl _)
    · rename_i hb; rw [if_neg hb] at hc'
      exact absurd (lt_of_lt_of_le ha.2 (le_trans h1 hc'.1)) (lt_irrefl _)
  have h1 := key i j hj h h'
  have h2 := key j i hi h' h
  omega

theorem N_eq_NS {k : ℕ → K} {m : ℕ} (hk : MonoUpTo k m) {b u : K} {s : ℕ} (hs : s + 1 ≤ m)
    (h : InSpan k b u s) : ∀ p i, i + p + 1 ≤ m → N k b p i u = NS k s p i u := by
  intro p
  induction p with
  | zero =>
    intro i hi
    simp only [N, NS]
    by_cases e : i = s
    · subst e; simp [h]
    · rw [if_neg e, if_neg]
      intro h'
      exact e (inSpan_unique hk (by omega) hs h' h)
  | succ p ih =>
    intro i hi
    simp only [N, NS]
    rw [ih i (by omega), ih (i + 1) (by omega)]

/-- Only the `p + 1` basis functions of a span contribute. -/
theorem sum_NS_window {V : Type} [AddCommGroup V] [Module K V] {k : ℕ → K} {p m : ℕ}
    (P : ℕ → V) {u : K} {s : ℕ} (hps : p ≤ s) (hsn : s < m) :
    ((Finset.range m).sum fun i => NS k s p i u • P i) =
      (Finset.range (p + 1)).sum fun r => NS k s p (s - p + r) u • P (s - p + r) := by
  have e2 : ((Finset.range (p + 1)).sum fun r => NS k s p (s - p + r) u • P (s - p + r)) =
      ((Finset.Ico (s - p) (s + 1)).sum fun i => NS k s p i u • P i) := by
    rw [Finset.sum_Ico_eq_sum_range]
    congr 2; omega
  rw [e2]
  symm
  apply Finset.sum_subset
  · intro i hi; simp at hi ⊢; omega
  · intro i _ hi
    simp at hi
    by_cases hlt : i < s - p
    · rw [NS_eq_zero_left k s u p i (by omega)]; simp
    · rw [NS_eq_zero_right k s u p i (by omega)]; simp

/-- The curve only depends on the `p + 1` control points of the span. -/
theorem curve_eq_span {V : Type} [AddCommGroup V] [Module K V] {k : ℕ → K} {p n : ℕ}
    (hk : MonoUpTo k (n + p + 1)) (P : ℕ → V) {u : K} {s : ℕ} (hps : p ≤ s) (hsn : s ≤ n)
    (h : InSpan k (k (n + 1)) u s) :
    curve k p n P u =
      (Finset.range (p + 1)).sum fun r => NS k s p (s - p + r) u • P (s - p + r) := by
  have e1 : curve k p n P u = (Finset.range (n + 1)).sum fun i => NS k s p i u • P i := by
    apply Finset.sum_congr rfl
    intro i hi
    rw [N_eq_NS hk (by omega) h p i (by have := Finset.mem_range.1 hi; omega)]
  rw [e1, sum_NS_window P hps (by omega)]

theorem NS_sum_eq_one {k : ℕ → K} {s : ℕ} (u : K) :
    ∀ p, p ≤ s → (∀ i j, i ≤ s → s < j → j ≤ s + p → k j ≠ k i) →
      (Finset.range (p + 1)).sum (fun r => NS k s p (s - p + r) u) = 1 := by
  intro p
  induction p with
  | zero => intro _ _; simp [NS]
  | succ p ih =>
    intro hp hk
    have ih' := ih (by omega) (fun i j hi hj hj' => hk i j hi hj (by omega))
    obtain ⟨t, rfl⟩ : ∃ t, s = t + (p + 1) := ⟨s - (p + 1), by omega⟩
    have e0 : t + (p + 1) - (p + 1) = t := by omega
    have e0' : t + (p + 1) - p = t + 1 := by omega
    rw [e0' ] at ih'
    rw [e0]
    simp only [NS]
    rw [Finset.sum_add_distrib]
    -- first sum: shift, its first term vanishes
    rw [Finset.sum_range_succ' (fun r => (u - k (t + r)) / (k (t + r + p + 1) - k (t + r)) *
      NS k (t + (p + 1)) p (t + r) u)]
    rw [Finset.sum_range_succ (fun r => (k (t + r + p + 2) - u) / (k (t + r + p + 2) - k (t + r + 1)) *
      NS k (t + (p + 1)) p (t + r + 1) u)]
    rw [NS_eq_zero_left k _ u p (t + 0) (by omega)]
    rw [NS_eq_zero_right k (t + (p + 1)) u p (t + (p + 1) + 1) (by omega)]
    simp only [mul_zero, add_zero]
    rw [← Finset.sum_add_distrib, ← ih']
    apply Finset.sum_congr rfl
    intro r hr
    have hr' := Finset.mem_range.1 hr
    have e1 : t + (r + 1) = t + r + 1 := by omega
    have e2 : t + 1 + r = t + r + 1 := by omega
    have e3 : t + r + 1 + p + 1 = t + r + p + 2 := by omega
    rw [e1, e2, e3, ← add_mul, ← add_div]
    have hne : k (t + r + p + 2) - k (t + r + 1) ≠ 0 :=
      sub_ne_zero.2 (hk _ _ (by omega) (by omega) (by omega))
    have : (u - k (t + r + 1) + (k (t + r + p + 2) - u)) = k (t + r + p + 2) - k (t + r + 1) := by ring
    rw [this, div_self hne, one_mul]

section ordered
variable [IsStrictOrderedRing K]

theorem NS_nonneg {k : ℕ → K} {s m : ℕ} (hk : MonoUpTo k m) {u : K} (h1 : k s ≤ u)
    (h2 : u ≤ k (s + 1)) :
    ∀ p i, i + p + 1 ≤ m → 0 ≤ NS k s p i u := by
  intro p
  induction p with
  | zero => intro i _; simp only [NS]; split <;> simp
  | succ p ih =>
    intro i hi
    simp only [NS]
    apply add_nonneg
    · by_cases hs : i ≤ s
      · by_cases hs' : s < i + p + 1
        · apply mul_nonneg _ (ih i (by omega))
          apply div_nonneg
          · have := hk i s hs (by omega); linarith
          · have := hk i (i + p + 1) (by omega) (by omega); linarith
        · rw [NS_eq_zero_left k s u p i (by omega)]; simp
      · rw [NS_eq_zero_right k s u p i (by omega)]; simp
    · by_cases hs : s < i + p + 2
      · by_cases hs' : i + 1 ≤ s
        · apply mul_nonneg _ (ih (i + 1) (by omega))
          apply div_nonneg
          · have := hk (s + 1) (i + p + 2) (by omega) (by omega); linarith
          · have := hk (i + 1) (i + p + 2) (by omega) (by omega); linarith
        · rw [NS_eq_zero_right k s u p (i + 1) (by omega)]; simp
      · rw [NS_eq_zero_left k s u p (i + 1) (by omega)]; simp

end ordered

end Curvo.Spec

/-
  Property theorems about the derivatives of the basis functions: C04.
-/
import Mathlib.Analysis.Calculus.IteratedDeriv.Lemmas
import Mathlib.Analysis.Calculus.Deriv.Polynomial
import Mathlib.Analysis.Calculus.ContDiff.Polynomial
import Mathlib.Analysis.Calculus.TangentCone.Real
import Verif.Lemmas.Deriv2
import Verif.Lemmas.Curve

set_option linter.unusedSectionVars false

namespace Curvo.Props

open Curvo Curvo.Knots Curvo.Spec Polynomial

section field
variable {K : Type} [Field K] [LinearOrder K] [IsStrictOrderedRing K]

theorem sep_of_sorted {ks : List K} {p s : ℕ} (hsort : ks.Pairwise (· ≤ ·)) (hlen : s + p < ks.length)
    (hspan : kf ks s < kf ks (s + 1)) : ∀ i j, i ≤ s → s < j → j ≤ s + p → kf ks j ≠ kf ks i := by
  have hm : MonoUpTo (kf ks) (s + p) := mono_of_sorted hsort (by omega)
  intro i j h1 h2 h3
  have a := hm i s h1 (by omega)
  have b := hm (s + 1) j h2 h3
  exact (lt_of_le_of_lt a (lt_of_lt_of_le hspan b)).ne'

/-- The derivative table. Asked for `m` derivatives on a non degenerate span, the table has `m + 1` rows of `p + 1`
    entries, and for every active basis function there is a polynomial `P` of degree at most `p` that agrees with it on
    the whole span such that column `r` lists the values of `P` and all its derivatives up to order `m` at `u`. -/
theorem C04_derivative_table {ks : List K} {p s m : ℕ} {u : K}
    (hsort : ks.Pairwise (· ≤ ·)) (hp : p ≤ s) (hlen : s + p + 1 < ks.length) (hspan : kf ks s < kf ks (s + 1)) :
    ∃ T, derivativeBasisFunctions ks s u p m = .ok T ∧ T.length = m + 1 ∧ (∀ row ∈ T, row.length = p + 1) ∧
      ∀ r, r ≤ p → ∃ P : K[X], P.natDegree ≤ p ∧
        (∀ b t, InSpan (kf ks) b t s → N (kf ks) b p (s - p + r) t = P.eval t) ∧
        ∀ n, n ≤ m → ∃ row : List K, T[n]? = some row ∧ row[r]? = some ((derivative^[n] P).eval u) := by
  refine ⟨_, derivativeBasisFunctions_spec hp (by omega) (sep_of_sorted hsort (by omega) hspan), ?_, ?_, ?_⟩
  · simp [mat]
  · intro row hrow
    rw [mat, vec, List.mem_map] at hrow
    obtain ⟨_, _, rfl⟩ := hrow
    simp
  · intro r hr
    refine ⟨spanPoly (kf ks) s p (s - p + r), spanPoly_natDegree _ _ _ _, ?_, ?_⟩
    · intro b t hin
      rw [spanPoly_eval, N_eq_NS (mono_of_sorted hsort (m := s + p + 1) (by omega)) (by omega) hin p _ (by omega)]
    · intro n hn
      refine ⟨vec (p + 1) fun r => ((derivative^[n]) (spanPoly (kf ks) s p (s - p + r))).eval u, ?_, ?_⟩
      · rw [mat, vec, List.getElem?_map, List.getElem?_range (by omega)]; rfl
      · rw [vec, List.getElem?_map, List.getElem?_range (by omega)]; rfl

/-- Row 0 is the row of basis functions. -/
theorem C04_first_row {ks : List K} {p s m : ℕ} {b u : K}
    (hsort : ks.Pairwise (· ≤ ·)) (hp : p ≤ s) (hlen : s + p + 1 < ks.length) (hspan : kf ks s < kf ks (s + 1))
    (hin : InSpan (kf ks) b u s) :
    ∃ T, derivativeBasisFunctions ks s u p m = .ok T ∧
      T[0]? = some ((List.range (p + 1)).map fun r => N (kf ks) b p (s - p + r) u) := by
  refine ⟨_, derivativeBasisFunctions_spec hp (by omega) (sep_of_sorted hsort (by omega) hspan), ?_⟩
  rw [mat, vec, List.getElem?_map, List.getElem?_range (by omega), Option.map_some]
  congr 1
  apply List.map_congr_left
  intro r hr
  have := List.mem_range.1 hr
  rw [Function.iterate_zero, id, spanPoly_eval,
    N_eq_NS (mono_of_sorted hsort (m := s + p + 1) (by omega)) (by omega) hin p _ (by omega)]

/-- Rows of an order above the degree are zero. -/
theorem C04_high_orders {ks : List K} {p s m n : ℕ} {u : K}
    (hsort : ks.Pairwise (· ≤ ·)) (hp : p ≤ s) (hlen : s + p + 1 < ks.length) (hspan : kf ks s < kf ks (s + 1))
    (h1 : p < n) (h2 : n ≤ m) :
    ∃ T, derivativeBasisFunctions ks s u p m = .ok T ∧ T[n]? = some (List.replicate (p + 1) 0) := by
  refine ⟨_, derivativeBasisFunctions_spec hp (by omega) (sep_of_sorted hsort (by omega) hspan), ?_⟩
  rw [mat, vec, List.getElem?_map, List.getElem?_range (by omega), Option.map_some, vec_replicate]
  congr 1
  apply vec_congr
  intro r _
  rw [iterate_derivative_spanPoly_high _ _ _ _ _ h1, eval_zero]

end field

section real

/-- The parameters of one span. -/
def spanSet (k : ℕ → ℝ) (b : ℝ) (s : ℕ) : Set ℝ := {t | InSpan k b t s}

theorem spanSet_cases {k : ℕ → ℝ} {b : ℝ} {s : ℕ} (h : k s < k (s + 1)) :
    spanSet k b s = Set.Icc (k s) (k (s + 1)) ∨ spanSet k b s = Set.Ioo (k s) (k (s + 1)) ∨
      spanSet k b s = Set.Ico (k s) (k (s + 1)) := by
  by_cases h1 : b = k s
  · right; left
    ext t
    simp only [spanSet, InSpan, Set.mem_setOf_eq, Set.mem_Ioo]
    split_ifs with hc
    · subst hc; rw [h1]; simp
    · rw [h1] at hc
      exact ⟨fun ⟨x, y⟩ => ⟨lt_of_le_of_ne x (Ne.symm hc), y⟩, fun ⟨x, y⟩ => ⟨x.le, y⟩⟩
  · by_cases h2 : b = k (s + 1)
    · left
      ext t
      simp only [spanSet, InSpan, Set.mem_setOf_eq, Set.mem_Icc]
      split_ifs with hc
      · rw [hc, h2]; exact ⟨fun ⟨x, y⟩ => ⟨x.le, y⟩, fun ⟨_, y⟩ => ⟨h, y⟩⟩
      · rw [h2] at hc
        exact ⟨fun ⟨x, y⟩ => ⟨x, y.le⟩, fun ⟨x, y⟩ => ⟨x, lt_of_le_of_ne y hc⟩⟩
    · right; right
      ext t
      simp only [spanSet, InSpan, Set.mem_setOf_eq, Set.mem_Ico]
      split_ifs with hc
      · rw [hc]
        exact ⟨fun ⟨x, y⟩ => ⟨x.le, lt_of_le_of_ne y h2⟩, fun ⟨x, y⟩ => ⟨lt_of_le_of_ne x (Ne.symm h1), y.le⟩⟩
      · rfl

theorem spanSet_uniqueDiff {k : ℕ → ℝ} {b : ℝ} {s : ℕ} (h : k s < k (s + 1)) : UniqueDiffOn ℝ (spanSet k b s) := by
  rcases spanSet_cases (b := b) h with e | e | e <;> rw [e]
  · exact uniqueDiffOn_Icc h
  · exact uniqueDiffOn_Ioo _ _
  · exact uniqueDiffOn_Ico _ _

theorem iteratedDeriv_poly (P : ℝ[X]) : ∀ n x, iteratedDeriv n (fun t => P.eval t) x = (derivative^[n] P).eval x
  | 0, x => by simp
  | n + 1, x => by
    have : iteratedDeriv n (fun t => P.eval t) = fun t => (derivative^[n] P).eval t := funext (iteratedDeriv_poly P n)
    rw [iteratedDeriv_succ, this, Polynomial.deriv, Function.iterate_succ_apply']

theorem contDiff_poly (P : ℝ[X]) {n : WithTop ℕ∞} : ContDiff ℝ n fun t => P.eval t := by
  simpa using P.contDiff_aeval (𝕜 := ℝ) n

theorem iteratedDerivWithin_poly {S : Set ℝ} (hS : UniqueDiffOn ℝ S) (P : ℝ[X]) (n : ℕ) {x : ℝ} (hx : x ∈ S) :
    iteratedDerivWithin n (fun t => P.eval t) S x = (derivative^[n] P).eval x := by
  rw [iteratedDerivWithin_eq_iteratedDeriv hS (contDiff_poly P).contDiffAt hx, iteratedDeriv_poly]

/-- Over the reals: row `n` of the table holds the true `n`-th derivatives of the Cox–de Boor basis functions on the
    span (one sided derivatives at the ends of the span). -/
theorem C04_real_derivative {ks : List ℝ} {p s m : ℕ} {b u : ℝ}
    (hsort : ks.Pairwise (· ≤ ·)) (hp : p ≤ s) (hlen : s + p + 1 < ks.length) (hspan : kf ks s < kf ks (s + 1))
    (hin : InSpan (kf ks) b u s) :
    derivativeBasisFunctions ks s u p m = .ok ((List.range (m + 1)).map fun n => (List.range (p + 1)).map fun r =>
      iteratedDerivWithin n (fun t => N (kf ks) b p (s - p + r) t) {t | InSpan (kf ks) b t s} u) := by
  rw [derivativeBasisFunctions_spec hp (by omega) (sep_of_sorted hsort (by omega) hspan)]
  congr 1
  apply mat_congr
  intro n r _ hr
  rw [← iteratedDerivWithin_poly (spanSet_uniqueDiff (b := b) hspan) _ _ hin]
  refine iteratedDerivWithin_congr (f := fun t => (spanPoly (kf ks) s p (s - p + r)).eval t) (s := spanSet (kf ks) b s) ?_ hin
  intro t ht
  simp only []
  rw [spanPoly_eval, N_eq_NS (mono_of_sorted hsort (m := s + p + 1) (by omega)) (by omega) ht p _ (by omega)]

/-- At a parameter strictly inside of the span these are the ordinary derivatives. -/
theorem C04_real_derivative_interior {ks : List ℝ} {p s m : ℕ} {b u : ℝ}
    (hsort : ks.Pairwise (· ≤ ·)) (hp : p ≤ s) (hlen : s + p + 1 < ks.length) (h1 : kf ks s < u)
    (h2 : u < kf ks (s + 1)) :
    derivativeBasisFunctions ks s u p m = .ok ((List.range (m + 1)).map fun n => (List.range (p + 1)).map fun r =>
      iteratedDeriv n (fun t => N (kf ks) b p (s - p + r) t) u) := by
  rw [derivativeBasisFunctions_spec hp (by omega) (sep_of_sorted hsort (by omega) (h1.trans h2))]
  congr 1
  apply mat_congr
  intro n r _ hr
  rw [← iteratedDeriv_poly]
  apply Filter.EventuallyEq.iteratedDeriv_eq
  filter_upwards [Ioo_mem_nhds h1 h2] with t ht
  have hin : InSpan (kf ks) b t s := by
    rw [InSpan]; split_ifs
    · exact ⟨ht.1, ht.2.le⟩
    · exact ⟨ht.1.le, ht.2⟩
  rw [spanPoly_eval, N_eq_NS (mono_of_sorted hsort (m := s + p + 1) (by omega)) (by omega) hin p _ (by omega)]

end real

/-- Witness: a quadratic knot vector with a double span, the second derivatives on the first and the last span, and a
    request above the degree. -/
example : derivativeBasisFunctions ([0, 0, 0, 1, 2, 2, 2] : List ℚ) 2 (1/2) 2 3 =
    .ok [[1/4, 5/8, 1/8], [-1, 1/2, 1/2], [2, -3, 1], [0, 0, 0]] := by decide +kernel

example : ∃ T, derivativeBasisFunctions ([0, 0, 0, 1, 2, 2, 2] : List ℚ) 3 2 2 4 = .ok T ∧
    T[3]? = some (List.replicate 3 0) :=
  C04_high_orders (by decide +kernel) (by norm_num) (by norm_num) (by decide +kernel) (by norm_num) (by norm_num)

example : ∃ T, derivativeBasisFunctions ([0, 0, 0, 1, 2, 2, 2] : List ℝ) 3 (3/2) 2 4 = .ok T :=
  ⟨_, C04_real_derivative_interior (b := 2) (by norm_num) (by norm_num) (by norm_num) (by norm_num [kf])
    (by norm_num [kf])⟩

end Curvo.Props

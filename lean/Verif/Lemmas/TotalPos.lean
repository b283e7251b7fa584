/-
  Orientation: if all minors of the control points in increasing order are non-negative, so are those of the points of the
  curve at increasing parameters (total positivity of the basis functions, stated without matrices).
-/
import Mathlib.LinearAlgebra.Alternating.Basic
import Mathlib.Algebra.Order.BigOperators.Ring.Finset
import Mathlib.Order.Fin.Basic
import Verif.Lemmas.Variation

set_option linter.unusedSectionVars false

namespace Curvo.Spec

variable {K : Type} [Field K] [LinearOrder K] [IsStrictOrderedRing K]
variable {V : Type} [AddCommGroup V] [Module K V]

/-- All `k` of the points `P 0 … P n`, taken in order, are oriented non-negatively. -/
def Oriented {k : ℕ} (φ : V [⋀^Fin k]→ₗ[K] K) (n : ℕ) (P : ℕ → V) : Prop :=
  ∀ ι : Fin k → ℕ, StrictMono ι → (∀ j, ι j ≤ n) → 0 ≤ φ fun j => P (ι j)

/-- **Inserting a knot keeps the orientation.** -/
theorem Oriented.insert {k : ℕ} {φ : V [⋀^Fin k]→ₗ[K] K} {v : ℕ → K} {p n i : ℕ} {x : K} {P : ℕ → V}
    (hv : MonoUpTo v (n + p + 1)) (hin : i ≤ n) (h1 : v i ≤ x) (h2 : x ≤ v (i + 1)) (h : Oriented φ n P) :
    Oriented φ (n + 1) (insCps v p i x P) := by
  intro ι hι hn
  have e : (φ fun j => insCps v p i x P (ι j)) =
      φ.toMultilinearMap ((fun j => insAlpha v p i x (ι j) • P (ι j)) + fun j => (1 - insAlpha v p i x (ι j)) • P (ι j - 1)) := rfl
  rw [e, MultilinearMap.map_add_univ]
  refine Finset.sum_nonneg fun s _ => ?_
  have hpw : s.piecewise (fun j => insAlpha v p i x (ι j) • P (ι j)) (fun j => (1 - insAlpha v p i x (ι j)) • P (ι j - 1)) =
      fun j => (if j ∈ s then insAlpha v p i x (ι j) else 1 - insAlpha v p i x (ι j)) • P (if j ∈ s then ι j else ι j - 1) := by
    funext j
    by_cases hj : j ∈ s <;> simp [Finset.piecewise, hj]
  rw [hpw, MultilinearMap.map_smul_univ]
  have hα : ∀ j, 0 ≤ insAlpha v p i x (ι j) ∧ insAlpha v p i x (ι j) ≤ 1 := fun j => insAlpha_mem hv hin h1 h2
  have hprod : 0 ≤ ∏ j, (if j ∈ s then insAlpha v p i x (ι j) else 1 - insAlpha v p i x (ι j)) := by
    refine Finset.prod_nonneg fun j _ => ?_
    split_ifs
    · exact (hα j).1
    · exact sub_nonneg.2 (hα j).2
  rw [smul_eq_mul]
  by_cases hbad : ∃ j, j ∈ s ∧ n < ι j
  · obtain ⟨j, hj, hjn⟩ := hbad
    have hz : (∏ j, (if j ∈ s then insAlpha v p i x (ι j) else 1 - insAlpha v p i x (ι j))) = 0 := by
      refine Finset.prod_eq_zero (Finset.mem_univ j) ?_
      rw [if_pos hj, insAlpha, if_neg (by omega), if_pos (by omega)]
    rw [hz, zero_mul]
  · refine mul_nonneg hprod ?_
    push Not at hbad
    have hmono : Monotone fun j => if j ∈ s then ι j else ι j - 1 := by
      intro j l hjl
      rcases hjl.eq_or_lt with rfl | hjl
      · exact le_refl _
      · have := hι hjl
        show (if j ∈ s then ι j else ι j - 1) ≤ if l ∈ s then ι l else ι l - 1
        split_ifs <;> omega
    by_cases hinj : Function.Injective fun j => if j ∈ s then ι j else ι j - 1
    · refine h _ (hmono.strictMono_of_injective hinj) fun j => ?_
      show (if j ∈ s then ι j else ι j - 1) ≤ n
      split_ifs with hj
      · exact hbad j hj
      · have := hn j; omega
    · simp only [Function.Injective, not_forall] at hinj
      obtain ⟨j, l, hjl, hne⟩ := hinj
      refine le_of_eq (Eq.symm ?_)
      exact φ.map_eq_zero_of_eq _ (by simp only [hjl]) hne

/-- **Total positivity.** -/
theorem Oriented.of_points {k : ℕ} {φ : V [⋀^Fin (k + 1)]→ₗ[K] K} {v : ℕ → K} {a b : K} {p n : ℕ} {P : ℕ → V} {x : ℕ → K}
    (h : Knots v a b p n) (hp : 1 ≤ p) (hP : Oriented φ n P) (hx : ∀ j, j ≤ k → a ≤ x j ∧ x j ≤ b)
    (hm : ∀ j, j < k → x j < x (j + 1)) : 0 ≤ φ fun j => splV v b p n P (x j) := by
  obtain ⟨w, l, Q, ψ, hf, h1, h2, h3⟩ := exists_indices (P := P) h hp hx hm
  have hQ : Oriented φ l Q := hf.keep (Oriented φ)
    (fun w l Q i y hw _ c2 c3 ih => ih.insert hw.mono c2 (inSpan_le c3).1 (inSpan_le c3).2) hP
  have e : (φ fun j : Fin (k + 1) => splV v b p n P (x j)) = φ fun j : Fin (k + 1) => Q (ψ j) := by
    congr 1
    funext j
    rw [h3 j (by have := j.2; omega)]
  rw [e]
  refine hQ (fun j => ψ j) (Fin.strictMono_iff_lt_succ.2 fun j => ?_) fun j => h1 j (by have := j.2; omega)
  simpa using h2 j j.2

end Curvo.Spec

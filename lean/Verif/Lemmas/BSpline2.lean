/-
  Invariances of the span-local basis: congruence, shift, affine maps, mirror images, continuity
  at knots, values at full-multiplicity knots.
-/
import Mathlib.Tactic.FieldSimp
import Verif.Lemmas.BSpline

set_option linter.unusedSectionVars false

namespace Curvo.Spec

variable {K : Type} [Field K] [LinearOrder K]

/-- `NS k s p i` only depends on the knots `k i … k (i+p+1)`. -/
theorem NS_congr {k k' : ℕ → K} {s : ℕ} {u : K} :
    ∀ p i, (∀ j, i ≤ j → j ≤ i + p + 1 → k j = k' j) → NS k s p i u = NS k' s p i u := by
  intro p
  induction p with
  | zero => intro i _; rfl
  | succ p ih =>
    intro i h
    simp only [NS]
    rw [ih i (fun j h1 h2 => h j h1 (by omega)), ih (i + 1) (fun j h1 h2 => h j (by omega) (by omega)),
      h i (by omega) (by omega), h (i + p + 1) (by omega) (by omega),
      h (i + p + 2) (by omega) (by omega), h (i + 1) (by omega) (by omega)]

/-- Dropping the first `d` knots shifts all indices. -/
theorem NS_shift {k : ℕ → K} {s d : ℕ} {u : K} :
    ∀ p i, NS (fun j => k (j + d)) s p i u = NS k (s + d) p (i + d) u := by
  intro p
  induction p with
  | zero => intro i; simp [NS]
  | succ p ih =>
    intro i
    simp only [NS]
    rw [ih i, ih (i + 1)]
    have e1 : i + p + 1 + d = i + d + p + 1 := by omega
    have e2 : i + p + 2 + d = i + d + p + 2 := by omega
    have e3 : i + 1 + d = i + d + 1 := by omega
    rw [e1, e2, e3]

/-- Affine reparametrisation of the knots. -/
theorem NS_affine {k : ℕ → K} {s : ℕ} {u a b : K} (ha : a ≠ 0) :
    ∀ p i, NS (fun j => a * k j + b) s p i (a * u + b) = NS k s p i u := by
  intro p
  induction p with
  | zero => intro i; simp [NS]
  | succ p ih =>
    intro i
    simp only [NS]
    rw [ih i, ih (i + 1)]
    have h1 : ∀ x y : K, a * x + b - (a * y + b) = a * (x - y) := by intro x y; ring
    rw [h1, h1, h1, h1, mul_div_mul_left _ _ ha, mul_div_mul_left _ _ ha]

/-- Mirroring the knots `k 0 … k M` mirrors the basis. -/
theorem NS_mirror {k k' : ℕ → K} {c u : K} {M s : ℕ} (hk : ∀ j, j ≤ M → k' j = c - k (M - j))
    (hs : s + 1 ≤ M) :
    ∀ p i, i + p + 1 ≤ M → NS k' (M - 1 - s) p i (c - u) = NS k s p (M - 1 - p - i) u := by
  intro p
  induction p with
  | zero =>
    intro i hi
    simp only [NS]
    congr 1
    simp only [eq_iff_iff]; omega
  | succ p ih =>
    intro i hi
    obtain ⟨j, hj⟩ : ∃ j, j = M - 1 - (p + 1) - i := ⟨_, rfl⟩
    simp only [NS]
    rw [ih i (by omega), ih (i + 1) (by omega), hk i (by omega), hk (i + p + 1) (by omega),
      hk (i + p + 2) (by omega), hk (i + 1) (by omega)]
    have e1 : M - 1 - p - i = j + 1 := by omega
    have e2 : M - 1 - p - (i + 1) = j := by omega
    have e3 : M - i = j + p + 2 := by omega
    have e4 : M - (i + p + 1) = j + 1 := by omega
    have e5 : M - (i + p + 2) = j := by omega
    have e6 : M - (i + 1) = j + p + 1 := by omega
    rw [e1, e2, e3, e4, e5, e6, ← hj]
    have h1 : ∀ x y : K, c - x - (c - y) = y - x := by intro x y; ring
    rw [h1, h1, h1, h1, add_comm]

/-- At a knot of multiplicity at least `m`, seen from the span right of it. -/
theorem NS_right_delta {k : ℕ → K} {s m : ℕ} {u : K} (hm : ∀ j, s < j + m → j ≤ s → k j = u)
    (hlt : k (s + 1) ≠ u) :
    ∀ p, p ≤ m → p ≤ s → ∀ i, NS k s p i u = if i + p = s then 1 else 0 := by
  intro p
  induction p with
  | zero => intro _ _ i; simp [NS]
  | succ p ih =>
    intro hp hs i
    simp only [NS]
    rw [ih (by omega) (by omega), ih (by omega) (by omega)]
    by_cases h1 : i + p = s
    · have h2 : ¬ i + 1 + p = s := by omega
      have h3 : ¬ i + (p + 1) = s := by omega
      rw [if_neg h2, if_neg h3, hm i (by omega) (by omega)]; simp
    · by_cases h2 : i + 1 + p = s
      · have h3 : i + (p + 1) = s := by omega
        rw [if_neg h1, if_pos h2, if_pos h3]
        have e : i + p + 2 = s + 1 := by omega
        rw [e, hm (i + 1) (by omega) (by omega), div_self (sub_ne_zero.2 hlt)]; simp
      · have h3 : ¬ i + (p + 1) = s := by omega
        rw [if_neg h1, if_neg h2, if_neg h3]; simp

/-- At a knot of multiplicity at least `m`, seen from the span left of it. -/
theorem NS_left_delta {k : ℕ → K} {s m : ℕ} {u : K} (hm : ∀ j, s < j → j ≤ s + m → k j = u)
    (hlt : k s ≠ u) :
    ∀ p, p ≤ m → ∀ i, NS k s p i u = if i = s then 1 else 0 := by
  intro p
  induction p with
  | zero => intro _ i; simp [NS]
  | succ p ih =>
    intro hp i
    simp only [NS]
    rw [ih (by omega), ih (by omega)]
    by_cases h1 : i = s
    · subst h1
      rw [if_pos rfl, if_neg (by omega), hm (i + p + 1) (by omega) (by omega),
        div_self (sub_ne_zero.2 (Ne.symm hlt))]; simp
    · by_cases h2 : i + 1 = s
      · rw [if_neg h1, if_pos h2]
        have e : i + p + 2 = s + p + 1 := by omega
        rw [e, hm (s + p + 1) (by omega) (by omega)]; simp
      · rw [if_neg h1, if_neg h2]; simp

/-- Continuity: at a knot whose multiplicity `s₁ - s` is at most the degree, the polynomial pieces on
    both sides have the same value. -/
theorem NS_cont {k : ℕ → K} {s s₁ : ℕ} {u : K} (hlt : s < s₁)
    (hm : ∀ j, s < j → j ≤ s₁ → k j = u) (hl : k s ≠ u) (hr : k (s₁ + 1) ≠ u) :
    ∀ p, s₁ ≤ s + p → ∀ i, NS k s₁ p i u = NS k s p i u := by
  intro p
  induction p with
  | zero => intro h; omega
  | succ p ih =>
    intro hp i
    by_cases h : s₁ ≤ s + p
    · simp only [NS]; rw [ih h i, ih h (i + 1)]
    · have e : p + 1 = s₁ - s := by omega
      rw [NS_right_delta (m := s₁ - s) (fun j h1 h2 => hm j (by omega) h2) hr (p + 1) (by omega)
        (by omega), NS_left_delta (m := s₁ - s) (fun j h1 h2 => hm j h1 (by omega)) hl (p + 1)
        (by omega)]
      congr 1
      simp only [eq_iff_iff]; omega

end Curvo.Spec

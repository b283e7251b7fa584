/-
  Boehm's knot insertion identity for the span-local basis.
-/
import Mathlib.Tactic.LinearCombination
import Mathlib.Tactic.FieldSimp
import Verif.Lemmas.BSpline2

set_option linter.unusedSectionVars false

namespace Curvo.Spec

variable {K : Type} [Field K] [LinearOrder K]

/-- The knots `v` with `x` inserted right after index `i`. -/
def insKnot (v : ℕ → K) (i : ℕ) (x : K) : ℕ → K := fun j =>
  if j ≤ i then v j else if j = i + 1 then x else v (j - 1)

/-- Coefficient of the insertion of `x` after index `i` in degree `p`. -/
def insAlpha (v : ℕ → K) (p i : ℕ) (x : K) (t : ℕ) : K :=
  if t + p ≤ i then 1 else if i < t then 0 else 1 - (v (t + p) - x) / (v (t + p) - v t)

theorem insKnot_le {v : ℕ → K} {i j : ℕ} {x : K} (h : j ≤ i) : insKnot v i x j = v j := by
  simp [insKnot, h]

theorem insKnot_mid {v : ℕ → K} {i : ℕ} {x : K} : insKnot v i x (i + 1) = x := by
  simp [insKnot]

theorem insKnot_gt {v : ℕ → K} {i j : ℕ} {x : K} (h : i < j) : insKnot v i x (j + 1) = v j := by
  simp [insKnot, show ¬ j + 1 ≤ i by omega, show ¬ j = i by omega]

theorem insKnot_mono {v : ℕ → K} {i m : ℕ} {x : K} (hv : MonoUpTo v m) (him : i ≤ m)
    (h1 : v i ≤ x) (h2 : i + 1 ≤ m → x ≤ v (i + 1)) : MonoUpTo (insKnot v i x) (m + 1) := by
  have step : ∀ j, j + 1 ≤ m + 1 → insKnot v i x j ≤ insKnot v i x (j + 1) := by
    intro j hj
    rcases Nat.lt_trichotomy j i with h | h | h
    · rw [insKnot_le (by omega), insKnot_le (by omega)]; exact hv _ _ (by omega) (by omega)
    · subst h; rw [insKnot_le (le_refl _), insKnot_mid]; exact h1
    · obtain ⟨j, rfl⟩ : ∃ j', j = j' + 1 := ⟨j - 1, by omega⟩
      rcases Nat.eq_or_lt_of_le (show i ≤ j by omega) with h' | h'
      · subst h'; rw [insKnot_mid, insKnot_gt (by omega)]; exact h2 (by omega)
      · rw [insKnot_gt h', insKnot_gt (by omega)]; exact hv _ _ (by omega) (by omega)
  intro a b hab hb
  induction b with
  | zero => have : a = 0 := by omega
            rw [this]
  | succ b ih =>
    rcases Nat.lt_or_eq_of_le hab with h | h
    · exact le_trans (ih (by omega) (by omega)) (step b hb)
    · rw [h]

/-- nonzero basis functions have a proper support -/
theorem NS_support {k : ℕ → K} {m s p t : ℕ} {u : K} (hk : MonoUpTo k m) (hs : k s < k (s + 1))
    (hne : NS k s p t u ≠ 0) {a b : ℕ} (ha : a ≤ t) (hb : t + p + 1 ≤ b) (hbm : b ≤ m) :
    k b - k a ≠ 0 := by
  have h1 : t ≤ s := by
    by_contra hc; exact hne (NS_eq_zero_right _ _ _ _ _ (by omega))
  have h2 : s ≤ t + p := by
    by_contra hc; exact hne (NS_eq_zero_left _ _ _ _ _ (by omega))
  have h3 := hk a s (by omega) (by omega)
  have h4 := hk (s + 1) b (by omega) (by omega)
  exact (sub_pos_of_lt_aux h3 hs h4)
where
  sub_pos_of_lt_aux {a b c d : K} (h1 : a ≤ b) (h2 : b < c) (h3 : c ≤ d) : d - a ≠ 0 := by
    rw [sub_ne_zero]
    exact (lt_of_le_of_lt h1 (lt_of_lt_of_le h2 h3)).ne'

/-- **Boehm's identity.** Inserting `x` after index `i` splits each basis function into two.
    `s'` is a non degenerate span of the new knots inside the span `s` of the old ones. -/
theorem boehm {v : ℕ → K} {i m : ℕ} {x u : K} (hv : MonoUpTo v m) (him : i ≤ m)
    (h1 : v i ≤ x) (h2 : i + 1 ≤ m → x ≤ v (i + 1)) {s s' : ℕ}
    (hs : (s' = s ∧ s ≤ i) ∨ (s' = s + 1 ∧ i ≤ s))
    (hnd : insKnot v i x s' < insKnot v i x (s' + 1)) :
    ∀ p t, t + p + 1 ≤ m →
      NS v s p t u = insAlpha v p i x t * NS (insKnot v i x) s' p t u +
        (1 - insAlpha v p i x (t + 1)) * NS (insKnot v i x) s' p (t + 1) u := by
  have hmono := insKnot_mono hv him h1 h2
  generalize hw : insKnot v i x = w at *
  have wle : ∀ j, j ≤ i → w j = v j := fun j hj => by rw [← hw]; exact insKnot_le hj
  have wmid : w (i + 1) = x := by rw [← hw]; exact insKnot_mid
  have wgt : ∀ j, i < j → w (j + 1) = v j := fun j hj => by rw [← hw]; exact insKnot_gt hj
  -- far left
  have far_left : ∀ p t, t + p + 1 ≤ i → NS v s p t u = insAlpha v p i x t * NS w s' p t u +
        (1 - insAlpha v p i x (t + 1)) * NS w s' p (t + 1) u := by
    intro p t ht
    have e1 : insAlpha v p i x t = 1 := by simp [insAlpha, show t + p ≤ i by omega]
    have e2 : insAlpha v p i x (t + 1) = 1 := by simp [insAlpha, show t + 1 + p ≤ i by omega]
    rw [e1, e2]
    have : NS v s p t u = NS w s' p t u := by
      rcases hs with ⟨rfl, _⟩ | ⟨rfl, hs⟩
      · exact NS_congr _ _ (fun j _ hj => (wle j (by omega)).symm)
      · rw [NS_eq_zero_left _ _ _ _ _ (by omega), NS_eq_zero_left _ _ _ _ _ (by omega)]
    rw [this]; ring
  have far_right : ∀ p t, i < t → NS v s p t u = insAlpha v p i x t * NS w s' p t u +
        (1 - insAlpha v p i x (t + 1)) * NS w s' p (t + 1) u := by
    intro p t ht
    have e1 : insAlpha v p i x t = 0 := by simp [insAlpha, show ¬ t + p ≤ i by omega, ht]
    have e2 : insAlpha v p i x (t + 1) = 0 := by
      simp [insAlpha, show ¬ t + 1 + p ≤ i by omega, show i < t + 1 by omega]
    rw [e1, e2]
    have : NS v s p t u = NS w s' p (t + 1) u := by
      rcases hs with ⟨rfl, hs⟩ | ⟨rfl, hs⟩
      · rw [NS_eq_zero_right _ _ _ _ _ (by omega), NS_eq_zero_right _ _ _ _ _ (by omega)]
      · rw [← NS_shift (d := 1)]
        exact NS_congr _ _ (fun j hj _ => (wgt j (by omega)).symm)
    rw [this]; ring
  intro p
  induction p with
  | zero =>
    intro t ht
    by_cases c1 : t + 1 ≤ i
    · exact far_left 0 t (by omega)
    · by_cases c2 : i < t
      · exact far_right 0 t c2
      · have hti : t = i := by omega
        subst hti
        have e1 : insAlpha v 0 t x t = 1 := by simp [insAlpha]
        have e2 : insAlpha v 0 t x (t + 1) = 0 := by simp [insAlpha]
        rw [e1, e2]
        simp only [NS]
        rcases hs with ⟨rfl, hs⟩ | ⟨rfl, hs⟩
        · simp [show ¬ t + 1 = s' by omega]
        · simp [show ¬ t = s + 1 by omega]
  | succ p ih =>
    intro t ht
    by_cases c1 : t + (p + 1) + 1 ≤ i
    · exact far_left _ t c1
    by_cases c2 : i < t
    · exact far_right _ t c2
    -- the insertion happens inside the support
    have ih1 := ih t (by omega)
    have ih2 := ih (t + 1) (by omega)
    have hsupp : ∀ τ, NS w s' p τ u ≠ 0 → ∀ a b, a ≤ τ → τ + p + 1 ≤ b → b ≤ m + 1 → w b - w a ≠ 0 :=
      fun τ hne a b ha hb hbm => NS_support hmono hnd hne ha hb hbm
    simp only [NS]
    rw [ih1, ih2]
    -- knots around the support
    have yt : v t = w t := (wle t (by omega)).symm
    have z3 : v (t + p + 2) = w (t + p + 3) := (wgt (t + p + 2) (by omega)).symm
    generalize hn0 : NS w s' p t u = n0 at *
    generalize hn1 : NS w s' p (t + 1) u = n1 at *
    generalize hn2 : NS w s' p (t + 1 + 1) u = n2 at *
    have s0 : n0 ≠ 0 → ∀ a b, a ≤ t → t + p + 1 ≤ b → b ≤ m + 1 → w b - w a ≠ 0 :=
      fun h => hsupp t (by rw [hn0]; exact h)
    have s1 : n1 ≠ 0 → ∀ a b, a ≤ t + 1 → t + 1 + p + 1 ≤ b → b ≤ m + 1 → w b - w a ≠ 0 :=
      fun h => hsupp (t + 1) (by rw [hn1]; exact h)
    have s2 : n2 ≠ 0 → ∀ a b, a ≤ t + 2 → t + 2 + p + 1 ≤ b → b ≤ m + 1 → w b - w a ≠ 0 :=
      fun h => hsupp (t + 1 + 1) (by rw [hn2]; exact h)
    by_cases ca : t + (p + 1) = i
    · -- 3a: the knot goes into the last span of the support
      have z1 : v (t + p + 1) = w (t + p + 1) := (wle _ (by omega)).symm
      have z2 : w (t + p + 2) = x := by rw [← wmid]; congr 1; omega
      have y1 : v (t + 1) = w (t + 1) := (wle _ (by omega)).symm
      have a0 : insAlpha v p i x t = 1 := by simp [insAlpha, show t + p ≤ i by omega]
      have a1 : insAlpha v p i x (t + 1) = 1 := by simp [insAlpha, show t + 1 + p ≤ i by omega]
      have a2 : n2 ≠ 0 → insAlpha v p i x (t + 1 + 1) =
          1 - (w (t + p + 3) - x) / (w (t + p + 3) - w (t + 2)) := by
        intro h
        by_cases hp : p = 0
        · subst hp
          have : i + 1 = t + 2 := by omega
          rw [← this, wmid]
          have hne := s2 h (t + 2) (t + 3) (by omega) (by omega) (by omega)
          rw [← this, wmid] at hne
          rw [show t + 0 + 3 = t + 3 by omega, div_self hne]
          simp [insAlpha, show ¬ t + 1 + 1 ≤ i by omega, show i < t + 1 + 1 by omega]
        · rw [insAlpha, if_neg (by omega), if_neg (by omega)]
          have e1 : v (t + 1 + 1 + p) = w (t + p + 3) := by
            rw [← z3]; congr 1; omega
          have e2 : v (t + 1 + 1) = w (t + 2) := (wle _ (by omega)).symm
          rw [e1, e2]
      have b0 : insAlpha v (p + 1) i x t = 1 := by simp [insAlpha, ca]
      have b1 : insAlpha v (p + 1) i x (t + 1) = 1 - (w (t + p + 3) - x) / (w (t + p + 3) - w (t + 1)) := by
        rw [insAlpha, if_neg (by omega), if_neg (by omega)]
        have e1 : v (t + 1 + (p + 1)) = w (t + p + 3) := by rw [← z3]; congr 1; omega
        rw [e1, y1]
      rw [a0, a1, b0, b1, yt, z3, z1, y1, show t + 1 + p + 1 = t + p + 2 by omega,
        show t + 1 + p + 2 = t + p + 3 by omega, show t + 1 + 1 = t + 2 by omega, z2]
      rw [show t + 1 + 1 = t + 2 by omega] at a2
      have k1 : (w (t + p + 3) - u) / (w (t + p + 3) - w (t + 1)) * n1 =
          ((x - u) / (x - w (t + 1)) + (w (t + p + 3) - x) / (w (t + p + 3) - w (t + 1)) *
            ((u - w (t + 1)) / (x - w (t + 1)))) * n1 := by
        by_cases h : n1 = 0
        · rw [h]; simp
        · have d1 := s1 h (t + 1) (t + p + 2) (by omega) (by omega) (by omega)
          have d2 := s1 h (t + 1) (t + p + 3) (by omega) (by omega) (by omega)
          rw [z2] at d1
          congr 1
          field_simp
          ring
      have k2 : (w (t + p + 3) - u) / (w (t + p + 3) - w (t + 1)) * (1 - insAlpha v p i x (t + 2)) * n2 =
          (w (t + p + 3) - x) / (w (t + p + 3) - w (t + 1)) *
            ((w (t + p + 3) - u) / (w (t + p + 3) - w (t + 2))) * n2 := by
        by_cases h : n2 = 0
        · rw [h]; simp
        · rw [a2 h]; ring
      linear_combination k1 + k2
    by_cases cb : t + 1 ≤ i
    · -- 3b: generic position
      have z2 : v (t + p + 1) = w (t + p + 2) := (wgt (t + p + 1) (by omega)).symm
      have y1 : v (t + 1) = w (t + 1) := (wle _ (by omega)).symm
      have a0 : n0 ≠ 0 → insAlpha v p i x t = (x - w t) / (w (t + p + 1) - w t) := by
        intro h
        have hne := s0 h t (t + p + 1) (by omega) (by omega) (by omega)
        by_cases hp : t + p ≤ i
        · have : t + p + 1 = i + 1 := by omega
          rw [insAlpha, if_pos hp]
          rw [this, wmid] at hne ⊢
          rw [div_self hne]
        · rw [insAlpha, if_neg hp, if_neg (by omega), yt]
          have : v (t + p) = w (t + p + 1) := (wgt (t + p) (by omega)).symm
          rw [this]; field_simp; ring
      have a1 : n1 ≠ 0 → insAlpha v p i x (t + 1) = (x - w (t + 1)) / (w (t + p + 2) - w (t + 1)) := by
        intro h
        have hne := s1 h (t + 1) (t + p + 2) (by omega) (by omega) (by omega)
        rw [insAlpha, if_neg (by omega), if_neg (by omega), y1]
        have : v (t + 1 + p) = w (t + p + 2) := by rw [← z2]; congr 1; omega
        rw [this]; field_simp; ring
      have a2 : n2 ≠ 0 → insAlpha v p i x (t + 1 + 1) = (x - w (t + 2)) / (w (t + p + 3) - w (t + 2)) := by
        intro h
        have hne := s2 h (t + 2) (t + p + 3) (by omega) (by omega) (by omega)
        by_cases hp : t + 2 = i + 1
        · rw [insAlpha, if_neg (by omega), if_pos (by omega), hp, wmid]; simp
        · rw [insAlpha, if_neg (by omega), if_neg (by omega)]
          have e1 : v (t + 1 + 1 + p) = w (t + p + 3) := by rw [← z3]; congr 1; omega
          have e2 : v (t + 1 + 1) = w (t + 2) := (wle _ (by omega)).symm
          rw [e1, e2]; field_simp; ring
      have b0 : insAlpha v (p + 1) i x t = 1 - (w (t + p + 2) - x) / (w (t + p + 2) - w t) := by
        rw [insAlpha, if_neg (by omega), if_neg (by omega), yt]
        have : v (t + (p + 1)) = w (t + p + 2) := by rw [← z2]; congr 1
        rw [this]
      have b1 : insAlpha v (p + 1) i x (t + 1) = 1 - (w (t + p + 3) - x) / (w (t + p + 3) - w (t + 1)) := by
        rw [insAlpha, if_neg (by omega), if_neg (by omega), y1]
        have : v (t + 1 + (p + 1)) = w (t + p + 3) := by rw [← z3]; congr 1; omega
        rw [this]
      rw [b0, b1, yt, z3, z2, y1, show t + 1 + p + 1 = t + p + 2 by omega,
        show t + 1 + p + 2 = t + p + 3 by omega, show t + 1 + 1 = t + 2 by omega]
      rw [show t + 1 + 1 = t + 2 by omega] at a2
      have k0 : (u - w t) / (w (t + p + 2) - w t) * insAlpha v p i x t * n0 =
          (1 - (w (t + p + 2) - x) / (w (t + p + 2) - w t)) * ((u - w t) / (w (t + p + 1) - w t)) * n0 := by
        by_cases h : n0 = 0
        · rw [h]; simp
        · have d1 := s0 h t (t + p + 1) (by omega) (by omega) (by omega)
          have d2 := s0 h t (t + p + 2) (by omega) (by omega) (by omega)
          rw [a0 h]; congr 1; field_simp; ring
      have k1 : ((u - w t) / (w (t + p + 2) - w t) * (1 - insAlpha v p i x (t + 1)) +
            (w (t + p + 3) - u) / (w (t + p + 3) - w (t + 1)) * insAlpha v p i x (t + 1)) * n1 =
          ((1 - (w (t + p + 2) - x) / (w (t + p + 2) - w t)) *
              ((w (t + p + 2) - u) / (w (t + p + 2) - w (t + 1))) +
            (w (t + p + 3) - x) / (w (t + p + 3) - w (t + 1)) *
              ((u - w (t + 1)) / (w (t + p + 2) - w (t + 1)))) * n1 := by
        by_cases h : n1 = 0
        · rw [h]; simp
        · have d1 := s1 h (t + 1) (t + p + 2) (by omega) (by omega) (by omega)
          have d2 := s1 h (t + 1) (t + p + 3) (by omega) (by omega) (by omega)
          have d3 := s1 h t (t + p + 2) (by omega) (by omega) (by omega)
          rw [a1 h]; congr 1; field_simp; ring
      have k2 : (w (t + p + 3) - u) / (w (t + p + 3) - w (t + 1)) * (1 - insAlpha v p i x (t + 2)) * n2 =
          (w (t + p + 3) - x) / (w (t + p + 3) - w (t + 1)) *
            ((w (t + p + 3) - u) / (w (t + p + 3) - w (t + 2))) * n2 := by
        by_cases h : n2 = 0
        · rw [h]; simp
        · have d1 := s2 h (t + 2) (t + p + 3) (by omega) (by omega) (by omega)
          have d2 := s2 h (t + 1) (t + p + 3) (by omega) (by omega) (by omega)
          rw [a2 h]; congr 1; field_simp; ring
      linear_combination k0 + k1 + k2
    · -- 3c: the knot goes into the first span of the support
      have hti : t = i := by omega
      have z2 : v (t + p + 1) = w (t + p + 2) := (wgt (t + p + 1) (by omega)).symm
      have y1 : w (t + 1) = x := by rw [hti]; exact wmid
      have y2 : v (t + 1) = w (t + 2) := (wgt (t + 1) (by omega)).symm
      have a0 : n0 ≠ 0 → insAlpha v p i x t = (x - w t) / (w (t + p + 1) - w t) := by
        intro h
        have hne := s0 h t (t + p + 1) (by omega) (by omega) (by omega)
        by_cases hp : t + p ≤ i
        · have : t + p + 1 = i + 1 := by omega
          rw [insAlpha, if_pos hp]
          rw [this, wmid] at hne ⊢
          rw [div_self hne]
        · rw [insAlpha, if_neg hp, if_neg (by omega), yt]
          have : v (t + p) = w (t + p + 1) := (wgt (t + p) (by omega)).symm
          rw [this]; field_simp; ring
      have a1 : insAlpha v p i x (t + 1) = 0 := by
        simp [insAlpha, show ¬ t + 1 + p ≤ i by omega, show i < t + 1 by omega]
      have a2 : insAlpha v p i x (t + 1 + 1) = 0 := by
        simp [insAlpha, show ¬ t + 1 + 1 + p ≤ i by omega, show i < t + 1 + 1 by omega]
      have b0 : insAlpha v (p + 1) i x t = 1 - (w (t + p + 2) - x) / (w (t + p + 2) - w t) := by
        rw [insAlpha, if_neg (by omega), if_neg (by omega), yt]
        have : v (t + (p + 1)) = w (t + p + 2) := by rw [← z2]; congr 1
        rw [this]
      have b1 : insAlpha v (p + 1) i x (t + 1) = 0 := by
        simp [insAlpha, show ¬ t + 1 + (p + 1) ≤ i by omega, show i < t + 1 by omega]
      rw [a1, a2, b0, b1, yt, z3, z2, y1, y2, show t + 1 + p + 1 = t + p + 2 by omega,
        show t + 1 + p + 2 = t + p + 3 by omega, show t + 1 + 1 = t + 2 by omega]
      have k0 : (u - w t) / (w (t + p + 2) - w t) * insAlpha v p i x t * n0 =
          (1 - (w (t + p + 2) - x) / (w (t + p + 2) - w t)) * ((u - w t) / (w (t + p + 1) - w t)) * n0 := by
        by_cases h : n0 = 0
        · rw [h]; simp
        · have d1 := s0 h t (t + p + 1) (by omega) (by omega) (by omega)
          have d2 := s0 h t (t + p + 2) (by omega) (by omega) (by omega)
          rw [a0 h]; congr 1; field_simp; ring
      have k1 : (u - w t) / (w (t + p + 2) - w t) * n1 =
          ((1 - (w (t + p + 2) - x) / (w (t + p + 2) - w t)) * ((w (t + p + 2) - u) / (w (t + p + 2) - x)) +
            (u - x) / (w (t + p + 2) - x)) * n1 := by
        by_cases h : n1 = 0
        · rw [h]; simp
        · have d1 := s1 h (t + 1) (t + p + 2) (by omega) (by omega) (by omega)
          have d3 := s1 h t (t + p + 2) (by omega) (by omega) (by omega)
          rw [y1] at d1
          congr 1; field_simp; ring
      linear_combination k0 + k1

end Curvo.Spec

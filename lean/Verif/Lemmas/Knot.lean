/-
  Lemmas relating the knot vector model to the specification.
-/
import Verif.Model.Knot
import Verif.Lemmas.BSpline

set_option linter.unusedSectionVars false

namespace Curvo

variable {K : Type} [Field K] [LinearOrder K]

theorem getR_kf {ks : List K} {i : ℕ} (h : i < ks.length) : getR ks i = .ok (kf ks i) :=
  getR_eq_getD 0 h

theorem kf_eq {ks : List K} {i : ℕ} (h : i < ks.length) : kf ks i = ks[i] := by
  simp [kf, h]

theorem mono_of_sorted {ks : List K} (h : ks.Pairwise (· ≤ ·)) {m : ℕ} (hm : m < ks.length) :
    Spec.MonoUpTo (kf ks) m := by
  intro i j hij hj
  rcases Nat.lt_or_eq_of_le hij with h' | rfl
  · rw [kf_eq (by omega), kf_eq (by omega)]
    exact List.pairwise_iff_getElem.1 h i j (by omega) (by omega) h'
  · exact le_refl _

theorem list_sum_range {M : Type} [AddCommMonoid M] (f : ℕ → M) (n : ℕ) :
    ((List.range n).map f).sum = (Finset.range n).sum f := by
  induction n with
  | zero => simp
  | succ n ih => simp [List.range_succ, Finset.sum_range_succ, ih]

namespace Knots

/-! ### span search -/

theorem spanGo_spec [IsStrictOrderedRing K] {ks : List K} {u : K} {p n : ℕ}
    (hlen : n + 1 < ks.length) (hmono : Spec.MonoUpTo (kf ks) (n + 1)) :
    ∀ fuel low high, p ≤ low → low < high → high ≤ n + 1 → high - low < fuel →
      kf ks low ≤ u → (u < kf ks high ∨ (high = n + 1 ∧ u ≤ kf ks (n + 1))) →
      ∃ s, spanGo ks u fuel low high ((low + high) / 2) = .ok s ∧ p ≤ s ∧ s ≤ n ∧ kf ks s ≤ u ∧
        (u < kf ks (s + 1) ∨ (s = n ∧ u = kf ks (n + 1))) := by
  intro fuel
  induction fuel with
  | zero => intro low high _ _ _ h; omega
  | succ fuel ih =>
    intro low high hpl hlh hhn hf hlo hhi
    have hmid : low ≤ (low + high) / 2 ∧ (low + high) / 2 < high := by omega
    generalize hm : (low + high) / 2 = mid at hmid
    rw [spanGo, getR_kf (by omega : mid < ks.length)]
    simp only [ok_bind]
    split
    · rename_i hu
      have hne : low ≠ mid := by
        rintro rfl; exact absurd (lt_of_le_of_lt hlo hu) (lt_irrefl _)
      have hne2 : mid ≠ (low + mid) / 2 := by omega
      rw [if_neg hne2]
      exact ih low mid hpl (by omega) (by omega) (by omega) hlo (Or.inl hu)
    · rename_i hu
      rw [getR_kf (by omega : mid + 1 < ks.length)]
      simp only [ok_bind]
      split
      · rename_i hu2
        split
        · rename_i he
          have hh : high = mid + 1 := by omega
          refine ⟨mid, rfl, by omega, by omega, not_lt.1 hu, ?_⟩
          rw [hh] at hhi
          rcases hhi with h | ⟨h, h'⟩
          · exact absurd (lt_of_lt_of_le h hu2) (lt_irrefl _)
          · right
            have : mid = n := by omega
            subst this
            exact ⟨rfl, le_antisymm h' hu2⟩
        · rename_i hne
          exact ih mid high (by omega) (by omega) hhn (by omega) (not_lt.1 hu) hhi
      · rename_i hu2
        exact ⟨mid, rfl, by omega, by omega, not_lt.1 hu, Or.inl (not_le.1 hu2)⟩

/-! ### basis functions -/

theorem leftAt_eq {ks : List K} {span j : ℕ} {u : K} (hj : j ≤ span + 1)
    (h : span + 1 - j < ks.length) : leftAt ks span u j = .ok (u - kf ks (span + 1 - j)) := by
  simp [leftAt, subR_eq_ok hj, getR_kf h]

theorem rightAt_eq {ks : List K} {span j : ℕ} {u : K}
    (h : span + j < ks.length) : rightAt ks span u j = .ok (kf ks (span + j) - u) := by
  simp [rightAt, getR_kf h]

theorem basisInner_eq {ks : List K} {s p : ℕ} {u : K} (hp : p + 1 ≤ s)
    (hlen : s + p + 1 < ks.length)
    (hne : ∀ i j, i ≤ s → s < j → j ≤ s + p + 1 → kf ks j ≠ kf ks i) :
    ∀ c r, r + c = p + 1 → ∀ saved,
      saved = (u - kf ks (s - p - 1 + r)) / (kf ks (s - p - 1 + r + p + 1) - kf ks (s - p - 1 + r)) *
        Spec.NS (kf ks) s p (s - p - 1 + r) u →
      basisInner ks s u (p + 1) r saved
        ((List.range' r c).map fun r => Spec.NS (kf ks) s p (s - p + r) u) =
      .ok ((List.range' r (c + 1)).map fun r => Spec.NS (kf ks) s (p + 1) (s - p - 1 + r) u) := by
  intro c
  induction c with
  | zero =>
    intro r hr saved hs
    have hr' : r = p + 1 := by omega
    simp only [List.range'_zero, List.map_nil, basisInner, pure_eq_ok, List.range'_succ,
      List.map_cons, Spec.NS]
    rw [hs]
    congr 2
    rw [Spec.NS_eq_zero_right (kf ks) s u p (s - p - 1 + r + 1) (by omega)]
    simp
  | succ c ih =>
    intro r hr saved hs
    rw [List.range'_succ, List.map_cons, basisInner]
    rw [rightAt_eq (by omega), leftAt_eq (by omega) (by omega)]
    simp only [ok_bind]
    have e1 : s + 1 - (p + 1 - r) = s - p + r := by omega
    rw [e1]
    have hne' : kf ks (s + (r + 1)) - u + (u - kf ks (s - p + r)) ≠ 0 := by
      have := hne (s - p + r) (s + (r + 1)) (by omega) (by omega) (by omega)
      intro h; apply this
      have : kf ks (s + (r + 1)) - kf ks (s - p + r) = 0 := by rw [← h]; ring
      exact sub_eq_zero.1 this
    rw [divR_eq_ok hne']
    simp only [ok_bind]
    rw [ih (r + 1) (by omega)]
    · simp only [ok_bind, pure_eq_ok]
      rw [List.range'_succ (n := c + 1), List.map_cons]
      congr 2
      rw [hs]
      simp only [Spec.NS]
      have e2 : s - p - 1 + r + 1 = s - p + r := by omega
      have e3 : s - p - 1 + r + p + 2 = s + (r + 1) := by omega
      have e4 : s - p - 1 + r + p + 1 = s + r := by omega
      rw [e2, e3]
      congr 1
      have : kf ks (s + (r + 1)) - u + (u - kf ks (s - p + r)) =
        kf ks (s + (r + 1)) - kf ks (s - p + r) := by ring
      rw [this]
      ring
    · have e2 : s - p - 1 + (r + 1) = s - p + r := by omega
      have e3 : s - p + r + p + 1 = s + (r + 1) := by omega
      rw [e2, e3]
      have : kf ks (s + (r + 1)) - u + (u - kf ks (s - p + r)) =
        kf ks (s + (r + 1)) - kf ks (s - p + r) := by ring
      rw [this]
      ring

/-- On a non degenerate span the model computes the span-local Cox–de Boor values. -/
theorem basisFunctions_eq {ks : List K} {s : ℕ} {u : K} :
    ∀ p, p ≤ s → s + p < ks.length →
    (∀ i j, i ≤ s → s < j → j ≤ s + p → kf ks j ≠ kf ks i) →
    basisFunctions ks s u p =
      .ok ((List.range (p + 1)).map fun r => Spec.NS (kf ks) s p (s - p + r) u) := by
  intro p
  induction p with
  | zero => intro _ _ _; simp [basisFunctions, Spec.NS]
  | succ p ih =>
    intro hp hlen hne
    rw [basisFunctions, ih (by omega) (by omega) (fun i j hi hj hj' => hne i j hi hj (by omega))]
    simp only [ok_bind]
    rw [leftAt_eq (by omega) (by omega), rightAt_eq (by omega)]
    simp only [ok_bind]
    rw [List.range_eq_range', basisInner_eq (by omega) (by omega)
      (fun i j hi hj hj' => hne i j hi hj (by omega)) (p + 1) 0 (by omega) 0]
    · rw [List.range_eq_range']
      simp only [Except.ok.injEq]
      apply List.map_congr_left
      intro r _
      have : s - (p + 1) = s - p - 1 := by omega
      rw [this]
    · rw [Spec.NS_eq_zero_left (kf ks) s u p (s - p - 1 + 0) (by omega)]; simp

/-- distinct sides of a non degenerate span carry distinct knots -/
theorem ne_across {k : ℕ → K} {m s : ℕ} (hk : Spec.MonoUpTo k m) (hs : k s < k (s + 1)) :
    ∀ i j, i ≤ s → s < j → j ≤ m → k j ≠ k i := by
  intro i j hi hj hm
  have h1 := hk i s hi (by omega)
  have h2 := hk (s + 1) j hj hm
  exact (lt_of_le_of_lt h1 (lt_of_lt_of_le hs h2)).ne'

end Knots

end Curvo

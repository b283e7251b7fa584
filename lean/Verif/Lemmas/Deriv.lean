/-
  The table computed by `derivativeBasisFunctions`.
-/
import Verif.Lemmas.Mat
import Verif.Lemmas.SpanPoly

set_option linter.unusedSectionVars false

namespace Curvo.Knots

open Curvo.Spec

variable {K : Type} [Field K] [LinearOrder K]

/-- What the triangle `ndu` holds. -/
structure NduOk (k : ℕ → K) (s : ℕ) (u : K) (J : ℕ) (f : ℕ → ℕ → K) : Prop where
  upper : ∀ j, j ≤ J → ∀ r, r ≤ j → f r j = NS k s j (s - j + r) u
  lower : ∀ j, j ≤ J → ∀ r, r < j → f j r = k (s + r + 1) - k (s + 1 + r - j)

structure NduSt (k : ℕ → K) (s : ℕ) (u : K) (p J r : ℕ) (st : List (List K) × K) (f : ℕ → ℕ → K) : Prop where
  ndu : st.1 = mat (p + 1) (p + 1) f
  old : NduOk k s u J f
  upper : ∀ r', r' < r → f r' (J + 1) = NS k s (J + 1) (s - (J + 1) + r') u
  lower : ∀ r', r' < r → f (J + 1) r' = k (s + r' + 1) - k (s + 1 + r' - (J + 1))
  saved : st.2 = (u - k (s - (J + 1) + r)) / (k (s - (J + 1) + r + J + 1) - k (s - (J + 1) + r)) *
    NS k s J (s - (J + 1) + r) u

theorem nduInner_spec {k : ℕ → K} {s p J : ℕ} {u : K} (hp : p ≤ s) (hJ : J < p)
    (hk : ∀ i j, i ≤ s → s < j → j ≤ s + p → k j ≠ k i) {fl fr : ℕ → K}
    (hl : ∀ i, 1 ≤ i → i ≤ J + 1 → fl i = u - k (s + 1 - i)) (hr : ∀ i, 1 ≤ i → i ≤ J + 1 → fr i = k (s + i) - u)
    {r : ℕ} (hrJ : r < J + 1) {st : List (List K) × K} (h : ∃ f, NduSt k s u p J r st f) :
    ∃ st', nduInner (vec (p + 1) fl) (vec (p + 1) fr) (J + 1) st r = .ok st' ∧ ∃ f, NduSt k s u p J (r + 1) st' f := by
  obtain ⟨f, h⟩ := h
  have hden : fr (r + 1) + fl (J + 1 - r) = k (s + r + 1) - k (s + 1 + r - (J + 1)) := by
    rw [hr _ (by omega) (by omega), hl _ (by omega) (by omega), show s + 1 - (J + 1 - r) = s + 1 + r - (J + 1) by omega,
      show s + (r + 1) = s + r + 1 by omega]
    ring
  have hne : k (s + r + 1) - k (s + 1 + r - (J + 1)) ≠ 0 := sub_ne_zero.2 (hk _ _ (by omega) (by omega) (by omega))
  have hx : updF2 f (J + 1) r (fr (r + 1) + fl (J + 1 - r)) r J = NS k s J (s - J + r) u := by
    unfold updF2
    rw [if_neg (by omega), h.old.upper J (le_refl _) r (by omega)]
  have hy : updF2 f (J + 1) r (fr (r + 1) + fl (J + 1 - r)) (J + 1) r = k (s + r + 1) - k (s + 1 + r - (J + 1)) := by
    unfold updF2
    rw [if_pos ⟨rfl, rfl⟩, hden]
  refine ⟨(mat (p + 1) (p + 1) (updF2 (updF2 f (J + 1) r (fr (r + 1) + fl (J + 1 - r))) r (J + 1)
    (st.2 + fr (r + 1) * (NS k s J (s - J + r) u / (k (s + r + 1) - k (s + 1 + r - (J + 1)))))),
    fl (J + 1 - r) * (NS k s J (s - J + r) u / (k (s + r + 1) - k (s + 1 + r - (J + 1))))), ?_,
    updF2 (updF2 f (J + 1) r (fr (r + 1) + fl (J + 1 - r))) r (J + 1)
      (st.2 + fr (r + 1) * (NS k s J (s - J + r) u / (k (s + r + 1) - k (s + 1 + r - (J + 1))))), ?_⟩
  swap
  · have e1 : s - (J + 1) + (r + 1) = s - J + r := by omega
    refine ⟨rfl, ⟨?_, ?_⟩, ?_, ?_, ?_⟩
    · intro j hj r' hr'
      unfold updF2
      rw [if_neg (by omega), if_neg (by omega), h.old.upper j hj r' hr']
    · intro j hj r' hr'
      unfold updF2
      rw [if_neg (by omega), if_neg (by omega), h.old.lower j hj r' hr']
    · intro r' hr'
      unfold updF2
      by_cases hrr : r' = r
      · subst hrr
        rw [if_pos ⟨rfl, rfl⟩, h.saved, hr _ (by omega) (by omega), NS, ← e1]
        rw [show s - (J + 1) + r' + J + 2 = s + r' + 1 by omega, show s - (J + 1) + (r' + 1) = s - (J + 1) + r' + 1 by omega,
          show s + 1 + r' - (J + 1) = s - (J + 1) + r' + 1 by omega, show s + (r' + 1) = s + r' + 1 by omega]
        ring
      · rw [if_neg (by omega), if_neg (by omega), h.upper r' (by omega)]
    · intro r' hr'
      unfold updF2
      by_cases hrr : r' = r
      · subst hrr
        rw [if_neg (by omega), if_pos ⟨rfl, rfl⟩, hden]
      · rw [if_neg (by omega), if_neg (by omega), h.lower r' (by omega)]
    · simp only [e1]
      rw [hl _ (by omega) (by omega), show s + 1 - (J + 1 - r) = s - J + r by omega,
        show s + 1 + r - (J + 1) = s - J + r by omega, show s - J + r + J + 1 = s + r + 1 by omega]
      ring
  · rw [nduInner, getR_vec (by omega), ok_bind, subR_eq_ok (by omega), ok_bind, getR_vec (by omega), ok_bind, h.ndu,
      set2R_mat (by omega) (by omega), ok_bind, subR_eq_ok (by omega), ok_bind, Nat.add_sub_cancel,
      get2R_mat (by omega) (by omega), ok_bind, get2R_mat (by omega) (by omega), ok_bind, hx, hy, divR_eq_ok hne,
      ok_bind, set2R_mat (by omega) (by omega), ok_bind]
    rfl

structure NduOuterSt (k : ℕ → K) (s : ℕ) (u : K) (p J : ℕ) (st : List (List K) × List K × List K) : Prop where
  ndu : ∃ f, st.1 = mat (p + 1) (p + 1) f ∧ NduOk k s u J f
  left : ∃ fl, st.2.1 = vec (p + 1) fl ∧ ∀ i, 1 ≤ i → i ≤ J → fl i = u - k (s + 1 - i)
  right : ∃ fr, st.2.2 = vec (p + 1) fr ∧ ∀ i, 1 ≤ i → i ≤ J → fr i = k (s + i) - u

theorem getR_kf' {ks : List K} {i : ℕ} (h : i < ks.length) : getR ks i = .ok (kf ks i) := getR_eq_getD 0 h

theorem nduOuter_spec {ks : List K} {s p J : ℕ} {u : K} (hp : p ≤ s) (hlen : s + p < ks.length) (hJ : J < p)
    (hk : ∀ i j, i ≤ s → s < j → j ≤ s + p → kf ks j ≠ kf ks i) {st : List (List K) × List K × List K}
    (h : NduOuterSt (kf ks) s u p J st) :
    ∃ st', nduOuter ks s u st (J + 1) = .ok st' ∧ NduOuterSt (kf ks) s u p (J + 1) st' := by
  obtain ⟨⟨f, ef, hf⟩, ⟨fl, el, hl⟩, ⟨fr, er, hr⟩⟩ := h
  have hl' : ∀ i, 1 ≤ i → i ≤ J + 1 → updF fl (J + 1) (u - kf ks (s - J)) i = u - kf ks (s + 1 - i) := by
    intro i h1 h2
    unfold updF
    by_cases hi : i = J + 1
    · rw [if_pos hi, hi]; congr 2; omega
    · rw [if_neg hi, hl i h1 (by omega)]
  have hr' : ∀ i, 1 ≤ i → i ≤ J + 1 → updF fr (J + 1) (kf ks (s + (J + 1)) - u) i = kf ks (s + i) - u := by
    intro i h1 h2
    unfold updF
    by_cases hi : i = J + 1
    · rw [if_pos hi, hi]
    · rw [if_neg hi, hr i h1 (by omega)]
  obtain ⟨st1, e1, f1, h1⟩ := foldlM_range_inv
    (f := nduInner (vec (p + 1) (updF fl (J + 1) (u - kf ks (s - J)))) (vec (p + 1) (updF fr (J + 1) (kf ks (s + (J + 1)) - u))) (J + 1))
    (P := fun r st => ∃ f, NduSt (kf ks) s u p J r st f) (n := J + 1) (s := (mat (p + 1) (p + 1) f, (0 : K)))
    ⟨f, rfl, hf, by intro r hr; omega, by intro r hr; omega, by
      rw [Nat.add_zero, NS_eq_zero_left _ _ _ _ _ (by omega), mul_zero]⟩
    (fun r hrJ st hst => nduInner_spec hp hJ hk hl' hr' hrJ hst)
  refine ⟨(mat (p + 1) (p + 1) (updF2 f1 (J + 1) (J + 1) st1.2),
    vec (p + 1) (updF fl (J + 1) (u - kf ks (s - J))), vec (p + 1) (updF fr (J + 1) (kf ks (s + (J + 1)) - u))),
    ?_, ⟨_, rfl, ?_⟩, ⟨_, rfl, hl'⟩, ⟨_, rfl, hr'⟩⟩
  · rw [nduOuter, subR_eq_ok (by omega), ok_bind, getR_kf' (by omega), ok_bind, el, setR_vec (by omega), ok_bind,
      getR_kf' (by omega), ok_bind, er, setR_vec (by omega), ok_bind, ef, Nat.add_sub_add_right, e1, ok_bind]
    simp only []
    rw [h1.ndu, set2R_mat (by omega) (by omega), ok_bind]
    rfl
  · refine ⟨?_, ?_⟩
    · intro j hj r hr
      unfold updF2
      by_cases hjJ : j = J + 1
      · subst hjJ
        by_cases hrJ : r = J + 1
        · subst hrJ
          rw [if_pos ⟨rfl, rfl⟩, h1.saved, NS, NS_eq_zero_right _ _ _ _ (s - (J + 1) + (J + 1) + 1) (by omega)]
          ring
        · rw [if_neg (by omega), h1.upper r (by omega)]
      · rw [if_neg (by omega), h1.old.upper j (by omega) r hr]
    · intro j hj r hr
      unfold updF2
      rw [if_neg (by omega)]
      by_cases hjJ : j = J + 1
      · subst hjJ; exact h1.lower r hr
      · exact h1.old.lower j (by omega) r hr

theorem nduTable_spec {ks : List K} {s p : ℕ} {u : K} (hp : p ≤ s) (hlen : s + p < ks.length)
    (hk : ∀ i j, i ≤ s → s < j → j ≤ s + p → kf ks j ≠ kf ks i) :
    ∃ f, nduTable ks s u p = .ok (mat (p + 1) (p + 1) f) ∧ NduOk (kf ks) s u p f := by
  obtain ⟨st, e, ⟨f, ef, hf⟩, _, _⟩ := foldlM_inv (f := nduOuter ks s u) (g := (· + 1))
    (P := fun J st => NduOuterSt (kf ks) s u p J st) (n := p)
    (s := (mat (p + 1) (p + 1) (updF2 (fun _ _ => 0) 0 0 1), List.replicate (p + 1) 0, List.replicate (p + 1) 0))
    ⟨⟨_, rfl, by
        refine ⟨?_, by intro j hj r hr; omega⟩
        intro j hj r hr
        obtain rfl : j = 0 := by omega
        obtain rfl : r = 0 := by omega
        simp [updF2, NS]⟩,
      ⟨_, vec_replicate _ _, by intro i h1 h2; omega⟩, ⟨_, vec_replicate _ _, by intro i h1 h2; omega⟩⟩
    (fun J hJ st hst => nduOuter_spec hp hlen hJ hk hst)
  refine ⟨f, ?_, hf⟩
  rw [nduTable, mat_replicate, set2R_mat (by omega) (by omega), ok_bind, e, ok_bind]
  simp only []
  rw [ef]
  rfl

end Curvo.Knots

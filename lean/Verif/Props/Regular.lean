/-
  Property theorems about uniform knot vectors and regularly spaced basis functions: C65, C66.
-/
import Verif.Lemmas.Curve

set_option linter.unusedSectionVars false

namespace Curvo.Props

open Curvo Curvo.Knots Curvo.Spec Curvo.Curve

variable {K : Type} [Field K] [LinearOrder K] [IsStrictOrderedRing K]

theorem advanceGo_spec {ks : List K} {n : ℕ} {u : K} (hl : n + 1 < ks.length) :
    ∀ (fuel idx : ℕ), idx ≤ n → n - idx < fuel →
      ∃ idx', advanceGo ks n u fuel idx = .ok idx' ∧ idx ≤ idx' ∧ idx' ≤ n ∧
        (idx < idx' → kf ks idx' ≤ u) ∧ (idx' = n ∨ u < kf ks (idx' + 1)) := by
  intro fuel
  induction fuel with
  | zero => intro idx _ h; omega
  | succ fuel ih =>
    intro idx h1 h2
    rw [advanceGo, getR_kf (by omega), ok_bind]
    by_cases hc : kf ks (idx + 1) ≤ u ∧ idx < n
    · rw [if_pos hc]
      obtain ⟨idx', e, a, b, c, d⟩ := ih (idx + 1) (by omega) (by omega)
      refine ⟨idx', e, by omega, b, ?_, d⟩
      intro _
      rcases Nat.lt_or_ge (idx + 1) idx' with h | h
      · exact c h
      · rw [show idx' = idx + 1 by omega]; exact hc.1
    · rw [if_neg hc]
      refine ⟨idx, rfl, le_refl _, h1, fun h => absurd h (lt_irrefl _), ?_⟩
      rcases Nat.lt_or_ge idx n with h | h
      · right; exact lt_of_not_ge fun hle => hc ⟨hle, h⟩
      · left; omega

theorem regularGo_spec {eps : K} {ks : List K} {p n : ℕ} {span : K} (hl : ks.length = n + p + 2)
    (hg : GoodKnots eps (kf ks) p n) (hspan : 0 ≤ span) :
    ∀ (todo : ℕ) (u : K) (idx : ℕ), p ≤ idx → idx ≤ n → kf ks idx ≤ u →
      (∀ r, r < todo → u + r * span ≤ kf ks (n + 1)) →
      ∃ L, regularGo ks p n span todo u idx = .ok L ∧ L.length = todo ∧
        ∀ r : ℕ, r < todo → ∃ s b, L[r]? = some (s, b) ∧ p ≤ s ∧ s ≤ n ∧
          InSpan (kf ks) (kf ks (n + 1)) (u + r * span) s ∧
          basisFunctions ks s (u + r * span) p = .ok b := by
  intro todo
  induction todo with
  | zero => intro u idx _ _ _ _; exact ⟨[], rfl, rfl, fun r hr => absurd hr (by omega)⟩
  | succ todo ih =>
    intro u idx h1 h2 h3 h4
    obtain ⟨idx', e, a, b, c, d⟩ := advanceGo_spec (ks := ks) (n := n) (u := u) (by omega) (n + 2) idx h2 (by omega)
    have hk : kf ks idx' ≤ u := by
      rcases Nat.lt_or_ge idx idx' with h | h
      · exact c h
      · rw [show idx' = idx by omega]; exact h3
    have hu : u ≤ kf ks (n + 1) := by simpa using h4 0 (by omega)
    have hin : InSpan (kf ks) (kf ks (n + 1)) u idx' := by
      by_cases hend : u = kf ks (n + 1)
      · have : idx' = n := by
          rcases d with d | d
          · exact d
          · exfalso
            rw [hend] at d
            exact absurd (hg.mono (idx' + 1) (n + 1) (by omega) (by omega)) (not_le.2 d)
        rw [InSpan, if_pos hend, this, hend]
        exact ⟨hg.last, le_refl _⟩
      · rw [InSpan, if_neg hend]
        refine ⟨hk, ?_⟩
        rcases d with d | d
        · rw [d]; exact lt_of_le_of_ne hu hend
        · exact d
    have hb := basisFunctions_eq (ks := ks) (u := u) p (s := idx') (by omega) (by omega)
      (fun i j hi hj hj' => ne_across hg.mono (inSpan_lt hin) i j hi hj (by omega))
    obtain ⟨L, eL, hL, hr⟩ := ih (u + span) idx' (by omega) b (le_trans hk (by linarith)) (by
      intro r hr
      have := h4 (r + 1) (by omega)
      rw [Nat.cast_add, Nat.cast_one, add_mul, one_mul] at this
      linarith)
    refine ⟨_, by rw [regularGo, e, ok_bind, hb, ok_bind, eL, ok_bind]; rfl, by simp [hL], ?_⟩
    intro r hr'
    rcases r with _ | r
    · refine ⟨idx', _, rfl, by omega, b, by simpa using hin, by simpa using hb⟩
    · obtain ⟨s, bs, e1, e2, e3, e4, e5⟩ := hr r (by omega)
      have : u + ((r + 1 : ℕ) : K) * span = u + span + r * span := by push_cast; ring
      rw [this]
      exact ⟨s, bs, by simpa using e1, e2, e3, e4, e5⟩

/-- Regularly spaced evaluation: for `divs ≥ 1` there are `divs + 1` entries; entry `r` holds the span and
    the basis functions of the parameter `start + r * (end - start) / divs`. -/
theorem C66_regularly_spaced {eps : K} {ks : List K} {p n divs : ℕ} (hl : ks.length = n + p + 2)
    (hg : GoodKnots eps (kf ks) p n) (hd : 0 < divs) :
    ∃ L, regularlySpacedBasisFunctions eps ks p divs = .ok L ∧ L.length = divs + 1 ∧
      ∀ r : ℕ, r ≤ divs → ∃ s b, L[r]? = some (s, b) ∧ p ≤ s ∧ s ≤ n ∧
        InSpan (kf ks) (kf ks (n + 1)) (kf ks p + r * ((kf ks (n + 1) - kf ks p) / divs)) s ∧
        basisFunctions ks s (kf ks p + r * ((kf ks (n + 1) - kf ks p) / divs)) p = .ok b := by
  have hpn := hg.le
  have hdom : domain ks p = .ok (kf ks p, kf ks (n + 1)) := by
    rw [domain, getR_kf (by omega), ok_bind, subR_eq_ok (by omega), ok_bind, subR_eq_ok (by omega), ok_bind,
      getR_kf (by omega), ok_bind, show ks.length - 1 - p = n + 1 by omega]
    rfl
  have hlt : kf ks p < kf ks (n + 1) :=
    lt_of_lt_of_le hg.first (hg.mono _ _ (by omega) (by omega))
  have hdK : (0 : K) < divs := Nat.cast_pos.2 hd
  have hsp : regularlySpacedSpan ks p divs =
      .ok (kf ks p, kf ks (n + 1), (kf ks (n + 1) - kf ks p) / divs, n) := by
    rw [regularlySpacedSpan, subR_eq_ok (by omega), ok_bind, subR_eq_ok (by omega), ok_bind, hdom, ok_bind]
    simp only []
    rw [divR_eq_ok hdK.ne', ok_bind, show ks.length - p - 2 = n by omega]
    rfl
  obtain ⟨s, es, ps, sn, hin⟩ := C01_span_brackets (u := kf ks p) hl hg (le_refl _) hlt.le
  obtain ⟨L, e, hL, hr⟩ := regularGo_spec hl hg (span := (kf ks (n + 1) - kf ks p) / divs)
    (div_nonneg (sub_nonneg.2 hlt.le) hdK.le) (divs + 1) (kf ks p) s ps sn (inSpan_le hin).1 (by
      intro r hr
      have h1 : (r : K) ≤ divs := Nat.cast_le.2 (by omega)
      have h2 : (r : K) * ((kf ks (n + 1) - kf ks p) / divs) ≤ divs * ((kf ks (n + 1) - kf ks p) / divs) :=
        mul_le_mul_of_nonneg_right h1 (div_nonneg (sub_nonneg.2 hlt.le) hdK.le)
      rw [mul_div_cancel₀ _ hdK.ne'] at h2
      linarith)
  refine ⟨L, by rw [regularlySpacedBasisFunctions, hsp, ok_bind]; simp only []; rw [es, ok_bind, e], hL, ?_⟩
  intro r h
  exact hr r (by omega)

/-- The parameters of the entries: the first is the start of the domain, the last its end. -/
theorem C66_ends {ks : List K} {p n divs : ℕ} (hd : 0 < divs) :
    kf ks p + ((0 : ℕ) : K) * ((kf ks (n + 1) - kf ks p) / divs) = kf ks p ∧
    kf ks p + (divs : K) * ((kf ks (n + 1) - kf ks p) / divs) = kf ks (n + 1) := by
  have hdK : (0 : K) < divs := Nat.cast_pos.2 hd
  constructor
  · simp
  · rw [mul_div_cancel₀ _ hdK.ne']; ring

/-! ### C65 -/

theorem uniform_ok {n p : ℕ} (hn : 0 < n) : uniform n p = .ok (List.replicate p (0 : K) ++
    (List.range n).map (fun i : ℕ => (i : K)) ++ List.replicate p ((n - 1 : ℕ) : K)) := by
  rw [uniform, subR_eq_ok (by omega)]; rfl

/-- The values of a uniform knot vector: `degree` zeros, `0, 1, …, n - 1`, and `degree` times `n - 1`. -/
theorem C65_uniform_values {n p : ℕ} (hn : 0 < n) : ∃ ks : List K, uniform n p = .ok ks ∧ ks.length = n + 2 * p ∧
    (∀ i, i < p → kf ks i = 0) ∧ (∀ i, i < n → kf ks (p + i) = i) ∧
    (∀ i, n + p ≤ i → i < n + 2 * p → kf ks i = ((n - 1 : ℕ) : K)) := by
  refine ⟨_, uniform_ok hn, by simp; omega, ?_, ?_, ?_⟩
  · intro i hi
    simp [kf, List.getD_eq_getElem?_getD, List.getElem?_append, hi]
  · intro i hi
    simp [kf, List.getD_eq_getElem?_getD, List.getElem?_append, hi]
  · intro i h1 h2
    have a1 : ¬ i < p := by omega
    have a2 : ¬ i - p < n := by omega
    have a3 : i - p - n < p := by omega
    simp [kf, List.getD_eq_getElem?_getD, List.getElem?_append, a1, a2, a3]

theorem C65_uniform_empty (p : ℕ) : (uniform 0 p : Res (List K)) = .error .panic := rfl

/-- A uniform knot vector with `n ≥ 2` is good for evaluation with any tolerance up to 1; its domain is
    `[0, n - 1]` and it is clamped. -/
theorem C65_uniform_good {n p : ℕ} {eps : K} (hn : 2 ≤ n) (h0 : 0 ≤ eps) (h1 : eps ≤ 1) :
    ∃ ks : List K, uniform n p = .ok ks ∧ ks.Pairwise (· ≤ ·) ∧ ks.length = (n + p - 2) + p + 2 ∧
      GoodKnots eps (kf ks) p (n + p - 2) ∧ domain ks p = .ok (0, ((n - 1 : ℕ) : K)) ∧
      kf ks 0 = kf ks p ∧ kf ks (n + p - 1) = kf ks (ks.length - 1) := by
  obtain ⟨ks, e, hl, v1, v2, v3⟩ := C65_uniform_values (K := K) (n := n) (p := p) (by omega)
  have hs : ks.Pairwise (· ≤ ·) := by
    rw [uniform_ok (by omega)] at e
    have e := (Except.ok.inj e).symm
    subst e
    have hnn : ∀ a : ℕ, a < n → (a : K) ≤ ((n - 1 : ℕ) : K) := fun a ha => Nat.cast_le.2 (by omega)
    rw [List.pairwise_append, List.pairwise_append]
    refine ⟨⟨?_, ?_, ?_⟩, ?_, ?_⟩
    · rw [List.pairwise_replicate]; right; exact le_refl _
    · rw [List.pairwise_map]
      exact List.pairwise_lt_range.imp (fun h => Nat.cast_le.2 h.le)
    · intro a ha b hb
      rw [List.eq_of_mem_replicate ha]
      obtain ⟨i, _, rfl⟩ := List.mem_map.1 hb
      exact Nat.cast_nonneg _
    · rw [List.pairwise_replicate]; right; exact le_refl _
    · intro a ha b hb
      rw [List.eq_of_mem_replicate hb]
      rcases List.mem_append.1 ha with ha | ha
      · rw [List.eq_of_mem_replicate ha]; exact Nat.cast_nonneg _
      · obtain ⟨i, hi, rfl⟩ := List.mem_map.1 ha
        exact hnn i (List.mem_range.1 hi)
  have k0 : kf ks p = 0 := by simpa using v2 0 (by omega)
  have k1 : kf ks (p + 1) = 1 := by simpa using v2 1 (by omega)
  have kn : kf ks (n + p - 2) = ((n - 2 : ℕ) : K) := by
    rw [show n + p - 2 = p + (n - 2) by omega, v2 _ (by omega)]
  have kn1 : kf ks (n + p - 1) = ((n - 1 : ℕ) : K) := by
    rw [show n + p - 1 = p + (n - 1) by omega, v2 _ (by omega)]
  have hstep : ((n - 1 : ℕ) : K) = ((n - 2 : ℕ) : K) + 1 := by
    rw [show n - 1 = (n - 2) + 1 by omega]; push_cast; ring
  refine ⟨ks, e, hs, by omega, ⟨h0, by omega, mono_of_sorted hs (by omega), ?_, ?_, ?_, ?_⟩, ?_, ?_, ?_⟩
  · rw [k0, k1]; exact zero_lt_one
  · rw [show n + p - 2 + 1 = n + p - 1 by omega, kn, kn1, hstep]; linarith
  · rw [k0, k1]; linarith
  · rw [show n + p - 2 + 1 = n + p - 1 by omega, kn, kn1, hstep]; linarith
  · rw [domain, getR_kf (by omega), ok_bind, subR_eq_ok (by omega), ok_bind, subR_eq_ok (by omega), ok_bind,
      getR_kf (by omega), ok_bind, k0, show ks.length - 1 - p = n + p - 1 by omega, kn1]
    rfl
  · rw [k0]
    rcases Nat.eq_zero_or_pos p with rfl | hp
    · exact k0
    · exact v1 0 hp
  · rw [kn1]
    rcases Nat.eq_zero_or_pos p with rfl | hp
    · rw [hl, show n + 2 * 0 - 1 = n + 0 - 1 by omega, kn1]
    · rw [v3 _ (by omega) (by omega)]

example : (uniform 4 2 : Res (List ℚ)) = .ok [0, 0, 0, 1, 2, 3, 3, 3] := by decide +kernel

/-- Witness for C66: the uniform knots above, sampled at five parameters. -/
example : ∃ ks : List ℚ, uniform 4 2 = .ok ks ∧ ∃ L, regularlySpacedBasisFunctions (1/1000) ks 2 4 = .ok L ∧
    L.length = 5 := by
  obtain ⟨ks, e, _, hl, hg, _⟩ := C65_uniform_good (K := ℚ) (n := 4) (p := 2) (eps := 1/1000) (by norm_num)
    (by norm_num) (by norm_num)
  obtain ⟨L, e', hL, _⟩ := C66_regularly_spaced hl hg (divs := 4) (by norm_num)
  exact ⟨ks, e, L, e', hL⟩

end Curvo.Props

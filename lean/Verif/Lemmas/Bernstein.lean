/-
  The basis functions on a Bezier segment, and the identity behind degree elevation.
-/
import Verif.Lemmas.ElevChain
import Verif.Lemmas.Curve
import Verif.Lemmas.Insert

set_option linter.unusedSectionVars false

namespace Curvo.Curve

open Curvo Curvo.Spec

variable {K : Type} [Field K] [LinearOrder K] [IsStrictOrderedRing K] {V : Type} [AddCommGroup V] [Module K V]

/-- Bernstein polynomials by de Casteljau's recursion. -/
def bern (x : K) : ℕ → ℕ → K
  | 0, 0 => 1
  | 0, _ + 1 => 0
  | q + 1, 0 => (1 - x) * bern x q 0
  | q + 1, i + 1 => x * bern x q i + (1 - x) * bern x q (i + 1)

theorem bern_zero (x : K) : ∀ q i, q < i → bern x q i = 0 := by
  intro q
  induction q with
  | zero => intro i h; obtain ⟨i, rfl⟩ : ∃ k, i = k + 1 := ⟨i - 1, by omega⟩; rfl
  | succ q ih =>
    intro i h
    obtain ⟨i, rfl⟩ : ∃ k, i = k + 1 := ⟨i - 1, by omega⟩
    rw [bern, ih i (by omega), ih (i + 1) (by omega)]; ring

theorem bern_elevate (x : K) : ∀ p i : ℕ,
    ((p : K) + 1) * bern x p i = ((p : K) + 1 - i) * bern x (p + 1) i + ((i : K) + 1) * bern x (p + 1) (i + 1) := by
  intro p
  induction p with
  | zero =>
    intro i
    match i with
    | 0 => simp [bern]
    | 1 => simp [bern]
    | i + 2 => simp [bern]
  | succ p ih =>
    intro i
    match i with
    | 0 =>
      have h0 := ih 0
      simp only [Nat.cast_zero, sub_zero, zero_add, one_mul] at h0
      rw [bern.eq_3 x (p + 1), bern.eq_4 x (p + 1) 0, bern.eq_3 x p]
      rw [bern.eq_3 x p] at h0
      push_cast
      simp only [Nat.cast_zero, sub_zero, zero_add, one_mul]
      linear_combination (1 - x) * h0
    | i + 1 =>
      have h0 := ih i
      have h1 := ih (i + 1)
      rw [bern.eq_4 x (p + 1) i, bern.eq_4 x (p + 1) (i + 1)]
      have hb := bern.eq_4 x p i
      push_cast at h0 h1 ⊢
      linear_combination x * h0 + (1 - x) * h1 + ((p : K) + 1) * hb

/-- The basis functions on a span whose `p` knots to either side coincide. -/
theorem NS_bern {k : ℕ → K} {σ p : ℕ} {a b t : K} (ha : ∀ j, σ < j + p → j ≤ σ → k j = a)
    (hb : ∀ j, σ < j → j ≤ σ + p → k j = b) (hab : a < b) :
    ∀ q, q ≤ p → q ≤ σ → ∀ i, i ≤ q → NS k σ q (σ - q + i) t = bern ((t - a) / (b - a)) q i := by
  have hd : b - a ≠ 0 := (sub_pos.2 hab).ne'
  have h1x : (b - t) / (b - a) = 1 - (t - a) / (b - a) := by field_simp; ring
  intro q
  induction q with
  | zero =>
    intro _ _ i hi
    have : i = 0 := by omega
    subst this
    simp [NS, bern]
  | succ q ih =>
    intro hq hqs i hi
    rw [NS]
    match i with
    | 0 =>
      rw [NS_eq_zero_left k σ t q (σ - (q + 1) + 0) (by omega), bern,
        show σ - (q + 1) + 0 + 1 = σ - q + 0 by omega, ih (by omega) (by omega) 0 (by omega),
        ha (σ - q + 0) (by omega) (by omega), hb (σ - (q + 1) + 0 + q + 2) (by omega) (by omega), h1x]
      ring
    | i + 1 =>
      rw [bern, show σ - (q + 1) + (i + 1) = σ - q + i by omega, ih (by omega) (by omega) i (by omega),
        ha (σ - q + i) (by omega) (by omega), hb (σ - q + i + q + 1) (by omega) (by omega)]
      by_cases hiq : i + 1 ≤ q
      · rw [show σ - q + i + 1 = σ - q + (i + 1) by omega, ih (by omega) (by omega) (i + 1) hiq,
          ha (σ - q + (i + 1)) (by omega) (by omega), hb (σ - q + i + q + 2) (by omega) (by omega), h1x]
      · rw [bern_zero _ q (i + 1) (by omega), NS_eq_zero_right k σ t q (σ - q + i + 1) (by omega)]
        ring

/-- The elevated control points span the same polynomial. -/
theorem bern_sum (x : K) (p : ℕ) (P : ℕ → V) :
    ((Finset.range (p + 2)).sum fun i => bern x (p + 1) i • elevPt (K := K) p P i) =
      (Finset.range (p + 1)).sum fun i => bern x p i • P i := by
  have hp0 : ((p : K) + 1) ≠ 0 := by positivity
  have h1 : ((Finset.range (p + 2)).sum fun i => (bern x (p + 1) i * ((i : K) / (p + 1))) • P (i - 1)) =
      (Finset.range (p + 1)).sum fun i => (bern x (p + 1) (i + 1) * (((i : K) + 1) / (p + 1))) • P i := by
    rw [Finset.sum_range_succ']
    simp
  have h2 : ((Finset.range (p + 2)).sum fun i => (bern x (p + 1) i * (1 - (i : K) / (p + 1))) • P i) =
      (Finset.range (p + 1)).sum fun i => (bern x (p + 1) i * (1 - (i : K) / (p + 1))) • P i := by
    rw [Finset.sum_range_succ]
    have : (1 : K) - ((p + 1 : ℕ) : K) / (p + 1) = 0 := by push_cast; rw [div_self hp0, sub_self]
    rw [this, mul_zero, zero_smul, add_zero]
  have h3 : ((Finset.range (p + 2)).sum fun i => bern x (p + 1) i • elevPt (K := K) p P i) =
      ((Finset.range (p + 2)).sum fun i => (bern x (p + 1) i * ((i : K) / (p + 1))) • P (i - 1)) +
      ((Finset.range (p + 2)).sum fun i => (bern x (p + 1) i * (1 - (i : K) / (p + 1))) • P i) := by
    rw [← Finset.sum_add_distrib]
    apply Finset.sum_congr rfl
    intro i _
    rw [elevPt, smul_add, smul_smul, smul_smul]
  rw [h3, h1, h2, ← Finset.sum_add_distrib]
  apply Finset.sum_congr rfl
  intro i _
  rw [← add_smul]
  congr 1
  have h := bern_elevate x p i
  field_simp
  linear_combination -h

variable {p s : ℕ} {u : ℕ → K} {P : ℕ → V}

theorem chain_kf {i : ℕ} (h : i < s * p + p + 2) : kf (chainKnots p s u) i = u (min s ((i - 1) / p)) := by
  rw [kf, List.getD_eq_getElem?_getD, chainKnots_get h]; rfl

theorem u_mono (hu : ∀ i, i < s → u i < u (i + 1)) : ∀ d i, i + d ≤ s → u i ≤ u (i + d) := by
  intro d
  induction d with
  | zero => intro i _; exact le_rfl
  | succ d ih => intro i h; exact (ih i (by omega)).trans (hu (i + d) (by omega)).le

theorem chain_lo (hp : 1 ≤ p) : (chain p s u P).lo = u 0 := by
  rw [lo]
  show kf (chainKnots p s u) p = _
  rw [chain_kf (by omega), Nat.div_eq_of_lt (by omega), Nat.min_zero]

theorem chain_hi (hp : 1 ≤ p) : (chain p s u P).hi = u s := by
  rw [hi]
  show kf (chainKnots p s u) (vec (s * p + 1) P).length = _
  rw [vec_length, chain_kf (by omega), Nat.add_sub_cancel, Nat.mul_div_cancel _ (by omega), Nat.min_self]

theorem chain_good {eps : K} (he : 0 ≤ eps) (hp : 1 ≤ p) (hs : 1 ≤ s) (hu : ∀ i, i < s → u i < u (i + 1))
    (h1 : u 0 + eps ≤ u 1) (h2 : u (s - 1) + eps ≤ u s) : (chain p s u P).Good eps := by
  have hsp : p ≤ s * p := Nat.le_mul_of_pos_left p hs
  have hmono : MonoUpTo (kf (chainKnots p s u)) (s * p + p + 1) := by
    intro i j hij hj
    rw [chain_kf (by omega), chain_kf (by omega)]
    have hd := Nat.div_le_div_right (c := p) (show i - 1 ≤ j - 1 by omega)
    obtain ⟨d, hd'⟩ : ∃ d, min s ((j - 1) / p) = min s ((i - 1) / p) + d := ⟨min s ((j - 1) / p) - min s ((i - 1) / p), by omega⟩
    rw [hd']
    exact u_mono hu d _ (by omega)
  have k0 : kf (chainKnots p s u) p = u 0 := chain_lo (s := s) (u := u) (P := fun _ => (0 : K)) hp
  have k1 : kf (chainKnots p s u) (p + 1) = u 1 := by
    rw [chain_kf (by omega), Nat.add_sub_cancel, Nat.div_self (by omega), Nat.min_eq_right hs]
  have k2 : kf (chainKnots p s u) (s * p) = u (s - 1) := by
    rw [chain_kf (by omega)]
    have : (s * p - 1) / p = s - 1 := by
      obtain ⟨s, rfl⟩ : ∃ k, s = k + 1 := ⟨s - 1, by omega⟩
      rw [show (s + 1) * p - 1 = s * p + (p - 1) by rw [Nat.add_mul]; omega, mul_add_div' (by omega), Nat.add_sub_cancel]
    rw [this, Nat.min_eq_right (by omega)]
  have k3 : kf (chainKnots p s u) (s * p + 1) = u s := by
    rw [chain_kf (by omega), Nat.add_sub_cancel, Nat.mul_div_cancel _ (by omega), Nat.min_self]
  have hl : u (s - 1) < u s := by
    have := hu (s - 1) (by omega)
    rwa [Nat.sub_add_cancel hs] at this
  have hcl : (chain p s u P).cps.length = s * p + 1 := by simp [chain]
  refine ⟨by omega, by rw [hcl]; simp [chain, chainKnots]; omega, ?_⟩
  rw [hcl, Nat.add_sub_cancel]
  exact ⟨he, hsp, hmono, by show kf (chainKnots p s u) p < kf (chainKnots p s u) (p + 1); rw [k0, k1]; exact hu 0 hs,
    by show kf (chainKnots p s u) _ < kf (chainKnots p s u) _; rw [k2, k3]; exact hl,
    by show kf (chainKnots p s u) p + _ ≤ kf (chainKnots p s u) (p + 1); rw [k0, k1]; exact h1,
    by show kf (chainKnots p s u) _ + _ ≤ kf (chainKnots p s u) _; rw [k2, k3]; exact h2⟩

/-- A chain on its segment `j`. -/
theorem chain_eval {eps : K} (hg : (chain p s u P).Good eps) (hp : 1 ≤ p) (hu : ∀ i, i < s → u i < u (i + 1)) {t : K}
    {j : ℕ} (hj : j < s) (hin : InSpan u (u s) t j) :
    (chain p s u P).eval t =
      (Finset.range (p + 1)).sum fun i => bern ((t - u j) / (u (j + 1) - u j)) p i • P (j * p + i) := by
  have hms := Nat.mul_le_mul_right p (show j + 1 ≤ s by omega)
  have hjp : (j + 1) * p = j * p + p := by ring
  have hcl : (chain p s u P).cps.length = s * p + 1 := by simp [chain]
  have hd : (chain p s u P).degree = p := rfl
  have ha : ∀ i, j * p + p < i + p → i ≤ j * p + p → kf (chainKnots p s u) i = u j := by
    intro i h1 h2
    rw [chain_kf (by omega), show i - 1 = j * p + (i - 1 - j * p) by omega, mul_add_div' (by omega)]
    congr 1; omega
  have hb : ∀ i, j * p + p < i → i ≤ j * p + p + p → kf (chainKnots p s u) i = u (j + 1) := by
    intro i h1 h2
    rw [chain_kf (by omega), show i - 1 = (j + 1) * p + (i - 1 - (j + 1) * p) by omega, mul_add_div' (by omega)]
    congr 1; omega
  have hin' : InSpan (kf (chain p s u P).knots) (chain p s u P).hi t (j * p + p) := by
    rw [chain_hi hp]
    unfold InSpan at hin ⊢
    rw [show kf (chain p s u P).knots (j * p + p) = u j from ha _ (by omega) le_rfl,
      show kf (chain p s u P).knots (j * p + p + 1) = u (j + 1) from hb _ (by omega) (by omega)]
    exact hin
  rw [eval_eq_span hg (s := j * p + p) (by rw [hd]; omega) (by rw [hcl]; omega) hin', hd]
  apply Finset.sum_congr rfl
  intro i hi
  have hi' := Finset.mem_range.1 hi
  rw [show NS (kf (chain p s u P).knots) (j * p + p) p (j * p + p - p + i) t = _ from
    NS_bern ha hb (hu j hj) p le_rfl (by omega) i (by omega)]
  congr 1
  rw [Nat.add_sub_cancel]
  show (vec (s * p + 1) P).getD _ 0 = _
  rw [List.getD_eq_getElem?_getD, vec, List.getElem?_map, List.getElem?_range (by omega)]
  rfl

/-- The elevated chain is the same curve. -/
theorem chain_eval_elevated {eps : K} (he : 0 ≤ eps) (hp : 1 ≤ p) (hs : 1 ≤ s) (hu : ∀ i, i < s → u i < u (i + 1))
    (h1 : u 0 + eps ≤ u 1) (h2 : u (s - 1) + eps ≤ u s) {t : K} (ht1 : u 0 ≤ t) (ht2 : t ≤ u s) :
    (chain (p + 1) s u (chainElev (K := K) p P)).eval t = (chain p s u P).eval t := by
  obtain ⟨j, _, hj, hin⟩ := exists_inSpan (k := u) (p := 0) (n := s - 1) (u := t) (by omega)
    (by rw [Nat.sub_add_cancel hs]; exact lt_of_lt_of_le (hu 0 hs) (by
      have := u_mono hu (s - 1) 1 (by omega)
      rwa [show 1 + (s - 1) = s by omega] at this)) ht1 (by rw [Nat.sub_add_cancel hs]; exact ht2)
  rw [Nat.sub_add_cancel hs] at hin
  rw [chain_eval (chain_good he (by omega) hs hu h1 h2) (by omega) hu (by omega) hin,
    chain_eval (chain_good he hp hs hu h1 h2) hp hu (by omega) hin, ← bern_sum _ _ fun i => P (j * p + i)]
  apply Finset.sum_congr rfl
  intro i hi
  have hi' := Finset.mem_range.1 hi
  congr 1
  rcases Nat.eq_zero_or_pos i with rfl | hi0
  · unfold chainElev
    rw [Nat.add_zero, Nat.mul_div_cancel _ (by omega), Nat.mul_mod_left]
  · exact chainElev_seg hp hi0 (by omega)

end Curvo.Curve

/-
  The theorem of Schoenberg and Whitney: interpolation by splines at parameters inside the supports of the basis functions
  has at most one solution.
-/
import Mathlib.Algebra.Polynomial.Roots
import Mathlib.Order.Interval.Set.Infinite
import Verif.Lemmas.SpanPoly
import Verif.Lemmas.Variation

set_option linter.unusedSectionVars false

namespace Curvo.Spec

open Polynomial

variable {K : Type} [Field K] [LinearOrder K] [IsStrictOrderedRing K]

/-- A basis function is positive inside its support. -/
theorem NS_pos {k : ℕ → K} {s m : ℕ} (hk : MonoUpTo k m) {u : K} (h1 : k s ≤ u) (h2 : u < k (s + 1)) :
    ∀ p i, i + p + 1 ≤ m → i ≤ s → s ≤ i + p → (k i < u ∨ s = i + p) → 0 < NS k s p i u := by
  intro p
  induction p with
  | zero => intro i _ h3 h4 _; rw [NS, if_pos (by omega)]; exact one_pos
  | succ p ih =>
    intro i hm h3 h4 h5
    have n1 := NS_nonneg hk h1 h2.le p i (by omega)
    have n2 := NS_nonneg hk h1 h2.le p (i + 1) (by omega)
    have d1 : 0 ≤ (u - k i) / (k (i + p + 1) - k i) :=
      div_nonneg (sub_nonneg.2 (le_trans (hk i s h3 (by omega)) h1)) (sub_nonneg.2 (hk _ _ (by omega) (by omega)))
    have d2 : 0 ≤ (k (i + p + 2) - u) / (k (i + p + 2) - k (i + 1)) :=
      div_nonneg (sub_nonneg.2 (le_trans h2.le (hk (s + 1) _ (by omega) (by omega))))
        (sub_nonneg.2 (hk _ _ (by omega) (by omega)))
    rw [NS]
    by_cases c : s ≤ i + p
    · have hi : k i < u := by rcases h5 with h | h; exacts [h, by omega]
      have hu : u < k (i + p + 1) := lt_of_lt_of_le h2 (hk _ _ (by omega) (by omega))
      exact add_pos_of_pos_of_nonneg (mul_pos (div_pos (sub_pos.2 hi) (sub_pos.2 (lt_trans hi hu)))
        (ih i (by omega) h3 c (Or.inl hi))) (mul_nonneg d2 n2)
    · have e : s + 1 = i + p + 2 := by omega
      rw [e] at h2
      have hi : k (i + 1) < k (i + p + 2) := lt_of_le_of_lt (le_trans (hk (i + 1) s (by omega) (by omega)) h1) h2
      exact add_pos_of_nonneg_of_pos (mul_nonneg d1 n1) (mul_pos (div_pos (sub_pos.2 h2) (sub_pos.2 hi))
        (ih (i + 1) (by omega) (by omega) (by omega) (Or.inr (by omega))))

/-- **Local linear independence**: a combination of the basis functions of a span that is the zero polynomial has zero
    coefficients. -/
theorem local_indep {k : ℕ → K} {s : ℕ} : ∀ p, p ≤ s → (∀ i j, i ≤ s → s < j → j ≤ s + p → k j ≠ k i) →
    ∀ c : ℕ → K, ((Finset.range (s + 1)).sum fun i => C (c i) * spanPoly k s p i) = 0 →
      ∀ i, i ≤ s → s ≤ i + p → c i = 0
  | 0, _, _, c, h, i, h1, h2 => by
    have hi : i = s := by omega
    rw [Finset.sum_eq_single s] at h
    · rw [spanPoly, if_pos rfl, mul_one] at h
      rw [hi]; exact C_eq_zero.1 h
    · intro b _ hb; rw [spanPoly, if_neg hb, mul_zero]
    · intro hs; exact absurd (Finset.mem_range.2 (by omega)) hs
  | p + 1, hp, hk, c, h, i, h1, h2 => by
    have hd := congrArg derivative h
    rw [derivative_sum, derivative_zero] at hd
    have e : ∀ i ∈ Finset.range (s + 1), derivative (C (c i) * spanPoly k s (p + 1) i) =
        C ((p : K) + 1) * (C (c i) * divPoly k s p i - C (c i) * divPoly k s p (i + 1)) := by
      intro i _
      rw [derivative_mul, derivative_C, zero_mul, zero_add, spanPoly_derivative p i hk]; ring
    rw [Finset.sum_congr rfl e, ← Finset.mul_sum, Finset.sum_sub_distrib] at hd
    have hp1 : C ((p : K) + 1) ≠ 0 := by
      rw [Ne, C_eq_zero]; positivity
    have hd' := (mul_eq_zero.1 hd).resolve_left hp1
    have z0 : divPoly k s p 0 = 0 := by rw [divPoly, spanPoly_zero_left _ _ _ _ (by omega), mul_zero]
    have z1 : divPoly k s p (s + 1) = 0 := by rw [divPoly, spanPoly_zero_right _ _ _ _ (by omega), mul_zero]
    have hsum : ((Finset.range (s + 1)).sum fun i => C ((c i - c (i - 1)) * (k (i + p + 1) - k i)⁻¹) * spanPoly k s p i) = 0 := by
      rw [← hd', Finset.sum_range_succ' _ s, Finset.sum_range_succ' (fun i => C (c i) * divPoly k s p i) s,
        Finset.sum_range_succ (fun i => C (c i) * divPoly k s p (i + 1)) s, z0, z1,
        spanPoly_zero_left k s p 0 (by omega)]
      simp only [mul_zero, add_zero]
      rw [← Finset.sum_sub_distrib]
      apply Finset.sum_congr rfl
      intro i _
      rw [divPoly, C_mul, C_sub, Nat.add_sub_cancel]; ring
    have ih := local_indep p (by omega) (fun i j a b d => hk i j a b (by omega)) _ hsum
    have hstep : ∀ j, j ≤ s → s ≤ j + p → c j = c (j - 1) := by
      intro j h1 h2
      have := (mul_eq_zero.1 (ih j h1 h2)).resolve_right
        (inv_ne_zero (sub_ne_zero.2 (hk _ _ h1 (by omega) (by omega))))
      exact sub_eq_zero.1 this
    have hall : ∀ r, r ≤ p + 1 → c (s - r) = c s := by
      intro r
      induction r with
      | zero => intro _; rfl
      | succ r ihr =>
        intro hr
        rw [← ihr (by omega), hstep (s - r) (by omega) (by omega)]
        congr 1
    have hone : (Finset.range (s + 1)).sum (fun i => spanPoly k s (p + 1) i) = 1 := by
      apply Polynomial.funext
      intro u
      rw [eval_finset_sum, eval_one]
      simp only [spanPoly_eval]
      have := sum_NS_window (k := k) (p := p + 1) (m := s + 1) (fun _ => (1 : K)) (u := u) (s := s) hp (by omega)
      simp only [smul_eq_mul, mul_one] at this
      rw [this]
      exact NS_sum_eq_one u (p + 1) hp hk
    have hcs : C (c s) = 0 := by
      rw [← mul_one (C (c s)), ← hone, Finset.mul_sum, ← h]
      apply Finset.sum_congr rfl
      intro i hi
      have hi' := Finset.mem_range.1 hi
      by_cases hs : s ≤ i + (p + 1)
      · have := hall (s - i) (by omega)
        rw [show s - (s - i) = i by omega] at this
        rw [this]
      · rw [spanPoly_zero_left _ _ _ _ (by omega), mul_zero, mul_zero]
    have := hall (s - i) (by omega)
    rw [show s - (s - i) = i by omega] at this
    rw [this]; exact C_eq_zero.1 hcs

/-- A spline with a nonzero coefficient at a span is not zero on any interval of the span. -/
theorem exists_ne_zero {v : ℕ → K} {a b : K} {p n s i : ℕ} {P : ℕ → K} (h : Knots v a b p n) (hps : p ≤ s) (hsn : s ≤ n)
    (hi : i ≤ s) (hi' : s ≤ i + p) (hP : P i ≠ 0) {x y : K} (hxy : x < y) (hx : v s ≤ x) (hy : y ≤ v (s + 1)) :
    ∃ u, x < u ∧ u < y ∧ spl v b p n P u ≠ 0 := by
  have hlt : v s < v (s + 1) := lt_of_le_of_lt hx (lt_of_lt_of_le hxy hy)
  have hk : ∀ i j, i ≤ s → s < j → j ≤ s + p → v j ≠ v i := by
    intro i j h1 h2 h3
    have e1 := h.mono i s h1 (by omega)
    have e2 := h.mono (s + 1) j (by omega) (by omega)
    exact (lt_of_le_of_lt e1 (lt_of_lt_of_le hlt e2)).ne'
  have hpoly : ((Finset.range (s + 1)).sum fun i => C (P i) * spanPoly v s p i) ≠ 0 := fun h0 =>
    hP (local_indep p hps hk P h0 i hi hi')
  have hfin := Polynomial.rootSet_finite ((Finset.range (s + 1)).sum fun i => C (P i) * spanPoly v s p i) K
  obtain ⟨u, hu, hnr⟩ := (Set.Ioo_infinite hxy).exists_notMem_finite hfin
  refine ⟨u, hu.1, hu.2, fun h0 => hnr ?_⟩
  rw [Polynomial.mem_rootSet]
  refine ⟨hpoly, ?_⟩
  rw [Polynomial.coe_aeval_eq_eval, eval_finset_sum]
  have hb : v (s + 1) ≤ b := by rw [← h.hi]; exact h.mono _ _ (by omega) (by omega)
  have hin : InSpan v b u s := by
    rw [InSpan, if_neg (lt_of_lt_of_le hu.2 (le_trans hy hb)).ne]
    exact ⟨le_trans hx hu.1.le, lt_of_lt_of_le hu.2 hy⟩
  rw [← h0]
  have e1 : spl v b p n P u = (Finset.range (n + 1)).sum fun t => NS v s p t u * P t := by
    apply Finset.sum_congr rfl
    intro t ht
    rw [N_eq_NS h.mono (by omega) hin _ _ (by have := Finset.mem_range.1 ht; omega)]
  rw [e1]
  have e2 : (Finset.range (s + 1)).sum (fun t => NS v s p t u * P t) = (Finset.range (n + 1)).sum fun t => NS v s p t u * P t := by
    apply Finset.sum_subset
    · intro t ht; simp at ht ⊢; omega
    · intro t _ ht
      simp at ht
      rw [NS_eq_zero_right v s u p t (by omega), zero_mul]
  rw [← e2]
  apply Finset.sum_congr rfl
  intro t _
  rw [eval_mul, eval_C, spanPoly_eval, mul_comm]

/-- `m` alternations of the sign of `g` at increasing parameters from `a` on, the last of them at `x`. -/
inductive Chain (g : K → K) (a : K) : ℕ → K → Prop
  | start {x : K} : a ≤ x → g x ≠ 0 → Chain g a 0 x
  | step {m : ℕ} {x y : K} : Chain g a m x → x < y → g x * g y < 0 → Chain g a (m + 1) y

theorem Chain.ne {g : K → K} {a x : K} {m : ℕ} (h : Chain g a m x) : g x ≠ 0 := by
  cases h with
  | start _ h => exact h
  | step _ _ h => intro h0; rw [h0, mul_zero] at h; exact lt_irrefl _ h

theorem Chain.move {g : K → K} {a x y : K} {m : ℕ} (h : Chain g a m x) (hxy : x < y) (hs : 0 < g x * g y) :
    Chain g a m y := by
  cases h with
  | start h1 h2 => exact .start (le_trans h1 hxy.le) fun h0 => by rw [h0, mul_zero] at hs; exact lt_irrefl _ hs
  | @step m w x h0 h1 h2 =>
    refine .step h0 (lt_trans h1 hxy) ?_
    rcases lt_or_gt_of_ne h0.ne with c | c
    · have := pos_of_mul_neg_right h2 c.le
      exact mul_neg_of_neg_of_pos c (pos_of_mul_pos_of_pos_left hs this.le)
    · have := neg_of_mul_neg_right h2 c.le
      exact mul_neg_of_pos_of_neg c (neg_of_mul_pos_of_neg hs this.le)
where
  pos_of_mul_pos_of_pos_left {x y : K} (h : 0 < x * y) (hx : 0 ≤ x) : 0 < y := (pos_iff_pos_of_mul_pos h).1
    (lt_of_le_of_ne hx fun e => by rw [← e, zero_mul] at h; exact lt_irrefl _ h)
  neg_of_mul_pos_of_neg {x y : K} (h : 0 < x * y) (hx : x ≤ 0) : y < 0 := by
    by_contra hc
    have := mul_nonpos_of_nonpos_of_nonneg hx (not_lt.1 hc)
    linarith

/-- The alternations as sequences. -/
theorem Chain.seq {g : K → K} {a x : K} {m : ℕ} (h : Chain g a m x) :
    ∃ (σ : K) (f : ℕ → K), (∀ j, j ≤ m → a ≤ f j ∧ f j ≤ x) ∧ f m = x ∧ (∀ j, j < m → f j < f (j + 1)) ∧
      ∀ j, j ≤ m → 0 < σ * (-1) ^ j * g (f j) := by
  induction h with
  | @start x h1 h2 =>
    refine ⟨g x, fun _ => x, fun j _ => ⟨h1, le_refl _⟩, rfl, fun j hj => by omega, fun j hj => ?_⟩
    rw [show j = 0 by omega, pow_zero, mul_one]
    exact mul_self_pos.2 h2
  | @step m x y h0 h1 h2 ih =>
    obtain ⟨σ, f, ha, hx, hf, hs⟩ := ih
    refine ⟨σ, fun j => if j ≤ m then f j else y, fun j hj => ?_, by simp, fun j hj => ?_, fun j hj => ?_⟩
    · by_cases c : j ≤ m
      · simp only [if_pos c]; exact ⟨(ha j c).1, le_trans (ha j c).2 h1.le⟩
      · simp only [if_neg c]
        exact ⟨le_trans (ha m (le_refl _)).1 (le_trans (ha m (le_refl _)).2 h1.le), le_refl _⟩
    · by_cases c : j + 1 ≤ m
      · simp only [if_pos c, if_pos (show j ≤ m by omega)]; exact hf j (by omega)
      · simp only [if_neg c, if_pos (show j ≤ m by omega)]
        rw [show j = m by omega, hx]; exact h1
    · by_cases c : j ≤ m
      · simp only [if_pos c]; exact hs j c
      · simp only [if_neg c]
        rw [show j = m + 1 by omega, pow_succ]
        have := hs m (le_refl _)
        rw [hx] at this
        have key : σ * (-1) ^ m * g y < 0 := by
          by_contra hc
          nlinarith [mul_nonneg (not_lt.1 hc) (sq_nonneg (g x)), mul_pos this (neg_pos.2 h2)]
        have e2 : σ * ((-1) ^ m * -1) * g y = - (σ * (-1) ^ m * g y) := by ring
        rw [e2]; linarith

/-- A chain of values of a spline of which only the coefficients from `c` to `d` are not zero has at most `d - c`
    alternations. -/
theorem Chain.le {v : ℕ → K} {a b x : K} {p n m c d : ℕ} {P : ℕ → K} (h : Knots v a b p n) (hp : 1 ≤ p)
    (hP : ∀ j, j ≤ n → P j ≠ 0 → c ≤ j ∧ j ≤ d) (hc : Chain (spl v b p n P) a m x) (hx : x ≤ b) : m ≤ d - c := by
  obtain ⟨σ, f, ha, _, hf, hs⟩ := hc.seq
  obtain ⟨φ, h1, h2, h3⟩ := Alt.of_values h hp (fun j hj => ⟨(ha j hj).1, le_trans (ha j hj).2 hx⟩) hf hs
  have hne : ∀ j, j ≤ m → P (φ j) ≠ 0 := by
    intro j hj h0
    have := h3 j hj
    rw [h0, mul_zero] at this
    exact lt_irrefl _ this
  have hgrow : ∀ j, j ≤ m → c + j ≤ φ j := by
    intro j
    induction j with
    | zero => intro hj; exact (hP _ (h1 0 hj) (hne 0 hj)).1
    | succ j ih =>
      intro hj
      have := ih (by omega)
      have := h2 j (by omega)
      omega
  have := hgrow m (le_refl _)
  have := (hP _ (h1 m (le_refl _)) (hne m (le_refl _))).2
  omega

/-- A positive number below finitely many positive ones. -/
theorem exists_below (f : ℕ → K) : ∀ m, (∀ i, i ≤ m → 0 < f i) → ∃ e, 0 < e ∧ ∀ i, i ≤ m → e < f i
  | 0, h => ⟨f 0 / 2, half_pos (h 0 (le_refl _)), fun i hi => by
      rw [show i = 0 by omega]; exact half_lt_self (h 0 (le_refl _))⟩
  | m + 1, h => by
    obtain ⟨e, he, hf⟩ := exists_below f m fun i hi => h i (by omega)
    have hm := h (m + 1) (le_refl _)
    refine ⟨min e (f (m + 1) / 2), lt_min he (half_pos hm), fun i hi => ?_⟩
    by_cases c : i ≤ m
    · exact lt_of_le_of_lt (min_le_left _ _) (hf i c)
    · rw [show i = m + 1 by omega]
      exact lt_of_le_of_lt (min_le_right _ _) (half_lt_self hm)

/-- **The theorem of Schoenberg and Whitney.** A spline with vanishing end coefficients that is zero at increasing parameters
    inside the supports of the inner basis functions is zero. -/
theorem whitney {v : ℕ → K} {a b : K} {p n : ℕ} {P : ℕ → K} (h : Knots v a b p n) (hp : 1 ≤ p) {τ : ℕ → K}
    (hτ : ∀ j, j < n → τ j < τ (j + 1)) (ha : a ≤ τ 0) (hb : τ n ≤ b)
    (hin : ∀ j, 0 < j → j < n → v j < τ j ∧ τ j < v (j + p + 1)) (h0 : P 0 = 0) (hn : P n = 0)
    (hz : ∀ j, 0 < j → j < n → spl v b p n P (τ j) = 0) : ∀ j, j ≤ n → P j = 0 := by
  have hτm : ∀ i j, i < j → j ≤ n → τ i < τ j := by
    intro i j hij
    induction j, hij using Nat.le_induction with
    | base => intro hj; exact hτ i (by omega)
    | succ j hj ih => intro hjm; exact lt_trans (ih (by omega)) (hτ j (by omega))
  by_contra hcon
  push Not at hcon
  -- the first nonzero coefficient
  classical
  let c := Nat.find hcon
  obtain ⟨hcn, hc⟩ : c ≤ n ∧ P c ≠ 0 := Nat.find_spec hcon
  have hbefore : ∀ j, j < c → P j = 0 := by
    intro j hj
    by_contra h'
    exact Nat.find_min hcon hj ⟨by omega, h'⟩
  -- the end of the first run of coefficients
  have hrun : ∃ d, c ≤ d ∧ d ≤ n ∧ P d ≠ 0 ∧ ∀ j, d < j → j ≤ d + p → j ≤ n → P j = 0 := by
    by_contra hc'
    push Not at hc'
    have : ∀ r, ∃ d, c + r ≤ d ∧ d ≤ n ∧ P d ≠ 0 := by
      intro r
      induction r with
      | zero => exact ⟨c, by omega, hcn, hc⟩
      | succ r ih =>
        obtain ⟨d, d1, d2, d3⟩ := ih
        obtain ⟨j, j1, _, j3, j4⟩ := hc' d (by omega) d2 d3
        exact ⟨j, by omega, j3, j4⟩
    obtain ⟨d, d1, d2, _⟩ := this (n + 1)
    omega
  let d := Nat.find hrun
  obtain ⟨hcd, hdn, hd, hafter⟩ : c ≤ d ∧ d ≤ n ∧ P d ≠ 0 ∧ ∀ j, d < j → j ≤ d + p → j ≤ n → P j = 0 := Nat.find_spec hrun
  have hmore : ∀ e, c ≤ e → e < d → P e ≠ 0 → ∃ j, e < j ∧ j ≤ e + p ∧ j ≤ n ∧ P j ≠ 0 := by
    intro e e1 e2 e3
    have := Nat.find_min hrun e2
    push Not at this
    exact this e1 (by omega) e3
  have hc0 : 0 < c := Nat.pos_of_ne_zero fun e => hc (by rw [e]; exact h0)
  have hdn' : d < n := lt_of_le_of_ne hdn fun e => hd (by rw [e]; exact hn)
  -- every window of the run has a nonzero coefficient
  have hwin : ∀ s, c ≤ s → s ≤ d + p → ∃ i, i ≤ s ∧ s ≤ i + p ∧ c ≤ i ∧ i ≤ d ∧ P i ≠ 0 := by
    intro s hs1 hs2
    by_cases hsd : d ≤ s
    · exact ⟨d, hsd, hs2, hcd, le_refl _, hd⟩
    · -- the last nonzero coefficient up to s
      have key : ∀ q, c + q ≤ s → ∃ i, c ≤ i ∧ i ≤ c + q ∧ c + q ≤ i + p ∧ P i ≠ 0 := by
        intro q
        induction q with
        | zero => intro _; exact ⟨c, by omega, by omega, by omega, hc⟩
        | succ q ih =>
          intro hq
          obtain ⟨i, i1, i2, i3, i4⟩ := ih (by omega)
          by_cases hlast : c + (q + 1) ≤ i + p
          · exact ⟨i, i1, by omega, hlast, i4⟩
          · by_cases hex : ∃ j, i < j ∧ j ≤ c + (q + 1) ∧ P j ≠ 0
            · obtain ⟨j, j1, j2, j3⟩ := hex
              exact ⟨j, by omega, j2, by omega, j3⟩
            · exfalso
              push Not at hex
              obtain ⟨j, j1, j2, _, j4⟩ := hmore i i1 (by omega) i4
              exact j4 (hex j j1 (by omega))
      obtain ⟨i, i1, i2, i3, i4⟩ := key (s - c) (by omega)
      exact ⟨i, by omega, by omega, i1, by omega, i4⟩
  -- the part of the spline that belongs to the run
  let A : ℕ → K := fun j => if c ≤ j ∧ j ≤ d then P j else 0
  let B : ℕ → K := fun j => if c ≤ j ∧ j ≤ d then 1 else 0
  have hAP : ∀ j, j ≤ d + p → j ≤ n → A j = P j := by
    intro j j1 j2
    by_cases hj : c ≤ j ∧ j ≤ d
    · simp only [A, if_pos hj]
    · simp only [A, if_neg hj]
      by_cases hj' : c ≤ j
      · rw [hafter j (by omega) j1 j2]
      · rw [hbefore j (by omega)]
  -- lower and upper end of the support of the run in the domain
  have lo1 : a < τ c := lt_of_le_of_lt ha (hτm 0 c hc0 hcn)
  have hi1 : τ d < b := lt_of_lt_of_le (hτm d n hdn' (le_refl _)) hb
  have inD : ∀ i, c ≤ i → i ≤ d → a < τ i ∧ τ i < b := by
    intro i i1 i2
    constructor
    · rcases Nat.eq_or_lt_of_le i1 with e | e
      · rw [← e]; exact lo1
      · exact lt_trans lo1 (hτm c i e (by omega))
    · rcases Nat.eq_or_lt_of_le i2 with e | e
      · rw [e]; exact hi1
      · exact lt_trans (hτm i d e (by omega)) hi1
  -- nonzero values in every interval
  have hdense : ∀ x y, x < y → a ≤ x → v c ≤ x → y ≤ b → y ≤ v (d + p + 1) → ∃ u, x < u ∧ u < y ∧ spl v b p n A u ≠ 0 := by
    intro x y hxy hax hcx hyb hyd
    obtain ⟨s, s1, s2, s3⟩ := h.inSpan hax (le_trans hxy.le hyb)
    rw [InSpan, if_neg (lt_of_lt_of_le hxy hyb).ne] at s3
    have hcs : c ≤ s := by
      by_contra hcc
      have := h.mono (s + 1) c (by omega) (by omega)
      exact absurd s3.2 (not_lt.2 (le_trans this hcx))
    have hsd : s ≤ d + p := by
      by_contra hcc
      have := h.mono (d + p + 1) s (by omega) (by omega)
      exact absurd hxy (not_lt.2 (le_trans hyd (le_trans this s3.1)))
    obtain ⟨i, i1, i2, i3, i4, i5⟩ := hwin s hcs hsd
    obtain ⟨u, u1, u2, u3⟩ := exists_ne_zero (P := A) h s1 s2 i1 i2
      (by simp only [A, if_pos (And.intro i3 i4)]; exact i5) (lt_min hxy s3.2) s3.1 (min_le_right _ _)
    exact ⟨u, u1, lt_of_lt_of_le u2 (min_le_left _ _), u3⟩
  -- spans and values at the parameters of the run
  have hval : ∀ i, c ≤ i → i ≤ d → spl v b p n A (τ i) = 0 ∧ 0 < spl v b p n B (τ i) := by
    intro i i1 i2
    obtain ⟨t1, t2⟩ := hin i (by omega) (by omega)
    obtain ⟨t3, t4⟩ := inD i i1 i2
    obtain ⟨s, s1, s2, s3⟩ := h.inSpan t3.le t4.le
    have hNS : ∀ t, t ≤ n → N v b p t (τ i) = NS v s p t (τ i) := fun t ht =>
      N_eq_NS h.mono (by omega) s3 _ _ (by omega)
    rw [InSpan, if_neg t4.ne] at s3
    have his : i ≤ s := by
      by_contra hcc
      have := h.mono (s + 1) i (by omega) (by omega)
      exact absurd s3.2 (not_lt.2 (le_trans this t1.le))
    have hsi : s ≤ i + p := by
      by_contra hcc
      have := h.mono (i + p + 1) s (by omega) (by omega)
      exact absurd t2 (not_lt.2 (le_trans this s3.1))
    constructor
    · rw [← hz i (by omega) (by omega)]
      apply Finset.sum_congr rfl
      intro t ht
      have ht' := Finset.mem_range.1 ht
      by_cases hts : t ≤ s
      · rw [hAP t (by omega) (by omega)]
      · rw [hNS t (by omega), NS_eq_zero_right _ _ _ _ _ (by omega), zero_mul, zero_mul]
    · apply Finset.sum_pos'
      · intro t ht
        have ht' := Finset.mem_range.1 ht
        rw [hNS t (by omega)]
        apply mul_nonneg (NS_nonneg h.mono s3.1 s3.2.le p t (by omega))
        simp only [B]; split_ifs <;> simp
      · refine ⟨i, Finset.mem_range.2 (by omega), ?_⟩
        rw [hNS i (by omega)]
        simp only [B, if_pos (And.intro i1 i2), mul_one]
        exact NS_pos h.mono s3.1 s3.2 p i (by omega) his hsi (Or.inl t1)
  have hB1 : ∀ u, a ≤ u → u ≤ b → 0 ≤ spl v b p n B u ∧ spl v b p n B u ≤ 1 := by
    intro u u1 u2
    obtain ⟨s, s1, s2, s3⟩ := h.inSpan u1 u2
    have hNS : ∀ t, t ≤ n → N v b p t u = NS v s p t u := fun t ht => N_eq_NS h.mono (by omega) s3 _ _ (by omega)
    have hlt := Curve.inSpan_lt s3
    obtain ⟨e1, e2⟩ := inSpan_le s3
    have hnn : ∀ t, t ≤ n → 0 ≤ NS v s p t u := fun t ht => NS_nonneg h.mono e1 e2 p t (by omega)
    have hone : ((Finset.range (n + 1)).sum fun t => NS v s p t u) = 1 := by
      have := sum_NS_window (k := v) (p := p) (m := n + 1) (fun _ => (1 : K)) (u := u) (s := s) s1 (by omega)
      simp only [smul_eq_mul, mul_one] at this
      rw [this]
      refine NS_sum_eq_one u p s1 fun i j h1 h2 h3 => ?_
      have e1 := h.mono i s h1 (by omega)
      have e2 := h.mono (s + 1) j (by omega) (by omega)
      exact (lt_of_le_of_lt e1 (lt_of_lt_of_le hlt e2)).ne'
    constructor
    · apply Finset.sum_nonneg
      intro t ht
      have ht' := Finset.mem_range.1 ht
      rw [hNS t (by omega)]
      apply mul_nonneg (hnn t (by omega))
      simp only [B]; split_ifs <;> simp
    · rw [← hone]
      apply Finset.sum_le_sum
      intro t ht
      have ht' := Finset.mem_range.1 ht
      rw [hNS t (by omega)]
      have := hnn t (by omega)
      simp only [B]; split_ifs <;> simp [this]
  -- the parameters between
  let left : ℕ → K := fun i => if i = 0 then max a (v c) else τ (c + i - 1)
  let right : ℕ → K := fun i => if c + i ≤ d then τ (c + i) else min b (v (d + p + 1))
  have hvc : v c < τ c ∧ τ c < v (c + p + 1) := hin c hc0 (by omega)
  have hvd : v d < τ d ∧ τ d < v (d + p + 1) := hin d (by omega) hdn'
  have hgap : ∀ i, i ≤ d - c + 1 → ∃ u, left i < u ∧ u < right i ∧ spl v b p n A u ≠ 0 := by
    intro i hi
    have hl : a ≤ left i ∧ v c ≤ left i := by
      by_cases h' : i = 0
      · simp only [left, if_pos h']; exact ⟨le_max_left _ _, le_max_right _ _⟩
      · simp only [left, if_neg h']
        refine ⟨(inD _ (by omega) (by omega)).1.le, ?_⟩
        rcases Nat.eq_or_lt_of_le (show c ≤ c + i - 1 by omega) with e | e
        · rw [← e]; exact hvc.1.le
        · exact (lt_trans hvc.1 (hτm c _ e (by omega))).le
    have hr : right i ≤ b ∧ right i ≤ v (d + p + 1) := by
      by_cases h' : c + i ≤ d
      · simp only [right, if_pos h']
        refine ⟨(inD _ (by omega) h').2.le, ?_⟩
        rcases Nat.eq_or_lt_of_le h' with e | e
        · rw [e]; exact hvd.2.le
        · exact (lt_trans (hτm _ d e (by omega)) hvd.2).le
      · simp only [right, if_neg h']; exact ⟨min_le_left _ _, min_le_right _ _⟩
    have hlr : left i < right i := by
      by_cases h1 : i = 0
      · by_cases h2 : c + i ≤ d
        · simp only [left, right, if_pos h1, if_pos h2]
          rw [h1, Nat.add_zero]; exact max_lt lo1 hvc.1
        · omega
      · by_cases h2 : c + i ≤ d
        · simp only [left, right, if_neg h1, if_pos h2]
          exact hτm _ _ (by omega) (by omega)
        · simp only [left, right, if_neg h1, if_neg h2]
          rw [show c + i - 1 = d by omega]
          exact lt_min hi1 hvd.2
    exact hdense _ _ hlr hl.1 hl.2 hr.1 hr.2
  have hgap' : ∀ i, ∃ u, i ≤ d - c + 1 → left i < u ∧ u < right i ∧ spl v b p n A u ≠ 0 := by
    intro i
    by_cases hi : i ≤ d - c + 1
    · obtain ⟨u, hu⟩ := hgap i hi; exact ⟨u, fun _ => hu⟩
    · exact ⟨0, fun h => absurd h hi⟩
  choose y hy using hgap'
  have hya : ∀ i, i ≤ d - c + 1 → a ≤ y i ∧ y i ≤ b := by
    intro i hi
    obtain ⟨y1, y2, _⟩ := hy i hi
    constructor
    · refine le_trans ?_ y1.le
      by_cases h' : i = 0
      · simp only [left, if_pos h']; exact le_max_left _ _
      · simp only [left, if_neg h']; exact (inD _ (by omega) (by omega)).1.le
    · refine le_trans y2.le ?_
      by_cases h' : c + i ≤ d
      · simp only [right, if_pos h']; exact (inD _ (by omega) h').2.le
      · simp only [right, if_neg h']; exact min_le_left _ _
  have hyτ : ∀ i, i ≤ d - c → y i < τ (c + i) ∧ τ (c + i) < y (i + 1) := by
    intro i hi
    constructor
    · have := (hy i (by omega)).2.1
      simp only [right, if_pos (show c + i ≤ d by omega)] at this
      exact this
    · have := (hy (i + 1) (by omega)).1
      simp only [left, if_neg (show ¬ i + 1 = 0 by omega)] at this
      exact this
  obtain ⟨ε, hε, hεy⟩ := exists_below (fun i => |spl v b p n A (y i)|) (d - c + 1)
    fun i hi => abs_pos.2 (hy i hi).2.2
  -- the two perturbed splines
  have hlin : ∀ (e u : K), spl v b p n (fun j => A j + e * B j) u = spl v b p n A u + e * spl v b p n B u := by
    intro e u
    rw [spl, spl, spl, Finset.mul_sum, ← Finset.sum_add_distrib]
    apply Finset.sum_congr rfl
    intro t _; ring
  have hsign : ∀ i, i ≤ d - c + 1 → ∀ e : K, e = ε ∨ e = -ε →
      0 < spl v b p n A (y i) * spl v b p n (fun j => A j + e * B j) (y i) := by
    intro i hi e he
    rw [hlin]
    obtain ⟨b0, b1⟩ := hB1 (y i) (hya i hi).1 (hya i hi).2
    have hlt := hεy i hi
    generalize spl v b p n A (y i) = α at *
    generalize spl v b p n B (y i) = β at *
    have hβ : ε * β ≤ ε := by nlinarith
    have hβ0 : 0 ≤ ε * β := mul_nonneg hε.le b0
    rcases lt_abs.1 hlt with h' | h'
    · have hα : 0 < α := lt_trans hε h'
      apply mul_pos hα
      rcases he with rfl | rfl <;> nlinarith
    · have hα : α < 0 := by linarith
      apply mul_pos_of_neg_of_neg hα
      rcases he with rfl | rfl <;> nlinarith
  -- same and opposite signs
  have hcount : ∀ i, i ≤ d - c + 1 → ∃ q r, 2 * i ≤ q + r ∧
      Chain (spl v b p n (fun j => A j + ε * B j)) a q (y i) ∧ Chain (spl v b p n (fun j => A j + (-ε) * B j)) a r (y i) := by
    intro i
    induction i with
    | zero =>
      intro hi
      refine ⟨0, 0, by omega, .start (hya 0 hi).1 ?_, .start (hya 0 hi).1 ?_⟩
      · exact right_ne_zero_of_mul (hsign 0 hi ε (Or.inl rfl)).ne'
      · exact right_ne_zero_of_mul (hsign 0 hi (-ε) (Or.inr rfl)).ne'
    | succ i ih =>
      intro hi
      obtain ⟨q, r, hqr, hq, hr⟩ := ih (by omega)
      obtain ⟨yt, ty⟩ := hyτ i (by omega)
      have hyy := lt_trans yt ty
      have s1 := hsign i (by omega) ε (Or.inl rfl)
      have s2 := hsign i (by omega) (-ε) (Or.inr rfl)
      have s3 := hsign (i + 1) hi ε (Or.inl rfl)
      have s4 := hsign (i + 1) hi (-ε) (Or.inr rfl)
      obtain ⟨z1, z2⟩ := hval (c + i) (by omega) (by omega)
      have g1 : 0 < spl v b p n (fun j => A j + ε * B j) (τ (c + i)) := by
        rw [hlin, z1, zero_add]; exact mul_pos hε z2
      have g2 : spl v b p n (fun j => A j + (-ε) * B j) (τ (c + i)) < 0 := by
        rw [hlin, z1, zero_add]; nlinarith [mul_pos hε z2]
      rcases lt_or_gt_of_ne (hy i (by omega)).2.2 with α | α <;> rcases lt_or_gt_of_ne (hy (i + 1) hi).2.2 with α' | α'
      · -- both negative
        have p1 := neg_of_mul_pos_right s1 α.le
        have p2 := neg_of_mul_pos_right s2 α.le
        have p3 := neg_of_mul_pos_right s3 α'.le
        have p4 := neg_of_mul_pos_right s4 α'.le
        exact ⟨q + 1 + 1, r, by omega, (hq.step yt (mul_neg_of_neg_of_pos p1 g1)).step ty (mul_neg_of_pos_of_neg g1 p3),
          hr.move hyy (mul_pos_of_neg_of_neg p2 p4)⟩
      · have p1 := neg_of_mul_pos_right s1 α.le
        have p2 := neg_of_mul_pos_right s2 α.le
        have p3 := (pos_iff_pos_of_mul_pos s3).1 α'
        have p4 := (pos_iff_pos_of_mul_pos s4).1 α'
        exact ⟨q + 1, r + 1, by omega, hq.step hyy (mul_neg_of_neg_of_pos p1 p3),
          hr.step hyy (mul_neg_of_neg_of_pos p2 p4)⟩
      · have p1 := (pos_iff_pos_of_mul_pos s1).1 α
        have p2 := (pos_iff_pos_of_mul_pos s2).1 α
        have p3 := neg_of_mul_pos_right s3 α'.le
        have p4 := neg_of_mul_pos_right s4 α'.le
        exact ⟨q + 1, r + 1, by omega, hq.step hyy (mul_neg_of_pos_of_neg p1 p3),
          hr.step hyy (mul_neg_of_pos_of_neg p2 p4)⟩
      · have p1 := (pos_iff_pos_of_mul_pos s1).1 α
        have p2 := (pos_iff_pos_of_mul_pos s2).1 α
        have p3 := (pos_iff_pos_of_mul_pos s3).1 α'
        have p4 := (pos_iff_pos_of_mul_pos s4).1 α'
        exact ⟨q, r + 1 + 1, by omega, hq.move hyy (mul_pos p1 p3),
          (hr.step yt (mul_neg_of_pos_of_neg p2 g2)).step ty (mul_neg_of_neg_of_pos g2 p4)⟩
  obtain ⟨q, r, hqr, hq, hr⟩ := hcount (d - c + 1) (le_refl _)
  have hsupp : ∀ e : K, ∀ j, j ≤ n → A j + e * B j ≠ 0 → c ≤ j ∧ j ≤ d := by
    intro e j _ hne
    by_contra hj
    exact hne (by simp only [A, B, if_neg hj, mul_zero, add_zero])
  have b1 := hq.le h hp (hsupp ε) (hya _ (le_refl _)).2
  have b2 := hr.le h hp (hsupp (-ε)) (hya _ (le_refl _)).2
  omega

end Curvo.Spec

/-
  C94: a curve is as often differentiable as its knot multiplicities allow.
-/
import Mathlib.Analysis.Calculus.ContDiff.Operations
import Mathlib.Analysis.Calculus.IteratedDeriv.Lemmas
import Mathlib.Analysis.Calculus.Deriv.Abs
import Verif.Props.CurveDeriv
import Verif.Props.PeriodicUnique

set_option linter.unusedSectionVars false

namespace Curvo.Props

open Polynomial Curvo.Knots Curvo.Spec Curvo.Curve Curvo.Interp

section glue
variable {V : Type} [NormedAddCommGroup V] [NormedSpace ℝ V]

theorem hasDerivWithinAt_cover {f : ℝ → V} {f' : V} {S : ℕ → Set ℝ} {t : ℝ} : ∀ N,
    (∀ i, i < N → HasDerivWithinAt f f' (S i) t) → HasDerivWithinAt f f' (⋃ i ∈ Finset.range N, S i) t := by
  intro N
  induction N with
  | zero => intro _; simp [hasDerivWithinAt_iff_tendsto]
  | succ N ih =>
    intro h
    rw [Finset.range_add_one, Finset.set_biUnion_insert]
    exact (h N (by omega)).union (ih fun i hi => h i (by omega))

theorem continuousWithinAt_cover {f : ℝ → V} {S : ℕ → Set ℝ} {t : ℝ} : ∀ N,
    (∀ i, i < N → ContinuousWithinAt f (S i) t) → ContinuousWithinAt f (⋃ i ∈ Finset.range N, S i) t := by
  intro N
  induction N with
  | zero => intro _; simp [ContinuousWithinAt]
  | succ N ih =>
    intro h
    rw [Finset.range_add_one, Finset.set_biUnion_insert]
    exact (h N (by omega)).union (ih fun i hi => h i (by omega))

/-- Functions glued from smooth pieces on closed sets whose derivatives fit together. -/
theorem glue_contDiff {D : ℕ → ℝ → V} {F : ℕ → ℕ → ℝ → V} {S : ℕ → Set ℝ} {N r : ℕ} {a b : ℝ} (hab : a < b)
    (hcl : ∀ i, i < N → IsClosed (S i)) (hcov : Set.Icc a b ⊆ ⋃ i ∈ Finset.range N, S i)
    (hF : ∀ i, i < N → ∀ n t, HasDerivAt (F i n) (F i (n + 1) t) t)
    (hD : ∀ i, i < N → ∀ n, n ≤ r → ∀ t ∈ S i, D n t = F i n t) :
    ContDiffOn ℝ r (D 0) (Set.Icc a b) ∧ ∀ n, n ≤ r → ∀ t ∈ Set.Icc a b, iteratedDerivWithin n (D 0) (Set.Icc a b) t = D n t := by
  have hderiv : ∀ n, n < r → ∀ t, t ∈ Set.Icc a b → HasDerivWithinAt (D n) (D (n + 1) t) (Set.Icc a b) t := by
    intro n hn t ht
    refine (hasDerivWithinAt_cover N fun i hi => ?_).mono hcov
    by_cases hm : t ∈ S i
    · rw [hD i hi (n + 1) (by omega) t hm]
      exact (hF i hi n t).hasDerivWithinAt.congr (fun x hx => hD i hi n (by omega) x hx) (hD i hi n (by omega) t hm)
    · exact HasFDerivWithinAt.of_notMem_closure (by rwa [(hcl i hi).closure_eq])
  have hcont : ∀ n, n ≤ r → ContinuousOn (D n) (Set.Icc a b) := by
    intro n hn t ht
    refine (continuousWithinAt_cover N fun i hi => ?_).mono hcov
    by_cases hm : t ∈ S i
    · exact (hF i hi n t).continuousAt.continuousWithinAt.congr (fun x hx => hD i hi n hn x hx) (hD i hi n hn t hm)
    · exact continuousWithinAt_of_notMem_closure (by rwa [(hcl i hi).closure_eq])
  have hit : ∀ n, n ≤ r → ∀ t ∈ Set.Icc a b, iteratedDerivWithin n (D 0) (Set.Icc a b) t = D n t := by
    intro n
    induction n with
    | zero => intro _ t _; simp
    | succ n ih =>
      intro hn t ht
      rw [iteratedDerivWithin_succ, derivWithin_congr (fun x hx => ih (by omega) x hx) (ih (by omega) t ht)]
      exact (hderiv n (by omega) t ht).derivWithin (uniqueDiffOn_Icc hab t ht)
  refine ⟨?_, hit⟩
  refine contDiffOn_of_continuousOn_differentiableOn_deriv (n := (r : ℕ∞)) ?_ ?_
  · intro m hm
    have hm' : m ≤ r := by exact_mod_cast hm
    exact (hcont m hm').congr fun t ht => hit m hm' t ht
  · intro m hm
    have hm' : m < r := by exact_mod_cast hm
    exact fun t ht => ((hderiv m hm' t ht).differentiableWithinAt).congr (fun x hx => hit m hm'.le x hx) (hit m hm'.le t ht)

end glue

section join
variable {K : Type} [Field K] [LinearOrder K] [IsStrictOrderedRing K]

/-- At a knot of multiplicity `s₁ - s` the derivatives of order up to the degree less the multiplicity agree. -/
theorem spanPoly_join_mult {k : ℕ → K} {m : ℕ} (hk : MonoUpTo k m) {s s₁ p n : ℕ} {u : K} (hlt : s < s₁)
    (hm : ∀ j, s < j → j ≤ s₁ → k j = u) (hl : k s < u) (hr : u < k (s₁ + 1)) (hn : n ≤ p) (hs : s₁ ≤ s + (p - n))
    (hlen : s₁ + p ≤ m) (i : ℕ) :
    (derivative^[n] (spanPoly k s p i)).eval u = (derivative^[n] (spanPoly k s₁ p i)).eval u := by
  have h1 : k s < k (s + 1) := by rw [hm (s + 1) (by omega) (by omega)]; exact hl
  have h2 : k s₁ < k (s₁ + 1) := by rw [hm s₁ hlt (le_refl _)]; exact hr
  rw [iterate_derivative_spanPoly p i (fun a b a1 a2 a3 => ne_across hk h1 a b a1 a2 (by omega)) n hn,
    iterate_derivative_spanPoly p i (fun a b a1 a2 a3 => ne_across hk h2 a b a1 a2 (by omega)) n hn]
  simp only [eval_mul, eval_C, eval_finsetSum, spanPoly_eval]
  congr 1
  apply Finset.sum_congr rfl
  intro j _
  rw [NS_cont (s := s) (s₁ := s₁) hlt hm hl.ne hr.ne' _ hs]

/-- The derivatives of a piece, as a sum over all control points. -/
theorem pieceDer_full {V : Type} [AddCommGroup V] [Module K V] {c : Curve K V} {s n : ℕ} {u : K} (hp : c.degree ≤ s)
    (hs : s < c.cps.length) :
    c.pieceDer s n u = (Finset.range c.cps.length).sum fun i =>
      (derivative^[n] (spanPoly (kf c.knots) s c.degree i)).eval u • c.cps.getD i 0 := by
  rw [pieceDer]
  have e2 : ((Finset.range (c.degree + 1)).sum fun r =>
        ((derivative^[n]) (spanPoly (kf c.knots) s c.degree (s - c.degree + r))).eval u • c.cps.getD (s - c.degree + r) 0) =
      ((Finset.Ico (s - c.degree) (s + 1)).sum fun i =>
        ((derivative^[n]) (spanPoly (kf c.knots) s c.degree i)).eval u • c.cps.getD i 0) := by
    rw [Finset.sum_Ico_eq_sum_range]
    congr 2; omega
  rw [e2]
  apply Finset.sum_subset
  · intro i hi
    have := Finset.mem_Ico.1 hi
    exact Finset.mem_range.2 (by omega)
  · intro i _ hi
    have : spanPoly (kf c.knots) s c.degree i = 0 := by
      rcases Nat.lt_or_ge i (s - c.degree) with h | h
      · exact spanPoly_zero_left _ _ _ _ (by omega)
      · exact spanPoly_zero_right _ _ _ _ (by by_contra h'; exact hi (Finset.mem_Ico.2 (by omega)))
    rw [this]; simp

end join

section real
variable {V W : Type} [NormedAddCommGroup V] [NormedSpace ℝ V] [NormedAddCommGroup W] [NormedSpace ℝ W]

/-- No knot inside of the domain is repeated more than `μ` times. -/
def MultAtMost (c : Curve ℝ V) (μ : ℕ) : Prop :=
  ∀ j, j + μ < c.knots.length → c.lo < kf c.knots j → kf c.knots (j + μ) < c.hi → kf c.knots j < kf c.knots (j + μ)

/-- **C94**: a curve of degree `p` whose inner knots have multiplicity at most `μ ≤ p` is `p - μ` times continuously differentiable
    over its whole domain, across the knots, and the derivatives of these orders returned by `derivatives` are its derivatives. -/
theorem C94_smooth {eps : ℝ} {c : Curve ℝ V} {μ : ℕ} (h : c.Good eps) (hμ : MultAtMost c μ) (hμp : μ ≤ c.degree) :
    ContDiffOn ℝ (c.degree - μ : ℕ) c.eval (Set.Icc c.lo c.hi) ∧
      ∀ m, m ≤ c.degree - μ → ∀ u ∈ Set.Icc c.lo c.hi, c.derivatives eps u m = .ok ((List.range (m + 1)).map fun n =>
        iteratedDerivWithin n c.eval (Set.Icc c.lo c.hi) u) := by
  have hg := h.good
  have hpos := h.cps_pos
  have hkl := h.knots_len
  have hhi : kf c.knots (c.cps.length - 1 + 1) = c.hi := by rw [Nat.sub_add_cancel hpos]; rfl
  have hab : c.lo < c.hi := lt_of_lt_of_le hg.first (hhi ▸ hg.mono _ _ (by have := hg.le; omega) (by omega))
  let D : ℕ → ℝ → V := fun n t => match c.derivatives eps t n with
    | .ok l => l.getD n 0
    | .error _ => 0
  have hDspan : ∀ n t s, c.lo ≤ t → t ≤ c.hi → s < c.cps.length → InSpan (kf c.knots) c.hi t s → D n t = c.pieceDer s n t := by
    intro n t s h1 h2 hs hin
    simp only [D, (derivatives_span h h1 h2 hs hin n).1]
    rw [List.getD_eq_getElem?_getD, vec, List.getElem?_map, List.getElem?_range (by omega)]
    rfl
  obtain ⟨S, hS⟩ : ∃ S : ℕ → Set ℝ, S = fun s =>
    if c.degree ≤ s ∧ kf c.knots s < kf c.knots (s + 1) then Set.Icc (kf c.knots s) (kf c.knots (s + 1)) else ∅ := ⟨_, rfl⟩
  have key := glue_contDiff (D := D) (F := fun s n t => c.pieceDer s n t) (S := S) (N := c.cps.length) (r := c.degree - μ) hab
    (by
      intro s _
      rw [hS]
      simp only []
      split_ifs
      · exact isClosed_Icc
      · exact isClosed_empty)
    (by
      intro t ht
      obtain ⟨s, _, hps, hsn, hin⟩ := h.exists_span ht.1 ht.2
      simp only [Set.mem_iUnion]
      refine ⟨s, Finset.mem_range.2 (by omega), ?_⟩
      rw [hS]
      simp only []
      rw [if_pos ⟨hps, inSpan_lt hin⟩]
      exact ⟨(Curve.inSpan_le hin).1, (Curve.inSpan_le hin).2⟩)
    (by
      intro s _ n t
      simp only [pieceDer]
      refine HasDerivAt.fun_sum fun r _ => ?_
      have := (derivative^[n] (spanPoly (kf c.knots) s c.degree (s - c.degree + r))).hasDerivAt t
      rw [← Function.iterate_succ_apply' derivative] at this
      exact this.smul_const _)
    (by
      intro s hs n hn t ht
      rw [hS] at ht
      simp only [] at ht
      split_ifs at ht with hc
      · obtain ⟨hps, hlt⟩ := hc
        have h1 : c.lo ≤ kf c.knots s := hg.mono _ _ hps (by omega)
        have h2 : kf c.knots (s + 1) ≤ c.hi := hhi ▸ hg.mono _ _ (by omega) (by omega)
        by_cases hts : InSpan (kf c.knots) c.hi t s
        · exact hDspan n t s (h1.trans ht.1) (ht.2.trans h2) hs hts
        · -- the right end of a span that is not the last one
          have htr : t = kf c.knots (s + 1) ∧ t < c.hi := by
            rw [InSpan] at hts
            split_ifs at hts with hb
            · exact absurd ⟨by rw [hb]; exact lt_of_lt_of_le hlt h2, ht.2⟩ hts
            · have : t = kf c.knots (s + 1) := le_antisymm ht.2 (not_lt.1 fun hlt' => hts ⟨ht.1, hlt'⟩)
              exact ⟨this, lt_of_le_of_ne (ht.2.trans h2) hb⟩
          obtain ⟨htk, hthi⟩ := htr
          obtain ⟨s₁, _, hps₁, hsn₁, hin₁⟩ := h.exists_span (h1.trans ht.1) (ht.2.trans h2)
          have hin₁' := hin₁
          rw [InSpan, if_neg hthi.ne] at hin₁'
          have hss : s < s₁ := by
            by_contra hge
            have := hg.mono (s₁ + 1) (s + 1) (by omega) (by omega)
            rw [← htk] at this
            exact absurd (lt_of_lt_of_le hin₁'.2 this) (lt_irrefl _)
          have hmid : ∀ j, s < j → j ≤ s₁ → kf c.knots j = t := by
            intro j j1 j2
            apply le_antisymm
            · exact (hg.mono j s₁ j2 (by omega)).trans hin₁'.1
            · rw [htk]; exact hg.mono _ _ j1 (by omega)
          have hmult : s₁ ≤ s + μ := by
            by_contra hgt
            have e1 := hmid (s + 1) (by omega) (by omega)
            have e2 := hmid (s + 1 + μ) (by omega) (by omega)
            have := hμ (s + 1) (by omega) (by rw [← htk, htk]; exact lt_of_le_of_lt h1 hlt) (by rw [e2]; exact hthi)
            rw [e1, e2] at this
            exact lt_irrefl _ this
          rw [hDspan n t s₁ (h1.trans ht.1) (ht.2.trans h2) (by omega) hin₁, pieceDer_full hps₁ (by omega), pieceDer_full hps hs]
          apply Finset.sum_congr rfl
          intro i _
          rw [spanPoly_join_mult (m := c.cps.length - 1 + c.degree + 1) hg.mono hss hmid (by rw [htk]; exact hlt) hin₁'.2 (by omega)
            (by omega) (by omega)]
      · exact absurd ht (Set.notMem_empty _))
  have hD0 : Set.EqOn (D 0) c.eval (Set.Icc c.lo c.hi) := by
    intro t ht
    obtain ⟨s, _, hps, hsn, hin⟩ := h.exists_span ht.1 ht.2
    rw [hDspan 0 t s ht.1 ht.2 (by omega) hin, eval_eq_span h hps hsn hin, pieceDer]
    simp only [Function.iterate_zero, id, spanPoly_eval]
  refine ⟨key.1.congr fun t ht => (hD0 ht).symm, fun m hm u hu => ?_⟩
  obtain ⟨s, _, hps, hsn, hin⟩ := h.exists_span hu.1 hu.2
  rw [(derivatives_span h hu.1 hu.2 (by omega) hin m).1]
  congr 1
  apply vec_congr
  intro n hn
  rw [← iteratedDerivWithin_congr hD0 hu, key.2 n (by omega) u hu, hDspan n u s hu.1 hu.2 (by omega) hin]

/-- Derivatives within a part of the domain. -/
theorem iteratedDerivWithin_subset' {f : ℝ → V} {S T : Set ℝ} {n : ℕ} (hST : S ⊆ T) (hS : UniqueDiffOn ℝ S) (hT : UniqueDiffOn ℝ T)
    (hf : ContDiffOn ℝ n f T) {x : ℝ} (hx : x ∈ S) : iteratedDerivWithin n f S x = iteratedDerivWithin n f T x := by
  rw [iteratedDerivWithin, iteratedDerivWithin, iteratedFDerivWithin_subset hST hS hT hf hx]

/-- **C94**: with non-zero weight function the same holds for the points of the curve: they are `p - μ` times continuously
    differentiable, and the rational derivatives of these orders are the derivatives over the whole domain, not one sided ones. -/
theorem C94_points {eps : ℝ} {c : Curve ℝ (W × ℝ)} {μ : ℕ} (h : c.Good eps) (hμ : MultAtMost c μ) (hμp : μ ≤ c.degree)
    (hw : ∀ u ∈ Set.Icc c.lo c.hi, (c.eval u).2 ≠ 0) :
    ContDiffOn ℝ (c.degree - μ : ℕ) (fun t => (c.eval t).2⁻¹ • (c.eval t).1) (Set.Icc c.lo c.hi) ∧
      ∀ m, m ≤ c.degree - μ → ∀ u ∈ Set.Icc c.lo c.hi, c.rationalDerivatives eps u m = .ok ((List.range (m + 1)).map fun n =>
        iteratedDerivWithin n (fun t => (c.eval t).2⁻¹ • (c.eval t).1) (Set.Icc c.lo c.hi) u) := by
  have hs := (C94_smooth h hμ hμp).1
  have hpos := h.cps_pos
  have hg := h.good
  have hhi : kf c.knots (c.cps.length - 1 + 1) = c.hi := by rw [Nat.sub_add_cancel hpos]; rfl
  have hab : c.lo < c.hi := lt_of_lt_of_le hg.first (hhi ▸ hg.mono _ _ (by have := hg.le; omega) (by omega))
  have hq : ContDiffOn ℝ (c.degree - μ : ℕ) (fun t => (c.eval t).2⁻¹ • (c.eval t).1) (Set.Icc c.lo c.hi) :=
    (hs.snd.inv fun t ht => hw t ht).smul hs.fst
  refine ⟨hq, fun m hm u hu => ?_⟩
  obtain ⟨s, _, hps, hsn, hin⟩ := h.exists_span hu.1 hu.2
  rw [C26_rational_derivatives h hu.1 hu.2 (by omega) hin (hw u hu) m]
  congr 1
  apply List.map_congr_left
  intro n hn
  have hn' := List.mem_range.1 hn
  refine iteratedDerivWithin_subset' ?_ (spanSet_uniqueDiff (b := c.hi) (inSpan_lt hin)) (uniqueDiffOn_Icc hab)
    (hq.of_le (by exact_mod_cast (by omega : n ≤ c.degree - μ))) hin
  intro t ht
  have h1 : c.lo ≤ kf c.knots s := hg.mono _ _ hps (by omega)
  have h2 : kf c.knots (s + 1) ≤ c.hi := hhi ▸ hg.mono _ _ (by omega) (by omega)
  exact ⟨h1.trans (Curve.inSpan_le ht).1, (Curve.inSpan_le ht).2.trans h2⟩

/-- **C94**: where no inner knot has the multiplicity of the degree, the tangent is the derivative of the points over the whole domain. -/
theorem C94_tangent {eps : ℝ} {c : Curve ℝ (W × ℝ)} {μ : ℕ} (h : c.Good eps) (hμ : MultAtMost c μ) (hμp : μ < c.degree)
    (hw : ∀ u ∈ Set.Icc c.lo c.hi, (c.eval u).2 ≠ 0) {u : ℝ} (hu : u ∈ Set.Icc c.lo c.hi) :
    ∃ T, c.tangentAt eps u = .ok T ∧ HasDerivWithinAt (fun t => (c.eval t).2⁻¹ • (c.eval t).1) T (Set.Icc c.lo c.hi) u ∧
      ContinuousWithinAt (derivWithin (fun t => (c.eval t).2⁻¹ • (c.eval t).1) (Set.Icc c.lo c.hi)) (Set.Icc c.lo c.hi) u := by
  obtain ⟨hq, hd⟩ := C94_points h hμ hμp.le hw
  have hpos := h.cps_pos
  have hg := h.good
  have hhi : kf c.knots (c.cps.length - 1 + 1) = c.hi := by rw [Nat.sub_add_cancel hpos]; rfl
  have hab : c.lo < c.hi := lt_of_lt_of_le hg.first (hhi ▸ hg.mono _ _ (by have := hg.le; omega) (by omega))
  have h1 : ((1 : ℕ) : WithTop ℕ∞) ≤ ((c.degree - μ : ℕ) : WithTop ℕ∞) := by exact_mod_cast (by omega : 1 ≤ c.degree - μ)
  have hq1 := hq.of_le h1
  refine ⟨derivWithin (fun t => (c.eval t).2⁻¹ • (c.eval t).1) (Set.Icc c.lo c.hi) u, ?_, ?_, ?_⟩
  · rw [tangentAt, hd 1 (by omega) u hu]
    simp only [List.range_succ, List.range_zero, List.nil_append, List.map_append, List.map_cons, List.map_nil, List.cons_append,
      iteratedDerivWithin_one]
    rfl
  · exact ((hq1.differentiableOn (by simp)) u hu).hasDerivWithinAt
  · exact hq1.continuousOn_derivWithin (uniqueDiffOn_Icc hab) (by simp) u hu

end real

section seam
variable {K : Type} [Field K] [LinearOrder K] [IsStrictOrderedRing K] {W : Type} [AddCommGroup W] [Module K W]

theorem spanPoly_congr_window {k k' : ℕ → K} {s p : ℕ} (h : ∀ j, s < j + p → j ≤ s + p → k j = k' j) (i : ℕ) :
    spanPoly k s p i = spanPoly k' s p i := by
  apply Polynomial.funext
  intro u
  rw [spanPoly_eval, spanPoly_eval, NS_congr_window p h]

/-- Control points and knots that repeat with a period, the knots increasing: all derivatives below the degree agree at both ends. -/
theorem periodic_seam {V : Type} [AddCommGroup V] [Module K V] {eps : K} {c : Curve K V} (h : c.Good eps) {n : ℕ} {T : K} {k : ℕ → K}
    (hk : StrictMono k) (hT : ∀ j, k (j + n) = k j + T) (hn : 1 ≤ n) (hl : c.cps.length = n + c.degree)
    (hks : ∀ j, 1 ≤ j → j ≤ n + 2 * c.degree - 1 → kf c.knots j = k j)
    (hc : ∀ i, i < c.degree → c.cps.getD (n + i) 0 = c.cps.getD i 0) {m : ℕ} (hm : m < c.degree) :
    c.derivatives eps c.lo m = c.derivatives eps c.hi m := by
  have hkl := h.knots_len
  obtain ⟨p, hp⟩ : ∃ p, p = c.degree := ⟨_, rfl⟩
  have elo : c.lo = k p := by rw [lo, ← hp, hks _ (by omega) (by omega)]
  have ehi : c.hi = k (p + n) := by rw [hi, hl, hks _ (by omega) (by omega), ← hp, Nat.add_comm]
  have hlohi : c.lo < c.hi := by rw [elo, ehi]; exact hk (by omega)
  have in1 : InSpan (kf c.knots) c.hi c.lo p := by
    rw [InSpan, if_neg hlohi.ne, elo, hks _ (by omega) (by omega), hks _ (by omega) (by omega)]
    exact ⟨le_refl _, hk (by omega)⟩
  have in2 : InSpan (kf c.knots) c.hi c.hi (n + p - 1) := by
    rw [InSpan, if_pos rfl, ehi, hks _ (by omega) (by omega), hks _ (by omega) (by omega)]
    exact ⟨hk (by omega), (hk.le_iff_le).2 (by omega)⟩
  rw [(derivatives_span h (le_refl _) hlohi.le (by omega) in1 m).1, (derivatives_span h hlohi.le (le_refl _) (by omega) in2 m).1]
  congr 1
  apply vec_congr
  intro q hq
  rw [pieceDer, pieceDer, ← hp]
  have c1 : ∀ i, spanPoly (kf c.knots) p p i = spanPoly k p p i := spanPoly_congr_window fun j _ _ => hks j (by omega) (by omega)
  have c2 : ∀ i, spanPoly (kf c.knots) (n + p - 1) p i = spanPoly k (n + p - 1) p i :=
    spanPoly_congr_window fun j _ _ => hks j (by omega) (by omega)
  simp only [c1, c2, Nat.sub_self, Nat.zero_add]
  have hT' : c.hi = c.lo + T := by rw [elo, ehi, hT]
  -- one period later the polynomials of the first span are those of the span after the domain
  have per : ∀ i, (derivative^[q] (spanPoly k p p i)).eval c.lo = (derivative^[q] (spanPoly k (n + p - 1) p (n + i))).eval c.hi := by
    intro i
    have j := spanPoly_join hk (s := n + p - 1) (p := p) (m := q) (by omega) (n + i)
    rw [show n + p - 1 + 1 = p + n by omega, ← ehi] at j
    rw [j, ← spanPoly_periodic hT p p i, iterate_derivative_comp_shift, eval_comp, eval_add, eval_X, eval_C, ← hT', Nat.add_comm n i]
  rw [Finset.sum_range_succ, Finset.sum_range_succ']
  congr 1
  · apply Finset.sum_congr rfl
    intro r hr
    have := Finset.mem_range.1 hr
    rw [per r, show n + p - 1 - p + (r + 1) = n + r by omega, hc r (by omega)]
  · rw [per p, spanPoly_zero_right _ _ _ _ (by omega)]
    have j := spanPoly_join hk (s := n + p - 1) (p := p) (m := q) (by omega) (n + p - 1 - p + 0)
    rw [show n + p - 1 + 1 = p + n by omega, ← ehi] at j
    rw [j, spanPoly_zero_left _ _ _ _ (by omega)]
    simp

/-- **C94**: a periodic curve closes smoothly: all derivatives of orders below the degree, of the homogeneous and of the rational
    curve, are the same at both ends. -/
theorem C94_periodic_seam {eps : K} (he : 0 ≤ eps) (he1 : eps ≤ 1) {pts : List W} {degree : ℕ} (hn : degree + 1 ≤ pts.length)
    {c : Curve K (W × K)} (h : tryPeriodic pts degree = .ok c) {m : ℕ} (hm : m < degree) :
    c.derivatives eps c.lo m = c.derivatives eps c.hi m ∧ c.rationalDerivatives eps c.lo m = c.rationalDerivatives eps c.hi m := by
  obtain ⟨c', hc', hg, -⟩ := C18_periodic_closed he he1 (by omega : 1 ≤ degree) hn
  obtain rfl : c' = c := by rw [h] at hc'; injection hc' with e; exact e.symm
  simp only [tryPeriodic] at h
  rw [if_neg (by omega), mapM_ok fun i _ => getR_eq_getD 0 (Nat.mod_lt _ (by omega))] at h
  have hc : c' = ⟨degree, ((List.range (pts.length + degree)).map fun i => pts.getD (i % pts.length) 0).map homogenize,
      (List.range (pts.length + 1 + degree * 2)).map (fun i : ℕ => (i : K))⟩ := by
    injection h with e; exact e.symm
  have hget : ∀ j, j < pts.length + degree → c'.cps.getD j 0 = (pts.getD (j % pts.length) 0, (1 : K)) := by
    intro j hj
    rw [hc]
    simp only [List.map_map]
    rw [List.getD_eq_getElem?_getD, List.getElem?_map, List.getElem?_range hj]
    rfl
  have hdeg : c'.degree = degree := by rw [hc]
  have key : c'.derivatives eps c'.lo m = c'.derivatives eps c'.hi m := by
    refine periodic_seam hg (n := pts.length) (T := (pts.length : K)) (k := fun j => (j : K)) Nat.strictMono_cast
      (fun j => by push_cast; ring) (by omega) (by rw [hc]; simp) ?_ ?_ (by omega)
    · intro j _ hj
      rw [hdeg] at hj
      rw [hc]; exact kf_natRange (by omega)
    · intro i hi
      rw [hdeg] at hi
      rw [hget _ (by omega), hget _ (by omega), Nat.add_mod_left]
  exact ⟨key, by rw [rationalDerivatives, rationalDerivatives, key]⟩

/-- **C94**: the same for the curves of periodic interpolation, when no segment is shorter than the tolerance. -/
theorem C94_interpolation_seam {eps : K} {dist : W → W → K} {sqrt : K → K} {solve : List (List K) → List W → Option (List W)}
    {pts : List W} {p : ℕ} {style : KnotStyle} {c : Curve K (W × K)} (hs : SolverSound solve) (he : 0 ≤ eps)
    (hpos : ∀ i, i < pts.length → 0 < segParam dist sqrt style pts i)
    (h0 : eps ≤ segParam dist sqrt style pts 0) (h1 : eps ≤ segParam dist sqrt style pts (pts.length - 1))
    (hn : p + 1 ≤ pts.length) (h : tryPeriodicInterpolate eps dist sqrt solve pts p style = .ok c) {m : ℕ} (hm : m < p) :
    c.derivatives eps c.lo m = c.derivatives eps c.hi m ∧ c.rationalDerivatives eps c.lo m = c.rationalDerivatives eps c.hi m := by
  obtain ⟨rows, ks, k, T, sys⟩ := periodic_forward (by omega : 1 ≤ p) hn he hpos h0 h1
  rw [sys.result solve hs] at h
  cases hx : solve rows pts with
  | none => rw [hx] at h; simp at h
  | some x =>
    rw [hx] at h
    simp only [Except.ok.injEq] at h
    have hcl : c.cps.length = pts.length + p := by rw [← h]; simp
    have hdeg : c.degree = p := by rw [← h]
    have hkn : c.knots = ks := by rw [← h]
    have hget : ∀ j, j < pts.length + p → c.cps.getD j 0 = (x.getD (j % pts.length) 0, (1 : K)) := by
      intro j hj
      rw [← h]
      simp only [List.map_map]
      rw [List.getD_eq_getElem?_getD, List.getElem?_map, List.getElem?_range hj]
      rfl
    have hg : c.Good eps := ⟨by omega, by rw [hkn, sys.ks_len, hcl, hdeg]; omega, by rw [hdeg, hcl, hkn]; exact sys.good⟩
    have key : c.derivatives eps c.lo m = c.derivatives eps c.hi m := by
      refine periodic_seam hg sys.mono sys.period (by omega) (by rw [hcl, hdeg]) ?_ ?_ (by omega)
      · intro j j1 j2
        rw [hdeg] at j2
        rw [hkn]; exact sys.inner j j1 j2
      · intro i hi
        rw [hdeg] at hi
        rw [hget _ (by omega), hget _ (by omega), Nat.add_mod_left]
    exact ⟨key, by rw [rationalDerivatives, rationalDerivatives, key]⟩

end seam

/-! ### Concrete cases -/

/-- A cubic with a double knot at one and a simple one at two. -/
noncomputable def exSmooth : Curve ℝ ((ℝ × ℝ) × ℝ) where
  degree := 3
  cps := [((0, 0), 1), ((1, 2), 1), ((4, 4), 2), ((3, 3), 1), ((8, 2), 2), ((5, 0), 1), ((6, 1), 1)]
  knots := [0, 0, 0, 0, 1, 1, 2, 3, 3, 3, 3]

theorem exSmooth_good : exSmooth.Good (1/1000) where
  cps_pos := by simp [exSmooth]
  knots_len := by simp [exSmooth]
  good := by
    refine ⟨by norm_num, by simp [exSmooth], ?_, ?_, ?_, ?_, ?_⟩
    · refine mono_of_sorted ?_ (by simp [exSmooth])
      simp [exSmooth]; norm_num
    all_goals simp [exSmooth, kf]; try norm_num

theorem exSmooth_mult : MultAtMost exSmooth 2 := by
  intro j hj h1 h2
  have hj' : j < 9 := by simp [exSmooth] at hj; omega
  interval_cases j <;> simp [exSmooth, kf, lo, hi] at h1 h2 ⊢

/-- It is once continuously differentiable, and the tangent is the derivative over the whole domain also at the knots. -/
example : ContDiffOn ℝ 1 (fun t => (exSmooth.eval t).2⁻¹ • (exSmooth.eval t).1) (Set.Icc exSmooth.lo exSmooth.hi) ∧
    exSmooth.rationalDerivatives (1/1000) 1 1 = .ok ((List.range 2).map fun n =>
      iteratedDerivWithin n (fun t => (exSmooth.eval t).2⁻¹ • (exSmooth.eval t).1) (Set.Icc exSmooth.lo exSmooth.hi) 1) := by
  have := C94_points exSmooth_good exSmooth_mult (by decide) (fun u hu => (eval_weight_pos exSmooth_good hu.1 hu.2 (by simp [exSmooth])).ne')
  exact ⟨by simpa [exSmooth] using this.1, this.2 1 (by decide) 1 (by simp [exSmooth, lo, hi, kf])⟩

example (m : ℕ) (hm : m < 3) : ∃ c : Curve ℚ ((ℚ × ℚ) × ℚ), tryPeriodic [(0, 0), (1, 0), (1, 1), (0, 1)] 3 = .ok c ∧
    c.rationalDerivatives (1/1000) c.lo m = c.rationalDerivatives (1/1000) c.hi m := by
  obtain ⟨c, hc, -⟩ := C18_periodic_closed (eps := (1/1000 : ℚ)) (by norm_num) (by norm_num)
    (pts := [((0, 0) : ℚ × ℚ), (1, 0), (1, 1), (0, 1)]) (degree := 3) (by norm_num) (by norm_num)
  exact ⟨c, hc, (C94_periodic_seam (by norm_num) (by norm_num) (by norm_num) hc hm).2⟩

example (m : ℕ) (hm : m < 3) : ∃ c, tryPeriodicInterpolate (1/1000) (fun _ _ => (0 : ℝ)) id idealSolver exQuad 3 .uniform = .ok c ∧
    c.rationalDerivatives (1/1000) c.lo m = c.rationalDerivatives (1/1000) c.hi m := by
  have hseg : ∀ i, segParam (fun _ _ => (0 : ℝ)) id .uniform exQuad i = 1 / 3 := fun i => by norm_num [segParam, exQuad]
  obtain ⟨c, hc, -⟩ := C93_odd (eps := 1/1000) (dist := fun _ _ => (0 : ℝ)) (sqrt := id) (style := .uniform) (pts := exQuad)
    (p := 3) idealSolver_sound idealSolver_regular (by norm_num) (by norm_num [exQuad]) (by norm_num)
    (fun i _ => by rw [hseg]; norm_num) (by rw [hseg]; norm_num) (by rw [hseg]; norm_num)
  exact ⟨c, hc, (C94_interpolation_seam idealSolver_sound (by norm_num) (fun i _ => by rw [hseg]; norm_num) (by rw [hseg]; norm_num)
    (by rw [hseg]; norm_num) (by norm_num [exQuad]) hc hm).2⟩

example : ∃ T, exSmooth.tangentAt (1/1000) 1 = .ok T ∧
    HasDerivWithinAt (fun t => (exSmooth.eval t).2⁻¹ • (exSmooth.eval t).1) T (Set.Icc exSmooth.lo exSmooth.hi) 1 := by
  obtain ⟨T, hT, hd, -⟩ := C94_tangent exSmooth_good exSmooth_mult (by decide)
    (fun u hu => (eval_weight_pos exSmooth_good hu.1 hu.2 (by simp [exSmooth])).ne') (u := 1)
    (by simp [exSmooth, lo, hi, kf])
  exact ⟨T, hT, hd⟩

/-- A polyline with a corner: its inner knot has the multiplicity of the degree. -/
noncomputable def exCorner : Curve ℝ (ℝ × ℝ) where
  degree := 1
  cps := [(0, 1), (1, 1), (0, 1)]
  knots := [0, 0, 1, 2, 2]

theorem exCorner_good : exCorner.Good (1/1000) where
  cps_pos := by simp [exCorner]
  knots_len := by simp [exCorner]
  good := by
    refine ⟨by norm_num, by simp [exCorner], ?_, ?_, ?_, ?_, ?_⟩
    · refine mono_of_sorted ?_ (by simp [exCorner])
      simp [exCorner]
    all_goals simp [exCorner, kf]; try norm_num

/-- **C94** (the multiplicity matters): at a knot of the multiplicity of the degree the tangent exists but is only one sided: here
    `tangent_at` returns the slope to the right, and the curve has no derivative. -/
theorem C94_corner : exCorner.tangentAt (1/1000) 1 = .ok (-1) ∧
    ¬ DifferentiableWithinAt ℝ (fun t => (exCorner.eval t).2⁻¹ • (exCorner.eval t).1) (Set.Icc exCorner.lo exCorner.hi) 1 := by
  have elo : exCorner.lo = 0 := by simp [exCorner, lo, kf]
  have ehi : exCorner.hi = 2 := by simp [exCorner, hi, kf]
  have in1 : ∀ t : ℝ, 0 ≤ t → t < 1 → InSpan (kf exCorner.knots) exCorner.hi t 1 := by
    intro t h1 h2
    rw [InSpan, if_neg (by rw [ehi]; linarith)]
    simp [exCorner, kf, h1, h2]
  have in2 : ∀ t : ℝ, 1 ≤ t → t < 2 → InSpan (kf exCorner.knots) exCorner.hi t 2 := by
    intro t h1 h2
    rw [InSpan, if_neg (by rw [ehi]; linarith)]
    simp [exCorner, kf, h1, h2]
  have ev1 : ∀ t : ℝ, 0 ≤ t → t < 1 → exCorner.eval t = (t, 1) := by
    intro t h1 h2
    rw [eval_eq_span exCorner_good (by simp [exCorner]) (by simp [exCorner]) (in1 t h1 h2)]
    simp [exCorner, Finset.sum_range_succ, NS, kf]
  have ev3 : ∀ t : ℝ, InSpan (kf exCorner.knots) exCorner.hi t 2 → exCorner.eval t = (2 - t, 1) := by
    intro t ht
    rw [eval_eq_span exCorner_good (by simp [exCorner]) (by simp [exCorner]) ht]
    simp [exCorner, Finset.sum_range_succ, NS, kf]
    norm_num
  have ev2 : ∀ t : ℝ, 1 ≤ t → t < 2 → exCorner.eval t = (2 - t, 1) := fun t h1 h2 => ev3 t (in2 t h1 h2)
  have hpt : ∀ t : ℝ, 0 ≤ t → t < 2 → (exCorner.eval t).2⁻¹ • (exCorner.eval t).1 = 1 - |t - 1| := by
    intro t h1 h2
    rcases lt_or_ge t 1 with h | h
    · rw [ev1 t h1 h, abs_of_neg (by linarith)]; simp
    · rw [ev2 t h h2, abs_of_nonneg (by linarith)]; simp; ring
  constructor
  · rw [(C26_tangent exCorner_good (by rw [elo]; norm_num) (by rw [ehi]; norm_num) (by simp [exCorner])
      (in2 1 (le_refl _) (by norm_num)) (by rw [ev2 1 (le_refl _) (by norm_num)]; simp)).1]
    congr 1
    have hu := spanSet_uniqueDiff (k := kf exCorner.knots) (s := 2) (b := exCorner.hi) (by simp [exCorner, kf]) 1
      (in2 1 (le_refl _) (by norm_num))
    have hd : HasDerivWithinAt (fun t : ℝ => 2 - t) (-1) {t | InSpan (kf exCorner.knots) exCorner.hi t 2} 1 := by
      simpa using ((hasDerivAt_id (1 : ℝ)).const_sub 2).hasDerivWithinAt
    refine (hd.congr (fun t ht => ?_) ?_).derivWithin hu
    · rw [ev3 t ht]; simp
    · rw [ev2 1 (le_refl _) (by norm_num)]; simp
  · intro hd
    rw [elo, ehi] at hd
    have hd' := hd.differentiableAt (Icc_mem_nhds (by norm_num) (by norm_num))
    have hev : (fun t => (exCorner.eval t).2⁻¹ • (exCorner.eval t).1) =ᶠ[nhds 1] fun t => 1 - |t - 1| := by
      filter_upwards [Ioo_mem_nhds (show (0 : ℝ) < 1 by norm_num) (show (1 : ℝ) < 2 by norm_num)] with t ht
      exact hpt t ht.1.le ht.2
    have ha := hev.differentiableAt_iff.1 hd'
    refine not_differentiableAt_abs_zero ?_
    have hc : DifferentiableAt ℝ (fun s : ℝ => 1 - (fun t : ℝ => 1 - |t - 1|) (s + 1)) 0 := by
      refine (differentiableAt_const _).sub (DifferentiableAt.comp (g := fun t : ℝ => 1 - |t - 1|) (0 : ℝ) (by simpa using ha) ?_)
      fun_prop
    simpa using hc

end Curvo.Props

/-
  Property theorems about the derivatives of surfaces: C27.
-/
import Verif.Lemmas.SurfDeriv
import Verif.Props.CurveDeriv
import Verif.Props.Surface

set_option linter.unusedSectionVars false

namespace Curvo.Props

open Curvo Curvo.Knots Curvo.Spec Curvo.Surface Polynomial

section field
variable {K : Type} [Field K] [LinearOrder K] [IsStrictOrderedRing K] {W : Type} [AddCommGroup W] [Module K W]

/-- For every table `F` of homogeneous derivatives with a non zero weight, the rational table `Q` (row `k` has the
    entries `l ≤ m - k`) satisfies the two-variable Leibniz rule for `A = w Q` in all mixed orders `k + l ≤ m`, and it
    is the only table that does. -/
theorem C27_leibniz {m : ℕ} {F : ℕ → ℕ → W × K} (h0 : (F 0 0).2 ≠ 0) :
    ∃ Q : ℕ → ℕ → W, rationalTable ((List.range (m + 1)).map fun k => (List.range (m + 1)).map fun l => F k l) m =
        .ok ((List.range (m + 1)).map fun k => (List.range (m - k + 1)).map fun l => Q k l) ∧
      (∀ k l, k + l ≤ m → (F k l).1 = (Finset.range (k + 1)).sum fun i => (Finset.range (l + 1)).sum fun j =>
        ((k.choose i : K) * (l.choose j : K) * (F i j).2) • Q (k - i) (l - j)) ∧
      ∀ R : ℕ → ℕ → W, (∀ k l, k + l ≤ m → (F k l).1 = (Finset.range (k + 1)).sum fun i =>
        (Finset.range (l + 1)).sum fun j => ((k.choose i : K) * (l.choose j : K) * (F i j).2) • R (k - i) (l - j)) →
        ∀ k l, k + l ≤ m → R k l = Q k l := by
  obtain ⟨Q, e, hQ⟩ := rationalTable_spec (m := m) (F := F) h0
  refine ⟨Q, e, fun k l h => (hQ k l h).symm, ?_⟩
  intro R hR
  apply leib_unique (w := fun i j => (F i j).2) (m := m) h0
  intro k l h
  rw [hQ k l h]
  exact (hR k l h).symm

/-- A zero weight makes the rational table non finite, for every order. -/
theorem C27_zero_weight {m : ℕ} {F : ℕ → ℕ → W × K} (h0 : (F 0 0).2 = 0) :
    rationalTable ((List.range (m + 1)).map fun k => (List.range (m + 1)).map fun l => F k l) m = .error .nonfinite := by
  rw [show ((List.range (m + 1)).map fun k => (List.range (m + 1)).map fun l => F k l) = mat (m + 1) (m + 1) F from rfl,
    rationalTable, mat_map, mat_map, List.range_succ_eq_map, List.foldlM_cons, subR_eq_ok (by omega), ok_bind,
    List.range_succ_eq_map, List.foldlM_cons, rationalEntry, get2R_mat (by omega) (by omega), ok_bind]
  simp only [List.range_zero, List.map_nil, List.foldlM_nil, pure_eq_ok, ok_bind]
  rw [get2R_mat (by omega) (by omega), ok_bind, divV, if_pos h0]
  rfl

theorem surf_span {V : Type} [AddCommGroup V] [Module K V] {eps : K} {S : Surface K V} {u v : K} (h : S.Good eps)
    (h1 : S.ulo ≤ u) (h2 : u ≤ S.uhi) (h3 : S.vlo ≤ v) (h4 : v ≤ S.vhi) {su sv : ℕ} (hsu : su < S.cps.length)
    (hsv : sv < S.cols) (hu : InSpan (kf S.uKnots) S.uhi u su) (hv : InSpan (kf S.vKnots) S.vhi v sv) (m : ℕ) :
    S.derivatives eps u v m = .ok (mat (m + 1) (m + 1) fun k l => if k + l ≤ m then S.patchDer su sv k l u v else 0) ∧
      S.uDegree ≤ su ∧ S.vDegree ≤ sv := by
  obtain ⟨su', eu, pu, nu, iu⟩ := h.exists_span_u h1 h2
  obtain ⟨sv', ev, pv, nv, iv⟩ := h.exists_span_v h3 h4
  obtain rfl : su' = su := inSpan_unique (m := S.cps.length - 1 + S.uDegree + 1) h.u_good.mono (by omega) (by omega) iu hu
  obtain rfl : sv' = sv := inSpan_unique (m := S.cols - 1 + S.vDegree + 1) h.v_good.mono (by omega) (by omega) iv hv
  exact ⟨Surface.derivatives_spec h eu ev pu nu pv nv (Curve.inSpan_lt hu) (Curve.inSpan_lt hv), pu, pv⟩

end field

section real
variable {V W : Type} [NormedAddCommGroup V] [NormedSpace ℝ V] [NormedAddCommGroup W] [NormedSpace ℝ W]

/-- The Leibniz rule for the numerator of a quotient. -/
theorem quotient_leibniz {S : Set ℝ} (hS : UniqueDiffOn ℝ S) {x : ℝ} (hx : x ∈ S) {A : ℝ → W} {w : ℝ → ℝ}
    (cA : ∀ n : ℕ, ContDiff ℝ n A) (cw : ∀ n : ℕ, ContDiff ℝ n w) (hw : w x ≠ 0) (k : ℕ) :
    iteratedDerivWithin k A S x = (Finset.range (k + 1)).sum fun i => (k.choose i : ℝ) •
      (iteratedDerivWithin i w S x • iteratedDerivWithin (k - i) (fun t => (w t)⁻¹ • A t) S x) := by
  have near : A =ᶠ[nhdsWithin x S] (w • fun t => (w t)⁻¹ • A t) := by
    have : ∀ᶠ t in nhds x, w t ≠ 0 := (cw 0).continuous.continuousAt.eventually_ne hw
    filter_upwards [this.filter_mono nhdsWithin_le_nhds] with t ht
    simp only [Pi.smul_apply']
    rw [smul_inv_smul₀ ht]
  rw [near.iteratedDerivWithin_eq (by simp only [Pi.smul_apply']; rw [smul_inv_smul₀ hw]),
    iteratedDerivWithin_smul (g := fun t => (w t)⁻¹ • A t) hx hS (cw k).contDiffAt.contDiffWithinAt
      (((cw k).contDiffAt.inv hw).smul (cA k).contDiffAt).contDiffWithinAt]
  apply Finset.sum_congr rfl
  intro i _
  rw [Nat.cast_smul_eq_nsmul]

/-- The mixed derivatives of a quotient satisfy the two-variable Leibniz rule. -/
theorem quotient_leib {S1 S2 : Set ℝ} (hS1 : UniqueDiffOn ℝ S1) (hS2 : UniqueDiffOn ℝ S2) {u v : ℝ} (hu : u ∈ S1)
    (hv : v ∈ S2) {A : ℝ → ℝ → W} {w : ℝ → ℝ → ℝ} (cA : ∀ v', ∀ n : ℕ, ContDiff ℝ n fun u' => A u' v')
    (cw : ∀ v', ∀ n : ℕ, ContDiff ℝ n fun u' => w u' v')
    (dA : ∀ k n : ℕ, ContDiff ℝ n fun v' => iteratedDerivWithin k (fun u' => A u' v') S1 u)
    (dw : ∀ k n : ℕ, ContDiff ℝ n fun v' => iteratedDerivWithin k (fun u' => w u' v') S1 u) (hw : w u v ≠ 0) (k l : ℕ) :
    leib (fun i j => iteratedDerivWithin j (fun v' => iteratedDerivWithin i (fun u' => w u' v') S1 u) S2 v)
      (fun i j => iteratedDerivWithin j (fun v' => iteratedDerivWithin i (fun u' => (w u' v')⁻¹ • A u' v') S1 u) S2 v) k l =
      iteratedDerivWithin l (fun v' => iteratedDerivWithin k (fun u' => A u' v') S1 u) S2 v := by
  obtain ⟨Pk, hPk⟩ : ∃ Pk : ℕ → ℝ → W, Pk = fun i v' => iteratedDerivWithin i (fun u' => (w u' v')⁻¹ • A u' v') S1 u :=
    ⟨_, rfl⟩
  obtain ⟨Wk, hWk⟩ : ∃ Wk : ℕ → ℝ → ℝ, Wk = fun i v' => iteratedDerivWithin i (fun u' => w u' v') S1 u := ⟨_, rfl⟩
  obtain ⟨Ak, hAk⟩ : ∃ Ak : ℕ → ℝ → W, Ak = fun i v' => iteratedDerivWithin i (fun u' => A u' v') S1 u := ⟨_, rfl⟩
  have cWk : ∀ i n : ℕ, ContDiff ℝ n (Wk i) := by intro i n; rw [hWk]; exact dw i n
  have cAk : ∀ i n : ℕ, ContDiff ℝ n (Ak i) := by intro i n; rw [hAk]; exact dA i n
  have hW0 : ∀ v', Wk 0 v' = w u v' := by intro v'; rw [hWk]; simp
  have hne : ∀ᶠ v' in nhds v, Wk 0 v' ≠ 0 :=
    (cWk 0 0).continuous.continuousAt.eventually_ne (by rw [hW0]; exact hw)
  have hL : ∀ v', Wk 0 v' ≠ 0 → ∀ k, Ak k v' = (Finset.range (k + 1)).sum fun i => (k.choose i : ℝ) •
      (Wk i v' • Pk (k - i) v') := by
    intro v' h' k
    rw [hAk, hPk, hWk]
    exact quotient_leibniz hS1 hu (cA v') (cw v') (by rw [← hW0]; exact h') k
  -- the derivatives in `u` of the quotient are smooth in `v`
  have cPk : ∀ k n : ℕ, ContDiffAt ℝ n (Pk k) v := by
    intro k
    induction k using Nat.strong_induction_on with
    | _ k ih =>
      intro n
      have e : Pk k =ᶠ[nhds v] fun v' => (Wk 0 v')⁻¹ • (Ak k v' - (Finset.range k).sum fun i =>
          (k.choose (i + 1) : ℝ) • (Wk (i + 1) v' • Pk (k - (i + 1)) v')) := by
        filter_upwards [hne] with v' h'
        rw [hL v' h' k, Finset.sum_range_succ']
        simp only [Nat.choose_zero_right, Nat.cast_one, one_smul, Nat.sub_zero, add_sub_cancel_left]
        rw [inv_smul_smul₀ h']
      refine ContDiffAt.congr_of_eventuallyEq ?_ e
      refine ((cWk 0 n).contDiffAt.inv (by rw [hW0]; exact hw)).smul ((cAk k n).contDiffAt.sub ?_)
      refine ContDiffAt.sum fun i hi => contDiffAt_const.smul ((cWk (i + 1) n).contDiffAt.smul ?_)
      have := Finset.mem_range.1 hi
      exact ih _ (by omega) n
  have near : Ak k =ᶠ[nhdsWithin v S2] fun v' => (Finset.range (k + 1)).sum fun i => (k.choose i : ℝ) •
      (Wk i • Pk (k - i)) v' := by
    filter_upwards [hne.filter_mono nhdsWithin_le_nhds] with v' h'
    exact hL v' h' k
  have hR : iteratedDerivWithin l (Ak k) S2 v = (Finset.range (k + 1)).sum fun i => (Finset.range (l + 1)).sum fun j =>
      ((k.choose i : ℝ) * (l.choose j : ℝ) * iteratedDerivWithin j (Wk i) S2 v) •
        iteratedDerivWithin (l - j) (Pk (k - i)) S2 v := by
    rw [near.iteratedDerivWithin_eq (hL v (by rw [hW0]; exact hw) k), iteratedDerivWithin_fun_sum hv hS2]
    · apply Finset.sum_congr rfl
      intro i _
      have cs : ContDiffWithinAt ℝ l (Wk i • Pk (k - i)) S2 v :=
        ((cWk i l).contDiffAt.smul (cPk (k - i) l)).contDiffWithinAt
      rw [iteratedDerivWithin_fun_const_smul hv hS2 _ cs,
        iteratedDerivWithin_smul hv hS2 (cWk i l).contDiffAt.contDiffWithinAt (cPk (k - i) l).contDiffWithinAt,
        Finset.smul_sum]
      apply Finset.sum_congr rfl
      intro j _
      rw [← Nat.cast_smul_eq_nsmul ℝ, smul_smul, smul_smul, mul_assoc]
    · intro i _
      exact (contDiffAt_const.smul ((cWk i l).contDiffAt.smul (cPk (k - i) l))).contDiffWithinAt
  rw [show (fun v' => iteratedDerivWithin k (fun u' => A u' v') S1 u) = Ak k by rw [hAk], hR, leib]
  rw [hPk, hWk]

/-- The patch of a surface as a function of `u` with coefficients in `v`. -/
theorem patch_swap (S : Surface ℝ V) (su sv k l : ℕ) (u v : ℝ) : S.patchDer su sv k l u v =
    (Finset.range (S.uDegree + 1)).sum fun r => bder S.uKnots S.uDegree su k r u •
      (Finset.range (S.vDegree + 1)).sum fun s => bder S.vKnots S.vDegree sv l s v •
        S.cp (su - S.uDegree + r) (sv - S.vDegree + s) := by
  unfold patchDer
  simp only [Finset.smul_sum]
  rw [Finset.sum_comm]
  apply Finset.sum_congr rfl
  intro r _
  apply Finset.sum_congr rfl
  intro s _
  rw [smul_comm]

theorem patch_deriv_u (S : Surface ℝ V) (su sv : ℕ) {u : ℝ} {S1 : Set ℝ} (hS : UniqueDiffOn ℝ S1) (hu : u ∈ S1)
    (k : ℕ) (v : ℝ) :
    iteratedDerivWithin k (fun u' => S.patchDer su sv 0 0 u' v) S1 u = S.patchDer su sv k 0 u v := by
  simp only [patch_swap]
  exact iteratedDerivWithin_polys hS hu (fun r => spanPoly (kf S.uKnots) su S.uDegree (su - S.uDegree + r)) _ _ k

theorem patch_deriv_v (S : Surface ℝ V) (su sv : ℕ) {v : ℝ} {S2 : Set ℝ} (hS : UniqueDiffOn ℝ S2) (hv : v ∈ S2)
    (k l : ℕ) (u : ℝ) :
    iteratedDerivWithin l (fun v' => S.patchDer su sv k 0 u v') S2 v = S.patchDer su sv k l u v := by
  unfold patchDer
  exact iteratedDerivWithin_polys hS hv (fun r => spanPoly (kf S.vKnots) sv S.vDegree (sv - S.vDegree + r)) _ _ l

theorem patch_smooth_u (S : Surface ℝ V) (su sv : ℕ) (v : ℝ) (n : ℕ) :
    ContDiff ℝ n fun u' => S.patchDer su sv 0 0 u' v := by
  simp only [patch_swap]
  exact contDiff_polys (fun r => spanPoly (kf S.uKnots) su S.uDegree (su - S.uDegree + r)) _ _

theorem patch_smooth_v (S : Surface ℝ V) (su sv k : ℕ) (u : ℝ) (n : ℕ) :
    ContDiff ℝ n fun v' => S.patchDer su sv k 0 u v' := by
  unfold patchDer
  exact contDiff_polys (fun r => spanPoly (kf S.vKnots) sv S.vDegree (sv - S.vDegree + r)) _ _

/-- The homogeneous derivatives are the mixed partial derivatives of the homogeneous surface. -/
theorem C27_homogeneous_derivatives {eps : ℝ} {S : Surface ℝ V} {u v : ℝ} (h : S.Good eps)
    (h1 : S.ulo ≤ u) (h2 : u ≤ S.uhi) (h3 : S.vlo ≤ v) (h4 : v ≤ S.vhi) {su sv : ℕ} (hsu : su < S.cps.length)
    (hsv : sv < S.cols) (hu : InSpan (kf S.uKnots) S.uhi u su) (hv : InSpan (kf S.vKnots) S.vhi v sv) (m : ℕ) :
    S.derivatives eps u v m = .ok ((List.range (m + 1)).map fun k => (List.range (m + 1)).map fun l =>
      if k + l ≤ m then iteratedDerivWithin l (fun v' => iteratedDerivWithin k (fun u' => S.eval u' v')
        {t | InSpan (kf S.uKnots) S.uhi t su} u) {t | InSpan (kf S.vKnots) S.vhi t sv} v else 0) := by
  obtain ⟨e, pu, pv⟩ := surf_span h h1 h2 h3 h4 hsu hsv hu hv m
  have hS1 := spanSet_uniqueDiff (b := S.uhi) (Curve.inSpan_lt hu)
  have hS2 := spanSet_uniqueDiff (b := S.vhi) (Curve.inSpan_lt hv)
  rw [e]
  congr 1
  apply mat_congr
  intro k l _ _
  split_ifs
  · rw [← patch_deriv_v S su sv hS2 hv k l u]
    refine iteratedDerivWithin_congr (s := spanSet (kf S.vKnots) S.vhi sv) ?_ hv
    intro v' hv'
    simp only []
    rw [← patch_deriv_u S su sv hS1 hu k v']
    refine iteratedDerivWithin_congr (s := spanSet (kf S.uKnots) S.uhi su) ?_ hu
    intro u' hu'
    exact (eval_eq_patch h pu (by omega) pv (by omega) hu' hv').symm
  · rfl

/-- The rational derivatives are the mixed partial derivatives of the surface point `A / w` on the patch of `(u, v)`
    (one sided at the ends of the spans), for all mixed orders `k + l ≤ m`. -/
theorem C27_rational_derivatives {eps : ℝ} {S : Surface ℝ (W × ℝ)} {u v : ℝ} (h : S.Good eps)
    (h1 : S.ulo ≤ u) (h2 : u ≤ S.uhi) (h3 : S.vlo ≤ v) (h4 : v ≤ S.vhi) {su sv : ℕ} (hsu : su < S.cps.length)
    (hsv : sv < S.cols) (hu : InSpan (kf S.uKnots) S.uhi u su) (hv : InSpan (kf S.vKnots) S.vhi v sv)
    (hw : (S.eval u v).2 ≠ 0) (m : ℕ) :
    S.rationalDerivatives eps u v m = .ok ((List.range (m + 1)).map fun k => (List.range (m - k + 1)).map fun l =>
      iteratedDerivWithin l (fun v' => iteratedDerivWithin k (fun u' => (S.eval u' v').2⁻¹ • (S.eval u' v').1)
        {t | InSpan (kf S.uKnots) S.uhi t su} u) {t | InSpan (kf S.vKnots) S.vhi t sv} v) := by
  obtain ⟨e, pu, pv⟩ := surf_span h h1 h2 h3 h4 hsu hsv hu hv m
  have hS1 := spanSet_uniqueDiff (b := S.uhi) (Curve.inSpan_lt hu)
  have hS2 := spanSet_uniqueDiff (b := S.vhi) (Curve.inSpan_lt hv)
  have hE : ∀ u' ∈ spanSet (kf S.uKnots) S.uhi su, ∀ v' ∈ spanSet (kf S.vKnots) S.vhi sv,
      S.eval u' v' = S.patchDer su sv 0 0 u' v' :=
    fun u' hu' v' hv' => eval_eq_patch h pu (by omega) pv (by omega) hu' hv'
  -- the components of the patch are patches
  obtain ⟨SA, hSA⟩ : ∃ SA : Surface ℝ W, SA = ⟨S.uDegree, S.vDegree, S.uKnots, S.vKnots, S.cps.map (·.map Prod.fst)⟩ :=
    ⟨_, rfl⟩
  obtain ⟨Sw, hSw⟩ : ∃ Sw : Surface ℝ ℝ, Sw = ⟨S.uDegree, S.vDegree, S.uKnots, S.vKnots, S.cps.map (·.map Prod.snd)⟩ :=
    ⟨_, rfl⟩
  have cp1 : ∀ i j, SA.cp i j = (S.cp i j).1 := by
    intro i j
    simp only [hSA, Surface.cp, List.getD_eq_getElem?_getD, List.getElem?_map]
    cases hi : S.cps[i]? with
    | none => simp
    | some row =>
      simp only [Option.map_some, Option.getD_some, List.getElem?_map]
      cases row[j]? <;> simp
  have cp2 : ∀ i j, Sw.cp i j = (S.cp i j).2 := by
    intro i j
    simp only [hSw, Surface.cp, List.getD_eq_getElem?_getD, List.getElem?_map]
    cases hi : S.cps[i]? with
    | none => simp
    | some row =>
      simp only [Option.map_some, Option.getD_some, List.getElem?_map]
      cases row[j]? <;> simp
  have p1 : ∀ k l u' v', (S.patchDer su sv k l u' v').1 = SA.patchDer su sv k l u' v' := by
    intro k l u' v'
    simp only [patchDer, Prod.fst_sum, Prod.smul_fst, cp1]
    rw [hSA]
  have p2 : ∀ k l u' v', (S.patchDer su sv k l u' v').2 = Sw.patchDer su sv k l u' v' := by
    intro k l u' v'
    simp only [patchDer, Prod.snd_sum, Prod.smul_snd, cp2]
    rw [hSw]
  have hw' : Sw.patchDer su sv 0 0 u v ≠ 0 := by rw [← p2, ← hE u hu v hv]; exact hw
  obtain ⟨Q, eQ, hQ⟩ := rationalTable_spec (m := m)
    (F := fun k l => if k + l ≤ m then S.patchDer su sv k l u v else 0) (by
      simp only [Nat.add_zero, Nat.zero_le, if_true]; rw [p2]; exact hw')
  rw [Surface.rationalDerivatives, e, ok_bind, eQ]
  congr 1
  apply vec_congr
  intro k hk
  apply vec_congr
  intro l hl
  have tr : iteratedDerivWithin l (fun v' => iteratedDerivWithin k (fun u' => (S.eval u' v').2⁻¹ • (S.eval u' v').1)
      {t | InSpan (kf S.uKnots) S.uhi t su} u) {t | InSpan (kf S.vKnots) S.vhi t sv} v =
      iteratedDerivWithin l (fun v' => iteratedDerivWithin k (fun u' =>
        (Sw.patchDer su sv 0 0 u' v')⁻¹ • SA.patchDer su sv 0 0 u' v')
      (spanSet (kf S.uKnots) S.uhi su) u) (spanSet (kf S.vKnots) S.vhi sv) v := by
    refine iteratedDerivWithin_congr (s := spanSet (kf S.vKnots) S.vhi sv) ?_ hv
    intro v' hv'
    refine iteratedDerivWithin_congr (s := spanSet (kf S.uKnots) S.uhi su) ?_ hu
    intro u' hu'
    simp only []
    rw [hE u' hu' v' hv', p1, p2]
  rw [tr]
  refine leib_unique (w := fun i j => (if i + j ≤ m then S.patchDer su sv i j u v else 0 : W × ℝ).2) (m := m)
    (by simp only [Nat.add_zero, Nat.zero_le, if_true]; rw [p2]; exact hw')
    (R := fun k l => iteratedDerivWithin l (fun v' => iteratedDerivWithin k (fun u' =>
        (Sw.patchDer su sv 0 0 u' v')⁻¹ • SA.patchDer su sv 0 0 u' v')
      (spanSet (kf S.uKnots) S.uhi su) u) (spanSet (kf S.vKnots) S.vhi sv) v) ?_ k l (by omega)
  intro k l hkl
  rw [hQ k l hkl]
  simp only [if_pos hkl]
  have := quotient_leib hS1 hS2 hu hv (A := fun u' v' => SA.patchDer su sv 0 0 u' v')
    (w := fun u' v' => Sw.patchDer su sv 0 0 u' v') (fun v' n => patch_smooth_u SA su sv v' n)
    (fun v' n => patch_smooth_u Sw su sv v' n)
    (fun k n => by simp only [patch_deriv_u SA su sv hS1 hu]; exact patch_smooth_v SA su sv k u n)
    (fun k n => by simp only [patch_deriv_u Sw su sv hS1 hu]; exact patch_smooth_v Sw su sv k u n) hw' k l
  simp only [patch_deriv_u SA su sv hS1 hu, patch_deriv_u Sw su sv hS1 hu, patch_deriv_v SA su sv hS2 hv,
    patch_deriv_v Sw su sv hS2 hv] at this
  rw [p1, ← this]
  unfold leib
  apply Finset.sum_congr rfl
  intro i hi
  apply Finset.sum_congr rfl
  intro j hj
  have := Finset.mem_range.1 hi
  have := Finset.mem_range.1 hj
  simp only []
  rw [if_pos (by omega), p2]

/-- The normal is the cross product of the partial derivatives in u and in v, in this order. -/
theorem C27_normal {cross : W → W → W} {eps : ℝ} {S : Surface ℝ (W × ℝ)} {u v : ℝ} (h : S.Good eps)
    (h1 : S.ulo ≤ u) (h2 : u ≤ S.uhi) (h3 : S.vlo ≤ v) (h4 : v ≤ S.vhi) {su sv : ℕ} (hsu : su < S.cps.length)
    (hsv : sv < S.cols) (hu : InSpan (kf S.uKnots) S.uhi u su) (hv : InSpan (kf S.vKnots) S.vhi v sv)
    (hw : (S.eval u v).2 ≠ 0) :
    S.normalAt cross eps u v = .ok (cross
      (derivWithin (fun u' => (S.eval u' v).2⁻¹ • (S.eval u' v).1) {t | InSpan (kf S.uKnots) S.uhi t su} u)
      (derivWithin (fun v' => (S.eval u v').2⁻¹ • (S.eval u v').1) {t | InSpan (kf S.vKnots) S.vhi t sv} v)) := by
  rw [normalAt, C27_rational_derivatives h h1 h2 h3 h4 hsu hsv hu hv hw, ok_bind]
  simp [List.range_succ, get2R, getR, iteratedDerivWithin_one]

/-! ### Witness -/

/-- A rational patch (a part of a cylinder over a circular arc). -/
noncomputable def exPatch : Surface ℝ ((ℝ × ℝ × ℝ) × ℝ) where
  uDegree := 2
  vDegree := 1
  uKnots := [0, 0, 0, 1, 1, 1]
  vKnots := [0, 0, 1, 1]
  cps := [[((1, 0, 0), 1), ((1, 0, 3), 1)], [((1, 1, 0), 1), ((1, 1, 3), 1)], [((0, 2, 0), 2), ((0, 2, 6), 2)]]

theorem exPatch_good : exPatch.Good (1/1000) where
  rows_pos := by simp [exPatch]
  u_len := by simp [exPatch]
  u_good := by
    refine ⟨by norm_num, by simp [exPatch], ?_, ?_, ?_, ?_, ?_⟩
    · exact mono_of_sorted (by norm_num [exPatch]) (by simp [exPatch])
    all_goals norm_num [exPatch, kf]
  cols_pos := by simp [exPatch, Surface.cols]
  v_good := by
    refine ⟨by norm_num, by simp [exPatch, Surface.cols], ?_, ?_, ?_, ?_, ?_⟩
    · exact mono_of_sorted (by norm_num [exPatch]) (by simp [exPatch, Surface.cols])
    all_goals norm_num [exPatch, kf, Surface.cols]
  rect := by simp [exPatch, Surface.cols]

theorem exPatch_weights : ∀ row ∈ exPatch.cps, ∀ p ∈ row, 0 < p.2 := by
  intro row hr p hp
  simp only [exPatch, List.mem_cons, List.not_mem_nil, or_false] at hr
  rcases hr with rfl | rfl | rfl <;>
  · simp only [List.mem_cons, List.not_mem_nil, or_false] at hp
    rcases hp with rfl | rfl <;> norm_num

example : ∃ D, exPatch.rationalDerivatives (1/1000) (1/2) (1/3) 4 = .ok D ∧ D.length = 5 := by
  have h1 : exPatch.ulo ≤ (1/2 : ℝ) := by norm_num [exPatch, Surface.ulo, kf]
  have h2 : (1/2 : ℝ) ≤ exPatch.uhi := by norm_num [exPatch, Surface.uhi, kf]
  have h3 : exPatch.vlo ≤ (1/3 : ℝ) := by norm_num [exPatch, Surface.vlo, kf]
  have h4 : (1/3 : ℝ) ≤ exPatch.vhi := by norm_num [exPatch, Surface.vhi, kf, Surface.cols]
  have := C27_rational_derivatives exPatch_good h1 h2 h3 h4 (su := 2) (sv := 1) (by simp [exPatch])
    (by simp [exPatch, Surface.cols])
    (by rw [InSpan, if_neg (by norm_num [exPatch, Surface.uhi, kf])]; norm_num [exPatch, kf])
    (by rw [InSpan, if_neg (by norm_num [exPatch, Surface.vhi, kf, Surface.cols])]; norm_num [exPatch, kf])
    (surf_weight_pos exPatch_good exPatch_weights h1 h2 h3 h4).ne' 4
  exact ⟨_, this, by simp⟩

example : ∃ Q : ℕ → ℕ → ℚ, rationalTable ((List.range 3).map fun k => (List.range 3).map fun l =>
    ((k + 2 * l : ℚ), (1 + k * l : ℚ))) 2 =
    .ok ((List.range 3).map fun k => (List.range (2 - k + 1)).map fun l => Q k l) := by
  obtain ⟨Q, e, _⟩ := C27_leibniz (m := 2) (F := fun k l => ((k + 2 * l : ℚ), (1 + k * l : ℚ))) (by norm_num)
  exact ⟨Q, e⟩

end real

end Curvo.Props

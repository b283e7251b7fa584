/-
  C94 for surfaces: smoothness across the knot lines.
-/
import Mathlib.Analysis.Calculus.ContDiff.Operations
import Mathlib.Tactic.IntervalCases
import Verif.Props.Smooth
import Verif.Props.SurfaceDeriv

set_option linter.unusedSectionVars false

namespace Curvo.Props

open Curvo.Knots Curvo.Spec Curvo.Surface

variable {V W : Type} [NormedAddCommGroup V] [NormedSpace ℝ V] [NormedAddCommGroup W] [NormedSpace ℝ W]

/-- The basis functions are as smooth as the knots allow. -/
theorem basis_smooth {eps : ℝ} {c : Curve ℝ V} {μ : ℕ} (h : c.Good eps) (hμ : MultAtMost c μ) (hμp : μ ≤ c.degree) {i : ℕ}
    (hi : i < c.cps.length) :
    ContDiffOn ℝ (c.degree - μ : ℕ) (N (kf c.knots) c.hi c.degree i) (Set.Icc c.lo c.hi) := by
  obtain ⟨c', hc'⟩ : ∃ c' : Curve ℝ ℝ, c' = ⟨c.degree, (List.range c.cps.length).map fun l => if l = i then 1 else 0, c.knots⟩ := ⟨_, rfl⟩
  have hl : c'.cps.length = c.cps.length := by rw [hc']; simp
  have hd : c'.degree = c.degree := by rw [hc']
  have hk : c'.knots = c.knots := by rw [hc']
  have hlo : c'.lo = c.lo := by rw [Curve.lo, Curve.lo, hd, hk]
  have hhi : c'.hi = c.hi := by rw [Curve.hi, Curve.hi, hl, hk]
  have hg : c'.Good eps := ⟨by rw [hl]; exact h.cps_pos, by rw [hk, hl, hd]; exact h.knots_len, by rw [hk, hl, hd]; exact h.good⟩
  have := (C94_smooth hg (μ := μ) (by rw [MultAtMost, hk, hlo, hhi]; exact hμ) (by rw [hd]; exact hμp)).1
  rw [hd, hlo, hhi] at this
  refine this.congr fun t _ => ?_
  have hpos := h.cps_pos
  rw [Curve.eval, Spec.curve, hl, Nat.sub_add_cancel hpos, hk, hd, Finset.sum_eq_single_of_mem i (Finset.mem_range.2 hi)]
  · rw [hc']
    simp only []
    rw [List.getD_eq_getElem?_getD, List.getElem?_map, List.getElem?_range hi]
    simp [Curve.hi]
  · intro l hl' hne
    rw [hc']
    simp only []
    rw [List.getD_eq_getElem?_getD, List.getElem?_map, List.getElem?_range (Finset.mem_range.1 hl')]
    simp [hne]

/-- **C94**: a surface is jointly as often continuously differentiable as the multiplicities of its inner knots in `u` and `v` allow. -/
theorem C94_surface_smooth {eps : ℝ} {S : Surface ℝ V} {μ ν r : ℕ} (h : S.Good eps) (hμ : MultAtMost (S.col 0) μ)
    (hν : MultAtMost (S.row 0) ν) (hr : r + μ ≤ S.uDegree) (hr' : r + ν ≤ S.vDegree) :
    ContDiffOn ℝ r (fun q : ℝ × ℝ => S.eval q.1 q.2) (Set.Icc S.ulo S.uhi ×ˢ Set.Icc S.vlo S.vhi) := by
  have hu : ∀ i, i < S.cps.length → ContDiffOn ℝ r (fun q : ℝ × ℝ => N (kf S.uKnots) S.uhi S.uDegree i q.1)
      (Set.Icc S.ulo S.uhi ×ˢ Set.Icc S.vlo S.vhi) := by
    intro i hi
    have := basis_smooth (h.col 0) hμ (show μ ≤ S.uDegree by omega) (i := i) (by simpa [Surface.col] using hi)
    rw [col_lo, col_hi] at this
    refine (this.of_le (m := (r : WithTop ℕ∞)) ?_).comp contDiff_fst.contDiffOn fun q hq => hq.1
    exact_mod_cast (show r ≤ S.uDegree - μ by omega)
  have hv : ∀ j, j < S.cols → ContDiffOn ℝ r (fun q : ℝ × ℝ => N (kf S.vKnots) S.vhi S.vDegree j q.2)
      (Set.Icc S.ulo S.uhi ×ˢ Set.Icc S.vlo S.vhi) := by
    intro j hj
    have := basis_smooth (h.row h.rows_pos) hν (show ν ≤ S.vDegree by omega) (i := j)
      (by show j < (S.cps.getD 0 []).length; rw [h.row_len h.rows_pos]; exact hj)
    rw [row_lo, row_hi h h.rows_pos] at this
    refine (this.of_le (m := (r : WithTop ℕ∞)) ?_).comp contDiff_snd.contDiffOn fun q hq => hq.2
    exact_mod_cast (show r ≤ S.vDegree - ν by omega)
  exact ContDiffOn.sum fun i hi => ContDiffOn.sum fun j hj =>
    ((hu i (Finset.mem_range.1 hi)).mul (hv j (Finset.mem_range.1 hj))).smul contDiffOn_const

/-- **C94**: with non-zero weight function the points of the surface are as smooth. -/
theorem C94_surface_points {eps : ℝ} {S : Surface ℝ (W × ℝ)} {μ ν r : ℕ} (h : S.Good eps) (hμ : MultAtMost (S.col 0) μ)
    (hν : MultAtMost (S.row 0) ν) (hr : r + μ ≤ S.uDegree) (hr' : r + ν ≤ S.vDegree)
    (hw : ∀ u ∈ Set.Icc S.ulo S.uhi, ∀ v ∈ Set.Icc S.vlo S.vhi, (S.eval u v).2 ≠ 0) :
    ContDiffOn ℝ r (fun q : ℝ × ℝ => (S.eval q.1 q.2).2⁻¹ • (S.eval q.1 q.2).1)
      (Set.Icc S.ulo S.uhi ×ˢ Set.Icc S.vlo S.vhi) := by
  have hs := C94_surface_smooth h hμ hν hr hr'
  exact (hs.snd.inv fun q hq => hw q.1 hq.1 q.2 hq.2).smul hs.fst

/-- **C94**: where no inner knot has the multiplicity of the degree, the normal returned at a place of the domain is the product of the
    two partial derivatives of the points over the whole domain (also on the knot lines), and these depend continuously on the
    place; so does the normal. -/
theorem C94_normal {cross : W → W → W} {eps : ℝ} {S : Surface ℝ (W × ℝ)} {μ ν : ℕ} (h : S.Good eps) (hμ : MultAtMost (S.col 0) μ)
    (hν : MultAtMost (S.row 0) ν) (hr : μ < S.uDegree) (hr' : ν < S.vDegree)
    (hw : ∀ u ∈ Set.Icc S.ulo S.uhi, ∀ v ∈ Set.Icc S.vlo S.vhi, (S.eval u v).2 ≠ 0) :
    ∃ du dv : ℝ × ℝ → W, ContinuousOn du (Set.Icc S.ulo S.uhi ×ˢ Set.Icc S.vlo S.vhi) ∧
      ContinuousOn dv (Set.Icc S.ulo S.uhi ×ˢ Set.Icc S.vlo S.vhi) ∧
      (∀ u ∈ Set.Icc S.ulo S.uhi, ∀ v ∈ Set.Icc S.vlo S.vhi,
        HasDerivWithinAt (fun t => (S.eval t v).2⁻¹ • (S.eval t v).1) (du (u, v)) (Set.Icc S.ulo S.uhi) u ∧
        HasDerivWithinAt (fun t => (S.eval u t).2⁻¹ • (S.eval u t).1) (dv (u, v)) (Set.Icc S.vlo S.vhi) v ∧
        S.normalAt cross eps u v = .ok (cross (du (u, v)) (dv (u, v)))) ∧
      (Continuous (fun q : W × W => cross q.1 q.2) →
        ContinuousOn (fun q => cross (du q) (dv q)) (Set.Icc S.ulo S.uhi ×ˢ Set.Icc S.vlo S.vhi)) := by
  have hc := C94_surface_points (r := 1) h hμ hν (by omega) (by omega) hw
  obtain ⟨f, hf⟩ : ∃ f : ℝ × ℝ → W, f = fun q => (S.eval q.1 q.2).2⁻¹ • (S.eval q.1 q.2).1 := ⟨_, rfl⟩
  rw [← hf] at hc
  have hu : S.ulo < S.uhi := by
    have := (h.col 0).pre.dom; rwa [col_lo, col_hi] at this
  have hv : S.vlo < S.vhi := by
    have := (h.row h.rows_pos).pre.dom; rwa [row_lo, row_hi h h.rows_pos] at this
  have hU := (uniqueDiffOn_Icc hu).prod (uniqueDiffOn_Icc hv)
  have hD : ContinuousOn (fderivWithin ℝ f (Set.Icc S.ulo S.uhi ×ˢ Set.Icc S.vlo S.vhi))
      (Set.Icc S.ulo S.uhi ×ˢ Set.Icc S.vlo S.vhi) := hc.continuousOn_fderivWithin hU (by simp)
  have hcu := hD.clm_apply (g := fun _ => ((1 : ℝ), (0 : ℝ))) continuousOn_const
  have hcv := hD.clm_apply (g := fun _ => ((0 : ℝ), (1 : ℝ))) continuousOn_const
  refine ⟨_, _, hcu, hcv, fun u hu' v hv' => ?_, fun hx => hx.comp_continuousOn (hcu.prodMk hcv)⟩
  have hd := ((hc.differentiableOn (by simp)) (u, v) ⟨hu', hv'⟩).hasFDerivWithinAt
  have h1 : HasDerivWithinAt (fun t => f (t, v)) (fderivWithin ℝ f (Set.Icc S.ulo S.uhi ×ˢ Set.Icc S.vlo S.vhi) (u, v) (1, 0))
      (Set.Icc S.ulo S.uhi) u :=
    hd.comp_hasDerivWithinAt (f := fun t : ℝ => (t, v)) u
      ((hasDerivWithinAt_id u _).prodMk (hasDerivWithinAt_const u _ v)) fun t ht => ⟨ht, hv'⟩
  have h2 : HasDerivWithinAt (fun t => f (u, t)) (fderivWithin ℝ f (Set.Icc S.ulo S.uhi ×ˢ Set.Icc S.vlo S.vhi) (u, v) (0, 1))
      (Set.Icc S.vlo S.vhi) v :=
    hd.comp_hasDerivWithinAt (f := fun t : ℝ => (u, t)) v
      ((hasDerivWithinAt_const v _ u).prodMk (hasDerivWithinAt_id v _)) fun t ht => ⟨hu', ht⟩
  have e1 : (fun t => f (t, v)) = fun t => (S.eval t v).2⁻¹ • (S.eval t v).1 := by rw [hf]
  have e2 : (fun t => f (u, t)) = fun t => (S.eval u t).2⁻¹ • (S.eval u t).1 := by rw [hf]
  rw [e1] at h1
  rw [e2] at h2
  refine ⟨h1, h2, ?_⟩
  obtain ⟨su, _, pu, nu, iu⟩ := h.exists_span_u hu'.1 hu'.2
  obtain ⟨sv, _, pv, nv, iv⟩ := h.exists_span_v hv'.1 hv'.2
  have hrp := h.rows_pos
  have hcp := h.cols_pos
  rw [C27_normal h hu'.1 hu'.2 hv'.1 hv'.2 (su := su) (sv := sv) (by omega) (by omega) iu iv (hw u hu' v hv')]
  have hsu : {t | InSpan (kf S.uKnots) S.uhi t su} ⊆ Set.Icc S.ulo S.uhi := by
    intro t ht
    have hh : kf S.uKnots (S.cps.length - 1 + 1) = S.uhi := by rw [Nat.sub_add_cancel hrp]; rfl
    exact ⟨(h.u_good.mono _ _ pu (by omega)).trans (Curve.inSpan_le ht).1,
      (Curve.inSpan_le ht).2.trans (hh ▸ h.u_good.mono _ _ (by omega) (by omega))⟩
  have hsv : {t | InSpan (kf S.vKnots) S.vhi t sv} ⊆ Set.Icc S.vlo S.vhi := by
    intro t ht
    have hh : kf S.vKnots (S.cols - 1 + 1) = S.vhi := by rw [Nat.sub_add_cancel hcp]; rfl
    exact ⟨(h.v_good.mono _ _ pv (by omega)).trans (Curve.inSpan_le ht).1,
      (Curve.inSpan_le ht).2.trans (hh ▸ h.v_good.mono _ _ (by omega) (by omega))⟩
  rw [(h1.mono hsu).derivWithin (spanSet_uniqueDiff (b := S.uhi) (Curve.inSpan_lt iu) u iu),
    (h2.mono hsv).derivWithin (spanSet_uniqueDiff (b := S.vhi) (Curve.inSpan_lt iv) v iv)]

/-- The derivatives of a jointly smooth function in its first argument are jointly smooth. -/
theorem partial_smooth {f : ℝ × ℝ → V} {A B : Set ℝ} (hA : UniqueDiffOn ℝ A) (hB : UniqueDiffOn ℝ B) {r : ℕ}
    (hf : ContDiffOn ℝ r f (A ×ˢ B)) (k : ℕ) (hk : k ≤ r) :
    ContDiffOn ℝ (r - k : ℕ) (fun q : ℝ × ℝ => iteratedDerivWithin k (fun t => f (t, q.2)) A q.1) (A ×ˢ B) := by
  induction k with
  | zero => simpa using hf
  | succ k ih =>
    have ih := ih (by omega)
    obtain ⟨g, hg⟩ : ∃ g : ℝ × ℝ → V, g = fun q : ℝ × ℝ => iteratedDerivWithin k (fun t => f (t, q.2)) A q.1 := ⟨_, rfl⟩
    rw [← hg] at ih
    have hD := ih.fderivWithin (hA.prod hB) (m := (r - (k + 1) : ℕ)) (by exact_mod_cast (by omega : r - (k + 1) + 1 ≤ r - k))
    have := hD.clm_apply (g := fun _ => ((1 : ℝ), (0 : ℝ))) contDiffOn_const
    refine this.congr fun q hq => ?_
    have h1 : ((r - k : ℕ) : WithTop ℕ∞) ≠ 0 := by exact_mod_cast (by omega : r - k ≠ 0)
    have hd := ((ih.differentiableOn h1) q hq).hasFDerivWithinAt
    have h2 : HasDerivWithinAt (fun t => g (t, q.2)) (fderivWithin ℝ g (A ×ˢ B) q (1, 0)) A q.1 :=
      HasFDerivWithinAt.comp_hasDerivWithinAt (f := fun t : ℝ => (t, q.2)) q.1 hd
        ((hasDerivWithinAt_id q.1 _).prodMk (hasDerivWithinAt_const q.1 _ q.2)) fun t ht => ⟨ht, hq.2⟩
    rw [iteratedDerivWithin_succ, ← h2.derivWithin (hA q.1 hq.1), hg]

/-- **C94**: the mixed derivatives of the points returned by `rational_derivatives`, up to the order the multiplicities allow, are
    the derivatives over the whole domain; on the knot lines too. -/
theorem C94_surface_derivatives {eps : ℝ} {S : Surface ℝ (W × ℝ)} {μ ν m : ℕ} (h : S.Good eps) (hμ : MultAtMost (S.col 0) μ)
    (hν : MultAtMost (S.row 0) ν) (hr : m + μ ≤ S.uDegree) (hr' : m + ν ≤ S.vDegree)
    (hw : ∀ u ∈ Set.Icc S.ulo S.uhi, ∀ v ∈ Set.Icc S.vlo S.vhi, (S.eval u v).2 ≠ 0) {u v : ℝ}
    (hu' : u ∈ Set.Icc S.ulo S.uhi) (hv' : v ∈ Set.Icc S.vlo S.vhi) :
    S.rationalDerivatives eps u v m = .ok ((List.range (m + 1)).map fun k => (List.range (m - k + 1)).map fun l =>
      iteratedDerivWithin l (fun v' => iteratedDerivWithin k (fun u' => (S.eval u' v').2⁻¹ • (S.eval u' v').1)
        (Set.Icc S.ulo S.uhi) u) (Set.Icc S.vlo S.vhi) v) := by
  have hc := C94_surface_points h hμ hν hr hr' hw
  have hu : S.ulo < S.uhi := by
    have := (h.col 0).pre.dom; rwa [col_lo, col_hi] at this
  have hv : S.vlo < S.vhi := by
    have := (h.row h.rows_pos).pre.dom; rwa [row_lo, row_hi h h.rows_pos] at this
  obtain ⟨su, _, pu, nu, iu⟩ := h.exists_span_u hu'.1 hu'.2
  obtain ⟨sv, _, pv, nv, iv⟩ := h.exists_span_v hv'.1 hv'.2
  have hrp := h.rows_pos
  have hcp := h.cols_pos
  have hsu : {t | InSpan (kf S.uKnots) S.uhi t su} ⊆ Set.Icc S.ulo S.uhi := by
    intro t ht
    have hh : kf S.uKnots (S.cps.length - 1 + 1) = S.uhi := by rw [Nat.sub_add_cancel hrp]; rfl
    exact ⟨(h.u_good.mono _ _ pu (by omega)).trans (Curve.inSpan_le ht).1,
      (Curve.inSpan_le ht).2.trans (hh ▸ h.u_good.mono _ _ (by omega) (by omega))⟩
  have hsv : {t | InSpan (kf S.vKnots) S.vhi t sv} ⊆ Set.Icc S.vlo S.vhi := by
    intro t ht
    have hh : kf S.vKnots (S.cols - 1 + 1) = S.vhi := by rw [Nat.sub_add_cancel hcp]; rfl
    exact ⟨(h.v_good.mono _ _ pv (by omega)).trans (Curve.inSpan_le ht).1,
      (Curve.inSpan_le ht).2.trans (hh ▸ h.v_good.mono _ _ (by omega) (by omega))⟩
  rw [C27_rational_derivatives h hu'.1 hu'.2 hv'.1 hv'.2 (su := su) (sv := sv) (by omega) (by omega) iu iv (hw u hu' v hv')]
  congr 1
  apply List.map_congr_left
  intro k hk
  have hk' := List.mem_range.1 hk
  apply List.map_congr_left
  intro l hl
  have hl' := List.mem_range.1 hl
  have e : ∀ v' ∈ Set.Icc S.vlo S.vhi,
      iteratedDerivWithin k (fun u' => (S.eval u' v').2⁻¹ • (S.eval u' v').1) {t | InSpan (kf S.uKnots) S.uhi t su} u =
        iteratedDerivWithin k (fun u' => (S.eval u' v').2⁻¹ • (S.eval u' v').1) (Set.Icc S.ulo S.uhi) u := by
    intro v' hv''
    refine iteratedDerivWithin_subset' hsu (spanSet_uniqueDiff (b := S.uhi) (Curve.inSpan_lt iu)) (uniqueDiffOn_Icc hu) ?_ iu
    have : ContDiffOn ℝ m (fun t : ℝ => (t, v')) (Set.Icc S.ulo S.uhi) := (contDiff_id.prodMk contDiff_const).contDiffOn
    exact (hc.comp this fun t ht => ⟨ht, hv''⟩).of_le (by exact_mod_cast (by omega : k ≤ m))
  rw [iteratedDerivWithin_congr (fun v' hv'' => e v' (hsv hv'')) (show v ∈ {t | InSpan (kf S.vKnots) S.vhi t sv} from iv)]
  refine iteratedDerivWithin_subset' hsv (spanSet_uniqueDiff (b := S.vhi) (Curve.inSpan_lt iv)) (uniqueDiffOn_Icc hv) ?_ iv
  have hp := partial_smooth (uniqueDiffOn_Icc hu) (uniqueDiffOn_Icc hv) hc k (by omega)
  have : ContDiffOn ℝ (m - k : ℕ) (fun t : ℝ => (u, t)) (Set.Icc S.vlo S.vhi) := (contDiff_const.prodMk contDiff_id).contDiffOn
  exact (hp.comp this fun t ht => ⟨hu', ht⟩).of_le (by exact_mod_cast (by omega : l ≤ m - k))

/-! ### Witness -/

/-- A rational surface with a knot line inside of its domain: degree 2 with the knot `1` in `u`, degree 2 in `v`. -/
noncomputable def exVault : Surface ℝ ((ℝ × ℝ × ℝ) × ℝ) where
  uDegree := 2
  vDegree := 2
  uKnots := [0, 0, 0, 1, 2, 2, 2]
  vKnots := [0, 0, 0, 1, 1, 1]
  cps := [[((0, 0, 0), 1), ((0, 1, 0), 1), ((0, 2, 0), 1)], [((1, 0, 1), 1), ((2, 2, 4), 2), ((1, 2, 1), 1)],
    [((2, 0, 1), 1), ((4, 2, 4), 2), ((2, 2, 1), 1)], [((3, 0, 0), 1), ((3, 1, 0), 1), ((3, 2, 0), 1)]]

theorem exVault_good : exVault.Good (1/1000) where
  rows_pos := by simp [exVault]
  u_len := by simp [exVault]
  u_good := by
    refine ⟨by norm_num, by simp [exVault], ?_, ?_, ?_, ?_, ?_⟩
    · exact mono_of_sorted (by norm_num [exVault]) (by simp [exVault])
    all_goals norm_num [exVault, kf]
  cols_pos := by simp [exVault, Surface.cols]
  v_good := by
    refine ⟨by norm_num, by simp [exVault, Surface.cols], ?_, ?_, ?_, ?_, ?_⟩
    · exact mono_of_sorted (by norm_num [exVault]) (by simp [exVault, Surface.cols])
    all_goals norm_num [exVault, kf, Surface.cols]
  rect := by simp [exVault, Surface.cols]

theorem exVault_weights : ∀ row ∈ exVault.cps, ∀ p ∈ row, 0 < p.2 := by
  intro row hr p hp
  simp only [exVault, List.mem_cons, List.not_mem_nil, or_false] at hr
  rcases hr with rfl | rfl | rfl | rfl <;>
  · simp only [List.mem_cons, List.not_mem_nil, or_false] at hp
    rcases hp with rfl | rfl | rfl <;> norm_num

theorem exVault_mult : MultAtMost (exVault.col 0) 1 ∧ MultAtMost (exVault.row 0) 1 := by
  constructor
  · intro j hj h1 h2
    have hj' : j < 6 := by simp [exVault, Surface.col] at hj; omega
    interval_cases j <;> simp [exVault, Surface.col, kf, Curve.lo, Curve.hi] at h1 h2 ⊢
  · intro j hj h1 h2
    have hj' : j < 5 := by simp [exVault, Surface.row] at hj; omega
    interval_cases j <;> simp [exVault, Surface.row, kf, Curve.lo, Curve.hi] at h1 h2 ⊢

/-- Its normal is the product of the partial derivatives on the knot line `u = 1` too, and continuous there. -/
example (cross : (ℝ × ℝ × ℝ) → (ℝ × ℝ × ℝ) → ℝ × ℝ × ℝ) : ∃ du dv : ℝ × ℝ → ℝ × ℝ × ℝ,
    ContinuousWithinAt du (Set.Icc exVault.ulo exVault.uhi ×ˢ Set.Icc exVault.vlo exVault.vhi) (1, 1/2) ∧
    exVault.normalAt cross (1/1000) 1 (1/2) = .ok (cross (du (1, 1/2)) (dv (1, 1/2))) := by
  have h1 : (1 : ℝ) ∈ Set.Icc exVault.ulo exVault.uhi := by norm_num [exVault, Surface.ulo, Surface.uhi, kf]
  have h2 : (1/2 : ℝ) ∈ Set.Icc exVault.vlo exVault.vhi := by norm_num [exVault, Surface.vlo, Surface.vhi, kf, Surface.cols]
  obtain ⟨du, dv, c1, c2, hd, _⟩ := C94_normal (cross := cross) exVault_good exVault_mult.1 exVault_mult.2
    (by simp [exVault]) (by simp [exVault])
    fun u hu v hv => (surf_weight_pos exVault_good exVault_weights hu.1 hu.2 hv.1 hv.2).ne'
  exact ⟨du, dv, c1 _ ⟨h1, h2⟩, (hd 1 h1 (1/2) h2).2.2⟩

/-- So are the entries of the table of first derivatives. -/
example : exVault.rationalDerivatives (1/1000) 1 (1/2) 1 = .ok ((List.range 2).map fun k => (List.range (1 - k + 1)).map fun l =>
    iteratedDerivWithin l (fun v' => iteratedDerivWithin k (fun u' => (exVault.eval u' v').2⁻¹ • (exVault.eval u' v').1)
      (Set.Icc exVault.ulo exVault.uhi) 1) (Set.Icc exVault.vlo exVault.vhi) (1/2)) :=
  C94_surface_derivatives exVault_good exVault_mult.1 exVault_mult.2 (by simp [exVault]) (by simp [exVault])
    (fun u hu v hv => (surf_weight_pos exVault_good exVault_weights hu.1 hu.2 hv.1 hv.2).ne')
    (by norm_num [exVault, Surface.ulo, Surface.uhi, kf]) (by norm_num [exVault, Surface.vlo, Surface.vhi, kf, Surface.cols])

end Curvo.Props

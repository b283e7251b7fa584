/-
  C90: through points with distinct neighbours there is exactly one interpolating curve.
-/
import Mathlib.LinearAlgebra.Matrix.ToLinearEquiv
import Mathlib.LinearAlgebra.Matrix.NonsingularInverse
import Verif.Lemmas.Whitney
import Verif.Props.Sweep

set_option linter.unusedSectionVars false

namespace Curvo.Props

open Curvo.Knots Curvo.Spec Curvo.Curve Curvo.Interp Curvo.Loft Curvo.Frame

variable {K : Type} [Field K] [LinearOrder K]
variable {W : Type} [AddCommGroup W] [Module K W]

/-- The square matrix of a list of rows. -/
def rowsMatrix (n : ℕ) (A : List (List K)) : Matrix (Fin n) (Fin n) K := fun i j => (A.getD i []).getD j 0

/-- The solver answers for every regular square system (as an LU decomposition with pivoting does in exact arithmetic). -/
def SolverRegular (solve : List (List K) → List W → Option (List W)) : Prop :=
  ∀ A b, A.length = b.length → (∀ row ∈ A, row.length = b.length) → (rowsMatrix b.length A).det ≠ 0 → solve A b ≠ none

section ordered
variable [IsStrictOrderedRing K]

/-- The collocation matrix of the averaged knots is regular. -/
theorem collocation_det {dist : W → W → K} {pts : List W} {p : ℕ} (hp : 1 ≤ p) (hn : p + 1 ≤ pts.length)
    (hd : ∀ i, i + 1 < pts.length → 0 < dist (pts.getD i 0) (pts.getD (i + 1) 0)) :
    (Matrix.of fun i j : Fin pts.length => N (interpKnot dist pts p) 1 p j (chordParam dist pts i)).det ≠ 0 := by
  obtain ⟨e0, e1⟩ := chordParam_ends hd (by omega)
  have hg := interpKnot_good (eps := 0) hp hn (le_refl 0) hd
    (by rw [← e0]; exact chordParam_le hd (by omega) (by omega))
    (by rw [add_zero, ← e1]; exact chordParam_le hd (by omega) (by omega))
  have k0 : ∀ j, j ≤ p → interpKnot dist pts p j = 0 := fun j hj => by rw [interpKnot, if_pos hj]
  have k1 : ∀ j, pts.length ≤ j → interpKnot dist pts p j = 1 := fun j hj => by
    rw [interpKnot, if_neg (by omega), if_neg (by omega)]
  have hk : Knots (interpKnot dist pts p) 0 1 p (pts.length - 1) :=
    ⟨by omega, hg.mono, k0 p (le_refl _), k1 _ (by omega), zero_lt_one⟩
  intro hdet
  obtain ⟨x, hx0, hx⟩ := Matrix.exists_mulVec_eq_zero_iff.2 hdet
  apply hx0
  let P : ℕ → K := fun j => if hj : j < pts.length then x ⟨j, hj⟩ else 0
  have hspl : ∀ i, i < pts.length → spl (interpKnot dist pts p) 1 p (pts.length - 1) P (chordParam dist pts i) = 0 := by
    intro i hi
    have := congrFun hx ⟨i, hi⟩
    rw [Matrix.mulVec, dotProduct] at this
    rw [spl, show pts.length - 1 + 1 = pts.length by omega, Finset.sum_range]
    rw [← show _ = (0 : K) from this]
    apply Finset.sum_congr rfl
    intro j _
    simp [P]
  have hzero := whitney hk hp (τ := chordParam dist pts) (P := P)
    (fun j hj => chordParam_strict hd (by omega) (by omega)) e0.ge e1.le
    (fun j j1 j2 => by
      constructor
      · by_cases c : j ≤ p
        · rw [k0 j c, ← e0]; exact chordParam_strict hd j1 (by omega)
        · rw [interpKnot, if_neg c, if_pos (by omega)]
          refine lt_of_le_of_lt (avgParam_bounds (b := chordParam dist pts (j - 1)) (a := 0) hp (fun l hl => ?_)
            (fun l hl => ?_)).2 (chordParam_strict hd (by omega) (by omega))
          · rw [← e0]; exact chordParam_le hd (by omega) (by omega)
          · exact chordParam_le hd (by omega) (by omega)
      · by_cases c : j + p + 1 < pts.length
        · rw [interpKnot, if_neg (by omega), if_pos c]
          refine lt_of_lt_of_le (chordParam_strict hd (j := j + 1) (by omega) (by omega))
            (avgParam_bounds (a := chordParam dist pts (j + 1)) (b := 1) hp (fun l hl => ?_) (fun l hl => ?_)).1
          · exact chordParam_le hd (by omega) (by omega)
          · rw [← e1]; exact chordParam_le hd (by omega) (by omega)
        · rw [k1 _ (by omega), ← e1]; exact chordParam_strict hd (by omega) (by omega))
    (by
      have h0 := hspl 0 (by omega)
      rw [e0, spl_block (s := p) hk ⟨1, by omega, fun j _ hj => k0 j (by omega)⟩ hp (le_refl _) (by omega)
        (by rw [InSpan, if_neg zero_ne_one, k0 p (le_refl _)]; exact ⟨le_refl _, by have := hg.first; rwa [k0 p (le_refl _)] at this⟩),
        if_neg zero_ne_one, Nat.sub_self] at h0
      exact h0)
    (by
      have h0 := hspl (pts.length - 1) (by omega)
      rw [e1, spl_block (s := pts.length - 1) hk ⟨pts.length, by omega, fun j hj _ => k1 j hj⟩ hp (by omega) (le_refl _)
        (by
          rw [InSpan, if_pos rfl, k1 (pts.length - 1 + 1) (by omega)]
          have := hg.last
          rw [k1 (pts.length - 1 + 1) (by omega)] at this
          exact ⟨this, le_refl _⟩), if_pos rfl] at h0
      exact h0)
    (fun j _ hj => hspl j (by omega))
  funext j
  have := hzero j.1 (by have := j.2; omega)
  simp only [P, dif_pos j.2] at this
  exact this

/-- A regular square system has exactly one solution, also for right sides in a module. -/
theorem exists_unique_solves {A : List (List K)} {b : List W} (hdet : (rowsMatrix b.length A).det ≠ 0) :
    (∃ x, Solves A b x) ∧ ∀ x y, Solves A b x → Solves A b y → x = y := by
  have hu : IsUnit (rowsMatrix b.length A).det := isUnit_iff_ne_zero.2 hdet
  have hr := Matrix.mul_nonsing_inv _ hu
  have hl := Matrix.nonsing_inv_mul _ hu
  generalize hB : (rowsMatrix b.length A)⁻¹ = B at hr hl
  have hinv : ∀ {M N' : Matrix (Fin b.length) (Fin b.length) K}, M * N' = 1 → ∀ (w : Fin b.length → W) i,
      (Finset.univ.sum fun j => M i j • Finset.univ.sum fun l => N' j l • w l) = w i := by
    intro M N' h w i
    have : (Finset.univ.sum fun j => M i j • Finset.univ.sum fun l => N' j l • w l) =
        Finset.univ.sum fun l => (M * N') i l • w l := by
      simp only [Finset.smul_sum, smul_smul]
      rw [Finset.sum_comm]
      apply Finset.sum_congr rfl
      intro l _
      rw [Matrix.mul_apply, Finset.sum_smul]
    rw [this, h, Finset.sum_eq_single i]
    · rw [Matrix.one_apply_eq, one_smul]
    · intro l _ hl'; rw [Matrix.one_apply_ne (Ne.symm hl'), zero_smul]
    · intro h'; exact absurd (Finset.mem_univ _) h'
  have hget : ∀ (x : List W) (f : Fin b.length → K),
      ((Finset.range b.length).sum fun j => (if hj : j < b.length then f ⟨j, hj⟩ else 0) • x.getD j 0) =
        Finset.univ.sum fun j => f j • x.getD j 0 := by
    intro x f
    rw [Finset.sum_range]
    apply Finset.sum_congr rfl
    intro j _
    rw [dif_pos j.2]
  have hrow : ∀ (x : List W) (i : Fin b.length),
      ((Finset.range b.length).sum fun j => (A.getD i []).getD j 0 • x.getD j 0) =
        Finset.univ.sum fun j : Fin b.length => rowsMatrix b.length A i j • x.getD j 0 := by
    intro x i
    rw [Finset.sum_range]; rfl
  constructor
  · refine ⟨List.ofFn fun i : Fin b.length => Finset.univ.sum fun l : Fin b.length => B i l • b.getD l 0, by simp, fun i hi => ?_⟩
    rw [hrow _ ⟨i, hi⟩]
    have := hinv hr (fun l => b.getD l 0) ⟨i, hi⟩
    rw [← this]
    apply Finset.sum_congr rfl
    intro j _
    congr 1
    rw [List.getD_eq_getElem?_getD, List.getElem?_ofFn, dif_pos j.2]
    rfl
  · intro x y hx hy
    have key : ∀ z, Solves A b z → ∀ i : Fin b.length, z.getD i 0 = Finset.univ.sum fun l : Fin b.length => B i l • b.getD l 0 := by
      intro z hz i
      rw [← hinv hl (fun l => z.getD l 0) i]
      apply Finset.sum_congr rfl
      intro j _
      rw [← hrow z j, hz.2 j j.2]
    apply List.ext_getElem (by rw [hx.1, hy.1])
    intro i h1 h2
    have hi : i < b.length := by rw [← hx.1]; exact h1
    have e := (key x hx ⟨i, hi⟩).trans (key y hy ⟨i, hi⟩).symm
    simpa [List.getD_eq_getElem?_getD, List.getElem?_eq_getElem h1, List.getElem?_eq_getElem h2] using e

/-- **C90**: with neighbouring points apart and an exact solver the interpolation never fails; the curve passes through the
    points at their chord length parameters, and it is the only curve with these knots that does. -/
theorem C90_exists_unique {eps : K} {dist : W → W → K} {solve : List (List K) → List W → Option (List W)} {pts : List W}
    {p : ℕ} (hs : SolverSound solve) (hc : SolverRegular solve) (hp : 1 ≤ p) (hn : p + 1 ≤ pts.length) (he : 0 ≤ eps)
    (hd : ∀ i, i + 1 < pts.length → 0 < dist (pts.getD i 0) (pts.getD (i + 1) 0))
    (h1 : eps ≤ chordParam dist pts 1) (h2 : chordParam dist pts (pts.length - 2) + eps ≤ 1) :
    ∃ c, tryInterpolate eps dist solve pts p = .ok c ∧ c.Good eps ∧ c.lo = 0 ∧ c.hi = 1 ∧
      (∀ i, i < pts.length → c.pointAt eps (chordParam dist pts i) = .ok (pts.getD i 0)) ∧
      ∀ c' : Curve K (W × K), c'.degree = p → c'.knots = c.knots → c'.cps.length = pts.length → (∀ q ∈ c'.cps, q.2 = 1) →
        (∀ i, i < pts.length → c'.pointAt eps (chordParam dist pts i) = .ok (pts.getD i 0)) → c' = c := by
  obtain ⟨ks, hks, hg', k0, k1, hcp⟩ := controlPoints_eq (eps := eps) hp hn he hd h1 h2
  have hkl : ks.length = pts.length + p + 1 := by rw [hks]; simp [vec]
  obtain ⟨A, hAdef⟩ : ∃ A, A = mat pts.length pts.length fun i j => N (interpKnot dist pts p) 1 p j (chordParam dist pts i) := ⟨_, rfl⟩
  rw [← hAdef] at hcp
  have hA : A.length = pts.length := by rw [hAdef]; simp [mat, vec]
  have hrows : ∀ row ∈ A, row.length = pts.length := by
    intro row hr
    rw [hAdef] at hr
    simp only [mat, vec, List.mem_map] at hr
    obtain ⟨_, _, rfl⟩ := hr
    simp
  have hent : ∀ (i j : ℕ), i < pts.length → j < pts.length →
      (A.getD i []).getD j 0 = N (interpKnot dist pts p) 1 p j (chordParam dist pts i) := by
    intro i j hi hj
    rw [hAdef]
    simp [mat, vec, List.getD_eq_getElem?_getD, List.getElem?_range hi, List.getElem?_range hj]
  have hent' : ∀ (i j : ℕ), i < pts.length → j < pts.length →
      (A.getD i []).getD j 0 = N (kf ks) 1 p j (chordParam dist pts i) := by
    intro i j hi hj
    rw [hent i j hi hj]
    exact N_congr _ _ fun l _ hl => by rw [hks, kf_vec (by omega)]
  have hdet : (rowsMatrix pts.length A).det ≠ 0 := by
    have := collocation_det (dist := dist) hp hn hd
    convert this using 2
    ext i j
    exact hent i j i.2 j.2
  obtain ⟨x, hx⟩ := Option.ne_none_iff_exists'.1 (hc A pts hA hrows hdet)
  have hsx := hs A pts x hA hrows hx
  have hok : tryInterpolate eps dist solve pts p = .ok ⟨p, x.map homogenize, ks⟩ := by
    rw [tryInterpolate, hcp, hx]; rfl
  -- any curve with these knots
  have hgood : ∀ c' : Curve K (W × K), c'.degree = p → c'.knots = ks → c'.cps.length = pts.length →
      c'.Good eps ∧ c'.lo = 0 ∧ c'.hi = 1 := by
    intro c' d1 d2 d3
    refine ⟨⟨by omega, by rw [d1, d2, d3, hkl], by rw [d1, d2, d3]; exact hg'⟩, by rw [lo, d1, d2]; exact k0, ?_⟩
    rw [hi, d2, d3, ← k1]; congr 1; omega
  obtain ⟨g1, g2, g3⟩ := hgood ⟨p, x.map homogenize, ks⟩ rfl rfl (by simpa using hsx.1)
  obtain ⟨_, _, _, _, hpass⟩ := C35_passes_through hs hok
  refine ⟨_, hok, g1, g2, g3, hpass, fun c' d1 d2 d3 d4 d5 => ?_⟩
  obtain ⟨e0, e1⟩ := chordParam_ends hd (by omega)
  obtain ⟨b1, b2, b3⟩ := hgood c' d1 d2 d3
  have hsolves : Solves A pts (c'.cps.map Prod.fst) := by
    refine ⟨by simpa using d3, fun i hi => ?_⟩
    have t1 : c'.lo ≤ chordParam dist pts i := by rw [b2, ← e0]; exact chordParam_le hd (by omega) (by omega)
    have t2 : chordParam dist pts i ≤ c'.hi := by rw [b3, ← e1]; exact chordParam_le hd (by omega) (by omega)
    have hat := d5 i hi
    rw [(C09_point_at_positive_weights b1 (fun q hq => by rw [d4 q hq]; exact one_pos) t1 t2).1] at hat
    have hev : c'.eval (chordParam dist pts i) = (Finset.range pts.length).sum fun j =>
        (A.getD i []).getD j 0 • c'.cps.getD j 0 := by
      rw [Curve.eval, Spec.curve, hi_eq b1, b3, d1, d2, d3, show pts.length - 1 + 1 = pts.length by omega]
      apply Finset.sum_congr rfl
      intro j hj
      rw [hent' i j hi (Finset.mem_range.1 hj)]
    have hone : (c'.eval (chordParam dist pts i)).2 = 1 := by
      obtain ⟨s, _, hps, hsn, hin⟩ := b1.exists_span t1 t2
      rw [eval_eq_span b1 hps hsn hin, Prod.snd_sum, ← NS_sum_eq_one (k := kf c'.knots) (chordParam dist pts i) c'.degree hps
        (fun i j hi hj hj' => ne_across b1.good.mono (inSpan_lt hin) i j hi hj (by omega))]
      apply Finset.sum_congr rfl
      intro r hr
      have hr' := Finset.mem_range.1 hr
      have hlt : s - c'.degree + r < c'.cps.length := by omega
      have hm : c'.cps.getD (s - c'.degree + r) 0 ∈ c'.cps := by
        rw [List.getD_eq_getElem?_getD, List.getElem?_eq_getElem hlt]; exact List.getElem_mem _
      rw [Prod.smul_snd, d4 _ hm, smul_eq_mul, mul_one]
    rw [hone, inv_one, one_smul] at hat
    rw [← Except.ok.inj hat, hev, Prod.fst_sum]
    apply Finset.sum_congr rfl
    intro j hj
    have hj' : j < c'.cps.length := by rw [d3]; exact Finset.mem_range.1 hj
    simp [List.getD_eq_getElem?_getD, List.getElem?_eq_getElem hj']
  have hxeq := (exists_unique_solves (W := W) hdet).2 _ _ hsolves hsx
  obtain ⟨dg, cp, kn⟩ := c'
  simp only at d1 d2 d3 d4 hxeq ⊢
  subst d1 d2
  congr 1
  rw [← hxeq, List.map_map]
  refine ((List.map_congr_left (g := id) fun q hq => ?_).trans (List.map_id _)).symm
  rw [Function.comp, homogenize, ← d4 q hq]; rfl

/-- **C90**: with an exact solver a loft of unified sections never fails, whatever its degree in v. -/
theorem C90_loft {V : Type} [AddCommGroup V] [Module K V] {eps : K} {dist : V → V → K}
    {solve : List (List K) → List V → Option (List V)} {us : List (Curve K V)} {p : ℕ} {ks : List K} {degreeV : Option ℕ}
    (hs : SolverSound solve) (hc : SolverRegular solve) (he : 0 ≤ eps) (hR : LoftReady eps dist us degreeV p ks) :
    ∃ S, loftSections eps dist solve us degreeV = .ok S := by
  rw [C76_only_solver_can_fail hs he hR]
  intro i hi
  have h2 := hR.two
  have hd := hR.degree
  have hl : (columnPoints us i).length = us.length := by simp [columnPoints]
  have hdet := collocation_det (dist := dist) (pts := columnPoints us i) (p := min (degreeV.getD p) (us.length - 1))
    (by omega) (by omega) (hR.spaced i hi).pos
  rw [Option.isSome_iff_ne_none]
  apply hc
  · simp [columnMatrix]
  · intro row hr
    simp only [columnMatrix, List.mem_map] at hr
    obtain ⟨_, _, rfl⟩ := hr
    simp
  · convert hdet using 2
    ext i' j'
    simp [rowsMatrix, columnMatrix, List.getD_eq_getElem?_getD]

end ordered

/-- **C90**: with an exact solver a sweep exists, for every degree in v, as soon as the placed profiles do. -/
theorem C90_sweep {eps : ℝ} (he : 0 < eps) (he1 : eps < 1) {dist : V3 × ℝ → V3 × ℝ → ℝ}
    {solve : List (List ℝ) → List (V3 × ℝ) → Option (List (V3 × ℝ))} (hs : SolverSound solve) (hc : SolverRegular solve)
    {profile rail : Curve ℝ (V3 × ℝ)} (hp : profile.Good eps) (hw : ∀ p ∈ profile.cps, p.2 ≠ 0)
    (hends : profile.knots.head? = some profile.lo ∧ profile.knots.getLast? = some profile.hi) (hr : rail.Good eps)
    {degreeV : Option ℕ} (hv : 1 ≤ degreeV.getD profile.degree)
    {cs : List (Curve ℝ (V3 × ℝ))} (hcs : sweepSections eps profile rail = .ok cs)
    (hsp : ∀ i, i < profile.cps.length → Spaced eps dist (columnPoints cs i)) :
    ∃ S, trySweep eps dist solve profile rail degreeV = .ok S := by
  obtain ⟨fs, hl, hchain, hfr, hu, hR, hcol⟩ := sweep_ready he he1 hp hw hends hr hv hcs hsp
  obtain ⟨S, hS⟩ := C90_loft hs hc he.le hR
  exact ⟨S, by rw [trySweep, hcs, ok_bind, tryLoft, hu, ok_bind, hS]⟩

/-! ### Concrete cases -/

/-- The solver that finds every solution is one of those that solve regular systems. -/
theorem idealSolver_regular [IsStrictOrderedRing K] : SolverRegular (idealSolver (K := K) (V := W)) := by
  intro A b _ _ hdet h
  have := idealSolver_complete (K := K) (V := W) A b (exists_unique_solves hdet).1
  rw [h] at this
  cases this

/-- The quadratic through four points of `exData`. -/
example : ∃ c, tryInterpolate (1/1000) axisDist idealSolver exData 2 = .ok c ∧ c.Good (1/1000) ∧ c.lo = 0 ∧ c.hi = 1 ∧
      (∀ i, i < exData.length → c.pointAt (1/1000) (chordParam axisDist exData i) = .ok (exData.getD i 0)) ∧
      ∀ c' : Curve ℚ ((ℚ × ℚ) × ℚ), c'.degree = 2 → c'.knots = c.knots → c'.cps.length = exData.length → (∀ q ∈ c'.cps, q.2 = 1) →
        (∀ i, i < exData.length → c'.pointAt (1/1000) (chordParam axisDist exData i) = .ok (exData.getD i 0)) → c' = c := by
  refine C90_exists_unique idealSolver_sound idealSolver_regular (by omega) (by decide) (by norm_num) (fun i hi => ?_)
    (by decide +kernel) (by decide +kernel)
  have : ∀ i, i < 3 → 0 < axisDist (exData.getD i 0) (exData.getD (i + 1) 0) := by decide +kernel
  exact this i (by have : exData.length = 4 := rfl; omega)

/-- A loft of degree two through three sections. -/
example : ∃ S, loftSections (1/1000) axisDistW idealSolver exSections (some 2) = .ok S :=
  C90_loft idealSolver_sound idealSolver_regular (by norm_num) exSections_ready

end Curvo.Props

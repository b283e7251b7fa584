/-
  Property theorems about the weights of lofted surfaces: C101.
-/
import Verif.Props.InterpUnique

set_option linter.unusedSectionVars false
set_option linter.unusedSimpArgs false

namespace Curvo.Props

open Curvo Curvo.Knots Curvo.Spec Curvo.Interp Curvo.Loft Curvo.Frame

variable {K : Type} [Field K] [LinearOrder K] [IsStrictOrderedRing K] {W : Type} [AddCommGroup W] [Module K W]

/-- The basis functions of a curve sum up to one. -/
theorem basis_sum {V : Type} {eps : K} {c : Curve K V} (h : c.Good eps) {u : K} (h1 : c.lo ≤ u) (h2 : u ≤ c.hi) :
    ((Finset.range c.cps.length).sum fun j => N (kf c.knots) c.hi c.degree j u) = 1 := by
  have hpos := h.cps_pos
  have hd := h.good.le
  obtain ⟨s, hps, hsn, hs⟩ := exists_inSpan (k := kf c.knots) (p := c.degree) (n := c.cps.length - 1) (u := u) hd
    (lt_of_lt_of_le h.good.first (h.good.mono _ _ (by omega) (by omega))) h1 (by rw [Nat.sub_add_cancel hpos]; exact h2)
  have := curve_eq_span (V := K) h.good.mono (fun _ => (1 : K)) hps hsn hs
  simp only [smul_eq_mul, mul_one] at this
  rw [NS_sum_eq_one (k := kf c.knots) u c.degree hps
    (fun i j hi hj hj' => ne_across h.good.mono (Curve.inSpan_lt hs) i j hi hj (by omega)), Spec.curve, Nat.sub_add_cancel hpos] at this
  simpa [Curve.hi] using this

section
variable {eps : K} {dist : W × K → W × K → K} {solve : List (List K) → List (W × K) → Option (List (W × K))}
  {us : List (Curve K (W × K))} {p : ℕ} {ks : List K} {degreeV : Option ℕ} {S : Surface K (W × K)}

/-- The weights of a row of the loft solve the collocation system of the weights of its column. -/
theorem weights_solve (hs : SolverSound solve) (he : 0 ≤ eps) (hR : LoftReady eps dist us degreeV p ks)
    (h : loftSections eps dist solve us degreeV = .ok S) {i : ℕ} (hi : i < S.cps.length) :
    Solves (columnMatrix dist (columnPoints us i) (loftDegree us degreeV p)) ((columnPoints us i).map Prod.snd)
      ((S.row i).cps.map Prod.snd) ∧
    Solves (columnMatrix dist (columnPoints us i) (loftDegree us degreeV p)) (List.replicate us.length (1 : K))
      (List.replicate us.length (1 : K)) := by
  obtain ⟨c, c1, c2, c3, c4, c5, c6, c7, c8⟩ := loft_row hs he hR h hi
  have hl : (columnPoints us i).length = us.length := by simp [columnPoints]
  obtain ⟨hS, s1, s2, s3, s4, s5, s6, s7⟩ := C76_shape hs he hR h
  have hcd : c.degree = loftDegree us degreeV p := by rw [← c2]; exact s3
  have hsp := hR.spaced i (by omega)
  have h2 := hR.two
  obtain ⟨e0, e1⟩ := chordParam_ends hsp.pos (by omega)
  have hent : ∀ k j, k < us.length → j < us.length →
      ((columnMatrix dist (columnPoints us i) (loftDegree us degreeV p)).getD k []).getD j 0 =
        N (kf c.knots) c.hi c.degree j (chordParam dist (columnPoints us i) k) := by
    intro k j hk hj
    simp only [columnMatrix, List.getD_eq_getElem?_getD, List.getElem?_map, hl, List.getElem?_range hk,
      List.getElem?_range hj, Option.map_some, Option.getD_some]
    rw [c6, hcd]
    refine N_congr _ _ fun l _ hl' => ?_
    rw [c7, kf_vec (by omega)]
  constructor
  · refine ⟨by simp [c1, c4, hl], fun k hk => ?_⟩
    rw [List.length_map, hl] at hk ⊢
    have hev := congrArg Prod.snd (c8 k hk)
    rw [Surface.curve_eval_eq c3.cps_pos, Prod.snd_sum, c4] at hev
    rw [show ((columnPoints us i).map Prod.snd).getD k 0 = ((columnPoints us i).getD k 0).2 by
      simp [List.getD_eq_getElem?_getD, List.getElem?_eq_getElem (hl.symm ▸ hk)], ← hev]
    refine Finset.sum_congr rfl fun j hj => ?_
    have hj := Finset.mem_range.1 hj
    rw [hent k j hk hj, c1, Prod.smul_snd]
    simp [List.getD_eq_getElem?_getD, List.getElem?_eq_getElem (show j < c.cps.length by omega)]
  · refine ⟨rfl, fun k hk => ?_⟩
    rw [List.length_replicate] at hk ⊢
    have hone : ∀ j, j < us.length → (List.replicate us.length (1 : K)).getD j 0 = 1 := fun j hj => by
      rw [List.getD_eq_getElem?_getD, List.getElem?_replicate, if_pos hj]; rfl
    rw [hone k hk]
    have t1 : c.lo ≤ chordParam dist (columnPoints us i) k := by
      rw [c5, ← e0]; exact chordParam_le hsp.pos (by omega) (by omega)
    have t2 : chordParam dist (columnPoints us i) k ≤ c.hi := by
      rw [c6, ← e1]; exact chordParam_le hsp.pos (by omega) (by omega)
    refine Eq.trans (Finset.sum_congr rfl fun j hj => ?_) (c4 ▸ basis_sum c3 t1 t2)
    have hj := Finset.mem_range.1 hj
    rw [hent k j hk hj, hone j hj, smul_eq_mul, mul_one]

theorem columnMatrix_det (hR : LoftReady eps dist us degreeV p ks) {i : ℕ} (hi : i + p + 1 < ks.length) :
    (rowsMatrix us.length (columnMatrix dist (columnPoints us i) (loftDegree us degreeV p))).det ≠ 0 := by
  have h2 := hR.two
  have hd := hR.degree
  have hl : (columnPoints us i).length = us.length := by simp [columnPoints]
  have hdet := collocation_det (dist := dist) (pts := columnPoints us i) (p := min (degreeV.getD p) (us.length - 1))
    (by omega) (by omega) (hR.spaced i hi).pos
  rw [← hl]
  convert hdet using 2
  ext i' j'
  simp [rowsMatrix, columnMatrix, List.getD_eq_getElem?_getD, loftDegree]

/-- **Equal weights**: if the sections agree in the weight of their `i`-th control points, the loft has this weight along the whole
    `i`-th row of control points. -/
theorem C101_equal_weights (hs : SolverSound solve) (he : 0 ≤ eps) (hR : LoftReady eps dist us degreeV p ks)
    (h : loftSections eps dist solve us degreeV = .ok S) {i : ℕ} (hi : i < S.cps.length) {w : K}
    (hw : ∀ c ∈ us, (c.cps.getD i 0).2 = w) {j : ℕ} (hj : j < S.cols) : (S.cp i j).2 = w := by
  obtain ⟨hS, s1, s2, s3, s4, s5, s6, s7⟩ := C76_shape hs he hR h
  obtain ⟨a1, a2⟩ := weights_solve hs he hR h hi
  have hb : (columnPoints us i).map Prod.snd = List.replicate us.length w := by
    rw [columnPoints, List.map_map]
    refine List.eq_replicate_iff.2 ⟨by simp, fun b hb => ?_⟩
    obtain ⟨c, hc, rfl⟩ := List.mem_map.1 hb
    exact hw c hc
  have a3 : Solves (columnMatrix dist (columnPoints us i) (loftDegree us degreeV p)) (List.replicate us.length w)
      (List.replicate us.length w) := by
    refine ⟨rfl, fun k hk => ?_⟩
    have := a2.2 k (by simpa using hk)
    rw [List.length_replicate] at this hk ⊢
    have hone : ∀ (x : K) j, j < us.length → (List.replicate us.length x).getD j 0 = x := fun x j hj => by
      rw [List.getD_eq_getElem?_getD, List.getElem?_replicate, if_pos hj]; rfl
    rw [hone _ k hk] at this ⊢
    refine Eq.trans ?_ ((congrArg (fun x => w * x) this).trans (mul_one w))
    rw [Finset.mul_sum]
    refine Finset.sum_congr rfl fun j hj => ?_
    have hj := Finset.mem_range.1 hj
    rw [hone _ j hj, hone _ j hj, smul_eq_mul, smul_eq_mul]; ring
  rw [hb] at a1
  have hdet := columnMatrix_det hR (i := i) (by omega)
  have := (exists_unique_solves (W := K) (b := List.replicate us.length w) (by rw [List.length_replicate]; exact hdet)).2 _ _ a1 a3
  have hjl : j < us.length := s6 ▸ hj
  have hrl : (S.row i).cps.length = us.length := (hS.row_len hi).trans s6
  have e := congrArg (fun l => l.getD j 0) this
  simp only [List.getD_eq_getElem?_getD, List.getElem?_map, List.getElem?_eq_getElem (show j < (S.row i).cps.length by omega),
    List.getElem?_replicate, if_pos hjl, Option.map_some, Option.getD_some] at e
  rw [← e]
  have : S.cp i j = (S.row i).cps.getD j 0 := rfl
  rw [this, List.getD_eq_getElem?_getD, List.getElem?_eq_getElem (by omega)]
  rfl

/-- **Linear lofts**: with v degree one the weights of the loft are those of the sections. -/
theorem C101_linear (hs : SolverSound solve) (he : 0 ≤ eps) (hR : LoftReady eps dist us degreeV p ks)
    (h : loftSections eps dist solve us degreeV = .ok S) (h1 : min (degreeV.getD p) (us.length - 1) = 1) {i j : ℕ}
    (hi : i < S.cps.length) (hj : j < us.length) : S.cp i j = us[j].cps.getD i 0 := by
  obtain ⟨c, c1, c2, c3, c4, c5, c6, c7, c8⟩ := loft_row hs he hR h hi
  have hl : (columnPoints us i).length = us.length := by simp [columnPoints]
  obtain ⟨hS, s1, s2, s3, s4, s5, s6, s7⟩ := C76_shape hs he hR h
  have h1' : loftDegree us degreeV p = 1 := h1
  have hcd : c.degree = 1 := by rw [← c2, ← h1']; exact s3
  have hsp := hR.spaced i (by omega)
  have h2 := hR.two
  have hev := c8 j hj
  rw [Surface.curve_eval_eq c3.cps_pos, c4, Finset.sum_eq_single j] at hev
  · have hN : N (kf c.knots) c.hi c.degree j (chordParam dist (columnPoints us i) j) = 1 := by
      rw [c6, hcd]
      refine Eq.trans (N_congr _ _ fun l _ hl' => ?_) ((C35_degree_one (by omega) hsp.pos (by omega : j < _) (by omega : j < _)).trans (if_pos rfl))
      rw [c7, h1', kf_vec (by omega)]
    rw [hN, one_smul, ← c1] at hev
    have : S.cp i j = (S.row i).cps.getD j 0 := rfl
    rw [this, hev]
    simp [columnPoints, List.getD_eq_getElem?_getD, hj]
  · intro l hl' hne
    have hl' := Finset.mem_range.1 hl'
    have hN : N (kf c.knots) c.hi c.degree l (chordParam dist (columnPoints us i) j) = 0 := by
      rw [c6, hcd]
      refine Eq.trans (N_congr _ _ fun l _ hl' => ?_) ((C35_degree_one (by omega) hsp.pos (by omega : j < _) (by omega : l < _)).trans (if_neg (Ne.symm hne)))
      rw [c7, h1', kf_vec (by omega)]
    rw [hN, zero_smul]
  · intro h'; exact absurd (Finset.mem_range.2 hj) h'

theorem cp_of_mem (hS : S.Good eps) {row : List (W × K)} (hr : row ∈ S.cps) {q : W × K} (hq : q ∈ row) :
    ∃ i j, i < S.cps.length ∧ j < S.cols ∧ q = S.cp i j := by
  obtain ⟨i, hi, rfl⟩ := List.mem_iff_getElem.1 hr
  obtain ⟨j, hj, rfl⟩ := List.mem_iff_getElem.1 hq
  have hlen := hS.rect _ (List.getElem_mem hi)
  refine ⟨i, j, hi, by omega, ?_⟩
  rw [Surface.cp]
  simp [List.getD_eq_getElem?_getD, hi, hj]

/-- **Finite lofts**: sections with positive weights that agree from section to section, or v degree one: the loft can be evaluated on
    its whole domain. -/
theorem C101_finite (hs : SolverSound solve) (he : 0 ≤ eps) (hR : LoftReady eps dist us degreeV p ks)
    (h : loftSections eps dist solve us degreeV = .ok S) (hpos : ∀ c ∈ us, ∀ q ∈ c.cps, 0 < q.2)
    (hw : (∀ c ∈ us, ∀ c' ∈ us, ∀ i, (c.cps.getD i 0).2 = (c'.cps.getD i 0).2) ∨ min (degreeV.getD p) (us.length - 1) = 1) :
    (∀ row ∈ S.cps, ∀ q ∈ row, 0 < q.2) ∧
      ∀ u v, S.ulo ≤ u → u ≤ S.uhi → 0 ≤ v → v ≤ 1 → ∃ x, S.pointAt eps u v = .ok x := by
  obtain ⟨hS, s1, s2, s3, s4, s5, s6, s7⟩ := C76_shape hs he hR h
  have htwo := hR.two
  have hlen : ∀ c ∈ us, c.cps.length = S.cps.length := fun c hc => by
    have := (hR.unified.good c hc).knots_len
    rw [hR.unified.degree c hc, hR.unified.knots c hc] at this
    omega
  have hmem : ∀ c ∈ us, ∀ i, i < S.cps.length → 0 < (c.cps.getD i 0).2 := fun c hc i hi => by
    have hi' : i < c.cps.length := by rw [hlen c hc]; exact hi
    rw [List.getD_eq_getElem?_getD, List.getElem?_eq_getElem hi']
    exact hpos c hc _ (List.getElem_mem _)
  have hall : ∀ row ∈ S.cps, ∀ q ∈ row, 0 < q.2 := by
    intro row hr q hq
    obtain ⟨i, j, hi, hj, rfl⟩ := cp_of_mem hS hr hq
    rcases hw with hw | hw
    · have h0 : us[0] ∈ us := List.getElem_mem (by omega)
      rw [C101_equal_weights hs he hR h hi (fun c hc => hw c hc _ h0 i) hj]
      exact hmem _ h0 i hi
    · rw [C101_linear hs he hR h hw hi (s6 ▸ hj)]
      exact hmem _ (List.getElem_mem _) i hi
  exact ⟨hall, fun u v h1 h2 h3 h4 => ⟨_, (C28_point_at hS hall h1 h2 (by rw [s4]; exact h3) (by rw [s5]; exact h4)).1⟩⟩

end

/-- **Finite sweeps**: all sections of a sweep carry the weights of the profile, so with positive weights the swept surface can be
    evaluated on its whole domain. -/
theorem C101_sweep {eps : ℝ} (he : 0 < eps) (he1 : eps < 1) {dist : V3 × ℝ → V3 × ℝ → ℝ}
    {solve : List (List ℝ) → List (V3 × ℝ) → Option (List (V3 × ℝ))} (hs : SolverSound solve)
    {profile rail : Curve ℝ (V3 × ℝ)} (hp : profile.Good eps) (hw : ∀ p ∈ profile.cps, 0 < p.2)
    (hends : profile.knots.head? = some profile.lo ∧ profile.knots.getLast? = some profile.hi) (hr : rail.Good eps)
    {degreeV : Option ℕ} (hv : 1 ≤ degreeV.getD profile.degree)
    {cs : List (Curve ℝ (V3 × ℝ))} (hcs : sweepSections eps profile rail = .ok cs)
    (hsp : ∀ i, i < profile.cps.length → Spaced eps dist (columnPoints cs i)) {S : Surface ℝ (V3 × ℝ)}
    (h : trySweep eps dist solve profile rail degreeV = .ok S) :
    (∀ row ∈ S.cps, ∀ q ∈ row, 0 < q.2) ∧
      ∀ u v, S.ulo ≤ u → u ≤ S.uhi → 0 ≤ v → v ≤ 1 → ∃ x, S.pointAt eps u v = .ok x := by
  obtain ⟨fs, hl, hchain, hfr, hu, hR, hcol⟩ := sweep_ready he he1 hp (fun p hp => (hw p hp).ne') hends hr hv hcs hsp
  rw [trySweep, hcs, ok_bind, tryLoft, hu, ok_bind] at h
  have hcps : ∀ f, (placed profile f).cps = profile.cps.map (place f) := fun f => rfl
  refine C101_finite hs he.le hR h (fun c hc q hq => ?_) (Or.inl fun c hc c' hc' i => ?_)
  · obtain ⟨f, -, rfl⟩ := List.mem_map.1 hc
    rw [hcps] at hq
    obtain ⟨p, hp, rfl⟩ := List.mem_map.1 hq
    exact hw p hp
  · obtain ⟨f, -, rfl⟩ := List.mem_map.1 hc
    obtain ⟨f', -, rfl⟩ := List.mem_map.1 hc'
    rw [hcps, hcps, List.getD_eq_getElem?_getD, List.getD_eq_getElem?_getD, List.getElem?_map, List.getElem?_map]
    cases profile.cps[i]? <;> rfl

/-- The swept strip of `exProfile` along `exRail` has positive weights and can be evaluated everywhere. -/
example : ∃ S, trySweep (1/1000) homDist idealSolver exProfile exRail (some 1) = .ok S ∧
    (∀ row ∈ S.cps, ∀ q ∈ row, 0 < q.2) ∧
    ∀ u v, S.ulo ≤ u → u ≤ S.uhi → 0 ≤ v → v ≤ 1 → ∃ x, S.pointAt (1/1000) u v = .ok x := by
  have hlo : exProfile.lo = 0 := by simp [exProfile, Curve.lo, kf]
  have hhi : exProfile.hi = 1 := by simp [exProfile, Curve.hi, kf]
  have hw : ∀ p ∈ exProfile.cps, (0 : ℝ) < p.2 := by simp [exProfile]
  have hw' : ∀ p ∈ exProfile.cps, p.2 ≠ 0 := fun p hp => (hw p hp).ne'
  have he : (0 : ℝ) < 1/1000 := by norm_num
  have he1 : (1/1000 : ℝ) < 1 := by norm_num
  have hends : exProfile.knots.head? = some exProfile.lo ∧ exProfile.knots.getLast? = some exProfile.hi := by
    rw [hlo, hhi]; simp [exProfile]
  have hrl : exRail.cps.length * 2 = 4 := rfl
  have hsec : ∃ cs, sweepSections (1/1000) exProfile exRail = .ok cs := by
    obtain ⟨fs, hf⟩ := C75_frames_exist he1 (c := exRail)
      (params := (List.range (exRail.cps.length * 2)).map fun (i : ℕ) =>
        exRail.lo + (i : ℝ) * ((exRail.hi - exRail.lo) / ((exRail.cps.length * 2 - 1 : ℕ) : ℝ))) (by simp [hrl]) (by
      intro u hu
      obtain ⟨k, hk, rfl⟩ := List.mem_map.1 hu
      have hk := List.mem_range.1 hk
      obtain ⟨e, hm⟩ := exRail_param (k := k) (by omega)
      refine ⟨⟨_, exRail_hpos k hk⟩, ![1, 0, 0], ?_, ?_⟩
      · change exRail.tangentAt (1/1000) (railParam exRail k) = _
        rw [e, exRail_tangent hm]
      · intro h0
        have := congrFun h0 0
        simp at this)
    have ho := C75_frames_orthonormal he1 hf
    rw [sweepSections, railParameters_eq exRail_good, ok_bind, hf, ok_bind,
      mapM_ok (g := fun f => exProfile.mapCps (place f)) (fun f hf' => by
        obtain ⟨i, hi, rfl⟩ := List.mem_iff_getElem.1 hf'
        exact frame_transform (ho.get (i := i) (by rw [ho.length_eq]; exact hi) hi).1 hw')]
    exact ⟨_, rfl⟩
  obtain ⟨cs, hcs⟩ := hsec
  obtain ⟨-, hcols⟩ := straight_spaced he1 hw' exRail_good exRail_hT exRail_hpos exRail_spaced
  obtain ⟨S, hS⟩ := C77_degree_one he he1 idealSolver_sound idealSolver_complete exProfile_good hw' hends exRail_good hcs
    (hcols cs hcs)
  exact ⟨S, hS, C101_sweep he he1 idealSolver_sound exProfile_good hw hends exRail_good (le_refl 1) hcs (hcols cs hcs) hS⟩

/-! ### A pole -/

/-- Three segments, from `(0, 0)`, `(0, 0)`, `(9, 0)` to `(0, 1)`, `(0, 10)`, `(9, 10)`. The control points of the first have weight one,
    those of the others one tenth. -/
def exPole : List (Curve ℚ ((ℚ × ℚ) × ℚ)) :=
  [⟨1, [((0, 0), 1), ((0, 1), 1)], [0, 0, 1, 1]⟩, ⟨1, [((0, 0), 1/10), ((0, 1), 1/10)], [0, 0, 1, 1]⟩,
   ⟨1, [((9/10, 0), 1/10), ((9/10, 1), 1/10)], [0, 0, 1, 1]⟩]

theorem exPole_ready : LoftReady (1/1000) axisDistW exPole (some 2) 1 [0, 0, 1, 1] := by
  refine ⟨⟨fun c hc => ?_, by decide +kernel, by decide +kernel⟩, by decide, by decide, fun i hi => ?_⟩
  · have hgap : ∀ c ∈ exPole, (0 < c.cps.length ∧ c.knots.length = c.cps.length + c.degree + 1 ∧
        c.degree ≤ c.cps.length - 1 ∧ c.knots.Pairwise (· ≤ ·)) ∧
        kf c.knots c.degree + 1/1000 ≤ kf c.knots (c.degree + 1) ∧
        kf c.knots (c.cps.length - 1) + 1/1000 ≤ kf c.knots (c.cps.length - 1 + 1) := by decide +kernel
    obtain ⟨⟨h1, h2, h3, h4⟩, h5, h6⟩ := hgap c hc
    exact ⟨h1, h2, by norm_num, h3, mono_of_sorted h4 (by omega), by linarith, by linarith, h5, h6⟩
  · have hi : i < 2 := by simp at hi; omega
    have h3 : ∀ i, i < 2 → ∀ k, k < 2 → 0 < axisDistW ((columnPoints exPole i).getD k 0)
        ((columnPoints exPole i).getD (k + 1) 0) := by decide +kernel
    have h4 : ∀ i, i < 2 → 1/1000 ≤ chordParam axisDistW (columnPoints exPole i) 1 := by decide +kernel
    have h5 : ∀ i, i < 2 → chordParam axisDistW (columnPoints exPole i) ((columnPoints exPole i).length - 2) +
        1/1000 ≤ 1 := by decide +kernel
    exact ⟨fun k hk => h3 i hi k (by
      have : (columnPoints exPole i).length = 3 := by simp [columnPoints, exPole]
      omega), h4 i hi, h5 i hi⟩

/-- **C101** (defect): the weights are interpolated like coordinates, so they need not stay positive. The loft of these three segments,
    all with positive weights, cannot be evaluated at any point with `v = 2/3`, whatever (correct) solver is used. -/
theorem C101_pole {solve : List (List ℚ) → List ((ℚ × ℚ) × ℚ) → Option (List ((ℚ × ℚ) × ℚ))}
    (hs : SolverSound solve) {S : Surface ℚ ((ℚ × ℚ) × ℚ)} (h : loftSections (1/1000) axisDistW solve exPole (some 2) = .ok S)
    {u : ℚ} (h0 : 0 ≤ u) (h1 : u ≤ 1) : S.pointAt (1/1000) u (2/3) = .error .panic := by
  have he : (0 : ℚ) ≤ 1/1000 := by norm_num
  obtain ⟨hG, s1, s2, s3, s4, s5, s6, s7⟩ := C76_shape hs he exPole_ready h
  have hn : S.cps.length = 2 := by simp at s7; omega
  have hq : S.vDegree = 2 := by rw [s3]; decide
  have s6 : S.cols = 3 := s6
  have hvk : S.vKnots = [0, 0, 0, 1, 1, 1] := by
    rw [loft_vKnots hs he exPole_ready h, hn]; decide +kernel
  have hulo : S.ulo = 0 := by rw [Surface.ulo, s1, s2]; decide +kernel
  have huhi : S.uhi = 1 := by rw [Surface.uhi, hn, s2]; decide +kernel
  have hw : ∀ i, i < 2 → (S.cp i 0).2 = 1 ∧ (S.cp i 1).2 = -7/20 ∧ (S.cp i 2).2 = 1/10 := by
    intro i hi
    obtain ⟨⟨-, a⟩, -⟩ := weights_solve hs he exPole_ready h (i := i) (by omega)
    have m : ∀ i, i < 2 → ∀ k, k < 3 → ∀ j, j < 3 → ((columnMatrix axisDistW (columnPoints exPole i) (loftDegree exPole (some 2) 1)).getD k []).getD j 0 =
        (([[1, 0, 0], [1/4, 1/2, 1/4], [0, 0, 1]] : List (List ℚ)).getD k []).getD j 0 := by decide +kernel
    have b : ∀ i, i < 2 → (columnPoints exPole i).map Prod.snd = [1, 1/10, 1/10] := by decide +kernel
    rw [b i hi] at a
    have hrl : (S.row i).cps.length = 3 := (hG.row_len (by omega)).trans s6
    have hc : ∀ j, j < 3 → ((S.row i).cps.map Prod.snd).getD j 0 = (S.cp i j).2 := fun j hj => by
      rw [show S.cp i j = (S.row i).cps.getD j 0 from rfl]
      simp [List.getD_eq_getElem?_getD, List.getElem?_eq_getElem (show j < (S.row i).cps.length by omega)]
    have q0 := a 0 (by simp)
    have q1 := a 1 (by simp)
    have q2 := a 2 (by simp)
    simp only [List.length_cons, List.length_nil, Finset.sum_range_succ, Finset.sum_range_zero, zero_add, smul_eq_mul,
      m i hi 0 (by norm_num) 0 (by norm_num), m i hi 0 (by norm_num) 1 (by norm_num), m i hi 0 (by norm_num) 2 (by norm_num),
      m i hi 1 (by norm_num) 0 (by norm_num), m i hi 1 (by norm_num) 1 (by norm_num), m i hi 1 (by norm_num) 2 (by norm_num),
      m i hi 2 (by norm_num) 0 (by norm_num), m i hi 2 (by norm_num) 1 (by norm_num), m i hi 2 (by norm_num) 2 (by norm_num),
      hc 0 (by norm_num), hc 1 (by norm_num), hc 2 (by norm_num)] at q0 q1 q2
    simp at q0 q1 q2
    refine ⟨by linarith, by linarith, by linarith⟩
  have hev : (S.eval u (2/3)).2 = 0 := by
    have n0 : N (kf [0, 0, 0, 1, 1, 1]) 1 2 0 (2/3 : ℚ) = 1/9 := by decide +kernel
    have n1 : N (kf [0, 0, 0, 1, 1, 1]) 1 2 1 (2/3 : ℚ) = 4/9 := by decide +kernel
    have n2 : N (kf [0, 0, 0, 1, 1, 1]) 1 2 2 (2/3 : ℚ) = 4/9 := by decide +kernel
    rw [Surface.eval, hn, s6, s5, hq, hvk, Prod.snd_sum]
    refine Finset.sum_eq_zero fun i hi => ?_
    obtain ⟨w0, w1, w2⟩ := hw i (Finset.mem_range.1 hi)
    rw [Prod.snd_sum]
    simp only [Finset.sum_range_succ, Finset.sum_range_zero, Prod.smul_snd, smul_eq_mul, w0, w1, w2, n0, n1, n2]
    ring
  rw [Surface.pointAt, Surface.point_eq_eval hG (by rw [hulo]; exact h0) (by rw [huhi]; exact h1) (by rw [s4]; norm_num)
    (by rw [s5]; norm_num), ok_bind, Curve.dehomogenize, if_neg (by rw [hev]; simp)]
  rfl

/-- The sections have positive weights, their loft exists with every exact solver. -/
example : (∀ c ∈ exPole, ∀ q ∈ c.cps, 0 < q.2) ∧ ∀ solve : List (List ℚ) → List ((ℚ × ℚ) × ℚ) → Option (List ((ℚ × ℚ) × ℚ)),
    SolverSound solve → SolverRegular solve → ∃ S, loftSections (1/1000) axisDistW solve exPole (some 2) = .ok S :=
  ⟨by decide +kernel, fun _ hs hc => C90_loft hs hc (by norm_num) exPole_ready⟩

/-- With equal weights the loft is finite. -/
example {S : Surface ℚ ((ℚ × ℚ) × ℚ)} (h : loftSections (1/1000) axisDistW (listSolver exAnswers) exSections (some 2) = .ok S)
    {u v : ℚ} (h1 : S.ulo ≤ u) (h2 : u ≤ S.uhi) (h3 : 0 ≤ v) (h4 : v ≤ 1) : ∃ x, S.pointAt (1/1000) u v = .ok x :=
  (C101_finite (listSolver_sound _) (by norm_num) exSections_ready h (by decide +kernel) (Or.inl fun c hc c' hc' i => by
    have a : ∀ c ∈ exSections, c.cps.map Prod.snd = [1, 1] := by decide +kernel
    have e : ∀ c : Curve ℚ ((ℚ × ℚ) × ℚ), (c.cps.getD i 0).2 = (c.cps.map Prod.snd).getD i 0 := fun c => by
      simp only [List.getD_eq_getElem?_getD, List.getElem?_map]
      cases c.cps[i]? <;> rfl
    rw [e, e, a c hc, a c' hc'])).2 u v h1 h2 h3 h4

/-- A linear loft keeps the weights. -/
example {solve : List (List ℚ) → List ((ℚ × ℚ) × ℚ) → Option (List ((ℚ × ℚ) × ℚ))} (hs : SolverSound solve)
    {S : Surface ℚ ((ℚ × ℚ) × ℚ)} (h : loftSections (1/1000) axisDistW solve exPole (some 1) = .ok S)
    {u v : ℚ} (h1 : S.ulo ≤ u) (h2 : u ≤ S.uhi) (h3 : 0 ≤ v) (h4 : v ≤ 1) : ∃ x, S.pointAt (1/1000) u v = .ok x :=
  (C101_finite hs (by norm_num) ⟨exPole_ready.unified, exPole_ready.two, by decide, exPole_ready.spaced⟩ h (by decide +kernel)
    (Or.inr (by decide))).2 u v h1 h2 h3 h4

end Curvo.Props

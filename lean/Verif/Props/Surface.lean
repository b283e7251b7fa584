/-
  Property theorems about surfaces: C28, C29, C30, C31.
-/
import Verif.Lemmas.Surface
import Verif.Props.Curve2
import Verif.Props.Regular
import Verif.Props.BBox
import Verif.Lemmas.Refine2

set_option linter.unusedSectionVars false

namespace Curvo.Props

open Curvo Curvo.Knots Curvo.Spec Curvo.Surface

variable {K : Type} [Field K] [LinearOrder K] [IsStrictOrderedRing K]
variable {V W : Type} [AddCommGroup V] [Module K V] [AddCommGroup W] [Module K W]

/-- Witness: a rational surface of degrees 2 and 1 with inner knots. -/
def exSurf : Surface ℚ ((ℚ × ℚ) × ℚ) where
  uDegree := 2
  vDegree := 1
  uKnots := [0, 0, 0, 1, 2, 2, 2]
  vKnots := [0, 0, 1, 3, 3]
  cps := [[((0, 0), 1), ((1, 0), 1), ((2, 1), 2)], [((0, 1), 1), ((1, 1), 3), ((2, 2), 1)],
          [((0, 3), 1), ((2, 4), 2), ((5, 1), 1)], [((1, 5), 1), ((3, 0), 1), ((2, 9), 1)]]

theorem exSurf_good : exSurf.Good (1/1000) where
  rows_pos := by decide
  u_len := by decide
  u_good := by
    refine ⟨by norm_num, by decide, ?_, ?_, ?_, ?_, ?_⟩
    · intro i j hij hj
      exact (by decide +kernel : ∀ i ≤ 6, ∀ j ≤ 6, i ≤ j → kf exSurf.uKnots i ≤ kf exSurf.uKnots j)
        i (by have : j ≤ 6 := hj; omega) j hj hij
    all_goals simp [exSurf, kf]; try norm_num
  cols_pos := by decide
  v_good := by
    refine ⟨by norm_num, by decide, ?_, ?_, ?_, ?_, ?_⟩
    · intro i j hij hj
      exact (by decide +kernel : ∀ i ≤ 4, ∀ j ≤ 4, i ≤ j → kf exSurf.vKnots i ≤ kf exSurf.vKnots j)
        i (by have : j ≤ 4 := hj; omega) j hj hij
    all_goals simp [exSurf, kf, Surface.cols]; try norm_num
  rect := by decide

theorem exSurf_weights : ∀ row ∈ exSurf.cps, ∀ p ∈ row, 0 < p.2 := by decide +kernel

/-! ### C28 -/

/-- Evaluation is the tensor product sum over all control points. -/
theorem C28_point {eps : K} {S : Surface K V} (h : S.Good eps) {u v : K} (h1 : S.ulo ≤ u) (h2 : u ≤ S.uhi)
    (h3 : S.vlo ≤ v) (h4 : v ≤ S.vhi) : S.point eps u v = .ok (S.eval u v) :=
  Surface.point_eq_eval h h1 h2 h3 h4

example : exSurf.point (1/1000) (3/2) 2 = .ok (exSurf.eval (3/2) 2) :=
  C28_point exSurf_good (by simp [exSurf, Surface.ulo, kf]; norm_num) (by simp [exSurf, Surface.uhi, kf]; norm_num)
    (by simp [exSurf, Surface.vlo, kf]) (by simp [exSurf, Surface.vhi, kf, Surface.cols]; norm_num)

theorem surf_weight_pos {eps : K} {S : Surface K (W × K)} (h : S.Good eps)
    (hw : ∀ row ∈ S.cps, ∀ p ∈ row, 0 < p.2) {u v : K} (h1 : S.ulo ≤ u) (h2 : u ≤ S.uhi)
    (h3 : S.vlo ≤ v) (h4 : v ≤ S.vhi) : 0 < (S.eval u v).2 := by
  rw [eval_eq_isoU h]
  refine eval_weight_pos (h.isoU u) h3 (by rw [isoU_hi]; exact h4) ?_
  intro p hp
  obtain ⟨j, hj, rfl⟩ := List.mem_map.1 hp
  have hj := List.mem_range.1 hj
  refine eval_weight_pos (h.col j) h1 (by rw [col_hi]; exact h2) ?_
  intro p hp
  obtain ⟨row, hrow, rfl⟩ := List.mem_map.1 hp
  refine hw row hrow _ ?_
  have := h.rect row hrow
  rw [List.getD_eq_getElem?_getD, List.getElem?_eq_getElem (by omega)]
  exact List.getElem_mem _

/-- With positive weights the evaluated point is the quotient. -/
theorem C28_point_at {eps : K} {S : Surface K (W × K)} (h : S.Good eps)
    (hw : ∀ row ∈ S.cps, ∀ p ∈ row, 0 < p.2) {u v : K} (h1 : S.ulo ≤ u) (h2 : u ≤ S.uhi)
    (h3 : S.vlo ≤ v) (h4 : v ≤ S.vhi) :
    S.pointAt eps u v = .ok ((S.eval u v).2⁻¹ • (S.eval u v).1) ∧ 0 < (S.eval u v).2 := by
  have hp := surf_weight_pos h hw h1 h2 h3 h4
  refine ⟨?_, hp⟩
  rw [Surface.pointAt, Surface.point_eq_eval h h1 h2 h3 h4, ok_bind, Curve.dehomogenize, if_pos hp.ne']
  rfl

/-- Regular sampling returns the grid of surface points at equally spaced parameters, from one end of the
    domain to the other. -/
theorem C28_regular_samples {eps : K} {S : Surface K (W × K)} (h : S.Good eps)
    (hw : ∀ row ∈ S.cps, ∀ p ∈ row, 0 < p.2) {du dv : ℕ} (hdu : 0 < du) (hdv : 0 < dv) :
    ∃ rows, S.regularSamplePoints eps du dv = .ok rows ∧ rows.length = du + 1 ∧
      ∀ i j : ℕ, i ≤ du → j ≤ dv → ∃ row p, rows[i]? = some row ∧ row.length = dv + 1 ∧ row[j]? = some p ∧
        S.pointAt eps (S.ulo + i * ((S.uhi - S.ulo) / du)) (S.vlo + j * ((S.vhi - S.vlo) / dv)) = .ok p := by
  have hr := h.rows_pos
  have hc := h.cols_pos
  have hul := h.u_len
  have hvl := h.v_len
  have e1 : S.cps.length - 1 + 1 = S.cps.length := by omega
  have e2 : S.cols - 1 + 1 = S.cols := by omega
  obtain ⟨Lu, eu, lu, hu⟩ := C66_regularly_spaced (n := S.cps.length - 1) (by omega) h.u_good hdu
  obtain ⟨Lv, ev, lv, hv⟩ := C66_regularly_spaced (n := S.cols - 1) (by omega) h.v_good hdv
  rw [e1] at hu
  rw [e2] at hv
  set U : ℕ → K := fun i => S.ulo + i * ((S.uhi - S.ulo) / du) with hU
  set Vv : ℕ → K := fun j => S.vlo + j * ((S.vhi - S.vlo) / dv) with hV
  have key : ∀ i j, i ≤ du → j ≤ dv → ∃ p, S.pointAt eps (U i) (Vv j) = .ok p ∧
      (do let x ← getR Lu i
          let y ← getR Lv j
          let p ← S.pointGivenBases x.1 y.1 x.2 y.2
          unwrapR (Curve.dehomogenize p)) = .ok p := by
    intro i j hi hj
    obtain ⟨su, bu, g1, g2, g3, g4, g5⟩ := hu i hi
    obtain ⟨sv, bv, k1, k2, k3, k4, k5⟩ := hv j hj
    have g4 : InSpan (kf S.uKnots) S.uhi (U i) su := g4
    have k4 : InSpan (kf S.vKnots) S.vhi (Vv j) sv := k4
    have g5 : basisFunctions S.uKnots su (U i) S.uDegree = .ok bu := g5
    have k5 : basisFunctions S.vKnots sv (Vv j) S.vDegree = .ok bv := k5
    rw [h.u_basis g2 g3 g4] at g5
    rw [h.v_basis k2 k3 k4] at k5
    have b1 : S.ulo ≤ U i := le_trans (h.u_good.mono _ _ g2 (by omega)) (Curve.inSpan_le g4).1
    have b2 : U i ≤ S.uhi := le_trans (Curve.inSpan_le g4).2 (h.u_good.mono _ _ (by omega) (by omega))
    have b3 : S.vlo ≤ Vv j := le_trans (h.v_good.mono _ _ k2 (by omega)) (Curve.inSpan_le k4).1
    have b4 : Vv j ≤ S.vhi := le_trans (Curve.inSpan_le k4).2 (h.v_good.mono _ _ (by omega) (by omega))
    obtain ⟨ep, hp⟩ := C28_point_at h hw b1 b2 b3 b4
    refine ⟨_, ep, ?_⟩
    rw [getR_ok_iff.2 g1, ok_bind, getR_ok_iff.2 k1, ok_bind]
    simp only []
    rw [← Except.ok.inj g5, ← Except.ok.inj k5, outer_eq h g2 g3 g4 k2 k3 k4, ok_bind, Curve.dehomogenize,
      if_pos hp.ne']
    rfl
  choose! P hP1 hP2 using key
  refine ⟨(List.range (du + 1)).map fun i => (List.range (dv + 1)).map fun j => P i j, ?_, by simp, ?_⟩
  · rw [Surface.regularSamplePoints, eu, ok_bind, ev, ok_bind]
    apply mapM_ok
    intro i hi
    apply mapM_ok
    intro j hj
    exact hP2 i j (by have := List.mem_range.1 hi; omega) (by have := List.mem_range.1 hj; omega)
  · intro i j hi hj
    refine ⟨(List.range (dv + 1)).map fun j => P i j, P i j, ?_, by simp, ?_, hP1 i j hi hj⟩
    · rw [List.getElem?_map, List.getElem?_range (by omega)]; rfl
    · rw [List.getElem?_map, List.getElem?_range (by omega)]; rfl

example : ∃ rows, exSurf.regularSamplePoints (1/1000) 3 5 = .ok rows ∧ rows.length = 4 := by
  obtain ⟨rows, e, hl, _⟩ := C28_regular_samples exSurf_good exSurf_weights (du := 3) (dv := 5) (by norm_num)
    (by norm_num)
  exact ⟨rows, e, hl⟩

/-! ### Convex hull (C10) -/

/-- A surface with positive weights stays in every half space that contains its control points. -/
theorem C10_surface_half_space {eps : K} {S : Surface K (W × K)} (h : S.Good eps)
    (hw : ∀ row ∈ S.cps, ∀ p ∈ row, 0 < p.2) {u v : K} (h1 : S.ulo ≤ u) (h2 : u ≤ S.uhi)
    (h3 : S.vlo ≤ v) (h4 : v ≤ S.vhi) (f : W →ₗ[K] K) (b : K)
    (hf : ∀ row ∈ S.cps, ∀ p ∈ row, f (p.2⁻¹ • p.1) ≤ b) :
    ∃ q, S.pointAt eps u v = .ok q ∧ f q ≤ b := by
  obtain ⟨e, hpos⟩ := C28_point_at h hw h1 h2 h3 h4
  refine ⟨_, e, ?_⟩
  have hmem : ∀ j, j < S.cols → ∀ p ∈ (S.col j).cps, ∃ row ∈ S.cps, p ∈ row := by
    intro j hj p hp
    obtain ⟨row, hrow, rfl⟩ := List.mem_map.1 hp
    refine ⟨row, hrow, ?_⟩
    have := h.rect row hrow
    rw [List.getD_eq_getElem?_getD, List.getElem?_eq_getElem (by omega)]
    exact List.getElem_mem _
  have hcol : ∀ p ∈ (S.isoU u).cps, 0 < p.2 ∧ f (p.2⁻¹ • p.1) ≤ b := by
    intro p hp
    obtain ⟨j, hj, rfl⟩ := List.mem_map.1 hp
    have hj := List.mem_range.1 hj
    have hwc : ∀ p ∈ (S.col j).cps, 0 < p.2 := fun p hp => by
      obtain ⟨row, hr, hpr⟩ := hmem j hj p hp; exact hw row hr p hpr
    obtain ⟨q, eq, hq⟩ := C10_half_space (h.col j) hwc (u := u) h1 (by rw [col_hi]; exact h2) f b (fun p hp => by
      obtain ⟨row, hr, hpr⟩ := hmem j hj p hp; exact hf row hr p hpr)
    obtain ⟨eq', hpos'⟩ := C09_point_at_positive_weights (h.col j) hwc (u := u) h1 (by rw [col_hi]; exact h2)
    rw [eq'] at eq
    cases eq
    exact ⟨hpos', hq⟩
  obtain ⟨q, eq, hq⟩ := C10_half_space (h.isoU u) (fun p hp => (hcol p hp).1) (u := v) h3
    (by rw [isoU_hi]; exact h4) f b (fun p hp => (hcol p hp).2)
  obtain ⟨eq', _⟩ := C09_point_at_positive_weights (h.isoU u) (fun p hp => (hcol p hp).1) (u := v) h3
    (by rw [isoU_hi]; exact h4)
  rw [eq'] at eq
  cases eq
  rw [eval_eq_isoU h]
  exact hq

theorem surf_dehomogenizedCps_eq {S : Surface K (W × K)} (hw : ∀ row ∈ S.cps, ∀ p ∈ row, 0 < p.2) :
    S.dehomogenizedCps = .ok (S.cps.map fun row => row.map fun p => p.2⁻¹ • p.1) := by
  apply mapM_ok
  intro row hrow
  apply mapM_ok
  intro p hp
  rw [Curve.dehomogenize, if_pos (hw row hrow p hp).ne']
  rfl

/-- The bounding box of a surface with positive weights contains all its points. -/
theorem C10_surface_in_bounding_box {d : ℕ} {eps big : K} {S : Surface K ((Fin d → K) × K)} (h : S.Good eps)
    (hw : ∀ row ∈ S.cps, ∀ p ∈ row, 0 < p.2) {u v : K} (h1 : S.ulo ≤ u) (h2 : u ≤ S.uhi)
    (h3 : S.vlo ≤ v) (h4 : v ≤ S.vhi) :
    ∃ box q, S.boundingBox big = .ok box ∧ S.pointAt eps u v = .ok q ∧ box.contains q = true := by
  obtain ⟨e, hpos⟩ := C28_point_at h hw h1 h2 h3 h4
  refine ⟨_, _, by rw [Surface.boundingBox, surf_dehomogenizedCps_eq hw]; rfl, e, ?_⟩
  rw [contains_iff]
  obtain ⟨_, m1, _, _⟩ := foldl_extend (S.cps.map fun row => row.map fun p => p.2⁻¹ • p.1).flatten
    (⟨fun _ => big, fun _ => -big⟩ : Box K d)
  have hm : ∀ row ∈ S.cps, ∀ p ∈ row, p.2⁻¹ • p.1 ∈ (S.cps.map fun row => row.map fun p => p.2⁻¹ • p.1).flatten := by
    intro row hrow p hp
    exact List.mem_flatten.2 ⟨_, List.mem_map_of_mem hrow, List.mem_map_of_mem hp⟩
  intro i
  constructor
  · obtain ⟨q, hq, hle⟩ := C10_surface_half_space h hw h1 h2 h3 h4 (-coord i)
      (-(Box.ofPoints big (S.cps.map fun row => row.map fun p => p.2⁻¹ • p.1).flatten).min i) (by
        intro row hrow p hp
        rw [LinearMap.neg_apply]
        exact neg_le_neg (m1 _ (hm row hrow p hp) i).1)
    rw [e] at hq
    cases hq
    rw [LinearMap.neg_apply] at hle
    exact neg_le_neg_iff.1 hle
  · obtain ⟨q, hq, hle⟩ := C10_surface_half_space h hw h1 h2 h3 h4 (coord i)
      ((Box.ofPoints big (S.cps.map fun row => row.map fun p => p.2⁻¹ • p.1).flatten).max i) (by
        intro row hrow p hp
        exact (m1 _ (hm row hrow p hp) i).2)
    rw [e] at hq
    cases hq
    exact hle

/-! ### C29 -/

theorem invert_ok {ks : List K} (h : 0 < ks.length) : ∃ ks', Knots.invert ks = .ok ks' :=
  ⟨_, C07_invert_mirror (List.length_pos_iff.1 h)⟩

/-- Flipping in u mirrors the first parameter. -/
theorem C29_flip_u {eps : K} {S : Surface K V} (h : S.Good eps)
    (hcont : ContKnots (kf S.uKnots) S.uDegree (S.cps.length - 1)) :
    ∃ S', S.flip .u = .ok S' ∧ S'.Good eps ∧
      (let m := kf S.uKnots 0 + kf S.uKnots (S.uKnots.length - 1)
       S'.ulo = m - S.uhi ∧ S'.uhi = m - S.ulo ∧ S'.vlo = S.vlo ∧ S'.vhi = S.vhi ∧
       ∀ u v, S.ulo ≤ u → u ≤ S.uhi → S.vlo ≤ v → v ≤ S.vhi → S'.point eps (m - u) v = S.point eps u v) := by
  have hul := h.u_len
  obtain ⟨ks, eks⟩ := invert_ok (ks := S.uKnots) (by omega)
  obtain ⟨S', hS'⟩ : ∃ S', S' = ({ S with cps := S.cps.reverse, uKnots := ks } : Surface K V) := ⟨_, rfl⟩
  have hflip : S.flip .u = .ok S' := by rw [Surface.flip]; simp [eks, hS']
  have hlen : S'.cps.length = S.cps.length := by rw [hS']; simp
  have hinv : ∀ v, (S.isoV v).invert = .ok (S'.isoV v) := by
    intro v
    rw [Curve.invert]
    show (Knots.invert S.uKnots >>= _) = _
    rw [eks, ok_bind, hS']
    simp only [pure_eq_ok, Except.ok.injEq, Surface.isoV, Curve.mk.injEq, and_true, true_and]
    apply List.ext_getElem
    · simp
    · intro i h1 h2
      simp only [List.length_reverse, List.length_map, List.length_range] at h1
      simp [Surface.row, List.getD_eq_getElem?_getD, List.getElem?_reverse h1]
  have hg' : ∀ v, (S'.isoV v).Good eps := fun v => by
    obtain ⟨c', e, g, _⟩ := C13_invert_reverses (h.isoV v) (by simpa [Surface.isoV] using hcont)
    rw [hinv v] at e
    cases e; exact g
  have hS'g : S'.Good eps := by
    have g := hg' 0
    refine ⟨by rw [hlen]; exact h.rows_pos, ?_, ?_, ?_, ?_, ?_⟩
    · have := g.knots_len; simpa [Surface.isoV] using this
    · have := g.good; simpa [Surface.isoV] using this
    · rw [hS']; exact h.cols_pos
    · rw [hS']; exact h.v_good
    · rw [hS']; intro row hrow; exact h.rect row (by simpa using hrow)
  obtain ⟨c', e, g, _, k1, k2, _⟩ := C13_invert_reverses (h.isoV 0) (by simpa [Surface.isoV] using hcont)
  rw [hinv 0] at e
  cases e
  rw [isoV_lo, isoV_hi] at k1
  rw [isoV_lo, isoV_hi] at k2
  have hk1 : S'.ulo = kf S.uKnots 0 + kf S.uKnots (S.uKnots.length - 1) - S.uhi := k1
  have hk2 : S'.uhi = kf S.uKnots 0 + kf S.uKnots (S.uKnots.length - 1) - S.ulo := k2
  refine ⟨S', hflip, hS'g, hk1, hk2, by rw [hS']; rfl, by rw [hS']; rfl, ?_⟩
  intro u v h1 h2 h3 h4
  have h3' : S'.vlo ≤ v := by rw [hS']; exact h3
  have h4' : v ≤ S'.vhi := by rw [hS']; exact h4
  obtain ⟨c', e, _, _, _, _, k3⟩ := C13_invert_reverses (h.isoV v) (by simpa [Surface.isoV] using hcont)
  rw [hinv v] at e
  cases e
  have := k3 u h1 (by rw [isoV_hi]; exact h2)
  rw [Surface.point_eq_eval h h1 h2 h3 h4, Surface.point_eq_eval hS'g (by rw [hk1]; linarith) (by rw [hk2]; linarith)
    h3' h4', eval_eq_isoV h, eval_eq_isoV hS'g, ← Curve.point_eq_eval (h.isoV v) h1 (by rw [isoV_hi]; exact h2),
    ← Curve.point_eq_eval (hS'g.isoV v) (by rw [isoV_lo, hk1]; linarith) (by rw [isoV_hi, hk2]; linarith)]
  exact this

/-- Flipping in v mirrors the second parameter. -/
theorem C29_flip_v {eps : K} {S : Surface K V} (h : S.Good eps)
    (hcont : ContKnots (kf S.vKnots) S.vDegree (S.cols - 1)) :
    ∃ S', S.flip .v = .ok S' ∧ S'.Good eps ∧
      (let m := kf S.vKnots 0 + kf S.vKnots (S.vKnots.length - 1)
       S'.vlo = m - S.vhi ∧ S'.vhi = m - S.vlo ∧ S'.ulo = S.ulo ∧ S'.uhi = S.uhi ∧
       ∀ u v, S.ulo ≤ u → u ≤ S.uhi → S.vlo ≤ v → v ≤ S.vhi → S'.point eps u (m - v) = S.point eps u v) := by
  have hvl := h.v_len
  have hcp := h.cols_pos
  obtain ⟨ks, eks⟩ := invert_ok (ks := S.vKnots) (by omega)
  obtain ⟨hkl, _⟩ := C07_invert_index eks
  obtain ⟨S', hS'⟩ : ∃ S', S' = ({ S with cps := S.cps.map List.reverse, vKnots := ks } : Surface K V) := ⟨_, rfl⟩
  have hflip : S.flip .v = .ok S' := by rw [Surface.flip]; simp [eks, hS']
  have hcols : S'.cols = S.cols := by rw [hS', Surface.cols, Surface.cols]; simp only []; rw [hkl]
  have hcol : ∀ j, j < S.cols → S'.col j = S.col (S.cols - 1 - j) := by
    intro j hj
    rw [hS', Surface.col, Surface.col]
    simp only [List.map_map, Curve.mk.injEq, and_true, true_and]
    apply List.map_congr_left
    intro row hrow
    have hl := h.rect row hrow
    simp only [Function.comp, List.getD_eq_getElem?_getD]
    rw [List.getElem?_reverse (by omega), hl]
  have hinv : ∀ u, (S.isoU u).invert = .ok (S'.isoU u) := by
    intro u
    rw [Curve.invert]
    show (Knots.invert S.vKnots >>= _) = _
    rw [eks, ok_bind]
    have : (S.isoU u).cps.reverse = (S'.isoU u).cps := by
      apply List.ext_getElem
      · simp [Surface.isoU, hcols]
      · intro i h1 h2
        simp only [Surface.isoU, List.length_reverse, List.length_map, List.length_range] at h1
        simp [Surface.isoU, hcol i h1]
    rw [this, hS']
    rfl
  have hg' : ∀ u, (S'.isoU u).Good eps := fun u => by
    obtain ⟨c', e, g, _⟩ := C13_invert_reverses (h.isoU u) (by simpa [Surface.isoU] using hcont)
    rw [hinv u] at e
    cases e; exact g
  have hS'g : S'.Good eps := by
    have g := hg' 0
    refine ⟨by rw [hS']; simpa using h.rows_pos, ?_, ?_, ?_, ?_, ?_⟩
    · rw [hS']; simpa using h.u_len
    · rw [hS']; simpa using h.u_good
    · rw [hcols]; exact h.cols_pos
    · have := g.good; simpa [Surface.isoU] using this
    · rw [hcols, hS']
      intro row hrow
      obtain ⟨r, hr, rfl⟩ := List.mem_map.1 hrow
      rw [List.length_reverse]; exact h.rect r hr
  obtain ⟨c', e, g, _, k1, k2, _⟩ := C13_invert_reverses (h.isoU 0) (by simpa [Surface.isoU] using hcont)
  rw [hinv 0] at e
  cases e
  rw [isoU_lo, isoU_hi] at k1
  rw [isoU_lo, isoU_hi] at k2
  have hk1 : S'.vlo = kf S.vKnots 0 + kf S.vKnots (S.vKnots.length - 1) - S.vhi := k1
  have hk2 : S'.vhi = kf S.vKnots 0 + kf S.vKnots (S.vKnots.length - 1) - S.vlo := k2
  have hu1 : S'.ulo = S.ulo := by rw [hS']; rfl
  have hu2 : S'.uhi = S.uhi := by rw [hS']; simp [Surface.uhi]
  refine ⟨S', hflip, hS'g, hk1, hk2, hu1, hu2, ?_⟩
  intro u v h1 h2 h3 h4
  obtain ⟨c', e, _, _, _, _, k3⟩ := C13_invert_reverses (h.isoU u) (by simpa [Surface.isoU] using hcont)
  rw [hinv u] at e
  cases e
  have := k3 v h3 (by rw [isoU_hi]; exact h4)
  rw [Surface.point_eq_eval h h1 h2 h3 h4, Surface.point_eq_eval hS'g (by rw [hu1]; exact h1) (by rw [hu2]; exact h2)
    (by rw [hk1]; linarith) (by rw [hk2]; linarith),
    eval_eq_isoU h, eval_eq_isoU hS'g, ← Curve.point_eq_eval (h.isoU u) h3 (by rw [isoU_hi]; exact h4),
    ← Curve.point_eq_eval (hS'g.isoU u) (by rw [isoU_lo, hk1]; linarith) (by rw [isoU_hi, hk2]; linarith)]
  exact this

/-- Flipping in both directions is flipping one after the other, and inverting is the same. -/
theorem C29_flip_uv (S : Surface K V) : S.flip .uv = (S.flip .u >>= fun S' => S'.flip .v) ∧ S.invert = S.flip .uv := by
  constructor
  · unfold Surface.flip
    simp only [pure_eq_ok, ok_bind]
    cases Knots.invert S.uKnots with
    | error e => rfl
    | ok ks => rfl
  · unfold Surface.flip Surface.invert
    simp only [pure_eq_ok, ok_bind]
    cases Knots.invert S.uKnots with
    | error e => rfl
    | ok ks => simp only [ok_bind, List.map_reverse]

/-- Hence flipping in both directions, and inverting, mirrors both parameters. -/
theorem C29_invert {eps : K} {S : Surface K V} (h : S.Good eps)
    (hcu : ContKnots (kf S.uKnots) S.uDegree (S.cps.length - 1)) (hcv : ContKnots (kf S.vKnots) S.vDegree (S.cols - 1)) :
    ∃ S', S.invert = .ok S' ∧ S.flip .uv = .ok S' ∧ S'.Good eps ∧
      (let mu := kf S.uKnots 0 + kf S.uKnots (S.uKnots.length - 1)
       let mv := kf S.vKnots 0 + kf S.vKnots (S.vKnots.length - 1)
       S'.ulo = mu - S.uhi ∧ S'.uhi = mu - S.ulo ∧ S'.vlo = mv - S.vhi ∧ S'.vhi = mv - S.vlo ∧
       ∀ u v, S.ulo ≤ u → u ≤ S.uhi → S.vlo ≤ v → v ≤ S.vhi → S'.point eps (mu - u) (mv - v) = S.point eps u v) := by
  obtain ⟨S1, e1, g1, a1, a2, a3, a4, a5⟩ := C29_flip_u h hcu
  have hvk : S1.vKnots = S.vKnots ∧ S1.vDegree = S.vDegree := by
    rw [Surface.flip] at e1
    simp only [] at e1
    obtain ⟨x, hx, e1⟩ := bind_eq_ok.1 e1
    obtain ⟨ks, _, hx⟩ := bind_eq_ok.1 hx
    cases hx; cases e1; exact ⟨rfl, rfl⟩
  have hcols : S1.cols = S.cols := by rw [Surface.cols, Surface.cols, hvk.1, hvk.2]
  obtain ⟨S2, e2, g2, b1, b2, b3, b4, b5⟩ := C29_flip_v g1 (by rw [hcols, hvk.1, hvk.2]; exact hcv)
  obtain ⟨f1, f2⟩ := C29_flip_uv S
  rw [hvk.1] at b1 b2 b5
  have hfl : S.flip .uv = .ok S2 := by rw [f1, e1, ok_bind, e2]
  refine ⟨S2, by rw [f2, hfl], hfl, g2, by rw [b3, a1], by rw [b4, a2], by rw [b1, a4], by rw [b2, a3], ?_⟩
  intro u v h1 h2 h3 h4
  rw [b5 _ _ (by rw [a1]; linarith) (by rw [a2]; linarith) (by rw [a3]; exact h3) (by rw [a4]; exact h4),
    a5 u v h1 h2 h3 h4]

theorem flip_u_twice {S S' : Surface K V} (h : S.flip .u = .ok S') : S'.flip .u = .ok S := by
  rw [Surface.flip] at h
  simp only [pure_eq_ok, ok_bind] at h
  obtain ⟨ks, hk, hx⟩ := bind_eq_ok.1 h
  cases hx
  rw [Surface.flip]
  simp [C07_invert_involutive hk]

theorem flip_v_twice {S S' : Surface K V} (h : S.flip .v = .ok S') : S'.flip .v = .ok S := by
  rw [Surface.flip] at h
  simp only [pure_eq_ok, ok_bind] at h
  obtain ⟨ks, hk, hx⟩ := bind_eq_ok.1 h
  cases hx
  rw [Surface.flip]
  simp [C07_invert_involutive hk, Function.comp_def]

/-- Flips are involutions. -/
theorem C29_involution {S S' : Surface K V} (dir : Flip) (h : S.flip dir = .ok S') : S'.flip dir = .ok S := by
  cases dir with
  | u => exact flip_u_twice h
  | v => exact flip_v_twice h
  | uv =>
    unfold Surface.flip at h ⊢
    simp only [pure_eq_ok, ok_bind] at h ⊢
    obtain ⟨ku, hku, h⟩ := bind_eq_ok.1 h
    obtain ⟨kv, hkv, h⟩ := bind_eq_ok.1 h
    cases h
    simp only [C07_invert_involutive hku, ok_bind]
    have hkv : Knots.invert S.vKnots = .ok kv := hkv
    simp [C07_invert_involutive hkv, Function.comp_def]

theorem exSurf_cont_u : ContKnots (kf exSurf.uKnots) exSurf.uDegree (exSurf.cps.length - 1) := by
  intro i h1 h2
  simp [exSurf] at h1 h2
  omega

theorem exSurf_cont_v : ContKnots (kf exSurf.vKnots) exSurf.vDegree (exSurf.cols - 1) := by
  intro i h1 h2
  simp [exSurf, Surface.cols] at h1 h2
  omega

example : ∃ S', exSurf.invert = .ok S' ∧ S'.Good (1/1000) := by
  obtain ⟨S', e, _, g, _⟩ := C29_invert exSurf_good exSurf_cont_u exSurf_cont_v
  exact ⟨S', e, g⟩

/-! ### C31 -/

theorem linear_bezier_eval {c : Curve K V} (hd : c.degree = 1) (hk : c.knots = [0, 0, 1, 1]) {p q : V}
    (hc : c.cps = [p, q]) {u : K} (h1 : 0 ≤ u) (h2 : u ≤ 1) : c.eval u = (1 - u) • p + u • q := by
  have hm : MonoUpTo (kf c.knots) (c.cps.length - 1 + c.degree + 1) := by
    rw [hk, hc, hd]
    exact mono_of_sorted (ks := [0, 0, 1, 1]) (by simp) (by simp)
  have hin : InSpan (kf c.knots) c.hi u 1 := by
    have : c.hi = 1 := by simp [Curve.hi, hk, hc, kf]
    rw [InSpan, this, hk]
    split_ifs with h
    · rw [h]; simp [kf]
    · simp only [kf]; exact ⟨h1, lt_of_le_of_ne h2 h⟩
  rw [Curve.eval_eq_evalB (by simp [hc]), Curve.evalB_eq_NS hm (by simp [hc]) hin, hc, hd, hk]
  simp [Finset.sum_range_succ, NS, kf]

end Curvo.Props

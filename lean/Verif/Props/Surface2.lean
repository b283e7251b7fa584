/-
  Property theorems about constructed surfaces: C30 (extrusion), C31 (plane).
-/
import Verif.Props.Surface

set_option linter.unusedSectionVars false

namespace Curvo.Props

open Curvo Curvo.Knots Curvo.Spec Curvo.Surface

variable {K : Type} [Field K] [LinearOrder K] [IsStrictOrderedRing K]
variable {V V' W : Type} [AddCommGroup V] [Module K V] [AddCommGroup V'] [Module K V'] [AddCommGroup W] [Module K W]

theorem quadratic_bezier_eval {c : Curve K V} (hd : c.degree = 2) (hk : c.knots = [0, 0, 0, 1, 1, 1]) {p q r : V}
    (hc : c.cps = [p, q, r]) {u : K} (h1 : 0 ≤ u) (h2 : u ≤ 1) :
    c.eval u = (1 - u) ^ 2 • p + (2 * u * (1 - u)) • q + u ^ 2 • r := by
  have hm : MonoUpTo (kf c.knots) (c.cps.length - 1 + c.degree + 1) := by
    rw [hk, hc, hd]
    exact mono_of_sorted (ks := [0, 0, 0, 1, 1, 1]) (by simp) (by simp)
  have hin : InSpan (kf c.knots) c.hi u 2 := by
    have : c.hi = 1 := by simp [Curve.hi, hk, hc, kf]
    rw [InSpan, this, hk]
    split_ifs with h
    · rw [h]; simp [kf]
    · simp only [kf]; exact ⟨h1, lt_of_le_of_ne h2 h⟩
  rw [Curve.eval_eq_evalB (by simp [hc]), Curve.evalB_eq_NS hm (by simp [hc]) hin, hc, hd, hk]
  simp [Finset.sum_range_succ, NS, kf]
  congr 1
  congr 1
  · congr 1; ring
  · congr 1; ring
  · congr 1; ring

theorem eval_mapCps (L : V →ₗ[K] V') {c : Curve K V} (hp : 0 < c.cps.length) (u : K) :
    (c.mapCps L).eval u = L (c.eval u) := by
  have hp' : 0 < (c.mapCps L).cps.length := by simpa [Curve.mapCps] using hp
  rw [curve_eval_eq hp', curve_eval_eq hp, map_sum]
  have hl : (c.mapCps L).cps.length = c.cps.length := by simp [Curve.mapCps]
  have hh : (c.mapCps L).hi = c.hi := by simp [Curve.hi, Curve.mapCps]
  rw [hl, hh]
  apply Finset.sum_congr rfl
  intro i hi
  have hi := Finset.mem_range.1 hi
  rw [map_smul]
  congr 1
  simp [Curve.mapCps, List.getD_eq_getElem?_getD, hi]

/-! ### C31 -/

theorem plane_good {eps : K} (h0 : 0 ≤ eps) (h1 : eps ≤ 1) (center x y : W) :
    (Surface.plane center x y : Surface K (W × K)).Good eps where
  rows_pos := by simp [Surface.plane]
  u_len := by simp [Surface.plane]
  u_good := by
    refine ⟨h0, by simp [Surface.plane], ?_, ?_, ?_, ?_, ?_⟩
    · exact mono_of_sorted (ks := [0, 0, 1, 1]) (by simp) (by simp [Surface.plane])
    all_goals simp [Surface.plane, kf]
    all_goals exact h1
  cols_pos := by simp [Surface.plane, Surface.cols]
  v_good := by
    refine ⟨h0, by simp [Surface.plane, Surface.cols], ?_, ?_, ?_, ?_, ?_⟩
    · exact mono_of_sorted (ks := [0, 0, 1, 1]) (by simp) (by simp [Surface.plane, Surface.cols])
    all_goals simp [Surface.plane, kf, Surface.cols]
    all_goals exact h1
  rect := by simp [Surface.plane, Surface.cols]

/-- The plane surface passes through `center + (2u − 1) x + (2v − 1) y` at `(u, v)`. -/
theorem C31_plane {eps : K} (h0 : 0 ≤ eps) (he : eps ≤ 1) (center x y : W) {u v : K} (h1 : 0 ≤ u) (h2 : u ≤ 1)
    (h3 : 0 ≤ v) (h4 : v ≤ 1) :
    (Surface.plane center x y : Surface K (W × K)).pointAt eps u v =
      .ok (center + (2 * u - 1) • x + (2 * v - 1) • y) := by
  have hg := plane_good (K := K) h0 he center x y
  have a1 : (Surface.plane center x y : Surface K (W × K)).ulo = 0 := by simp [Surface.plane, Surface.ulo, kf]
  have a2 : (Surface.plane center x y : Surface K (W × K)).uhi = 1 := by simp [Surface.plane, Surface.uhi, kf]
  have a3 : (Surface.plane center x y : Surface K (W × K)).vlo = 0 := by simp [Surface.plane, Surface.vlo, kf]
  have a4 : (Surface.plane center x y : Surface K (W × K)).vhi = 1 := by
    simp [Surface.plane, Surface.vhi, kf, Surface.cols]
  have hev : (Surface.plane center x y : Surface K (W × K)).eval u v =
      (center + (2 * u - 1) • x + (2 * v - 1) • y, 1) := by
    rw [eval_eq_isoV hg, linear_bezier_eval (c := (Surface.plane center x y : Surface K (W × K)).isoV v)
      (p := ((Surface.plane center x y : Surface K (W × K)).row 0).eval v)
      (q := ((Surface.plane center x y : Surface K (W × K)).row 1).eval v) rfl rfl rfl h1 h2,
      linear_bezier_eval (c := (Surface.plane center x y : Surface K (W × K)).row 0) rfl rfl rfl h3 h4,
      linear_bezier_eval (c := (Surface.plane center x y : Surface K (W × K)).row 1) rfl rfl rfl h3 h4]
    ext
    · simp only [Curve.homogenize, Prod.fst_add, Prod.smul_fst]
      module
    · simp only [Curve.homogenize, Prod.snd_add, Prod.smul_snd, smul_eq_mul]
      ring
  rw [Surface.pointAt, Surface.point_eq_eval hg (by rw [a1]; exact h1) (by rw [a2]; exact h2) (by rw [a3]; exact h3)
    (by rw [a4]; exact h4), hev, ok_bind, Curve.dehomogenize, if_pos (by simp)]
  simp [unwrapR]

/-- Its domain is the unit square. -/
theorem C31_domain (center x y : W) :
    (Surface.plane center x y : Surface K (W × K)).uDomain = .ok (0, 1) ∧
    (Surface.plane center x y : Surface K (W × K)).vDomain = .ok (0, 1) := by
  constructor <;> rfl

example : (Surface.plane ((1 : ℚ), (2 : ℚ)) (3, 0) (0, 5) : Surface ℚ ((ℚ × ℚ) × ℚ)).pointAt (1/1000) (1/4) (1/2) =
    .ok (-1/2, 2) := by
  rw [C31_plane (by norm_num) (by norm_num) _ _ _ (by norm_num) (by norm_num) (by norm_num) (by norm_num)]
  norm_num

/-! ### C30 -/

/-- The shift of homogeneous points. -/
def shiftMap (t : W) (c : K) : (W × K) →ₗ[K] (W × K) where
  toFun p := (p.1 + (c * p.2) • t, p.2)
  map_add' := by intro p q; ext <;> simp [mul_add, add_smul]; abel
  map_smul' := by intro a p; ext <;> simp [smul_smul]; ring_nf

theorem extrude_ok {profile : Curve K (W × K)} (hw : ∀ p ∈ profile.cps, p.2 ≠ 0) (t : W) :
    Surface.extrude profile t = .ok
      { uDegree := 2, vDegree := profile.degree, uKnots := [0, 0, 0, 1, 1, 1], vKnots := profile.knots,
        cps := [(profile.mapCps (shiftMap t 1)).cps, (profile.mapCps (shiftMap t (1 / 2))).cps,
                (profile.mapCps (shiftMap t 0)).cps] } := by
  have e1 : profile.dehomogenizedCps = .ok (profile.cps.map fun p => p.2⁻¹ • p.1) := by
    unfold Curve.dehomogenizedCps
    apply mapM_ok
    intro p hp
    rw [Curve.dehomogenize, if_pos (hw p hp)]; rfl
  rw [Surface.extrude, e1, ok_bind]
  have e2 : ((List.range (profile.cps.map fun p : W × K => p.2⁻¹ • p.1).length).mapM fun i => do
      let p ← getR (profile.cps.map fun p : W × K => p.2⁻¹ • p.1) i
      let w ← getR profile.weights i
      pure (((w • (p + t), w) : W × K), ((w • (p + (1 / 2 : K) • t), w) : W × K), ((w • p, w) : W × K))) =
      .ok ((List.range (profile.cps.map fun p : W × K => p.2⁻¹ • p.1).length).map fun i =>
        (shiftMap t 1 (profile.cps.getD i 0), shiftMap t (1 / 2) (profile.cps.getD i 0),
          shiftMap t 0 (profile.cps.getD i 0))) := by
    apply mapM_ok
    intro i hi
    have hi : i < profile.cps.length := by simpa using List.mem_range.1 hi
    have hne := hw _ (List.getElem_mem hi)
    rw [getR_ok_iff.2 (show _ = some ((profile.cps[i]).2⁻¹ • (profile.cps[i]).1) by simp [hi]), ok_bind,
      getR_ok_iff.2 (show profile.weights[i]? = some (profile.cps[i]).2 by simp [Curve.weights, hi]), ok_bind]
    have hg : profile.cps.getD i 0 = profile.cps[i] := by simp [List.getD_eq_getElem?_getD, hi]
    rw [hg]
    show Except.ok _ = Except.ok _
    simp [shiftMap, smul_add, smul_smul, hne]
    rw [mul_comm]
  simp only []
  rw [e2, ok_bind]
  show Except.ok _ = Except.ok _
  have e3 : ∀ c : K, ((List.range (profile.cps.map fun p : W × K => p.2⁻¹ • p.1).length).map fun i =>
      shiftMap t c (profile.cps.getD i 0)) = (profile.mapCps (shiftMap t c)).cps := by
    intro c
    apply List.ext_getElem
    · simp [Curve.mapCps]
    · intro i h1 h2
      simp at h1
      simp [Curve.mapCps, List.getD_eq_getElem?_getD, h1]
  simp only [List.map_map, Function.comp_def]
  rw [e3, e3, e3]

/-- An extruded surface is well formed, and at `(u, v)` it is the profile's point at `v` moved by `(1 − u) t`.
    The statement is about the returned values whatever they are: if the profile has no point at `v`
    (because the weight vanishes there), neither has the surface. -/
theorem C30_extrude {eps : K} {profile : Curve K (W × K)} (h : profile.Good eps) (he : eps ≤ 1)
    (hw : ∀ p ∈ profile.cps, p.2 ≠ 0) (t : W) :
    ∃ S, Surface.extrude profile t = .ok S ∧ S.Good eps ∧ S.uDomain = .ok (0, 1) ∧ S.vDomain = profile.knotsDomain ∧
      ∀ u v, 0 ≤ u → u ≤ 1 → profile.lo ≤ v → v ≤ profile.hi →
        S.pointAt eps u v = (profile.pointAt eps v).map (fun p => p + (1 - u) • t) := by
  obtain ⟨S, hS⟩ : ∃ S, S = ({ uDegree := 2, vDegree := profile.degree, uKnots := [0, 0, 0, 1, 1, 1], vKnots := profile.knots, cps := [(profile.mapCps (shiftMap t 1)).cps, (profile.mapCps (shiftMap t (1 / 2))).cps, (profile.mapCps (shiftMap t 0)).cps] } : Surface K (W × K)) := ⟨_, rfl⟩
  have hcols : S.cols = profile.cps.length := by
    rw [hS, Surface.cols]; simp only [h.knots_len]; omega
  have hg : S.Good eps := by
    refine ⟨by simp [hS], by simp [hS], ?_, by rw [hcols]; exact h.cps_pos, ?_, ?_⟩
    · rw [hS]
      refine ⟨h.good.eps_nonneg, by simp, ?_, ?_, ?_, ?_, ?_⟩
      · exact mono_of_sorted (ks := [0, 0, 0, 1, 1, 1]) (by simp) (by simp)
      all_goals simp [kf]
      all_goals exact he
    · rw [hcols, hS]; exact h.good
    · rw [hcols, hS]; simp [Curve.mapCps]
  refine ⟨S, by rw [extrude_ok hw, hS], hg, by rw [hS]; rfl, by rw [hS]; rfl, ?_⟩
  intro u v h1 h2 h3 h4
  have a1 : S.ulo = 0 := by simp [hS, Surface.ulo, kf]
  have a2 : S.uhi = 1 := by simp [hS, Surface.uhi, kf]
  have a3 : S.vlo = profile.lo := by rw [hS]; rfl
  have a4 : S.vhi = profile.hi := by rw [Surface.vhi, hcols, hS]; rfl
  have hr : ∀ c i, (S.row i) = profile.mapCps (shiftMap t c) → (S.row i).eval v = shiftMap t c (profile.eval v) := by
    intro c i e
    rw [e, eval_mapCps _ h.cps_pos]
  have hev : S.eval u v = ((profile.eval v).1 + ((1 - u) * (profile.eval v).2) • t, (profile.eval v).2) := by
    rw [eval_eq_isoV hg, quadratic_bezier_eval (c := S.isoV v) (p := (S.row 0).eval v) (q := (S.row 1).eval v)
      (r := (S.row 2).eval v) (by rw [hS]; rfl) (by rw [hS]; rfl) (by rw [hS]; rfl) h1 h2,
      hr 1 0 (by rw [hS]; rfl), hr (1/2) 1 (by rw [hS]; rfl), hr 0 2 (by rw [hS]; rfl)]
    ext
    · simp only [shiftMap, LinearMap.coe_mk, AddHom.coe_mk, Prod.fst_add, Prod.smul_fst]
      module
    · simp only [shiftMap, LinearMap.coe_mk, AddHom.coe_mk, Prod.snd_add, Prod.smul_snd, smul_eq_mul]
      ring
  rw [Surface.pointAt, Surface.point_eq_eval hg (by rw [a1]; exact h1) (by rw [a2]; exact h2) (by rw [a3]; exact h3)
    (by rw [a4]; exact h4), hev, ok_bind, Curve.pointAt, Curve.point_eq_eval h h3 h4, ok_bind, Curve.dehomogenize,
    Curve.dehomogenize]
  by_cases hz : (profile.eval v).2 = 0
  · simp [hz, unwrapR]; rfl
  · simp only [ne_eq, hz, not_false_eq_true, if_true, unwrapR]
    show Except.ok _ = Except.ok _
    congr 1
    rw [smul_add, smul_smul]
    congr 2
    field_simp

/-- Extruding the witness curve. -/
example : ∃ S, Surface.extrude exCurve ((1 : ℚ), (-2 : ℚ)) = .ok S ∧
    S.pointAt (1/1000) (1/3) (5/2) = (exCurve.pointAt (1/1000) (5/2)).map (fun p => p + (2/3 : ℚ) • ((1 : ℚ), (-2 : ℚ))) := by
  obtain ⟨S, e, _, _, _, hp⟩ := C30_extrude exCurve_good (by norm_num) (by decide +kernel) ((1 : ℚ), (-2 : ℚ))
  refine ⟨S, e, ?_⟩
  rw [hp (1/3) (5/2) (by norm_num) (by norm_num) (by rw [exCurve_lo]; norm_num) (by rw [exCurve_hi]; norm_num)]
  norm_num

/-! ### C15 for surfaces -/

/-- An affine matrix acting on homogeneous points, with the last row normalised. -/
def affineMap (m : Curve.Matrix4 K W) : (W × K) →ₗ[K] (W × K) where
  toFun p := (m.d⁻¹ • (m.A p.1 + p.2 • m.b), p.2)
  map_add' := by
    intro x y
    ext
    · simp only [Prod.fst_add, Prod.snd_add, map_add, add_smul, smul_add]; abel
    · simp
  map_smul' := by
    intro a x
    ext
    · simp only [Prod.smul_fst, Prod.smul_snd, map_smul, smul_add, RingHom.id_apply, smul_eq_mul, mul_smul]
      rw [smul_comm m.d⁻¹ a, smul_comm m.d⁻¹ a]
    · simp

theorem transformPoint_affine (m : Curve.Matrix4 K W) (hc : m.c = 0) (hd : m.d ≠ 0) {p : W × K} (hp : p.2 ≠ 0) :
    Curve.transformPoint m p = .ok (affineMap m p) := by
  rw [Curve.transformPoint, divR_eq_ok hp]
  simp only [ok_bind, Curve.Matrix4.apply, hc, LinearMap.zero_apply, zero_add, one_mul]
  rw [divR_eq_ok hd]
  simp only [ok_bind, pure_eq_ok, one_smul, one_div, map_smul]
  simp [affineMap, smul_smul, mul_comm, hp]

/-- The surface whose control points are mapped. -/
def mapNet (L : V → V') (S : Surface K V) : Surface K V' :=
  { uDegree := S.uDegree, vDegree := S.vDegree, uKnots := S.uKnots, vKnots := S.vKnots, cps := S.cps.map (·.map L) }

theorem mapNet_good {eps : K} {S : Surface K V} (h : S.Good eps) (L : V → V') : (mapNet L S).Good eps where
  rows_pos := by simpa [mapNet] using h.rows_pos
  u_len := by simpa [mapNet] using h.u_len
  u_good := by simpa [mapNet] using h.u_good
  cols_pos := h.cols_pos
  v_good := h.v_good
  rect := by
    intro row hrow
    obtain ⟨r, hr, rfl⟩ := List.mem_map.1 hrow
    rw [List.length_map]; exact h.rect r hr

theorem mapNet_eval {eps : K} {S : Surface K V} (h : S.Good eps) (L : V →ₗ[K] V') (u v : K) :
    (mapNet L S).eval u v = L (S.eval u v) := by
  have hh : (mapNet L S).uhi = S.uhi := by simp [Surface.uhi, mapNet]
  have hl : (mapNet L S).cps.length = S.cps.length := by simp [mapNet]
  rw [Surface.eval, Surface.eval, map_sum, hl]
  apply Finset.sum_congr rfl
  intro i hi
  have hi := Finset.mem_range.1 hi
  rw [map_sum]
  apply Finset.sum_congr rfl
  intro j hj
  have hj := Finset.mem_range.1 hj
  have hj : j < S.cols := hj
  have hrl := h.rect _ (List.getElem_mem hi)
  rw [map_smul, hh]
  congr 1
  simp only [Surface.cp, mapNet, List.getD_eq_getElem?_getD]
  rw [List.getElem?_map, List.getElem?_eq_getElem hi, Option.map_some, Option.getD_some, Option.getD_some,
    List.getElem?_map, List.getElem?_eq_getElem (show j < S.cps[i].length by omega)]
  rfl

/-- An affine matrix: transforming the surface transforms every point of it. -/
theorem C15_surface_transform {eps : K} (m : Curve.Matrix4 K W) (hc : m.c = 0) (hd : m.d ≠ 0) {S : Surface K (W × K)}
    (h : S.Good eps) (hw : ∀ row ∈ S.cps, ∀ p ∈ row, p.2 ≠ 0) :
    ∃ S', S.transform m = .ok S' ∧ S'.Good eps ∧ S'.uDomain = S.uDomain ∧ S'.vDomain = S.vDomain ∧
      ∀ u v, S.ulo ≤ u → u ≤ S.uhi → S.vlo ≤ v → v ≤ S.vhi →
        S'.pointAt eps u v = (S.pointAt eps u v).map fun q => m.d⁻¹ • (m.A q + m.b) := by
  have hg := mapNet_good h (affineMap m)
  refine ⟨mapNet (affineMap m) S, ?_, hg, rfl, rfl, ?_⟩
  · rw [Surface.transform, mapM_ok (g := fun row => row.map (affineMap m)) (fun row hrow =>
      mapM_ok (g := affineMap m) fun p hp => transformPoint_affine m hc hd (hw row hrow p hp))]
    rfl
  · intro u v h1 h2 h3 h4
    have hh : (mapNet (affineMap m) S).uhi = S.uhi := by simp [Surface.uhi, mapNet]
    rw [Surface.pointAt, Surface.pointAt, Surface.point_eq_eval h h1 h2 h3 h4,
      Surface.point_eq_eval hg h1 (by rw [hh]; exact h2) h3 h4, mapNet_eval h, ok_bind, ok_bind, Curve.dehomogenize,
      Curve.dehomogenize]
    have e2 : (affineMap m (S.eval u v)).2 = (S.eval u v).2 := rfl
    rw [e2]
    by_cases hz : (S.eval u v).2 = 0
    · simp [hz, unwrapR]; rfl
    · simp only [ne_eq, hz, not_false_eq_true, if_true, unwrapR]
      show Except.ok _ = Except.ok _
      congr 1
      simp only [affineMap, LinearMap.coe_mk, AddHom.coe_mk]
      rw [smul_comm, smul_add, smul_smul, inv_mul_cancel₀ hz, one_smul, map_smul]

example : ∃ S', exSurf.transform exAffine = .ok S' ∧ S'.Good (1/1000) := by
  obtain ⟨S', e, g, _⟩ := C15_surface_transform exAffine rfl (by norm_num [exAffine]) exSurf_good
    (fun row hr p hp => (exSurf_weights row hr p hp).ne')
  exact ⟨S', e, g⟩

end Curvo.Props

/-
  Property theorems about the area of a mesh: C50.
-/
import Mathlib.MeasureTheory.Measure.Lebesgue.EqHaar
import Mathlib.MeasureTheory.Integral.IntervalIntegral.FundThmCalculus
import Mathlib.Analysis.SpecialFunctions.Integrals.Basic
import Mathlib.Analysis.Convex.Join
import Verif.Props.Misc2
import Verif.Model.MeshArea

set_option linter.unusedSectionVars false

namespace Curvo.Props

open Curvo Curvo.Misc Curvo.Frame MeasureTheory

/-- The unit triangle. -/
def unitTri : Set (ℝ × ℝ) := {p | 0 ≤ p.1 ∧ 0 ≤ p.2 ∧ p.1 + p.2 ≤ 1}

theorem unitTri_closed : IsClosed unitTri :=
  (isClosed_le continuous_const continuous_fst).inter
    ((isClosed_le continuous_const continuous_snd).inter (isClosed_le (continuous_fst.add continuous_snd) continuous_const))

theorem unitTri_volume : volume unitTri = ENNReal.ofReal (1/2) := by
  rw [Measure.volume_eq_prod, Measure.prod_apply unitTri_closed.measurableSet]
  have hsec : ∀ x : ℝ, volume (Prod.mk x ⁻¹' unitTri) = (Set.Icc (0 : ℝ) 1).indicator (fun x => ENNReal.ofReal (1 - x)) x := by
    intro x
    by_cases hx : x ∈ Set.Icc (0 : ℝ) 1
    · rw [Set.indicator_of_mem hx]
      have : Prod.mk x ⁻¹' unitTri = Set.Icc 0 (1 - x) := by
        ext y
        simp only [unitTri, Set.mem_preimage, Set.mem_setOf_eq, Set.mem_Icc]
        constructor
        · rintro ⟨_, h1, h2⟩; exact ⟨h1, by linarith⟩
        · rintro ⟨h1, h2⟩; exact ⟨hx.1, h1, by linarith⟩
      rw [this, Real.volume_Icc, sub_zero]
    · rw [Set.indicator_of_notMem hx]
      have : Prod.mk x ⁻¹' unitTri = ∅ := by
        ext y
        simp only [unitTri, Set.mem_preimage, Set.mem_setOf_eq, Set.mem_empty_iff_false, iff_false]
        rintro ⟨h0, h1, h2⟩
        exact hx ⟨h0, by linarith⟩
      rw [this, measure_empty]
  simp_rw [hsec]
  rw [lintegral_indicator measurableSet_Icc, ← ofReal_integral_eq_lintegral_ofReal]
  · congr 1
    rw [integral_Icc_eq_integral_Ioc, ← intervalIntegral.integral_of_le zero_le_one]
    rw [intervalIntegral.integral_sub (by simp) (by simp), intervalIntegral.integral_const, integral_id]
    norm_num
  · exact (continuous_const.sub continuous_id).continuousOn.integrableOn_Icc
  · refine (ae_restrict_iff' measurableSet_Icc).2 (Filter.Eventually.of_forall fun x hx => ?_)
    simp only [Pi.zero_apply]; linarith [hx.2]

/-- The linear part of the map from the unit triangle. -/
def triMap (p q : ℝ × ℝ) : (ℝ × ℝ) →ₗ[ℝ] (ℝ × ℝ) :=
  (LinearMap.fst ℝ ℝ ℝ).smulRight p + (LinearMap.snd ℝ ℝ ℝ).smulRight q

theorem triMap_det (p q : ℝ × ℝ) : LinearMap.det (triMap p q) = p.1 * q.2 - p.2 * q.1 := by
  rw [← LinearMap.det_toMatrix (Module.Basis.finTwoProd ℝ), Matrix.det_fin_two]
  simp [LinearMap.toMatrix_apply, triMap]
  ring

theorem hull_eq (a b c : ℝ × ℝ) : convexHull ℝ {a, b, c} = (fun x => a + x) '' (triMap (b - a) (c - a) '' unitTri) := by
  rw [convexHull_insert ⟨b, by simp⟩, convexHull_pair]
  ext x
  rw [mem_convexJoin]
  simp only [Set.mem_singleton_iff, exists_eq_left, Set.mem_image, exists_exists_and_eq_and]
  constructor
  · rintro ⟨y, ⟨α, β, h1, h2, h3, rfl⟩, γ, δ, h4, h5, h6, rfl⟩
    refine ⟨(δ * α, δ * β), ⟨mul_nonneg h5 h1, mul_nonneg h5 h2, ?_⟩, ?_⟩
    · show δ * α + δ * β ≤ 1
      rw [← mul_add, h3, mul_one]; linarith
    · have hγ : γ = 1 - δ * α - δ * β := by
        have : δ * α + δ * β = δ := by rw [← mul_add, h3, mul_one]
        linarith
      rw [hγ]
      simp only [triMap, LinearMap.add_apply, LinearMap.smulRight_apply, LinearMap.fst_apply, LinearMap.snd_apply]
      module
  · rintro ⟨⟨s, t⟩, ⟨h1, h2, h3⟩, rfl⟩
    simp only at h1 h2 h3
    rcases (add_nonneg h1 h2).eq_or_lt with h0 | h0
    · have hs : s = 0 := by linarith
      have ht : t = 0 := by linarith
      refine ⟨b, left_mem_segment _ _ _, ?_⟩
      simp [triMap, hs, ht, left_mem_segment]
    · refine ⟨(s / (s + t)) • b + (t / (s + t)) • c, ⟨_, _, by positivity, by positivity, by field_simp, rfl⟩,
        1 - (s + t), s + t, by linarith, h0.le, by ring, ?_⟩
      rw [smul_add, smul_smul, smul_smul, mul_div_cancel₀ _ h0.ne', mul_div_cancel₀ _ h0.ne']
      simp only [triMap, LinearMap.add_apply, LinearMap.smulRight_apply, LinearMap.fst_apply, LinearMap.snd_apply]
      module

/-- Half of what `area` adds up for a triangle in the plane is the Lebesgue measure of the triangle. -/
theorem tri2_volume (a b c : ℝ × ℝ) : volume (convexHull ℝ {a, b, c}) = ENNReal.ofReal (Mesh.tri2 a b c / 2) := by
  have hH : (volume : Measure (ℝ × ℝ)).IsAddHaarMeasure := by rw [Measure.volume_eq_prod]; infer_instance
  rw [hull_eq, Set.image_add_left, measure_preimage_add, Measure.addHaar_image_linearMap, triMap_det, unitTri_volume,
    ← ENNReal.ofReal_mul (abs_nonneg _)]
  congr 1
  rw [Mesh.tri2]
  simp only [Prod.fst_sub, Prod.snd_sub]
  ring

theorem foldl_add_eq_sum (l : List ℝ) : ∀ x : ℝ, l.foldl (· + ·) x = x + l.sum := by
  induction l with
  | nil => simp
  | cons a l ih => intro x; rw [List.foldl_cons, ih, List.sum_cons]; ring

/-- The triangle with the corners of a face. -/
def faceHull {V : Type} [AddCommGroup V] [Module ℝ V] (m : Mesh V) (f : ℕ × ℕ × ℕ) : Set V :=
  convexHull ℝ {m.vertices.getD f.1 0, m.vertices.getD f.2.1 0, m.vertices.getD f.2.2 0}

theorem triangles_eq {V : Type} [AddCommGroup V] {m : Mesh V} (h : Mesh.Valid m) :
    m.triangles = .ok (m.faces.map fun f => (m.vertices.getD f.1 0, m.vertices.getD f.2.1 0, m.vertices.getD f.2.2 0)) := by
  apply mapM_ok
  intro f hf
  obtain ⟨h1, h2, h3⟩ := h f hf
  rw [getR_eq_getD 0 h1, getR_eq_getD 0 h2, getR_eq_getD 0 h3]; rfl

/-- **C50**: the area of a planar mesh is the sum of the Lebesgue measures of its triangles. -/
theorem C50_area_measure {m : Mesh (ℝ × ℝ)} (h : Mesh.Valid m) :
    m.area2 = .ok ((m.faces.map fun f => (volume (faceHull m f)).toReal).sum) := by
  rw [Mesh.area2, Mesh.areaWith, triangles_eq h, ok_bind, foldl_add_eq_sum, zero_add, List.map_map, pure_eq_ok]
  congr 1
  rw [div_eq_mul_inv, ← List.sum_map_mul_right]
  congr 1
  refine List.map_congr_left fun f _ => ?_
  rw [faceHull, tri2_volume, ENNReal.toReal_ofReal (by rw [Mesh.tri2]; positivity)]
  rfl

/-- A planar mesh placed in space. -/
def placeMesh (o e1 e2 : V3) (m : Mesh (ℝ × ℝ)) : Mesh V3 :=
  { vertices := m.vertices.map fun p => o + p.1 • e1 + p.2 • e2, faces := m.faces }

theorem norm_cross_unit {e1 e2 : V3} (h1 : e1 ⬝ᵥ e1 = 1) (h2 : e2 ⬝ᵥ e2 = 1) (h12 : e1 ⬝ᵥ e2 = 0) (k : ℝ) :
    Frame.norm (k • crossProduct e1 e2) = |k| := by
  have : crossProduct e1 e2 ⬝ᵥ crossProduct e1 e2 = 1 := by
    rw [cross_dot_cross, h1, h2, h12]; ring
  rw [Frame.norm, smul_dotProduct, dotProduct_smul, this, smul_eq_mul, smul_eq_mul, mul_one, Real.sqrt_mul_self_eq_abs]

/-- **C50**: in space the area of a plane mesh does not depend on where and how the plane lies. -/
theorem C50_area_placed {o e1 e2 : V3} (h1 : e1 ⬝ᵥ e1 = 1) (h2 : e2 ⬝ᵥ e2 = 1) (h12 : e1 ⬝ᵥ e2 = 0) (m : Mesh (ℝ × ℝ)) :
    (placeMesh o e1 e2 m).area3 = m.area2 := by
  have ht : (placeMesh o e1 e2 m).triangles = Except.map (List.map fun t => (o + t.1.1 • e1 + t.1.2 • e2,
      o + t.2.1.1 • e1 + t.2.1.2 • e2, o + t.2.2.1 • e1 + t.2.2.2 • e2)) m.triangles := by
    simp only [Mesh.triangles, placeMesh]
    induction m.faces with
    | nil => rfl
    | cons f fs ih =>
      have hg : ∀ i, getR (m.vertices.map fun p => o + p.1 • e1 + p.2 • e2) i =
          (getR m.vertices i).map fun p => o + p.1 • e1 + p.2 • e2 := by
        intro i
        unfold getR
        rw [List.getElem?_map]
        cases m.vertices[i]? <;> rfl
      rw [List.mapM_cons, List.mapM_cons, ih, hg, hg, hg]
      cases getR m.vertices f.1 <;> cases getR m.vertices f.2.1 <;> cases getR m.vertices f.2.2 <;> try rfl
      simp only [Except.map, ok_bind, pure_eq_ok]
      generalize (fs.mapM fun f => _ : Res (List ((ℝ × ℝ) × (ℝ × ℝ) × (ℝ × ℝ)))) = r
      cases r <;> rfl
  have htri : ∀ a b c : ℝ × ℝ, Mesh.tri3 (o + a.1 • e1 + a.2 • e2) (o + b.1 • e1 + b.2 • e2) (o + c.1 • e1 + c.2 • e2) =
      Mesh.tri2 a b c := by
    intro a b c
    rw [Mesh.tri3, Mesh.tri2, ← norm_cross_unit h1 h2 h12]
    congr 1
    have e : ∀ x y : ℝ × ℝ, (o + x.1 • e1 + x.2 • e2) - (o + y.1 • e1 + y.2 • e2) = (x.1 - y.1) • e1 + (x.2 - y.2) • e2 := by
      intro x y; module
    rw [e, e]
    simp only [map_add, map_smul, LinearMap.add_apply, LinearMap.smul_apply, cross_self, smul_zero, zero_add, add_zero]
    rw [← cross_anticomm e1 e2]
    module
  rw [Mesh.area3, Mesh.area2, Mesh.areaWith, Mesh.areaWith, ht]
  cases m.triangles with
  | error e => rfl
  | ok ts =>
    simp only [Except.map, ok_bind, List.map_map]
    congr 3
    refine List.map_congr_left fun t _ => ?_
    exact htri _ _ _

/-- **C50**: the area of a triangle in space in terms of lengths and the angle: `(2 A)² = |b - a|² |c - a|² - ((b - a) · (c - a))²`. -/
theorem C50_area_gram (a b c : V3) : ∃ A, (Mesh.mk [a, b, c] [(0, 1, 2)]).area3 = .ok A ∧ 0 ≤ A ∧
    (2 * A) ^ 2 = ((b - a) ⬝ᵥ (b - a)) * ((c - a) ⬝ᵥ (c - a)) - ((b - a) ⬝ᵥ (c - a)) ^ 2 := by
  refine ⟨Mesh.tri3 a b c / 2, ?_, ?_, ?_⟩
  · simp [Mesh.area3, Mesh.areaWith, Mesh.triangles, getR]
  · rw [Mesh.tri3, Frame.norm]; positivity
  · rw [mul_div_cancel₀ _ two_ne_zero, Mesh.tri3, Frame.norm, Real.sq_sqrt (by
      rw [dotProduct]; exact Finset.sum_nonneg fun i _ => mul_self_nonneg _), cross_dot_cross, dotProduct_comm (c - a) (b - a)]
    ring

/-- A unit square cut in two, with its corners in this order. -/
example : (Mesh.mk [(0, 0), (1, 0), (1, 1), (0, 1)] [(0, 1, 2), (0, 2, 3)] : Mesh (ℝ × ℝ)).area2 = .ok 1 := by
  simp [Mesh.area2, Mesh.areaWith, Mesh.triangles, getR, Mesh.tri2]

end Curvo.Props

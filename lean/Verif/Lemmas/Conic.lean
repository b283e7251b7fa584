/-
  Circular arcs as rational quadratic segments.
-/
import Mathlib.Analysis.SpecialFunctions.Trigonometric.Arctan
import Mathlib.Topology.Order.IntermediateValue
import Mathlib.Analysis.SpecialFunctions.Trigonometric.Bounds
import Mathlib.Tactic.LinearCombination
import Mathlib.Tactic.Module
import Verif.Lemmas.Bernstein
import Verif.Lemmas.Rational
import Verif.Model.Conic

set_option linter.unusedSectionVars false

namespace Curvo

namespace Conic

open Real

/-! ### The angle along a segment -/

/-- The weight of the point at `s` on a segment of half angle `h`. -/
noncomputable def segWeight (h s : ℝ) : ℝ := (1 - s) ^ 2 + 2 * s * (1 - s) * cos h + s ^ 2

/-- The angle of the point at `s`, measured from the middle of the segment. -/
noncomputable def segAngle (h s : ℝ) : ℝ := 2 * arctan ((2 * s - 1) * tan (h / 2))

theorem segWeight_pos {h : ℝ} (h0 : 0 ≤ cos h) (s : ℝ) : 0 < segWeight h s := by
  have h1 := cos_le_one h
  have : segWeight h s = 1 - 2 * s * (1 - s) * (1 - cos h) := by rw [segWeight]; ring
  rw [this]
  nlinarith [mul_nonneg (sq_nonneg (2 * s - 1)) (sub_nonneg.2 h1)]

theorem cos_half_tan {a : ℝ} (h : cos (a / 2) ≠ 0) : cos a = (1 - tan (a / 2) ^ 2) / (1 + tan (a / 2) ^ 2) := by
  have h1 : cos a = 2 * cos (a / 2) ^ 2 - 1 := by
    have := cos_two_mul (a / 2)
    rwa [show 2 * (a / 2) = a by ring] at this
  have h2 := sin_sq_add_cos_sq (a / 2)
  rw [h1, tan_eq_sin_div_cos, eq_div_iff (by positivity)]
  field_simp
  linear_combination (2 * cos (a / 2) ^ 2) * h2

theorem sin_half_tan {a : ℝ} (h : cos (a / 2) ≠ 0) : sin a = 2 * tan (a / 2) / (1 + tan (a / 2) ^ 2) := by
  have h1 : sin a = 2 * sin (a / 2) * cos (a / 2) := by
    have := sin_two_mul (a / 2)
    rwa [show 2 * (a / 2) = a by ring] at this
  have h2 := sin_sq_add_cos_sq (a / 2)
  rw [h1, tan_eq_sin_div_cos, eq_div_iff (by positivity)]
  field_simp
  linear_combination sin (a / 2) * h2

theorem seg_sin {h : ℝ} (h0 : cos (h / 2) ≠ 0) (s : ℝ) :
    segWeight h s * sin (segAngle h s) = (2 * s - 1) * sin h := by
  have hc : cos (segAngle h s / 2) ≠ 0 := by
    rw [segAngle, mul_div_cancel_left₀ _ (two_ne_zero' ℝ)]; exact (cos_arctan_pos _).ne'
  rw [sin_half_tan hc, segWeight, cos_half_tan h0, sin_half_tan h0, segAngle, mul_div_cancel_left₀ _ (two_ne_zero' ℝ), tan_arctan]
  field_simp
  ring

theorem seg_cos {h : ℝ} (h0 : cos (h / 2) ≠ 0) (s : ℝ) :
    segWeight h s * cos (segAngle h s) = ((1 - s) ^ 2 + s ^ 2) * cos h + 2 * s * (1 - s) := by
  have hc : cos (segAngle h s / 2) ≠ 0 := by
    rw [segAngle, mul_div_cancel_left₀ _ (two_ne_zero' ℝ)]; exact (cos_arctan_pos _).ne'
  rw [cos_half_tan hc, segWeight, cos_half_tan h0, segAngle, mul_div_cancel_left₀ _ (two_ne_zero' ℝ), tan_arctan]
  field_simp
  ring

theorem segAngle_zero {h : ℝ} (h0 : -π < h) (h1 : h < π) : segAngle h 0 = -h := by
  rw [segAngle, show (2 * 0 - 1) * tan (h / 2) = -tan (h / 2) by ring, arctan_neg, arctan_tan (by linarith) (by linarith)]
  ring

theorem segAngle_one {h : ℝ} (h0 : -π < h) (h1 : h < π) : segAngle h 1 = h := by
  rw [segAngle, show (2 * 1 - 1) * tan (h / 2) = tan (h / 2) by ring, arctan_tan (by linarith) (by linarith)]
  ring

theorem segAngle_mono {h : ℝ} (h0 : 0 < h) (h1 : h < π) : StrictMono (segAngle h) := by
  intro a b hab
  have : 0 < tan (h / 2) := tan_pos_of_pos_of_lt_pi_div_two (by linarith) (by linarith)
  have := arctan_strictMono (show (2 * a - 1) * tan (h / 2) < (2 * b - 1) * tan (h / 2) by nlinarith)
  rw [segAngle, segAngle]
  linarith

theorem segAngle_continuous (h : ℝ) : Continuous (segAngle h) := by
  unfold segAngle
  fun_prop

/-- The angle at `z` segments from the start. -/
noncomputable def angleAt (h z : ℝ) : ℝ := ⌊z⌋ * (2 * h) + (h + segAngle h (Int.fract z))

theorem angleAt_seg {h : ℝ} (h0 : 0 < h) (h1 : h < π) {j : ℕ} {s : ℝ} (hs0 : 0 ≤ s) (hs1 : s ≤ 1) :
    angleAt h (j + s) = j * (2 * h) + (h + segAngle h s) := by
  rcases hs1.lt_or_eq with hs1 | rfl
  · have hf : ⌊(j : ℝ) + s⌋ = (j : ℤ) := by
      rw [Int.floor_eq_iff]; push_cast; constructor <;> linarith
    rw [angleAt, Int.fract, hf]
    push_cast
    rw [add_sub_cancel_left]
  · have hf : ⌊(j : ℝ) + 1⌋ = (j + 1 : ℤ) := by
      rw [Int.floor_eq_iff]; push_cast; constructor <;> linarith
    rw [angleAt, Int.fract, hf]
    push_cast
    rw [sub_self, segAngle_zero (by linarith) h1, segAngle_one (by linarith) h1]
    ring

theorem angleAt_mono {h : ℝ} (h0 : 0 < h) (h1 : h < π) : StrictMono (angleAt h) := by
  intro a b hab
  have hm := segAngle_mono h0 h1
  have e0 := segAngle_zero (by linarith) h1
  have e1 := segAngle_one (by linarith) h1
  rcases (Int.floor_mono hab.le).lt_or_eq with hf | hf
  · have ha : segAngle h (Int.fract a) < h := by
      have := hm (Int.fract_lt_one a)
      rwa [e1] at this
    have hb : -h ≤ segAngle h (Int.fract b) := by
      have := hm.monotone (Int.fract_nonneg b)
      rwa [e0] at this
    have : (⌊a⌋ : ℝ) + 1 ≤ ⌊b⌋ := by exact_mod_cast hf
    rw [angleAt, angleAt]
    nlinarith
  · have : Int.fract a < Int.fract b := by rw [Int.fract, Int.fract, hf]; linarith
    have := hm this
    rw [angleAt, angleAt, hf]
    linarith

theorem angleAt_nat {h : ℝ} (h0 : 0 < h) (h1 : h < π) (j : ℕ) : angleAt h j = j * (2 * h) := by
  have := angleAt_seg h0 h1 (j := j) le_rfl zero_le_one
  rw [add_zero, segAngle_zero (by linarith) h1] at this
  rw [this]; ring

theorem angleAt_surj {h : ℝ} (h0 : 0 < h) (h1 : h < π) (φ : ℝ) : ∃ z, angleAt h z = φ := by
  have hz : 0 < 2 * h := by linarith
  have := intermediate_value_Icc (show (0 : ℝ) ≤ 1 by norm_num) (segAngle_continuous h).continuousOn
  rw [segAngle_zero (by linarith) h1, segAngle_one (by linarith) h1] at this
  have f0 := Int.fract_nonneg (φ / (2 * h))
  have f1 := Int.fract_lt_one (φ / (2 * h))
  obtain ⟨s, ⟨hs0, hs1⟩, e⟩ := this (show Int.fract (φ / (2 * h)) * (2 * h) - h ∈ Set.Icc (-h) h by
    constructor <;> nlinarith)
  have hlt : s < 1 := by
    apply lt_of_le_of_ne hs1
    rintro rfl
    rw [segAngle_one (by linarith) h1] at e
    nlinarith
  refine ⟨⌊φ / (2 * h)⌋ + s, ?_⟩
  have hf : ⌊(⌊φ / (2 * h)⌋ : ℝ) + s⌋ = ⌊φ / (2 * h)⌋ := by
    rw [Int.floor_eq_iff]; constructor <;> linarith
  rw [angleAt, Int.fract, hf, add_sub_cancel_left, e, Int.fract]
  field_simp
  ring

/-! ### Points of a circle -/

variable {V : Type} [NormedAddCommGroup V] [InnerProductSpace ℝ V]

local notation "⟪" x ", " y "⟫" => @inner ℝ V _ x y

/-- The direction at an angle. -/
noncomputable def dir (x y : V) (φ : ℝ) : V := cos φ • x + sin φ • y

/-- The tangent at an angle. -/
noncomputable def tan' (x y : V) (φ : ℝ) : V := cos φ • y - sin φ • x

theorem dir_add (x y : V) (φ ψ : ℝ) : dir x y (φ + ψ) = cos ψ • dir x y φ + sin ψ • tan' x y φ := by
  rw [dir, dir, tan', cos_add, sin_add]
  module

/-- A segment of a circle, in homogeneous coordinates. -/
theorem seg_point (x y : V) (m : ℝ) {h : ℝ} (h0 : cos (h / 2) ≠ 0) (s : ℝ) :
    (1 - s) ^ 2 • dir x y (m - h) + (2 * s * (1 - s)) • dir x y m + s ^ 2 • dir x y (m + h) =
      segWeight h s • dir x y (m + segAngle h s) := by
  rw [sub_eq_add_neg m h, dir_add, dir_add x y m h, dir_add x y m (segAngle h s), cos_neg, sin_neg,
    smul_add (segWeight h s), smul_smul (segWeight h s), smul_smul (segWeight h s), seg_cos h0, seg_sin h0]
  module

structure Ortho (x y : V) : Prop where
  xx : ⟪x, x⟫ = 1
  yy : ⟪y, y⟫ = 1
  xy : ⟪x, y⟫ = 0

variable {x y : V}

theorem Ortho.yx (o : Ortho x y) : ⟪y, x⟫ = 0 := by rw [real_inner_comm]; exact o.xy

theorem Ortho.comb (o : Ortho x y) (a b c d : ℝ) : ⟪a • x + b • y, c • x + d • y⟫ = a * c + b * d := by
  rw [inner_add_left, inner_add_right, inner_add_right, inner_smul_left, inner_smul_left, inner_smul_left, inner_smul_left,
    inner_smul_right, inner_smul_right, inner_smul_right, inner_smul_right, o.xx, o.yy, o.xy, o.yx]
  simp

theorem tan'_eq (φ : ℝ) : tan' x y φ = (-sin φ) • x + cos φ • y := by rw [tan']; module

theorem Ortho.tt (o : Ortho x y) (α β : ℝ) : ⟪tan' x y α, tan' x y β⟫ = cos (β - α) := by
  rw [tan'_eq, tan'_eq, o.comb, cos_sub]; ring

theorem Ortho.td (o : Ortho x y) (α β : ℝ) : ⟪tan' x y α, dir x y β⟫ = sin (β - α) := by
  rw [tan'_eq, dir, o.comb, sin_sub]; ring

theorem Ortho.dd (o : Ortho x y) (α β : ℝ) : ⟪dir x y α, dir x y β⟫ = cos (β - α) := by
  rw [dir, dir, o.comb, cos_sub]; ring

theorem Ortho.norm_tan (o : Ortho x y) (φ : ℝ) : ‖tan' x y φ‖ = 1 := by
  have h := real_inner_self_eq_norm_sq (tan' x y φ)
  rw [o.tt, sub_self, cos_zero] at h
  have h0 := norm_nonneg (tan' x y φ)
  nlinarith

theorem Ortho.norm_dir (o : Ortho x y) (φ : ℝ) : ‖dir x y φ‖ = 1 := by
  have h := real_inner_self_eq_norm_sq (dir x y φ)
  rw [o.dd, sub_self, cos_zero] at h
  have h0 := norm_nonneg (dir x y φ)
  nlinarith

theorem normalize_unit {v : V} (h : ‖v‖ = 1) : normalize v = .ok v := by
  have : v ≠ 0 := by rintro rfl; simp at h
  rw [normalize, if_neg this, h, inv_one, one_smul]

/-- The distance to the corner of the control polygon. -/
noncomputable def reach (r δ : ℝ) : ℝ := r * (1 - cos δ) / sin δ

/-- The tangents of a circle meet. -/
theorem Ortho.rays (o : Ortho x y) (c : V) (r α δ eps : ℝ) (he : 0 < eps) :
    Ray.findIntersection eps ⟨c + r • dir x y α, tan' x y α⟩ ⟨c + r • dir x y (α + δ), tan' x y (α + δ)⟩ =
      if sin δ ^ 2 < eps then .ok none else
        .ok (some ((c + r • dir x y α + reach r δ • tan' x y α, reach r δ),
          (c + r • dir x y (α + δ) + (-reach r δ) • tan' x y (α + δ), -reach r δ))) := by
  have hdiv : cos (α + δ - α) * cos (α + δ - α) = cos δ ^ 2 := by rw [add_sub_cancel_left]; ring
  have hsc := sin_sq_add_cos_sq δ
  rw [Ray.findIntersection]
  simp only [o.tt, sub_self, cos_zero, hdiv]
  have e0 : (1 : ℝ) * 1 - cos δ ^ 2 = sin δ ^ 2 := by linarith
  rw [e0, abs_of_nonneg (sq_nonneg _)]
  by_cases hlt : sin δ ^ 2 < eps
  · rw [if_pos hlt, if_pos hlt]; rfl
  · rw [if_neg hlt, if_neg hlt]
    have hs : sin δ ≠ 0 := by
      intro h
      rw [h] at hlt
      exact hlt (by simpa using he)
    have d1 : ⟪tan' x y α, c + r • dir x y (α + δ)⟫ - ⟪tan' x y α, c + r • dir x y α⟫ = r * sin δ := by
      rw [inner_add_right, inner_add_right, inner_smul_right, inner_smul_right, o.td, o.td]
      simp
    have d2 : ⟪tan' x y (α + δ), c + r • dir x y (α + δ)⟫ - ⟪tan' x y (α + δ), c + r • dir x y α⟫ = r * sin δ := by
      rw [inner_add_right, inner_add_right, inner_smul_right, inner_smul_right, o.td, o.td]
      simp
    simp only [d1, d2, add_sub_cancel_left]
    have w : (cos δ * (r * sin δ) - 1 * (r * sin δ)) / sin δ ^ 2 = -reach r δ := by
      rw [reach]; field_simp; ring
    have t : (r * sin δ + -reach r δ * cos δ) / 1 = reach r δ := by
      rw [reach]
      field_simp
      have : sin δ ^ 2 = 1 - cos δ ^ 2 := by linarith
      linear_combination r * this
    rw [divR_eq_ok (by positivity), ok_bind, w, divR_eq_ok one_ne_zero, ok_bind, t]
    rfl

/-- The corner, scaled by its weight, is the direction of the middle. -/
theorem corner (c : V) (r α δ : ℝ) (hs : sin δ ≠ 0) :
    cos (δ / 2) • (c + r • dir x y α + reach r δ • tan' x y α) = cos (δ / 2) • c + r • dir x y (α + δ / 2) := by
  have h1 : cos δ = 2 * cos (δ / 2) ^ 2 - 1 := by
    have := cos_two_mul (δ / 2)
    rwa [show 2 * (δ / 2) = δ by ring] at this
  have h2 : sin δ = 2 * sin (δ / 2) * cos (δ / 2) := by
    have := sin_two_mul (δ / 2)
    rwa [show 2 * (δ / 2) = δ by ring] at this
  have hc : cos (δ / 2) ≠ 0 := by intro h; rw [h2, h] at hs; simp at hs
  have hsn : sin (δ / 2) ≠ 0 := by intro h; rw [h2, h] at hs; simp at hs
  have e : cos (δ / 2) * reach r δ = r * sin (δ / 2) := by
    rw [reach, h1, h2]
    have := sin_sq_add_cos_sq (δ / 2)
    field_simp
    linear_combination (-2) * r * this
  rw [smul_add, smul_add, smul_smul, smul_smul, e, dir_add]
  module

/-! ### Arcs as chains -/

/-- Homogeneous control point `i` of an arc with semi-axes `X`, `Y`, starting at `α`, with segments of angle `2 h`. -/
noncomputable def arcPt (c X Y : V) (α h : ℝ) (i : ℕ) : V × ℝ :=
  if i % 2 = 0 then (c + dir X Y (α + i * h), 1) else (cos h • c + dir X Y (α + i * h), cos h)

theorem arcPt_shift (c X Y : V) (α h : ℝ) (i : ℕ) : arcPt c X Y α h (i + 2) = arcPt c X Y (α + 2 * h) h i := by
  rw [arcPt, arcPt, Nat.add_mod_right]
  push_cast
  rw [show α + (i + 2) * h = α + 2 * h + i * h by ring]

theorem arcPt_zero (c X Y : V) (α h : ℝ) : arcPt c X Y α h 0 = (c + dir X Y α, 1) := by
  rw [arcPt, if_pos rfl]; simp

theorem arcPt_one (c X Y : V) (α h : ℝ) : arcPt c X Y α h 1 = (cos h • c + dir X Y (α + h), cos h) := by
  rw [arcPt, if_neg (by decide)]; simp

theorem vec_succ {α : Type} (n : ℕ) (f : ℕ → α) : vec (n + 1) f = f 0 :: vec n fun i => f (i + 1) := by
  rw [vec, vec, List.range_succ_eq_map, List.map_cons, List.map_map]; rfl

/-- The value of a chain of circular segments at a parameter of segment `j`. -/
theorem arc_segment (c X Y : V) (α : ℝ) {h : ℝ} (hh : cos (h / 2) ≠ 0) (j : ℕ) (s : ℝ) :
    ((Finset.range (2 + 1)).sum fun i => Curve.bern s 2 i • arcPt c X Y α h (j * 2 + i)) =
      (segWeight h s • (c + dir X Y (α + (j * (2 * h) + (h + segAngle h s)))), segWeight h s) := by
  have b0 : Curve.bern s 2 0 = (1 - s) ^ 2 := by simp only [Curve.bern]; ring
  have b1 : Curve.bern s 2 1 = 2 * s * (1 - s) := by simp only [Curve.bern]; ring
  have b2 : Curve.bern s 2 2 = s ^ 2 := by simp only [Curve.bern]; ring
  rw [Finset.sum_range_succ, Finset.sum_range_succ, Finset.sum_range_one, b0, b1, b2]
  have p0 : arcPt c X Y α h (j * 2 + 0) = (c + dir X Y (α + j * (2 * h) + h - h), 1) := by
    rw [arcPt, if_pos (by omega)]; push_cast
    rw [show α + (j * 2 + 0) * h = α + j * (2 * h) + h - h by ring]
  have p1 : arcPt c X Y α h (j * 2 + 1) = (cos h • c + dir X Y (α + j * (2 * h) + h), cos h) := by
    rw [arcPt, if_neg (by omega)]; push_cast
    rw [show α + (j * 2 + 1) * h = α + j * (2 * h) + h by ring]
  have p2 : arcPt c X Y α h (j * 2 + 2) = (c + dir X Y (α + j * (2 * h) + h + h), 1) := by
    rw [arcPt, if_pos (by omega)]; push_cast
    rw [show α + (j * 2 + 2) * h = α + j * (2 * h) + h + h by ring]
  rw [p0, p1, p2]
  have hp := seg_point X Y (α + j * (2 * h) + h) hh s
  rw [show α + (j * (2 * h) + (h + segAngle h s)) = α + j * (2 * h) + h + segAngle h s by ring, smul_add (segWeight h s) c, ← hp]
  refine Prod.ext ?_ ?_
  · show (1 - s) ^ 2 • _ + (2 * s * (1 - s)) • _ + s ^ 2 • _ = _
    rw [segWeight]
    module
  · show (1 - s) ^ 2 • (1 : ℝ) + (2 * s * (1 - s)) • cos h + s ^ 2 • (1 : ℝ) = _
    rw [segWeight]
    simp only [smul_eq_mul]
    ring

theorem dehom {v : V} {w : ℝ} (h : w ≠ 0) : Curve.dehomogenize (w • v, w) = some v := by
  rw [Curve.dehomogenize, if_pos h]
  simp only
  rw [smul_smul, inv_mul_cancel₀ h, one_smul]

/-- A chain of circular segments: its value, by the angle. The weight does not depend on the circle. -/
theorem arc_chain {eps : ℝ} (he : 0 ≤ eps) {h : ℝ} (h0 : 0 < h) (h1 : h < π / 2) {s : ℕ} (hs : 1 ≤ s)
    {a d : ℝ} (hd : eps ≤ d) (hd0 : 0 < d) :
    (∀ P : ℕ → V × ℝ, (Curve.chain 2 s (fun k : ℕ => a + k * d) P).Good eps ∧
      (Curve.chain 2 s (fun k : ℕ => a + k * d) P).lo = a ∧ (Curve.chain 2 s (fun k : ℕ => a + k * d) P).hi = a + s * d) ∧
    ∀ t, a ≤ t → t ≤ a + s * d → ∃ w, 0 < w ∧ ∀ (c X Y : V) (α : ℝ),
      (Curve.chain 2 s (fun k : ℕ => a + k * d) (arcPt c X Y α h)).eval t =
        (w • (c + dir X Y (α + angleAt h ((t - a) / d))), w) := by
  have hu : ∀ i, i < s → (fun k : ℕ => a + k * d) i < (fun k : ℕ => a + k * d) (i + 1) := by
    intro i _; push_cast; nlinarith
  have hg : ∀ P : ℕ → V × ℝ, (Curve.chain 2 s (fun k : ℕ => a + k * d) P).Good eps := fun P =>
    Curve.chain_good he (by norm_num) hs hu (by push_cast; linarith) (by
      obtain ⟨s, rfl⟩ : ∃ s', s = s' + 1 := ⟨s - 1, by omega⟩
      rw [Nat.add_sub_cancel]; push_cast; nlinarith)
  refine ⟨fun P => ⟨hg P, ?_, Curve.chain_hi (by norm_num)⟩, ?_⟩
  · rw [Curve.chain_lo (by norm_num)]; simp
  · intro t ht1 ht2
    obtain ⟨j, _, hj, hin⟩ := Spec.exists_inSpan (k := fun k : ℕ => a + k * d) (p := 0) (n := s - 1) (u := t) (by omega)
      (by
        have : (1 : ℝ) ≤ s := by exact_mod_cast hs
        rw [Nat.sub_add_cancel hs]; push_cast; nlinarith) (by push_cast; linarith) (by rw [Nat.sub_add_cancel hs]; exact ht2)
    rw [Nat.sub_add_cancel hs] at hin
    have hcos : cos (h / 2) ≠ 0 := (cos_pos_of_mem_Ioo ⟨by linarith [pi_pos], by linarith [pi_pos]⟩).ne'
    have hw := segWeight_pos (cos_nonneg_of_neg_pi_div_two_le_of_le (show -(π / 2) ≤ h by linarith [pi_pos]) h1.le)
    refine ⟨segWeight h ((t - a) / d - j), hw _, fun c X Y α => ?_⟩
    rw [Curve.chain_eval (hg _) (by norm_num) hu (by omega) hin, arc_segment c X Y α hcos j]
    have hl : a + j * d ≤ t := (Curve.inSpan_le hin).1
    have hr : t ≤ a + (j + 1) * d := by exact_mod_cast (Curve.inSpan_le hin).2
    have hz : (t - (a + j * d)) / (a + (j + 1 : ℕ) * d - (a + j * d)) = (t - a) / d - j := by
      push_cast
      rw [show a + (j + 1) * d - (a + j * d) = d by ring]
      field_simp
      ring
    simp only [hz]
    have hq := angleAt_seg h0 (by linarith [pi_pos]) (j := j) (s := (t - a) / d - j) (by
      rw [sub_nonneg, le_div_iff₀ hd0]; linarith) (by
      rw [sub_le_iff_le_add, div_le_iff₀ hd0]; linarith)
    rw [add_sub_cancel] at hq
    rw [hq]

/-- The semi-axes give the corner at an angle: what the loop needs at every segment. -/
def CornerAt (eps : ℝ) (c x y : V) (rx ry δ α : ℝ) : Prop :=
  ∃ d0 d2 i, normalize (tan' x y α) = .ok d0 ∧ normalize (tan' x y (α + δ)) = .ok d2 ∧
    Ray.findIntersection eps ⟨c + dir (rx • x) (ry • y) α, d0⟩ ⟨c + dir (rx • x) (ry • y) (α + δ), d2⟩ = .ok (some i) ∧
    cos (δ / 2) • (c + dir (rx • x) (ry • y) α + i.1.2 • tan' x y α) = cos (δ / 2) • c + dir (rx • x) (ry • y) (α + δ / 2)

theorem dir_axes (c x y : V) (rx ry α : ℝ) :
    c + (rx * cos α) • x + (ry * sin α) • y = c + dir (rx • x) (ry • y) α := by
  rw [dir]; module

/-- The control points written by the loop. -/
theorem arcLoop_eq {eps : ℝ} {c x y : V} {rx ry δ : ℝ} : ∀ (n : ℕ) (α : ℝ),
    (∀ k : ℕ, k < n → CornerAt eps c x y rx ry δ (α + k * δ)) →
    ∃ rest, arcLoop eps c x y rx ry δ (cos (δ / 2)) n α (c + dir (rx • x) (ry • y) α) (tan' x y α) = .ok rest ∧
      ((c + dir (rx • x) (ry • y) α, 1) :: rest).map (fun p : V × ℝ => (p.2 • p.1, p.2)) =
        vec (2 * n + 1) (arcPt c (rx • x) (ry • y) α (δ / 2)) := by
  intro n
  induction n with
  | zero =>
    intro α _
    refine ⟨[], rfl, ?_⟩
    show _ = vec 1 _
    rw [vec_succ, arcPt_zero]
    simp [vec]
  | succ n ih =>
    intro α hk
    have h0 := hk 0 (by omega)
    rw [Nat.cast_zero, zero_mul, add_zero] at h0
    obtain ⟨d0, d2, i, e0, e2, ei, hc⟩ := h0
    obtain ⟨rest, er, hr⟩ := ih (α + δ) (fun k hk' => by
      have := hk (k + 1) (by omega)
      push_cast at this
      rwa [show α + (k + 1) * δ = α + δ + k * δ by ring] at this)
    refine ⟨(c + dir (rx • x) (ry • y) α + i.1.2 • tan' x y α, cos (δ / 2)) :: (c + dir (rx • x) (ry • y) (α + δ), 1) :: rest, ?_, ?_⟩
    · rw [arcLoop, dir_axes]
      simp only
      rw [e0, ok_bind, show cos (α + δ) • y - sin (α + δ) • x = tan' x y (α + δ) from rfl, e2, ok_bind, ei, ok_bind]
      simp only
      rw [er]
      rfl
    · rw [List.map_cons, List.map_cons, hr, show 2 * (n + 1) + 1 = 2 * n + 1 + 1 + 1 by ring, vec_succ (2 * n + 1 + 1), vec_succ (2 * n + 1),
        arcPt_zero, arcPt_one, hc]
      simp only [one_smul]
      congr 2
      apply vec_congr
      intro i _
      rw [show i + 1 + 1 = i + 2 from rfl, arcPt_shift, mul_div_cancel₀ _ (two_ne_zero' ℝ)]

/-- The loop fails where the tangents do not meet. -/
theorem arcLoop_err {eps : ℝ} {c x y : V} {rx ry δ : ℝ} {n : ℕ} {α : ℝ} {w : ℝ} {d0 d2 : V} (h0 : normalize (tan' x y α) = .ok d0)
    (h2 : normalize (tan' x y (α + δ)) = .ok d2)
    (hi : Ray.findIntersection eps ⟨c + dir (rx • x) (ry • y) α, d0⟩ ⟨c + dir (rx • x) (ry • y) (α + δ), d2⟩ = .ok none) :
    arcLoop eps c x y rx ry δ w (n + 1) α (c + dir (rx • x) (ry • y) α) (tan' x y α) = .error .err := by
  rw [arcLoop, dir_axes]
  simp only
  rw [h0, ok_bind, show cos (α + δ) • y - sin (α + δ) • x = tan' x y (α + δ) from rfl, h2, ok_bind, hi, ok_bind]

theorem dir_smul (r : ℝ) (x y : V) (α : ℝ) : dir (r • x) (r • y) α = r • dir x y α := by
  rw [dir, dir]; module

/-- Circles have corners. -/
theorem Ortho.cornerAt (o : Ortho x y) {eps : ℝ} (he : 0 < eps) (c : V) (r : ℝ) {δ : ℝ} (hδ : eps ≤ sin δ ^ 2) (α : ℝ) :
    CornerAt eps c x y r r δ α := by
  refine ⟨_, _, ((c + r • dir x y α + reach r δ • tan' x y α, reach r δ),
          (c + r • dir x y (α + δ) + (-reach r δ) • tan' x y (α + δ), -reach r δ)),
    normalize_unit (o.norm_tan α), normalize_unit (o.norm_tan _), ?_, ?_⟩
  · rw [dir_smul, dir_smul, o.rays c r α δ eps he, if_neg (not_lt.2 hδ)]
  · have hs : sin δ ≠ 0 := by
      rintro h
      rw [h] at hδ
      norm_num at hδ
      linarith
    rw [dir_smul, dir_smul]
    exact corner c r α δ hs

/-- Quarters of ellipses between the axes have corners. -/
theorem Ortho.cornerAt_quarter (o : Ortho x y) {eps : ℝ} (he : eps ≤ 1) (c : V) (rx ry : ℝ) {α : ℝ}
    (hα : sin α * cos α = 0) : CornerAt eps c x y rx ry (π / 2) α := by
  have e1 : cos (α + π / 2) = -sin α := cos_add_pi_div_two α
  have e2 : sin (α + π / 2) = cos α := sin_add_pi_div_two α
  have hsc := sin_sq_add_cos_sq α
  have ht : (rx * sin α ^ 2 + ry * cos α ^ 2) • tan' x y α = tan' (rx • x) (ry • y) α := by
    rw [tan', tan', smul_sub, smul_smul, smul_smul, smul_smul, smul_smul]
    rcases mul_eq_zero.1 hα with h | h
    · have : cos α ^ 2 = 1 := by rw [h] at hsc; linarith
      rw [h, this]; module
    · have : sin α ^ 2 = 1 := by rw [h] at hsc; linarith
      rw [h, this]; module
  have hd : ⟪tan' x y α, tan' x y (α + π / 2)⟫ = 0 := by rw [o.tt, add_sub_cancel_left, cos_pi_div_two]
  have hl : ⟪tan' x y α, c + dir (rx • x) (ry • y) (α + π / 2)⟫ - ⟪tan' x y α, c + dir (rx • x) (ry • y) α⟫ =
      rx * sin α ^ 2 + ry * cos α ^ 2 := by
    rw [inner_add_right, inner_add_right, tan'_eq, dir, dir, smul_smul, smul_smul, smul_smul, smul_smul, o.comb, o.comb, e1, e2]
    linear_combination (rx - ry) * hα
  refine ⟨_, _, ((c + dir (rx • x) (ry • y) α + (rx * sin α ^ 2 + ry * cos α ^ 2) • tan' x y α, rx * sin α ^ 2 + ry * cos α ^ 2),
      Ray.pointAt ⟨c + dir (rx • x) (ry • y) (α + π / 2), tan' x y (α + π / 2)⟩
        (-(⟪tan' x y (α + π / 2), c + dir (rx • x) (ry • y) (α + π / 2)⟫ - ⟪tan' x y (α + π / 2), c + dir (rx • x) (ry • y) α⟫)),
      (-(⟪tan' x y (α + π / 2), c + dir (rx • x) (ry • y) (α + π / 2)⟫ - ⟪tan' x y (α + π / 2), c + dir (rx • x) (ry • y) α⟫))),
    normalize_unit (o.norm_tan α), normalize_unit (o.norm_tan _), ?_, ?_⟩
  · rw [Ray.findIntersection]
    simp only [hd, o.tt, sub_self, cos_zero, mul_zero, sub_zero, mul_one, abs_one, hl]
    rw [if_neg (not_lt.2 he), divR_eq_ok one_ne_zero, ok_bind, divR_eq_ok one_ne_zero, ok_bind]
    simp only [add_zero, div_one, zero_mul, zero_sub, one_mul]
    rfl
  · rw [ht, smul_add, smul_add, dir_add _ _ α (π / 2 / 2), show π / 2 / 2 = π / 4 by ring, cos_pi_div_four, sin_pi_div_four, add_assoc]

/-! ### Number of arcs and knots -/

theorem arcCount_pos (t : ℝ) : 1 ≤ arcCount t := le_max_left _ _

theorem arcCount_le (t : ℝ) : arcCount t ≤ 4 := by rw [arcCount]; omega

/-- Segments are shorter than half a turn. -/
theorem arcCount_lt {t : ℝ} (h : t < 4 * π) : t / arcCount t < π := by
  have hp := pi_pos
  have h1 := arcCount_pos t
  have h1' : (0 : ℝ) < arcCount t := by exact_mod_cast h1
  rw [div_lt_iff₀ h1']
  rcases le_or_gt 4 ⌊t / (π / 2)⌋.toNat with h4 | h4
  · have : arcCount t = 4 := by rw [arcCount]; omega
    rw [this]; push_cast; linarith
  · have hfl := Int.lt_floor_add_one (t / (π / 2))
    rw [div_lt_iff₀ (by positivity)] at hfl
    have : (⌊t / (π / 2)⌋ : ℝ) + 1 ≤ 2 * arcCount t := by
      have : ⌊t / (π / 2)⌋ + 1 ≤ 2 * (arcCount t : ℤ) := by rw [arcCount]; push_cast; omega
      exact_mod_cast this
    nlinarith

theorem arcKnots_eq {s : ℕ} (h1 : 1 ≤ s) (h4 : s ≤ 4) (theta a : ℝ) :
    (arcKnots s).map (fun v => theta * v + a) = Curve.chainKnots 2 s fun k : ℕ => a + k * (theta / s) := by
  have : s = 1 ∨ s = 2 ∨ s = 3 ∨ s = 4 := by omega
  rcases this with rfl | rfl | rfl | rfl <;>
    · simp only [arcKnots, Curve.chainKnots, vec, List.range_succ, List.range_zero, List.map_append, List.map_cons, List.map_nil,
        List.nil_append, List.cons_append]
      norm_num
      try ring_nf
      try simp

end Conic
end Curvo

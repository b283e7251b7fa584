/-
  C15: what a transformation does to the control points, for any matrix.
-/
import Verif.Props.Curve2

set_option linter.unusedSectionVars false

namespace Curvo.Props

open Curvo Curvo.Curve

variable {K : Type} [Field K] [LinearOrder K] [IsStrictOrderedRing K] {W : Type} [AddCommGroup W] [Module K W]

/-- A matrix acts linearly on homogeneous points. -/
theorem C15_matrix_linear (m : Matrix4 K W) (r : K) (p q : W × K) : m.apply (r • p + q) = r • m.apply p + m.apply q := by
  ext
  · simp only [Matrix4.apply, Prod.fst_add, Prod.smul_fst, Prod.snd_add, Prod.smul_snd, map_add, map_smul, smul_add, add_smul, smul_eq_mul,
      mul_smul]
    abel
  · simp only [Matrix4.apply, Prod.fst_add, Prod.smul_fst, Prod.snd_add, Prod.smul_snd, map_add, map_smul, smul_eq_mul]
    ring

/-- **Any matrix**, also a projective one: every control point is sent to the projective image of its homogeneous point and keeps its weight;
    degree and knots stay. -/
theorem C15_control_points (m : Matrix4 K W) {c : Curve K (W × K)} (hw : ∀ p ∈ c.cps, p.2 ≠ 0) (hm : ∀ p ∈ c.cps, (m.apply p).2 ≠ 0) :
    ∃ c', c.transform m = .ok c' ∧ c'.degree = c.degree ∧ c'.knots = c.knots ∧
      List.Forall₂ (fun p q => q.2 = p.2 ∧ q.2⁻¹ • q.1 = (m.apply p).2⁻¹ • (m.apply p).1) c.cps c'.cps := by
  have key : ∀ l : List (W × K), (∀ p ∈ l, p.2 ≠ 0) → (∀ p ∈ l, (m.apply p).2 ≠ 0) → ∃ l', l.mapM (transformPoint m) = .ok l' ∧
      List.Forall₂ (fun p q => q.2 = p.2 ∧ q.2⁻¹ • q.1 = (m.apply p).2⁻¹ • (m.apply p).1) l l' := by
    intro l
    induction l with
    | nil => intro _ _; exact ⟨[], rfl, .nil⟩
    | cons p l ih =>
      intro h1 h2
      obtain ⟨l', e, f⟩ := ih (fun q hq => h1 q (List.mem_cons_of_mem _ hq)) fun q hq => h2 q (List.mem_cons_of_mem _ hq)
      have hp := h1 p List.mem_cons_self
      have hq := h2 p List.mem_cons_self
      have ha : m.apply (p.2⁻¹ • p.1, 1) = p.2⁻¹ • m.apply p := by
        have := C15_matrix_linear m p.2⁻¹ p 0
        rw [add_zero] at this
        have z : m.apply 0 = 0 := by simp [Matrix4.apply]
        rw [z, add_zero] at this
        rw [← this]
        congr 1
        ext
        · rfl
        · simp [hp]
      have e1 : transformPoint m p = .ok (p.2 • (((p.2⁻¹ • m.apply p).2)⁻¹ • (p.2⁻¹ • m.apply p).1), p.2) := by
        have hne : (p.2⁻¹ • m.apply p).2 ≠ 0 := by
          rw [Prod.smul_snd, smul_eq_mul]; exact mul_ne_zero (inv_ne_zero hp) hq
        simp only [transformPoint, divR, if_neg hp, ok_bind, one_div, ha]
        rw [if_neg hne]
        simp only [ok_bind]
        rfl
      refine ⟨(p.2 • (((p.2⁻¹ • m.apply p).2)⁻¹ • (p.2⁻¹ • m.apply p).1), p.2) :: l', by rw [List.mapM_cons, e1, ok_bind, e, ok_bind]; rfl, .cons ⟨rfl, ?_⟩ f⟩
      show p.2⁻¹ • p.2 • _ = _
      rw [smul_smul, inv_mul_cancel₀ hp, one_smul, Prod.smul_snd, Prod.smul_fst, smul_smul, smul_eq_mul]
      congr 1
      field_simp
  obtain ⟨l', e, f⟩ := key c.cps hw hm
  exact ⟨{ c with cps := l' }, by rw [Curve.transform, e, ok_bind]; rfl, rfl, rfl, f⟩

/-- The segment with the weights 1 and 2 under the projective map `x ↦ x / (x + 1)`: the ends keep their weights and go to `0` and `2/3`. -/
example : ∃ c', Curve.transform (W := ℚ) { A := LinearMap.id, b := 0, c := LinearMap.id, d := 1 } { degree := 1, cps := [(0, 1), (4, 2)], knots := [0, 0, 1, 1] } =
    .ok c' ∧ c'.cps.map Prod.snd = [1, 2] ∧ c'.cps.map (fun q => q.2⁻¹ • q.1) = [0, 2 / 3] := by
  obtain ⟨c', e, -, -, f⟩ := C15_control_points (W := ℚ) (K := ℚ) { A := LinearMap.id, b := 0, c := LinearMap.id, d := 1 }
    (c := { degree := 1, cps := [(0, 1), (4, 2)], knots := [0, 0, 1, 1] }) (by simp) (by simp [Matrix4.apply]; norm_num)
  refine ⟨c', e, ?_⟩
  obtain ⟨_, cps, _⟩ := c'
  cases f with
  | cons h1 f =>
    cases f with
    | cons h2 f =>
      cases f
      refine ⟨by simp [h1.1, h2.1], ?_⟩
      simp only [List.map_cons, List.map_nil, h1.2, h2.2]
      norm_num [Matrix4.apply]

end Curvo.Props

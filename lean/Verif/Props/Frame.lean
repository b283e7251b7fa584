/-
  Property theorems about the frames along a curve: C75.
-/
import Verif.Model.Frame
import Verif.Lemmas.Res
import Verif.Props.CurveDeriv
import Verif.Props.LengthReal
import Mathlib.Tactic.LinearCombination
import Mathlib.Tactic.FinCases
import Mathlib.Analysis.Calculus.Deriv.Prod

set_option linter.unusedSectionVars false

namespace Curvo.Props

open Curvo.Frame Matrix

/-! ### Specification -/

/-- A right handed orthonormal frame. -/
structure RightHanded (f : FrenetFrame) : Prop where
  tangent : f.tangent ⬝ᵥ f.tangent = 1
  normal : f.normal ⬝ᵥ f.normal = 1
  orthogonal : f.tangent ⬝ᵥ f.normal = 0
  binormal : f.binormal = f.tangent ⨯₃ f.normal

/-- The rotation about the unit vector `k` (formula of Rodrigues). -/
noncomputable def turn (k : V3) (theta : ℝ) (v : V3) : V3 :=
  Real.cos theta • v + Real.sin theta • (k ⨯₃ v) + ((1 - Real.cos theta) * (k ⬝ᵥ v)) • k

/-! ### Vectors -/

theorem cross0 (a b : V3) : (a ⨯₃ b) 0 = a 1 * b 2 - a 2 * b 1 := rfl
theorem cross1 (a b : V3) : (a ⨯₃ b) 1 = a 2 * b 0 - a 0 * b 2 := rfl
theorem cross2 (a b : V3) : (a ⨯₃ b) 2 = a 0 * b 1 - a 1 * b 0 := rfl

theorem ext3 {a b : V3} (h0 : a 0 = b 0) (h1 : a 1 = b 1) (h2 : a 2 = b 2) : a = b := by
  funext i
  fin_cases i <;> assumption

theorem dot_self_nonneg' (v : V3) : 0 ≤ v ⬝ᵥ v := by
  rw [Matrix.vec3_dotProduct]; nlinarith [sq_nonneg (v 0), sq_nonneg (v 1), sq_nonneg (v 2)]

theorem dot_self_pos {v : V3} (h : v ≠ 0) : 0 < v ⬝ᵥ v :=
  lt_of_le_of_ne (dot_self_nonneg' v) fun e => h <| by
    rw [Matrix.vec3_dotProduct] at e
    have h0 : v 0 = 0 := by nlinarith [sq_nonneg (v 0), sq_nonneg (v 1), sq_nonneg (v 2)]
    have h1 : v 1 = 0 := by nlinarith [sq_nonneg (v 0), sq_nonneg (v 1), sq_nonneg (v 2)]
    have h2 : v 2 = 0 := by nlinarith [sq_nonneg (v 0), sq_nonneg (v 1), sq_nonneg (v 2)]
    funext i
    fin_cases i <;> assumption

theorem norm_pos' {v : V3} (h : v ≠ 0) : 0 < Frame.norm v := Real.sqrt_pos.2 (dot_self_pos h)

theorem norm_sq' (v : V3) : Frame.norm v * Frame.norm v = v ⬝ᵥ v := Real.mul_self_sqrt (dot_self_nonneg' v)

theorem norm_one {v : V3} (h : v ⬝ᵥ v = 1) : Frame.norm v = 1 := by rw [Frame.norm, h, Real.sqrt_one]

theorem unit_dot {v : V3} (h : v ≠ 0) : ((Frame.norm v)⁻¹ • v) ⬝ᵥ ((Frame.norm v)⁻¹ • v) = 1 := by
  rw [smul_dotProduct, dotProduct_smul, ← norm_sq']
  have := (norm_pos' h).ne'
  simp only [smul_eq_mul]; field_simp

theorem normalizeR_ok {v w : V3} : Frame.normalize v = .ok w ↔ v ≠ 0 ∧ w = (Frame.norm v)⁻¹ • v := by
  unfold Frame.normalize unit
  by_cases h : v = 0
  · simp [h]
  · simp [h, eq_comm]

theorem normalize_of_one {v : V3} (h : v ⬝ᵥ v = 1) : Frame.normalize v = .ok v := by
  refine normalizeR_ok.2 ⟨?_, by rw [norm_one h]; simp⟩
  rintro rfl
  simp at h

theorem dot_cross_sq (a b : V3) : (a ⨯₃ b) ⬝ᵥ (a ⨯₃ b) = (a ⬝ᵥ a) * (b ⬝ᵥ b) - (a ⬝ᵥ b) * (a ⬝ᵥ b) := by
  rw [cross_dot_cross, dotProduct_comm b a]

theorem rotate_eq_turn (k : V3) (theta : ℝ) (v : V3) : rotate k theta v = turn k theta v := by
  unfold rotate turn
  apply ext3 <;>
  simp only [Pi.add_apply, Pi.smul_apply, smul_eq_mul, cross0, cross1, cross2, Matrix.vec3_dotProduct, Matrix.cons_val] <;>
  ring

theorem turn_dot {k : V3} (hk : k ⬝ᵥ k = 1) (theta : ℝ) (u v : V3) : turn k theta u ⬝ᵥ turn k theta v = u ⬝ᵥ v := by
  have hc := Real.sin_sq_add_cos_sq theta
  unfold turn
  generalize Real.sin theta = s at *
  generalize Real.cos theta = c at *
  simp only [Pi.add_apply, Pi.smul_apply, smul_eq_mul, cross0, cross1, cross2, Matrix.vec3_dotProduct] at *
  linear_combination (hc) * ((u 0 * v 0 + u 1 * v 1 + u 2 * v 2) -
    (k 0 * u 0 + k 1 * u 1 + k 2 * u 2) * (k 0 * v 0 + k 1 * v 1 + k 2 * v 2)) +
    hk * (s ^ 2 * (u 0 * v 0 + u 1 * v 1 + u 2 * v 2) +
      (1 - c) ^ 2 * ((k 0 * u 0 + k 1 * u 1 + k 2 * u 2) * (k 0 * v 0 + k 1 * v 1 + k 2 * v 2)))

/-- The rotation of the code takes the tangent to the next tangent. -/
theorem turn_tangent {t t' : V3} (h : t ⬝ᵥ t = 1) (h' : t' ⬝ᵥ t' = 1) (hx : t ⨯₃ t' ≠ 0) :
    turn ((Frame.norm (t ⨯₃ t'))⁻¹ • (t ⨯₃ t')) (Real.arccos (t ⬝ᵥ t')) t = t' := by
  have hs : Frame.norm (t ⨯₃ t') * Frame.norm (t ⨯₃ t') = 1 - (t ⬝ᵥ t') * (t ⬝ᵥ t') := by
    rw [norm_sq', dot_cross_sq, h, h', one_mul]
  have hp := norm_pos' hx
  have hb : -1 ≤ t ⬝ᵥ t' ∧ t ⬝ᵥ t' ≤ 1 := by
    have : 0 ≤ 1 - (t ⬝ᵥ t') * (t ⬝ᵥ t') := hs ▸ mul_self_nonneg _
    constructor <;> nlinarith
  have hsin : Real.sin (Real.arccos (t ⬝ᵥ t')) = Frame.norm (t ⨯₃ t') := by
    rw [Real.sin_arccos, sq, ← hs, Real.sqrt_mul_self hp.le]
  unfold turn
  rw [hsin, Real.cos_arccos hb.1 hb.2]
  have e1 : Frame.norm (t ⨯₃ t') • (((Frame.norm (t ⨯₃ t'))⁻¹ • (t ⨯₃ t')) ⨯₃ t) = (t ⨯₃ t') ⨯₃ t := by
    rw [map_smul, LinearMap.smul_apply, smul_smul, mul_inv_cancel₀ hp.ne', one_smul]
  have e2 : ((Frame.norm (t ⨯₃ t'))⁻¹ • (t ⨯₃ t')) ⬝ᵥ t = 0 := by
    rw [smul_dotProduct, dotProduct_comm, dot_self_cross, smul_zero]
  rw [e1, e2, mul_zero, zero_smul, add_zero]
  simp only [Matrix.vec3_dotProduct] at h
  apply ext3 <;> simp only [Pi.add_apply, Pi.smul_apply, smul_eq_mul, cross0, cross1, cross2, Matrix.vec3_dotProduct]
  · linear_combination t' 0 * h
  · linear_combination t' 1 * h
  · linear_combination t' 2 * h

/-! ### The first normal -/

/-- The axis chosen is never parallel to the tangent. -/
theorem axis_cross {t : V3} (h : t ⬝ᵥ t = 1) : t ⨯₃ axis t ≠ 0 := by
  intro e
  have e0 := congrFun e 0
  have e1 := congrFun e 1
  have e2 := congrFun e 2
  rw [Matrix.vec3_dotProduct] at h
  have zero : ∀ {x y : ℝ}, x = 0 → |y| ≤ |x| → y = 0 := by
    rintro x y rfl h
    simpa using h
  unfold axis at e0 e1 e2
  rw [cross0] at e0
  rw [cross1] at e1
  rw [cross2] at e2
  split_ifs at e0 e1 e2 with c1 c2 c2 <;> simp at e0 e1 e2 c1 c2
  · rw [e0, e1, zero e0 c2] at h; norm_num at h
  · rw [e0, abs_zero] at c2; exact absurd c2 (not_lt.2 (abs_nonneg _))
  · rw [e0, e1, zero e1 c2] at h; norm_num at h
  · rw [e2] at c1; rw [abs_zero] at c1; exact absurd c1 (not_lt.2 (abs_nonneg _))

/-! ### The frames -/

/-- Consecutive frames: the normal is carried along by the rotation about the common perpendicular of the tangents that
    takes the first tangent to the second; it is kept where the tangents are parallel. -/
def Carried (x y : V3 × V3) : Prop :=
  if x.1 ⨯₃ y.1 = 0 then y.2 = x.2
  else ∃ (k : V3) (theta a : ℝ), k ⬝ᵥ k = 1 ∧ 0 < a ∧ x.1 ⨯₃ y.1 = a • k ∧ 0 ≤ theta ∧ theta ≤ Real.pi ∧
    turn k theta x.1 = y.1 ∧ turn k theta x.2 = y.2

theorem dot_bounds {t t' : V3} (h : t ⬝ᵥ t = 1) (h' : t' ⬝ᵥ t' = 1) : -1 ≤ t ⬝ᵥ t' ∧ t ⬝ᵥ t' ≤ 1 := by
  have h0 := dot_self_nonneg' (t ⨯₃ t')
  rw [dot_cross_sq, h, h'] at h0
  constructor <;> nlinarith

theorem nextNormal_turn {eps : ℝ} (he : eps < 1) {t t' : V3} (h : t ⬝ᵥ t = 1) (h' : t' ⬝ᵥ t' = 1) (hx : t ⨯₃ t' ≠ 0)
    (n : V3) : nextNormal eps t t' n =
      turn ((Frame.norm (t ⨯₃ t'))⁻¹ • (t ⨯₃ t')) (Real.arccos (t ⬝ᵥ t')) n := by
  have hu := norm_one (unit_dot hx)
  obtain ⟨b1, b2⟩ := dot_bounds h h'
  simp only [nextNormal, unit, if_neg hx]
  rw [hu, if_pos he, min_eq_right b2, max_eq_right b1, inv_one, one_smul, rotate_eq_turn]

theorem nextNormal_parallel {eps : ℝ} {t t' : V3} (hx : t ⨯₃ t' = 0) (n : V3) : nextNormal eps t t' n = n := by
  simp only [nextNormal, unit, hx, if_true]

theorem parallel_eq {t t' : V3} (h : t ⬝ᵥ t = 1) (hx : t ⨯₃ t' = 0) : t' = (t ⬝ᵥ t') • t := by
  have x0 : t 1 * t' 2 - t 2 * t' 1 = 0 := congrFun hx 0
  have x1 : t 2 * t' 0 - t 0 * t' 2 = 0 := congrFun hx 1
  have x2 : t 0 * t' 1 - t 1 * t' 0 = 0 := congrFun hx 2
  rw [Matrix.vec3_dotProduct] at *
  apply ext3 <;> simp only [Pi.smul_apply, smul_eq_mul]
  · linear_combination (-t' 0) * h - t 2 * x1 * (-1) + t 1 * x2 * (-1)
  · linear_combination (-t' 1) * h - t 0 * x2 * (-1) + t 2 * x0 * (-1)
  · linear_combination (-t' 2) * h - t 1 * x0 * (-1) + t 0 * x1 * (-1)

theorem nextNormal_ok {eps : ℝ} (he : eps < 1) {t t' n : V3} (h : t ⬝ᵥ t = 1) (h' : t' ⬝ᵥ t' = 1) (hn : n ⬝ᵥ n = 1)
    (ho : t ⬝ᵥ n = 0) : nextNormal eps t t' n ⬝ᵥ nextNormal eps t t' n = 1 ∧ t' ⬝ᵥ nextNormal eps t t' n = 0 ∧
      Carried (t, n) (t', nextNormal eps t t' n) := by
  by_cases hx : t ⨯₃ t' = 0
  · rw [nextNormal_parallel hx]
    refine ⟨hn, ?_, by simp [Carried, hx]⟩
    rw [parallel_eq h hx, smul_dotProduct, ho, smul_zero]
  · have ht := turn_tangent h h' hx
    rw [nextNormal_turn he h h' hx]
    refine ⟨by rw [turn_dot (unit_dot hx), hn], ?_, ?_⟩
    · have hd := turn_dot (unit_dot hx) (Real.arccos (t ⬝ᵥ t')) t n
      rw [ht, ho] at hd
      exact hd
    · simp only [Carried, if_neg hx]
      exact ⟨_, _, Frame.norm (t ⨯₃ t'), unit_dot hx, norm_pos' hx,
        by rw [smul_smul, mul_inv_cancel₀ (norm_pos' hx).ne', one_smul], Real.arccos_nonneg _, Real.arccos_le_pi _, ht, rfl⟩

theorem normals_ok {eps : ℝ} (he : eps < 1) : ∀ {ts : List V3} {t n : V3}, t ⬝ᵥ t = 1 → n ⬝ᵥ n = 1 → t ⬝ᵥ n = 0 →
    (∀ t' ∈ ts, t' ⬝ᵥ t' = 1) →
    (Frame.normals eps t n ts).length = ts.length ∧
    (∀ x ∈ (t :: ts).zip (n :: Frame.normals eps t n ts), x.1 ⬝ᵥ x.1 = 1 ∧ x.2 ⬝ᵥ x.2 = 1 ∧ x.1 ⬝ᵥ x.2 = 0) ∧
    ((t :: ts).zip (n :: Frame.normals eps t n ts)).IsChain Carried
  | [], t, n, h, hn, ho, _ => by
    refine ⟨rfl, ?_, by simp [Frame.normals]⟩
    intro x hx
    simp [Frame.normals] at hx
    subst hx
    exact ⟨h, hn, ho⟩
  | t' :: ts, t, n, h, hn, ho, ht => by
    obtain ⟨g1, g2, g3⟩ := nextNormal_ok he h (ht t' (by simp)) hn ho
    obtain ⟨r1, r2, r3⟩ := normals_ok he (ts := ts) (ht t' (by simp)) g1 g2 fun x hx => ht x (by simp [hx])
    refine ⟨by simp [Frame.normals, r1], ?_, ?_⟩
    · intro x hx
      rw [List.zip_cons_cons] at hx
      rcases List.mem_cons.1 hx with rfl | hx
      · exact ⟨h, hn, ho⟩
      · exact r2 x hx
    · rw [List.zip_cons_cons]
      simp only [Frame.normals, List.zip_cons_cons] at r3 ⊢
      exact List.IsChain.cons_cons g3 r3

theorem first_normal {t v n : V3} (hn : Frame.normalize (t ⨯₃ v) = .ok n) : n ⬝ᵥ n = 1 ∧ t ⬝ᵥ n = 0 := by
  obtain ⟨hn1, rfl⟩ := normalizeR_ok.1 hn
  exact ⟨unit_dot hn1, by rw [dotProduct_smul, dot_self_cross, smul_zero]⟩

theorem first_normal_exists {t : V3} (h : t ⬝ᵥ t = 1) :
    ∃ v n, Frame.normalize (t ⨯₃ axis t) = .ok v ∧ Frame.normalize (t ⨯₃ v) = .ok n := by
  refine ⟨_, _, normalizeR_ok.2 ⟨axis_cross h, rfl⟩, normalizeR_ok.2 ⟨?_, rfl⟩⟩
  set v := (Frame.norm (t ⨯₃ axis t))⁻¹ • (t ⨯₃ axis t) with hv
  intro e
  have h1 := dot_cross_sq t v
  have h2 : t ⬝ᵥ v = 0 := by rw [hv, dotProduct_smul, dot_self_cross, smul_zero]
  rw [e, h, hv, unit_dot (axis_cross h), ← hv, h2] at h1
  simp at h1

theorem binormal_ok {t n : V3} (h : t ⬝ᵥ t = 1) (hn : n ⬝ᵥ n = 1) (ho : t ⬝ᵥ n = 0) :
    Frame.normalize (t ⨯₃ n) = .ok (t ⨯₃ n) :=
  normalize_of_one (by rw [dot_cross_sq, h, hn, ho]; norm_num)

theorem frames_ok {eps : ℝ} (he : eps < 1) {c : Curve ℝ (V3 × ℝ)} {params : List ℝ} {fs : List FrenetFrame}
    (h : frames eps c params = .ok fs) :
    List.Forall₂ (fun u f => RightHanded f ∧ c.pointAt eps u = .ok f.position ∧
      ∃ T, c.tangentAt eps u = .ok T ∧ T ≠ 0 ∧ f.tangent = (Frame.norm T)⁻¹ • T) params fs ∧
    (fs.map fun f => (f.tangent, f.normal)).IsChain Carried := by
  unfold frames at h
  obtain ⟨ts, hts, h1⟩ := bind_eq_ok.1 h
  obtain ⟨t0, ht0, h2⟩ := bind_eq_ok.1 h1
  obtain ⟨v, hv, h3⟩ := bind_eq_ok.1 h2
  obtain ⟨n0, hn0, h4⟩ := bind_eq_ok.1 h3
  clear h h1 h2 h3
  have hT := mapM_ok_inv hts
  have hT' : List.Forall₂ (fun u t => ∃ T, c.tangentAt eps u = .ok T ∧ T ≠ 0 ∧ t = (Frame.norm T)⁻¹ • T) params ts := by
    refine hT.imp fun u t hut => ?_
    obtain ⟨T, e1, e2⟩ := bind_eq_ok.1 hut
    obtain ⟨g1, g2⟩ := normalizeR_ok.1 e2
    exact ⟨T, e1, g1, g2⟩
  have hlen : params.length = ts.length := hT.length_eq
  have hunit : ∀ t ∈ ts, t ⬝ᵥ t = 1 := by
    intro t ht
    obtain ⟨k, hk, rfl⟩ := List.getElem_of_mem ht
    obtain ⟨T, -, hT0, e⟩ := (List.forall₂_iff_get.1 hT').2 k (by omega) hk
    rw [List.get_eq_getElem] at e
    rw [e]; exact unit_dot hT0
  obtain ⟨tl, rfl⟩ : ∃ tl, ts = t0 :: tl := by
    cases ts with
    | nil => cases ht0
    | cons a tl => cases ht0; exact ⟨tl, rfl⟩
  rw [List.tail_cons] at h4
  obtain ⟨g1, g2⟩ := first_normal hn0
  obtain ⟨r1, r2, r3⟩ := normals_ok he (hunit t0 (by simp)) g1 g2 fun t' ht' => hunit t' (List.mem_cons_of_mem _ ht')
  set ps := (t0 :: tl).zip (n0 :: Frame.normals eps t0 n0 tl) with hps
  have hpl : ps.length = params.length := by
    rw [hps, hlen]; simp [r1]
  have hF := mapM_ok_inv h4
  have hfl : fs.length = params.length := by
    rw [← hF.length_eq, List.length_zip, hpl, min_self]
  have key : ∀ k (hk : k < params.length), ∃ (hk' : k < fs.length) (hk'' : k < ps.length),
      mkFrame c eps (params[k], ps[k]) = .ok fs[k] := by
    intro k hk
    have := (List.forall₂_iff_get.1 hF).2 k (by rw [List.length_zip, hpl, min_self]; exact hk) (by omega)
    refine ⟨by omega, by omega, ?_⟩
    simpa using this
  have key2 : ∀ k (hk : k < params.length), ∃ (hk' : k < fs.length) (hk'' : k < ps.length),
      RightHanded fs[k] ∧ c.pointAt eps params[k] = .ok fs[k].position ∧ fs[k].tangent = ps[k].1 ∧
        fs[k].normal = ps[k].2 := by
    intro k hk
    obtain ⟨a, b, e⟩ := key k hk
    refine ⟨a, b, ?_⟩
    obtain ⟨q1, q2, q3⟩ := r2 ps[k] (List.getElem_mem b)
    unfold mkFrame at e
    obtain ⟨bn, e1, e2⟩ := bind_eq_ok.1 e
    obtain ⟨p, e3, e4⟩ := bind_eq_ok.1 e2
    rw [binormal_ok q1 q2 q3] at e1
    rw [pure_eq_ok] at e4
    rw [← Except.ok.inj e4]
    exact ⟨⟨q1, q2, q3, (Except.ok.inj e1).symm⟩, e3, rfl, rfl⟩
  constructor
  · refine List.forall₂_iff_get.2 ⟨hfl.symm, fun k hk hk' => ?_⟩
    obtain ⟨a, b, e1, e2, e3, -⟩ := key2 k hk
    obtain ⟨T, t1, t2, t3⟩ := (List.forall₂_iff_get.1 hT').2 k hk (by omega)
    simp only [List.get_eq_getElem] at *
    refine ⟨e1, e2, T, t1, t2, ?_⟩
    rw [e3, ← t3]
    simp only [hps, List.getElem_zip]
  · have : (fs.map fun f => (f.tangent, f.normal)) = ps := by
      apply List.ext_getElem
      · rw [List.length_map, hfl, hpl]
      · intro k hk _
        rw [List.length_map] at hk
        obtain ⟨a, b, -, -, e3, e4⟩ := key2 k (by omega)
        simp [e3, e4]
    rw [this]; exact r3

/-- **C75** Every frame is a right handed orthonormal frame at the point of the curve whose tangent is the normalised
    tangent of the curve, for every curve and every list of parameters (`eps < 1` holds of machine epsilon). -/
theorem C75_frames_orthonormal {eps : ℝ} (he : eps < 1) {c : Curve ℝ (V3 × ℝ)} {params : List ℝ} {fs : List FrenetFrame}
    (h : frames eps c params = .ok fs) :
    List.Forall₂ (fun u f => RightHanded f ∧ c.pointAt eps u = .ok f.position ∧
      ∃ T, c.tangentAt eps u = .ok T ∧ T ≠ 0 ∧ f.tangent = (Frame.norm T)⁻¹ • T) params fs :=
  (frames_ok he h).1

/-- **C75** From one frame to the next the normal is turned with the tangent, about their common perpendicular, and kept
    where the tangents are parallel: the frames do not spin about the curve. -/
theorem C75_frames_carried {eps : ℝ} (he : eps < 1) {c : Curve ℝ (V3 × ℝ)} {params : List ℝ} {fs : List FrenetFrame}
    (h : frames eps c params = .ok fs) : (fs.map fun f => (f.tangent, f.normal)).IsChain Carried :=
  (frames_ok he h).2

/-- **C75** Frames exist whenever the points and the tangents exist and no tangent vanishes. -/
theorem C75_frames_exist {eps : ℝ} (he : eps < 1) {c : Curve ℝ (V3 × ℝ)} {params : List ℝ} (hne : params ≠ [])
    (h : ∀ u ∈ params, (∃ p, c.pointAt eps u = .ok p) ∧ ∃ T, c.tangentAt eps u = .ok T ∧ T ≠ 0) :
    ∃ fs, frames eps c params = .ok fs := by
  have hts : ∃ ts, (params.mapM fun u => do
      let t ← c.tangentAt eps u
      Frame.normalize t) = .ok ts ∧ ts.length = params.length ∧ ∀ t ∈ ts, t ⬝ᵥ t = 1 := by
    clear hne
    induction params with
    | nil => exact ⟨[], rfl, rfl, by simp⟩
    | cons u us ih =>
      obtain ⟨ts, h1, h2, h3⟩ := ih fun x hx => h x (List.mem_cons_of_mem _ hx)
      obtain ⟨-, T, hT, hT0⟩ := h u (by simp)
      refine ⟨(Frame.norm T)⁻¹ • T :: ts, ?_, by simp [h2], ?_⟩
      · rw [List.mapM_cons, hT, ok_bind, normalizeR_ok.2 ⟨hT0, rfl⟩, h1]; rfl
      · intro t ht
        rcases List.mem_cons.1 ht with rfl | ht
        · exact unit_dot hT0
        · exact h3 t ht
  obtain ⟨ts, h1, h2, h3⟩ := hts
  obtain ⟨t0, tl, rfl⟩ : ∃ t0 tl, ts = t0 :: tl := by
    cases ts with
    | nil => exact absurd (List.length_eq_zero_iff.1 h2.symm) hne
    | cons a tl => exact ⟨a, tl, rfl⟩
  obtain ⟨v, n, hv, hn⟩ := first_normal_exists (h3 t0 (by simp))
  obtain ⟨g1, g2⟩ := first_normal hn
  obtain ⟨-, r2, -⟩ := normals_ok he (h3 t0 (by simp)) g1 g2 fun t' ht' => h3 t' (List.mem_cons_of_mem _ ht')
  have hfin : ∀ l : List (ℝ × V3 × V3), (∀ x ∈ l, x.1 ∈ params ∧ x.2.1 ⬝ᵥ x.2.1 = 1 ∧ x.2.2 ⬝ᵥ x.2.2 = 1 ∧
      x.2.1 ⬝ᵥ x.2.2 = 0) → ∃ fs, l.mapM (mkFrame c eps) = .ok fs := by
    intro l hl
    induction l with
    | nil => exact ⟨[], rfl⟩
    | cons x l ih =>
      obtain ⟨fs, hfs⟩ := ih fun y hy => hl y (List.mem_cons_of_mem _ hy)
      obtain ⟨q0, q1, q2, q3⟩ := hl x (by simp)
      obtain ⟨⟨p, hp⟩, -⟩ := h _ q0
      refine ⟨⟨p, x.2.1, x.2.2, x.2.1 ⨯₃ x.2.2⟩ :: fs, ?_⟩
      rw [List.mapM_cons, mkFrame, binormal_ok q1 q2 q3, ok_bind, hp, ok_bind, pure_eq_ok, ok_bind, hfs]; rfl
  obtain ⟨fs, hfs⟩ := hfin (params.zip ((t0 :: tl).zip (n :: Frame.normals eps t0 n tl))) fun x hx =>
    ⟨(List.of_mem_zip hx).1, r2 x.2 (List.of_mem_zip hx).2⟩
  refine ⟨fs, ?_⟩
  unfold frames
  rw [h1, ok_bind, show getR (t0 :: tl) 0 = .ok t0 from rfl, ok_bind, hv, ok_bind, hn, ok_bind]
  exact hfs

/-- **C75** An empty list of parameters is out of range. -/
theorem C75_no_parameters (eps : ℝ) (c : Curve ℝ (V3 × ℝ)) : frames eps c [] = .error .panic := rfl

/-- **C75** On a curve with positive weights that does not stop at the parameters, frames exist, and their tangents point
    along the derivative of the curve. -/
theorem C75_frames_of_curve {eps : ℝ} (he : eps < 1) {c : Curve ℝ (V3 × ℝ)} (hc : c.Good eps)
    (hw : ∀ p ∈ c.cps, 0 < p.2) {params : List ℝ} (hne : params ≠ [])
    (hin : ∀ u ∈ params, c.lo ≤ u ∧ u ≤ c.hi)
    (hd : ∀ u ∈ params, ∀ s, s < c.cps.length → Spec.InSpan (kf c.knots) c.hi u s →
      derivWithin (fun t => (c.eval t).2⁻¹ • (c.eval t).1) {t | Spec.InSpan (kf c.knots) c.hi t s} u ≠ 0) :
    ∃ fs, frames eps c params = .ok fs ∧ List.Forall₂ (fun u f => RightHanded f ∧
      f.position = (c.eval u).2⁻¹ • (c.eval u).1 ∧ ∃ (s : ℕ) (a : ℝ), s < c.cps.length ∧ Spec.InSpan (kf c.knots) c.hi u s ∧ 0 < a ∧
      derivWithin (fun t => (c.eval t).2⁻¹ • (c.eval t).1) {t | Spec.InSpan (kf c.knots) c.hi t s} u = a • f.tangent)
      params fs := by
  have key : ∀ u ∈ params, c.pointAt eps u = .ok ((c.eval u).2⁻¹ • (c.eval u).1) ∧ ∃ s, s < c.cps.length ∧
      Spec.InSpan (kf c.knots) c.hi u s ∧ c.tangentAt eps u = .ok (derivWithin (fun t => (c.eval t).2⁻¹ • (c.eval t).1)
        {t | Spec.InSpan (kf c.knots) c.hi t s} u) := by
    intro u hu
    obtain ⟨h1, h2⟩ := hin u hu
    obtain ⟨g1, g2⟩ := C09_point_at_positive_weights hc hw h1 h2
    obtain ⟨s, -, -, h3, h4⟩ := hc.exists_span h1 h2
    have := hc.cps_pos
    exact ⟨g1, s, by omega, h4, (C26_tangent hc h1 h2 (by omega) h4 g2.ne').1⟩
  obtain ⟨fs, hfs⟩ := C75_frames_exist he hne fun u hu => by
    obtain ⟨h1, s, h2, h3, h4⟩ := key u hu
    exact ⟨⟨_, h1⟩, _, h4, hd u hu s h2 h3⟩
  refine ⟨fs, hfs, ?_⟩
  refine List.forall₂_iff_get.2 ⟨(C75_frames_orthonormal he hfs).length_eq, fun k hk hk' => ?_⟩
  obtain ⟨g1, g2, T, g3, g4, g5⟩ := (List.forall₂_iff_get.1 (C75_frames_orthonormal he hfs)).2 k hk hk'
  obtain ⟨h1, s, h2, h3, h4⟩ := key (params.get ⟨k, hk⟩) (List.get_mem _ _)
  rw [h1] at g2
  rw [h4] at g3
  refine ⟨g1, (Except.ok.inj g2).symm, s, Frame.norm T, h2, h3, norm_pos' g4, ?_⟩
  rw [g5, smul_smul, mul_inv_cancel₀ (norm_pos' g4).ne', one_smul]
  exact Except.ok.inj g3

/-! ### The transformation of a frame -/

/-- **C75** The transformation of a frame moves the origin to its position and the axes x, y and z to minus its binormal,
    its normal and its tangent. -/
theorem C75_matrix {f : FrenetFrame} (h : RightHanded f) (p : V3) :
    f.apply p = .ok (f.position + (p 0 • (-f.binormal) + p 1 • f.normal + p 2 • f.tangent)) := by
  have hx : f.normal ⨯₃ f.tangent = -f.binormal := by rw [h.binormal, cross_anticomm]
  have hb : f.binormal ⬝ᵥ f.binormal = 1 := by
    rw [h.binormal, dot_cross_sq, h.tangent, h.normal, h.orthogonal]; norm_num
  have hy : f.tangent ⨯₃ (-f.binormal) = f.normal := by
    have h1 := h.tangent
    have h2 := h.orthogonal
    rw [h.binormal]
    rw [Matrix.vec3_dotProduct] at h1 h2
    apply ext3 <;> simp only [Pi.neg_apply, cross0, cross1, cross2]
    · linear_combination f.normal 0 * h1 - f.tangent 0 * h2
    · linear_combination f.normal 1 * h1 - f.tangent 1 * h2
    · linear_combination f.normal 2 * h1 - f.tangent 2 * h2
  unfold FrenetFrame.apply faceTowards
  rw [normalize_of_one h.tangent, ok_bind, hx, normalize_of_one (by rw [neg_dotProduct, dotProduct_neg, neg_neg, hb]),
    ok_bind, hy, normalize_of_one h.normal]
  rfl

/-- **C75** The transformation of a frame keeps distances. -/
theorem C75_matrix_isometry {f : FrenetFrame} (h : RightHanded f) {p q p' q' : V3} (hp : f.apply p = .ok p')
    (hq : f.apply q = .ok q') : Frame.norm (p' - q') = Frame.norm (p - q) := by
  rw [C75_matrix h] at hp hq
  obtain rfl := Except.ok.inj hp
  obtain rfl := Except.ok.inj hq
  have h1 := h.tangent
  have h2 := h.normal
  have h3 := h.orthogonal
  have h4 : f.binormal ⬝ᵥ f.binormal = 1 := by
    rw [h.binormal, dot_cross_sq, h1, h2, h3]; norm_num
  have h5 : f.tangent ⬝ᵥ f.binormal = 0 := by rw [h.binormal, dot_self_cross]
  have h6 : f.normal ⬝ᵥ f.binormal = 0 := by rw [h.binormal, dot_cross_self]
  unfold Frame.norm
  congr 1
  rw [Matrix.vec3_dotProduct] at h1 h2 h3 h4 h5 h6
  simp only [Matrix.vec3_dotProduct, Pi.add_apply, Pi.sub_apply, Pi.smul_apply, Pi.neg_apply, smul_eq_mul]
  linear_combination (p 2 - q 2) ^ 2 * h1 + (p 1 - q 1) ^ 2 * h2 + 2 * (p 1 - q 1) * (p 2 - q 2) * h3 +
    (p 0 - q 0) ^ 2 * h4 - 2 * (p 0 - q 0) * (p 2 - q 2) * h5 - 2 * (p 0 - q 0) * (p 1 - q 1) * h6

/-! ### Witness -/

/-- Witness: a quadratic bend from the direction x to the direction y. -/
noncomputable def exBend : Curve ℝ (V3 × ℝ) where
  degree := 2
  cps := [(![0, 0, 0], 1), (![1, 0, 0], 1), (![1, 1, 0], 1)]
  knots := [0, 0, 0, 1, 1, 1]

theorem exBend_good : exBend.Good (1/1000) where
  cps_pos := by simp [exBend]
  knots_len := by simp [exBend]
  good := by
    refine ⟨by norm_num, by simp [exBend], ?_, ?_, ?_, ?_, ?_⟩
    · exact mono_of_sorted (by norm_num [exBend]) (by simp [exBend])
    all_goals norm_num [exBend, kf]

theorem exBend_lo : exBend.lo = 0 := by simp [exBend, Curve.lo, kf]

theorem exBend_hi : exBend.hi = 1 := by simp [exBend, Curve.hi, kf]

theorem exBend_span : {t | Spec.InSpan (kf exBend.knots) exBend.hi t 2} = Set.Icc 0 1 := by
  have := Bezier.span (s := exBend) (eps := 1/1000) ⟨exBend_good, rfl, by simp [exBend]⟩
  rw [exBend_lo, exBend_hi] at this
  rw [exBend_hi]
  exact this

theorem exBend_only {t : ℝ} {s : ℕ} (hs : s < 3) (h : Spec.InSpan (kf exBend.knots) exBend.hi t s) : s = 2 := by
  have := Curve.inSpan_lt h
  interval_cases s
  · simp [exBend, kf] at this
  · simp [exBend, kf] at this
  · rfl

theorem exBend_eval {t : ℝ} (ht : t ∈ Set.Icc (0 : ℝ) 1) : exBend.eval t = (![2 * t - t ^ 2, t ^ 2, 0], 1) := by
  have hin : Spec.InSpan (kf exBend.knots) exBend.hi t 2 := by
    rw [← exBend_span] at ht; exact ht
  have hin' : Spec.InSpan (kf ([0, 0, 0, 1, 1, 1] : List ℝ)) 1 t 2 := by rw [exBend_hi] at hin; exact hin
  have h0 : ¬ Spec.InSpan (kf ([0, 0, 0, 1, 1, 1] : List ℝ)) 1 t 0 := by
    intro h; have := Curve.inSpan_lt h; simp [kf] at this
  have h1 : ¬ Spec.InSpan (kf ([0, 0, 0, 1, 1, 1] : List ℝ)) 1 t 1 := by
    intro h; have := Curve.inSpan_lt h; simp [kf] at this
  have h3 : ¬ Spec.InSpan (kf ([0, 0, 0, 1, 1, 1] : List ℝ)) 1 t 3 := by
    intro h; have := Curve.inSpan_lt h; simp [kf] at this
  have h4 : ¬ Spec.InSpan (kf ([0, 0, 0, 1, 1, 1] : List ℝ)) 1 t 4 := by
    intro h; have := Curve.inSpan_lt h; simp [kf] at this
  have e : exBend.eval t = Spec.N (kf ([0, 0, 0, 1, 1, 1] : List ℝ)) 1 2 0 t • ((![0, 0, 0] : V3), (1 : ℝ)) +
      (Spec.N (kf ([0, 0, 0, 1, 1, 1] : List ℝ)) 1 2 1 t • ((![1, 0, 0] : V3), (1 : ℝ)) +
      Spec.N (kf ([0, 0, 0, 1, 1, 1] : List ℝ)) 1 2 2 t • ((![1, 1, 0] : V3), (1 : ℝ))) := by
    simp [Curve.eval, Spec.curve, exBend, Finset.sum_range_succ, kf, add_assoc]
  rw [e]
  simp only [Spec.N, if_neg h0, if_neg h1, if_neg h3, if_neg h4, if_pos hin']
  simp [kf]
  ring_nf
  simp

theorem exBend_deriv {t : ℝ} (ht : t ∈ Set.Icc (0 : ℝ) 1) :
    derivWithin (fun t => (exBend.eval t).2⁻¹ • (exBend.eval t).1) {t | Spec.InSpan (kf exBend.knots) exBend.hi t 2} t =
      ![2 - 2 * t, 2 * t, 0] := by
  rw [exBend_span]
  have hpt : ∀ u ∈ Set.Icc (0 : ℝ) 1, (exBend.eval u).2⁻¹ • (exBend.eval u).1 = (![2 * u - u ^ 2, u ^ 2, 0] : V3) := by
    intro u hu
    rw [exBend_eval hu]; simp
  rw [derivWithin_congr hpt (hpt t ht)]
  apply HasDerivWithinAt.derivWithin _ (uniqueDiffOn_Icc one_pos t ht)
  apply hasDerivWithinAt_pi.2
  intro i
  fin_cases i
  · have h : HasDerivAt (fun x : ℝ => 2 * x - x ^ 2) (2 - 2 * t) t :=
      (((hasDerivAt_id t).const_mul (2 : ℝ)).sub ((hasDerivAt_id t).pow 2)).congr_deriv (by simp)
    exact h.hasDerivWithinAt
  · have h : HasDerivAt (fun x : ℝ => x ^ 2) (2 * t) t := ((hasDerivAt_id t).pow 2).congr_deriv (by simp)
    exact h.hasDerivWithinAt
  · simpa using hasDerivWithinAt_const t (Set.Icc (0 : ℝ) 1) (0 : ℝ)

/-- The hypotheses of `C75_frames_of_curve` hold of the witness, at its ends and in between. -/
example : ∃ fs, frames (1/1000) exBend [0, 1/2, 1] = .ok fs ∧ fs.length = 3 := by
  have hmem : ∀ u ∈ ([0, 1/2, 1] : List ℝ), u ∈ Set.Icc (0 : ℝ) 1 := by
    intro u hu
    simp at hu
    rcases hu with rfl | rfl | rfl <;> norm_num
  obtain ⟨fs, h1, h2⟩ := C75_frames_of_curve (eps := 1/1000) (by norm_num) exBend_good (by simp [exBend])
    (params := [0, 1/2, 1]) (by simp)
    (fun u hu => by rw [exBend_lo, exBend_hi]; exact hmem u hu)
    (fun u hu s hs hin => by
      obtain rfl := exBend_only hs hin
      rw [exBend_deriv (hmem u hu)]
      intro e
      have e0 := congrFun e 0
      have e1 := congrFun e 1
      simp at e0 e1
      linarith)
  exact ⟨fs, h1, by rw [← h2.length_eq]; rfl⟩

end Curvo.Props

/-
  Surfaces of revolution and spheres (C73).
-/
import Mathlib.Analysis.InnerProductSpace.PiL2
import Mathlib.LinearAlgebra.Matrix.NonsingularInverse
import Verif.Props.Conic
import Verif.Props.Surface2

set_option linter.unusedSectionVars false

namespace Curvo.Props

open Curvo Curvo.Conic Real

variable {V : Type} [NormedAddCommGroup V] [InnerProductSpace ℝ V]

local notation "⟪" x ", " y "⟫" => @inner ℝ V _ x y

/-- A unit axis, and the cross product with it. -/
structure Turn (n : V) (J : V →ₗ[ℝ] V) : Prop where
  unit : ‖n‖ = 1
  perp : ∀ x, ⟪n, x⟫ = 0 → ⟪x, J x⟫ = 0
  norm : ∀ x, ⟪n, x⟫ = 0 → ‖J x‖ = ‖x‖
  side : ∀ x, ⟪n, J x⟫ = 0
  along : J n = 0

/-- The foot of a point on the axis. -/
noncomputable def foot (c n p : V) : V := c + ⟪p - c, n⟫ • n

/-- Rotation by `φ` about the axis through `c` in direction `n`: the part along the axis stays, the rest turns. -/
noncomputable def rot (c n : V) (J : V →ₗ[ℝ] V) (φ : ℝ) (p : V) : V :=
  foot c n p + (cos φ • (p - foot c n p) + sin φ • J (p - foot c n p))

theorem foot_perp {c n p : V} (h : ‖n‖ = 1) : ⟪n, p - foot c n p⟫ = 0 := by
  have hn : ⟪n, n⟫ = 1 := by rw [real_inner_self_eq_norm_sq, h]; norm_num
  rw [foot, ← sub_sub, inner_sub_right, inner_smul_right, hn, real_inner_comm]
  ring

/-- Rotation in homogeneous coordinates. -/
noncomputable def rotMap (c n : V) (J : V →ₗ[ℝ] V) (φ : ℝ) : (V × ℝ) →ₗ[ℝ] (V × ℝ) where
  toFun q := (q.2 • c + (⟪q.1 - q.2 • c, n⟫ • n + (cos φ • (q.1 - q.2 • c - ⟪q.1 - q.2 • c, n⟫ • n) +
    sin φ • J (q.1 - q.2 • c - ⟪q.1 - q.2 • c, n⟫ • n))), q.2)
  map_add' a b := by
    refine Prod.ext ?_ rfl
    simp only [Prod.fst_add, Prod.snd_add]
    rw [show a.1 + b.1 - (a.2 + b.2) • c = (a.1 - a.2 • c) + (b.1 - b.2 • c) by module, inner_add_left,
      show a.1 - a.2 • c + (b.1 - b.2 • c) - (⟪a.1 - a.2 • c, n⟫ + ⟪b.1 - b.2 • c, n⟫) • n =
        (a.1 - a.2 • c - ⟪a.1 - a.2 • c, n⟫ • n) + (b.1 - b.2 • c - ⟪b.1 - b.2 • c, n⟫ • n) by module, map_add]
    module
  map_smul' r a := by
    refine Prod.ext ?_ rfl
    simp only [Prod.smul_fst, Prod.smul_snd, RingHom.id_apply, smul_eq_mul]
    rw [show r • a.1 - (r * a.2) • c = r • (a.1 - a.2 • c) by module, inner_smul_left,
      show r • (a.1 - a.2 • c) - ((starRingEnd ℝ) r * ⟪a.1 - a.2 • c, n⟫) • n =
        r • (a.1 - a.2 • c - ⟪a.1 - a.2 • c, n⟫ • n) by simp only [conj_trivial]; module, map_smul]
    simp only [conj_trivial]
    module

theorem rotMap_eq (c n : V) (J : V →ₗ[ℝ] V) (φ : ℝ) (p : V) (a : ℝ) :
    rotMap c n J φ (a • p, a) = (a • rot c n J φ p, a) := by
  refine Prod.ext ?_ rfl
  show a • c + (⟪a • p - a • c, n⟫ • n + (cos φ • (a • p - a • c - ⟪a • p - a • c, n⟫ • n) +
    sin φ • J (a • p - a • c - ⟪a • p - a • c, n⟫ • n))) = a • rot c n J φ p
  rw [← smul_sub, inner_smul_left]
  simp only [conj_trivial]
  rw [show a • (p - c) - (a * ⟪p - c, n⟫) • n = a • (p - foot c n p) by rw [foot]; module, map_smul, rot]
  conv_rhs => rw [foot]
  simp only [smul_add, smul_smul]
  rw [mul_comm (cos φ), mul_comm (sin φ), add_assoc]
  rfl

/-! ### Columns -/

/-- What the loop over the arcs of a column writes. -/
theorem revolveLoop_eq {eps : ℝ} (he : 0 < eps) {o' x y : V} (o : Ortho x y) {r δ pw : ℝ} (hr : eps < r) (hδ : eps ≤ sin δ ^ 2) :
    ∀ (n : ℕ) (α : ℝ), ∃ rest,
      revolveLoop eps o' x y r δ (cos (δ / 2)) pw n α (o' + r • dir x y α) (tan' x y α) = .ok rest ∧
      ((o' + r • dir x y α, pw) :: rest).map (fun p : V × ℝ => (p.2 • p.1, p.2)) =
        vec (2 * n + 1) fun i => pw • arcPt o' (r • x) (r • y) α (δ / 2) i := by
  have hs : sin δ ≠ 0 := by
    intro h
    rw [h] at hδ
    norm_num at hδ
    linarith
  intro n
  induction n with
  | zero =>
    intro α
    refine ⟨[], rfl, ?_⟩
    show _ = vec 1 _
    rw [Conic.vec_succ, arcPt_zero, dir_smul]
    simp [vec]
  | succ n ih =>
    intro α
    obtain ⟨rest, er, hr'⟩ := ih (α + δ)
    refine ⟨(o' + r • dir x y α + reach r δ • tan' x y α, cos (δ / 2) * pw) :: (o' + r • dir x y (α + δ), pw) :: rest, ?_, ?_⟩
    · rw [revolveLoop]
      simp only
      rw [if_neg (not_le.2 hr), if_neg (not_le.2 hr),
        show o' + (cos (α + δ) * r) • x + (sin (α + δ) * r) • y = o' + r • dir x y (α + δ) by rw [dir]; module,
        show cos (α + δ) • y - sin (α + δ) • x = tan' x y (α + δ) from rfl, normalize_unit (o.norm_tan _), ok_bind,
        normalize_unit (o.norm_tan _), ok_bind, o.rays _ _ _ _ _ he, if_neg (not_lt.2 hδ), ok_bind]
      simp only
      rw [show (pure (o' + r • dir x y α + reach r δ • tan' x y α) : Res V) = .ok (o' + r • dir x y α + reach r δ • tan' x y α) from rfl,
        ok_bind, er]
      rfl
    · rw [List.map_cons, List.map_cons, hr', show 2 * (n + 1) + 1 = 2 * n + 1 + 1 + 1 by ring, Conic.vec_succ (2 * n + 1 + 1),
        Conic.vec_succ (2 * n + 1), arcPt_zero, arcPt_one, dir_smul, dir_smul]
      congr 1
      · simp
      congr 1
      · refine Prod.ext ?_ ?_
        · show (cos (δ / 2) * pw) • _ = pw • _
          rw [mul_comm, mul_smul, corner o' r α δ hs]
        · exact mul_comm _ _
      · apply vec_congr
        intro i _
        rw [show i + 1 + 1 = i + 2 from rfl, arcPt_shift, mul_div_cancel₀ _ (two_ne_zero' ℝ)]

/-- The same on the axis. -/
theorem revolveLoop_axis {eps : ℝ} (he : 0 < eps) {o' x y : V} {r δ pw : ℝ} (hr : r ≤ eps) :
    ∀ (n : ℕ) (α : ℝ) (p0 t0 : V), ∃ rest,
      revolveLoop eps o' x y r δ (cos (δ / 2)) pw n α p0 t0 = .ok rest ∧
      ((o', pw) :: rest).map (fun p : V × ℝ => (p.2 • p.1, p.2)) =
        vec (2 * n + 1) fun i => pw • arcPt o' 0 0 α (δ / 2) i := by
  have hd : ∀ α, dir (0 : V) 0 α = 0 := by intro α; simp [dir]
  intro n
  induction n with
  | zero =>
    intro α p0 t0
    refine ⟨[], rfl, ?_⟩
    show _ = vec 1 _
    rw [Conic.vec_succ, arcPt_zero, hd]
    simp [vec]
  | succ n ih =>
    intro α p0 t0
    obtain ⟨rest, er, hr'⟩ := ih (α + δ) o' (cos (α + δ) • y - sin (α + δ) • x)
    refine ⟨(o', cos (δ / 2) * pw) :: (o', pw) :: rest, ?_, ?_⟩
    · rw [revolveLoop]
      simp only
      rw [if_pos hr, if_pos hr, show (pure o' : Res V) = .ok o' from rfl, ok_bind, er]
      rfl
    · rw [List.map_cons, List.map_cons, hr', show 2 * (n + 1) + 1 = 2 * n + 1 + 1 + 1 by ring, Conic.vec_succ (2 * n + 1 + 1),
        Conic.vec_succ (2 * n + 1), arcPt_zero, arcPt_one, hd, hd]
      congr 1
      · simp
      congr 1
      · refine Prod.ext ?_ ?_
        · show (cos (δ / 2) * pw) • _ = pw • _
          rw [mul_comm, mul_smul, add_zero]
        · exact mul_comm _ _
      · apply vec_congr
        intro i _
        rw [show i + 1 + 1 = i + 2 from rfl, arcPt_shift, mul_div_cancel₀ _ (two_ne_zero' ℝ)]

/-- The column of a profile point. -/
theorem revolveColumn_eq {eps : ℝ} (he : 0 < eps) {c n : V} {J : V →ₗ[ℝ] V} (hJ : Turn n J) {p : V} {δ : ℝ}
    (hp : p = foot c n p ∨ eps < ‖p - foot c n p‖) (hδ : eps ≤ sin δ ^ 2) (m : ℕ) (pw : ℝ) :
    ∃ col, revolveColumn eps c n J m δ (cos (δ / 2)) p pw = .ok col ∧
      col.map (fun p : V × ℝ => (p.2 • p.1, p.2)) =
        vec (2 * m + 1) fun i => pw • arcPt (foot c n p) (p - foot c n p) (J (p - foot c n p)) 0 (δ / 2) i := by
  have hperp := foot_perp (c := c) (p := p) hJ.unit
  rw [revolveColumn]
  simp only
  rw [show c + ⟪p - c, n⟫ • n = foot c n p from rfl]
  rcases hp with hp | hp
  · have hx : p - foot c n p = 0 := sub_eq_zero.2 hp
    have hr : ‖p - foot c n p‖ ≤ eps := by rw [hx, norm_zero]; exact he.le
    obtain ⟨rest, er, h⟩ := revolveLoop_axis he (o' := foot c n p) (x := p - foot c n p) (y := J (p - foot c n p)) (δ := δ) (pw := pw) hr m 0 p (J (p - foot c n p))
    rw [if_neg (not_lt.2 hr), er]
    refine ⟨_, rfl, ?_⟩
    rw [← hp] at h ⊢
    rw [h]
    simp
  · have hr0 : ‖p - foot c n p‖ ≠ 0 := by linarith
    have hn := hJ.norm _ hperp
    have hi := hJ.perp _ hperp
    generalize hX : p - foot c n p = X at *
    have o : Ortho ((1 / ‖X‖) • X) ((1 / ‖X‖) • J X) := by
      refine ⟨?_, ?_, ?_⟩ <;> simp only [inner_smul_left, inner_smul_right, conj_trivial]
      · rw [real_inner_self_eq_norm_sq]; field_simp
      · rw [real_inner_self_eq_norm_sq, hn]; field_simp
      · rw [hi]; simp
    have eX : ‖X‖ • (1 / ‖X‖) • X = X := by rw [smul_smul, mul_one_div_cancel hr0, one_smul]
    have eY : ‖X‖ • (1 / ‖X‖) • J X = J X := by rw [smul_smul, mul_one_div_cancel hr0, one_smul]
    obtain ⟨rest, er, h⟩ := revolveLoop_eq he (o' := foot c n p) o (δ := δ) (pw := pw) hp hδ m 0
    have d0 : foot c n p + ‖X‖ • dir ((1 / ‖X‖) • X) ((1 / ‖X‖) • J X) 0 = p := by
      rw [dir, cos_zero, sin_zero, one_smul, zero_smul, add_zero, eX, ← hX]; module
    have t0 : tan' ((1 / ‖X‖) • X) ((1 / ‖X‖) • J X) 0 = (1 / ‖X‖) • J X := by
      rw [tan', cos_zero, sin_zero, one_smul, zero_smul, sub_zero]
    rw [d0, t0] at er
    rw [d0, eX, eY] at h
    rw [if_pos hp, er]
    exact ⟨_, rfl, h⟩

/-! ### The surface -/

theorem revolveArcs_pos (t : ℝ) : 1 ≤ revolveArcs t ∧ revolveArcs t ≤ 4 := by
  rw [revolveArcs]; split_ifs <;> omega

theorem revolveArcs_lt {t : ℝ} (h : t < 4 * π) : t / revolveArcs t < π := by
  have hp := pi_pos
  rw [revolveArcs]
  split_ifs <;> push_cast <;> linarith

theorem arcKnots_unit {s : ℕ} (h1 : 1 ≤ s) (h4 : s ≤ 4) : arcKnots s = Curve.chainKnots 2 s fun k : ℕ => 0 + k * (1 / (s : ℝ)) := by
  rw [← arcKnots_eq h1 h4]
  simp

/-- The angle along a chain. -/
theorem angle_onto {h : ℝ} (h0 : 0 < h) (h1 : h < π) {s : ℕ} {d : ℝ} (hd : 0 < d) :
    StrictMono (fun t => angleAt h (t / d)) ∧
      (fun t => angleAt h (t / d)) '' Set.Icc 0 (s * d) = Set.Icc 0 (s * (2 * h)) := by
  have hm := angleAt_mono h0 h1
  have e0 : angleAt h 0 = 0 := by
    have := angleAt_nat h0 h1 0
    simpa using this
  have e1 := angleAt_nat h0 h1 s
  refine ⟨fun t t' h => hm (by gcongr), Set.Subset.antisymm ?_ ?_⟩
  · rintro _ ⟨t, ⟨h1, h2⟩, rfl⟩
    have l := hm.monotone (show 0 ≤ t / d from div_nonneg h1 hd.le)
    have r := hm.monotone (show t / d ≤ s by rw [div_le_iff₀ hd]; exact h2)
    rw [e0] at l
    rw [e1] at r
    exact ⟨l, r⟩
  · rintro φ ⟨hφ1, hφ2⟩
    obtain ⟨z, hz⟩ := angleAt_surj h0 h1 φ
    have l : 0 ≤ z := by rw [← hm.le_iff_le, e0, hz]; exact hφ1
    have r : z ≤ s := by rw [← hm.le_iff_le, e1, hz]; exact hφ2
    refine ⟨z * d, ⟨by positivity, by nlinarith⟩, ?_⟩
    simp only
    rw [mul_div_cancel_right₀ _ hd.ne', hz]

/-- The surface runs through the rotations of the profile by the angles from 0 to `theta`, once and in order. -/
def Sweeps (eps : ℝ) (S : Surface ℝ (V × ℝ)) (profile : Curve ℝ (V × ℝ)) (c n : V) (J : V →ₗ[ℝ] V) (theta : ℝ) : Prop :=
  S.Good eps ∧ S.ulo = 0 ∧ S.uhi = 1 ∧ S.vlo = profile.lo ∧ S.vhi = profile.hi ∧
  ∃ A : ℝ → ℝ, StrictMonoOn A (Set.Icc 0 1) ∧ A '' Set.Icc 0 1 = Set.Icc 0 theta ∧
    ∀ u ∈ Set.Icc (0 : ℝ) 1, ∀ v ∈ Set.Icc profile.lo profile.hi, ∀ q, profile.pointAt eps v = .ok q →
      S.pointAt eps u v = .ok (rot c n J (A u) q)

/-- **C73, revolution.** About a unit axis, by an angle between 0 and two turns, a profile with weights that are not zero and whose control
    points are on the axis or farther from it than the tolerance gives the surface of its rotations. -/
theorem C73_revolve {eps : ℝ} (he : 0 < eps) (he4 : eps ≤ 1 / 4) {profile : Curve ℝ (V × ℝ)} (hg : profile.Good eps)
    (hw : ∀ P ∈ profile.cps, P.2 ≠ 0) {c n : V} {J : V →ₗ[ℝ] V} (hJ : Turn n J)
    (hp : ∀ P ∈ profile.cps, Curve.proj P = foot c n (Curve.proj P) ∨ eps < ‖Curve.proj P - foot c n (Curve.proj P)‖)
    {theta : ℝ} (ht0 : 0 < theta) (ht : theta < 4 * π) (hδ : eps ≤ sin (theta / revolveArcs theta) ^ 2) :
    ∃ S, revolve eps profile c n J theta = .ok S ∧ Sweeps eps S profile c n J theta := by
  obtain ⟨hs1, hs4⟩ := revolveArcs_pos theta
  have hlt := revolveArcs_lt ht
  rw [revolve]
  simp only
  generalize revolveArcs theta = s at *
  have hs0 : (0 : ℝ) < s := by exact_mod_cast hs1
  have hs4' : (s : ℝ) ≤ 4 := by exact_mod_cast hs4
  have hd0 : 0 < theta / s := div_pos ht0 hs0
  have hsd : s * (theta / s) = theta := mul_div_cancel₀ _ hs0.ne'
  generalize theta / s = δ at *
  have hpts : profile.dehomogenizedCps = .ok (profile.cps.map Curve.proj) := mapM_ok fun P hP => by
    rw [Curve.dehomogenize, if_pos (hw P hP)]; rfl
  rw [hpts, ok_bind, List.zip_map', List.mapM_map]
  have hcol : ∀ P, ∃ col, P ∈ profile.cps → revolveColumn eps c n J s δ (cos (δ / 2)) (Curve.proj P) P.2 = .ok col ∧
      col.map (fun p : V × ℝ => (p.2 • p.1, p.2)) = vec (2 * s + 1) fun i => P.2 • arcPt (foot c n (Curve.proj P))
        (Curve.proj P - foot c n (Curve.proj P)) (J (Curve.proj P - foot c n (Curve.proj P))) 0 (δ / 2) i := by
    intro P
    by_cases h : P ∈ profile.cps
    · obtain ⟨col, h1, h2⟩ := revolveColumn_eq he hJ (hp P h) hδ s P.2
      exact ⟨col, fun _ => ⟨h1, h2⟩⟩
    · exact ⟨[], fun h' => absurd h' h⟩
  choose col hcol using hcol
  have hm : List.mapM ((fun q : V × ℝ => revolveColumn eps c n J s δ (cos (δ / 2)) q.1 q.2) ∘ fun a => (Curve.proj a, a.2))
      profile.cps = .ok (profile.cps.map col) := mapM_ok fun P hP => (hcol P hP).1
  rw [hm, ok_bind]
  refine ⟨_, rfl, ?_⟩
  set S : Surface ℝ (V × ℝ) := ⟨2, profile.degree, arcKnots s, profile.knots,
    (List.range (2 * s + 1)).map fun i => (profile.cps.map col).map fun col =>
      ((col.getD i (0, 0)).2 • (col.getD i (0, 0)).1, (col.getD i (0, 0)).2)⟩ with hS
  have hcols : S.cols = profile.cps.length := by
    have := hg.knots_len
    show profile.knots.length - profile.degree - 1 = _
    omega
  obtain ⟨hC, hev⟩ := arc_chain (V := V) he.le (h := δ / 2) (by linarith) (by linarith) hs1
    (a := 0) (d := 1 / (s : ℝ)) (by rw [le_div_iff₀ hs0]; nlinarith) (by positivity)
  have hgood : S.Good eps := by
    obtain ⟨h1, -, -⟩ := hC fun _ => 0
    refine ⟨by simp [hS], ?_, ?_, by rw [hcols]; exact hg.cps_pos, by rw [hcols]; exact hg.good, ?_⟩
    · have := h1.knots_len
      simp only [Curve.chain, vec_length] at this
      simp only [hS, arcKnots_unit hs1 hs4, List.length_map, List.length_range]
      rw [this]; omega
    · have := h1.good
      simp only [Curve.chain, vec_length] at this
      simp only [hS, arcKnots_unit hs1 hs4, List.length_map, List.length_range]
      rw [show 2 * s + 1 = s * 2 + 1 by ring]
      exact this
    · intro row hrow
      rw [hcols]
      simp only [hS, List.mem_map] at hrow
      obtain ⟨i, -, rfl⟩ := hrow
      simp
  have hcolS : ∀ j, (h : j < profile.cps.length) → S.col j = Curve.chain 2 s (fun k : ℕ => 0 + k * (1 / (s : ℝ))) (fun i =>
      profile.cps[j].2 • arcPt (foot c n (Curve.proj profile.cps[j]))
        (Curve.proj profile.cps[j] - foot c n (Curve.proj profile.cps[j]))
        (J (Curve.proj profile.cps[j] - foot c n (Curve.proj profile.cps[j]))) 0 (δ / 2) i) := by
    intro j hj
    have hc := (hcol profile.cps[j] (List.getElem_mem hj)).2
    rw [Surface.col, Curve.chain, ← arcKnots_unit hs1 hs4]
    congr 1
    rw [show s * 2 + 1 = 2 * s + 1 by ring, ← hc]
    have hlen : (col profile.cps[j]).length = 2 * s + 1 := by
      have := congrArg List.length hc
      rwa [List.length_map, vec_length] at this
    apply List.ext_getElem
    · simp [hS, hlen]
    · intro i h1 h2
      have hi : i < (col profile.cps[j]).length := by simpa using h2
      simp [hS, hj, hi, List.getD_eq_getElem?_getD]
  have hone : (s : ℝ) * (1 / s) = 1 := mul_one_div_cancel hs0.ne'
  have hulo : S.ulo = 0 := by
    have h1 := (hC fun _ => 0).2.1
    show kf (arcKnots s) 2 = 0
    rw [arcKnots_unit hs1 hs4]; exact h1
  have huhi : S.uhi = 1 := by
    have h1 := (hC fun _ => 0).2.2
    rw [hone, zero_add] at h1
    show kf (arcKnots s) ((List.range (2 * s + 1)).map _).length = 1
    rw [arcKnots_unit hs1 hs4, List.length_map, List.length_range, show 2 * s + 1 = s * 2 + 1 by ring]
    simpa [Curve.hi, Curve.chain] using h1
  have hvhi : S.vhi = profile.hi := by
    show kf profile.knots S.cols = _
    rw [hcols]; rfl
  obtain ⟨hmono, himg⟩ := angle_onto (h := δ / 2) (by linarith) (by linarith) (s := s) (d := 1 / (s : ℝ)) (by positivity)
  rw [hone, show s * (2 * (δ / 2)) = theta by rw [← hsd]; ring] at himg
  refine ⟨hgood, hulo, huhi, rfl, hvhi, _, hmono.strictMonoOn _, himg, ?_⟩
  rintro u ⟨hu0, hu1⟩ v ⟨hv0, hv1⟩ q hq
  obtain ⟨w, hw0, hw'⟩ := hev u hu0 (by rw [hone, zero_add]; exact hu1)
  simp only [sub_zero, zero_add] at hw'
  generalize angleAt (δ / 2) (u / (1 / (s : ℝ))) = φ at *
  have hiso : S.isoU u = profile.mapCps (w • rotMap c n J φ) := by
    rw [Surface.isoU, Curve.mapCps, hcols]
    congr 1
    apply List.ext_getElem
    · simp
    · intro j h1 h2
      have hj : j < profile.cps.length := by simpa using h2
      simp only [List.getElem_map, List.getElem_range]
      rw [hcolS j hj]
      have := hw' (foot c n (Curve.proj profile.cps[j])) (Curve.proj profile.cps[j] - foot c n (Curve.proj profile.cps[j]))
        (J (Curve.proj profile.cps[j] - foot c n (Curve.proj profile.cps[j]))) 0
      have hmap : Curve.chain 2 s (fun k : ℕ => 0 + k * (1 / (s : ℝ))) (fun i =>
          profile.cps[j].2 • arcPt (foot c n (Curve.proj profile.cps[j]))
          (Curve.proj profile.cps[j] - foot c n (Curve.proj profile.cps[j]))
          (J (Curve.proj profile.cps[j] - foot c n (Curve.proj profile.cps[j]))) 0 (δ / 2) i) =
          (Curve.chain 2 s (fun k : ℕ => 0 + k * (1 / (s : ℝ))) (arcPt (foot c n (Curve.proj profile.cps[j]))
          (Curve.proj profile.cps[j] - foot c n (Curve.proj profile.cps[j]))
          (J (Curve.proj profile.cps[j] - foot c n (Curve.proj profile.cps[j]))) 0 (δ / 2))).mapCps
            (profile.cps[j].2 • (LinearMap.id : (V × ℝ) →ₗ[ℝ] (V × ℝ))) := by
        simp [Curve.chain, Curve.mapCps, vec]
      rw [hmap, eval_mapCps _ (hC _).1.cps_pos]
      simp only [zero_add] at this ⊢
      rw [this]
      have hP : profile.cps[j] = (profile.cps[j].2 • Curve.proj profile.cps[j], profile.cps[j].2) := by
        refine Prod.ext ?_ rfl
        show _ = profile.cps[j].2 • (profile.cps[j].2⁻¹ • profile.cps[j].1)
        rw [smul_smul, mul_inv_cancel₀ (hw _ (List.getElem_mem hj)), one_smul]
      conv_rhs => rw [hP]
      rw [LinearMap.smul_apply, LinearMap.smul_apply, rotMap_eq, LinearMap.id_apply]
      refine Prod.ext ?_ ?_
      · show profile.cps[j].2 • w • (_ : V) = w • profile.cps[j].2 • (_ : V)
        rw [smul_comm]; rfl
      · show _ * w = w * _
        rw [mul_comm]
  rw [Curve.pointAt, Curve.point_eq_eval hg hv0 hv1, ok_bind] at hq
  have hq2 : (profile.eval v).2 ≠ 0 := by
    intro h
    rw [Curve.dehomogenize, if_neg (by simpa using h)] at hq
    cases hq
  rw [Curve.dehomogenize, if_pos hq2] at hq
  have hq' : Curve.proj (profile.eval v) = q := by cases hq; rfl
  have hP : profile.eval v = ((profile.eval v).2 • q, (profile.eval v).2) := by
    refine Prod.ext ?_ rfl
    rw [← hq']
    show _ = (profile.eval v).2 • ((profile.eval v).2⁻¹ • (profile.eval v).1)
    rw [smul_smul, mul_inv_cancel₀ hq2, one_smul]
  rw [Surface.pointAt, Surface.point_eq_eval hgood (by rw [hulo]; exact hu0) (by rw [huhi]; exact hu1) hv0
    (by rw [hvhi]; exact hv1), ok_bind, Surface.eval_eq_isoU hgood, hiso, eval_mapCps _ hg.cps_pos, LinearMap.smul_apply, hP,
    rotMap_eq, Prod.smul_mk, smul_smul, smul_eq_mul, dehom (mul_ne_zero hw0.ne' hq2)]
  rfl

/-! ### Spheres -/

theorem arcCount_pi : arcCount π = 2 := by
  rw [arcCount, show π / (π / 2) = (2 : ℤ) by have := pi_pos.ne'; field_simp; norm_num, Int.floor_intCast]
  rfl

theorem revolveArcs_two_pi : revolveArcs (2 * π) = 4 := by
  have := pi_pos
  rw [revolveArcs, if_neg (by linarith), if_neg (by linarith), if_neg (by linarith)]

/-- The foot of a point given by its parts along the axis and across. -/
theorem foot_parts {c n y : V} (hn : ‖n‖ = 1) (hy : ⟪n, y⟫ = 0) (a b : ℝ) : foot c n (c + (a • n + b • y)) = c + a • n := by
  have h1 : ⟪n, n⟫ = 1 := by rw [real_inner_self_eq_norm_sq, hn]; norm_num
  rw [foot, add_sub_cancel_left, inner_add_left, inner_smul_left, inner_smul_left, h1, real_inner_comm, hy]
  simp

/-- **C73, spheres.** About a unit axis and for a radius beyond the tolerance, a sphere is constructed; with latitude
    and longitude increasing with the parameters and running through all values, its points are those of the sphere. -/
theorem C73_sphere {eps : ℝ} (he : 0 < eps) (he4 : eps ≤ 1 / 4) (c : V) {n x : V} {J : V →ₗ[ℝ] V} (hJ : Turn n J) (hx : x ≠ 0)
    (hnx : ⟪n, x⟫ = 0) {r : ℝ} (hr : eps < |r|) :
    ∃ S, sphere eps c n x J r = .ok S ∧ S.Good eps ∧ S.ulo = 0 ∧ S.uhi = 1 ∧ S.vlo = 0 ∧ S.vhi = π ∧
      ∃ A B : ℝ → ℝ, StrictMonoOn A (Set.Icc 0 1) ∧ A '' Set.Icc 0 1 = Set.Icc 0 (2 * π) ∧
        StrictMonoOn B (Set.Icc 0 π) ∧ B '' Set.Icc 0 π = Set.Icc 0 π ∧
        ∀ u ∈ Set.Icc (0 : ℝ) 1, ∀ v ∈ Set.Icc (0 : ℝ) π, S.pointAt eps u v =
          .ok (c + r • (sin (B v) • (cos (A u) • unit x + sin (A u) • J (unit x)) - cos (B v) • n)) := by
  have hp := pi_pos
  have hr0 : r ≠ 0 := by rintro rfl; simp at hr; linarith
  have hn : n ≠ 0 := by rintro rfl; have := hJ.unit; simp at this
  have hun : unit (-n) = -n := by rw [unit, norm_neg, hJ.unit, inv_one, one_smul]
  have hux : ⟪n, unit x⟫ = 0 := by rw [unit, inner_smul_right, hnx, mul_zero]
  have hxn : @inner ℝ V _ (-n) x = 0 := by rw [inner_neg_left, hnx, neg_zero]
  have hδ : (π - 0) / (arcCount (π - 0) : ℝ) = π / 2 := by rw [sub_zero, arcCount_pi]; push_cast; rfl
  have hs : eps ≤ sin ((π - 0) / (arcCount (π - 0) : ℝ)) ^ 2 := by rw [hδ, sin_pi_div_two]; linarith
  have harc := arc_eq he c (neg_ne_zero.2 hn) hx hxn hr0 hp hs
  have htr := chain_traces he.le c (r • unit (-n)) (r • unit x) (arcCount_pos (π - 0)) hp (by rw [hδ]; linarith [two_le_pi])
    (arcCount_lt (by linarith))
  generalize hC : Curve.chain 2 (arcCount (π - 0)) (fun k : ℕ => 0 + k * ((π - 0) / (arcCount (π - 0) : ℝ)))
    (arcPt c (r • unit (-n)) (r • unit x) 0 ((π - 0) / (arcCount (π - 0) : ℝ) / 2)) = C at harc htr
  have hcps : ∀ P ∈ C.cps, P.2 ≠ 0 ∧
      (Curve.proj P = foot c n (Curve.proj P) ∨ eps < ‖Curve.proj P - foot c n (Curve.proj P)‖) := by
    have hcos : cos (π / 4) = √2 / 2 := cos_pi_div_four
    have hsin : sin (π / 4) = √2 / 2 := sin_pi_div_four
    have h2 : √2 * √2 = 2 := mul_self_sqrt (by norm_num)
    have h2p : 0 < √2 := sqrt_pos.2 (by norm_num)
    have key : ∀ (P : V × ℝ) (w a b : ℝ), w ≠ 0 → P = (w • (c + (a • n + b • unit x)), w) → (b = 0 ∨ b = r) →
        P.2 ≠ 0 ∧ (Curve.proj P = foot c n (Curve.proj P) ∨ eps < ‖Curve.proj P - foot c n (Curve.proj P)‖) := by
      rintro _ w a b hw rfl hb
      have : Curve.proj (w • (c + (a • n + b • unit x)), w) = c + (a • n + b • unit x) := by
        rw [Curve.proj, smul_smul, inv_mul_cancel₀ hw, one_smul]
      rw [this, foot_parts hJ.unit hux]
      refine ⟨hw, ?_⟩
      rcases hb with rfl | rfl
      · left; simp
      · right
        rw [add_sub_add_left_eq_sub, add_sub_cancel_left, norm_smul, norm_unit hx]
        simpa using hr
    intro P hP
    rw [← hC, hδ, sub_zero, arcCount_pi, hun] at hP
    simp only [Curve.chain, vec, List.mem_map, List.mem_range] at hP
    obtain ⟨i, hi, rfl⟩ := hP
    have h8 : π / 2 / 2 = π / 4 := by ring
    have c3 : cos (3 * (π / 4)) = -(√2 / 2) := by
      rw [show 3 * (π / 4) = π / 4 + π / 2 by ring, cos_add_pi_div_two, hsin]
    have s3 : sin (3 * (π / 4)) = √2 / 2 := by
      rw [show 3 * (π / 4) = π / 4 + π / 2 by ring, sin_add_pi_div_two, hcos]
    have hi' : i = 0 ∨ i = 1 ∨ i = 2 ∨ i = 3 ∨ i = 4 := by omega
    rw [h8]
    rcases hi' with rfl | rfl | rfl | rfl | rfl
    · refine key _ 1 (-r) 0 one_ne_zero ?_ (.inl rfl)
      rw [arcPt, if_pos (by norm_num), dir]
      refine Prod.ext ?_ rfl
      simp
    · refine key _ (√2 / 2) (-r) r (by positivity) ?_ (.inr rfl)
      rw [arcPt, if_neg (by norm_num), dir, Nat.cast_one, one_mul, zero_add, hcos, hsin]
      refine Prod.ext ?_ rfl
      simp only
      module
    · refine key _ 1 0 r one_ne_zero ?_ (.inr rfl)
      rw [arcPt, if_pos (by norm_num), dir, zero_add, show ((2 : ℕ) : ℝ) * (π / 4) = π / 2 by push_cast; ring, cos_pi_div_two,
        sin_pi_div_two]
      refine Prod.ext ?_ rfl
      simp
    · refine key _ (√2 / 2) r r (by positivity) ?_ (.inr rfl)
      rw [arcPt, if_neg (by norm_num), dir, zero_add, show ((3 : ℕ) : ℝ) * (π / 4) = 3 * (π / 4) by push_cast; ring, c3, s3, hcos]
      refine Prod.ext ?_ rfl
      simp only
      module
    · refine key _ 1 r 0 one_ne_zero ?_ (.inl rfl)
      rw [arcPt, if_pos (by norm_num), dir, zero_add, show ((4 : ℕ) : ℝ) * (π / 4) = π by push_cast; ring, cos_pi, sin_pi]
      refine Prod.ext ?_ rfl
      simp
  obtain ⟨hg, hlo, hhi, B, hB, hBi, hBp⟩ := htr
  obtain ⟨S, hS, hSg, h1, h2, h3, h4, A, hA, hAi, hAp⟩ := C73_revolve he he4 hg (fun P hP => (hcps P hP).1) hJ
    (fun P hP => (hcps P hP).2) (theta := 2 * π) (by linarith) (by linarith) (by
      rw [revolveArcs_two_pi, show 2 * π / ((4 : ℕ) : ℝ) = π / 2 by push_cast; ring, sin_pi_div_two]; linarith)
  refine ⟨S, ?_, hSg, h1, h2, h3.trans hlo, h4.trans hhi, A, B, hA, hAi, hB, hBi, ?_⟩
  · rw [sphere, harc, ok_bind, hS]
  · intro u hu v hv
    rw [hAp u hu v (by rw [hlo, hhi]; exact hv) _ (hBp v hv), hun,
      show c + (cos (B v) • r • -n + sin (B v) • r • unit x) = c + ((-(r * cos (B v))) • n + (r * sin (B v)) • unit x) by module,
      rot, foot_parts hJ.unit hux, add_sub_add_left_eq_sub, add_sub_cancel_left, map_smul]
    congr 1
    module

/-- The points of the constructed sphere are at the radius from the centre, and every point there that is a combination of the axes is
    one of them (in space, all are). -/
theorem C73_sphere_points {eps : ℝ} (he : 0 < eps) (he4 : eps ≤ 1 / 4) (c : V) {n x : V} {J : V →ₗ[ℝ] V} (hJ : Turn n J) (hx : x ≠ 0)
    (hnx : ⟪n, x⟫ = 0) {r : ℝ} (hr : eps < |r|) :
    ∃ S, sphere eps c n x J r = .ok S ∧
      (∀ u ∈ Set.Icc S.ulo S.uhi, ∀ v ∈ Set.Icc S.vlo S.vhi, ∃ p, S.pointAt eps u v = .ok p ∧ ‖p - c‖ = |r|) ∧
      ∀ a b d : ℝ, a ^ 2 + b ^ 2 + d ^ 2 = 1 → ∃ u ∈ Set.Icc S.ulo S.uhi, ∃ v ∈ Set.Icc S.vlo S.vhi,
        S.pointAt eps u v = .ok (c + r • (a • unit x + b • J (unit x) + d • n)) := by
  obtain ⟨S, hS, -, h1, h2, h3, h4, A, B, hA, hAi, hB, hBi, hp⟩ := C73_sphere he he4 c hJ hx hnx hr
  have hux : ⟪n, unit x⟫ = 0 := by rw [unit, inner_smul_right, hnx, mul_zero]
  refine ⟨S, hS, ?_, ?_⟩
  · rw [h1, h2, h3, h4]
    intro u hu v hv
    refine ⟨_, hp u hu v hv, ?_⟩
    rw [add_sub_cancel_left, norm_smul]
    have o : Ortho (unit x) (J (unit x)) := by
      refine ⟨?_, ?_, hJ.perp _ hux⟩
      · rw [real_inner_self_eq_norm_sq, norm_unit hx]; norm_num
      · rw [real_inner_self_eq_norm_sq, hJ.norm _ hux, norm_unit hx]; norm_num
    have o2 : Ortho (dir (unit x) (J (unit x)) (A u)) n := by
      refine ⟨?_, ?_, ?_⟩
      · rw [o.dd, sub_self, cos_zero]
      · rw [real_inner_self_eq_norm_sq, hJ.unit]; norm_num
      · rw [real_inner_comm, dir, inner_add_right, inner_smul_right, inner_smul_right, hux, hJ.side]; simp
    have : sin (B v) • (cos (A u) • unit x + sin (A u) • J (unit x)) - cos (B v) • n =
        sin (B v) • dir (unit x) (J (unit x)) (A u) + (-cos (B v)) • n := by rw [dir]; module
    have hnorm : ‖sin (B v) • dir (unit x) (J (unit x)) (A u) + (-cos (B v)) • n‖ = 1 := by
      have h := real_inner_self_eq_norm_sq (sin (B v) • dir (unit x) (J (unit x)) (A u) + (-cos (B v)) • n)
      rw [o2.comb] at h
      have := sin_sq_add_cos_sq (B v)
      nlinarith [norm_nonneg (sin (B v) • dir (unit x) (J (unit x)) (A u) + (-cos (B v)) • n)]
    rw [this, hnorm, mul_one]; rfl
  · rw [h1, h2, h3, h4]
    intro a b d habd
    have hd1 : -1 ≤ -d ∧ -d ≤ 1 := by constructor <;> nlinarith [sq_nonneg a, sq_nonneg b]
    obtain ⟨v, hv, ev⟩ : arccos (-d) ∈ B '' Set.Icc 0 π := by rw [hBi]; exact ⟨arccos_nonneg _, arccos_le_pi _⟩
    have hcos : cos (B v) = -d := by rw [ev, cos_arccos hd1.1 hd1.2]
    have hsin0 : 0 ≤ sin (B v) := by rw [ev]; exact sin_nonneg_of_nonneg_of_le_pi (arccos_nonneg _) (arccos_le_pi _)
    have hsq : sin (B v) ^ 2 = a ^ 2 + b ^ 2 := by have := sin_sq_add_cos_sq (B v); rw [hcos] at this; linarith
    obtain ⟨ψ, hψ, ea, eb⟩ : ∃ ψ ∈ Set.Icc 0 (2 * π), sin (B v) * cos ψ = a ∧ sin (B v) * sin ψ = b := by
      have hpi := pi_pos
      rcases hsin0.eq_or_lt with h0 | h0
      · rw [← h0] at hsq ⊢
        have ha : a = 0 := by nlinarith [sq_nonneg a, sq_nonneg b]
        have hb : b = 0 := by nlinarith [sq_nonneg a, sq_nonneg b]
        exact ⟨0, ⟨le_rfl, by linarith⟩, by simp [ha], by simp [hb]⟩
      · have hz : ‖(⟨a, b⟩ : ℂ)‖ = sin (B v) := by
          have := Complex.sq_norm (⟨a, b⟩ : ℂ)
          rw [Complex.normSq_mk] at this
          rw [← sq_eq_sq₀ (norm_nonneg _) hsin0, this, hsq]; ring
        have hz0 : (⟨a, b⟩ : ℂ) ≠ 0 := by
          rw [← norm_pos_iff, hz]; exact h0
        have e1 : sin (B v) * cos (Complex.arg ⟨a, b⟩) = a := by
          rw [Complex.cos_arg hz0, hz]; field_simp
        have e2 : sin (B v) * sin (Complex.arg ⟨a, b⟩) = b := by
          rw [Complex.sin_arg, hz]; field_simp
        rcases le_or_gt 0 (Complex.arg ⟨a, b⟩) with h | h
        · exact ⟨_, ⟨h, by linarith [Complex.arg_le_pi ⟨a, b⟩]⟩, e1, e2⟩
        · exact ⟨Complex.arg ⟨a, b⟩ + 2 * π, ⟨by linarith [Complex.neg_pi_lt_arg ⟨a, b⟩], by linarith⟩, by rw [cos_add_two_pi, e1],
            by rw [sin_add_two_pi, e2]⟩
    obtain ⟨u, hu, eu⟩ : ψ ∈ A '' Set.Icc 0 1 := by rw [hAi]; exact hψ
    refine ⟨u, hu, v, hv, ?_⟩
    rw [hp u hu v hv, eu, hcos, ← ea, ← eb]
    congr 1
    module

/-- **C73, axes that are not unit vectors: the code is wrong.** The sphere of any other axis along which a length is not
    preserved up to the tolerance is made of numbers that are not finite. -/
theorem C73_sphere_axis {eps : ℝ} (he : 0 < eps) (he4 : eps ≤ 1 / 4) (c : V) {n x : V} {J : V →ₗ[ℝ] V} (hn : n ≠ 0) (hJ : J n = 0)
    (hx : x ≠ 0) (hnx : ⟪n, x⟫ = 0) {r : ℝ} (hr : r ≠ 0) (hne : eps < |r * (‖n‖ ^ 2 - 1)|) :
    sphere eps c n x J r = .error .nonfinite := by
  have hp := pi_pos
  have hxn : @inner ℝ V _ (-n) x = 0 := by rw [inner_neg_left, hnx, neg_zero]
  have hδ : (π - 0) / (arcCount (π - 0) : ℝ) = π / 2 := by rw [sub_zero, arcCount_pi]; push_cast; rfl
  have hs : eps ≤ sin ((π - 0) / (arcCount (π - 0) : ℝ)) ^ 2 := by rw [hδ, sin_pi_div_two]; linarith
  have harc := arc_eq he c (neg_ne_zero.2 hn) hx hxn hr hp hs
  rw [sphere, harc, ok_bind, revolve]
  have hw : ∀ P ∈ (Curve.chain 2 (arcCount (π - 0)) (fun k : ℕ => 0 + k * ((π - 0) / (arcCount (π - 0) : ℝ)))
    (arcPt c (r • unit (-n)) (r • unit x) 0 ((π - 0) / (arcCount (π - 0) : ℝ) / 2))).cps, P.2 ≠ 0 := by
    intro P hP
    simp only [Curve.chain, vec, List.mem_map] at hP
    obtain ⟨i, -, rfl⟩ := hP
    rw [arcPt]
    split_ifs
    · exact one_ne_zero
    · rw [hδ, show π / 2 / 2 = π / 4 by ring, cos_pi_div_four]; positivity
  have hpts : (Curve.chain 2 (arcCount (π - 0)) (fun k : ℕ => 0 + k * ((π - 0) / (arcCount (π - 0) : ℝ)))
    (arcPt c (r • unit (-n)) (r • unit x) 0 ((π - 0) / (arcCount (π - 0) : ℝ) / 2))).dehomogenizedCps = .ok
      ((Curve.chain 2 (arcCount (π - 0)) (fun k : ℕ => 0 + k * ((π - 0) / (arcCount (π - 0) : ℝ)))
        (arcPt c (r • unit (-n)) (r • unit x) 0 ((π - 0) / (arcCount (π - 0) : ℝ) / 2))).cps.map Curve.proj) :=
    mapM_ok fun P hP => by rw [Curve.dehomogenize, if_pos (hw P hP)]; rfl
  rw [hpts, ok_bind]
  simp only
  rw [List.zip_map', List.mapM_map, revolveArcs_two_pi]
  simp only [Curve.chain]
  rw [Conic.vec_succ, List.mapM_cons, arcPt_zero]
  have hn0 : ‖n‖ ≠ 0 := norm_ne_zero_iff.2 hn
  have hcol : revolveColumn eps c n J 4 (2 * π / ((4 : ℕ) : ℝ)) (cos (2 * π / ((4 : ℕ) : ℝ) / 2))
      (Curve.proj (c + dir (r • unit (-n)) (r • unit x) 0, (1 : ℝ))) 1 = .error .nonfinite := by
    have e1 : Curve.proj (c + dir (r • unit (-n)) (r • unit x) 0, (1 : ℝ)) = c + (-(r * ‖n‖⁻¹)) • n := by
      rw [Curve.proj, inv_one, one_smul, dir, cos_zero, sin_zero, unit, norm_neg]
      module
    have e2 : @inner ℝ V _ ((-(r * ‖n‖⁻¹)) • n) n = -(r * ‖n‖) := by
      rw [inner_smul_left, real_inner_self_eq_norm_sq, conj_trivial]; field_simp
    rw [e1, revolveColumn]
    simp only [add_sub_cancel_left, e2]
    have e3 : c + (-(r * ‖n‖⁻¹)) • n - (c + (-(r * ‖n‖)) • n) = (r * (‖n‖ ^ 2 - 1) / ‖n‖) • n := by
      have : r * (‖n‖ ^ 2 - 1) / ‖n‖ = r * ‖n‖ - r * ‖n‖⁻¹ := by field_simp
      rw [this]; module
    have e4 : ‖(r * (‖n‖ ^ 2 - 1) / ‖n‖) • n‖ = |r * (‖n‖ ^ 2 - 1)| := by
      rw [norm_smul, norm_div, norm_norm, div_mul_cancel₀ _ hn0]; rfl
    rw [e3, map_smul, hJ, smul_zero, smul_zero, e4, if_pos hne, revolveLoop]
    simp only
    rw [if_neg (not_le.2 hne), if_neg (not_le.2 hne), Conic.normalize, if_pos rfl]
    rfl
  simp only [Function.comp]
  rw [hcol]
  rfl

/-! ### Space -/

/-- Coordinates of space. -/
abbrev Space := EuclideanSpace ℝ (Fin 3)

/-- The cross product. -/
noncomputable def cross3 (n : Space) : Space →ₗ[ℝ] Space where
  toFun x := !₂[n 1 * x 2 - n 2 * x 1, n 2 * x 0 - n 0 * x 2, n 0 * x 1 - n 1 * x 0]
  map_add' x y := by
    ext i
    fin_cases i <;> simp <;> ring
  map_smul' r x := by
    ext i
    fin_cases i <;> simp <;> ring

/-- The cross product with a unit vector turns. -/
theorem cross3_turn {n : Space} (h : ‖n‖ = 1) : Turn n (cross3 n) := by
  have hn : n 0 ^ 2 + n 1 ^ 2 + n 2 ^ 2 = 1 := by
    have := EuclideanSpace.norm_sq_eq n
    rw [h, Fin.sum_univ_three] at this
    simpa using this.symm
  refine ⟨h, ?_, ?_, ?_, ?_⟩
  · intro x _
    simp [cross3, PiLp.inner_apply, Fin.sum_univ_three]
    ring
  · intro x hx
    have hx' : n 0 * x 0 + n 1 * x 1 + n 2 * x 2 = 0 := by
      have := hx
      simp [PiLp.inner_apply, Fin.sum_univ_three] at this
      linarith
    rw [← sq_eq_sq₀ (norm_nonneg _) (norm_nonneg _), EuclideanSpace.norm_sq_eq, EuclideanSpace.norm_sq_eq, Fin.sum_univ_three,
      Fin.sum_univ_three]
    simp [cross3]
    linear_combination (x 0 ^ 2 + x 1 ^ 2 + x 2 ^ 2) * hn - (n 0 * x 0 + n 1 * x 1 + n 2 * x 2) * hx'
  · intro x
    simp [cross3, PiLp.inner_apply, Fin.sum_univ_three]
    ring
  · ext i
    fin_cases i <;> simp [cross3] <;> ring

/-- In space every point at the radius from the centre is on the constructed sphere, and no other. -/
theorem C73_sphere_space {eps : ℝ} (he : 0 < eps) (he4 : eps ≤ 1 / 4) (c : Space) {n x : Space} (hn : ‖n‖ = 1) (hx : x ≠ 0)
    (hnx : @inner ℝ Space _ n x = 0) {r : ℝ} (hr : eps < |r|) :
    ∃ S, sphere eps c n x (cross3 n) r = .ok S ∧
      ∀ p, (∃ u ∈ Set.Icc S.ulo S.uhi, ∃ v ∈ Set.Icc S.vlo S.vhi, S.pointAt eps u v = .ok p) ↔ ‖p - c‖ = |r| := by
  obtain ⟨S, hS, h1, h2⟩ := C73_sphere_points he he4 c (cross3_turn hn) hx hnx hr
  refine ⟨S, hS, fun p => ⟨?_, fun hp => ?_⟩⟩
  · rintro ⟨u, hu, v, hv, e⟩
    obtain ⟨q, e', hq⟩ := h1 u hu v hv
    rw [e] at e'
    cases e'
    exact hq
  · have hr0 : r ≠ 0 := by rintro rfl; simp at hr; linarith
    have hux : @inner ℝ Space _ n (unit x) = 0 := by rw [unit, inner_smul_right, hnx, mul_zero]
    have hu1 := norm_unit hx
    generalize unit x = e at *
    have hnn : n 0 ^ 2 + n 1 ^ 2 + n 2 ^ 2 = 1 := by
      have := EuclideanSpace.norm_sq_eq n
      rw [hn, Fin.sum_univ_three] at this
      simpa using this.symm
    have hee : e 0 ^ 2 + e 1 ^ 2 + e 2 ^ 2 = 1 := by
      have := EuclideanSpace.norm_sq_eq e
      rw [hu1, Fin.sum_univ_three] at this
      simpa using this.symm
    have hne : n 0 * e 0 + n 1 * e 1 + n 2 * e 2 = 0 := by
      have := hux
      simp [PiLp.inner_apply, Fin.sum_univ_three] at this
      linarith
    obtain ⟨q, hq⟩ : ∃ q : Space, q = r⁻¹ • (p - c) := ⟨_, rfl⟩
    have hpq : p = c + r • q := by rw [hq, smul_smul, mul_inv_cancel₀ hr0, one_smul]; abel
    have hqq : q 0 ^ 2 + q 1 ^ 2 + q 2 ^ 2 = 1 := by
      have h := EuclideanSpace.norm_sq_eq q
      have : ‖q‖ = 1 := by
        rw [hq, norm_smul, hp, norm_inv, Real.norm_eq_abs, inv_mul_cancel₀ (abs_ne_zero.2 hr0)]
      rw [this, Fin.sum_univ_three] at h
      simpa using h.symm
    clear hq hp
    obtain ⟨f0, hf0⟩ : ∃ f, f = n 1 * e 2 - n 2 * e 1 := ⟨_, rfl⟩
    obtain ⟨f1, hf1⟩ : ∃ f, f = n 2 * e 0 - n 0 * e 2 := ⟨_, rfl⟩
    obtain ⟨f2, hf2⟩ : ∃ f, f = n 0 * e 1 - n 1 * e 0 := ⟨_, rfl⟩
    have hff : f0 ^ 2 + f1 ^ 2 + f2 ^ 2 = 1 := by
      rw [hf0, hf1, hf2]
      linear_combination (e 0 ^ 2 + e 1 ^ 2 + e 2 ^ 2) * hnn + hee - (n 0 * e 0 + n 1 * e 1 + n 2 * e 2) * hne
    have hef : e 0 * f0 + e 1 * f1 + e 2 * f2 = 0 := by rw [hf0, hf1, hf2]; ring
    have hnf : n 0 * f0 + n 1 * f1 + n 2 * f2 = 0 := by rw [hf0, hf1, hf2]; ring
    have hM : !![e 0, e 1, e 2; f0, f1, f2; n 0, n 1, n 2] * !![e 0, f0, n 0; e 1, f1, n 1; e 2, f2, n 2] =
        (1 : Matrix (Fin 3) (Fin 3) ℝ) := by
      ext i j
      fin_cases i <;> fin_cases j <;> simp [Matrix.mul_apply, Fin.sum_univ_three] <;>
        first
        | linear_combination hee
        | linear_combination hef
        | linear_combination hne
        | linear_combination hff
        | linear_combination hnf
        | linear_combination hnn
    have hM' := mul_eq_one_comm.1 hM
    have m00 := congrFun (congrFun hM' 0) 0
    have m01 := congrFun (congrFun hM' 0) 1
    have m02 := congrFun (congrFun hM' 0) 2
    have m11 := congrFun (congrFun hM' 1) 1
    have m12 := congrFun (congrFun hM' 1) 2
    have m22 := congrFun (congrFun hM' 2) 2
    simp [Matrix.mul_apply, Fin.sum_univ_three] at m00 m01 m02 m11 m12 m22
    obtain ⟨u, hu, v, hv, e'⟩ := h2 (q 0 * e 0 + q 1 * e 1 + q 2 * e 2) (q 0 * f0 + q 1 * f1 + q 2 * f2)
      (q 0 * n 0 + q 1 * n 1 + q 2 * n 2) (by
        linear_combination hqq + q 0 ^ 2 * m00 + q 1 ^ 2 * m11 + q 2 ^ 2 * m22 + 2 * q 0 * q 1 * m01 + 2 * q 0 * q 2 * m02 +
          2 * q 1 * q 2 * m12)
    refine ⟨u, hu, v, hv, ?_⟩
    rw [e', hpq]
    congr 3
    ext i
    fin_cases i <;> simp [cross3] <;> simp only [← hf0, ← hf1, ← hf2]
    · linear_combination q 0 * m00 + q 1 * m01 + q 2 * m02
    · linear_combination q 0 * m01 + q 1 * m11 + q 2 * m12
    · linear_combination q 0 * m02 + q 1 * m12 + q 2 * m22

/-- A sphere about a slanted axis. -/
example : ∃ S, sphere (1 / 100) 0 !₂[(3 : ℝ) / 5, 4 / 5, 0] !₂[(0 : ℝ), 0, 7] (cross3 !₂[3 / 5, 4 / 5, 0]) (-2) = .ok S ∧
      ∀ p, (∃ u ∈ Set.Icc S.ulo S.uhi, ∃ v ∈ Set.Icc S.vlo S.vhi, S.pointAt (1 / 100) u v = .ok p) ↔ ‖p - 0‖ = |(-2 : ℝ)| :=
  C73_sphere_space (by norm_num) (by norm_num) 0 (by
    rw [EuclideanSpace.norm_eq, Fin.sum_univ_three]; norm_num; rfl) (by
    intro h; have := congrFun (congrArg (fun v : Space => (v : Fin 3 → ℝ)) h) 2; simp at this) (by
    simp [PiLp.inner_apply, Fin.sum_univ_three]) (by norm_num)

/-- The same with an axis of length two. -/
example : sphere (1 / 100) 0 !₂[(2 : ℝ), 0, 0] !₂[(0 : ℝ), 0, 7] (cross3 !₂[2, 0, 0]) 1 = .error .nonfinite :=
  C73_sphere_axis (by norm_num) (by norm_num) 0 (by
    intro h; have := congrFun (congrArg (fun v : Space => (v : Fin 3 → ℝ)) h) 0; simp at this) (by
    ext i; fin_cases i <;> simp [cross3]) (by
    intro h; have := congrFun (congrArg (fun v : Space => (v : Fin 3 → ℝ)) h) 2; simp at this) (by
    simp [PiLp.inner_apply, Fin.sum_univ_three]) one_ne_zero (by
    have : (![2, 0, 0] : Fin 3 → ℝ) 2 = 0 := rfl
    rw [EuclideanSpace.norm_sq_eq, Fin.sum_univ_three]; norm_num [this])

end Curvo.Props

/-
  Circles, arcs and ellipses (C59).
-/
import Mathlib.Analysis.Complex.Basic
import Verif.Lemmas.Conic

set_option linter.unusedSectionVars false

namespace Curvo.Props

open Curvo Curvo.Conic Real

variable {V : Type} [NormedAddCommGroup V] [InnerProductSpace ℝ V]

/-- The curve runs once, and in order, through the points `c + cos φ X + sin φ Y` for `φ` from `a` to `b`, which is
    also its domain: the parameter and the angle differ by an increasing map of the interval onto itself. -/
def Traces (eps : ℝ) (C : Curve ℝ (V × ℝ)) (c X Y : V) (a b : ℝ) : Prop :=
  C.Good eps ∧ C.lo = a ∧ C.hi = b ∧ ∃ A : ℝ → ℝ, StrictMonoOn A (Set.Icc a b) ∧ A '' Set.Icc a b = Set.Icc a b ∧
    ∀ t ∈ Set.Icc a b, C.pointAt eps t = .ok (c + (cos (A t) • X + sin (A t) • Y))

/-- A curve tracing an arc starts and ends at its ends. -/
theorem Traces.ends {eps : ℝ} {C : Curve ℝ (V × ℝ)} {c X Y : V} {a b : ℝ} (h : Traces eps C c X Y a b) (hab : a ≤ b) :
    C.pointAt eps a = .ok (c + (cos a • X + sin a • Y)) ∧ C.pointAt eps b = .ok (c + (cos b • X + sin b • Y)) := by
  obtain ⟨-, -, -, A, hm, hi, hp⟩ := h
  have ha : a ∈ Set.Icc a b := ⟨le_rfl, hab⟩
  have hb : b ∈ Set.Icc a b := ⟨hab, le_rfl⟩
  have hA : ∀ t ∈ Set.Icc a b, A t ∈ Set.Icc a b := fun t ht => hi ▸ ⟨t, ht, rfl⟩
  have ea : A a = a := by
    obtain ⟨t, ht, e⟩ := (hi.symm ▸ ha : a ∈ A '' Set.Icc a b)
    exact le_antisymm (e ▸ (hm.le_iff_le ha ht).2 ht.1) (hA a ha).1
  have eb : A b = b := by
    obtain ⟨t, ht, e⟩ := (hi.symm ▸ hb : b ∈ A '' Set.Icc a b)
    exact le_antisymm (hA b hb).2 (e ▸ (hm.le_iff_le ht hb).2 ht.2)
  exact ⟨by have := hp a ha; rwa [ea] at this, by have := hp b hb; rwa [eb] at this⟩

/-- Chains of circular segments trace arcs. -/
theorem chain_traces {eps : ℝ} (he : 0 ≤ eps) (c X Y : V) {a b : ℝ} {s : ℕ} (hs : 1 ≤ s) (hab : a < b)
    (hd : eps ≤ (b - a) / s) (hπ : (b - a) / s < π) :
    Traces eps (Curve.chain 2 s (fun k : ℕ => a + k * ((b - a) / s)) (arcPt c X Y a ((b - a) / s / 2))) c X Y a b := by
  have hs0 : (0 : ℝ) < s := by exact_mod_cast hs
  have hd0 : 0 < (b - a) / s := div_pos (by linarith) hs0
  have hsd : s * ((b - a) / s) = b - a := mul_div_cancel₀ _ hs0.ne'
  generalize (b - a) / s = d at *
  obtain ⟨hC, hev⟩ := arc_chain (V := V) he (h := d / 2) (by linarith) (by linarith) hs hd hd0 (a := a)
  obtain ⟨hg, hlo, hhi⟩ := hC (arcPt c X Y a (d / 2))
  have hb : a + s * d = b := by linarith
  rw [hb] at hhi hev
  have hm := angleAt_mono (h := d / 2) (by linarith) (by linarith)
  refine ⟨hg, hlo, hhi, fun t => a + angleAt (d / 2) ((t - a) / d), ?_, ?_, ?_⟩
  · intro t _ t' _ h
    have := hm (show (t - a) / d < (t' - a) / d by gcongr)
    simpa using this
  · have e0 : angleAt (d / 2) 0 = 0 := by
      have := angleAt_nat (h := d / 2) (by linarith) (by linarith) 0
      simpa using this
    have e1 : angleAt (d / 2) s = b - a := by
      rw [angleAt_nat (by linarith) (by linarith)]; linarith
    apply Set.Subset.antisymm
    · rintro _ ⟨t, ⟨h1, h2⟩, rfl⟩
      have l := hm.monotone (show 0 ≤ (t - a) / d from div_nonneg (by linarith) hd0.le)
      have r := hm.monotone (show (t - a) / d ≤ s by rw [div_le_iff₀ hd0]; linarith)
      rw [e0] at l
      rw [e1] at r
      exact ⟨by simpa using l, by simp only; linarith⟩
    · rintro φ ⟨h1, h2⟩
      obtain ⟨z, hz⟩ := angleAt_surj (h := d / 2) (by linarith) (by linarith) (φ - a)
      have l : 0 ≤ z := by rw [← hm.le_iff_le, e0, hz]; linarith
      have r : z ≤ s := by rw [← hm.le_iff_le, e1, hz]; linarith
      refine ⟨a + z * d, ⟨by nlinarith, by nlinarith⟩, ?_⟩
      simp only
      rw [add_sub_cancel_left, mul_div_cancel_right₀ _ hd0.ne', hz]
      ring
  · rintro t ⟨h1, h2⟩
    obtain ⟨w, hw, e⟩ := hev t h1 h2
    rw [Curve.pointAt, Curve.point_eq_eval hg (by rw [hlo]; exact h1) (by rw [hhi]; exact h2), ok_bind, e c X Y a, dehom hw.ne']
    rfl

/-- The unit vector of a direction. -/
noncomputable def unit (v : V) : V := ‖v‖⁻¹ • v

theorem normalize_ok {v : V} (h : v ≠ 0) : Conic.normalize v = .ok (unit v) := by
  rw [Conic.normalize, if_neg h]; rfl

theorem ortho_units {x y : V} (hx : x ≠ 0) (hy : y ≠ 0) (hxy : @inner ℝ V _ x y = 0) : Ortho (unit x) (unit y) := by
  have nx : ‖x‖ ≠ 0 := norm_ne_zero_iff.2 hx
  have ny : ‖y‖ ≠ 0 := norm_ne_zero_iff.2 hy
  refine ⟨?_, ?_, ?_⟩ <;> simp only [unit, inner_smul_left, inner_smul_right]
  · rw [real_inner_self_eq_norm_sq]; simp; field_simp
  · rw [real_inner_self_eq_norm_sq]; simp; field_simp
  · rw [hxy]; simp

theorem norm_smul_unit {v : V} (h : v ≠ 0) : ‖v‖ • unit v = v := by
  rw [unit, smul_smul, mul_inv_cancel₀ (norm_ne_zero_iff.2 h), one_smul]

/-- Elliptic arcs, wherever the corners are right. -/
theorem ellipseArc_eq {eps : ℝ} (c : V) {x y : V} (hx : x ≠ 0) (hy : y ≠ 0) {a b : ℝ} (hab : a < b)
    (hc : ∀ k : ℕ, k < arcCount (b - a) →
      CornerAt eps c (unit x) (unit y) ‖x‖ ‖y‖ ((b - a) / arcCount (b - a)) (a + k * ((b - a) / arcCount (b - a)))) :
    ellipseArc eps c x y a b = .ok (Curve.chain 2 (arcCount (b - a)) (fun k : ℕ => a + k * ((b - a) / arcCount (b - a)))
      (arcPt c x y a ((b - a) / arcCount (b - a) / 2))) := by
  obtain ⟨rest, er, hr⟩ := arcLoop_eq _ a hc
  rw [ellipseArc, normalize_ok hx, ok_bind, normalize_ok hy, ok_bind, if_pos hab]
  simp only
  rw [dir_axes, show cos a • unit y - sin a • unit x = tan' (unit x) (unit y) a from rfl, er, ok_bind, hr,
    arcKnots_eq (arcCount_pos _) (arcCount_le _), norm_smul_unit hx, norm_smul_unit hy, mul_comm 2]
  rfl

/-- They trace the ellipse. -/
theorem ellipseArc_traces {eps : ℝ} (he : 0 ≤ eps) (c : V) {x y : V} (hx : x ≠ 0) (hy : y ≠ 0) {a b : ℝ} (hab : a < b)
    (hd : eps ≤ (b - a) / arcCount (b - a)) (hπ : b - a < 4 * π)
    (hc : ∀ k : ℕ, k < arcCount (b - a) →
      CornerAt eps c (unit x) (unit y) ‖x‖ ‖y‖ ((b - a) / arcCount (b - a)) (a + k * ((b - a) / arcCount (b - a)))) :
    ∃ C, ellipseArc eps c x y a b = .ok C ∧ Traces eps C c x y a b :=
  ⟨_, ellipseArc_eq c hx hy hab hc, chain_traces he c x y (arcCount_pos _) hab hd (arcCount_lt hπ)⟩

theorem sin_sq_le_self {d : ℝ} (h : 0 < d) : sin d ^ 2 ≤ d := by
  have h1 := sin_le h.le
  have h2 := sin_le_one d
  have h3 := neg_one_le_sin d
  rcases le_or_gt (sin d) 0 with h | h
  · rcases le_or_gt 1 d with h' | h'
    · nlinarith
    · exact absurd h (not_le.2 (sin_pos_of_pos_of_lt_pi ‹0 < d› (by linarith [two_le_pi])))
  · nlinarith

theorem norm_unit {v : V} (h : v ≠ 0) : ‖unit v‖ = 1 := by
  rw [unit, norm_smul, norm_inv, norm_norm, inv_mul_cancel₀ (norm_ne_zero_iff.2 h)]

theorem ortho_radius {x y : V} (hx : x ≠ 0) (hy : y ≠ 0) (hxy : @inner ℝ V _ x y = 0) {r : ℝ} (hr : r ≠ 0) :
    r • unit x ≠ 0 ∧ r • unit y ≠ 0 ∧ Ortho (unit (r • unit x)) (unit (r • unit y)) ∧ ‖r • unit x‖ = |r| ∧ ‖r • unit y‖ = |r| := by
  have o := ortho_units hx hy hxy
  have hx' : r • unit x ≠ 0 := smul_ne_zero hr (by have := o.xx; rintro h; rw [h] at this; simp at this)
  have hy' : r • unit y ≠ 0 := smul_ne_zero hr (by have := o.yy; rintro h; rw [h] at this; simp at this)
  refine ⟨hx', hy', ortho_units hx' hy' (by rw [inner_smul_left, inner_smul_right, o.xy]; simp), ?_, ?_⟩
  · rw [norm_smul, norm_unit hx]; simp
  · rw [norm_smul, norm_unit hy]; simp

/-- Arcs as chains. -/
theorem arc_eq {eps : ℝ} (he : 0 < eps) (c : V) {x y : V} (hx : x ≠ 0) (hy : y ≠ 0) (hxy : @inner ℝ V _ x y = 0) {r : ℝ}
    (hr : r ≠ 0) {a b : ℝ} (hab : a < b) (h : eps ≤ sin ((b - a) / arcCount (b - a)) ^ 2) :
    arc eps c x y r a b = .ok (Curve.chain 2 (arcCount (b - a)) (fun k : ℕ => a + k * ((b - a) / arcCount (b - a)))
      (arcPt c (r • unit x) (r • unit y) a ((b - a) / arcCount (b - a) / 2))) := by
  obtain ⟨hx', hy', o', n1, n2⟩ := ortho_radius hx hy hxy hr
  rw [arc, normalize_ok hx, ok_bind, normalize_ok hy, ok_bind]
  refine ellipseArc_eq c hx' hy' hab fun k _ => ?_
  rw [n1, n2]
  exact o'.cornerAt he c |r| h _

/-- **C59, arcs.** With orthogonal axes, a radius that is not zero and angles less than two turns apart, an arc
    is constructed exactly if the square of the sine of the angle of one segment is not below the tolerance; it then
    runs once through the points at distance `radius` from the centre at the angles from start to end, in order, and
    its domain is the range of angles. -/
theorem C59_arc {eps : ℝ} (he : 0 < eps) (c : V) {x y : V} (hx : x ≠ 0) (hy : y ≠ 0) (hxy : @inner ℝ V _ x y = 0) {r : ℝ}
    (hr : r ≠ 0) {a b : ℝ} (hab : a < b) (hπ : b - a < 4 * π) :
    (eps ≤ sin ((b - a) / arcCount (b - a)) ^ 2 ∧
      ∃ C, arc eps c x y r a b = .ok C ∧ Traces eps C c (r • unit x) (r • unit y) a b) ∨
    (sin ((b - a) / arcCount (b - a)) ^ 2 < eps ∧ arc eps c x y r a b = .error .err) := by
  obtain ⟨hx', hy', o', n1, n2⟩ := ortho_radius hx hy hxy hr
  have hcnt := arcCount_pos (b - a)
  have hd0 : 0 < (b - a) / arcCount (b - a) := div_pos (by linarith) (by exact_mod_cast hcnt)
  rcases le_or_gt eps (sin ((b - a) / arcCount (b - a)) ^ 2) with h | h
  · exact .inl ⟨h, _, arc_eq he c hx hy hxy hr hab h,
      chain_traces he.le c _ _ hcnt hab (h.trans (sin_sq_le_self hd0)) (arcCount_lt hπ)⟩
  · refine .inr ⟨h, ?_⟩
    rw [arc, normalize_ok hx, ok_bind, normalize_ok hy, ok_bind, ellipseArc, normalize_ok hx', ok_bind, normalize_ok hy', ok_bind,
      if_pos hab]
    simp only
    obtain ⟨n, hn⟩ : ∃ n, arcCount (b - a) = n + 1 := ⟨arcCount (b - a) - 1, by omega⟩
    rw [hn] at h ⊢
    rw [dir_axes, show cos a • unit (r • unit y) - sin a • unit (r • unit x) = tan' (unit (r • unit x)) (unit (r • unit y)) a from rfl,
      arcLoop_err (x := unit (r • unit x)) (y := unit (r • unit y)) (normalize_unit (o'.norm_tan _)) (normalize_unit (o'.norm_tan _))]
    · rfl
    · rw [n1, n2, dir_smul, dir_smul, o'.rays _ _ _ _ _ he, if_pos h]

/-- A third of a turn in the plane of complex numbers, radius 2. -/
example : ∃ C, arc (1 / 100) (3 : ℂ) 5 (Complex.I * 7) 2 0 (2 * π / 3) = .ok C ∧
    Traces (1 / 100) C 3 ((2 : ℝ) • unit 5) ((2 : ℝ) • unit (Complex.I * 7)) 0 (2 * π / 3) := by
  have hp := pi_pos
  have hc : arcCount (2 * π / 3 - 0) = 1 := by
    rw [sub_zero, arcCount, show 2 * π / 3 / (π / 2) = 4 / 3 by field_simp; norm_num]
    norm_num
  rcases C59_arc (V := ℂ) (eps := 1 / 100) (by norm_num) 3 (x := 5) (y := Complex.I * 7) (by norm_num) (by simp) (by simp [Complex.inner])
    (r := 2) (by norm_num) (a := 0) (b := 2 * π / 3) (by positivity) (by linarith) with ⟨-, h⟩ | ⟨h, -⟩
  · exact h
  · exfalso
    rw [hc, sub_zero, Nat.cast_one, div_one, show 2 * π / 3 = π - π / 3 by ring, sin_pi_sub, sin_pi_div_three] at h
    have := sq_sqrt (show (0 : ℝ) ≤ 3 by norm_num)
    nlinarith

/-- All points of an arc are at the radius from the centre. -/
theorem Traces.dist {eps : ℝ} {C : Curve ℝ (V × ℝ)} {c x y : V} {r a b : ℝ} (o : Ortho x y)
    (h : Traces eps C c (r • x) (r • y) a b) {t : ℝ} (ht : t ∈ Set.Icc a b) :
    ∃ p, C.pointAt eps t = .ok p ∧ ‖p - c‖ = |r| := by
  obtain ⟨-, -, -, A, -, -, hp⟩ := h
  refine ⟨_, hp t ht, ?_⟩
  rw [add_sub_cancel_left, show cos (A t) • r • x + sin (A t) • r • y = dir (r • x) (r • y) (A t) from rfl, dir_smul, norm_smul,
    o.norm_dir]
  simp

theorem arcCount_two_pi : arcCount (2 * π) = 4 := by
  rw [arcCount]
  have : 2 * π / (π / 2) = (4 : ℤ) := by
    have := pi_pos.ne'
    field_simp; norm_num
  rw [this, Int.floor_intCast]
  rfl

/-- **C59, circles.** A circle is constructed for every radius that is not zero, and runs once around. -/
theorem C59_circle {eps : ℝ} (he : 0 < eps) (he1 : eps ≤ 1) (c : V) {x y : V} (hx : x ≠ 0) (hy : y ≠ 0)
    (hxy : @inner ℝ V _ x y = 0) {r : ℝ} (hr : r ≠ 0) :
    ∃ C, circle eps c x y r = .ok C ∧ Traces eps C c (r • unit x) (r • unit y) 0 (2 * π) := by
  have hp := pi_pos
  rcases C59_arc he c hx hy hxy hr (a := 0) (b := 2 * π) (by linarith) (by linarith) with ⟨-, h⟩ | ⟨h, -⟩
  · exact h
  · exfalso
    rw [sub_zero, arcCount_two_pi, show 2 * π / ((4 : ℕ) : ℝ) = π / 2 by push_cast; ring, sin_pi_div_two] at h
    linarith

example : ∃ C, circle (1 / 100) (3 : ℂ) 5 (Complex.I * 7) (-2) = .ok C ∧
    Traces (1 / 100) C 3 ((-2 : ℝ) • unit 5) ((-2 : ℝ) • unit (Complex.I * 7)) 0 (2 * π) :=
  C59_circle (by norm_num) (by norm_num) 3 (by norm_num) (by simp) (by simp [Complex.inner]) (by norm_num)

/-- **C59, quarters of ellipses.** An elliptic arc between semi-axes runs once through the ellipse. -/
theorem C59_ellipse_quarters {eps : ℝ} (he : 0 < eps) (he1 : eps ≤ 1) (c : V) {x y : V} (hx : x ≠ 0) (hy : y ≠ 0)
    (hxy : @inner ℝ V _ x y = 0) (m : ℤ) {n : ℕ} (hn : 1 ≤ n) (hn4 : n ≤ 4) :
    ∃ C, ellipseArc eps c x y (m * (π / 2)) (m * (π / 2) + n * (π / 2)) = .ok C ∧
      Traces eps C c x y (m * (π / 2)) (m * (π / 2) + n * (π / 2)) := by
  have hp := pi_pos
  have hn0 : (1 : ℝ) ≤ n := by exact_mod_cast hn
  have hn4' : (n : ℝ) ≤ 4 := by exact_mod_cast hn4
  have hcnt : arcCount (n * (π / 2)) = n := by
    rw [arcCount, mul_div_cancel_right₀ _ (by positivity), Int.floor_natCast]
    simp
    omega
  have hq : (n * (π / 2)) / n = π / 2 := mul_div_cancel_left₀ _ (by positivity)
  have o := ortho_units hx hy hxy
  apply ellipseArc_traces he.le c hx hy (by nlinarith)
  · rw [add_sub_cancel_left, hcnt, hq]; linarith [two_le_pi]
  · nlinarith
  · intro k _
    rw [add_sub_cancel_left, hcnt, hq]
    apply o.cornerAt_quarter he1
    have : sin (2 * (m * (π / 2) + k * (π / 2))) = 0 := by
      rw [show 2 * (m * (π / 2) + k * (π / 2)) = ((m + k : ℤ) : ℝ) * π by push_cast; ring]
      exact sin_int_mul_pi _
    rw [sin_two_mul] at this
    linarith

/-- **C59, ellipses.** A full ellipse runs once around. -/
theorem C59_ellipse {eps : ℝ} (he : 0 < eps) (he1 : eps ≤ 1) (c : V) {x y : V} (hx : x ≠ 0) (hy : y ≠ 0)
    (hxy : @inner ℝ V _ x y = 0) :
    ∃ C, ellipse eps c x y = .ok C ∧ Traces eps C c x y 0 (2 * π) := by
  have := C59_ellipse_quarters he he1 c hx hy hxy 0 (n := 4) (by norm_num) le_rfl
  rwa [show ((0 : ℤ) : ℝ) * (π / 2) = 0 by simp, show (0 : ℝ) + (4 : ℕ) * (π / 2) = 2 * π by push_cast; ring] at this

example : ∃ C, ellipse (1 / 100) (3 : ℂ) 5 (Complex.I * 7) = .ok C ∧ Traces (1 / 100) C 3 5 (Complex.I * 7) 0 (2 * π) :=
  C59_ellipse (by norm_num) (by norm_num) 3 (by norm_num) (by simp) (by simp [Complex.inner])

/-- **C59, errors.** Angles that do not increase are refused. -/
theorem C59_angles {eps : ℝ} (c : V) {x y : V} (hx : x ≠ 0) (hy : y ≠ 0) {a b : ℝ} (hab : b ≤ a) :
    ellipseArc eps c x y a b = .error .err := by
  rw [ellipseArc, normalize_ok hx, ok_bind, normalize_ok hy, ok_bind, if_neg (not_lt.2 hab)]

/-- **C59, errors.** An axis or a radius that is zero gives components that are not finite. -/
theorem C59_degenerate {eps : ℝ} (c x y : V) (r a b : ℝ) (h : x = 0 ∨ y = 0 ∨ r = 0) :
    arc eps c x y r a b = .error .nonfinite := by
  rw [arc]
  by_cases hx : x = 0
  · rw [Conic.normalize, if_pos hx]; rfl
  by_cases hy : y = 0
  · rw [normalize_ok hx, ok_bind, Conic.normalize, if_pos hy]; rfl
  have hr : r = 0 := by tauto
  rw [normalize_ok hx, ok_bind, normalize_ok hy, ok_bind, ellipseArc, Conic.normalize, if_pos (by rw [hr, zero_smul])]
  rfl

/-- **C59, other elliptic arcs: the code is wrong.** For any two different semi-axes, the arc from an eighth to three
    eighths of a turn is constructed, and its middle is not on the ellipse. -/
theorem C59_ellipse_arc_wrong {eps : ℝ} (he : 0 < eps) (he1 : eps ≤ 1) (c : V) {x y : V} (hx : x ≠ 0) (hy : y ≠ 0)
    (hxy : @inner ℝ V _ x y = 0) (hne : ‖x‖ ≠ ‖y‖) :
    ∃ C p, ellipseArc eps c x y (π / 4) (3 * π / 4) = .ok C ∧ C.pointAt eps (π / 2) = .ok p ∧
      ∀ φ, p ≠ c + (cos φ • x + sin φ • y) := by
  have hp := pi_pos
  have o := ortho_units hx hy hxy
  have hth : 3 * π / 4 - π / 4 = π / 2 := by ring
  have hcnt : arcCount (π / 2) = 1 := by
    rw [arcCount, div_self (by positivity), Int.floor_one]; rfl
  have hw : cos (π / 2 / 2) = √2 / 2 := by rw [show π / 2 / 2 = π / 4 by ring, cos_pi_div_four]
  have hang : π / 4 + π / 2 = 3 * π / 4 := by ring
  have c3 : cos (π / 4 + π / 2) = -(√2 / 2) := by rw [cos_add_pi_div_two, sin_pi_div_four]
  have s3 : sin (π / 4 + π / 2) = √2 / 2 := by rw [sin_add_pi_div_two, cos_pi_div_four]
  have h2 : √2 * √2 = 2 := mul_self_sqrt (by norm_num)
  have h2p : 0 < √2 := sqrt_pos.2 (by norm_num)
  obtain ⟨n1, n2⟩ : 0 < ‖x‖ ∧ 0 < ‖y‖ := ⟨norm_pos_iff.2 hx, norm_pos_iff.2 hy⟩
  generalize ex : unit x = X at o
  generalize ey : unit y = Y at o
  generalize hrx : ‖x‖ = rx at *
  generalize hry : ‖y‖ = ry at *
  have hxX : x = rx • X := by rw [← ex, ← hrx, norm_smul_unit hx]
  have hyY : y = ry • Y := by rw [← ey, ← hry, norm_smul_unit hy]
  have hd : @inner ℝ V _ (tan' X Y (π / 4)) (tan' X Y (π / 4 + π / 2)) = 0 := by
    rw [o.tt, add_sub_cancel_left, cos_pi_div_two]
  have hl : @inner ℝ V _ (tan' X Y (π / 4)) (c + dir (rx • X) (ry • Y) (π / 4 + π / 2)) -
      @inner ℝ V _ (tan' X Y (π / 4)) (c + dir (rx • X) (ry • Y) (π / 4)) = rx := by
    rw [inner_add_right, inner_add_right, tan'_eq, dir, dir, smul_smul, smul_smul, smul_smul, smul_smul, o.comb, o.comb, c3, s3,
      cos_pi_div_four, sin_pi_div_four]
    linear_combination (rx / 2) * h2
  let P : ℕ → V × ℝ := fun i => match i with
    | 0 => (c + dir (rx • X) (ry • Y) (π / 4), 1)
    | 1 => ((√2 / 2) • (c + dir (rx • X) (ry • Y) (π / 4) + rx • tan' X Y (π / 4)), √2 / 2)
    | _ => (c + dir (rx • X) (ry • Y) (π / 4 + π / 2), 1)
  have hC : ellipseArc eps c x y (π / 4) (3 * π / 4) = .ok (Curve.chain 2 1 (fun k : ℕ => π / 4 + k * (π / 2 / (1 : ℕ))) P) := by
    rw [ellipseArc, normalize_ok hx, ok_bind, normalize_ok hy, ok_bind, if_pos (by linarith)]
    simp only
    rw [hth, hcnt, dir_axes, arcKnots_eq le_rfl (by norm_num), Nat.cast_one, div_one, arcLoop, dir_axes, ex, ey, hrx, hry]
    simp only
    rw [show cos (π / 4) • Y - sin (π / 4) • X = tan' X Y (π / 4) from rfl,
      show cos (π / 4 + π / 2) • Y - sin (π / 4 + π / 2) • X = tan' X Y (π / 4 + π / 2) from rfl,
      normalize_unit (o.norm_tan _), ok_bind, normalize_unit (o.norm_tan _), ok_bind, Ray.findIntersection]
    simp only [hd, o.tt, sub_self, cos_zero, mul_zero, sub_zero, mul_one, abs_one, hl]
    rw [if_neg (not_lt.2 he1), divR_eq_ok one_ne_zero, ok_bind, divR_eq_ok one_ne_zero, ok_bind]
    simp only [add_zero, div_one, arcLoop, hw]
    show Except.ok _ = _
    simp only [Curve.chain, vec, List.range_succ, List.range_zero, List.map_append, List.map_cons, List.map_nil,
        List.nil_append, List.cons_append, P, one_smul]
  obtain ⟨hg, hlo, hhi⟩ : (Curve.chain 2 1 (fun k : ℕ => π / 4 + k * (π / 2 / (1 : ℕ))) P).Good eps ∧
      (Curve.chain 2 1 (fun k : ℕ => π / 4 + k * (π / 2 / (1 : ℕ))) P).lo = π / 4 ∧
      (Curve.chain 2 1 (fun k : ℕ => π / 4 + k * (π / 2 / (1 : ℕ))) P).hi = 3 * π / 4 := by
    refine ⟨Curve.chain_good he.le (by norm_num) le_rfl ?_ ?_ ?_, ?_, ?_⟩
    · intro i _; push_cast; nlinarith
    · push_cast; linarith [two_le_pi]
    · push_cast; norm_num; linarith [two_le_pi]
    · rw [Curve.chain_lo (by norm_num)]; simp
    · rw [Curve.chain_hi (by norm_num)]; push_cast; ring
  have hev : (Curve.chain 2 1 (fun k : ℕ => π / 4 + k * (π / 2 / (1 : ℕ))) P).eval (π / 2) =
      (((2 + √2) / 4) • (c + (ry + (rx - ry) / (2 + √2)) • Y), (2 + √2) / 4) := by
    rw [Curve.chain_eval hg (by norm_num) (by intro i _; push_cast; nlinarith) (j := 0) (by norm_num) (by
      unfold Spec.InSpan
      rw [if_neg (by push_cast; intro h; linarith)]
      push_cast
      constructor <;> linarith)]
    have hs : (π / 2 - (π / 4 + (0 : ℕ) * (π / 2 / (1 : ℕ)))) / (π / 4 + (0 + 1 : ℕ) * (π / 2 / (1 : ℕ)) - (π / 4 + (0 : ℕ) * (π / 2 / (1 : ℕ)))) = (1 / 2 : ℝ) := by
      push_cast
      field_simp
      norm_num
    rw [hs]
    have b0 : Curve.bern (1 / 2 : ℝ) 2 0 = 1 / 4 := by norm_num [Curve.bern]
    have b1 : Curve.bern (1 / 2 : ℝ) 2 1 = 1 / 2 := by norm_num [Curve.bern]
    have b2 : Curve.bern (1 / 2 : ℝ) 2 2 = 1 / 4 := by norm_num [Curve.bern]
    rw [Finset.sum_range_succ, Finset.sum_range_succ, Finset.sum_range_one, b0, b1, b2]
    refine Prod.ext ?_ ?_
    · show (1 / 4 : ℝ) • (c + dir (rx • X) (ry • Y) (π / 4)) + (1 / 2 : ℝ) • ((√2 / 2) • (c + dir (rx • X) (ry • Y) (π / 4) + rx • tan' X Y (π / 4)))
        + (1 / 4 : ℝ) • (c + dir (rx • X) (ry • Y) (π / 4 + π / 2)) = ((2 + √2) / 4) • (c + (ry + (rx - ry) / (2 + √2)) • Y)
      rw [dir, dir, tan', c3, s3, cos_pi_div_four, sin_pi_div_four, smul_add ((2 + √2) / 4), smul_smul ((2 + √2) / 4)]
      have e : (2 + √2) / 4 * (ry + (rx - ry) / (2 + √2)) = (√2 * ry + rx + ry) / 4 := by field_simp; ring
      have e1 : (√2 * ry + rx + ry) / 4 = √2 * ry / 4 + √2 * √2 * (rx + ry) / 8 := by rw [h2]; ring
      rw [e, e1]
      module
    · show (1 / 4 : ℝ) • (1 : ℝ) + (1 / 2 : ℝ) • (√2 / 2) + (1 / 4 : ℝ) • (1 : ℝ) = (2 + √2) / 4
      simp only [smul_eq_mul]
      ring
  refine ⟨_, c + (ry + (rx - ry) / (2 + √2)) • Y, hC, ?_, ?_⟩
  · rw [Curve.pointAt, Curve.point_eq_eval hg (by rw [hlo]; linarith) (by rw [hhi]; linarith), ok_bind, hev, dehom (by positivity)]
    rfl
  · intro φ h
    have h := add_left_cancel h
    have hX := congrArg (fun v => @inner ℝ V _ X v) h
    have hY := congrArg (fun v => @inner ℝ V _ Y v) h
    simp only [hxX, hyY, inner_add_right, inner_smul_right, o.xx, o.yy, o.xy, o.yx] at hX hY
    have hc0 : cos φ = 0 := by
      have : cos φ * rx = 0 := by linarith
      rcases mul_eq_zero.1 this with h | h
      · exact h
      · exact absurd h n1.ne'
    have hs : sin φ ^ 2 = 1 := by have := sin_sq_add_cos_sq φ; rw [hc0] at this; linarith
    have hY' : ry + (rx - ry) / (2 + √2) = sin φ * ry := by linarith
    have h22 : 0 < 2 + √2 := by positivity
    rcases mul_eq_zero.1 (show (sin φ - 1) * (sin φ + 1) = 0 by linear_combination hs) with h | h
    · have hs1 : sin φ = 1 := by linarith
      have h0 : (rx - ry) / (2 + √2) = 0 := by rw [hs1] at hY'; linarith
      rcases div_eq_zero_iff.1 h0 with h | h
      · exact hne (by linarith)
      · exact h22.ne' h
    · have hs1 : sin φ = -1 := by linarith
      have h0 : (rx - ry) / (2 + √2) = -2 * ry := by rw [hs1] at hY'; linarith
      rw [div_eq_iff h22.ne'] at h0
      nlinarith

example : ∃ C p, ellipseArc (1 / 100) (0 : ℂ) 2 Complex.I (π / 4) (3 * π / 4) = .ok C ∧ C.pointAt (1 / 100) (π / 2) = .ok p ∧
    ∀ φ : ℝ, p ≠ 0 + (cos φ • 2 + sin φ • Complex.I) :=
  C59_ellipse_arc_wrong (by norm_num) (by norm_num) 0 (by norm_num) (by simp) (by simp [Complex.inner]) (by simp)

end Curvo.Props

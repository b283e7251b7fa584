/-
  Property theorems about normalisation, transformation, dimension elevation, weights and sampling:
  C14, C15, C16, C60, C61.
-/
import Mathlib.Algebra.Module.LinearMap.Basic
import Mathlib.Algebra.Field.Rat
import Mathlib.Algebra.BigOperators.GroupWithZero.Action
import Mathlib.Tactic.Abel
import Mathlib.LinearAlgebra.Prod
import Verif.Props.Curve

set_option linter.unusedSectionVars false

namespace Curvo

deriving instance DecidableEq for Except

namespace Curve

variable {K : Type} [Field K] [LinearOrder K]
variable {V V' : Type} [AddCommGroup V] [Module K V] [AddCommGroup V'] [Module K V']

/-- apply a map to the control points -/
def mapCps (L : V → V') (c : Curve K V) : Curve K V' :=
  { degree := c.degree, cps := c.cps.map L, knots := c.knots }

theorem sumPoints_map (L : V →ₗ[K] V') (cps : List V) (basis : List K) (off p : ℕ) :
    sumPoints (cps.map L) basis off p = (sumPoints cps basis off p).map L := by
  unfold sumPoints
  suffices h : ∀ (l : List ℕ) (a : V),
      l.foldlM (fun (acc : V') i => do
        let c ← getR (cps.map L) (off + i)
        let b ← getR basis i
        pure (acc + b • c)) (L a) =
      Except.map L (l.foldlM (fun (acc : V) i => do
        let c ← getR cps (off + i)
        let b ← getR basis i
        pure (acc + b • c)) a) by
    have := h (List.range (p + 1)) 0
    rwa [map_zero] at this
  intro l
  induction l with
  | nil => intro a; rfl
  | cons i l ih =>
    intro a
    rw [List.foldlM_cons, List.foldlM_cons]
    have e1 : getR (cps.map L) (off + i) = (getR cps (off + i)).map L := by
      unfold getR
      rw [List.getElem?_map]
      cases cps[off + i]? <;> rfl
    rw [e1]
    cases getR cps (off + i) with
    | error e => rfl
    | ok c =>
      cases getR basis i with
      | error e => rfl
      | ok b =>
        simp only [Except.map, ok_bind, pure_eq_ok]
        rw [← map_smul, ← map_add]
        exact ih (a + b • c)

/-- Evaluation commutes with linear maps of the control points, for every curve and parameter. -/
theorem point_mapCps (L : V →ₗ[K] V') (eps : K) (c : Curve K V) (u : K) :
    (c.mapCps L).point eps u = (c.point eps u).map L := by
  have e1 : (c.mapCps L).lastIndex = c.lastIndex := rfl
  have e2 : (c.mapCps L).knots = c.knots := rfl
  have e3 : (c.mapCps L).degree = c.degree := rfl
  have e4 : (c.mapCps L).cps = c.cps.map L := rfl
  unfold point
  rw [e1, e2, e3, e4]
  cases c.lastIndex with
  | error e => rfl
  | ok n =>
    simp only [ok_bind]
    cases Knots.findKnotSpanIndex eps c.knots n c.degree u with
    | error e => rfl
    | ok s =>
      simp only [ok_bind]
      cases Knots.basisFunctions c.knots s u c.degree with
      | error e => rfl
      | ok b =>
        simp only [ok_bind]
        cases subR s c.degree with
        | error e => rfl
        | ok off => simp only [ok_bind]; exact sumPoints_map L _ _ _ _

end Curve

namespace Props

open Curvo.Knots Curvo.Spec Curvo.Curve

section noorder
variable {K : Type} [Field K] [LinearOrder K]
variable {V W : Type} [AddCommGroup V] [Module K V] [AddCommGroup W] [Module K W]

/-! ### C16 -/

/-- The elevated curve evaluates, at every parameter, to the original point with a zero coordinate
    added (including all failures); degree, knots and weights are unchanged. -/
theorem C16_elevate_dimension (eps : K) (c : Curve K (W × K)) (u : K) :
    c.elevateDimension.pointAt eps u = (c.pointAt eps u).map (fun q => (q, (0 : K))) ∧
    c.elevateDimension.degree = c.degree ∧ c.elevateDimension.knots = c.knots ∧
    c.elevateDimension.weights = c.weights := by
  refine ⟨?_, rfl, rfl, by simp [weights, elevateDimension]⟩
  let L : (W × K) →ₗ[K] ((W × K) × K) :=
    { toFun := fun p => ((p.1, 0), p.2)
      map_add' := by intro x y; simp
      map_smul' := by intro a x; simp }
  have h := point_mapCps L eps c u
  have e : c.elevateDimension = c.mapCps L := rfl
  unfold pointAt
  rw [e, h]
  cases c.point eps u with
  | error e => rfl
  | ok p =>
    simp only [Except.map, ok_bind]
    have e5 : L p = ((p.1, 0), p.2) := rfl
    rw [e5]
    unfold dehomogenize
    by_cases hp : p.2 = 0 <;> simp [hp, unwrapR]

example : exCurve.elevateDimension.pointAt (1/1000) (5/2) =
    (exCurve.pointAt (1/1000) (5/2)).map (fun q => (q, 0)) :=
  (C16_elevate_dimension _ _ _).1

/-! ### C60 -/

/-- A common non zero factor on all homogeneous control points changes no point. -/
theorem C60_weights_up_to_scale (eps : K) (c : Curve K (W × K)) (u : K) {lam : K} (hl : lam ≠ 0) :
    (c.mapCps (fun p => lam • p)).pointAt eps u = c.pointAt eps u := by
  let L : (W × K) →ₗ[K] (W × K) := lam • LinearMap.id
  have h := point_mapCps L eps c u
  have e : c.mapCps (fun p => lam • p) = c.mapCps L := rfl
  unfold pointAt
  rw [e, h]
  cases c.point eps u with
  | error e => rfl
  | ok p =>
    simp only [Except.map, ok_bind]
    have e5 : L p = (lam • p.1, lam * p.2) := rfl
    rw [e5]
    unfold dehomogenize
    by_cases hp : p.2 = 0
    · simp [hp, unwrapR]
    · simp only [ne_eq, mul_eq_zero, hl, hp, or_self, not_false_eq_true, if_true]
      rw [smul_smul, mul_inv_rev, mul_assoc, inv_mul_cancel₀ hl, mul_one]

example : (exCurve.mapCps (fun p => (7 : ℚ) • p)).pointAt (1/1000) (5/2) =
    exCurve.pointAt (1/1000) (5/2) := C60_weights_up_to_scale _ _ _ (by norm_num)

/-! ### C15 -/

/-- An affine matrix (last row `0 … 0 d`): transforming the control points transforms every
    evaluated point, for every parameter, whatever the (non zero) weights. -/
theorem C15_transform_affine (eps : K) (m : Matrix4 K W) (hc : m.c = 0) (hd : m.d ≠ 0)
    (c : Curve K (W × K)) (hw : ∀ p ∈ c.cps, p.2 ≠ 0) :
    ∃ c', c.transform m = .ok c' ∧ c'.degree = c.degree ∧ c'.knots = c.knots ∧
      c'.weights = c.weights ∧
      ∀ u, c'.pointAt eps u = (c.pointAt eps u).map fun q => m.d⁻¹ • (m.A q + m.b) := by
  let L : (W × K) →ₗ[K] (W × K) :=
    { toFun := fun p => (m.d⁻¹ • (m.A p.1 + p.2 • m.b), p.2)
      map_add' := by
        intro x y
        ext
        · simp only [Prod.fst_add, Prod.snd_add, map_add, add_smul, smul_add]; abel
        · simp
      map_smul' := by
        intro a x
        ext
        · simp only [Prod.smul_fst, Prod.smul_snd, map_smul, smul_add, RingHom.id_apply, smul_eq_mul,
            mul_smul]
          rw [smul_comm m.d⁻¹ a, smul_comm m.d⁻¹ a]
        · simp }
  have hL : ∀ p ∈ c.cps, transformPoint m p = .ok (L p) := by
    intro p hp
    have hp2 := hw p hp
    rw [transformPoint, divR_eq_ok hp2]
    simp only [ok_bind, Matrix4.apply, hc, LinearMap.zero_apply, zero_add, one_mul]
    rw [divR_eq_ok hd]
    simp only [ok_bind, pure_eq_ok, one_smul, one_div, map_smul]
    congr 1
    apply Prod.ext
    · show p.2 • m.d⁻¹ • (p.2⁻¹ • m.A p.1 + m.b) = m.d⁻¹ • (m.A p.1 + p.2 • m.b)
      rw [smul_comm, smul_add, smul_smul, mul_inv_cancel₀ hp2, one_smul]
    · rfl
  refine ⟨c.mapCps L, ?_, rfl, rfl, ?_, ?_⟩
  · rw [transform, mapM_ok hL]; rfl
  · simp only [weights, mapCps, List.map_map]
    apply List.map_congr_left
    intro p _; rfl
  · intro u
    have h := point_mapCps L eps c u
    unfold pointAt
    rw [h]
    cases c.point eps u with
    | error e => rfl
    | ok p =>
      simp only [Except.map, ok_bind]
      have e5 : L p = (m.d⁻¹ • (m.A p.1 + p.2 • m.b), p.2) := rfl
      rw [e5]
      unfold dehomogenize
      by_cases hp : p.2 = 0
      · simp [hp, unwrapR]
      · simp only [ne_eq, hp, not_false_eq_true, if_true, unwrapR, map_smul]
        congr 1
        rw [smul_comm, smul_add, smul_smul, inv_mul_cancel₀ hp, one_smul]

/-- A straight line over ℚ and a projective matrix `x ↦ x / (x + 1)`. -/
def exLine : Curve ℚ (ℚ × ℚ) := { degree := 1, cps := [(0, 1), (1, 1)], knots := [0, 0, 1, 1] }

/-- see `exLine` -/
def exProj : Matrix4 ℚ ℚ := { A := LinearMap.id, b := 0, c := LinearMap.id, d := 1 }

/-- For a projective matrix the claim is false: the transformed line at `1/2` is `1/4`, while the image
    of the line's point `1/2` is `1/3`. -/
theorem C15_projective_false :
    ∃ c', exLine.transform exProj = .ok c' ∧ c'.pointAt (1/1000) (1/2) = .ok (1/4) ∧
      exLine.pointAt (1/1000) (1/2) = .ok (1/2) ∧
      (exProj.apply (1/2, 1)).1 / (exProj.apply (1/2, 1)).2 = 1/3 := by
  refine ⟨{ degree := 1, cps := [(0, 1), (1/2, 1)], knots := [0, 0, 1, 1] }, ?_, ?_, ?_, ?_⟩
  · have : exLine.cps.mapM (transformPoint exProj) = .ok [(0, 1), (1/2, 1)] := by decide +kernel
    rw [transform, this]; rfl
  · decide +kernel
  · decide +kernel
  · norm_num [exProj, Matrix4.apply]

/-- a rotation by 90° with a translation, and scaling of the last row -/
def exAffine : Matrix4 ℚ (ℚ × ℚ) :=
  { A := (LinearMap.snd ℚ ℚ ℚ).prod (-(LinearMap.fst ℚ ℚ ℚ)), b := (3, 4), c := 0, d := 2 }

example : ∃ c', exCurve.transform exAffine = .ok c' ∧
    ∀ u, c'.pointAt (1/1000) u =
      (exCurve.pointAt (1/1000) u).map fun q => exAffine.d⁻¹ • (exAffine.A q + exAffine.b) := by
  obtain ⟨c', h1, _, _, _, h2⟩ := C15_transform_affine (1/1000) exAffine rfl (by norm_num [exAffine]) exCurve
    (fun p hp => (exCurve_weights p hp).ne')
  exact ⟨c', h1, h2⟩

/-! ### C61 -/

/-- The `i`-th sample lies at the `i`-th equally spaced parameter; the first sample is at `start` and
    the last at `stop`. -/
theorem C61_samples [CharZero K] {eps : K} {c : Curve K (W × K)} {start stop : K} {n : ℕ} (hn : 2 ≤ n) {r : List W}
    (h : c.sampleRegularRange eps start stop n = .ok r) :
    r.length = n ∧
    (∀ i (hi : i < r.length), c.pointAt eps (start + i * ((stop - start) / ((n : K) - 1))) = .ok r[i]) ∧
    (∀ hi : 0 < r.length, c.pointAt eps start = .ok r[0]) ∧
    (∀ hi : n - 1 < r.length, c.pointAt eps stop = .ok r[n - 1]) := by
  have hden : ((n : K) - 1) ≠ 0 := by
    rw [sub_ne_zero]
    intro h1
    have : n = 1 := by exact_mod_cast h1
    omega
  have h' := mapM_ok_inv h
  have hlen : r.length = n := by simpa using h'.length_eq.symm
  have key : ∀ i (hi : i < r.length),
      c.pointAt eps (start + i * ((stop - start) / ((n : K) - 1))) = .ok r[i] := by
    intro i hi
    have := List.Forall₂.get h' (i := i) (by simpa using (by omega : i < n)) hi
    simpa [divR_eq_ok hden] using this
  refine ⟨hlen, key, fun hi => ?_, fun hi => ?_⟩
  · have := key 0 hi; simpa using this
  · have := key (n - 1) hi
    have hc : ((n - 1 : ℕ) : K) = (n : K) - 1 := by
      rw [Nat.cast_sub (by omega)]; simp
    rw [hc, mul_div_cancel₀ _ hden] at this
    simpa using this

/-- No samples: nothing. One sample: zero divided by zero. -/
theorem C61_degenerate (eps : K) (c : Curve K (W × K)) (start stop : K) :
    c.sampleRegularRange eps start stop 0 = .ok [] ∧
    c.sampleRegularRange eps start stop 1 = .error .nonfinite := by
  constructor
  · rfl
  · simp [sampleRegularRange, divR]

end noorder

variable {K : Type} [Field K] [LinearOrder K] [IsStrictOrderedRing K]
variable {V W : Type} [AddCommGroup V] [Module K V] [AddCommGroup W] [Module K W]

/-- On a good curve with positive weights sampling inside the domain succeeds. -/
theorem C61_samples_succeed {eps : K} {c : Curve K (W × K)} (h : c.Good eps) (hw : ∀ p ∈ c.cps, 0 < p.2)
    {start stop : K} (h1 : c.lo ≤ start) (h2 : start ≤ stop) (h3 : stop ≤ c.hi) {n : ℕ} (hn : 2 ≤ n) :
    ∃ r, c.sampleRegularRange eps start stop n = .ok r := by
  have hn' : (2 : K) ≤ n := by exact_mod_cast hn
  have hden : (0 : K) < (n : K) - 1 := by linarith
  refine ⟨_, mapM_ok (g := fun i : ℕ => proj (c.eval (start + (i : K) * ((stop - start) / ((n : K) - 1))))) ?_⟩
  intro i hi
  have hi' := List.mem_range.1 hi
  rw [divR_eq_ok hden.ne', ok_bind]
  have hi2 : (i : K) ≤ (n : K) - 1 := by
    have : (i : K) + 1 ≤ n := by exact_mod_cast hi'
    linarith
  have hstep : 0 ≤ (stop - start) / ((n : K) - 1) := div_nonneg (by linarith) hden.le
  have hup : (i : K) * ((stop - start) / ((n : K) - 1)) ≤ stop - start := by
    calc (i : K) * ((stop - start) / ((n : K) - 1)) ≤ ((n : K) - 1) * ((stop - start) / ((n : K) - 1)) :=
          mul_le_mul_of_nonneg_right hi2 hstep
      _ = stop - start := mul_div_cancel₀ _ hden.ne'
  have hlow : 0 ≤ (i : K) * ((stop - start) / ((n : K) - 1)) := mul_nonneg (Nat.cast_nonneg _) hstep
  exact (C09_point_at_positive_weights h hw (by linarith) (by linarith)).1

example : ∃ r, exCurve.sampleRegularRange (1/1000) 1 3 7 = .ok r ∧ r.length = 7 := by
  obtain ⟨r, hr⟩ := C61_samples_succeed exCurve_good exCurve_weights (start := 1) (stop := 3)
    (by rw [exCurve_lo]; norm_num) (by norm_num) (by rw [exCurve_hi]) (n := 7) (by norm_num)
  exact ⟨r, hr, (C61_samples (by norm_num) hr).1⟩

/-- With equal weights the curve is the polynomial B-spline of the affine points. -/
theorem C60_equal_weights {eps w : K} (hw : w ≠ 0) {degree : ℕ} {knots : List K} {pts : List W}
    (h : ({ degree := degree, cps := pts, knots := knots } : Curve K W).Good eps) {u : K}
    (h1 : ({ degree := degree, cps := pts, knots := knots } : Curve K W).lo ≤ u)
    (h2 : u ≤ ({ degree := degree, cps := pts, knots := knots } : Curve K W).hi) :
    ({ degree := degree, cps := pts.map (fun q => (w • q, w)), knots := knots } : Curve K (W × K)).pointAt eps u
      = ({ degree := degree, cps := pts, knots := knots } : Curve K W).point eps u := by
  generalize hc : ({ degree := degree, cps := pts, knots := knots } : Curve K W) = c at h h1 h2
  generalize hc2 : ({ degree := degree, cps := pts.map (fun q => (w • q, w)), knots := knots } :
    Curve K (W × K)) = c2
  have hlen : c2.cps.length = c.cps.length := by rw [← hc2, ← hc]; simp
  have hk : c2.knots = c.knots := by rw [← hc2, ← hc]
  have hd : c2.degree = c.degree := by rw [← hc2, ← hc]
  have hg : c2.Good eps := by
    constructor
    · rw [hlen]; exact h.cps_pos
    · rw [hlen, hk, hd]; exact h.knots_len
    · rw [hlen, hk, hd]; exact h.good
  have hhi : c2.hi = c.hi := by rw [hi, hi, hlen, hk]
  obtain ⟨s, _, hps, hsn, hin⟩ := h.exists_span h1 h2
  have hpos := h.cps_pos
  have e1 : c2.eval u = (w • c.eval u, w) := by
    rw [eval_eq_span hg (s := s) (by rw [hd]; exact hps) (by rw [hlen]; exact hsn) (by rw [hk, hhi]; exact hin),
      eval_eq_span h hps hsn hin, hd, hk]
    have hsum := NS_sum_eq_one (k := kf c.knots) u c.degree hps
      (fun i j hi hj hj' => ne_across h.good.mono (inSpan_lt hin) i j hi hj (by have := h.knots_len; omega))
    have hpt : ∀ r ∈ Finset.range (c.degree + 1),
        NS (kf c.knots) s c.degree (s - c.degree + r) u • c2.cps.getD (s - c.degree + r) 0 =
        (w • NS (kf c.knots) s c.degree (s - c.degree + r) u • c.cps.getD (s - c.degree + r) 0,
          NS (kf c.knots) s c.degree (s - c.degree + r) u * w) := by
      intro r hr
      have hr' := Finset.mem_range.1 hr
      have hlt : s - c.degree + r < c.cps.length := by omega
      have : c2.cps.getD (s - c.degree + r) 0 = (w • c.cps.getD (s - c.degree + r) 0, w) := by
        have hcp : c.cps = pts := by rw [← hc]
        have hcp2 : c2.cps = pts.map (fun q => (w • q, w)) := by rw [← hc2]
        rw [hcp] at hlt
        rw [hcp, hcp2, List.getD_eq_getElem?_getD, List.getD_eq_getElem?_getD, List.getElem?_map,
          List.getElem?_eq_getElem hlt]
        rfl
      rw [this]
      simp only [Prod.smul_mk, smul_eq_mul]
      rw [smul_comm]
    rw [Finset.sum_congr rfl hpt]
    apply Prod.ext
    · rw [Prod.fst_sum, Finset.smul_sum]
    · rw [Prod.snd_sum]
      simp only
      rw [← Finset.sum_mul, hsum, one_mul]
  rw [C09_point_at hg (by rw [lo, hk, hd]; exact h1) (by rw [hhi]; exact h2), e1, point_eq_eval h h1 h2]
  simp only [hw, if_false]
  rw [smul_smul, inv_mul_cancel₀ hw, one_smul]

/-! ### C14 -/

theorem knotsDomain_eq {eps : K} {c : Curve K V} (h : c.Good eps) :
    c.knotsDomain = .ok (c.lo, c.hi) := by
  have := h.knots_len
  have := h.cps_pos
  rw [knotsDomain, domain, getR_kf (by omega), ok_bind, subR_eq_ok (by omega), ok_bind,
    subR_eq_ok (by omega), ok_bind, getR_kf (by omega), ok_bind]
  have e : c.knots.length - 1 - c.degree = c.cps.length := by omega
  rw [e]; rfl

theorem kf_map {ks : List K} (f : K → K) {j : ℕ} (hj : j < ks.length) : kf (ks.map f) j = f (kf ks j) := by
  rw [kf_eq (by simpa using hj), kf_eq hj]; simp

/-- Normalising gives a curve on `[0, 1]` with the same points at the rescaled parameters. The
    tolerance condition says that the first and last span stay longer than `eps`. -/
theorem C14_normalize {eps : K} {c : Curve K V} (h : c.Good eps)
    (hg1 : eps * (c.hi - c.lo) ≤ kf c.knots (c.degree + 1) - c.lo)
    (hg2 : eps * (c.hi - c.lo) ≤ c.hi - kf c.knots (c.cps.length - 1)) :
    ∃ c', c.normalizeKnots = .ok c' ∧ c'.Good eps ∧ c'.lo = 0 ∧ c'.hi = 1 ∧
      ∀ u, c.lo ≤ u → u ≤ c.hi → c'.point eps ((u - c.lo) / (c.hi - c.lo)) = c.point eps u := by
  have hpos := h.cps_pos
  have hkl := h.knots_len
  have hle := h.good.le
  have hsz : 0 < c.hi - c.lo := by
    have h1 := h.good.first
    have h2 : kf c.knots (c.degree + 1) ≤ c.hi := by
      rw [← hi_eq h]; exact h.good.mono _ _ (by omega) (by omega)
    have : c.lo < c.hi := lt_of_lt_of_le h1 h2
    linarith
  let f : K → K := fun x => (x - c.lo) / (c.hi - c.lo)
  have hf : ∀ x, f x = (c.hi - c.lo)⁻¹ * x + (-(c.lo / (c.hi - c.lo))) := by
    intro x; simp only [f]; field_simp; ring
  have hfm : ∀ x y, x ≤ y → f x ≤ f y := fun x y hxy => by
    simp only [f]; exact div_le_div_of_nonneg_right (by linarith) hsz.le
  have hfs : ∀ x y, x < y → f x < f y := fun x y hxy => by
    simp only [f]; exact div_lt_div_of_pos_right (by linarith) hsz
  have hfg : ∀ x y, eps * (c.hi - c.lo) ≤ y - x → f x + eps ≤ f y := fun x y hxy => by
    simp only [f]
    rw [← le_sub_iff_add_le', ← sub_div, le_div_iff₀ hsz]
    linarith
  have hflo : f c.lo = 0 := by simp [f]
  have hfhi : f c.hi = 1 := by simp only [f]; exact div_self hsz.ne'
  obtain ⟨c', hc'⟩ : ∃ c', c' = ({ c with knots := c.knots.map f } : Curve K V) := ⟨_, rfl⟩
  have hk : ∀ j, j < c.knots.length → kf c'.knots j = f (kf c.knots j) := by
    intro j hj; rw [hc']; exact kf_map f hj
  have hd : c'.degree = c.degree := by rw [hc']
  have hcp : c'.cps = c.cps := by rw [hc']
  have hlo : c'.lo = 0 := by rw [lo, hd, hk _ (by omega)]; exact hflo
  have hhi : c'.hi = 1 := by rw [hi, hcp, hk _ (by omega)]; exact hfhi
  have hg : c'.Good eps := by
    refine ⟨by rw [hcp]; exact hpos, by rw [hcp, hd, hc']; simpa using hkl, ?_⟩
    rw [hcp, hd]
    refine ⟨h.good.eps_nonneg, hle, ?_, ?_, ?_, ?_, ?_⟩
    · intro i j hij hj
      rw [hk _ (by omega), hk _ (by omega)]
      exact hfm _ _ (h.good.mono i j hij hj)
    · rw [hk _ (by omega), hk _ (by omega)]; exact hfs _ _ h.good.first
    · rw [hk _ (by omega), hk _ (by omega)]; exact hfs _ _ h.good.last
    · rw [hk _ (by omega), hk _ (by omega)]; exact hfg _ _ hg1
    · rw [hk _ (by omega), hk _ (by omega)]; exact hfg _ _ (by rw [hi_eq h]; exact hg2)
  refine ⟨c', ?_, hg, hlo, hhi, ?_⟩
  · rw [normalizeKnots, knotsDomain_eq h, ok_bind, mapM_ok (g := f) (fun x _ => divR_eq_ok hsz.ne'),
      hc']
    rfl
  · intro u h1 h2
    have hfu : (u - c.lo) / (c.hi - c.lo) = f u := rfl
    rw [hfu, point_eq_eval h h1 h2, point_eq_eval hg (by rw [hlo, ← hflo]; exact hfm _ _ h1)
      (by rw [hhi, ← hfhi]; exact hfm _ _ h2)]
    obtain ⟨s, _, hps, hsn, hin⟩ := h.exists_span h1 h2
    have hin' : InSpan (kf c'.knots) c'.hi (f u) s := by
      unfold InSpan at hin ⊢
      rw [hk _ (by omega), hk _ (by omega), hhi]
      by_cases hu : u = c.hi
      · rw [if_pos hu] at hin
        rw [if_pos (by rw [hu, hfhi])]
        exact ⟨hfs _ _ hin.1, hfm _ _ hin.2⟩
      · rw [if_neg hu] at hin
        rw [if_neg (by rw [← hfhi]; exact (hfs _ _ (lt_of_le_of_ne h2 hu)).ne)]
        exact ⟨hfm _ _ hin.1, hfs _ _ hin.2⟩
    rw [eval_eq_NS h hsn hin, eval_eq_NS hg (s := s) (by rw [hcp]; exact hsn) hin', hcp, hd]
    congr 1
    apply Finset.sum_congr rfl
    intro i hi
    have := Finset.mem_range.1 hi
    rw [NS_congr (k := kf c'.knots) (k' := fun j => (c.hi - c.lo)⁻¹ * kf c.knots j + (-(c.lo / (c.hi - c.lo))))
      _ _ (fun j _ hj => by rw [hk _ (by omega), hf]), hf u, NS_affine (inv_ne_zero hsz.ne')]

/-- A curve whose domain is a single value divides by zero. -/
theorem C14_degenerate_domain {c : Curve K V} {a : K} (hd : c.knotsDomain = .ok (a, a)) :
    c.normalizeKnots = .error .nonfinite := by
  have hne : c.knots ≠ [] := by
    intro he
    rw [knotsDomain, domain, he] at hd
    simp [getR] at hd
  rw [normalizeKnots, hd]
  simp only [ok_bind, sub_self]
  rw [mapM_error (e := .nonfinite) hne (fun x _ => by simp [divR])]
  rfl

example : ∃ c', exCurve.normalizeKnots = .ok c' ∧ c'.point (1/1000) ((5/2 - exCurve.lo) / (exCurve.hi - exCurve.lo)) =
    exCurve.point (1/1000) (5/2) := by
  obtain ⟨c', h1, _, _, _, h2⟩ := C14_normalize exCurve_good
    (by rw [exCurve_lo, exCurve_hi]; norm_num [exCurve, kf, exKnots])
    (by rw [exCurve_lo, exCurve_hi]; norm_num [exCurve, kf, exKnots])
  exact ⟨c', h1, h2 _ (by rw [exCurve_lo]; norm_num) (by rw [exCurve_hi]; norm_num)⟩

end Props

end Curvo

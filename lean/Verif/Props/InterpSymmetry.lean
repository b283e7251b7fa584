/-
  Property theorems about the symmetries of interpolation: C102.
-/
import Verif.Props.LoftWeights

set_option linter.unusedSectionVars false
set_option linter.unusedSimpArgs false

namespace Curvo.Props

open Curvo Curvo.Knots Curvo.Spec Curvo.Interp Curvo.Loft

variable {K : Type} [Field K] [LinearOrder K] [IsStrictOrderedRing K] {W : Type} [AddCommGroup W] [Module K W]
  {W' : Type} [AddCommGroup W'] [Module K W']

/-- Points far enough apart for `find_knot_span_index` (the hypotheses of C35 and C90). -/
structure PointsApart (eps : K) (dist : W → W → K) (pts : List W) : Prop where
  tol : 0 ≤ eps
  pos : ∀ i, i + 1 < pts.length → 0 < dist (pts.getD i 0) (pts.getD (i + 1) 0)
  first : eps ≤ chordParam dist pts 1
  last : chordParam dist pts (pts.length - 2) + eps ≤ 1

/-- What C90 says, with the knots written out. -/
theorem interp_ready {eps : K} {dist : W → W → K} {solve : List (List K) → List W → Option (List W)} {pts : List W} {p : ℕ}
    (hs : SolverSound solve) (hc : SolverRegular solve) (hp : 1 ≤ p) (hn : p + 1 ≤ pts.length) (ha : PointsApart eps dist pts) :
    ∃ c, tryInterpolate eps dist solve pts p = .ok c ∧ c.Good eps ∧ c.lo = 0 ∧ c.hi = 1 ∧ c.degree = p ∧
      c.cps.length = pts.length ∧ c.knots = vec (pts.length + p + 1) (interpKnot dist pts p) ∧ (∀ q ∈ c.cps, q.2 = 1) ∧
      (∀ i, i < pts.length → c.pointAt eps (chordParam dist pts i) = .ok (pts.getD i 0)) ∧
      ∀ c' : Curve K (W × K), c'.degree = p → c'.knots = c.knots → c'.cps.length = pts.length → (∀ q ∈ c'.cps, q.2 = 1) →
        (∀ i, i < pts.length → c'.pointAt eps (chordParam dist pts i) = .ok (pts.getD i 0)) → c' = c := by
  obtain ⟨c, h1, h2, h3, h4, h5, h6⟩ := C90_exists_unique hs hc hp hn ha.tol ha.pos ha.first ha.last
  obtain ⟨d1, d2, -, d4, -⟩ := C35_passes_through hs h1
  refine ⟨c, h1, h2, h3, h4, d1, d2, ?_, d4, h5, h6⟩
  obtain ⟨ks, hks, -, -, -, hcp⟩ := controlPoints_eq (eps := eps) hp hn ha.tol ha.pos ha.first ha.last
  rw [tryInterpolate, hcp] at h1
  split at h1
  · cases h1
  · rw [← Except.ok.inj h1, ← hks]

/-- An affine map, acting on homogeneous points. -/
def affHom (L : W →ₗ[K] W') (t : W') : (W × K) →ₗ[K] (W' × K) where
  toFun q := (L q.1 + q.2 • t, q.2)
  map_add' x y := by
    refine Prod.ext ?_ rfl
    simp only [Prod.fst_add, Prod.snd_add, map_add, add_smul]; abel
  map_smul' a x := by
    refine Prod.ext ?_ rfl
    simp only [Prod.smul_fst, Prod.smul_snd, map_smul, smul_add, RingHom.id_apply, smul_eq_mul, mul_smul]

/-- Mapping the control points maps the curve. -/
theorem pointAt_affine (L : W →ₗ[K] W') (t : W') (eps : K) (c : Curve K (W × K)) (u : K) :
    (c.mapCps (affHom L t)).pointAt eps u = (c.pointAt eps u).map fun x => L x + t := by
  have h := Curve.point_mapCps (affHom L t) eps c u
  unfold Curve.pointAt
  rw [h]
  cases c.point eps u with
  | error e => rfl
  | ok p =>
    simp only [Except.map, ok_bind]
    have e5 : affHom L t p = (L p.1 + p.2 • t, p.2) := rfl
    rw [e5]
    unfold Curve.dehomogenize
    by_cases hp : p.2 = 0
    · simp [hp, unwrapR]
    · simp only [ne_eq, hp, not_false_eq_true, if_true, unwrapR]
      simp [smul_smul, inv_mul_cancel₀ hp]

theorem chordLength_similar {dist : W → W → K} {dist' : W' → W' → K} {pts : List W} {f : W → W'} {s : K}
    (hf : ∀ a ∈ pts, ∀ b ∈ pts, dist' (f a) (f b) = s * dist a b) {i : ℕ} (hi : i < pts.length) :
    chordLength dist' (pts.map f) i = s * chordLength dist pts i := by
  rw [chordLength, chordLength, Finset.mul_sum]
  refine Finset.sum_congr rfl fun j hj => ?_
  have hj := Finset.mem_range.1 hj
  have e : ∀ k, k < pts.length → (pts.map f).getD k 0 = f (pts.getD k 0) := fun k hk => by
    simp [List.getD_eq_getElem?_getD, List.getElem?_eq_getElem hk]
  have m : ∀ k, k < pts.length → pts.getD k 0 ∈ pts := fun k hk => by
    rw [List.getD_eq_getElem?_getD, List.getElem?_eq_getElem hk]; exact List.getElem_mem _
  rw [e _ (by omega), e _ (by omega), hf _ (m _ (by omega)) _ (m _ (by omega))]

theorem chordParam_similar {dist : W → W → K} {dist' : W' → W' → K} {pts : List W} {f : W → W'} {s : K} (hs : s ≠ 0)
    (hf : ∀ a ∈ pts, ∀ b ∈ pts, dist' (f a) (f b) = s * dist a b) {i : ℕ} (hi : i < pts.length) :
    chordParam dist' (pts.map f) i = chordParam dist pts i := by
  rw [chordParam, chordParam, List.length_map, chordLength_similar hf hi, chordLength_similar hf (by omega),
    mul_div_mul_left _ _ hs]

theorem interpKnot_similar {dist : W → W → K} {dist' : W' → W' → K} {pts : List W} {f : W → W'} {s : K} (hs : s ≠ 0)
    (hf : ∀ a ∈ pts, ∀ b ∈ pts, dist' (f a) (f b) = s * dist a b) {p i : ℕ} (hn : p + 1 ≤ pts.length) :
    interpKnot dist' (pts.map f) p i = interpKnot dist pts p i := by
  rw [interpKnot, interpKnot, List.length_map]
  split
  · rfl
  · split
    · rw [avgParam, avgParam]
      congr 1
      exact Finset.sum_congr rfl fun j hj => chordParam_similar hs hf (by have := Finset.mem_range.1 hj; omega)
    · rfl

theorem PointsApart.map {eps : K} {dist : W → W → K} {dist' : W' → W' → K} {pts : List W} {f : W → W'} {s : K} (hs : 0 < s)
    (hf : ∀ a ∈ pts, ∀ b ∈ pts, dist' (f a) (f b) = s * dist a b) (hn : 2 ≤ pts.length) (ha : PointsApart eps dist pts) :
    PointsApart eps dist' (pts.map f) := by
  refine ⟨ha.tol, fun i hi => ?_, ?_, ?_⟩
  · rw [List.length_map] at hi
    have e : ∀ k, k < pts.length → (pts.map f).getD k 0 = f (pts.getD k 0) := fun k hk => by
      simp [List.getD_eq_getElem?_getD, List.getElem?_eq_getElem hk]
    have m : ∀ k, k < pts.length → pts.getD k 0 ∈ pts := fun k hk => by
      rw [List.getD_eq_getElem?_getD, List.getElem?_eq_getElem hk]; exact List.getElem_mem _
    rw [e _ (by omega), e _ (by omega), hf _ (m _ (by omega)) _ (m _ (by omega))]
    exact mul_pos hs (ha.pos i hi)
  · rw [chordParam_similar hs.ne' hf (by omega)]; exact ha.first
  · rw [List.length_map, chordParam_similar hs.ne' hf (by omega)]; exact ha.last

/-- **C102, similarities**: an affine map that scales all distances between the points by one factor (rotations, translations,
    reflections, uniform scaling, embedding the plane in space) commutes with the interpolation. -/
theorem C102_similarity {eps : K} {dist : W → W → K} {dist' : W' → W' → K}
    {solve : List (List K) → List W → Option (List W)} {solve' : List (List K) → List W' → Option (List W')} {pts : List W} {p : ℕ}
    (hs : SolverSound solve) (hc : SolverRegular solve) (hs' : SolverSound solve') (hc' : SolverRegular solve')
    (hp : 1 ≤ p) (hn : p + 1 ≤ pts.length) (ha : PointsApart eps dist pts) (L : W →ₗ[K] W') (t : W') {s : K} (hs0 : 0 < s)
    (hf : ∀ a ∈ pts, ∀ b ∈ pts, dist' (L a + t) (L b + t) = s * dist a b) :
    ∃ c c', tryInterpolate eps dist solve pts p = .ok c ∧
      tryInterpolate eps dist' solve' (pts.map fun x => L x + t) p = .ok c' ∧ c'.degree = c.degree ∧ c'.knots = c.knots ∧
      c'.cps = c.cps.map (fun q => (L q.1 + q.2 • t, q.2)) ∧
      ∀ u, c'.pointAt eps u = (c.pointAt eps u).map fun x => L x + t := by
  obtain ⟨c, h1, h2, h3, h4, h5, h6, h7, h8, h9, -⟩ := interp_ready hs hc hp hn ha
  obtain ⟨c', g1, g2, g3, g4, g5, g6, g7, g8, g9, g10⟩ := interp_ready (p := p) hs' hc' hp (by simpa using hn)
    (ha.map (f := fun x => L x + t) hs0 hf (by omega))
  have hk : c'.knots = c.knots := by
    rw [g7, h7, List.length_map]
    refine List.map_congr_left fun i _ => interpKnot_similar hs0.ne' hf hn
  have e : c.mapCps (affHom L t) = c' := by
    refine g10 _ h5 hk.symm (by simpa [Curve.mapCps] using h6) ?_ fun i hi => ?_
    · intro q hq
      obtain ⟨r, hr, rfl⟩ := List.mem_map.1 hq
      exact h8 r hr
    · have hi' : i < pts.length := by simpa using hi
      rw [chordParam_similar hs0.ne' hf hi', pointAt_affine, h9 i hi']
      simp [Except.map, List.getD_eq_getElem?_getD, List.getElem?_eq_getElem hi']
  refine ⟨c, c', h1, g1, by rw [g5, h5], hk, by rw [← e]; rfl, fun u => by rw [← e]; exact pointAt_affine L t eps c u⟩

/-! ### Reversal -/

theorem chordLength_reverse {dist : W → W → K} (hsymm : ∀ a b, dist a b = dist b a) {pts : List W} {i : ℕ} (hi : i < pts.length) :
    chordLength dist pts.reverse i = chordLength dist pts (pts.length - 1) - chordLength dist pts (pts.length - 1 - i) := by
  induction i with
  | zero => simp [chordLength]
  | succ i ih =>
    have e : ∀ k, k < pts.length → pts.reverse.getD k 0 = pts.getD (pts.length - 1 - k) 0 := fun k hk => by
      simp [List.getD_eq_getElem?_getD, List.getElem?_reverse hk]
    have h1 : chordLength dist pts.reverse (i + 1) = chordLength dist pts.reverse i +
        dist (pts.getD (pts.length - 1 - i) 0) (pts.getD (pts.length - 1 - (i + 1)) 0) := by
      rw [chordLength, Finset.sum_range_succ, e _ (by omega), e _ (by omega)]; rfl
    have h2 : chordLength dist pts (pts.length - 1 - i) = chordLength dist pts (pts.length - 1 - (i + 1)) +
        dist (pts.getD (pts.length - 1 - (i + 1)) 0) (pts.getD (pts.length - 1 - i) 0) := by
      obtain ⟨m, hm⟩ : ∃ m, m = pts.length - 1 - (i + 1) := ⟨_, rfl⟩
      rw [← hm, show pts.length - 1 - i = m + 1 by omega, chordLength, Finset.sum_range_succ]; rfl
    rw [h1, ih (by omega), h2, hsymm (pts.getD (pts.length - 1 - i) 0)]
    ring

theorem chordParam_reverse {dist : W → W → K} (hsymm : ∀ a b, dist a b = dist b a) {pts : List W}
    (hd : ∀ i, i + 1 < pts.length → 0 < dist (pts.getD i 0) (pts.getD (i + 1) 0)) (hn : 2 ≤ pts.length) {i : ℕ}
    (hi : i < pts.length) : chordParam dist pts.reverse i = 1 - chordParam dist pts (pts.length - 1 - i) := by
  have h0 : (0 : K) < chordLength dist pts (pts.length - 1) := by
    have := chordLength_strict hd (i := 0) (j := pts.length - 1) (by omega) (by omega)
    simpa [chordLength] using this
  have z : chordLength dist pts 0 = 0 := by simp [chordLength]
  rw [chordParam, chordParam, List.length_reverse, chordLength_reverse hsymm hi, chordLength_reverse hsymm (by omega),
    Nat.sub_self, z, sub_zero, sub_div, div_self h0.ne']

theorem interpKnot_reverse {dist : W → W → K} (hsymm : ∀ a b, dist a b = dist b a) {pts : List W} {p : ℕ} (hp : 1 ≤ p)
    (hd : ∀ i, i + 1 < pts.length → 0 < dist (pts.getD i 0) (pts.getD (i + 1) 0)) (hn : p + 1 ≤ pts.length) {i : ℕ}
    (hi : i < pts.length + p + 1) : interpKnot dist pts.reverse p i = 1 - interpKnot dist pts p (pts.length + p - i) := by
  have hp' : (p : K) ≠ 0 := by exact_mod_cast (show p ≠ 0 by omega)
  rw [interpKnot, interpKnot, List.length_reverse]
  by_cases a : i ≤ p
  · rw [if_pos a, if_neg (by omega), if_neg (by omega), sub_self]
  · by_cases b : i < pts.length
    · rw [if_neg a, if_pos b, if_neg (by omega), if_pos (by omega), avgParam, avgParam, eq_sub_iff_add_eq, ← add_div,
        ← Finset.sum_range_reflect (fun j => chordParam dist pts _), ← Finset.sum_add_distrib, div_eq_one_iff_eq hp']
      refine (Finset.sum_congr rfl fun j hj => ?_).trans (Finset.sum_const _ |>.trans (by simp)) (b := ∑ j ∈ Finset.range p, (1 : K))
      have hj := Finset.mem_range.1 hj
      rw [chordParam_reverse hsymm hd (by omega) (by omega), show pts.length - 1 - (i - p + j) =
        pts.length + p - i - p + (p - 1 - j) by omega]
      ring
    · rw [if_neg a, if_neg b, if_pos (by omega), sub_zero]

/-- **C102, reversal**: interpolating the points in reverse order gives the inverted curve. -/
theorem C102_reverse {eps : K} {dist : W → W → K} (hsymm : ∀ a b, dist a b = dist b a)
    {solve : List (List K) → List W → Option (List W)} {pts : List W} {p : ℕ} (hs : SolverSound solve) (hc : SolverRegular solve)
    (hp : 1 ≤ p) (hn : p + 1 ≤ pts.length) (ha : PointsApart eps dist pts) :
    ∃ c c', tryInterpolate eps dist solve pts p = .ok c ∧ tryInterpolate eps dist solve pts.reverse p = .ok c' ∧
      c.invert = .ok c' := by
  have hpar := fun {i : ℕ} (hi : i < pts.length) => chordParam_reverse hsymm ha.pos (by omega : 2 ≤ pts.length) hi
  have hr : PointsApart eps dist pts.reverse := by
    refine ⟨ha.tol, fun i hi => ?_, ?_, ?_⟩
    · rw [List.length_reverse] at hi
      have e : ∀ k, k < pts.length → pts.reverse.getD k 0 = pts.getD (pts.length - 1 - k) 0 := fun k hk => by
        simp [List.getD_eq_getElem?_getD, List.getElem?_reverse hk]
      have := ha.pos (pts.length - 1 - (i + 1)) (by omega)
      rw [show pts.length - 1 - (i + 1) + 1 = pts.length - 1 - i by omega] at this
      rw [e _ (by omega), e _ (by omega), hsymm]; exact this
    · rw [hpar (by omega), show pts.length - 1 - 1 = pts.length - 2 by omega]
      linarith [ha.last]
    · rw [List.length_reverse, hpar (by omega), show pts.length - 1 - (pts.length - 2) = 1 by omega]
      linarith [ha.first]
  obtain ⟨c, h1, h2, h3, h4, h5, h6, h7, h8, h9, -⟩ := interp_ready hs hc hp hn ha
  obtain ⟨c', g1, g2, g3, g4, g5, g6, g7, g8, g9, g10⟩ := interp_ready (p := p) hs hc hp (by simpa using hn) hr
  have hkl : c.knots.length = pts.length + p + 1 := by rw [h7, vec_length]
  have hkf : ∀ i, i < pts.length + p + 1 → kf c.knots i = interpKnot dist pts p i := fun i hi => by rw [h7, kf_vec hi]
  have hcont : ContKnots (kf c.knots) c.degree (c.cps.length - 1) := by
    intro i i1 i2
    rw [h5, h6] at *
    rw [hkf _ (by omega), hkf _ (by omega), interpKnot, interpKnot, if_neg (by omega), if_pos (by omega), if_neg (by omega),
      if_pos (by omega), avgParam, avgParam, div_lt_div_iff_of_pos_right (by exact_mod_cast hp)]
    exact Finset.sum_lt_sum_of_nonempty ⟨0, Finset.mem_range.2 hp⟩ fun j hj =>
      chordParam_strict ha.pos (by omega) (by have := Finset.mem_range.1 hj; omega)
  obtain ⟨ci, e1, e2, e3, e4, e5, e6⟩ := C13_invert_reverses h2 hcont
  have m1 : kf c.knots 0 + kf c.knots (c.knots.length - 1) = 1 := by
    rw [hkl, hkf _ (by omega), hkf _ (by omega), interpKnot, interpKnot, if_pos (by omega), if_neg (by omega), if_neg (by omega),
      zero_add]
  have hci := e1
  rw [Curve.invert, bind_eq_ok] at hci
  obtain ⟨ks', hk1, hk2⟩ := hci
  obtain rfl := Except.ok.inj hk2
  obtain ⟨hlen, hidx⟩ := C07_invert_index hk1
  refine ⟨c, c', h1, g1, ?_⟩
  rw [e1]
  congr 1
  refine g10 _ h5 ?_ (by simpa using h6) (fun q hq => h8 q (List.mem_reverse.1 hq)) fun i hi => ?_
  · rw [g7]
    refine List.ext_getElem (by rw [hlen, hkl, vec_length, List.length_reverse]) fun i i1 i2 => ?_
    have hi : i < c.knots.length := by rw [← hlen]; exact i1
    have := hidx i hi
    rw [m1, hkl, show pts.length + p + 1 - 1 - i = pts.length + p - i by omega, hkf _ (by omega),
      ← interpKnot_reverse hsymm hp ha.pos hn (by omega), kf, List.getD_eq_getElem?_getD, List.getElem?_eq_getElem i1] at this
    simpa [vec] using this
  · have hi' : i < pts.length := by simpa using hi
    obtain ⟨z0, z1⟩ := chordParam_ends ha.pos (by omega)
    have t1 : c.lo ≤ chordParam dist pts (pts.length - 1 - i) := by rw [h3, ← z0]; exact chordParam_le ha.pos (by omega) (by omega)
    have t2 : chordParam dist pts (pts.length - 1 - i) ≤ c.hi := by rw [h4, ← z1]; exact chordParam_le ha.pos (by omega) (by omega)
    have := e6 _ t1 t2
    rw [m1] at this
    rw [hpar hi', Curve.pointAt, this]
    have := h9 (pts.length - 1 - i) (by omega)
    rw [Curve.pointAt] at this
    rw [this]
    simp [List.getD_eq_getElem?_getD, List.getElem?_reverse hi']

/-! ### Planar data -/

/-- **C102, planar data**: points on a line or in a plane (in general: on which an affine function is constant) give a curve there. -/
theorem C102_planar {eps : K} {dist : W → W → K} {solve : List (List K) → List W → Option (List W)} {pts : List W} {p : ℕ}
    (hs : SolverSound solve) (hp : 1 ≤ p) (hn : p + 1 ≤ pts.length) (ha : PointsApart eps dist pts) {c : Curve K (W × K)}
    (h : tryInterpolate eps dist solve pts p = .ok c) (φ : W →ₗ[K] W') (a : W') (hφ : ∀ x ∈ pts, φ x = a) :
    (∀ q ∈ c.cps, φ q.1 = a) ∧ ∀ u x, c.pointAt eps u = .ok x → c.lo ≤ u → u ≤ c.hi → φ x = a := by
  obtain ⟨d1, d2, -, d4, -⟩ := C35_passes_through hs h
  obtain ⟨ks, hks, hg', k0, k1, hcp⟩ := controlPoints_eq (eps := eps) hp hn ha.tol ha.pos ha.first ha.last
  have hkl : ks.length = pts.length + p + 1 := by rw [hks, vec_length]
  obtain ⟨A, hAdef⟩ : ∃ A, A = mat pts.length pts.length fun i j => N (interpKnot dist pts p) 1 p j (chordParam dist pts i) := ⟨_, rfl⟩
  rw [← hAdef] at hcp
  have hA : A.length = pts.length := by rw [hAdef]; simp [mat, vec]
  have hrows : ∀ row ∈ A, row.length = pts.length := by
    intro row hr
    rw [hAdef] at hr
    simp only [mat, vec, List.mem_map] at hr
    obtain ⟨_, _, rfl⟩ := hr
    simp
  have hent : ∀ (i j : ℕ), i < pts.length → j < pts.length →
      (A.getD i []).getD j 0 = N (interpKnot dist pts p) 1 p j (chordParam dist pts i) := by
    intro i j hi hj
    rw [hAdef]
    simp [mat, vec, List.getD_eq_getElem?_getD, List.getElem?_range hi, List.getElem?_range hj]
  have hdet : (rowsMatrix pts.length A).det ≠ 0 := by
    have := collocation_det (dist := dist) hp hn ha.pos
    convert this using 2
    ext i j
    exact hent i j i.2 j.2
  rw [tryInterpolate, hcp] at h
  cases hx : solve A pts with
  | none => rw [hx] at h; cases h
  | some x =>
    rw [hx] at h
    have hc : c = ⟨p, x.map Curve.homogenize, ks⟩ := (Except.ok.inj h).symm
    have hsx := hs A pts x hA hrows hx
    have hcg : c.Good eps := by
      refine ⟨by omega, by rw [d1, d2, hc]; exact hkl, ?_⟩
      rw [d1, d2, hc]; exact hg'
    have hlo : c.lo = 0 := by rw [Curve.lo, d1, hc]; exact k0
    have hhi : c.hi = 1 := by
      rw [Curve.hi, d2, hc, ← k1]
      show kf ks _ = _
      congr 1; omega
    obtain ⟨z0, z1⟩ := chordParam_ends ha.pos (by omega)
    have hsum : ∀ i, i < pts.length → ((Finset.range pts.length).sum fun j => (A.getD i []).getD j 0) = 1 := by
      intro i hi
      have t1 : c.lo ≤ chordParam dist pts i := by rw [hlo, ← z0]; exact chordParam_le ha.pos (by omega) (by omega)
      have t2 : chordParam dist pts i ≤ c.hi := by rw [hhi, ← z1]; exact chordParam_le ha.pos (by omega) (by omega)
      have := basis_sum hcg t1 t2
      rw [d2, hhi, d1] at this
      rw [← this]
      refine Finset.sum_congr rfl fun j hj => ?_
      have hj := Finset.mem_range.1 hj
      rw [hent i j hi hj]
      refine N_congr _ _ fun l _ hl => ?_
      rw [hc]
      show _ = kf ks l
      rw [hks, kf_vec (by omega)]
    have s1 : Solves A (pts.map φ) (x.map φ) := by
      refine ⟨by simpa using hsx.1, fun i hi => ?_⟩
      rw [List.length_map] at hi ⊢
      have hxl := hsx.1
      have e : ∀ (l : List W) k, k < l.length → (l.map φ).getD k 0 = φ (l.getD k 0) := fun l k hk => by
        simp [List.getD_eq_getElem?_getD, List.getElem?_eq_getElem hk]
      rw [e pts i hi, ← hsx.2 i hi, map_sum]
      refine Finset.sum_congr rfl fun j hj => ?_
      rw [e x j (by have := Finset.mem_range.1 hj; omega), map_smul]
    have s2 : Solves A (pts.map φ) (List.replicate pts.length a) := by
      refine ⟨by simp, fun i hi => ?_⟩
      rw [List.length_map] at hi ⊢
      have e : (pts.map φ).getD i 0 = a := by
        simp only [List.getD_eq_getElem?_getD, List.getElem?_map, List.getElem?_eq_getElem hi, Option.map_some, Option.getD_some]
        exact hφ _ (List.getElem_mem _)
      have o : ∀ j, j < pts.length → (List.replicate pts.length a).getD j 0 = a := fun j hj => by
        rw [List.getD_eq_getElem?_getD, List.getElem?_replicate, if_pos hj]; rfl
      rw [e, Finset.sum_congr rfl fun j hj => by rw [o j (Finset.mem_range.1 hj)], ← Finset.sum_smul, hsum i hi, one_smul]
    have hx' := (exists_unique_solves (b := pts.map φ) (by rw [List.length_map]; exact hdet)).2 _ _ s1 s2
    have hq : ∀ q ∈ c.cps, φ q.1 = a := by
      intro q hq
      rw [hc] at hq
      obtain ⟨y, hy, rfl⟩ := List.mem_map.1 hq
      have : φ y ∈ x.map φ := List.mem_map_of_mem hy
      rw [hx'] at this
      exact List.eq_of_mem_replicate this
    refine ⟨hq, fun u y hy u1 u2 => ?_⟩
    have hpos : ∀ q ∈ c.cps, (0 : K) < q.2 := fun q hq => by rw [d4 q hq]; exact one_pos
    rw [(C09_point_at_positive_weights hcg hpos u1 u2).1] at hy
    rw [← Except.ok.inj hy, map_smul]
    have ev : ∀ ψ : (W × K) →ₗ[K] W', ψ (c.eval u) = (Finset.range c.cps.length).sum fun j =>
        N (kf c.knots) c.hi c.degree j u • ψ (c.cps.getD j 0) := fun ψ => by
      rw [Surface.curve_eval_eq hcg.cps_pos, map_sum]
      exact Finset.sum_congr rfl fun j _ => by rw [map_smul]
    have w1 : (c.eval u).2 = 1 := by
      rw [Surface.curve_eval_eq hcg.cps_pos, Prod.snd_sum, ← basis_sum hcg u1 u2]
      refine Finset.sum_congr rfl fun j hj => ?_
      have hm : c.cps.getD j 0 ∈ c.cps := by
        rw [List.getD_eq_getElem?_getD, List.getElem?_eq_getElem (Finset.mem_range.1 hj)]; exact List.getElem_mem _
      rw [Prod.smul_snd, d4 _ hm, smul_eq_mul, mul_one]
    rw [w1, inv_one, one_smul]
    refine (ev (φ ∘ₗ LinearMap.fst K W K)).trans ?_
    have hs : ((Finset.range c.cps.length).sum fun j =>
        N (kf c.knots) c.hi c.degree j u • (φ ∘ₗ LinearMap.fst K W K) (c.cps.getD j 0)) =
        (Finset.range c.cps.length).sum fun j => N (kf c.knots) c.hi c.degree j u • a := by
      refine Finset.sum_congr rfl fun j hj => ?_
      have hm : c.cps.getD j 0 ∈ c.cps := by
        rw [List.getD_eq_getElem?_getD, List.getElem?_eq_getElem (Finset.mem_range.1 hj)]; exact List.getElem_mem _
      show _ • φ (c.cps.getD j 0).1 = _
      rw [hq _ hm]
    rw [hs, ← Finset.sum_smul, basis_sum hcg u1 u2, one_smul]

/-! ### Concrete cases -/

theorem exData_apart : PointsApart (1/1000) axisDist exData := by
  refine ⟨by norm_num, fun i hi => ?_, by decide +kernel, by decide +kernel⟩
  have : ∀ i, i < 3 → 0 < axisDist (exData.getD i 0) (exData.getD (i + 1) 0) := by decide +kernel
  exact this i (by have : exData.length = 4 := rfl; omega)

/-- A quarter turn, doubling the distances, and a translation, applied to four points. -/
def exTurn : (ℚ × ℚ) →ₗ[ℚ] (ℚ × ℚ) where
  toFun x := (-(2 * x.2), 2 * x.1)
  map_add' x y := by ext <;> simp <;> ring
  map_smul' a x := by ext <;> simp <;> ring

example : ∃ c c', tryInterpolate (1/1000) axisDist idealSolver exData 2 = .ok c ∧
    tryInterpolate (1/1000) axisDist idealSolver (exData.map fun x => exTurn x + (5, 7)) 2 = .ok c' ∧ c'.knots = c.knots ∧
    ∀ u, c'.pointAt (1/1000) u = (c.pointAt (1/1000) u).map fun x => exTurn x + (5, 7) := by
  obtain ⟨c, c', h1, h2, -, h3, -, h4⟩ := C102_similarity (dist' := axisDist) idealSolver_sound idealSolver_regular idealSolver_sound
    idealSolver_regular (p := 2) (by omega) (by decide) exData_apart exTurn (5, 7) (s := 2) (by norm_num) (by decide +kernel)
  exact ⟨c, c', h1, h2, h3, h4⟩

/-- The same points in the opposite order. -/
example : ∃ c c', tryInterpolate (1/1000) axisDist idealSolver exData 2 = .ok c ∧
    tryInterpolate (1/1000) axisDist idealSolver exData.reverse 2 = .ok c' ∧ c.invert = .ok c' :=
  C102_reverse (fun a b => by simp only [axisDist]; rw [abs_sub_comm, abs_sub_comm a.2]) idealSolver_sound idealSolver_regular
    (by omega) (by decide) exData_apart

end Curvo.Props

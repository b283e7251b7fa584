/-
  Property theorems about the symmetries of lofting: C102.
-/
import Verif.Props.InterpSymmetry
import Verif.Lemmas.SurfNat

set_option linter.unusedSectionVars false
set_option linter.unusedSimpArgs false

namespace Curvo.Props

open Curvo Curvo.Knots Curvo.Spec Curvo.Interp Curvo.Loft Curvo.Frame

section
variable {K : Type} [Field K] [LinearOrder K] [IsStrictOrderedRing K] {V : Type} [AddCommGroup V] [Module K V]
  {V' : Type} [AddCommGroup V'] [Module K V']

theorem columnPoints_map (L : V →ₗ[K] V') (us : List (Curve K V)) (i : ℕ) :
    columnPoints (us.map (Curve.mapCps L)) i = (columnPoints us i).map L := by
  simp only [columnPoints, List.map_map]
  refine List.map_congr_left fun c _ => ?_
  simp only [Function.comp, Curve.mapCps, List.getD_eq_getElem?_getD, List.getElem?_map]
  cases c.cps[i]? <;> simp

/-- A row of a loft solves the collocation system of its column. -/
theorem row_solves {eps : K} {dist : V → V → K} {solve : List (List K) → List V → Option (List V)}
    {us : List (Curve K V)} {p : ℕ} {ks : List K} {degreeV : Option ℕ} {S : Surface K V}
    (hs : SolverSound solve) (he : 0 ≤ eps) (hR : LoftReady eps dist us degreeV p ks)
    (h : loftSections eps dist solve us degreeV = .ok S) {i : ℕ} (hi : i < S.cps.length) :
    Solves (columnMatrix dist (columnPoints us i) (loftDegree us degreeV p)) (columnPoints us i) (S.row i).cps := by
  obtain ⟨c, c1, c2, c3, c4, c5, c6, c7, c8⟩ := loft_row hs he hR h hi
  have hl : (columnPoints us i).length = us.length := by simp [columnPoints]
  obtain ⟨hS, s1, s2, s3, s4, s5, s6, s7⟩ := C76_shape hs he hR h
  have hcd : c.degree = loftDegree us degreeV p := by rw [← c2]; exact s3
  refine ⟨by rw [c1, c4, hl], fun k hk => ?_⟩
  rw [hl] at hk ⊢
  rw [← c8 k hk, Surface.curve_eval_eq c3.cps_pos, c4]
  refine Finset.sum_congr rfl fun j hj => ?_
  have hj := Finset.mem_range.1 hj
  rw [c1]
  congr 1
  simp only [columnMatrix, List.getD_eq_getElem?_getD, List.getElem?_map, hl, List.getElem?_range hk,
    List.getElem?_range hj, Option.map_some, Option.getD_some]
  rw [c6, hcd]
  refine N_congr _ _ fun l _ hl' => ?_
  rw [c7, kf_vec (by omega)]

theorem columnMatrix_similar {dist : V → V → K} {dist' : V' → V' → K} {pts : List V} {f : V → V'} {s : K} (hs : s ≠ 0)
    (hf : ∀ a ∈ pts, ∀ b ∈ pts, dist' (f a) (f b) = s * dist a b) {q : ℕ} (hn : q + 1 ≤ pts.length) :
    columnMatrix dist' (pts.map f) q = columnMatrix dist pts q := by
  have e : interpKnot dist' (pts.map f) q = interpKnot dist pts q := funext fun i => interpKnot_similar hs hf hn
  simp only [columnMatrix, List.length_map, e]
  refine List.map_congr_left fun i hi => List.map_congr_left fun j _ => ?_
  rw [chordParam_similar hs hf (List.mem_range.1 hi)]

theorem LoftReady.map {eps : K} {dist : V → V → K} {dist' : V' → V' → K} {us : List (Curve K V)} {p : ℕ} {ks : List K}
    {degreeV : Option ℕ} (hR : LoftReady eps dist us degreeV p ks) (L : V →ₗ[K] V')
    (hf : ∀ i, i + p + 1 < ks.length → ∃ s : K, 0 < s ∧ ∀ a ∈ columnPoints us i, ∀ b ∈ columnPoints us i,
      dist' (L a) (L b) = s * dist a b) : LoftReady eps dist' (us.map (Curve.mapCps L)) degreeV p ks := by
  refine ⟨⟨fun c hc => ?_, fun c hc => ?_, fun c hc => ?_⟩, by simpa using hR.two, hR.degree, fun i hi => ?_⟩
  · obtain ⟨c, hc', rfl⟩ := List.mem_map.1 hc
    have hg := hR.unified.good c hc'
    exact ⟨by simpa [Curve.mapCps] using hg.cps_pos, by simpa [Curve.mapCps] using hg.knots_len, by
      simpa [Curve.mapCps] using hg.good⟩
  · obtain ⟨c, hc', rfl⟩ := List.mem_map.1 hc
    exact hR.unified.degree c hc'
  · obtain ⟨c, hc', rfl⟩ := List.mem_map.1 hc
    exact hR.unified.knots c hc'
  · obtain ⟨s, hs, hf⟩ := hf i hi
    have hsp := hR.spaced i hi
    have h2 : 2 ≤ (columnPoints us i).length := by simpa [columnPoints] using hR.two
    rw [columnPoints_map]
    refine ⟨fun k hk => ?_, ?_, ?_⟩
    · rw [List.length_map] at hk
      have e : ∀ k, k < (columnPoints us i).length → ((columnPoints us i).map L).getD k 0 = L ((columnPoints us i).getD k 0) :=
        fun k hk => by simp [List.getD_eq_getElem?_getD, List.getElem?_eq_getElem hk]
      have m : ∀ k, k < (columnPoints us i).length → (columnPoints us i).getD k 0 ∈ columnPoints us i := fun k hk => by
        rw [List.getD_eq_getElem?_getD, List.getElem?_eq_getElem hk]; exact List.getElem_mem _
      rw [e _ (by omega), e _ (by omega), hf _ (m _ (by omega)) _ (m _ (by omega))]
      exact mul_pos hs (hsp.pos k hk)
    · rw [chordParam_similar hs.ne' hf (by omega)]; exact hsp.first
    · rw [List.length_map, chordParam_similar hs.ne' hf (by omega)]; exact hsp.last

/-- **Lofting commutes with maps that scale the distances inside every column**: lofting the mapped sections gives the mapped surface. -/
theorem C102_loft_sections {eps : K} {dist : V → V → K} {dist' : V' → V' → K} {solve : List (List K) → List V → Option (List V)}
    {solve' : List (List K) → List V' → Option (List V')} {us : List (Curve K V)} {p : ℕ} {ks : List K} {degreeV : Option ℕ}
    {S : Surface K V} (hs : SolverSound solve) (hs' : SolverSound solve') (hc' : SolverRegular solve') (he : 0 ≤ eps)
    (hR : LoftReady eps dist us degreeV p ks) (L : V →ₗ[K] V')
    (hf : ∀ i, i + p + 1 < ks.length → ∃ s : K, 0 < s ∧ ∀ a ∈ columnPoints us i, ∀ b ∈ columnPoints us i,
      dist' (L a) (L b) = s * dist a b)
    (h : loftSections eps dist solve us degreeV = .ok S) :
    loftSections eps dist' solve' (us.map (Curve.mapCps L)) degreeV = .ok (mapNet L S) := by
  have hR' := hR.map L hf
  obtain ⟨S', h'⟩ := C90_loft hs' hc' he hR'
  rw [h']
  obtain ⟨hG, s1, s2, s3, s4, s5, s6, s7⟩ := C76_shape hs he hR h
  obtain ⟨hG', s1', s2', s3', s4', s5', s6', s7'⟩ := C76_shape hs' he hR' h'
  have hq : loftDegree (us.map (Curve.mapCps L)) degreeV p = loftDegree us degreeV p := by simp [loftDegree]
  have hn : S'.cps.length = S.cps.length := by omega
  have h2 := hR.two
  have hd := hR.degree
  have hcl : ∀ i, (columnPoints us i).length = us.length := fun i => by simp [columnPoints]
  have hvk : S'.vKnots = S.vKnots := by
    obtain ⟨s, hs0, hsf⟩ := hf (S.cps.length - 1) (by have := hG.rows_pos; omega)
    rw [loft_vKnots hs he hR h, loft_vKnots hs' he hR' h', hn, hq, columnPoints_map, List.length_map]
    congr 1
    exact funext fun i => interpKnot_similar hs0.ne' hsf (by rw [hcl]; simp only [loftDegree]; omega)
  have hrow : ∀ i, i < S.cps.length → (S'.row i).cps = (S.row i).cps.map L := by
    intro i hi
    obtain ⟨s, hs0, hsf⟩ := hf i (by omega)
    have a := row_solves hs he hR h hi
    have b := row_solves hs' he hR' h' (i := i) (by omega)
    rw [hq, columnPoints_map, columnMatrix_similar hs0.ne' hsf (by rw [hcl]; simp only [loftDegree]; omega)] at b
    have a' : Solves (columnMatrix dist (columnPoints us i) (loftDegree us degreeV p)) ((columnPoints us i).map L)
        ((S.row i).cps.map L) := by
      have a1 := a.1
      refine ⟨by simpa using a.1, fun k hk => ?_⟩
      rw [List.length_map] at hk ⊢
      have e : ∀ (l : List V) k, k < l.length → (l.map L).getD k 0 = L (l.getD k 0) := fun l k hk => by
        simp [List.getD_eq_getElem?_getD, List.getElem?_eq_getElem hk]
      rw [e _ k hk, ← a.2 k hk, map_sum]
      refine Finset.sum_congr rfl fun j hj => ?_
      rw [e _ j (by have := Finset.mem_range.1 hj; omega), map_smul]
    have hdet := collocation_det (dist := dist) (pts := columnPoints us i) (p := loftDegree us degreeV p)
      (by simp only [loftDegree]; omega) (by rw [hcl]; simp only [loftDegree]; omega) (hR.spaced i (by omega)).pos
    refine (exists_unique_solves (W := V') (b := (columnPoints us i).map L) ?_).2 _ _ b a'
    rw [List.length_map]
    convert hdet using 2
    ext i' j'
    simp [rowsMatrix, columnMatrix, List.getD_eq_getElem?_getD]
  have hcps : S'.cps = S.cps.map (List.map L) := by
    refine List.ext_getElem (by simpa using hn) fun i h1 h2 => ?_
    have h2' : i < S.cps.length := by simpa using h2
    have := hrow i h2'
    simp only [Surface.row, List.getD_eq_getElem?_getD, List.getElem?_eq_getElem h1, List.getElem?_eq_getElem h2',
      Option.getD_some] at this
    rw [this, List.getElem_map]
  obtain ⟨a1, a2, a3, a4, a5⟩ := S'
  simp only at s1' s2' s3' hvk hcps
  rw [mapNet, s1', s2', s3', hvk, hcps, s1, s2, s3]
  simp

/-- The same for sections that still have to be unified. -/
theorem C102_loft {eps : K} {dist : V → V → K} {dist' : V' → V' → K} {solve : List (List K) → List V → Option (List V)}
    {solve' : List (List K) → List V' → Option (List V')} {cs us : List (Curve K V)} {p : ℕ} {ks : List K} {degreeV : Option ℕ}
    {S : Surface K V} (hs : SolverSound solve) (hs' : SolverSound solve') (hc' : SolverRegular solve') (he : 0 ≤ eps)
    (hu : Curve.tryUnify eps cs = .ok us) (hR : LoftReady eps dist us degreeV p ks) (L : V →ₗ[K] V')
    (hf : ∀ i, i + p + 1 < ks.length → ∃ s : K, 0 < s ∧ ∀ a ∈ columnPoints us i, ∀ b ∈ columnPoints us i,
      dist' (L a) (L b) = s * dist a b)
    (h : tryLoft eps dist solve cs degreeV = .ok S) :
    tryLoft eps dist' solve' (cs.map (Curve.mapCps L)) degreeV = .ok (mapNet L S) := by
  rw [tryLoft, hu, ok_bind] at h
  rw [tryLoft, Curve.tryUnify_map, hu]
  exact C102_loft_sections hs hs' hc' he hR L hf h

end

/-! ### Similarities of space -/

/-- **C102**: sections whose weights agree from section to section; a rotation and scaling `R` followed by a translation `t`: lofting
    the moved sections gives the moved surface. -/
theorem C102_loft_similarity {eps : ℝ} {solve : List (List ℝ) → List (V3 × ℝ) → Option (List (V3 × ℝ))}
    {us : List (Curve ℝ (V3 × ℝ))} {p : ℕ} {ks : List ℝ} {degreeV : Option ℕ} {S : Surface ℝ (V3 × ℝ)}
    (hs : SolverSound solve) (hc : SolverRegular solve) (he : 0 ≤ eps) (hR : LoftReady eps homDist us degreeV p ks)
    (hw : ∀ c ∈ us, ∀ c' ∈ us, ∀ i, (c.cps.getD i 0).2 = (c'.cps.getD i 0).2)
    (R : V3 →ₗ[ℝ] V3) (t : V3) {s : ℝ} (hs0 : 0 < s) (hiso : ∀ x, R x ⬝ᵥ R x = s ^ 2 * (x ⬝ᵥ x))
    (h : loftSections eps homDist solve us degreeV = .ok S) :
    ∃ S', loftSections eps homDist solve (us.map (Curve.mapCps (affHom R t))) degreeV = .ok S' ∧
      S'.uKnots = S.uKnots ∧ S'.vKnots = S.vKnots ∧
      ∀ u v, S.ulo ≤ u → u ≤ S.uhi → 0 ≤ v → v ≤ 1 →
        S'.pointAt eps u v = (S.pointAt eps u v).map fun x => R x + t := by
  refine ⟨_, C102_loft_sections hs hs hc he hR (affHom R t) (fun i hi => ⟨s, hs0, fun a ha b hb => ?_⟩) h, rfl, rfl, ?_⟩
  · obtain ⟨c, hc1, rfl⟩ := List.mem_map.1 ha
    obtain ⟨c', hc2, rfl⟩ := List.mem_map.1 hb
    have e := hw c hc1 c' hc2 i
    simp only [homDist]
    generalize c.cps.getD i 0 = x at e ⊢
    generalize c'.cps.getD i 0 = y at e ⊢
    have e1 : (affHom R t y).1 - (affHom R t x).1 = R (y.1 - x.1) := by
      show (R y.1 + y.2 • t) - (R x.1 + x.2 • t) = _
      rw [e, map_sub]; abel
    have e2 : (affHom R t y).2 - (affHom R t x).2 = 0 := by
      show y.2 - x.2 = 0
      rw [e, sub_self]
    have e3 : y.2 - x.2 = 0 := by rw [e, sub_self]
    rw [e1, e2, hiso, e3, zero_pow two_ne_zero, add_zero, add_zero, Real.sqrt_mul (sq_nonneg s), Real.sqrt_sq hs0.le]
  · intro u v h1 h2 h3 h4
    obtain ⟨hG, s1, s2, s3, s4, s5, s6, s7⟩ := C76_shape hs he hR h
    have hg := mapNet_good hG (affHom R t)
    have hh : (mapNet (affHom R t) S).uhi = S.uhi := by simp [Surface.uhi, mapNet]
    rw [Surface.pointAt, Surface.pointAt, Surface.point_eq_eval hG h1 h2 (by rw [s4]; exact h3) (by rw [s5]; exact h4),
      Surface.point_eq_eval hg h1 (by rw [hh]; exact h2) (by show S.vlo ≤ v; rw [s4]; exact h3)
        (by show v ≤ S.vhi; rw [s5]; exact h4), mapNet_eval hG, ok_bind, ok_bind]
    have e5 : affHom R t (S.eval u v) = (R (S.eval u v).1 + (S.eval u v).2 • t, (S.eval u v).2) := rfl
    rw [e5]
    unfold Curve.dehomogenize
    by_cases hp : (S.eval u v).2 = 0
    · simp [hp, unwrapR, Except.map]
    · simp [hp, unwrapR, Except.map, smul_smul]

/-! ### Weights that differ from section to section -/

/-- Three segments. The weights of their second end points are one, two and one. -/
noncomputable def exTwisted : List (Curve ℝ (V3 × ℝ)) :=
  [⟨1, [(![0, 1, 0], 1), (![0, 0, 0], 1)], [0, 0, 1, 1]⟩, ⟨1, [(![1, 1, 0], 1), (![3/4, 0, 0], 2)], [0, 0, 1, 1]⟩,
   ⟨1, [(![2, 1, 0], 1), (![25/12, 0, 0], 1)], [0, 0, 1, 1]⟩]

/-- The same segments, translated. -/
noncomputable def exTwisted' : List (Curve ℝ (V3 × ℝ)) := exTwisted.map (Curve.mapCps (affHom LinearMap.id ![7/12, 0, 0]))

theorem exTwisted'_eq : exTwisted' =
  [⟨1, [(![7/12, 1, 0], 1), (![7/12, 0, 0], 1)], [0, 0, 1, 1]⟩, ⟨1, [(![19/12, 1, 0], 1), (![23/12, 0, 0], 2)], [0, 0, 1, 1]⟩,
   ⟨1, [(![31/12, 1, 0], 1), (![8/3, 0, 0], 1)], [0, 0, 1, 1]⟩] := by
  simp [exTwisted', exTwisted, Curve.mapCps, affHom]
  norm_num

theorem segment_good {a b : V3 × ℝ} : (⟨1, [a, b], [0, 0, 1, 1]⟩ : Curve ℝ (V3 × ℝ)).Good (1/1000) where
  cps_pos := by simp
  knots_len := by simp
  good := by
    refine ⟨by norm_num, by simp, ?_, ?_, ?_, ?_, ?_⟩
    · exact mono_of_sorted (by norm_num) (by simp)
    all_goals norm_num [kf]

theorem homDist_of {a b : V3 × ℝ} {d : ℝ} (hd : 0 ≤ d) (h : (b.1 - a.1) ⬝ᵥ (b.1 - a.1) + (b.2 - a.2) ^ 2 = d ^ 2) : homDist a b = d := by
  rw [homDist, h, Real.sqrt_sq hd]

/-- Three segments whose columns have the chord lengths `d` and `e`. -/
theorem three_ready {a0 b0 a1 b1 a2 b2 : V3 × ℝ} {d e : ℝ} (ha1 : homDist a0 a1 = 1) (ha2 : homDist a1 a2 = 1)
    (hb1 : homDist b0 b1 = d) (hb2 : homDist b1 b2 = e) (hd : 1 ≤ d) (he : 1 ≤ e) (hd' : d ≤ 2) (he' : e ≤ 2) :
    LoftReady (1/1000) homDist [⟨1, [a0, b0], [0, 0, 1, 1]⟩, ⟨1, [a1, b1], [0, 0, 1, 1]⟩, ⟨1, [a2, b2], [0, 0, 1, 1]⟩] (some 1) 1
      [0, 0, 1, 1] := by
  refine ⟨⟨fun c hc => ?_, fun c hc => ?_, fun c hc => ?_⟩, by simp, by simp, fun i hi => ?_⟩
  · simp only [List.mem_cons, List.not_mem_nil, or_false] at hc
    rcases hc with rfl | rfl | rfl <;> exact segment_good
  · simp only [List.mem_cons, List.not_mem_nil, or_false] at hc
    rcases hc with rfl | rfl | rfl <;> rfl
  · simp only [List.mem_cons, List.not_mem_nil, or_false] at hc
    rcases hc with rfl | rfl | rfl <;> rfl
  · have hi : i < 2 := by simp at hi; omega
    have key : ∀ (x y z : V3 × ℝ) (d e : ℝ), homDist x y = d → homDist y z = e → 1 ≤ d → 1 ≤ e → d ≤ 2 → e ≤ 2 →
        Spaced (1/1000) homDist [x, y, z] := by
      intro x y z d e h1 h2 hd he hd' he'
      have hp : chordParam homDist [x, y, z] 1 = d / (d + e) := by
        simp [chordParam, chordLength, Finset.sum_range_succ, h1, h2]
      refine ⟨fun k hk => ?_, ?_, ?_⟩
      · have : k = 0 ∨ k = 1 := by simp at hk; omega
        rcases this with rfl | rfl
        · simp [h1]; linarith
        · simp [h2]; linarith
      · rw [hp, le_div_iff₀ (by linarith)]; linarith
      · rw [show [x, y, z].length - 2 = 1 from rfl, hp, ← le_sub_iff_add_le, div_le_iff₀ (by linarith)]; linarith
    have : i = 0 ∨ i = 1 := by omega
    rcases this with rfl | rfl
    · simpa [columnPoints] using key a0 a1 a2 1 1 ha1 ha2 (by norm_num) (by norm_num) (by norm_num) (by norm_num)
    · simpa [columnPoints] using key b0 b1 b2 d e hb1 hb2 hd he hd' he'

/-- The loft of three such segments. -/
theorem three_loft {a0 b0 a1 b1 a2 b2 : V3 × ℝ} {d e : ℝ} (ha1 : homDist a0 a1 = 1) (ha2 : homDist a1 a2 = 1)
    (hb1 : homDist b0 b1 = d) (hb2 : homDist b1 b2 = e) (hd : 1 ≤ d) (he : 1 ≤ e) (hd' : d ≤ 2) (he' : e ≤ 2) :
    ∃ S, loftSections (1/1000) homDist idealSolver
        [⟨1, [a0, b0], [0, 0, 1, 1]⟩, ⟨1, [a1, b1], [0, 0, 1, 1]⟩, ⟨1, [a2, b2], [0, 0, 1, 1]⟩] (some 1) = .ok S ∧
      ∀ v, 0 ≤ v → v ≤ d / (d + e) → ∀ x, Curve.dehomogenize ((1 - v / (d / (d + e))) • b0 + (v / (d / (d + e))) • b1) = some x →
        S.pointAt (1/1000) 1 v = .ok x := by
  have hR := three_ready ha1 ha2 hb1 hb2 hd he hd' he'
  have h0 : (0 : ℝ) ≤ 1/1000 := by norm_num
  obtain ⟨S, h⟩ := C90_loft idealSolver_sound idealSolver_regular h0 hR
  refine ⟨S, h, fun v hv1 hv2 x hx => ?_⟩
  obtain ⟨hG, s1, s2, s3, s4, s5, s6, s7⟩ := C76_shape idealSolver_sound h0 hR h
  have hn : S.cps.length = 2 := by simp at s7; omega
  have hq : S.vDegree = 1 := by rw [s3]; simp
  have s6 : S.cols = 3 := s6
  have hp : chordParam homDist [b0, b1, b2] 1 = d / (d + e) := by
    simp [chordParam, chordLength, Finset.sum_range_succ, hb1, hb2]
  obtain ⟨m, hm⟩ : ∃ m, m = d / (d + e) := ⟨_, rfl⟩
  have hm0 : 0 < m := by rw [hm]; positivity
  have hm1 : m < 1 := by rw [hm, div_lt_one (by linarith)]; linarith
  rw [← hm] at hp hv2 hx
  have hvk : S.vKnots = [0, 0, m, 1, 1] := by
    rw [loft_vKnots idealSolver_sound h0 hR h, hn]
    have hcp : columnPoints [⟨1, [a0, b0], [0, 0, 1, 1]⟩, ⟨1, [a1, b1], [0, 0, 1, 1]⟩, (⟨1, [a2, b2], [0, 0, 1, 1]⟩ : Curve ℝ (V3 × ℝ))]
        (2 - 1) = [b0, b1, b2] := by simp [columnPoints]
    rw [hcp]
    have hk : ∀ i, interpKnot homDist [b0, b1, b2] 1 i = if i ≤ 1 then 0 else if i < 3 then chordParam homDist [b0, b1, b2] (i - 1) else 1 := by
      intro i
      simp [interpKnot, avgParam]
    simp [vec, loftDegree, List.range_succ, hk, hp]
  have hulo : S.ulo = 0 := by rw [Surface.ulo, s1, s2]; norm_num [kf]
  have huhi : S.uhi = 1 := by rw [Surface.uhi, hn, s2]; norm_num [kf]
  have hlin := fun i j hi hj => C101_linear (i := i) (j := j) idealSolver_sound h0 hR h (by simp) hi hj
  have c10 : S.cp 1 0 = b0 := by rw [hlin 1 0 (by omega) (by simp)]; rfl
  have c11 : S.cp 1 1 = b1 := by rw [hlin 1 1 (by omega) (by simp)]; rfl
  rw [Surface.pointAt, Surface.point_eq_eval hG (by rw [hulo]; norm_num) (by rw [huhi]) (by rw [s4]; exact hv1)
    (by rw [s5]; linarith), ok_bind, Surface.eval, hn, s6, s5, hq, hvk, huhi, s1, s2]
  have u0 : N (kf [0, 0, 1, 1]) 1 1 0 (1 : ℝ) = 0 := by norm_num [N, InSpan, kf]
  have u1 : N (kf [0, 0, 1, 1]) 1 1 1 (1 : ℝ) = 1 := by norm_num [N, InSpan, kf]
  have hv3 : v ≠ 1 := by linarith
  have i0 : ¬ InSpan (kf [0, 0, m, 1, 1]) 1 v 0 := by
    simp only [InSpan, if_neg hv3, kf, List.getD_cons_zero, List.getD_cons_succ]; intro h; linarith [h.1, h.2]
  have i3 : ¬ InSpan (kf [0, 0, m, 1, 1]) 1 v 3 := by
    simp only [InSpan, if_neg hv3, kf, List.getD_cons_zero, List.getD_cons_succ]; intro h; linarith [h.1, h.2]
  have hn' : N (kf [0, 0, m, 1, 1]) 1 1 0 v = 1 - v / m ∧ N (kf [0, 0, m, 1, 1]) 1 1 1 v = v / m ∧
      N (kf [0, 0, m, 1, 1]) 1 1 2 v = 0 := by
    have hm' : 1 - m ≠ 0 := by linarith
    have hm00 : m ≠ 0 := hm0.ne'
    rcases hv2.lt_or_eq with hlt | rfl
    · have i1 : InSpan (kf [0, 0, m, 1, 1]) 1 v 1 := by
        simp only [InSpan, if_neg hv3, kf, List.getD_cons_zero, List.getD_cons_succ]; exact ⟨hv1, hlt⟩
      have i2 : ¬ InSpan (kf [0, 0, m, 1, 1]) 1 v 2 := by
        simp only [InSpan, if_neg hv3, kf, List.getD_cons_zero, List.getD_cons_succ]; intro h; linarith [h.1, h.2]
      simp only [N, zero_add, Nat.reduceAdd, if_neg i0, if_pos i1, if_neg i2, if_neg i3]
      simp only [kf, List.getD_cons_zero, List.getD_cons_succ]
      refine ⟨by simp only [sub_zero]; field_simp <;> ring, by simp only [sub_zero]; field_simp <;> ring, by ring⟩
    · have i1 : ¬ InSpan (kf [0, 0, v, 1, 1]) 1 v 1 := by
        simp only [InSpan, if_neg hv3, kf, List.getD_cons_zero, List.getD_cons_succ]; intro h; linarith [h.1, h.2]
      have i2 : InSpan (kf [0, 0, v, 1, 1]) 1 v 2 := by
        simp only [InSpan, if_neg hv3, kf, List.getD_cons_zero, List.getD_cons_succ]; exact ⟨le_refl _, hm1⟩
      simp only [N, zero_add, Nat.reduceAdd, if_neg i0, if_neg i1, if_pos i2, if_neg i3]
      simp only [kf, List.getD_cons_zero, List.getD_cons_succ]
      refine ⟨by simp only [sub_zero]; field_simp <;> ring, by simp only [sub_zero]; field_simp <;> ring, by ring⟩
  obtain ⟨n0, n1, n2⟩ := hn'
  simp only [Finset.sum_range_succ, Finset.sum_range_zero, zero_add, u0, u1, n0, n1, n2, c10, c11, zero_smul, one_smul, zero_mul,
    one_mul, add_zero]
  rw [hx]; rfl

/-- **C102** (defect): the chord lengths are those of the homogeneous control points, so where the weights differ from section to
    section they depend on where the origin is. Translating these sections by `7/12` moves the point at `(1, 3/7)` of the loft from
    `3/8` to `19/21`, which is not `3/8 + 7/12`. -/
theorem C102_loft_translation : ∃ S S',
    loftSections (1/1000) homDist idealSolver exTwisted (some 1) = .ok S ∧
    loftSections (1/1000) homDist idealSolver (exTwisted.map (Curve.mapCps (affHom LinearMap.id ![7/12, 0, 0]))) (some 1) = .ok S' ∧
    S.pointAt (1/1000) 1 (3/7) = .ok ![3/8, 0, 0] ∧ S'.pointAt (1/1000) 1 (3/7) = .ok ![19/21, 0, 0] ∧
    S'.pointAt (1/1000) 1 (3/7) ≠ (S.pointAt (1/1000) 1 (3/7)).map fun x => x + ![7/12, 0, 0] := by
  obtain ⟨S, h, hp⟩ := three_loft (a0 := (![0, 1, 0], 1)) (b0 := (![0, 0, 0], 1)) (a1 := (![1, 1, 0], 1)) (b1 := (![3/4, 0, 0], 2))
    (a2 := (![2, 1, 0], 1)) (b2 := (![25/12, 0, 0], 1)) (d := 5/4) (e := 5/3)
    (homDist_of (by norm_num) (by norm_num [Matrix.vec3_dotProduct])) (homDist_of (by norm_num) (by norm_num [Matrix.vec3_dotProduct]))
    (homDist_of (by norm_num) (by norm_num [Matrix.vec3_dotProduct])) (homDist_of (by norm_num) (by norm_num [Matrix.vec3_dotProduct]))
    (by norm_num) (by norm_num) (by norm_num) (by norm_num)
  obtain ⟨S', h', hp'⟩ := three_loft (a0 := (![7/12, 1, 0], 1)) (b0 := (![7/12, 0, 0], 1)) (a1 := (![19/12, 1, 0], 1))
    (b1 := (![23/12, 0, 0], 2)) (a2 := (![31/12, 1, 0], 1)) (b2 := (![8/3, 0, 0], 1)) (d := 5/3) (e := 5/4)
    (homDist_of (by norm_num) (by norm_num [Matrix.vec3_dotProduct])) (homDist_of (by norm_num) (by norm_num [Matrix.vec3_dotProduct]))
    (homDist_of (by norm_num) (by norm_num [Matrix.vec3_dotProduct])) (homDist_of (by norm_num) (by norm_num [Matrix.vec3_dotProduct]))
    (by norm_num) (by norm_num) (by norm_num) (by norm_num)
  have q : S.pointAt (1/1000) 1 (3/7) = .ok ![3/8, 0, 0] := hp (3/7) (by norm_num) (by norm_num) _ (by
    norm_num [Curve.dehomogenize])
  have q' : S'.pointAt (1/1000) 1 (3/7) = .ok ![19/21, 0, 0] := hp' (3/7) (by norm_num) (by norm_num) _ (by
    norm_num [Curve.dehomogenize])
  refine ⟨S, S', h, ?_, q, q', ?_⟩
  · have := exTwisted'_eq
    rw [exTwisted'] at this
    rw [this]; exact h'
  · rw [q, q']
    intro hE
    have := congrFun (Except.ok.inj hE) 0
    norm_num at this

/-- Three segments of weights one, turned by a quarter and doubled, then translated. -/
noncomputable def exThree : List (Curve ℝ (V3 × ℝ)) :=
  [⟨1, [(![0, 1, 0], 1), (![0, 0, 0], 1)], [0, 0, 1, 1]⟩, ⟨1, [(![1, 1, 0], 1), (![0, 0, 1], 1)], [0, 0, 1, 1]⟩,
   ⟨1, [(![2, 1, 0], 1), (![0, 0, 3], 1)], [0, 0, 1, 1]⟩]

theorem exThree_ready : LoftReady (1/1000) homDist exThree (some 1) 1 [0, 0, 1, 1] :=
  three_ready (d := 1) (e := 2) (homDist_of (by norm_num) (by norm_num [Matrix.vec3_dotProduct]))
    (homDist_of (by norm_num) (by norm_num [Matrix.vec3_dotProduct]))
    (homDist_of (by norm_num) (by norm_num [Matrix.vec3_dotProduct]))
    (homDist_of (by norm_num) (by norm_num [Matrix.vec3_dotProduct])) (by norm_num) (by norm_num) (by norm_num) (by norm_num)

def exTurn3 : V3 →ₗ[ℝ] V3 where
  toFun x := ![-(2 * x 1), 2 * x 0, 2 * x 2]
  map_add' x y := by ext i; fin_cases i <;> simp <;> ring
  map_smul' a x := by ext i; fin_cases i <;> simp <;> ring

example : ∃ S S', loftSections (1/1000) homDist idealSolver exThree (some 1) = .ok S ∧
    loftSections (1/1000) homDist idealSolver (exThree.map (Curve.mapCps (affHom exTurn3 ![5, 7, 9]))) (some 1) = .ok S' ∧
    ∀ u v, S.ulo ≤ u → u ≤ S.uhi → 0 ≤ v → v ≤ 1 →
      S'.pointAt (1/1000) u v = (S.pointAt (1/1000) u v).map fun x => exTurn3 x + ![5, 7, 9] := by
  have h0 : (0 : ℝ) ≤ 1/1000 := by norm_num
  obtain ⟨S, h⟩ := C90_loft idealSolver_sound idealSolver_regular h0 exThree_ready
  obtain ⟨S', h1, -, -, h2⟩ := C102_loft_similarity idealSolver_sound idealSolver_regular h0 exThree_ready
    (fun c hc c' hc' i => by
      simp only [exThree, List.mem_cons, List.not_mem_nil, or_false] at hc hc'
      rcases i with _ | _ | i <;> rcases hc with rfl | rfl | rfl <;> rcases hc' with rfl | rfl | rfl <;> simp)
    exTurn3 ![5, 7, 9] (s := 2) (by norm_num)
    (fun x => by simp [exTurn3, dotProduct, Fin.sum_univ_three]; ring) h
  exact ⟨S, S', h, h1, h2⟩

end Curvo.Props

import Verif.Props.Isocurve
/-
  C76: lofted surfaces.
-/
import Verif.Lemmas.Surface
import Verif.Props.Interp
import Verif.Props.Unify
import Verif.Props.Surface
import Verif.Model.Loft

set_option linter.unusedSectionVars false

namespace Curvo.Props

open Curvo.Knots Curvo.Spec Curvo.Interp Curvo.Loft

variable {K : Type} [Field K] [LinearOrder K]
variable {V : Type} [AddCommGroup V] [Module K V]

/-! ### What is claimed -/

/-- The `i`-th (homogeneous) control points of all sections, in order. -/
def columnPoints (us : List (Curve K V)) (i : ℕ) : List V := us.map fun c => c.cps.getD i 0

/-- Sections with one degree and one knot vector. -/
structure Unified (eps : K) (us : List (Curve K V)) (p : ℕ) (ks : List K) : Prop where
  good : ∀ c ∈ us, c.Good eps
  degree : ∀ c ∈ us, c.degree = p
  knots : ∀ c ∈ us, c.knots = ks

/-- Consecutive points are apart and the first and last chord are not negligible. -/
structure Spaced (eps : K) (dist : V → V → K) (pts : List V) : Prop where
  pos : ∀ i, i + 1 < pts.length → 0 < dist (pts.getD i 0) (pts.getD (i + 1) 0)
  first : eps ≤ chordParam dist pts 1
  last : chordParam dist pts (pts.length - 2) + eps ≤ 1

theorem N_congr {k k' : ℕ → K} {b u : K} : ∀ (p i : ℕ), (∀ l, i ≤ l → l ≤ i + p + 1 → k l = k' l) →
    N k b p i u = N k' b p i u
  | 0, i, h => by
    have : InSpan k b u i ↔ InSpan k' b u i := by
      rw [InSpan, InSpan, h i (by omega) (by omega), h (i + 1) (by omega) (by omega)]
    simp only [N, this]
  | p + 1, i, h => by
    simp only [N]
    rw [h i (by omega) (by omega), h (i + 1) (by omega) (by omega), h (i + p + 1) (by omega) (by omega),
      h (i + p + 2) (by omega) (by omega), N_congr p i (fun l a b => h l a (by omega)),
      N_congr p (i + 1) (fun l a b => h l (by omega) (by omega))]

theorem columnPoints_getD {us : List (Curve K V)} {i k : ℕ} (hk : k < us.length) :
    (columnPoints us i).getD k 0 = us[k].cps.getD i 0 := by
  simp [columnPoints, List.getD_eq_getElem?_getD, hk]

theorem Unified.len {eps : K} {us : List (Curve K V)} {p : ℕ} {ks : List K} (h : Unified eps us p ks) {c : Curve K V}
    (hc : c ∈ us) : ks.length = c.cps.length + p + 1 := by
  rw [← h.knots c hc, ← h.degree c hc]; exact (h.good c hc).knots_len

variable [IsStrictOrderedRing K]

/-- A successfully interpolated column. -/
theorem column_spec {eps : K} {dist : V → V → K} {solve : List (List K) → List V → Option (List V)} {us : List (Curve K V)}
    {p q i : ℕ} {ks : List K} {c : Curve K V} (hs : SolverSound solve) (hU : Unified eps us p ks) (he : 0 ≤ eps)
    (hi : i + p + 1 < ks.length) (hq : 1 ≤ q) (hm : q + 1 ≤ us.length) (hd : Spaced eps dist (columnPoints us i))
    (h : column eps dist solve us q i = .ok c) :
    c.Good eps ∧ c.degree = q ∧ c.cps.length = us.length ∧
    c.knots = vec (us.length + q + 1) (interpKnot dist (columnPoints us i) q) ∧ c.lo = 0 ∧ c.hi = 1 ∧
    ∀ k, k < us.length → c.eval (chordParam dist (columnPoints us i) k) = (columnPoints us i).getD k 0 := by
  have hl : (columnPoints us i).length = us.length := by simp [columnPoints]
  rw [column, mapM_ok (g := fun c => c.cps.getD i 0) (fun c hc => by
    have := hU.len hc
    rw [getR_eq_ok (by omega), List.getD_eq_getElem?_getD, List.getElem?_eq_getElem (by omega)]; rfl), ok_bind] at h
  change (controlPoints eps dist solve (columnPoints us i) q >>= _) = _ at h
  obtain ⟨kv, hkv, hg, k0, k1, hcp⟩ := controlPoints_eq hq (by omega) he hd.pos hd.first hd.last
  rw [hcp] at h
  rw [hl] at hkv hg k1 h
  have hkl : kv.length = us.length + q + 1 := by rw [hkv]; simp [vec]
  obtain ⟨⟨x, kx⟩, hx, ht⟩ := bind_eq_ok.1 h
  split at hx
  · cases hx
  rename_i y hy
  obtain ⟨rfl, rfl⟩ := Prod.mk.inj (Except.ok.inj hx)
  obtain ⟨hyl, hsys⟩ := hs _ _ _ (by simp [mat, vec, hl]) (by
    intro row hr
    simp only [mat, vec, List.mem_map] at hr
    obtain ⟨_, _, rfl⟩ := hr
    simp [hl]) hy
  rw [hl] at hyl hsys
  have hmono : ∀ a b, a ≤ b → b < kv.length → kf kv a ≤ kf kv b := fun a b hab hb => hg.mono a b hab (by omega)
  have hsort : kv.Pairwise (· ≤ ·) := by
    rw [List.pairwise_iff_getElem]
    intro a b ha hb hab
    have := hmono a b hab.le hb
    simpa [kf, List.getD_eq_getElem?_getD, ha, hb] using this
  simp only [Curve.tryNew] at ht
  rw [if_neg (by omega), if_neg (by omega), mergeSort_of_sorted hsort] at ht
  obtain rfl := Except.ok.inj ht
  have hgood : Curve.Good eps (⟨q, y, kv⟩ : Curve K V) := ⟨by simp; omega, by simp [hkl, hyl], by simpa [hyl] using hg⟩
  have hhi : (⟨q, y, kv⟩ : Curve K V).hi = 1 := by
    simp only [Curve.hi, hyl]
    rw [← k1]; congr 1; omega
  refine ⟨hgood, rfl, hyl, hkv, k0, hhi, fun k hk => ?_⟩
  rw [Surface.curve_eval_eq hgood.cps_pos, hhi, ← hsys k hk]
  simp only [hyl]
  refine Finset.sum_congr rfl fun j hj => ?_
  have hj := Finset.mem_range.1 hj
  congr 1
  simp only [mat, vec, List.getD_eq_getElem?_getD, List.getElem?_map, List.getElem?_range hk, Option.map_some,
    Option.getD_some, List.getElem?_range hj]
  refine N_congr _ _ fun l _ hl' => ?_
  rw [hkv, kf_vec (by omega)]

/-- The hypotheses under which lofting is well behaved: sections on one knot vector, with every column of control points
    spaced, a positive v degree and at least two sections. -/
structure LoftReady (eps : K) (dist : V → V → K) (us : List (Curve K V)) (degreeV : Option ℕ) (p : ℕ) (ks : List K) :
    Prop where
  unified : Unified eps us p ks
  two : 2 ≤ us.length
  degree : 1 ≤ degreeV.getD p
  spaced : ∀ i, i + p + 1 < ks.length → Spaced eps dist (columnPoints us i)

/-- The v degree of the loft. -/
def loftDegree (us : List (Curve K V)) (degreeV : Option ℕ) (p : ℕ) : ℕ := min (degreeV.getD p) (us.length - 1)

theorem loft_columns {eps : K} {dist : V → V → K} {solve : List (List K) → List V → Option (List V)} {us : List (Curve K V)}
    {p : ℕ} {ks : List K} {degreeV : Option ℕ} {S : Surface K V} (hR : LoftReady eps dist us degreeV p ks)
    (h : loftSections eps dist solve us degreeV = .ok S) :
    ∃ cols : List (Curve K V), S.cps = cols.map (·.cps) ∧ S.uDegree = p ∧ S.uKnots = ks ∧
      S.vDegree = loftDegree us degreeV p ∧ S.cps.length + p + 1 = ks.length ∧ 0 < S.cps.length ∧
      (∃ last, cols[S.cps.length - 1]? = some last ∧ S.vKnots = last.knots) ∧
      ∀ i, i < S.cps.length → ∃ c, cols[i]? = some c ∧ column eps dist solve us (loftDegree us degreeV p) i = .ok c := by
  have h2 := hR.two
  have hmem : us[0] ∈ us := List.getElem_mem _
  have hlen := hR.unified.len hmem
  have hpos := (hR.unified.good _ hmem).cps_pos
  rw [loftSections, getR_eq_ok (by omega), ok_bind, subR_eq_ok (by omega), ok_bind, hR.unified.degree _ hmem,
    hR.unified.knots _ hmem] at h
  obtain ⟨cols, hc, h⟩ := bind_eq_ok.1 h
  obtain ⟨last, hlast, h⟩ := bind_eq_ok.1 h
  obtain rfl := Except.ok.inj h
  have hf := mapM_ok_inv hc
  have hcl : us[0].cps.length = cols.length := by simpa using hf.length_eq
  refine ⟨cols, rfl, rfl, rfl, rfl, by simp; omega, by simp; omega, ⟨last, ?_, rfl⟩, fun i hi => ?_⟩
  · cases hgl : cols.getLast? with
    | none => rw [hgl] at hlast; cases hlast
    | some y =>
      rw [hgl] at hlast
      obtain rfl := Except.ok.inj hlast
      rw [List.getLast?_eq_getElem?] at hgl
      simpa using hgl
  · have hi : i < cols.length := by simpa using hi
    refine ⟨cols[i], List.getElem?_eq_getElem hi, ?_⟩
    have := hf.get (i := i) (by simp; omega) hi
    simpa [loftDegree] using this

/-- **C76**: the shape of a loft: it is well formed, keeps the degree and the knots of the sections in u, has the requested
    degree in v, lowered to the number of sections minus one, is defined on `[0, 1]` in v, and has one row of control points
    per control point of a section. -/
theorem C76_shape {eps : K} {dist : V → V → K} {solve : List (List K) → List V → Option (List V)} {us : List (Curve K V)}
    {p : ℕ} {ks : List K} {degreeV : Option ℕ} {S : Surface K V} (hs : SolverSound solve) (he : 0 ≤ eps)
    (hR : LoftReady eps dist us degreeV p ks) (h : loftSections eps dist solve us degreeV = .ok S) :
    S.Good eps ∧ S.uDegree = p ∧ S.uKnots = ks ∧ S.vDegree = min (degreeV.getD p) (us.length - 1) ∧ S.vlo = 0 ∧ S.vhi = 1 ∧
      S.cols = us.length ∧ S.cps.length + p + 1 = ks.length := by
  obtain ⟨cols, e1, e2, e3, e4, e5, e6, ⟨last, hl, e7⟩, hcol⟩ := loft_columns hR h
  have h2 := hR.two
  have hd := hR.degree
  have hmem : us[0] ∈ us := List.getElem_mem _
  have hspec := fun i (hi : i < S.cps.length) c (hc : column eps dist solve us (loftDegree us degreeV p) i = .ok c) =>
    column_spec hs hR.unified he (i := i) (by omega) (by simp only [loftDegree]; omega) (by simp only [loftDegree]; omega)
      (hR.spaced i (by omega)) hc
  obtain ⟨cl, hcl, hcl'⟩ := hcol (S.cps.length - 1) (by omega)
  obtain rfl : cl = last := by rw [hl] at hcl; exact (Option.some.inj hcl).symm
  obtain ⟨g1, g2, g3, g4, g5, g6, _⟩ := hspec _ (by omega) _ hcl'
  have hkl := g1.knots_len
  have hcols : S.cols = us.length := by
    rw [Surface.cols, e7, e4, hkl, g2, g3]; omega
  refine ⟨⟨e6, by rw [e3, e2]; omega, ?_, by omega, ?_, ?_⟩, e2, e3, e4, ?_, ?_, hcols, e5⟩
  · have := (hR.unified.good _ hmem).good
    have hl0 := hR.unified.len hmem
    rw [hR.unified.knots _ hmem, hR.unified.degree _ hmem] at this
    rw [e3, e2, show S.cps.length = us[0].cps.length by omega]; exact this
  · have := g1.good
    rwa [g2, g3, ← e7, ← e4, ← hcols] at this
  · intro row hr
    rw [e1, List.mem_map] at hr
    obtain ⟨c, hc, rfl⟩ := hr
    obtain ⟨i, hi, rfl⟩ := List.mem_iff_getElem.1 hc
    obtain ⟨c', hc', hc''⟩ := hcol i (by rw [e1]; simpa using hi)
    rw [List.getElem?_eq_getElem hi] at hc'
    obtain rfl := Option.some.inj hc'
    rw [hcols]
    exact (hspec i (by rw [e1]; simpa using hi) _ hc'').2.2.1
  · rw [Surface.vlo, e7, e4, ← g2]; exact g5
  · rw [Surface.vhi, e7, hcols, ← g3]; exact g6

/-- A row of a loft. -/
theorem loft_row {eps : K} {dist : V → V → K} {solve : List (List K) → List V → Option (List V)} {us : List (Curve K V)}
    {p : ℕ} {ks : List K} {degreeV : Option ℕ} {S : Surface K V} (hs : SolverSound solve) (he : 0 ≤ eps)
    (hR : LoftReady eps dist us degreeV p ks) (h : loftSections eps dist solve us degreeV = .ok S) {i : ℕ}
    (hi : i < S.cps.length) :
    ∃ c : Curve K V, (S.row i).cps = c.cps ∧ (S.row i).degree = c.degree ∧ c.Good eps ∧ c.cps.length = us.length ∧
      c.lo = 0 ∧ c.hi = 1 ∧ c.knots = vec (us.length + loftDegree us degreeV p + 1)
        (interpKnot dist (columnPoints us i) (loftDegree us degreeV p)) ∧
      ∀ k, k < us.length → c.eval (chordParam dist (columnPoints us i) k) = (columnPoints us i).getD k 0 := by
  obtain ⟨cols, e1, e2, e3, e4, e5, e6, -, hcol⟩ := loft_columns hR h
  have h2 := hR.two
  have hd := hR.degree
  obtain ⟨c, hc, hc'⟩ := hcol i hi
  obtain ⟨g1, g2, g3, g4, g5, g6, g7⟩ := column_spec hs hR.unified he (i := i) (by omega) (by simp only [loftDegree]; omega)
    (by simp only [loftDegree]; omega) (hR.spaced i (by omega)) hc'
  refine ⟨c, ?_, by rw [g2, ← e4]; rfl, g1, g3, g5, g6, g4, g7⟩
  show S.cps.getD i [] = _
  rw [e1, List.getD_eq_getElem?_getD, List.getElem?_map, hc]; rfl

/-- The v knots of a loft are the averaged chord parameters of the last column. -/
theorem loft_vKnots {eps : K} {dist : V → V → K} {solve : List (List K) → List V → Option (List V)} {us : List (Curve K V)}
    {p : ℕ} {ks : List K} {degreeV : Option ℕ} {S : Surface K V} (hs : SolverSound solve) (he : 0 ≤ eps)
    (hR : LoftReady eps dist us degreeV p ks) (h : loftSections eps dist solve us degreeV = .ok S) :
    S.vKnots = vec (us.length + loftDegree us degreeV p + 1)
      (interpKnot dist (columnPoints us (S.cps.length - 1)) (loftDegree us degreeV p)) := by
  obtain ⟨cols, e1, e2, e3, e4, e5, e6, ⟨last, hl, e7⟩, hcol⟩ := loft_columns hR h
  have h2 := hR.two
  have hd := hR.degree
  obtain ⟨cl, hcl, hcl'⟩ := hcol (S.cps.length - 1) (by omega)
  obtain rfl : cl = last := by rw [hl] at hcl; exact (Option.some.inj hcl).symm
  rw [e7]
  exact (column_spec hs hR.unified he (i := S.cps.length - 1) (by omega) (by simp only [loftDegree]; omega)
    (by simp only [loftDegree]; omega) (hR.spaced _ (by omega)) hcl').2.2.2.1

/-- If the rows of a loft pass through the control points of a section at `v`, the surface passes through the section. -/
theorem section_of_rows {eps : K} {S : Surface K V} (hS : S.Good eps) {c : Curve K V} (hc : c.Good eps)
    (hdeg : c.degree = S.uDegree) (hk : c.knots = S.uKnots) {v : K}
    (h : ∀ i, i < S.cps.length → (S.row i).eval v = c.cps.getD i 0) (u : K) : S.eval u v = c.eval u := by
  have hl : S.cps.length = c.cps.length := by
    have a := hS.u_len
    have b := hc.knots_len
    rw [hdeg, hk] at b; omega
  rw [Surface.eval_eq_isoV hS]
  congr 1
  obtain ⟨d, cps, kn⟩ := c
  simp only at hdeg hk hl h
  rw [Surface.isoV, hdeg, hk]
  congr 1
  apply List.ext_getElem (by simpa using hl)
  intro i h1 h2
  have := h i (by omega)
  simpa [List.getD_eq_getElem?_getD, h2] using this

theorem interpKnot_start (dist : V → V → K) (pts : List V) {q i : ℕ} (h : i ≤ q) : interpKnot dist pts q i = 0 := by
  rw [interpKnot, if_pos h]

theorem interpKnot_end (dist : V → V → K) {pts : List V} {q i : ℕ} (hq : q < pts.length) (h : pts.length ≤ i) :
    interpKnot dist pts q i = 1 := by
  rw [interpKnot, if_neg (by omega), if_neg (by omega)]

theorem clamped_start_eval {eps : K} {c : Curve K V} (h : c.Good eps) (hc : kf c.knots 0 = kf c.knots c.degree) :
    c.eval c.lo = c.cps.getD 0 0 := by
  have := C11_clamped_start h hc
  rw [Curve.point_eq_eval h (le_refl _) h.pre.dom.le] at this
  exact Except.ok.inj this

theorem clamped_end_eval {eps : K} {c : Curve K V} (h : c.Good eps)
    (hc : kf c.knots c.cps.length = kf c.knots (c.cps.length + c.degree)) :
    c.eval c.hi = c.cps.getD (c.cps.length - 1) 0 := by
  have := C11_clamped_end h hc
  rw [Curve.point_eq_eval h h.pre.dom.le (le_refl _)] at this
  exact Except.ok.inj this

/-- Ends of a curve on interpolation knots. -/
theorem interp_ends {eps : K} {c : Curve K V} (h : c.Good eps) (dist : V → V → K) {pts : List V}
    (hl : c.cps.length = pts.length) (hk : c.knots = vec (pts.length + c.degree + 1) (interpKnot dist pts c.degree)) :
    c.eval 0 = c.cps.getD 0 0 ∧ c.eval 1 = c.cps.getD (c.cps.length - 1) 0 := by
  have hle := h.good.le
  have hpos := h.cps_pos
  have hkf : ∀ i, i < pts.length + c.degree + 1 → kf c.knots i = interpKnot dist pts c.degree i := fun i hi => by
    rw [hk, kf_vec hi]
  have e0 : c.lo = 0 := by rw [Curve.lo, hkf _ (by omega), interpKnot_start dist pts (le_refl _)]
  have e1 : c.hi = 1 := by rw [Curve.hi, hkf _ (by omega), interpKnot_end dist (by omega) (by omega)]
  constructor
  · rw [← e0]
    refine clamped_start_eval h ?_
    rw [hkf _ (by omega), hkf _ (by omega), interpKnot_start dist pts (by omega), interpKnot_start dist pts (le_refl _)]
  · rw [← e1]
    refine clamped_end_eval h ?_
    rw [hkf _ (by omega), hkf _ (by omega), interpKnot_end dist (by omega) (by omega),
      interpKnot_end dist (by omega) (by omega)]

/-- The rows of a loft start and end at the control points of the first and the last section. -/
theorem loft_row_ends {eps : K} {dist : V → V → K} {solve : List (List K) → List V → Option (List V)} {us : List (Curve K V)}
    {p : ℕ} {ks : List K} {degreeV : Option ℕ} {S : Surface K V} (hs : SolverSound solve) (he : 0 ≤ eps)
    (hR : LoftReady eps dist us degreeV p ks) (h : loftSections eps dist solve us degreeV = .ok S) {i : ℕ}
    (hi : i < S.cps.length) :
    ((S.row i).eval 0 = (columnPoints us i).getD 0 0 ∧ (S.row i).cps.getD 0 0 = (columnPoints us i).getD 0 0) ∧
    ((S.row i).eval 1 = (columnPoints us i).getD (us.length - 1) 0 ∧
      (S.row i).cps.getD (us.length - 1) 0 = (columnPoints us i).getD (us.length - 1) 0) := by
  obtain ⟨hS, s1, s2, s3, s4, s5, s6, s7⟩ := C76_shape hs he hR h
  obtain ⟨c, c1, c2, c3, c4, c5, c6, c7, c8⟩ := loft_row hs he hR h hi
  have h2 := hR.two
  have hl : ∀ j, (columnPoints us j).length = us.length := fun j => by simp [columnPoints]
  obtain ⟨t0, t1⟩ := chordParam_ends (hR.spaced i (by omega)).pos (by rw [hl]; omega)
  rw [hl] at t1
  have r := interp_ends (hS.row hi) dist (pts := columnPoints us (S.cps.length - 1)) (by rw [c1, c4, hl]) (by
    show S.vKnots = vec (_ + S.vDegree + 1) (interpKnot dist _ S.vDegree)
    rw [loft_vKnots hs he hR h, s3, hl]; rfl)
  have hcd : c.degree = loftDegree us degreeV p := by rw [← c2]; exact s3
  have r' := interp_ends c3 dist (pts := columnPoints us i) (by rw [c4, hl]) (by rw [c7, hcd, hl])
  have a := c8 0 (by omega)
  have b := c8 (us.length - 1) (by omega)
  rw [t0] at a
  rw [t1] at b
  rw [c1, c4] at r
  rw [c4] at r'
  rw [c1]
  exact ⟨⟨by rw [r.1, ← r'.1, a], by rw [← r'.1, a]⟩, by rw [r.2, ← r'.2, b], by rw [← r'.2, b]⟩

/-- **C76**: the loft starts at the first section and ends at the last one, parameter by parameter. -/
theorem C76_end_sections {eps : K} {dist : V → V → K} {solve : List (List K) → List V → Option (List V)}
    {us : List (Curve K V)} {p : ℕ} {ks : List K} {degreeV : Option ℕ} {S : Surface K V} (hs : SolverSound solve)
    (he : 0 ≤ eps) (hR : LoftReady eps dist us degreeV p ks) (h : loftSections eps dist solve us degreeV = .ok S) {a b : Curve K V}
    (ha : us.head? = some a) (hb : us.getLast? = some b) (u : K) : S.eval u 0 = a.eval u ∧ S.eval u 1 = b.eval u := by
  obtain ⟨hS, s1, s2, s3, s4, s5, s6, s7⟩ := C76_shape hs he hR h
  have h2 := hR.two
  have ha' : us[0] = a := by
    rw [List.head?_eq_getElem?, List.getElem?_eq_getElem (by omega)] at ha; exact Option.some.inj ha
  have hb' : us[us.length - 1] = b := by
    rw [List.getLast?_eq_getElem?, List.getElem?_eq_getElem (by omega)] at hb; exact Option.some.inj hb
  have key : ∀ (c : Curve K V), c ∈ us → c.Good eps ∧ c.degree = S.uDegree ∧ c.knots = S.uKnots := fun c hc =>
    ⟨hR.unified.good c hc, by rw [hR.unified.degree c hc, s1], by rw [hR.unified.knots c hc, s2]⟩
  have ka := key a (ha' ▸ List.getElem_mem _)
  have kb := key b (hb' ▸ List.getElem_mem _)
  refine ⟨section_of_rows hS ka.1 ka.2.1 ka.2.2 (fun i hi => ?_) u, section_of_rows hS kb.1 kb.2.1 kb.2.2 (fun i hi => ?_) u⟩
  · rw [(loft_row_ends hs he hR h hi).1.1, columnPoints_getD (by omega), ha']
  · rw [(loft_row_ends hs he hR h hi).2.1, columnPoints_getD (by omega), hb']

/-- **C76**: when all columns of control points are spaced alike, the loft passes through every section. -/
theorem C76_equal_spacing {eps : K} {dist : V → V → K} {solve : List (List K) → List V → Option (List V)}
    {us : List (Curve K V)} {p : ℕ} {ks : List K} {degreeV : Option ℕ} {S : Surface K V} (hs : SolverSound solve)
    (he : 0 ≤ eps) (hR : LoftReady eps dist us degreeV p ks) (h : loftSections eps dist solve us degreeV = .ok S) {t : ℕ → K}
    (ht : ∀ i, i + p + 1 < ks.length → ∀ k, k < us.length → chordParam dist (columnPoints us i) k = t k) {k : ℕ}
    (hk : k < us.length) (u : K) : S.eval u (t k) = us[k].eval u := by
  obtain ⟨hS, s1, s2, s3, s4, s5, s6, s7⟩ := C76_shape hs he hR h
  have hl : ∀ j, (columnPoints us j).length = us.length := fun j => by simp [columnPoints]
  have hc := List.getElem_mem hk
  refine section_of_rows hS (hR.unified.good _ hc) (by rw [hR.unified.degree _ hc, s1]) (by rw [hR.unified.knots _ hc, s2])
    (fun i hi => ?_) u
  obtain ⟨c, c1, c2, c3, c4, c5, c6, c7, c8⟩ := loft_row hs he hR h hi
  have hpos := hS.rows_pos
  have hkn : S.vKnots = c.knots := by
    rw [loft_vKnots hs he hR h, c7]
    apply List.ext_getElem (by simp [vec])
    intro j h1 h2
    simp only [vec, List.getElem_map, List.getElem_range, interpKnot, hl]
    split
    · rfl
    · split
      · simp only [avgParam]
        congr 1
        refine Finset.sum_congr rfl fun l hl' => ?_
        have := Finset.mem_range.1 hl'
        rw [ht _ (by omega) _ (by omega), ht _ (by omega) _ (by omega)]
      · rfl
  have hrow : S.row i = c := by
    have e : ∀ x y : Curve K V, x.degree = y.degree → x.cps = y.cps → x.knots = y.knots → x = y := by
      rintro ⟨_, _, _⟩ ⟨_, _, _⟩ h1 h2 h3
      simp only at h1 h2 h3
      rw [h1, h2, h3]
    exact e _ _ c2 c1 hkn
  rw [hrow, ← ht i (by omega) k hk, c8 k hk, columnPoints_getD hk]

/-- **C76**: two sections give the ruled surface between them. -/
theorem C76_ruled {eps : K} {dist : V → V → K} {solve : List (List K) → List V → Option (List V)}
    {a b : Curve K V} {p : ℕ} {ks : List K} {degreeV : Option ℕ} {S : Surface K V} (hs : SolverSound solve)
    (he : 0 ≤ eps) (hR : LoftReady eps dist [a, b] degreeV p ks) (h : loftSections eps dist solve [a, b] degreeV = .ok S)
    (u : K) {v : K} (h0 : 0 ≤ v) (h1 : v ≤ 1) : S.eval u v = (1 - v) • a.eval u + v • b.eval u := by
  obtain ⟨hS, s1, s2, s3, s4, s5, s6, s7⟩ := C76_shape hs he hR h
  have hdeg := hR.degree
  have hv1 : S.vDegree = 1 := by rw [s3]; simp; omega
  have hl : ∀ j, (columnPoints [a, b] j).length = 2 := fun j => by simp [columnPoints]
  have hk : S.vKnots = [0, 0, 1, 1] := by
    rw [loft_vKnots hs he hR h, show loftDegree [a, b] degreeV p = 1 by rw [loftDegree]; simp; omega]
    simp [vec, interpKnot, hl, List.range_succ]
  have hrow : ∀ i, i < S.cps.length → (S.row i).eval v = (1 - v) • a.cps.getD i 0 + v • b.cps.getD i 0 := by
    intro i hi
    obtain ⟨⟨-, r1⟩, -, r2⟩ := loft_row_ends hs he hR h hi
    have hrl : (S.row i).cps.length = 2 := (hS.row_len hi).trans s6
    rw [Surface.curve_eval_eq (by omega), hrl, Finset.sum_range_succ, Finset.sum_range_one, r1,
      show (1 : ℕ) = [a, b].length - 1 from rfl, r2, Surface.row_hi hS hi, s5]
    simp only [Surface.row, hv1, hk, columnPoints]
    simp only [List.map_cons, List.map_nil, List.length_cons, List.length_nil, List.getD_cons_zero, List.getD_cons_succ,
      Nat.reduceAdd, Nat.add_one_sub_one]
    congr 2
    · rcases eq_or_lt_of_le h1 with rfl | hlt
      · simp [N, InSpan, kf]
      · simp [N, InSpan, kf, hlt.ne, h0, hlt]
    · rcases eq_or_lt_of_le h1 with rfl | hlt
      · simp [N, InSpan, kf]
      · simp [N, InSpan, kf, hlt.ne, h0, hlt]
  rw [Surface.eval_eq_isoV hS, Surface.curve_eval_eq (hS.isoV v).cps_pos, Surface.isoV_hi]
  have ga := hR.unified.good a (by simp)
  have gb := hR.unified.good b (by simp)
  have la := hR.unified.len (c := a) (by simp)
  have lb := hR.unified.len (c := b) (by simp)
  rw [Surface.curve_eval_eq ga.cps_pos, Surface.curve_eval_eq gb.cps_pos, Finset.smul_sum, Finset.smul_sum,
    show (S.isoV v).cps.length = a.cps.length by simp [Surface.isoV]; omega, show b.cps.length = a.cps.length by omega,
    ← Finset.sum_add_distrib]
  refine Finset.sum_congr rfl fun i hi => ?_
  have hi := Finset.mem_range.1 hi
  have ea : S.uhi = a.hi := by rw [Surface.uhi, Curve.hi, s2, hR.unified.knots a (by simp)]; congr 1; omega
  have eb : b.hi = a.hi := by
    rw [Curve.hi, Curve.hi, hR.unified.knots a (by simp), hR.unified.knots b (by simp)]; congr 1; omega
  have : (S.isoV v).cps.getD i 0 = (S.row i).eval v := Surface.getD_map_range (by omega) _
  rw [this, hrow i (by omega), hR.unified.knots a (by simp), hR.unified.knots b (by simp), hR.unified.degree a (by simp),
    hR.unified.degree b (by simp), ea, eb]
  simp only [Surface.isoV, s1, s2]
  module

/-- The collocation matrix of a column: the values of the basis functions at the chord parameters. -/
def columnMatrix (dist : V → V → K) (pts : List V) (q : ℕ) : List (List K) :=
  (List.range pts.length).map fun i => (List.range pts.length).map fun j =>
    N (interpKnot dist pts q) 1 q j (chordParam dist pts i)

/-- **C76**: only the linear solver can make a loft fail: it succeeds exactly when every column's system is solved. -/
theorem C76_only_solver_can_fail {eps : K} {dist : V → V → K} {solve : List (List K) → List V → Option (List V)}
    {us : List (Curve K V)} {p : ℕ} {ks : List K} {degreeV : Option ℕ} (hs : SolverSound solve) (he : 0 ≤ eps)
    (hR : LoftReady eps dist us degreeV p ks) :
    (∃ S, loftSections eps dist solve us degreeV = .ok S) ↔ ∀ i, i + p + 1 < ks.length →
      (solve (columnMatrix dist (columnPoints us i) (min (degreeV.getD p) (us.length - 1))) (columnPoints us i)).isSome := by
  have h2 := hR.two
  have hd := hR.degree
  have hl : ∀ j, (columnPoints us j).length = us.length := fun j => by simp [columnPoints]
  have hmem : us[0] ∈ us := List.getElem_mem _
  have hlen := hR.unified.len hmem
  have hpos := (hR.unified.good _ hmem).cps_pos
  have hcol : ∀ i, i + p + 1 < ks.length → ((∃ c, column eps dist solve us (loftDegree us degreeV p) i = .ok c) ↔
      (solve (columnMatrix dist (columnPoints us i) (loftDegree us degreeV p)) (columnPoints us i)).isSome) := by
    intro i hi
    obtain ⟨kv, hkv, hg, k0, k1, hcp⟩ := controlPoints_eq (p := loftDegree us degreeV p) (by simp only [loftDegree]; omega)
      (by rw [hl]; simp only [loftDegree]; omega) he (hR.spaced i hi).pos (hR.spaced i hi).first (hR.spaced i hi).last
    have hkl : kv.length = us.length + loftDegree us degreeV p + 1 := by rw [hkv]; simp [vec, hl]
    rw [column, mapM_ok (g := fun c => c.cps.getD i 0) (fun c hc => by
      have := hR.unified.len hc
      rw [getR_eq_ok (by omega), List.getD_eq_getElem?_getD, List.getElem?_eq_getElem (by omega)]; rfl), ok_bind]
    change (∃ c, (controlPoints eps dist solve (columnPoints us i) (loftDegree us degreeV p) >>= _) = Except.ok c) ↔ _
    rw [hcp]
    change (∃ c, ((match solve (columnMatrix dist (columnPoints us i) (loftDegree us degreeV p)) (columnPoints us i) with
        | none => Except.error Fault.err
        | some x => Except.ok (x, kv)) >>= _) = Except.ok c) ↔ _
    cases hx : solve (columnMatrix dist (columnPoints us i) (loftDegree us degreeV p)) (columnPoints us i) with
    | none =>
      constructor
      · rintro ⟨c, hc⟩; cases hc
      · intro h; cases h
    | some x =>
      refine ⟨fun _ => rfl, fun _ => ?_⟩
      have hxl : x.length = us.length := by
        have := (hs _ _ _ (by simp [columnMatrix]) (by
          intro row hr
          simp only [columnMatrix, List.mem_map] at hr
          obtain ⟨_, _, rfl⟩ := hr
          simp) hx).1
        rw [this, hl]
      simp only [ok_bind]
      refine (C08_try_new_iff _ _ _).1.2 ⟨by rw [hxl]; simp only [loftDegree]; omega, by rw [hxl, hkl]⟩
  constructor
  · rintro ⟨S, h⟩ i hi
    obtain ⟨cols, e1, e2, e3, e4, e5, e6, -, hc⟩ := loft_columns hR h
    obtain ⟨c, -, hc⟩ := hc i (by omega)
    exact (hcol i hi).1 ⟨c, hc⟩
  · intro h
    rw [loftSections, getR_eq_ok (by omega), ok_bind, subR_eq_ok (by omega), ok_bind, hR.unified.degree _ hmem,
      hR.unified.knots _ hmem]
    have : Nonempty (Curve K V) := ⟨us[0]⟩
    choose! g hg using fun i hi => (hcol i hi).2 (h i hi)
    change ∃ S, ((List.range us[0].cps.length).mapM (fun i => column eps dist solve us (loftDegree us degreeV p) i) >>= _) =
      Except.ok S
    rw [mapM_ok (g := g) (fun i hi => by
      have := List.mem_range.1 hi
      exact hg i (by omega)), ok_bind]
    have hne : (List.map g (List.range us[0].cps.length)) ≠ [] := by
      intro e
      have := congrArg List.length e
      simp only [List.length_map, List.length_range, List.length_nil] at this
      omega
    rw [List.getLast?_eq_some_getLast hne]
    exact ⟨_, rfl⟩

/-- The solver answers whenever there is a solution. -/
def SolverComplete (solve : List (List K) → List V → Option (List V)) : Prop :=
  ∀ A b, (∃ x, Solves A b x) → (solve A b).isSome

/-- **C76**: with v degree one (always the case for two sections) a solver that finds existing solutions never fails. -/
theorem C76_degree_one {eps : K} {dist : V → V → K} {solve : List (List K) → List V → Option (List V)}
    {us : List (Curve K V)} {p : ℕ} {ks : List K} {degreeV : Option ℕ} (hs : SolverSound solve) (hc : SolverComplete solve)
    (he : 0 ≤ eps) (hR : LoftReady eps dist us degreeV p ks) (h1 : min (degreeV.getD p) (us.length - 1) = 1) :
    ∃ S, loftSections eps dist solve us degreeV = .ok S := by
  rw [C76_only_solver_can_fail hs he hR]
  intro i hi
  have h2 := hR.two
  refine hc _ _ ⟨columnPoints us i, rfl, fun k hk => ?_⟩
  have hl : (columnPoints us i).length = us.length := by simp [columnPoints]
  rw [Finset.sum_eq_single k]
  · simp only [columnMatrix, List.getD_eq_getElem?_getD, List.getElem?_map, List.getElem?_range hk, Option.map_some,
      Option.getD_some]
    rw [h1, C35_degree_one (by omega) (hR.spaced i hi).pos hk hk, if_pos rfl, one_smul]
  · intro j hj hne
    have hj := Finset.mem_range.1 hj
    simp only [columnMatrix, List.getD_eq_getElem?_getD, List.getElem?_map, List.getElem?_range hk, List.getElem?_range hj,
      Option.map_some, Option.getD_some]
    rw [h1, C35_degree_one (by omega) (hR.spaced i hi).pos hk hj, if_neg (Ne.symm hne), zero_smul]
  · intro h; exact absurd (Finset.mem_range.2 hk) h

/-- **C76**: from the curves the user passes to the result: with sections of one degree, clamped, the loft at `v = 0` is the
    first curve and at `v = 1` the last one, at the parameters rescaled to the longest of the domains `[0, L]`. -/
theorem C76_loft {eps L : K} {dist : V → V → K} {solve : List (List K) → List V → Option (List V)} (hs : SolverSound solve)
    (he : 0 < eps) {cs : List (Curve K V)} {p : ℕ} (hdeg : ∀ c ∈ cs, c.degree = p) (hg : ∀ c ∈ cs, c.Good eps)
    (hends : ∀ c ∈ cs, c.knots.head? = some c.lo ∧ c.knots.getLast? = some c.hi)
    (hS : ∀ c ∈ cs, c.hi - c.lo ≤ L) (hS' : ∃ c ∈ cs, c.hi - c.lo = L)
    (hsep : ∀ c ∈ cs, ∀ d ∈ cs, ∀ x ∈ c.knots, ∀ y ∈ d.knots,
      |unifiedParam L c x - unifiedParam L d y| < eps → unifiedParam L c x = unifiedParam L d y)
    {degreeV : Option ℕ} (h2 : 2 ≤ cs.length) (hv : 1 ≤ degreeV.getD p)
    (hsp : ∀ us, Curve.tryUnify eps cs = .ok us → ∀ c ∈ us, ∀ i, i < c.cps.length → Spaced eps dist (columnPoints us i))
    {S : Surface K V} (h : tryLoft eps dist solve cs degreeV = .ok S) {a b : Curve K V} (ha : cs.head? = some a)
    (hb : cs.getLast? = some b) :
    S.Good eps ∧ S.ulo = 0 ∧ S.uhi = L ∧ S.vlo = 0 ∧ S.vhi = 1 ∧
      (∀ u, a.lo ≤ u → u ≤ a.hi → S.point eps (unifiedParam L a u) 0 = a.point eps u) ∧
      (∀ u, b.lo ≤ u → u ≤ b.hi → S.point eps (unifiedParam L b u) 1 = b.point eps u) := by
  obtain ⟨us, ks, hu, -, -, hf⟩ := C49_unify he hdeg hg hends hS hS' hsep
  rw [tryLoft, hu, ok_bind] at h
  have hul : cs.length = us.length := hf.length_eq
  have hmem : ∀ c ∈ us, c.Good eps ∧ c.degree = p ∧ c.knots = ks ∧ c.lo = 0 ∧ c.hi = L := by
    intro c hc
    obtain ⟨i, hi, rfl⟩ := List.mem_iff_getElem.1 hc
    have := hf.get (i := i) (by omega) hi
    exact ⟨this.1, this.2.1, this.2.2.1, this.2.2.2.1, this.2.2.2.2.1⟩
  have hR : LoftReady eps dist us degreeV p ks := by
    refine ⟨⟨fun c hc => (hmem c hc).1, fun c hc => (hmem c hc).2.1, fun c hc => (hmem c hc).2.2.1⟩, by omega, hv, fun i hi => ?_⟩
    have hm0 : us[0] ∈ us := List.getElem_mem _
    have := hmem _ hm0
    refine hsp us hu _ hm0 i ?_
    have hk := this.1.knots_len
    rw [this.2.1, this.2.2.1] at hk; omega
  obtain ⟨hG, s1, s2, s3, s4, s5, s6, s7⟩ := C76_shape hs he.le hR h
  have q0 := hf.get (i := 0) (by omega) (by omega)
  have q1 := hf.get (i := us.length - 1) (by omega) (by omega)
  have ha' : cs.get ⟨0, by omega⟩ = a := by
    rw [List.head?_eq_getElem?, List.getElem?_eq_getElem (by omega)] at ha; exact Option.some.inj ha
  have hb' : cs.get ⟨us.length - 1, by omega⟩ = b := by
    rw [List.getLast?_eq_getElem?, List.getElem?_eq_getElem (by omega)] at hb
    rw [← Option.some.inj hb]; simp only [List.get_eq_getElem, hul]
  rw [ha'] at q0
  rw [hb'] at q1
  have hu0 : S.ulo = 0 := by
    rw [← q0.2.2.2.1, Surface.ulo, Curve.lo, s1, s2, q0.2.1, q0.2.2.1]
  have hu1 : S.uhi = L := by
    have hk := q0.1.knots_len
    rw [q0.2.1, q0.2.2.1] at hk
    rw [← q0.2.2.2.2.1, Surface.uhi, Curve.hi, s2, q0.2.2.1]; congr 1; omega
  have hend := fun u => C76_end_sections hs he.le hR h (a := us.get ⟨0, by omega⟩) (b := us.get ⟨us.length - 1, by omega⟩)
    (by rw [List.head?_eq_getElem?, List.getElem?_eq_getElem (by omega)]; rfl)
    (by rw [List.getLast?_eq_getElem?, List.getElem?_eq_getElem (by omega)]; rfl) u
  have hpar : ∀ c ∈ cs, ∀ u, c.lo ≤ u → u ≤ c.hi → 0 ≤ unifiedParam L c u ∧ unifiedParam L c u ≤ L := by
    intro c hc u h1 h2
    have hp : 0 < c.hi - c.lo := sub_pos.2 (hg c hc).pre.dom
    have hL : 0 ≤ L := le_trans hp.le (hS c hc)
    have hdiv : 0 ≤ L / (c.hi - c.lo) := div_nonneg hL hp.le
    have hx : L / (c.hi - c.lo) * (c.hi - c.lo) = L := by field_simp
    rw [unifiedParam]
    constructor
    · nlinarith
    · nlinarith
  refine ⟨hG, hu0, hu1, s4, s5, fun u h1 h2 => ?_, fun u h1 h2 => ?_⟩
  · obtain ⟨p0, p1⟩ := hpar a (ha' ▸ List.get_mem _ _) u h1 h2
    rw [← q0.2.2.2.2.2 u h1 h2, C28_point hG (by rw [hu0]; exact p0) (by rw [hu1]; exact p1) (by rw [s4])
      (by rw [s5]; exact zero_le_one), Curve.point_eq_eval q0.1 (by rw [q0.2.2.2.1]; exact p0)
      (by rw [q0.2.2.2.2.1]; exact p1), (hend _).1]
  · obtain ⟨p0, p1⟩ := hpar b (hb' ▸ List.get_mem _ _) u h1 h2
    rw [← q1.2.2.2.2.2 u h1 h2, C28_point hG (by rw [hu0]; exact p0) (by rw [hu1]; exact p1)
      (by rw [s4]; exact zero_le_one) (by rw [s5]), Curve.point_eq_eval q1.1 (by rw [q1.2.2.2.1]; exact p0)
      (by rw [q1.2.2.2.2.1]; exact p1), (hend _).2]

/-- **C76**: sections that share their first control point (for clamped sections: their start point) cannot be lofted: the
    chord lengths of that column are divided by zero. -/
theorem C76_shared_start {eps : K} {dist : V → V → K} (solve : List (List K) → List V → Option (List V))
    {us : List (Curve K V)} {degreeV : Option ℕ} {P : V} (h2 : us ≠ []) (hP : ∀ c ∈ us, c.cps.head? = some P)
    (hz : dist P P = 0) : loftSections eps dist solve us degreeV = .error .nonfinite := by
  have hlen : 0 < us.length := List.length_pos_iff.2 h2
  have h0 := hP us[0] (List.getElem_mem _)
  have hc0 : 0 < us[0].cps.length := by
    rcases hx : us[0].cps with _ | ⟨x, xs⟩
    · rw [hx] at h0; cases h0
    · simp
  rw [loftSections, getR_eq_ok hlen, ok_bind, subR_eq_ok (by omega), ok_bind]
  have hcolumn : ∀ q, q + 1 ≤ us.length → column eps dist solve us q 0 = .error .nonfinite := by
    intro q hq
    rw [column, mapM_ok (g := fun _ => P) (fun c hc => by
      have := hP c hc
      rw [getR_ok_iff, ← List.head?_eq_getElem?, this]), ok_bind]
    have hz' : chordLength dist (us.map fun _ => P) ((us.map fun _ => P).length - 1) = 0 := by
      rw [chordLength]
      refine Finset.sum_eq_zero fun j hj => ?_
      have hj := Finset.mem_range.1 hj
      rw [List.length_map] at hj
      simp [List.getD_eq_getElem?_getD, show j < us.length by omega, show j + 1 < us.length by omega, hz]
    rw [controlPoints, if_neg (by simp; omega), chordParams_zero dist (by simp; omega) hz']
    rfl
  obtain ⟨m, hm⟩ : ∃ m, us[0].cps.length = m + 1 := ⟨_, (Nat.succ_pred_eq_of_pos hc0).symm⟩
  rw [hm, List.range_succ_eq_map]
  simp only [List.mapM_cons]
  rw [hcolumn _ (by omega)]
  rfl

/-! ### Concrete cases -/

/-- The solver that knows a few answers, and checks them. -/
def listSolver [DecidableEq V] (xs : List (List V)) (A : List (List K)) (b : List V) : Option (List V) :=
  xs.find? fun x => decide (Solves A b x)

theorem listSolver_sound [DecidableEq V] (xs : List (List V)) : SolverSound (listSolver (K := K) xs) := by
  intro A b x _ _ h
  have := List.find?_some h
  simpa using this

/-- Length of axis parallel segments between homogeneous points. -/
def axisDistW (a b : (ℚ × ℚ) × ℚ) : ℚ := |a.1.1 - b.1.1| + |a.1.2 - b.1.2| + |a.2 - b.2|

/-- The segment from `(1, 0)` to `(1, 1)`. -/
def exSecond : Curve ℚ ((ℚ × ℚ) × ℚ) := ⟨1, [((1, 0), 1), ((1, 1), 1)], [0, 0, 1, 1]⟩

/-- Four segments, from `(0, 0), (1, 0), (2, 0), (3, 0)` to `(0, 1), (1, 1), (2, 1), (4, 1)`. -/
def exSections : List (Curve ℚ ((ℚ × ℚ) × ℚ)) :=
  [⟨1, [((0, 0), 1), ((0, 1), 1)], [0, 0, 1, 1]⟩, exSecond,
   ⟨1, [((2, 0), 1), ((2, 1), 1)], [0, 0, 1, 1]⟩, ⟨1, [((3, 0), 1), ((4, 1), 1)], [0, 0, 1, 1]⟩]

theorem exSections_ready : LoftReady (1/1000) axisDistW exSections (some 2) 1 [0, 0, 1, 1] := by
  refine ⟨⟨fun c hc => ?_, by decide +kernel, by decide +kernel⟩, by decide, by decide, fun i hi => ?_⟩
  · have hgap : ∀ c ∈ exSections, (0 < c.cps.length ∧ c.knots.length = c.cps.length + c.degree + 1 ∧
        c.degree ≤ c.cps.length - 1 ∧ c.knots.Pairwise (· ≤ ·)) ∧
        kf c.knots c.degree + 1/1000 ≤ kf c.knots (c.degree + 1) ∧
        kf c.knots (c.cps.length - 1) + 1/1000 ≤ kf c.knots (c.cps.length - 1 + 1) := by decide +kernel
    obtain ⟨⟨h1, h2, h3, h4⟩, h5, h6⟩ := hgap c hc
    exact ⟨h1, h2, by norm_num, h3, mono_of_sorted h4 (by omega), by linarith, by linarith, h5, h6⟩
  · have hi : i < 2 := by simp at hi; omega
    have h3 : ∀ i, i < 2 → ∀ k, k < 3 → 0 < axisDistW ((columnPoints exSections i).getD k 0)
        ((columnPoints exSections i).getD (k + 1) 0) := by decide +kernel
    have h4 : ∀ i, i < 2 → 1/1000 ≤ chordParam axisDistW (columnPoints exSections i) 1 := by decide +kernel
    have h5 : ∀ i, i < 2 → chordParam axisDistW (columnPoints exSections i) ((columnPoints exSections i).length - 2) +
        1/1000 ≤ 1 := by decide +kernel
    exact ⟨fun k hk => h3 i hi k (by
      have : (columnPoints exSections i).length = 4 := by simp [columnPoints, exSections]
      omega), h4 i hi, h5 i hi⟩

/-- The answers of the two systems. -/
def exAnswers : List (List ((ℚ × ℚ) × ℚ)) :=
  [[((0, 0), 1), ((3/4, 0), 1), ((9/4, 0), 1), ((3, 0), 1)], [((0, 1), 1), ((3/4, 1), 1), ((11/4, 1), 1), ((4, 1), 1)]]

/-- Witness: the loft of the four segments succeeds. -/
theorem exSections_loft : ∃ S, loftSections (1/1000) axisDistW (listSolver exAnswers) exSections (some 2) = .ok S := by
  rw [C76_only_solver_can_fail (listSolver_sound _) (by norm_num) exSections_ready]
  have : ∀ i, i < 2 → (listSolver exAnswers (columnMatrix axisDistW (columnPoints exSections i)
      (min ((some 2).getD 1) (exSections.length - 1))) (columnPoints exSections i)).isSome := by decide +kernel
  intro i hi
  exact this i (by simp at hi; omega)

/-- **C76** (defect): every column is interpolated at its own chord parameters and on its own knots, but the surface keeps the
    knots of the last column only. When the columns are spaced differently, the surface misses the sections between the first
    and the last: whatever (correct) solver is used, no v gives the second of the four segments. -/
theorem C76_intermediate_missed {solve : List (List ℚ) → List ((ℚ × ℚ) × ℚ) → Option (List ((ℚ × ℚ) × ℚ))}
    (hs : SolverSound solve) {S : Surface ℚ ((ℚ × ℚ) × ℚ)}
    (h : loftSections (1/1000) axisDistW solve exSections (some 2) = .ok S) :
    ¬ ∃ v, 0 ≤ v ∧ v ≤ 1 ∧ ∀ u, 0 ≤ u → u ≤ 1 → S.point (1/1000) u v = exSecond.point (1/1000) u := by
  rintro ⟨v, hv0, hv1, hv⟩
  have he : (0 : ℚ) ≤ 1/1000 := by norm_num
  obtain ⟨hG, s1, s2, s3, s4, s5, s6, s7⟩ := C76_shape hs he exSections_ready h
  have hn : S.cps.length = 2 := by simp at s7; omega
  have hq : S.vDegree = 2 := by rw [s3]; decide
  have s6 : S.cols = 4 := s6
  have hvk : S.vKnots = [0, 0, 0, 3/8, 1, 1, 1] := by
    rw [loft_vKnots hs he exSections_ready h, hn]; decide +kernel
  have hulo : S.ulo = 0 := by rw [Surface.ulo, s1, s2]; decide +kernel
  have huhi : S.uhi = 1 := by rw [Surface.uhi, hn, s2]; decide +kernel
  -- the control points in the v direction
  have hx : ∀ i (hi : i < 2), ∃ x : ℕ → ℚ, (∀ j, (S.cp i j).1.1 = x j) ∧ ∀ k, k < 4 →
      ((Finset.range 4).sum fun j => N (interpKnot axisDistW (columnPoints exSections i) 2) 1 2 j
        (chordParam axisDistW (columnPoints exSections i) k) * x j) = ((columnPoints exSections i).getD k 0).1.1 := by
    intro i hi
    obtain ⟨c, c1, c2, c3, c4, c5, c6, c7, c8⟩ := loft_row hs he exSections_ready h (i := i) (by omega)
    have c4 : c.cps.length = 4 := c4
    have hcd : c.degree = 2 := by rw [← c2]; exact hq
    refine ⟨fun j => (S.cp i j).1.1, fun _ => rfl, fun k hk => ?_⟩
    rw [← c8 k hk, Surface.curve_eval_eq c3.cps_pos, c4, c6, hcd, Prod.fst_sum, Prod.fst_sum]
    refine Finset.sum_congr rfl fun j hj => ?_
    have hj := Finset.mem_range.1 hj
    rw [Prod.smul_fst, Prod.smul_fst, smul_eq_mul]
    congr 1
    · refine N_congr _ _ fun l _ hl => ?_
      have hlt : l < exSections.length + loftDegree exSections (some 2) 1 + 1 := by
        have : exSections.length + loftDegree exSections (some 2) 1 + 1 = 7 := by decide
        omega
      rw [c7, kf_vec hlt]; rfl
    · rw [← c1]; rfl
  have hS : ∀ u, S.eval u v = (Finset.range 2).sum fun i => (Finset.range 4).sum fun j =>
      (N (kf [0, 0, 1, 1]) 1 1 i u * N (kf [0, 0, 0, 3/8, 1, 1, 1]) 1 2 j v) • S.cp i j := by
    intro u
    rw [Surface.eval, hn, s6, s1, s2, huhi, s5, hq, hvk]
  have hev : ∀ u, 0 ≤ u → u ≤ 1 → S.eval u v = exSecond.eval u := by
    intro u a b
    have hg1 := exSections_ready.unified.good exSecond (by simp [exSections])
    have := hv u a b
    rw [C28_point hG (by rwa [hulo]) (by rwa [huhi]) (by rwa [s4]) (by rwa [s5]),
      Curve.point_eq_eval hg1 (by
        rw [show exSecond.lo = 0 by decide +kernel]; exact a) (by
        rw [show exSecond.hi = 1 by decide +kernel]; exact b)] at this
    exact Except.ok.inj this
  have e0 := congrArg (fun p => p.1.1) ((hS 0).symm.trans (hev 0 le_rfl zero_le_one))
  have e1 := congrArg (fun p => p.1.1) ((hS 1).symm.trans (hev 1 zero_le_one le_rfl))
  have n00 : N (kf [0, 0, 1, 1]) 1 1 0 (0 : ℚ) = 1 := by decide +kernel
  have n10 : N (kf [0, 0, 1, 1]) 1 1 1 (0 : ℚ) = 0 := by decide +kernel
  have n01 : N (kf [0, 0, 1, 1]) 1 1 0 (1 : ℚ) = 0 := by decide +kernel
  have n11 : N (kf [0, 0, 1, 1]) 1 1 1 (1 : ℚ) = 1 := by decide +kernel
  have r0 : (exSecond.eval 0).1.1 = 1 := by decide +kernel
  have r1 : (exSecond.eval 1).1.1 = 1 := by decide +kernel
  obtain ⟨x, hx1, hx2⟩ := hx 0 (by norm_num)
  obtain ⟨y, hy1, hy2⟩ := hx 1 (by norm_num)
  simp only [Finset.sum_range_succ, Finset.sum_range_zero, n00, n10, n01, n11, zero_mul, one_mul, zero_smul, zero_add,
    add_zero, Prod.fst_add, Prod.smul_fst, smul_eq_mul, hx1, hy1, r0, r1] at e0 e1
  have gx : x 0 = 0 ∧ x 1 = 3/4 ∧ x 2 = 9/4 ∧ x 3 = 3 := by
    have m : ∀ k, k < 4 → ∀ j, j < 4 → N (interpKnot axisDistW (columnPoints exSections 0) 2) 1 2 j
        (chordParam axisDistW (columnPoints exSections 0) k) =
        (([[1, 0, 0, 0], [1/9, 2/3, 2/9, 0], [0, 2/9, 2/3, 1/9], [0, 0, 0, 1]] : List (List ℚ)).getD k []).getD j 0 := by
      decide +kernel
    have b : ∀ k, k < 4 → ((columnPoints exSections 0).getD k 0).1.1 = k := by decide +kernel
    have q0 := hx2 0 (by norm_num)
    have q1 := hx2 1 (by norm_num)
    have q2 := hx2 2 (by norm_num)
    have q3 := hx2 3 (by norm_num)
    simp only [Finset.sum_range_succ, Finset.sum_range_zero, b 0 (by norm_num), b 1 (by norm_num), b 2 (by norm_num),
      b 3 (by norm_num), m 0 (by norm_num) 0 (by norm_num), m 0 (by norm_num) 1 (by norm_num),
      m 0 (by norm_num) 2 (by norm_num), m 0 (by norm_num) 3 (by norm_num), m 1 (by norm_num) 0 (by norm_num),
      m 1 (by norm_num) 1 (by norm_num), m 1 (by norm_num) 2 (by norm_num), m 1 (by norm_num) 3 (by norm_num),
      m 2 (by norm_num) 0 (by norm_num), m 2 (by norm_num) 1 (by norm_num), m 2 (by norm_num) 2 (by norm_num),
      m 2 (by norm_num) 3 (by norm_num), m 3 (by norm_num) 0 (by norm_num), m 3 (by norm_num) 1 (by norm_num),
      m 3 (by norm_num) 2 (by norm_num), m 3 (by norm_num) 3 (by norm_num)] at q0 q1 q2 q3
    simp at q0 q1 q2 q3
    refine ⟨by linarith, by linarith, by linarith, by linarith⟩
  have gy : y 0 = 0 ∧ y 1 = 3/4 ∧ y 2 = 11/4 ∧ y 3 = 4 := by
    have m : ∀ k, k < 4 → ∀ j, j < 4 → N (interpKnot axisDistW (columnPoints exSections 1) 2) 1 2 j
        (chordParam axisDistW (columnPoints exSections 1) k) =
        (([[1, 0, 0, 0], [1/9, 13/18, 1/6, 0], [0, 2/5, 14/25, 1/25], [0, 0, 0, 1]] : List (List ℚ)).getD k []).getD j 0 := by
      decide +kernel
    have b : ∀ k, k < 4 → ((columnPoints exSections 1).getD k 0).1.1 = ([0, 1, 2, 4] : List ℚ).getD k 0 := by decide +kernel
    have q0 := hy2 0 (by norm_num)
    have q1 := hy2 1 (by norm_num)
    have q2 := hy2 2 (by norm_num)
    have q3 := hy2 3 (by norm_num)
    simp only [Finset.sum_range_succ, Finset.sum_range_zero, b 0 (by norm_num), b 1 (by norm_num), b 2 (by norm_num),
      b 3 (by norm_num), m 0 (by norm_num) 0 (by norm_num), m 0 (by norm_num) 1 (by norm_num),
      m 0 (by norm_num) 2 (by norm_num), m 0 (by norm_num) 3 (by norm_num), m 1 (by norm_num) 0 (by norm_num),
      m 1 (by norm_num) 1 (by norm_num), m 1 (by norm_num) 2 (by norm_num), m 1 (by norm_num) 3 (by norm_num),
      m 2 (by norm_num) 0 (by norm_num), m 2 (by norm_num) 1 (by norm_num), m 2 (by norm_num) 2 (by norm_num),
      m 2 (by norm_num) 3 (by norm_num), m 3 (by norm_num) 0 (by norm_num), m 3 (by norm_num) 1 (by norm_num),
      m 3 (by norm_num) 2 (by norm_num), m 3 (by norm_num) 3 (by norm_num)] at q0 q1 q2 q3
    simp at q0 q1 q2 q3
    refine ⟨by linarith, by linarith, by linarith, by linarith⟩
  rw [gx.1, gx.2.1, gx.2.2.1, gx.2.2.2] at e0
  rw [gy.1, gy.2.1, gy.2.2.1, gy.2.2.2] at e1
  have lin : N (kf [0, 0, 0, 3/8, 1, 1, 1]) 1 2 0 v * 0 + N (kf [0, 0, 0, 3/8, 1, 1, 1]) 1 2 1 v * (3/4) +
      N (kf [0, 0, 0, 3/8, 1, 1, 1]) 1 2 2 v * (11/4) + N (kf [0, 0, 0, 3/8, 1, 1, 1]) 1 2 3 v * 4 = 4 * v := by
    rcases eq_or_lt_of_le hv1 with rfl | hlt
    · decide +kernel
    · rcases lt_or_ge v (3/8) with hc | hc
      · have : v ≤ 3/8 := hc.le
        simp [N, InSpan, kf, hlt.ne, hv0, hlt, hc, hc.not_ge]
        ring
      · have : ¬ v < 0 := not_lt.2 hv0
        simp [N, InSpan, kf, hlt.ne, hlt, hc, hc.not_gt, this]
        ring
  rw [lin] at e1
  obtain rfl : v = 1/4 := by linarith
  revert e0
  decide +kernel

/-- The same loft does contain its first and its last segment. -/
example {S : Surface ℚ ((ℚ × ℚ) × ℚ)}
    (h : loftSections (1/1000) axisDistW (listSolver exAnswers) exSections (some 2) = .ok S) (u : ℚ) :
    S.eval u 0 = Curve.eval ⟨1, [((0, 0), 1), ((0, 1), 1)], [0, 0, 1, 1]⟩ u ∧
    S.eval u 1 = Curve.eval ⟨1, [((3, 0), 1), ((4, 1), 1)], [0, 0, 1, 1]⟩ u :=
  C76_end_sections (listSolver_sound _) (by norm_num) exSections_ready h rfl rfl u


theorem exSections_unify : Curve.tryUnify (1/1000) exSections = .ok exSections := by decide +kernel

/-- `C76_loft` applies to the four segments. -/
example {S : Surface ℚ ((ℚ × ℚ) × ℚ)}
    (h : tryLoft (1/1000) axisDistW (listSolver exAnswers) exSections (some 2) = .ok S) :
    S.Good (1/1000) ∧ S.ulo = 0 ∧ S.uhi = 1 ∧ S.vlo = 0 ∧ S.vhi = 1 := by
  have := C76_loft (L := 1) (p := 1) (listSolver_sound _) (by norm_num) (by decide +kernel) exSections_ready.unified.good
    (by decide +kernel) (by decide +kernel) (by decide +kernel) (by decide +kernel) (by decide) (by decide)
    (fun us hu c hc i hi => by
      rw [exSections_unify] at hu
      obtain rfl := Except.ok.inj hu
      refine exSections_ready.spaced i ?_
      have : ∀ c ∈ exSections, c.cps.length = 2 := by decide +kernel
      have := this c hc
      simp; omega) h rfl rfl
  exact ⟨this.1, this.2.1, this.2.2.1, this.2.2.2.1, this.2.2.2.2.1⟩

example : ∃ S, tryLoft (1/1000) axisDistW (listSolver exAnswers) exSections (some 2) = .ok S := by
  rw [tryLoft, exSections_unify]; exact exSections_loft

/-- Three copies of a segment, moved along the x axis. -/
def exTranslates : List (Curve ℚ ((ℚ × ℚ) × ℚ)) :=
  [⟨1, [((0, 0), 1), ((0, 1), 1)], [0, 0, 1, 1]⟩, exSecond, ⟨1, [((3, 0), 1), ((3, 1), 1)], [0, 0, 1, 1]⟩]

theorem exTranslates_ready : LoftReady (1/1000) axisDistW exTranslates (some 2) 1 [0, 0, 1, 1] := by
  refine ⟨⟨fun c hc => ?_, by decide +kernel, by decide +kernel⟩, by decide, by decide, fun i hi => ?_⟩
  · have hgap : ∀ c ∈ exTranslates, (0 < c.cps.length ∧ c.knots.length = c.cps.length + c.degree + 1 ∧
        c.degree ≤ c.cps.length - 1 ∧ c.knots.Pairwise (· ≤ ·)) ∧
        kf c.knots c.degree + 1/1000 ≤ kf c.knots (c.degree + 1) ∧
        kf c.knots (c.cps.length - 1) + 1/1000 ≤ kf c.knots (c.cps.length - 1 + 1) := by decide +kernel
    obtain ⟨⟨h1, h2, h3, h4⟩, h5, h6⟩ := hgap c hc
    exact ⟨h1, h2, by norm_num, h3, mono_of_sorted h4 (by omega), by linarith, by linarith, h5, h6⟩
  · have hi : i < 2 := by simp at hi; omega
    have h3 : ∀ i, i < 2 → ∀ k, k < 2 → 0 < axisDistW ((columnPoints exTranslates i).getD k 0)
        ((columnPoints exTranslates i).getD (k + 1) 0) := by decide +kernel
    have h4 : ∀ i, i < 2 → 1/1000 ≤ chordParam axisDistW (columnPoints exTranslates i) 1 := by decide +kernel
    have h5 : ∀ i, i < 2 → chordParam axisDistW (columnPoints exTranslates i) ((columnPoints exTranslates i).length - 2) +
        1/1000 ≤ 1 := by decide +kernel
    exact ⟨fun k hk => h3 i hi k (by
      have : (columnPoints exTranslates i).length = 3 := by simp [columnPoints, exTranslates]
      omega), h4 i hi, h5 i hi⟩

/-- Their loft passes through the middle one, at `v = 1/3`. -/
example {S : Surface ℚ ((ℚ × ℚ) × ℚ)} {solve : List (List ℚ) → List ((ℚ × ℚ) × ℚ) → Option (List ((ℚ × ℚ) × ℚ))}
    (hs : SolverSound solve) (h : loftSections (1/1000) axisDistW solve exTranslates (some 2) = .ok S) (u : ℚ) :
    S.eval u (1/3) = exSecond.eval u := by
  have ht : ∀ i, i < 2 → ∀ k, k < 3 → chordParam axisDistW (columnPoints exTranslates i) k =
      ([0, 1/3, 1] : List ℚ).getD k 0 := by decide +kernel
  exact C76_equal_spacing hs (by norm_num) exTranslates_ready h (t := fun k => ([0, 1/3, 1] : List ℚ).getD k 0)
    (fun i hi k hk => ht i (by simp at hi; omega) k hk) (k := 1) (by decide) u

example : ∃ S, loftSections (1/1000) axisDistW
    (listSolver [[((0, 0), 1), ((3/2, 0), 1), ((3, 0), 1)], [((0, 1), 1), ((3/2, 1), 1), ((3, 1), 1)]])
    exTranslates (some 2) = .ok S := by
  rw [C76_only_solver_can_fail (listSolver_sound _) (by norm_num) exTranslates_ready]
  have : ∀ i, i < 2 → (listSolver [[((0, 0), 1), ((3/2, 0), 1), ((3, 0), 1)], [((0, 1), 1), ((3/2, 1), 1), ((3, 1), 1)]]
      (columnMatrix axisDistW (columnPoints exTranslates i) (min ((some 2).getD 1) (exTranslates.length - 1)))
      (columnPoints exTranslates i)).isSome := by decide +kernel
  intro i hi
  exact this i (by simp at hi; omega)

/-- **C76** (defect): a segment and a parabola cannot be lofted, whatever the solver: unifying their degrees divides by zero. -/
theorem C76_different_degrees (dist : ℚ × ℚ → ℚ × ℚ → ℚ) (solve : List (List ℚ) → List (ℚ × ℚ) → Option (List (ℚ × ℚ)))
    (degreeV : Option ℕ) :
    tryLoft (1/1000 : ℚ) dist solve
      [⟨1, [(0, 1), (2, 1)], [0, 0, 1, 1]⟩, ⟨2, [(0, 1), (2, 1), (1, 1)], [0, 0, 0, 1, 1, 1]⟩] degreeV = .error .nonfinite := by
  have : Curve.tryUnify (1/1000 : ℚ)
      [(⟨1, [(0, 1), (2, 1)], [0, 0, 1, 1]⟩ : Curve ℚ (ℚ × ℚ)), ⟨2, [(0, 1), (2, 1), (1, 1)], [0, 0, 0, 1, 1, 1]⟩] =
      .error .nonfinite := by decide +kernel
  rw [tryLoft, this]; rfl

end Curvo.Props

/-
  C93: periodic interpolation of odd degree always succeeds and is unique; of even degree through an even number of equally
  spaced points it fails.
-/
import Verif.Lemmas.PeriodicSpline
import Verif.Props.InterpUnique
import Verif.Props.Periodic

set_option linter.unusedSectionVars false

namespace Curvo.Props

open Curvo.Knots Curvo.Spec Curvo.Curve Curvo.Interp

variable {K : Type} [Field K] [LinearOrder K] [IsStrictOrderedRing K]
variable {W : Type} [AddCommGroup W] [Module K W]

theorem parameterizeClosed_eq (dist : W → W → K) (sqrt : K → K) (style : KnotStyle) {pts : List W} (hn : 2 ≤ pts.length) :
    parameterizeClosed dist sqrt style pts = .ok ((List.range pts.length).map (segParam dist sqrt style pts)) := by
  have : ∃ ps, parameterizeClosed dist sqrt style pts = .ok ps := by
    cases style with
    | uniform =>
      rw [parameterizeClosed, subR_eq_ok (by omega), ok_bind, divR, if_neg (Nat.cast_ne_zero.2 (by omega))]
      exact ⟨_, rfl⟩
    | chordal => exact ⟨_, rfl⟩
    | centripetal => exact ⟨_, rfl⟩
  obtain ⟨ps, h⟩ := this
  rw [h, parameterizeClosed_ok h]

/-- What periodic interpolation computes when all segments have positive length. -/
structure PeriodicSystem (eps : K) (dist : W → W → K) (sqrt : K → K) (pts : List W) (p : ℕ) (style : KnotStyle)
    (rows : List (List K)) (ks : List K) (k : ℕ → K) (T : K) : Prop where
  rows_len : rows.length = pts.length
  row_len : ∀ row ∈ rows, row.length = pts.length
  ks_len : ks.length = pts.length + 2 * p + 1
  good : GoodKnots eps (kf ks) p (pts.length + p - 1)
  sorted : ks.Pairwise (· ≤ ·)
  mono : StrictMono k
  period : ∀ j, k (j + pts.length) = k j + T
  inner : ∀ j, 1 ≤ j → j ≤ pts.length + 2 * p - 1 → kf ks j = k j
  step : ∀ i, k (p + i + 1) = k (p + i) + segParam dist sqrt style pts (i % pts.length)
  row : ∀ (V : Type) [AddCommGroup V] [Module K V] (i : ℕ), i < pts.length → ∀ x : ℕ → V,
    ((Finset.range pts.length).sum fun j => (rows.getD i []).getD j 0 • x j) =
      (Finset.range (p + 1)).sum fun r => NS k (p + i) p (i + r) (k (p + i)) • x ((i + r) % pts.length)
  result : ∀ solve : List (List K) → List W → Option (List W), SolverSound solve →
    tryPeriodicInterpolate eps dist sqrt solve pts p style = match solve rows pts with
      | none => .error .err
      | some x => .ok ⟨p, ((List.range (pts.length + p)).map fun i => x.getD (i % pts.length) 0).map homogenize, ks⟩

theorem periodic_forward {eps : K} {dist : W → W → K} {sqrt : K → K} {pts : List W} {p : ℕ} {style : KnotStyle}
    (hp : 1 ≤ p) (hn : p + 1 ≤ pts.length) (he : 0 ≤ eps)
    (hpos : ∀ i, i < pts.length → 0 < segParam dist sqrt style pts i)
    (h0 : eps ≤ segParam dist sqrt style pts 0) (h1 : eps ≤ segParam dist sqrt style pts (pts.length - 1)) :
    ∃ rows ks k T, PeriodicSystem eps dist sqrt pts p style rows ks k T := by
  obtain ⟨ps, eps'⟩ : ∃ ps, ps = (List.range pts.length).map (segParam dist sqrt style pts) := ⟨_, rfl⟩
  have hpc := parameterizeClosed_eq dist sqrt style (pts := pts) (by omega)
  rw [← eps'] at hpc
  have hpl : ps.length = pts.length := by rw [eps']; simp
  have hpsd : ∀ j, j < pts.length → ps.getD j 0 = segParam dist sqrt style pts j := by
    intro j hj
    rw [eps', List.getD_eq_getElem?_getD, List.getElem?_map, List.getElem?_range hj]; rfl
  obtain ⟨k0, k1, hk2, hk0, hk1⟩ := periodicKnots_eq (params := ps) hp (by omega)
  rw [hpl] at hk2 hk1
  obtain ⟨ks, hks⟩ : ∃ ks, ks = [k0] ++ ((List.range (pts.length + 2 * p - 1)).map fun i => periodicKnot ps p (i + 1)) ++ [k1] :=
    ⟨_, rfl⟩
  rw [← hks] at hk2
  have hkl : ks.length = pts.length + 2 * p + 1 := by rw [hks]; simp; omega
  have hseg : ∀ l, 0 < segAt ps p l := by
    intro l
    rw [segAt, hpl, hpsd _ (Nat.mod_lt _ (by omega))]
    exact hpos _ (Nat.mod_lt _ (by omega))
  have hkf : ∀ i, 1 ≤ i → i ≤ pts.length + 2 * p - 1 → kf ks i = periodicKnot ps p i := by
    intro i h1 h2
    rw [kf, hks, List.getD_eq_getElem?_getD, List.append_assoc, List.getElem?_append_right (by simpa using h1),
      List.getElem?_append_left (by simp; omega), List.getElem?_map, List.getElem?_range (by simp; omega)]
    simp only [List.length_singleton, Option.map_some, Option.getD_some]
    congr 1; omega
  have hmono : ∀ i j, i ≤ j → periodicKnot ps p i ≤ periodicKnot ps p j := by
    intro i j hij
    exact Finset.sum_le_sum_of_subset_of_nonneg (by intro a ha; simp at ha ⊢; omega) (fun l _ _ => (hseg l).le)
  have hk0' : kf ks 0 ≤ 0 := by
    have : kf ks 0 = k0 := by rw [hks]; simp [kf]
    rw [this]
    rcases hk0 with e | ⟨l, e⟩
    · rw [e]
    · rw [e]; exact neg_nonpos.2 (hseg l).le
  have hk1' : periodicKnot ps p (pts.length + 2 * p - 1) ≤ kf ks (pts.length + 2 * p) := by
    have : kf ks (pts.length + 2 * p) = k1 := by
      rw [hks, kf, List.getD_eq_getElem?_getD, List.getElem?_append_right (by simp; omega)]
      simp only [List.length_append, List.length_map, List.length_range, List.length_singleton]
      rw [show pts.length + 2 * p - (1 + (pts.length + 2 * p - 1)) = 0 by omega]
      rfl
    rw [this]
    rcases hk1 with e | ⟨l, e⟩
    · rw [e]
    · rw [e]; linarith [hseg l]
  have hsorted : ks.Pairwise (· ≤ ·) := by
    rw [List.pairwise_iff_getElem]
    intro i j hi hj hij
    rw [← kf_eq hi, ← kf_eq hj]
    rcases Nat.eq_zero_or_pos i with e | hi0
    · subst e
      refine le_trans hk0' ?_
      by_cases hjl : j ≤ pts.length + 2 * p - 1
      · rw [hkf j (by omega) hjl]
        exact Finset.sum_nonneg fun l _ => (hseg l).le
      · rw [show j = pts.length + 2 * p by omega]
        exact le_trans (Finset.sum_nonneg fun l _ => (hseg l).le) hk1'
    · rw [hkf i (by omega) (by omega)]
      by_cases hjl : j ≤ pts.length + 2 * p - 1
      · rw [hkf j (by omega) hjl]
        exact hmono _ _ hij.le
      · rw [show j = pts.length + 2 * p by omega]
        exact le_trans (hmono _ _ (by omega)) hk1'
  -- the periodic continuation
  have hper : ∀ j, segAt ps p (j + pts.length) = segAt ps p j := by
    intro j
    rw [segAt, segAt, hpl, ← add_assoc, Nat.add_mod_right]
  have hS : ∀ j, (Finset.range (j + pts.length)).sum (segAt ps p) =
      (Finset.range j).sum (segAt ps p) + (Finset.range pts.length).sum (segAt ps p) := by
    intro j
    induction j with
    | zero => simp
    | succ j ih =>
      rw [show j + 1 + pts.length = (j + pts.length) + 1 by omega, Finset.sum_range_succ, ih, hper,
        Finset.sum_range_succ]
      ring
  obtain ⟨T, hT⟩ : ∃ T, T = (Finset.range pts.length).sum (segAt ps p) := ⟨_, rfl⟩
  have hkT : ∀ j, 1 ≤ j → periodicKnot ps p (j + pts.length) = periodicKnot ps p j + T := by
    intro j hj
    rw [periodicKnot, periodicKnot, show j + pts.length - 1 = (j - 1) + pts.length by omega, hS, hT]
  have hstep : ∀ i, 1 ≤ i → periodicKnot ps p (i + 1) = periodicKnot ps p i + segAt ps p (i - 1) := by
    intro i hi
    rw [periodicKnot, periodicKnot, Nat.add_sub_cancel]
    conv_lhs => rw [show i = (i - 1) + 1 by omega, Finset.sum_range_succ]
  obtain ⟨k, hk⟩ : ∃ k : ℕ → K, k = fun j => periodicKnot ps p (j + pts.length) - T := ⟨_, rfl⟩
  have hkk : ∀ j, 1 ≤ j → k j = periodicKnot ps p j := by
    intro j hj
    rw [hk]; simp only []
    rw [hkT j hj, add_sub_cancel_right]
  have hkmono : StrictMono k := by
    apply strictMono_nat_of_lt_succ
    intro j
    rw [hk]; simp only []
    rw [show j + 1 + pts.length = j + pts.length + 1 by omega, hstep _ (by omega)]
    linarith [hseg (j + pts.length - 1)]
  have hkper : ∀ j, k (j + pts.length) = k j + T := by
    intro j
    rw [hkk _ (by omega), hk]
    simp
  have hkstep : ∀ i, k (p + i + 1) = k (p + i) + segParam dist sqrt style pts (i % pts.length) := by
    intro i
    rw [hkk _ (by omega), hkk _ (by omega), hstep _ (by omega), segAt, hpl,
      show pts.length + 1 - p + (p + i - 1) = i + pts.length by omega, Nat.add_mod_right, hpsd _ (Nat.mod_lt _ (by omega))]
  have hinner : ∀ j, 1 ≤ j → j ≤ pts.length + 2 * p - 1 → kf ks j = k j := fun j a b => by rw [hkf j a b, hkk j a]
  have hgood : GoodKnots eps (kf ks) p (pts.length + p - 1) := by
    have e1 := hkstep 0
    have e2 := hkstep (pts.length - 1)
    simp only [Nat.zero_mod, Nat.add_zero] at e1
    rw [Nat.mod_eq_of_lt (by omega)] at e2
    refine ⟨he, by omega, mono_of_sorted hsorted (by omega), ?_, ?_, ?_, ?_⟩
    · rw [hinner _ (by omega) (by omega), hinner _ (by omega) (by omega)]; exact hkmono (by omega)
    · rw [hinner _ (by omega) (by omega), hinner _ (by omega) (by omega)]; exact hkmono (by omega)
    · rw [hinner _ (by omega) (by omega), hinner _ (by omega) (by omega), e1]; linarith
    · rw [hinner _ (by omega) (by omega), hinner _ (by omega) (by omega),
        show pts.length + p - 1 + 1 = p + (pts.length - 1) + 1 by omega, show pts.length + p - 1 = p + (pts.length - 1) by omega, e2]
      linarith
  -- the rows
  obtain ⟨b, hb⟩ : ∃ b : ℕ → List K, b = fun i => (List.range (p + 1)).map fun r => NS k (p + i) p (i + r) (k (p + i)) := ⟨_, rfl⟩
  have hbl : ∀ i, (b i).length = p + 1 := fun i => by rw [hb]; simp
  obtain ⟨row, hrow⟩ : ∃ row : ℕ → List K, row = fun i => (b i ++ List.replicate (pts.length - (p + 1)) 0).drop (pts.length - i) ++
      (b i ++ List.replicate (pts.length - (p + 1)) 0).take (pts.length - i) := ⟨_, rfl⟩
  have hrows : ((List.range pts.length).mapM fun i => periodicRow eps ks (pts.length + p - 1) p (pts.length - (p + 1)) i) =
      .ok ((List.range pts.length).map row) := by
    apply mapM_ok
    intro i hi
    have hi' := List.mem_range.1 hi
    have hspan : findKnotSpanIndex eps ks (pts.length + p - 1) p (kf ks (i + p)) = .ok (p + i) := by
      apply C01_span_unique (by omega) hgood
      · exact hgood.mono _ _ (by omega) (by omega)
      · exact hgood.mono _ _ (by omega) (by omega)
      · omega
      · rw [InSpan, if_neg, add_comm i p]
        · refine ⟨le_refl _, ?_⟩
          rw [hinner _ (by omega) (by omega), hinner _ (by omega) (by omega)]; exact hkmono (by omega)
        · rw [hinner _ (by omega) (by omega), hinner _ (by omega) (by omega)]; exact (hkmono (by omega)).ne
    have hbas : basisFunctions ks (p + i) (kf ks (i + p)) p = .ok (b i) := by
      rw [basisFunctions_eq p (by omega) (by omega), hb]
      · congr 1
        apply List.map_congr_left
        intro r hr
        have hr' := List.mem_range.1 hr
        rw [show p + i - p + r = i + r by omega, hinner (i + p) (by omega) (by omega), add_comm i p]
        exact NS_congr_window p (fun j a c => hinner j (by omega) (by omega)) _
      · intro a c h1 h2 h3
        have hc : kf ks c = k c := hinner c (by omega) (by omega)
        rcases Nat.eq_zero_or_pos a with rfl | ha
        · have := hgood.mono 0 1 (by omega) (by omega)
          rw [hinner 1 (by omega) (by omega)] at this
          rw [hc]
          exact (lt_of_le_of_lt this (hkmono (by omega))).ne'
        · rw [hc, hinner a ha (by omega)]; exact (hkmono (by omega)).ne'
    rw [periodicRow, getR_kf (by omega), ok_bind, hspan, ok_bind, hbas, ok_bind, subR_eq_ok (by omega), ok_bind]
    have hwl : (b i ++ List.replicate (pts.length - (p + 1)) (0 : K)).length = pts.length := by simp [hbl]; omega
    simp only [hwl]
    rw [subR_eq_ok (by omega), ok_bind, sliceR_eq_ok (by omega) (by omega), ok_bind, sliceR_eq_ok (by omega) (by omega), ok_bind,
      List.take_of_length_le (by omega), List.drop_zero, hrow]
    simp only []
    rw [show p + i - p = i by omega]
    rfl
  have hrl : ∀ r ∈ (List.range pts.length).map row, r.length = pts.length := by
    intro r hr
    obtain ⟨i, hi, rfl⟩ := List.mem_map.1 hr
    have hi' := List.mem_range.1 hi
    rw [hrow]
    simp [hbl]
    omega
  refine ⟨(List.range pts.length).map row, ks, k, T, by simp, hrl, hkl, hgood, hsorted, hkmono, hkper, hinner, hkstep, ?_, ?_⟩
  · intro V _ _ i hi x
    rw [List.getD_eq_getElem?_getD (l := List.map _ _), List.getElem?_map, List.getElem?_range hi]
    simp only [Option.map_some, Option.getD_some]
    rw [hrow]
    simp only []
    rw [rotated_row_sum (b i) x (hbl i) hn hi]
    apply Finset.sum_congr rfl
    intro r hr
    rw [hb, List.getD_eq_getElem?_getD, List.getElem?_map, List.getElem?_range (Finset.mem_range.1 hr)]
    rfl
  · intro solve hs
    rw [tryPeriodicInterpolate, periodicControlPoints, if_neg (by omega), hpc, ok_bind, hk2, ok_bind, subR_eq_ok (by omega), ok_bind,
      subR_eq_ok (by omega), ok_bind, subR_eq_ok (by omega), ok_bind, show ks.length - p - 2 = pts.length + p - 1 by omega, hrows, ok_bind]
    cases hsol : solve ((List.range pts.length).map row) pts with
    | none => rfl
    | some x =>
      obtain ⟨hxl, -⟩ := hs _ pts x (by simp) hrl hsol
      simp only []
      rw [mapM_ok (g := fun i => x.getD i 0) (fun i hi => getR_eq_getD 0 (by have := List.mem_range.1 hi; omega)), ok_bind]
      have hcps : x ++ (List.range p).map (fun i => x.getD i 0) =
          (List.range (pts.length + p)).map fun i => x.getD (i % pts.length) 0 := by
        apply List.ext_getElem
        · simp [hxl]
        · intro i h1 h2
          simp only [List.getElem_map, List.getElem_range]
          have hi : i < pts.length + p := by simpa using h2
          by_cases c1 : i < pts.length
          · rw [List.getElem_append_left (by omega), Nat.mod_eq_of_lt c1, List.getD_eq_getElem?_getD,
              List.getElem?_eq_getElem (by omega)]
            rfl
          · rw [List.getElem_append_right (by omega)]
            simp only [List.getElem_map, List.getElem_range]
            rw [show i = (i - pts.length) + pts.length by omega, Nat.add_mod_right, Nat.mod_eq_of_lt (by omega),
              show i - pts.length + pts.length - x.length = i - pts.length by omega]
      show Curve.tryNew p ((x ++ (List.range p).map (fun i => x.getD i 0)).map homogenize) ks = _
      rw [hcps, Surface.tryNew_sorted (by simp; omega) (by simp [hkl]; omega) hsorted]

/-- The parameters of the data points. -/
theorem PeriodicSystem.at {eps : K} {dist : W → W → K} {sqrt : K → K} {pts : List W} {p : ℕ} {style : KnotStyle}
    {rows : List (List K)} {ks : List K} {k : ℕ → K} {T : K} (h : PeriodicSystem eps dist sqrt pts p style rows ks k T) :
    ∀ i, i ≤ pts.length → k (p + i) = k p + (Finset.range i).sum (segParam dist sqrt style pts) := by
  intro i
  induction i with
  | zero => intro _; simp
  | succ i ih =>
    intro hi
    rw [← add_assoc, h.step, ih (by omega), Finset.sum_range_succ, Nat.mod_eq_of_lt (by omega), add_assoc]

/-- The system of an odd degree is regular. -/
theorem PeriodicSystem.det {V : Type} [AddCommGroup V] [Module ℝ V] {eps : ℝ} {dist : V → V → ℝ} {sqrt : ℝ → ℝ} {pts : List V} {p : ℕ}
    {style : KnotStyle} {rows : List (List ℝ)} {ks : List ℝ} {k : ℕ → ℝ} {T : ℝ}
    (h : PeriodicSystem eps dist sqrt pts p style rows ks k T) (hodd : p % 2 = 1) (hn : p + 1 ≤ pts.length) :
    (rowsMatrix pts.length rows).det ≠ 0 := by
  intro hdet
  obtain ⟨x, hx0, hx⟩ := Matrix.exists_mulVec_eq_zero_iff.2 hdet
  apply hx0
  obtain ⟨r, hr⟩ : ∃ r, p = 2 * r - 1 ∧ 1 ≤ r := ⟨p / 2 + 1, by omega, by omega⟩
  have hlen : 0 < pts.length := by omega
  let y : ℕ → ℝ := fun j => x ⟨j % pts.length, Nat.mod_lt _ hlen⟩
  have hyper : ∀ j, y (j + pts.length) = y j := by
    intro j
    simp only [y, Nat.add_mod_right]
  have hymod : ∀ j, y (j % pts.length) = y j := by
    intro j
    simp only [y, Nat.mod_mod]
  have hzero := periodic_zero h.mono hr.2 (n := pts.length) (by omega) h.period hyper (fun i hi => by
    rw [← hr.1]
    have h1 := h.row ℝ i hi y
    have h2 : ((Finset.range pts.length).sum fun j => (rows.getD i []).getD j 0 • y j) = 0 := by
      have := congrFun hx ⟨i, hi⟩
      rw [Matrix.mulVec, dotProduct] at this
      rw [Finset.sum_range]
      refine Eq.trans ?_ this
      apply Finset.sum_congr rfl
      intro j _
      simp only [y, smul_eq_mul, Nat.mod_eq_of_lt j.2]
      rfl
    rw [h2] at h1
    have h3 := sum_NS_window (k := k) (p := p) (m := p + pts.length + 1) y (u := k (p + i)) (s := p + i) (by omega) (by omega)
    simp only [smul_eq_mul] at h1 h3
    rw [Finset.sum_congr rfl fun j _ => mul_comm (y j) _, h3, h1]
    apply Finset.sum_congr rfl
    intro j _
    rw [hymod, show p + i - p + j = i + j by omega])
  funext j
  have := hzero j.1 j.2
  simp only [y, Nat.mod_eq_of_lt j.2] at this
  exact this

/-- **C93**: periodic interpolation of odd degree through points with distinct neighbours (the last and the first included)
    succeeds for every knot style, and its result is the only curve of this degree and these knots with unit weights whose last
    control points repeat the first and which passes through the points. -/
theorem C93_odd {V : Type} [AddCommGroup V] [Module ℝ V] {eps : ℝ} {dist : V → V → ℝ} {sqrt : ℝ → ℝ}
    {solve : List (List ℝ) → List V → Option (List V)} {pts : List V} {p : ℕ} {style : KnotStyle}
    (hs : SolverSound solve) (hc : SolverRegular solve) (hodd : p % 2 = 1) (hn : p + 1 ≤ pts.length) (he : 0 ≤ eps)
    (hpos : ∀ i, i < pts.length → 0 < segParam dist sqrt style pts i)
    (h0 : eps ≤ segParam dist sqrt style pts 0) (h1 : eps ≤ segParam dist sqrt style pts (pts.length - 1)) :
    ∃ c, tryPeriodicInterpolate eps dist sqrt solve pts p style = .ok c ∧ c.Good eps ∧
      c.hi = c.lo + (Finset.range pts.length).sum (segParam dist sqrt style pts) ∧
      (∀ i, i < pts.length → c.pointAt eps (c.lo + (Finset.range i).sum (segParam dist sqrt style pts)) = .ok (pts.getD i 0)) ∧
      ∀ c' : Curve ℝ (V × ℝ), c'.degree = p → c'.knots = c.knots → c'.cps.length = pts.length + p → (∀ q ∈ c'.cps, q.2 = 1) →
        (∀ i, i < p → c'.cps.getD (pts.length + i) 0 = c'.cps.getD i 0) →
        (∀ i, i < pts.length → c'.pointAt eps (c'.lo + (Finset.range i).sum (segParam dist sqrt style pts)) = .ok (pts.getD i 0)) →
        c' = c := by
  obtain ⟨rows, ks, k, T, h⟩ := periodic_forward (eps := eps) (by omega) hn he hpos h0 h1
  have hdet := h.det hodd hn
  obtain ⟨x, hx⟩ := Option.ne_none_iff_exists'.1 (hc rows pts h.rows_len h.row_len hdet)
  have hsx := hs rows pts x h.rows_len h.row_len hx
  have hok := h.result solve hs
  rw [hx] at hok
  simp only [] at hok
  have hgood : ∀ c' : Curve ℝ (V × ℝ), c'.degree = p → c'.knots = ks → c'.cps.length = pts.length + p →
      c'.Good eps ∧ c'.lo = k p ∧ c'.hi = k (p + pts.length) := by
    intro c' d1 d2 d3
    refine ⟨⟨by omega, by rw [d1, d2, d3, h.ks_len]; omega, by rw [d1, d2, d3]; exact h.good⟩, ?_, ?_⟩
    · rw [lo, d1, d2, h.inner _ (by omega) (by omega)]
    · rw [hi, d2, d3, h.inner _ (by omega) (by omega), add_comm]
  -- the points of a curve with these knots
  have hpt : ∀ c' : Curve ℝ (V × ℝ), c'.degree = p → c'.knots = ks → c'.cps.length = pts.length + p → (∀ q ∈ c'.cps, q.2 = 1) →
      (∀ i, i < p → c'.cps.getD (pts.length + i) 0 = c'.cps.getD i 0) → ∀ i, i < pts.length →
      c'.pointAt eps (c'.lo + (Finset.range i).sum (segParam dist sqrt style pts)) =
        .ok ((Finset.range pts.length).sum fun j => (rows.getD i []).getD j 0 • (c'.cps.getD j 0).1) := by
    intro c' d1 d2 d3 d4 d5 i hi
    obtain ⟨b1, b2, b3⟩ := hgood c' d1 d2 d3
    have ht : c'.lo + (Finset.range i).sum (segParam dist sqrt style pts) = k (p + i) := by rw [b2, h.at i hi.le]
    rw [ht]
    have hin : InSpan (kf c'.knots) c'.hi (k (p + i)) (p + i) := by
      rw [InSpan, if_neg (by rw [b3]; exact (h.mono (by omega)).ne), d2, h.inner _ (by omega) (by omega), h.inner _ (by omega) (by omega)]
      exact ⟨le_refl _, h.mono (by omega)⟩
    rw [(C09_point_at_positive_weights b1 (fun q hq => by rw [d4 q hq]; exact one_pos)
      (by rw [b2]; exact h.mono.monotone (by omega)) (by rw [b3]; exact h.mono.monotone (by omega))).1]
    have hev := eval_eq_span b1 (s := p + i) (by omega) (by omega) hin
    have hNS : ∀ j, NS (kf c'.knots) (p + i) p j (k (p + i)) = NS k (p + i) p j (k (p + i)) := by
      intro j
      rw [d2]
      exact NS_congr_window p (fun l a c => h.inner l (by omega) (by omega)) _
    have hone : (c'.eval (k (p + i))).2 = 1 := by
      rw [hev, Prod.snd_sum, ← NS_sum_eq_one (k := kf c'.knots) (k (p + i)) c'.degree (s := p + i) (by omega)
        (fun i j hi hj hj' => ne_across b1.good.mono (inSpan_lt hin) i j hi hj (by omega))]
      apply Finset.sum_congr rfl
      intro r hr
      have hr' := Finset.mem_range.1 hr
      have hlt : p + i - c'.degree + r < c'.cps.length := by omega
      have hm : c'.cps.getD (p + i - c'.degree + r) 0 ∈ c'.cps := by
        rw [List.getD_eq_getElem?_getD, List.getElem?_eq_getElem hlt]; exact List.getElem_mem _
      rw [Prod.smul_snd, d4 _ hm, smul_eq_mul, mul_one]
    rw [hone, inv_one, one_smul, hev, h.row V i hi fun j => (c'.cps.getD j 0).1, Prod.fst_sum, d1]
    congr 1
    apply Finset.sum_congr rfl
    intro r hr
    have hr' := Finset.mem_range.1 hr
    rw [Prod.smul_fst, show p + i - p + r = i + r by omega, hNS]
    congr 2
    rcases Nat.lt_or_ge (i + r) pts.length with hlt | hge
    · rw [Nat.mod_eq_of_lt hlt]
    · obtain ⟨l, hl⟩ : ∃ l, i + r = pts.length + l := ⟨i + r - pts.length, by omega⟩
      rw [hl, Nat.add_mod_left, Nat.mod_eq_of_lt (by omega)]
      rcases Nat.lt_or_ge l p with hlp | hlp
      · rw [d5 l hlp]
      · omega
  obtain ⟨c, hcdef⟩ : ∃ c : Curve ℝ (V × ℝ),
    c = ⟨p, ((List.range (pts.length + p)).map fun i => x.getD (i % pts.length) 0).map homogenize, ks⟩ := ⟨_, rfl⟩
  rw [← hcdef] at hok
  have c1 : c.degree = p := by rw [hcdef]
  have c2 : c.knots = ks := by rw [hcdef]
  have c3 : c.cps.length = pts.length + p := by rw [hcdef]; simp
  have hget : ∀ j, j < pts.length + p → c.cps.getD j 0 = (x.getD (j % pts.length) 0, (1 : ℝ)) := by
    intro j hj
    rw [hcdef]
    simp only [List.map_map]
    rw [List.getD_eq_getElem?_getD, List.getElem?_map, List.getElem?_range hj]
    rfl
  have c4 : ∀ q ∈ c.cps, q.2 = 1 := by
    intro q hq
    rw [hcdef] at hq
    simp only [List.map_map, List.mem_map] at hq
    obtain ⟨_, _, rfl⟩ := hq
    rfl
  have c5 : ∀ i, i < p → c.cps.getD (pts.length + i) 0 = c.cps.getD i 0 := by
    intro i hi
    rw [hget _ (by omega), hget _ (by omega), Nat.add_mod_left]
  obtain ⟨g1, g2, g3⟩ := hgood c c1 c2 c3
  refine ⟨c, hok, g1, by rw [g2, g3, h.at _ (le_refl _)], fun i hi => ?_, fun c' d1 d2 d3 d4 d5 d6 => ?_⟩
  · rw [hpt c c1 c2 c3 c4 c5 i hi, ← hsx.2 i hi]
    congr 1
    apply Finset.sum_congr rfl
    intro j hj
    have hj' := Finset.mem_range.1 hj
    rw [hget j (by omega), Nat.mod_eq_of_lt hj']
  · rw [c2] at d2
    have hsolves : Solves rows pts ((c'.cps.map Prod.fst).take pts.length) := by
      refine ⟨by simp; omega, fun i hi => ?_⟩
      have := d6 i hi
      rw [hpt c' d1 d2 d3 d4 d5 i hi] at this
      rw [← Except.ok.inj this]
      apply Finset.sum_congr rfl
      intro j hj
      have hj' := Finset.mem_range.1 hj
      rw [List.getD_eq_getElem?_getD (l := List.take _ _), List.getElem?_take, if_pos hj', List.getElem?_map,
        List.getD_eq_getElem?_getD (l := c'.cps), List.getElem?_eq_getElem (by omega)]
      rfl
    have hxeq := (exists_unique_solves (W := V) hdet).2 _ _ hsolves hsx
    have hfirst : ∀ j, j < pts.length → c'.cps.getD j 0 = (x.getD j 0, (1 : ℝ)) := by
      intro j hj
      have hm : c'.cps.getD j 0 ∈ c'.cps := by
        rw [List.getD_eq_getElem?_getD, List.getElem?_eq_getElem (by omega)]; exact List.getElem_mem _
      refine Prod.ext ?_ (d4 _ hm)
      rw [← hxeq, List.getD_eq_getElem?_getD (l := List.take _ _), List.getElem?_take, if_pos hj, List.getElem?_map,
        List.getD_eq_getElem?_getD (l := c'.cps), List.getElem?_eq_getElem (by omega)]
      rfl
    have hall : ∀ j, j < pts.length + p → c'.cps.getD j 0 = c.cps.getD j 0 := by
      intro j hj
      rw [hget j hj]
      rcases Nat.lt_or_ge j pts.length with hlt | hge
      · rw [hfirst j hlt, Nat.mod_eq_of_lt hlt]
      · obtain ⟨l, rfl⟩ : ∃ l, j = pts.length + l := ⟨j - pts.length, by omega⟩
        rw [d5 l (by omega), hfirst l (by omega), Nat.add_mod_left, Nat.mod_eq_of_lt (by omega)]
    have hcps : c'.cps = c.cps := by
      apply List.ext_getElem (by omega)
      intro j a b
      have := hall j (by omega)
      rwa [List.getD_eq_getElem?_getD, List.getElem?_eq_getElem a, List.getD_eq_getElem?_getD, List.getElem?_eq_getElem b] at this
    cases c'
    cases c
    simp only at *
    subst d1 d2 hcps c1 c2
    rfl

/-! ### Even degrees -/

theorem alternate_shift {V : Type} [AddCommGroup V] [Module K V] {n : ℕ} (hn : n % 2 = 0) {Y : ℕ → V} (hY : ∀ i, Y (i + n) = Y i) :
    ∀ r, ((Finset.range n).sum fun i => (-1 : K) ^ i • Y (i + r)) = (-1 : K) ^ r • (Finset.range n).sum fun i => (-1 : K) ^ i • Y i := by
  intro r
  induction r with
  | zero => simp
  | succ r ih =>
    rw [pow_succ, mul_comm, mul_smul, ← ih, neg_one_smul, ← Finset.sum_neg_distrib]
    have e : ∀ i, (-1 : K) ^ i • Y (i + (r + 1)) = -((-1 : K) ^ (i + 1) • Y (i + 1 + r)) := by
      intro i
      rw [pow_succ, mul_comm, mul_smul, neg_one_smul, neg_neg]
      congr 2; omega
    simp only [e]
    rw [Finset.sum_neg_distrib, Finset.sum_neg_distrib, neg_inj]
    have h1 := Finset.sum_range_succ' (fun i => (-1 : K) ^ i • Y (i + r)) n
    rw [Finset.sum_range_succ] at h1
    have h2 : (-1 : K) ^ n • Y (n + r) = (-1 : K) ^ 0 • Y (0 + r) := by
      rw [Even.neg_one_pow (Nat.even_iff.2 hn), add_comm n r, hY, zero_add, pow_zero]
    rw [h2] at h1
    exact (add_right_cancel h1).symm

/-- On equally spaced knots the alternating sum of the basis functions of an even degree vanishes at a knot. -/
theorem alternate_basis {k : ℕ → K} {h a : K} (hh : 0 < h) (hk : ∀ j, k j = a + h * j) {p : ℕ} (hp : p % 2 = 0) (hp0 : 0 < p) (i : ℕ) :
    ((Finset.range (p + 1)).sum fun r => (-1 : K) ^ r * NS k (p + i) p (i + r) (k (p + i))) = 0 := by
  have hmono : StrictMono k := by
    intro x y hxy
    rw [hk, hk]
    have : (x : K) < y := by exact_mod_cast hxy
    have := mul_lt_mul_of_pos_left this hh
    linarith
  have hlast : NS k (p + i) p (i + p) (k (p + i)) = 0 := by
    obtain ⟨q, rfl⟩ : ∃ q, p = q + 1 := ⟨p - 1, by omega⟩
    simp only [NS]
    rw [show i + (q + 1) = q + 1 + i by omega, sub_self, zero_div, zero_mul, zero_add, NS_eq_zero_right _ _ _ _ _ (by omega), mul_zero]
  rw [Finset.sum_range_succ, hlast, mul_zero, add_zero]
  have hsym : ∀ r, r < p → NS k (p + i) p (i + r) (k (p + i)) = NS k (p + i) p (i + (p - 1 - r)) (k (p + i)) := by
    intro r hr
    have hc := NS_cont (k := k) (s := p + i - 1) (s₁ := p + i) (u := k (p + i)) (by omega)
      (fun j a b => by rw [show j = p + i by omega]) (hmono (by omega)).ne (hmono (by omega)).ne' p (by omega) (i + r)
    have hm := NS_mirror (k := k) (k' := k) (c := 2 * k (p + i)) (u := k (p + i)) (M := 2 * (p + i)) (s := p + i)
      (fun j hj => by
        rw [hk, hk, hk, Nat.cast_sub hj]
        push_cast
        ring) (by omega) p (i + r) (by omega)
    rw [show 2 * (p + i) - 1 - (p + i) = p + i - 1 by omega, show 2 * (p + i) - 1 - p - (i + r) = i + (p - 1 - r) by omega,
      show 2 * k (p + i) - k (p + i) = k (p + i) by ring] at hm
    rw [hc, hm]
  have hneg : ((Finset.range p).sum fun r => (-1 : K) ^ r * NS k (p + i) p (i + r) (k (p + i))) =
      -((Finset.range p).sum fun r => (-1 : K) ^ r * NS k (p + i) p (i + r) (k (p + i))) := by
    conv_lhs => rw [← Finset.sum_range_reflect]
    rw [← Finset.sum_neg_distrib]
    apply Finset.sum_congr rfl
    intro r hr
    have hr' := Finset.mem_range.1 hr
    rw [← hsym r hr', ← neg_mul]
    congr 1
    have : (-1 : K) ^ (p - 1 - r) * (-1) ^ r = -1 := by
      rw [← pow_add, show p - 1 - r + r = p - 1 by omega]
      exact Odd.neg_one_pow (Nat.odd_iff.2 (by omega))
    have h1 : (-1 : K) ^ r * (-1) ^ r = 1 := by rw [← pow_add, ← two_mul, pow_mul]; simp
    calc (-1 : K) ^ (p - 1 - r) = (-1 : K) ^ (p - 1 - r) * ((-1 : K) ^ r * (-1) ^ r) := by rw [h1, mul_one]
      _ = -(-1) ^ r := by rw [← mul_assoc, this, neg_one_mul]
  linarith

/-- **C93**: periodic interpolation of even degree through an even number of points whose segments all have the same parameter
    length (as always with the uniform style) fails, unless the alternating sum of the points is zero. -/
theorem C93_even_fails {eps : K} {dist : W → W → K} {sqrt : K → K} {solve : List (List K) → List W → Option (List W)}
    {pts : List W} {p : ℕ} {style : KnotStyle} {h : K} (hs : SolverSound solve) (hp : p % 2 = 0) (hp0 : 0 < p)
    (hn : p + 1 ≤ pts.length) (hev : pts.length % 2 = 0) (he : 0 ≤ eps) (hh : 0 < h) (heh : eps ≤ h)
    (hseg : ∀ i, i < pts.length → segParam dist sqrt style pts i = h)
    (hne : ((Finset.range pts.length).sum fun i => (-1 : K) ^ i • pts.getD i 0) ≠ 0) :
    tryPeriodicInterpolate eps dist sqrt solve pts p style = .error .err := by
  obtain ⟨rows, ks, k, T, hsys⟩ := periodic_forward (eps := eps) (dist := dist) (sqrt := sqrt) (style := style) (pts := pts) (p := p)
    (by omega) hn he (fun i hi => by rw [hseg i hi]; exact hh) (by rw [hseg 0 (by omega)]; exact heh)
    (by rw [hseg _ (by omega)]; exact heh)
  rw [hsys.result solve hs]
  cases hsol : solve rows pts with
  | none => rfl
  | some x =>
    exfalso
    apply hne
    obtain ⟨hxl, hx⟩ := hs rows pts x hsys.rows_len hsys.row_len hsol
    have hk : ∀ j, k j = k 0 + h * j := by
      have hstep : ∀ j, k (p + j + 1) = k (p + j) + h := fun j => by rw [hsys.step, hseg _ (Nat.mod_lt _ (by omega))]
      have hstep' : ∀ j, k (j + 1) = k j + h := by
        intro j
        have h1 := hsys.period j
        have h2 := hsys.period (j + 1)
        have h3 := hstep (j + pts.length - p)
        rw [show p + (j + pts.length - p) = j + pts.length by omega] at h3
        rw [show j + 1 + pts.length = j + pts.length + 1 by omega, h3, h1] at h2
        linarith
      intro j
      induction j with
      | zero => simp
      | succ j ih => rw [hstep', ih]; push_cast; ring
    -- the basis values do not depend on the row
    have hb : ∀ i r, NS k (p + i) p (i + r) (k (p + i)) = NS k (p + 0) p (0 + r) (k (p + 0)) := by
      intro i r
      rw [add_comm i r, ← NS_shift]
      have : (fun j => k (j + i)) = fun j => 1 * k j + h * i := by
        funext j
        rw [hk, hk j]; push_cast; ring
      rw [this, show k (p + i) = 1 * k (p + 0) + h * i by rw [hk, hk (p + 0)]; push_cast; ring, NS_affine one_ne_zero]
      simp
    let Y : ℕ → W := fun j => x.getD (j % pts.length) 0
    have hY : ∀ j, Y (j + pts.length) = Y j := fun j => by simp only [Y, Nat.add_mod_right]
    have e : ∀ i ∈ Finset.range pts.length, (-1 : K) ^ i • pts.getD i 0 =
        (Finset.range (p + 1)).sum fun r => NS k (p + 0) p (0 + r) (k (p + 0)) • ((-1 : K) ^ i • Y (i + r)) := by
      intro i hi
      have hi' := Finset.mem_range.1 hi
      rw [← hx i hi', hsys.row W i hi' fun j => x.getD j 0, Finset.smul_sum]
      apply Finset.sum_congr rfl
      intro r _
      rw [hb i r, smul_comm]
    rw [Finset.sum_congr rfl e, Finset.sum_comm]
    simp only [← Finset.smul_sum]
    rw [Finset.sum_congr rfl fun r _ => by rw [alternate_shift hev hY r, smul_smul], ← Finset.sum_smul]
    have := alternate_basis hh hk hp hp0 0
    rw [Finset.sum_congr rfl fun r _ => mul_comm (NS k (p + 0) p (0 + r) (k (p + 0))) _, this, zero_smul]

/-! ### Concrete cases -/

/-- The corners of a quadrilateral. -/
def exQuad : List (ℝ × ℝ) := [(0, 0), (2, 0), (3, 3), (0, 1)]

/-- A cubic through them exists, in the uniform style; there is also one of degree one, but none of degree two. -/
example : ∃ c, tryPeriodicInterpolate (1/1000) (fun _ _ => (0 : ℝ)) id idealSolver exQuad 3 .uniform = .ok c ∧
    c.pointAt (1/1000) (c.lo + 1/3 + 1/3) = .ok (3, 3) := by
  have hseg : ∀ i, segParam (fun _ _ => (0 : ℝ)) id .uniform exQuad i = 1 / 3 := fun i => by norm_num [segParam, exQuad]
  obtain ⟨c, hc, -, -, hpass, -⟩ := C93_odd (eps := 1/1000) (dist := fun _ _ => (0 : ℝ)) (sqrt := id) (style := .uniform) (pts := exQuad)
    (p := 3) idealSolver_sound idealSolver_regular (by norm_num) (by norm_num [exQuad]) (by norm_num)
    (fun i _ => by rw [hseg]; norm_num) (by rw [hseg]; norm_num) (by rw [hseg]; norm_num)
  refine ⟨c, hc, ?_⟩
  have := hpass 2 (by norm_num [exQuad])
  rw [Finset.sum_range_succ, Finset.sum_range_one, hseg, hseg, ← add_assoc] at this
  exact this

example (solve : List (List ℝ) → List (ℝ × ℝ) → Option (List (ℝ × ℝ))) (hs : SolverSound solve) :
    tryPeriodicInterpolate (1/1000) (fun _ _ => (0 : ℝ)) id solve exQuad 2 .uniform = .error .err := by
  refine C93_even_fails (h := 1/3) hs (by norm_num) (by norm_num) (by norm_num [exQuad]) (by norm_num [exQuad]) (by norm_num)
    (by norm_num) (by norm_num) (fun i _ => by norm_num [segParam, exQuad]) ?_
  norm_num [exQuad, Finset.sum_range_succ]

end Curvo.Props

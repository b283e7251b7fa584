/-
  Property theorems about bounding boxes, reversals and samples of curves in floating point arithmetic: C118.
-/
import Verif.Model.RoundedOps
import Verif.Props.RoundedRefine
import Verif.Props.BBox

set_option linter.unusedSectionVars false
set_option linter.unusedSimpArgs false

namespace Curvo.Props

open Curvo Curvo.Knots Curvo.Spec

variable {K : Type} [Field K] [LinearOrder K] [IsStrictOrderedRing K] {d : ℕ}

/-! ### Without rounding -/

theorem invertGo_exact : ∀ (l : List K) (p : K), Rounded.invertGo (fun x => x) p l = invertGo p l
  | a :: b :: rest, p => by rw [Rounded.invertGo, invertGo, invertGo_exact (b :: rest)]
  | [_], _ => rfl
  | [], _ => rfl

/-- Without rounding the functions are those of the exact model. -/
theorem C118_exact (eps big tol start stop : K) (c : Curve K ((Fin d → K) × K)) (a b : Box K d) (n : ℕ) :
    Rounded.invert (fun x => x) c = c.invert ∧ Rounded.boxOfCurve (fun x => x) big c = Box.ofCurve big c ∧
      Rounded.intersects (fun x => x) tol a b = Box.intersects tol a b ∧
      Rounded.sampleRegularRange (fun x => x) eps c start stop n = c.sampleRegularRange eps start stop n := by
  refine ⟨?_, ?_, rfl, ?_⟩
  · simp only [Rounded.invert, Curve.invert, Rounded.invertKnots, Knots.invert, invertGo_exact]
  · simp only [Rounded.boxOfCurve, Box.ofCurve, Rounded.dehomogenizedCps, Curve.dehomogenizedCps, dehomogenize_exact]
  · simp only [Rounded.sampleRegularRange, Curve.sampleRegularRange, Rounded.sampleParameter, bind_assoc, pure_bind]
    have : ∀ t, Rounded.pointAt (fun x => x) eps c t = c.pointAt eps t := fun t => (C99_exact eps c ⟨0, 0, [], [], []⟩ t t).1
    simp only [this]

/-! ### Bounding boxes -/

section boxes
variable {fl : K → K} {μ : K}

theorem Rounds.nonneg_of (h : Rounds fl μ) {x : K} (hx : 0 ≤ x) : 0 ≤ fl x := by rw [← h.zero]; exact h.mono _ _ hx

theorem Rounds.nonpos_of (h : Rounds fl μ) {x : K} (hx : x ≤ 0) : fl x ≤ 0 := by
  have := h.mono _ _ hx
  rwa [h.zero] at this

theorem rounded_dehomogenizedCps (fl : K → K) {c : Curve K ((Fin d → K) × K)} (hw : ∀ q ∈ c.cps, 0 < q.2) :
    Rounded.dehomogenizedCps fl c = .ok (c.cps.map fun q => fun i => fl (q.1 i / q.2)) := by
  unfold Rounded.dehomogenizedCps
  apply mapM_ok
  intro q hq
  rw [Rounded.dehomogenize, if_pos (hw q hq).ne']; rfl

/-- The computed bounding box contains the exact curve up to one rounding. -/
theorem box_near (h : Rounds fl μ) {eps big : K} {c : Curve K ((Fin d → K) × K)} (hg : c.Good eps) (hw : ∀ q ∈ c.cps, 0 < q.2) :
    ∃ box, Rounded.boxOfCurve fl big c = .ok box ∧ ∀ t, c.lo ≤ t → t ≤ c.hi → ∃ x, c.pointAt eps t = .ok x ∧
      ∀ (i : Fin d) (M : K), (∀ q ∈ c.cps, |q.1 i / q.2| ≤ M) → box.min i - μ * M ≤ x i ∧ x i ≤ box.max i + μ * M := by
  refine ⟨_, by rw [Rounded.boxOfCurve, rounded_dehomogenizedCps fl hw]; rfl, fun t h1 h2 => ?_⟩
  obtain ⟨e, hpos⟩ := C09_point_at_positive_weights hg hw h1 h2
  refine ⟨_, e, fun i M hM => ?_⟩
  obtain ⟨_, m1, _, _⟩ := foldl_extend (c.cps.map fun q => fun i => fl (q.1 i / q.2)) (⟨fun _ => big, fun _ => -big⟩ : Box K d)
  have near : ∀ q ∈ c.cps, |fl (q.1 i / q.2) - q.1 i / q.2| ≤ μ * M := fun q hq =>
    (h.err _).trans (mul_le_mul_of_nonneg_left (hM q hq) h.nonneg)
  have cq : ∀ q : (Fin d → K) × K, coord i (q.2⁻¹ • q.1) = q.1 i / q.2 := fun q => by
    simp [coord, div_eq_inv_mul]
  constructor
  · obtain ⟨q, hq, hle⟩ := C10_half_space hg hw h1 h2 (-coord i)
      (-((Box.ofPoints big (c.cps.map fun q => fun i => fl (q.1 i / q.2))).min i - μ * M)) (by
        intro p hp
        rw [LinearMap.neg_apply, cq]
        have a := (m1 _ (List.mem_map_of_mem hp) i).1
        have b := abs_le.1 (near p hp)
        have a' : (Box.ofPoints big (c.cps.map fun q => fun i => fl (q.1 i / q.2))).min i ≤ fl (p.1 i / p.2) := a
        linarith [b.2])
    rw [e] at hq
    cases hq
    rw [LinearMap.neg_apply] at hle
    exact neg_le_neg_iff.1 hle
  · obtain ⟨q, hq, hle⟩ := C10_half_space hg hw h1 h2 (coord i)
      ((Box.ofPoints big (c.cps.map fun q => fun i => fl (q.1 i / q.2))).max i + μ * M) (by
        intro p hp
        rw [cq]
        have a' : fl (p.1 i / p.2) ≤ (Box.ofPoints big (c.cps.map fun q => fun i => fl (q.1 i / q.2))).max i :=
          (m1 _ (List.mem_map_of_mem hp) i).2
        have b := abs_le.1 (near p hp)
        linarith [b.1])
    rw [e] at hq
    cases hq
    exact hle

/-- **C118**: the computed points of a curve lie in its computed bounding box up to the rounding errors, which do not depend on
    the number of control points. -/
theorem C118_box (h : Rounds fl μ) {eps big : K} {c : Curve K ((Fin d → K) × K)} (hg : c.Good eps) (hw : ∀ q ∈ c.cps, 0 < q.2)
    (hks : ∀ k ∈ c.knots, fl k = k) :
    ∃ box, Rounded.boxOfCurve fl big c = .ok box ∧ ∀ t, c.lo ≤ t → t ≤ c.hi → ∃ x', Rounded.pointAt fl eps c t = .ok x' ∧
      ∀ (i : Fin d) (M : K), (∀ q ∈ c.cps, |q.1 i / q.2| ≤ M) →
        box.min i - (((1 - μ) ^ (14 * c.degree + 5))⁻¹ - 1 + μ) * M ≤ x' i ∧
        x' i ≤ box.max i + (((1 - μ) ^ (14 * c.degree + 5))⁻¹ - 1 + μ) * M := by
  obtain ⟨box, e, hb⟩ := box_near (big := big) h hg hw
  refine ⟨box, e, fun t h1 h2 => ?_⟩
  obtain ⟨x, ex, hx⟩ := hb t h1 h2
  obtain ⟨y, x', ey, ex', hx'⟩ := C99_curve h hg hw hks h1 h2
  rw [ex] at ey
  cases ey
  refine ⟨x', ex', fun i M hM => ?_⟩
  have a := hx i M hM
  have b := abs_le.1 (hx' i M hM)
  constructor <;> nlinarith [a.1, a.2, b.1, b.2]

theorem overlap_rounded (h : Rounds fl μ) {tol min0 max0 min1 max1 : K} (h1 : min1 - tol ≤ max0 + tol) (h2 : min0 - tol ≤ max1 + tol) :
    Rounded.overlap1 fl tol min0 max0 min1 max1 = true := by
  have d0 : fl (fl (min1 - tol) - fl (max0 + tol)) ≤ 0 := h.nonpos_of (sub_nonpos.2 (h.mono _ _ h1))
  have d1 : 0 ≤ fl (fl (max1 + tol) - fl (min0 - tol)) := h.nonneg_of (sub_nonneg.2 (h.mono _ _ h2))
  have := h.nonpos_of (mul_nonpos_of_nonpos_of_nonneg d0 d1)
  simpa [Rounded.overlap1] using this

/-- **C118**: the test for overlapping boxes has no false negatives: whatever the rounding, boxes with a common point pass, with
    every tolerance that is not negative. -/
theorem C118_overlap (h : Rounds fl μ) {tol : K} (ht : 0 ≤ tol) {a b : Box K d} {x : Fin d → K} (ha : a.contains x = true)
    (hb : b.contains x = true) : Rounded.intersects fl tol a b = true := by
  rw [contains_iff] at ha hb
  rw [Rounded.intersects, List.all_eq_true]
  intro i _
  exact overlap_rounded h (by linarith [(ha i).2, (hb i).1]) (by linarith [(ha i).1, (hb i).2])

/-- **C118**: the computed boxes of two curves that meet pass the test, if the tolerance is at least one rounding of the largest
    coordinate: floating point arithmetic does not make the search for intersections drop a pair of curves that meet. -/
theorem C118_meeting_curves (h : Rounds fl μ) {eps big tol : K} {a b : Curve K ((Fin d → K) × K)} (ga : a.Good eps) (gb : b.Good eps)
    (wa : ∀ q ∈ a.cps, 0 < q.2) (wb : ∀ q ∈ b.cps, 0 < q.2) {s t : K} (s1 : a.lo ≤ s) (s2 : s ≤ a.hi) (t1 : b.lo ≤ t) (t2 : t ≤ b.hi)
    (meet : a.pointAt eps s = b.pointAt eps t) {M : K} (ma : ∀ i, ∀ q ∈ a.cps, |q.1 i / q.2| ≤ M)
    (mb : ∀ i, ∀ q ∈ b.cps, |q.1 i / q.2| ≤ M) (ht : μ * M ≤ tol) :
    ∃ A B, Rounded.boxOfCurve fl big a = .ok A ∧ Rounded.boxOfCurve fl big b = .ok B ∧ Rounded.intersects fl tol A B = true := by
  obtain ⟨A, eA, hA⟩ := box_near (big := big) h ga wa
  obtain ⟨B, eB, hB⟩ := box_near (big := big) h gb wb
  refine ⟨A, B, eA, eB, ?_⟩
  obtain ⟨x, ex, hx⟩ := hA s s1 s2
  obtain ⟨y, ey, hy⟩ := hB t t1 t2
  rw [ex, ey] at meet
  obtain rfl := Except.ok.inj meet
  rw [Rounded.intersects, List.all_eq_true]
  intro i _
  have a := hx i M (ma i)
  have b := hy i M (mb i)
  exact overlap_rounded h (by linarith [a.2, b.1]) (by linarith [a.1, b.2])

end boxes

/-! ### Reversing -/

section reversing
variable {fl : K → K} {μ : K}

theorem invertGo_length (fl : K → K) : ∀ (l : List K) (p : K), (Rounded.invertGo fl p l).length = l.length - 1
  | a :: b :: rest, p => by rw [Rounded.invertGo, List.length_cons, invertGo_length fl (b :: rest)]; simp
  | [_], _ => rfl
  | [], _ => rfl

/-- Every step of the reversal: the next knot is the last one plus the difference, both rounded. -/
theorem invertGo_step (fl : K → K) : ∀ (l : List K) (p : K) (i : ℕ), i + 1 < l.length →
    kf (p :: Rounded.invertGo fl p l) (i + 1) = fl (kf (p :: Rounded.invertGo fl p l) i + fl (kf l i - kf l (i + 1)))
  | a :: b :: rest, p, 0, _ => by simp [Rounded.invertGo, kf]
  | a :: b :: rest, p, i + 1, hi => by
    have := invertGo_step fl (b :: rest) (fl (p + fl (a - b))) i (by simpa using hi)
    simpa [Rounded.invertGo, kf] using this
  | [_], _, _, hi => by simp at hi
  | [], _, _, hi => by simp at hi

theorem kf_reverse {ks : List K} {i : ℕ} (hi : i < ks.length) : kf ks.reverse i = kf ks (ks.length - 1 - i) := by
  rw [kf_eq (by simpa using hi), kf_eq (by omega), List.getElem_reverse]

theorem rounded_invert_step {ks ks' : List K} (e : Rounded.invertKnots fl ks = .ok ks') :
    ks'.length = ks.length ∧ kf ks' 0 = kf ks 0 ∧ ∀ i, i + 1 < ks.length →
      kf ks' (i + 1) = fl (kf ks' i + fl (kf ks (ks.length - 1 - i) - kf ks (ks.length - 1 - (i + 1)))) := by
  have hpos : 0 < ks.length := by
    by_contra hc
    have : ks = [] := by simpa using hc
    subst this
    simp [Rounded.invertKnots, getR] at e
  rw [Rounded.invertKnots, getR_eq_ok hpos] at e
  obtain rfl := Except.ok.inj e
  refine ⟨by simp [invertGo_length]; omega, by rw [kf_eq hpos]; rfl, fun i hi => ?_⟩
  rw [invertGo_step fl ks.reverse _ i (by simpa using hi), kf_reverse (by omega), kf_reverse (by omega)]

/-- **C118**: reversing in floating point keeps the number of knots, the first knot, the order of the knots and their repetitions,
    and every knot is the mirrored one up to about one rounding of the largest knot per step. -/
theorem C118_invert (h : Rounds fl μ) (idem : ∀ x, fl (fl x) = fl x) {ks : List K} (hne : ks ≠ []) (hsort : ks.Pairwise (· ≤ ·))
    (hks : ∀ k ∈ ks, fl k = k) :
    ∃ ks', Rounded.invertKnots fl ks = .ok ks' ∧ ks'.length = ks.length ∧ kf ks' 0 = kf ks 0 ∧ ks'.Pairwise (· ≤ ·) ∧
      (∀ k ∈ ks', fl k = k) ∧
      (∀ i, i + 1 < ks.length → kf ks (ks.length - 1 - i) = kf ks (ks.length - 1 - (i + 1)) → kf ks' (i + 1) = kf ks' i) ∧
      ∀ M, (∀ k ∈ ks, |k| ≤ M) → ∀ i, i < ks.length →
        |kf ks' i - (kf ks 0 + kf ks (ks.length - 1) - kf ks (ks.length - 1 - i))| ≤
          μ * (1 + μ) ^ (i + 1) * (i * M + (kf ks (ks.length - 1) - kf ks (ks.length - 1 - i))) := by
  have hpos : 0 < ks.length := List.length_pos_iff.2 hne
  obtain ⟨ks', e⟩ : ∃ ks', Rounded.invertKnots fl ks = .ok ks' := ⟨_, by rw [Rounded.invertKnots, getR_eq_ok hpos]; rfl⟩
  obtain ⟨hl, h0, hstep⟩ := rounded_invert_step e
  have hm := mono_of_sorted (m := ks.length - 1) hsort (by omega)
  have mem : ∀ i, i < ks.length → kf ks i ∈ ks := fun i hi => by rw [kf_eq hi]; exact List.getElem_mem _
  have hfix : ∀ i, i < ks.length → fl (kf ks' i) = kf ks' i := by
    intro i hi
    cases i with
    | zero => rw [h0]; exact hks _ (mem 0 hpos)
    | succ i => rw [hstep i hi]; exact idem _
  have hup : ∀ i, i + 1 < ks.length → kf ks' i ≤ kf ks' (i + 1) := by
    intro i hi
    rw [hstep i hi]
    conv_lhs => rw [← hfix i (by omega)]
    apply h.mono
    have := h.nonneg_of (sub_nonneg.2 (hm (ks.length - 1 - (i + 1)) (ks.length - 1 - i) (by omega) (by omega)))
    linarith
  refine ⟨ks', e, hl, h0, ?_, ?_, ?_, ?_⟩
  · rw [← List.isChain_iff_pairwise, List.isChain_iff_getElem]
    intro i hi
    have := hup i (by omega)
    rwa [kf_eq (by omega), kf_eq (by omega)] at this
  · intro k hk
    obtain ⟨i, hi, rfl⟩ := List.mem_iff_getElem.1 hk
    have := hfix i (by omega)
    rwa [kf_eq hi] at this
  · intro i hi he
    rw [hstep i hi, he, sub_self, h.zero, add_zero, hfix i (by omega)]
  · intro M hM i
    have hMμ := h.nonneg
    have hM0 : 0 ≤ M := (abs_nonneg _).trans (hM _ (mem 0 hpos))
    induction i with
    | zero => intro _; rw [h0]; simp
    | succ i ih =>
      intro hi
      have ih := ih (by omega)
      set L := kf ks (ks.length - 1) with hL
      set x := kf ks (ks.length - 1 - i) with hx
      set y := kf ks (ks.length - 1 - (i + 1)) with hy
      set m := kf ks 0 with hm0
      have hxy : y ≤ x := hm _ _ (by omega) (by omega)
      have hxL : x ≤ L := hm _ _ (by omega) (by omega)
      have hmy : m ≤ y := hm _ _ (by omega) (by omega)
      have aL := abs_le.1 (hM _ (mem (ks.length - 1) (by omega)))
      have am := abs_le.1 (hM _ (mem 0 hpos))
      rw [← hL] at aL
      rw [← hm0] at am
      have ex : |m + L - y| ≤ M := abs_le.2 ⟨by linarith, by linarith⟩
      have e1 := h.err (x - y)
      rw [abs_of_nonneg (sub_nonneg.2 hxy)] at e1
      have e2 := h.err (kf ks' i + fl (x - y))
      rw [hstep i hi]
      set z := kf ks' i with hz
      set f := fl (x - y) with hf
      have e3 : |z + f| ≤ M + |z - (m + L - x)| + μ * (x - y) := by
        calc |z + f| = |(m + L - y) + (z - (m + L - x)) + (f - (x - y))| := by congr 1; ring
          _ ≤ |m + L - y| + |z - (m + L - x)| + |f - (x - y)| := (abs_add_le _ _).trans (add_le_add_left (abs_add_le _ _) _)
          _ ≤ _ := by linarith
      have e4 : |fl (z + f) - (m + L - y)| ≤ (1 + μ) * |z - (m + L - x)| + μ * (1 + μ) * (x - y) + μ * M := by
        calc |fl (z + f) - (m + L - y)| = |(fl (z + f) - (z + f)) + (z - (m + L - x)) + (f - (x - y))| := by congr 1; ring
          _ ≤ |fl (z + f) - (z + f)| + |z - (m + L - x)| + |f - (x - y)| := (abs_add_le _ _).trans (add_le_add_left (abs_add_le _ _) _)
          _ ≤ μ * (M + |z - (m + L - x)| + μ * (x - y)) + |z - (m + L - x)| + μ * (x - y) := by
            have := mul_le_mul_of_nonneg_left e3 hMμ
            linarith
          _ = _ := by ring
      refine e4.trans ?_
      have p1 : (1 : K) ≤ (1 + μ) ^ (i + 1) := one_le_pow₀ (by linarith)
      have p2 : 1 + μ ≤ (1 + μ) ^ (i + 2) := by
        rw [pow_succ]
        have : (1 : K) * (1 + μ) ≤ (1 + μ) ^ (i + 1) * (1 + μ) := mul_le_mul_of_nonneg_right p1 (by linarith)
        linarith
      have g1 : (1 + μ) * |z - (m + L - x)| ≤ (1 + μ) * (μ * (1 + μ) ^ (i + 1) * (i * M + (L - x))) :=
        mul_le_mul_of_nonneg_left ih (by linarith)
      have g2 : μ * (1 + μ) * (x - y) ≤ μ * (1 + μ) ^ (i + 2) * (x - y) := by
        refine mul_le_mul_of_nonneg_right (mul_le_mul_of_nonneg_left p2 hMμ) (by linarith)
      have g3 : μ * M ≤ μ * (1 + μ) ^ (i + 2) * M := by
        refine mul_le_mul_of_nonneg_right ?_ hM0
        have := mul_le_mul_of_nonneg_left p2 hMμ
        nlinarith
      push_cast
      calc _ ≤ (1 + μ) * (μ * (1 + μ) ^ (i + 1) * (i * M + (L - x))) + μ * (1 + μ) ^ (i + 2) * (x - y) + μ * (1 + μ) ^ (i + 2) * M := by
            linarith
        _ = _ := by ring

end reversing

/-! ### Samples -/

section samples
variable {fl : K → K} {μ : K}

/-- **C118**: the parameters of regular samples start exactly at the start, come in order and are the exact ones up to a few roundings.
    The last one need not be the end of the range. -/
theorem C118_samples (h : Rounds fl μ) {start stop : K} (hs : fl start = start) (hle : start ≤ stop) {n : ℕ} (hn : 2 ≤ n)
    (hfn : fl ((n : K) - 1) = (n : K) - 1) :
    ∃ t : ℕ → K, (∀ i, Rounded.sampleParameter fl start stop n i = .ok (t i)) ∧ t 0 = start ∧ (∀ i j, i ≤ j → t i ≤ t j) ∧
      ∀ i : ℕ, i < n → |t i - (start + i * ((stop - start) / ((n : K) - 1)))| ≤
        (1 + μ) * (((1 - μ) ^ 3)⁻¹ - 1) * (stop - start) + μ * max |start| |stop| := by
  have hn1 : (0 : K) < (n : K) - 1 := by
    have : ((2 : ℕ) : K) ≤ (n : K) := Nat.cast_le.2 hn
    push_cast at this
    linarith
  set D := stop - start with hD
  have hD0 : 0 ≤ D := sub_nonneg.2 hle
  set q := fl (fl D / ((n : K) - 1)) with hq
  refine ⟨fun i => fl (start + fl ((i : K) * q)), fun i => ?_, ?_, ?_, ?_⟩
  · rw [Rounded.sampleParameter, hfn, divR, if_neg hn1.ne']
    rfl
  · simp only [Nat.cast_zero, zero_mul, h.zero, add_zero, hs]
  · intro i j hij
    have hq0 : 0 ≤ q := h.nonneg_of (div_nonneg (h.nonneg_of hD0) hn1.le)
    refine h.mono _ _ (add_le_add le_rfl (h.mono _ _ (mul_le_mul_of_nonneg_right ?_ hq0)))
    exact Nat.cast_le.2 hij
  · intro i hi
    have r1 := h.rel hD0
    have hi1 : (i : K) ≤ (n : K) - 1 := by
      have : ((i + 1 : ℕ) : K) ≤ (n : K) := Nat.cast_le.2 hi
      push_cast at this
      linarith
    set x := (i : K) * (D / ((n : K) - 1)) with hx
    have hx0 : 0 ≤ x := mul_nonneg (Nat.cast_nonneg _) (div_nonneg hD0 hn1.le)
    have hxD : x ≤ D := by
      rw [hx, ← mul_div_assoc, div_le_iff₀ hn1, mul_comm]
      exact mul_le_mul_of_nonneg_left hi1 hD0
    have hρ := h.rho_pos
    have hμ := h.nonneg
    have r2 := (r1.div hρ (Rel.refl hn1.le) hn1).round h
    have r3 := ((Rel.refl (ρ := 1 - μ) (Nat.cast_nonneg (α := K) i)).mul hρ r2).round h
    obtain ⟨-, a1, a2⟩ := r3
    simp only [Nat.reduceAdd, zero_add] at a1 a2
    change (1 - μ) ^ 3 * x ≤ fl ((i : K) * q) at a1
    change (1 - μ) ^ 3 * fl ((i : K) * q) ≤ x at a2
    set y := fl ((i : K) * q) with hy
    set r := (1 - μ) ^ 3 with hr
    have r0 : 0 < r := pow_pos hρ 3
    have r1' : r ≤ 1 := pow_le_one₀ hρ.le h.rho_le
    have hri : r * r⁻¹ = 1 := mul_inv_cancel₀ r0.ne'
    have hri1 : 1 ≤ r⁻¹ := (one_le_inv₀ r0).2 r1'
    have k1 : |y - x| ≤ (r⁻¹ - 1) * D := by
      have : |y - x| ≤ (r⁻¹ - 1) * x := by
        rw [abs_le]
        constructor
        · have : 2 - r ≤ r⁻¹ := by
            have := mul_le_mul_of_nonneg_left (sq_nonneg (1 - r)) (inv_pos.2 r0).le
            rw [mul_zero] at this
            nlinarith [mul_comm r r⁻¹]
          nlinarith
        · have := mul_le_mul_of_nonneg_left a2 (inv_pos.2 r0).le
          rw [← mul_assoc, mul_comm r⁻¹ r, hri, one_mul] at this
          linarith
      exact this.trans (mul_le_mul_of_nonneg_left hxD (by linarith))
    have k2 : |start + x| ≤ max |start| |stop| := by
      rw [abs_le]
      constructor
      · have := neg_abs_le start
        have := le_max_left |start| |stop|
        linarith
      · have := le_abs_self stop
        have := le_max_right |start| |stop|
        linarith
    have k3 := h.err (start + y)
    have k4 : |start + y| ≤ max |start| |stop| + (r⁻¹ - 1) * D := by
      calc |start + y| = |(start + x) + (y - x)| := by congr 1; ring
        _ ≤ _ := (abs_add_le _ _).trans (add_le_add k2 k1)
    calc |fl (start + y) - (start + x)| = |(fl (start + y) - (start + y)) + (y - x)| := by congr 1; ring
      _ ≤ |fl (start + y) - (start + y)| + |y - x| := abs_add_le _ _
      _ ≤ μ * (max |start| |stop| + (r⁻¹ - 1) * D) + (r⁻¹ - 1) * D := by
        have := mul_le_mul_of_nonneg_left k4 hμ
        linarith
      _ = _ := by ring

end samples

/-! ### Double precision: what reversing and sampling do not guarantee -/

section double

/-- A number less than half a unit in the last place away is rounded to the nearest number of 53 bits. -/
theorem Nearest.eq_of_near {fl : K → K} (h : Nearest (Binary64 K) fl) {m e : ℤ} (h1 : 2 ^ 52 < |m|) (h2 : |m| ≤ 2 ^ 53) {x : K}
    (hx : |x - m * 2 ^ e| < 2 ^ e / 2) : fl x = m * 2 ^ e := by
  obtain ⟨⟨k, f, hk, hz⟩, hnear⟩ := h x
  have hn := hnear (m * 2 ^ e) ⟨m, e, h2, rfl⟩
  rw [abs_sub_comm (m * 2 ^ e : K) x] at hn
  have hp : (0 : K) < 2 ^ e := zpow_pos (by norm_num) _
  have hd : |fl x - m * 2 ^ e| < 2 ^ e := by
    calc |fl x - m * 2 ^ e| = |(fl x - x) + (x - m * 2 ^ e)| := by congr 1; ring
      _ ≤ _ := abs_add_le _ _
      _ < _ := by linarith
  rcases le_or_gt e f with hef | hef
  · obtain ⟨n, rfl⟩ : ∃ n : ℕ, f = e + n := ⟨(f - e).toNat, by omega⟩
    rw [zpow_add₀ (by norm_num), zpow_natCast] at hz
    have hz' : fl x = ((k * 2 ^ n : ℤ) : K) * 2 ^ e := by rw [hz]; push_cast; ring
    rw [hz', ← sub_mul, abs_mul, abs_of_pos hp, ← Int.cast_sub, ← Int.cast_abs] at hd
    have h0 : |k * 2 ^ n - m| < 1 := by
      have : ((|k * 2 ^ n - m| : ℤ) : K) * 2 ^ e < ((1 : ℤ) : K) * 2 ^ e := by simpa using hd
      exact Int.cast_lt.1 (lt_of_mul_lt_mul_right this hp.le)
    have : k * 2 ^ n = m := by have := Int.abs_lt_one_iff.1 h0; omega
    rw [hz', this]
  · exfalso
    have hf : (2 : K) ^ f ≤ 2 ^ e / 2 := by
      rw [show (2 : K) ^ e / 2 = 2 ^ (e - 1) by rw [zpow_sub_one₀ (by norm_num), div_eq_mul_inv]]
      exact zpow_le_zpow_right₀ (by norm_num) (by omega)
    have hk' : |(k : K)| ≤ 2 ^ 53 := by rw [← Int.cast_abs]; exact_mod_cast hk
    have hm' : (2 : K) ^ 52 + 1 ≤ |(m : K)| := by rw [← Int.cast_abs]; exact_mod_cast h1
    have a1 : |fl x| ≤ 2 ^ 52 * 2 ^ e := by
      rw [hz, abs_mul, abs_of_pos (zpow_pos (by norm_num : (0 : K) < 2) f)]
      calc |(k : K)| * 2 ^ f ≤ 2 ^ 53 * (2 ^ e / 2) := mul_le_mul hk' hf (zpow_pos (by norm_num) _).le (by norm_num)
        _ = _ := by ring
    have a2 : (2 ^ 52 + 1) * 2 ^ e ≤ |(m : K) * 2 ^ e| := by
      rw [abs_mul, abs_of_pos hp]
      exact mul_le_mul_of_nonneg_right hm' hp.le
    have a3 := abs_sub_abs_le_abs_sub (m * 2 ^ e : K) (fl x)
    rw [abs_sub_comm] at a3
    linarith

/-- **C118**: fifty regular samples of a curve over `[0, 1]` in double precision do not reach its end. -/
theorem C118_last_sample {fl : ℚ → ℚ} (h : Nearest (Binary64 ℚ) fl) :
    Rounded.sampleParameter fl 0 1 50 49 = .ok (1 - 1 / 2 ^ 53) := by
  have f1 : fl 1 = 1 := h.fix ⟨1, 0, by norm_num, by norm_num⟩
  have f49 : fl 49 = 49 := h.fix ⟨49, 0, by norm_num, by norm_num⟩
  have e1 : fl (1 / 49) = 5882252574524729 / 2 ^ 58 := by
    have := h.eq_of_near (m := 5882252574524729) (e := -58) (x := 1 / 49) (by norm_num) (by norm_num) (by
      rw [abs_lt]; constructor <;> norm_num)
    rw [this]; norm_num
  have e2 : fl (49 * (5882252574524729 / 2 ^ 58)) = 1 - 1 / 2 ^ 53 := by
    have := h.eq_of_near (m := 9007199254740991) (e := -53) (x := 49 * (5882252574524729 / 2 ^ 58)) (by norm_num) (by norm_num) (by
      rw [abs_lt]; constructor <;> norm_num)
    rw [this]; norm_num
  have e3 : fl (1 - 1 / 2 ^ 53) = 1 - 1 / 2 ^ 53 := h.fix ⟨9007199254740991, -53, by norm_num, by norm_num⟩
  simp only [Rounded.sampleParameter, sub_zero, f1, Nat.cast_ofNat, show (50 : ℚ) - 1 = 49 by norm_num, f49, divR,
    if_neg (show (49 : ℚ) ≠ 0 by norm_num), pure_eq_ok, ok_bind, e1, e2, zero_add, e3]

/-- A polygonal curve whose second span is short and far from the first knot. -/
def exShort : Curve ℚ ((Fin 1 → ℚ) × ℚ) where
  degree := 1
  cps := [(![0], 1), (![1], 1), (![5], 1)]
  knots := [-1048576, -1048576, 0, 1 / 1099511627776, 1 / 1099511627776]

theorem exShort_good : exShort.Good (1 / 4503599627370496) where
  cps_pos := by decide
  knots_len := by decide
  good := by
    refine ⟨by norm_num, by decide, ?_, ?_, ?_, ?_, ?_⟩
    · intro i j hij hj
      exact (by decide +kernel : ∀ i ≤ 4, ∀ j ≤ 4, i ≤ j → kf exShort.knots i ≤ kf exShort.knots j)
        i (by have : j ≤ 4 := hj; omega) j hj hij
    all_goals simp [exShort, kf]; try norm_num

/-- **C118**: reversing in double precision can make knots coincide: the curve is valid and ends at 5, but the reversed curve does not
    begin there. Its first control point has no effect any more. -/
theorem C118_invert_merges {fl : ℚ → ℚ} (h : Nearest (Binary64 ℚ) fl) :
    exShort.Good (1 / 4503599627370496) ∧ exShort.pointAt (1 / 4503599627370496) exShort.hi = .ok ![5] ∧
      ∃ c', Rounded.invert fl exShort = .ok c' ∧ c'.knots = [-1048576, -1048576, -1048576, 0, 0] ∧
        Rounded.pointAt fl (1 / 4503599627370496) c' c'.lo = .ok ![1] := by
  refine ⟨exShort_good, ?_, ?_⟩
  · have e := C11_clamped_end exShort_good (by decide +kernel)
    rw [Curve.pointAt, e]
    simp [exShort, Curve.dehomogenize, unwrapR]
  have f0 : fl 0 = 0 := h.fix ⟨0, 0, by norm_num, by norm_num⟩
  have f1 : fl 1 = 1 := h.fix ⟨1, 0, by norm_num, by norm_num⟩
  have f20 : fl (1048576) = 1048576 := h.fix ⟨1, 20, by norm_num, by norm_num⟩
  have fm20 : fl (-1048576) = -1048576 := h.fix ⟨-1, 20, by norm_num, by norm_num⟩
  have fi20 : fl 1048576⁻¹ = 1048576⁻¹ := h.fix ⟨1, -20, by norm_num, by norm_num⟩
  have f40 : fl (1 / 1099511627776) = 1 / 1099511627776 := h.fix ⟨1, -40, by norm_num, by norm_num⟩
  have f52 : fl (-(1 / 4503599627370496)) = -(1 / 4503599627370496) := h.fix ⟨-1, -52, by norm_num, by norm_num⟩
  have g1 : fl (-1048576 + 1 / 1099511627776) = -1048576 := by
    have := h.eq_of_near (m := -2 ^ 53) (e := -33) (x := -1048576 + 1 / 1099511627776) (by norm_num) (by norm_num) (by
      rw [abs_lt]; constructor <;> norm_num)
    rw [this]; norm_num
  have g2 : fl (-1048576 + 1 / 4503599627370496) = -1048576 := by
    have := h.eq_of_near (m := -2 ^ 53) (e := -33) (x := -1048576 + 1 / 4503599627370496) (by norm_num) (by norm_num) (by
      rw [abs_lt]; constructor <;> norm_num)
    rw [this]; norm_num
  refine ⟨⟨1, [(![5], 1), (![1], 1), (![0], 1)], [-1048576, -1048576, -1048576, 0, 0]⟩, ?_, rfl, ?_⟩
  · have e : Rounded.invertKnots fl exShort.knots = .ok [-1048576, -1048576, -1048576, 0, 0] := by
      simp only [Rounded.invertKnots, exShort, getR, List.getElem?_cons_zero, List.reverse_cons, List.reverse_nil, List.nil_append, List.cons_append,
        Rounded.invertGo, sub_self, f0, add_zero, fm20, sub_zero, f40, g1, zero_sub, neg_neg, f20, neg_add_cancel, pure_eq_ok, ok_bind]
    rw [Rounded.invert, e]
    rfl
  · have b1 : Rounded.findKnotSpanIndex fl (1 / 4503599627370496) [-1048576, -1048576, -1048576, 0, 0] 2 1 (-1048576) = .ok 2 := by
      simp only [Rounded.findKnotSpanIndex, getR, List.getElem?_cons_succ, List.getElem?_cons_zero, Nat.reduceAdd, ok_bind, pure_eq_ok, zero_sub, f52, g2]
      decide +kernel
    have b2 : Rounded.basisFunctions fl [-1048576, -1048576, -1048576, 0, 0] 2 (-1048576) 1 = .ok [1, 0] := by
      simp [Rounded.basisFunctions, Rounded.basisInner, Rounded.leftAt, Rounded.rightAt, getR, subR, divR, f0, f1, f20, fi20]
    rw [one_div] at b1
    simp [Rounded.pointAt, Rounded.point, Curve.lastIndex, Curve.lo, kf, b1, b2, subR, Rounded.sumPoints, getR, List.range_succ,
      Rounded.accumulate, f0, f1, Rounded.dehomogenize, unwrapR]
    funext i
    fin_cases i
    rfl

/-! ### Examples in double precision -/

theorem fl64_idem (x : ℚ) : fl64 (fl64 x) = fl64 x := fl64_nearest.fix (fl64_nearest x).1

theorem exNoise_knots : ∀ k ∈ exNoise.knots, fl64 k = k := by
  intro k hk
  refine fl64_nearest.fix ?_
  simp only [exNoise, List.mem_cons, List.not_mem_nil, or_false] at hk
  rcases hk with rfl | rfl | rfl | rfl | rfl | rfl | rfl
  iterate 3 exact ⟨0, 0, by norm_num, by norm_num⟩
  · exact ⟨1, 0, by norm_num, by norm_num⟩
  iterate 3 exact ⟨2, 0, by norm_num, by norm_num⟩

example : ∃ box, Rounded.boxOfCurve fl64 1000 exNoise = .ok box ∧ ∀ t, 0 ≤ t → t ≤ 2 →
    ∃ x', Rounded.pointAt fl64 (1/1000) exNoise t = .ok x' ∧ box.min 0 - 1 / 10 ^ 12 ≤ x' 0 ∧ x' 0 ≤ box.max 0 + 1 / 10 ^ 12 := by
  obtain ⟨box, e, hb⟩ := C118_box (big := 1000) (C99_nearest (fl64_nearest (K := ℚ))) exNoise_good (by simp [exNoise]) exNoise_knots
  refine ⟨box, e, fun t h1 h2 => ?_⟩
  obtain ⟨x', ex, hx⟩ := hb t h1 h2
  have := hx 0 6 (by simp [exNoise]; norm_num)
  refine ⟨x', ex, ?_⟩
  norm_num [exNoise] at this ⊢
  constructor <;> linarith [this.1, this.2]

example (tol : ℚ) (ht : 0 ≤ tol) : Rounded.intersects fl64 tol exBox (Box.new 1000000 ![2, 3] ![5, 4]) = true :=
  C118_overlap (C99_nearest (fl64_nearest (K := ℚ))) ht (x := ![2, 3]) (by decide +kernel) (by decide +kernel)

example : ∃ ks', Rounded.invertKnots fl64 exNoise.knots = .ok ks' ∧ ks'.Pairwise (· ≤ ·) ∧ kf ks' 2 = kf ks' 1 := by
  obtain ⟨ks', e, -, -, s, -, r, -⟩ := C118_invert (C99_nearest (fl64_nearest (K := ℚ))) fl64_idem (ks := exNoise.knots) (by decide)
    (by decide +kernel) exNoise_knots
  exact ⟨ks', e, s, r 1 (by decide) (by decide +kernel)⟩

example : ∃ t : ℕ → ℚ, (∀ i, Rounded.sampleParameter fl64 0 1 50 i = .ok (t i)) ∧ t 0 = 0 ∧ ∀ i j, i ≤ j → t i ≤ t j := by
  obtain ⟨t, e, h0, hm, -⟩ := C118_samples (C99_nearest (fl64_nearest (K := ℚ))) (start := 0) (stop := 1)
    (fl64_nearest.fix ⟨0, 0, by norm_num, by norm_num⟩) (by norm_num) (n := 50) (by norm_num)
    (fl64_nearest.fix ⟨49, 0, by norm_num, by norm_num⟩)
  exact ⟨t, e, h0, hm⟩

/-- A segment that touches `exNoise` only at its beginning. -/
def exTouch : Curve ℚ ((Fin 2 → ℚ) × ℚ) where
  degree := 1
  cps := [(![0, 4], 1), (![-3, 5], 1)]
  knots := [0, 0, 1, 1]

theorem exTouch_good : exTouch.Good (1/1000) where
  cps_pos := by decide
  knots_len := by decide
  good := by
    refine ⟨by norm_num, by decide, ?_, ?_, ?_, ?_, ?_⟩
    · intro i j hij hj
      exact (by decide +kernel : ∀ i ≤ 3, ∀ j ≤ 3, i ≤ j → kf exTouch.knots i ≤ kf exTouch.knots j)
        i (by have : j ≤ 3 := hj; omega) j hj hij
    all_goals simp [exTouch, kf]; try norm_num

/-- Two curves that touch: their computed boxes pass the test with the tolerance 1/10¹². -/
example : ∃ A B, Rounded.boxOfCurve fl64 1000 exNoise = .ok A ∧ Rounded.boxOfCurve fl64 1000 exTouch = .ok B ∧
    Rounded.intersects fl64 (1 / 10 ^ 12) A B = true := by
  refine C118_meeting_curves (C99_nearest (fl64_nearest (K := ℚ))) (s := exNoise.lo) (t := exTouch.lo) (M := 6) exNoise_good exTouch_good
    (by simp [exNoise]) (by simp [exTouch]) le_rfl (by simp [exNoise, Curve.lo, Curve.hi, kf]) le_rfl
    (by simp [exTouch, Curve.lo, Curve.hi, kf]) ?_ (by intro i; fin_cases i <;> simp [exNoise] <;> norm_num)
    (by intro i; fin_cases i <;> simp [exTouch] <;> norm_num) (by norm_num)
  rw [Curve.pointAt, Curve.pointAt, C11_clamped_start exNoise_good (by decide +kernel), C11_clamped_start exTouch_good (by decide +kernel)]
  rfl

end double

end Curvo.Props

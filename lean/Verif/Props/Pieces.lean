/-
  Property theorems about the control points of refined curves and of the pieces of a curve: C104.
-/
import Verif.Props.TraverseParams
import Verif.Props.Bezier

set_option linter.unusedSectionVars false

namespace Curvo.Props

open Curvo Curvo.Curve Curvo.Spec

variable {K : Type} [Field K] [LinearOrder K] [IsStrictOrderedRing K] {d : ℕ} {W : Type} [AddCommGroup W] [Module K W]

/-- What a refined curve or a piece `c'` of a curve `c` with positive weights owes to `c`: positive weights, between the smallest and
    the largest weight of `c`, and control points in every convex set that contains those of `c`. -/
structure Inside (c c' : Curve K (W × K)) : Prop where
  pos : ∀ q ∈ c'.cps, 0 < q.2
  weights : ∀ a b, (∀ q ∈ c.cps, a ≤ q.2 ∧ q.2 ≤ b) → ∀ q ∈ c'.cps, a ≤ q.2 ∧ q.2 ≤ b
  points : ∃ pts pts', c.dehomogenizedCps = .ok pts ∧ c'.dehomogenizedCps = .ok pts' ∧
    ∀ P : W → Prop, (∀ x y (t : K), 0 ≤ t → t ≤ 1 → P x → P y → P (t • x + (1 - t) • y)) → (∀ x ∈ pts, P x) → ∀ x ∈ pts', P x

theorem Hull.inside {c c' : Curve K (W × K)} (h : Hull c c') (hw : ∀ q ∈ c.cps, 0 < q.2) : Inside c c' := by
  have hpos : ∀ q ∈ c'.cps, 0 < q.2 := h (fun q => 0 < q.2) (by
    intro p q t t0 t1 hp hq
    simp only [Prod.snd_add, Prod.smul_snd, smul_eq_mul]
    rcases eq_or_lt_of_le t0 with h | h
    · rw [← h]; simpa using hq
    · exact add_pos_of_pos_of_nonneg (mul_pos h hp) (mul_nonneg (sub_nonneg.2 t1) hq.le)) hw
  refine ⟨hpos, fun a b hab => ?_, _, _, dehomogenizedCps_eq hw, dehomogenizedCps_eq hpos, fun P hP hc => ?_⟩
  · refine h (fun q => a ≤ q.2 ∧ q.2 ≤ b) (fun p q t t0 t1 hp hq => ?_) hab
    simp only [Prod.snd_add, Prod.smul_snd, smul_eq_mul]
    have t1' : 0 ≤ 1 - t := sub_nonneg.2 t1
    constructor
    · nlinarith [mul_le_mul_of_nonneg_left hp.1 t0, mul_le_mul_of_nonneg_left hq.1 t1']
    · nlinarith [mul_le_mul_of_nonneg_left hp.2 t0, mul_le_mul_of_nonneg_left hq.2 t1']
  · have := h (fun q => 0 < q.2 ∧ P (q.2⁻¹ • q.1)) (by
      rintro p q t t0 t1 ⟨hp, hp'⟩ ⟨hq, hq'⟩
      have t1' : 0 ≤ 1 - t := sub_nonneg.2 t1
      have hs : 0 < t * p.2 + (1 - t) * q.2 := by
        rcases eq_or_lt_of_le t0 with h | h
        · rw [← h]; simpa using hq
        · exact add_pos_of_pos_of_nonneg (mul_pos h hp) (mul_nonneg t1' hq.le)
      refine ⟨by simpa using hs, ?_⟩
      have e := hP _ _ (t * p.2 / (t * p.2 + (1 - t) * q.2)) (div_nonneg (mul_nonneg t0 hp.le) hs.le)
        ((div_le_one hs).2 (by linarith [mul_nonneg t1' hq.le])) hp' hq'
      have e1 : 1 - t * p.2 / (t * p.2 + (1 - t) * q.2) = (1 - t) * q.2 / (t * p.2 + (1 - t) * q.2) := by
        field_simp; ring
      rw [e1, smul_smul, smul_smul] at e
      have e2 : t * p.2 / (t * p.2 + (1 - t) * q.2) * p.2⁻¹ = (t * p.2 + (1 - t) * q.2)⁻¹ * t := by
        field_simp
      have e3 : (1 - t) * q.2 / (t * p.2 + (1 - t) * q.2) * q.2⁻¹ = (t * p.2 + (1 - t) * q.2)⁻¹ * (1 - t) := by
        field_simp
      rw [e2, e3, ← smul_smul, ← smul_smul, ← smul_add] at e
      exact e) (fun q hq => ⟨hw q hq, hc _ (List.mem_map_of_mem hq)⟩)
    intro x hx
    obtain ⟨q, hq, rfl⟩ := List.mem_map.1 hx
    exact (this q hq).2

theorem le_ofPoints {big : K} {pts : List (Fin d → K)} {i : Fin d} :
    (∀ m, m ≤ big → (∀ p ∈ pts, m ≤ p i) → m ≤ (Box.ofPoints big pts).min i) ∧
    (∀ m, -big ≤ m → (∀ p ∈ pts, p i ≤ m) → (Box.ofPoints big pts).max i ≤ m) ∧
    (Box.ofPoints big pts).min i ≤ big ∧ -big ≤ (Box.ofPoints big pts).max i ∧
    ∀ p ∈ pts, (Box.ofPoints big pts).min i ≤ p i ∧ p i ≤ (Box.ofPoints big pts).max i := by
  have key : ∀ (pts : List (Fin d → K)) (b : Box K d),
      (∀ m, m ≤ b.min i → (∀ p ∈ pts, m ≤ p i) → m ≤ (pts.foldl Box.extend b).min i) ∧
      (∀ m, b.max i ≤ m → (∀ p ∈ pts, p i ≤ m) → (pts.foldl Box.extend b).max i ≤ m) ∧
      (pts.foldl Box.extend b).min i ≤ b.min i ∧ b.max i ≤ (pts.foldl Box.extend b).max i ∧
      ∀ p ∈ pts, (pts.foldl Box.extend b).min i ≤ p i ∧ p i ≤ (pts.foldl Box.extend b).max i := by
    intro pts
    induction pts with
    | nil => intro b; exact ⟨fun m h _ => h, fun m h _ => h, le_refl _, le_refl _, by simp⟩
    | cons q qs ih =>
      intro b
      obtain ⟨h1, h2, h3, h4, h5⟩ := ih (b.extend q)
      rw [List.foldl_cons]
      refine ⟨fun m hm hq => h1 m (le_min hm (hq q (by simp))) fun p hp => hq p (by simp [hp]),
        fun m hm hq => h2 m (max_le hm (hq q (by simp))) fun p hp => hq p (by simp [hp]),
        h3.trans (min_le_left _ _), (le_max_left _ _).trans h4, fun p hp => ?_⟩
      rcases List.mem_cons.1 hp with rfl | hp
      · exact ⟨h3.trans (min_le_right _ _), (le_max_right _ _).trans h4⟩
      · exact h5 p hp
  exact key pts ⟨fun _ => big, fun _ => -big⟩

/-- The box of `c'` is inside the box of `c`. -/
def BoxInside (big : K) (c c' : Curve K ((Fin d → K) × K)) : Prop :=
  ∃ b b', Box.ofCurve big c = .ok b ∧ Box.ofCurve big c' = .ok b' ∧ ∀ i, b.min i ≤ b'.min i ∧ b'.max i ≤ b.max i

theorem Inside.box {c c' : Curve K ((Fin d → K) × K)} (h : Inside c c') (big : K) : BoxInside big c c' := by
  obtain ⟨pts, pts', e, e', hp⟩ := h.points
  refine ⟨_, _, by rw [Box.ofCurve, e]; rfl, by rw [Box.ofCurve, e']; rfl, fun i => ?_⟩
  obtain ⟨a1, a2, a3, a4, a5⟩ := le_ofPoints (big := big) (pts := pts) (i := i)
  obtain ⟨b1, b2, b3, b4, b5⟩ := le_ofPoints (big := big) (pts := pts') (i := i)
  have := hp (fun x => (Box.ofPoints big pts).min i ≤ x i ∧ x i ≤ (Box.ofPoints big pts).max i) (by
    intro x y t t0 t1 hx hy
    have t1' : 0 ≤ 1 - t := sub_nonneg.2 t1
    simp only [Pi.add_apply, Pi.smul_apply, smul_eq_mul]
    constructor
    · nlinarith [mul_le_mul_of_nonneg_left hx.1 t0, mul_le_mul_of_nonneg_left hy.1 t1']
    · nlinarith [mul_le_mul_of_nonneg_left hx.2 t0, mul_le_mul_of_nonneg_left hy.2 t1']) a5
  exact ⟨b1 _ a3 fun p hp => (this p hp).1, b2 _ a4 fun p hp => (this p hp).2⟩

/-- **Refinement** moves no control point out of the convex hull, no weight out of the range of weights. -/
theorem C104_refine {eps : K} {c : Curve K (W × K)} {xs : List K} (h : c.Good eps) (hw : ∀ q ∈ c.cps, 0 < q.2)
    (hsort : xs.Pairwise (· ≤ ·)) (hdom : ∀ x ∈ xs, c.lo ≤ x ∧ x ≤ c.hi)
    (hsep : ∀ x ∈ xs, ∀ y ∈ xs ++ c.knots, |y - x| < eps → y = x) :
    ∃ c', c.tryRefineKnot eps xs = .ok c' ∧ Inside c c' := by
  obtain ⟨c', e, -, hH⟩ := tryRefineKnot_refines_hull h hsort hdom hsep
  exact ⟨c', e, Hull.inside hH hw⟩

/-- **Both pieces of a split** stay in the convex hull, for every split parameter of the domain. -/
theorem C104_split {eps : K} {c : Curve K (W × K)} (h : c.Good eps) (hw : ∀ q ∈ c.cps, 0 < q.2) {u : K} (h1 : c.lo ≤ u) (h2 : u ≤ c.hi)
    (hsep : ∀ y ∈ c.knots, |y - u| < eps → y = u) :
    ∃ l r, c.trySplit eps u = .ok (l, r) ∧ Inside c l ∧ Inside c r := by
  obtain ⟨s, c', l, r, e, hs⟩ := split_pieces h h1 h2 hsep
  exact ⟨l, r, e, Hull.inside hs.lhull hw, Hull.inside hs.rhull hw⟩

/-- So do the Bezier segments. -/
theorem C104_segments {eps : K} {c : Curve K (W × K)} (h : c.Good eps) (hw : ∀ q ∈ c.cps, 0 < q.2)
    (hsep : ∀ x ∈ c.knots, ∀ y ∈ c.knots, x ≠ y → eps < |x - y|)
    (hclamped : c.isClamped eps = .ok true) (hcount : ∀ x ∈ c.knots, c.knots.count x ≤ c.degree + 1) :
    ∃ segs, c.tryDecomposeBezierSegments eps = .ok segs ∧ ∀ s ∈ segs, Inside c s := by
  obtain ⟨segs, e, hH⟩ := C23_segments_hull h hsep hclamped hcount
  exact ⟨segs, e, fun s hs => Hull.inside (hH s hs) hw⟩

/-- **Bounding boxes never grow**: the boxes of both pieces of a split are inside the box of the curve. -/
theorem C104_split_boxes {eps : K} (big : K) {c : Curve K ((Fin d → K) × K)} (h : c.Good eps) (hw : ∀ q ∈ c.cps, 0 < q.2) {u : K}
    (h1 : c.lo ≤ u) (h2 : u ≤ c.hi) (hsep : ∀ y ∈ c.knots, |y - u| < eps → y = u) :
    ∃ l r, c.trySplit eps u = .ok (l, r) ∧ BoxInside big c l ∧ BoxInside big c r := by
  obtain ⟨l, r, e, hl, hr⟩ := C104_split h hw h1 h2 hsep
  exact ⟨l, r, e, hl.box big, hr.box big⟩

/-- **Nested boxes**: in the bounding box tree of a curve the box of every node is inside the box of the root, whatever the random
    generator answers. -/
theorem C104_tree {eps big : K} {rnd : ℕ → K} {t0 : CurveTree K d} (h : t0.curve.Good eps) (hw : ∀ q ∈ t0.curve.cps, 0 < q.2)
    (hr : ∀ n, 0 ≤ rnd n ∧ rnd n ≤ 1) (hg : Generic eps big rnd t0) {t : CurveTree K d}
    (ht : Reach (CurveTree.tree eps big rnd) t0 t) : Inside t0.curve t.curve ∧ BoxInside big t0.curve t.curve := by
  suffices H : t.curve.Good eps ∧ Hull t0.curve t.curve from
    ⟨Hull.inside H.2 hw, (Hull.inside H.2 hw).box big⟩
  have step : ∀ (x y z : CurveTree K d) (r r' : ℕ), Reach (CurveTree.tree eps big rnd) t0 x →
      (CurveTree.tree eps big rnd).isDividable x = .ok true → (CurveTree.tree eps big rnd).tryDivide x r = .ok ((y, z), r') →
      x.curve.Good eps ∧ Hull t0.curve x.curve →
      (y.curve.Good eps ∧ Hull t0.curve y.curve) ∧ (z.curve.Good eps ∧ Hull t0.curve z.curve) := by
    intro x y z r r' hx hd e ⟨hgood, hH⟩
    have hgen := fun y hy => hg x r hx hd y hy
    have hw' := (Hull.inside hH hw).pos
    obtain ⟨l, q, e1, g1, g2, -⟩ := split_node (pos := r) hgen hr hgood hw'
    have e : CurveTree.tryDivide eps rnd x r = .ok ((y, z), r') := e
    rw [e1] at e
    obtain ⟨b1, b2, _⟩ := splitParam_bounds hgood.pre.dom (hr r).1 (hr r).2
    obtain ⟨s, c', l2, q2, e2, hs⟩ := split_pieces hgood (u := paramOf rnd x r) b1.le b2.le
      (fun y hy hlt => absurd hlt (not_lt.2 (hgen y hy).2))
    rw [CurveTree.tryDivide, knotsDomain_eq hgood, ok_bind] at e1
    change (x.curve.trySplit eps (paramOf rnd x r) >>= _) = _ at e1
    rw [e2, ok_bind] at e1
    have hl : l2 = l := congrArg (fun z : (CurveTree K d × CurveTree K d) × ℕ => z.1.1.curve) (Except.ok.inj e1)
    have hq : q2 = q := congrArg (fun z : (CurveTree K d × CurveTree K d) × ℕ => z.1.2.curve) (Except.ok.inj e1)
    have hy : y = ⟨l, x.tolerance⟩ := (congrArg (fun z : (CurveTree K d × CurveTree K d) × ℕ => z.1.1) (Except.ok.inj e)).symm
    have hz : z = ⟨q, x.tolerance⟩ := (congrArg (fun z : (CurveTree K d × CurveTree K d) × ℕ => z.1.2) (Except.ok.inj e)).symm
    subst hl hq hy hz
    exact ⟨⟨g1, hH.trans hs.lhull⟩, g2, hH.trans hs.rhull⟩
  induction ht with
  | root => exact ⟨h, Hull.refl _⟩
  | left hx hd e ih => exact (step _ _ _ _ _ hx hd e ih).1
  | right hx hd e ih => exact (step _ _ _ _ _ hx hd e ih).2

/-- Splitting the witness curve at `5/2`. -/
example : ∃ l r, exCurve.trySplit (1/1000) (5/2) = .ok (l, r) ∧ Inside exCurve l ∧ Inside exCurve r :=
  C104_split exCurve_good exCurve_weights (by rw [exCurve_lo]; norm_num) (by rw [exCurve_hi]; norm_num) (by decide +kernel)

/-- The segments of the witness curve. -/
example : ∃ segs, exCurve.tryDecomposeBezierSegments (1/1000) = .ok segs ∧ ∀ s ∈ segs, Inside exCurve s :=
  C104_segments exCurve_good exCurve_weights exKnots_sep (by decide +kernel) (by decide +kernel)

/-- The tree of a Bezier curve, any random numbers. -/
example (rnd : ℕ → ℚ) (hr : ∀ n, 0 ≤ rnd n ∧ rnd n ≤ 1) (t : CurveTree ℚ 2)
    (ht : Reach (CurveTree.tree (1/1000000) 1000000 rnd) ⟨exBezA, 1/64⟩ t) : BoxInside 1000000 exBezA t.curve :=
  (C104_tree (t0 := ⟨exBezA, 1/64⟩) exBezA_good (by simp [exBezA]) hr
    (generic_of_ends hr exBezA_good (by simp [exBezA]) (by decide +kernel) (by norm_num) (by norm_num)) ht).2

end Curvo.Props

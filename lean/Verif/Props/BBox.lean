/-
  Property theorems about bounding boxes: C36, C10.
-/
import Mathlib.Algebra.BigOperators.Pi
import Mathlib.Algebra.Order.BigOperators.Group.Finset
import Mathlib.Tactic.Linarith
import Mathlib.Data.Fin.VecNotation
import Mathlib.LinearAlgebra.Pi
import Verif.Model.BBox
import Verif.Props.Curve

set_option linter.unusedSectionVars false

namespace Curvo.Props

open Curvo Curvo.Curve Curvo.Spec

variable {K : Type} [Field K] [LinearOrder K] [IsStrictOrderedRing K] {d : ℕ}

/-! ### Specification -/

/-- A point lies in the box widened by `tol` on all sides. -/
def InBox (tol : K) (b : Box K d) (p : Fin d → K) : Prop := ∀ i, b.min i - tol ≤ p i ∧ p i ≤ b.max i + tol

/-- The box is not inverted. -/
def Ordered (b : Box K d) : Prop := ∀ i, b.min i ≤ b.max i

/-! ### C36 -/

theorem overlap1_iff {tol a0 a1 b0 b1 : K} (ht : 0 ≤ tol) (ha : a0 ≤ a1) (hb : b0 ≤ b1) :
    Box.overlap1 tol a0 a1 b0 b1 = true ↔ a0 - tol ≤ b1 + tol ∧ b0 - tol ≤ a1 + tol := by
  unfold Box.overlap1
  simp only [Bool.not_eq_true', decide_eq_false_iff_not, not_lt]
  constructor
  · intro h
    constructor
    · by_contra hc
      have hc := not_le.1 hc
      have h1 : b1 + tol - (a0 - tol) < 0 := by linarith
      have h2 : b0 - tol - (a1 + tol) < 0 := by linarith
      exact absurd h (not_le.2 (mul_pos_of_neg_of_neg h2 h1))
    · by_contra hc
      have hc := not_le.1 hc
      have h1 : 0 < b0 - tol - (a1 + tol) := by linarith
      have h2 : 0 < b1 + tol - (a0 - tol) := by linarith
      exact absurd h (not_le.2 (mul_pos h1 h2))
  · rintro ⟨h1, h2⟩
    exact mul_nonpos_of_nonpos_of_nonneg (by linarith) (by linarith)

/-- The overlap test is exact: true exactly when a common point of the two widened boxes exists. -/
theorem C36_intersects_iff {tol : K} (ht : 0 ≤ tol) {a b : Box K d} (ha : Ordered a) (hb : Ordered b) :
    Box.intersects tol a b = true ↔ ∃ p, InBox tol a p ∧ InBox tol b p := by
  unfold Box.intersects
  rw [List.all_eq_true]
  constructor
  · intro h
    refine ⟨fun i => max (a.min i - tol) (b.min i - tol), ?_, ?_⟩
    · intro i
      obtain ⟨h1, h2⟩ := (overlap1_iff ht (ha i) (hb i)).1 (h i (List.mem_finRange i))
      exact ⟨le_max_left _ _, max_le (by have := ha i; linarith) h2⟩
    · intro i
      obtain ⟨h1, h2⟩ := (overlap1_iff ht (ha i) (hb i)).1 (h i (List.mem_finRange i))
      exact ⟨le_max_right _ _, max_le h1 (by have := hb i; linarith)⟩
  · rintro ⟨p, h1, h2⟩ i _
    rw [overlap1_iff ht (ha i) (hb i)]
    exact ⟨le_trans (h1 i).1 (h2 i).2, le_trans (h2 i).1 (h1 i).2⟩

/-- The overlap test is symmetric, for any boxes and tolerances. -/
theorem C36_intersects_symm (tol : K) (a b : Box K d) : Box.intersects tol a b = Box.intersects tol b a := by
  unfold Box.intersects
  congr 1
  funext i
  unfold Box.overlap1
  simp only
  congr 2
  rw [show (b.min i - tol - (a.max i + tol)) * (b.max i + tol - (a.min i - tol)) =
    (a.min i - tol - (b.max i + tol)) * (a.max i + tol - (b.min i - tol)) by ring]

theorem contains_iff {b : Box K d} {p : Fin d → K} :
    b.contains p = true ↔ ∀ i, b.min i ≤ p i ∧ p i ≤ b.max i := by
  unfold Box.contains
  rw [List.all_eq_true]
  constructor
  · intro h i
    simpa using h i (List.mem_finRange i)
  · intro h i _
    simpa using h i

/-- Two boxes that contain a common point pass the overlap test (tolerance zero or more). -/
theorem C36_common_point {tol : K} (ht : 0 ≤ tol) {a b : Box K d} {p : Fin d → K}
    (ha : a.contains p = true) (hb : b.contains p = true) : Box.intersects tol a b = true := by
  rw [contains_iff] at ha hb
  refine (C36_intersects_iff ht (fun i => le_trans (ha i).1 (ha i).2) (fun i => le_trans (hb i).1 (hb i).2)).2
    ⟨p, ?_, ?_⟩
  · intro i; exact ⟨by have := (ha i).1; linarith, by have := (ha i).2; linarith⟩
  · intro i; exact ⟨by have := (hb i).1; linarith, by have := (hb i).2; linarith⟩

/-- A box made from two opposite corners is ordered and is the smallest box containing both. -/
theorem C36_new {big : K} {p q : Fin d → K} (hp : ∀ i, |p i| ≤ big) (hq : ∀ i, |q i| ≤ big) :
    Ordered (Box.new big p q) ∧ (Box.new big p q).contains p = true ∧ (Box.new big p q).contains q = true ∧
      ∀ b : Box K d, b.contains p = true → b.contains q = true →
        ∀ i, b.min i ≤ (Box.new big p q).min i ∧ (Box.new big p q).max i ≤ b.max i := by
  have hp' : ∀ i, -big ≤ p i ∧ p i ≤ big := fun i => abs_le.1 (hp i)
  have hq' : ∀ i, -big ≤ q i ∧ q i ≤ big := fun i => abs_le.1 (hq i)
  have emin : ∀ i, (Box.new big p q).min i = min (p i) (q i) := by
    intro i; simp only [Box.new]; rw [min_eq_right (hp' i).2]
  have emax : ∀ i, (Box.new big p q).max i = max (q i) (p i) := by
    intro i; simp only [Box.new]; rw [max_eq_right (hq' i).1]
  simp only [contains_iff, Ordered, emin, emax]
  refine ⟨fun i => le_trans (min_le_left _ _) (le_max_right _ _),
    fun i => ⟨min_le_left _ _, le_max_right _ _⟩, fun i => ⟨min_le_right _ _, le_max_left _ _⟩, ?_⟩
  intro b h1 h2 i
  exact ⟨le_min (h1 i).1 (h2 i).1, max_le (h2 i).2 (h1 i).2⟩

theorem foldl_extend (pts : List (Fin d → K)) : ∀ b : Box K d,
    (∀ i, (pts.foldl Box.extend b).min i ≤ b.min i ∧ b.max i ≤ (pts.foldl Box.extend b).max i) ∧
    (∀ p ∈ pts, ∀ i, (pts.foldl Box.extend b).min i ≤ p i ∧ p i ≤ (pts.foldl Box.extend b).max i) ∧
    (∀ i, (pts.foldl Box.extend b).min i = b.min i ∨ ∃ p ∈ pts, (pts.foldl Box.extend b).min i = p i) ∧
    (∀ i, (pts.foldl Box.extend b).max i = b.max i ∨ ∃ p ∈ pts, (pts.foldl Box.extend b).max i = p i) := by
  induction pts with
  | nil => intro b; simp
  | cons q pts ih =>
    intro b
    rw [List.foldl_cons]
    obtain ⟨h1, h2, h3, h4⟩ := ih (b.extend q)
    refine ⟨fun i => ⟨le_trans (h1 i).1 (min_le_left _ _), le_trans (le_max_left _ _) (h1 i).2⟩, ?_, ?_, ?_⟩
    · intro p hp i
      rcases List.mem_cons.1 hp with rfl | hp
      · exact ⟨le_trans (h1 i).1 (min_le_right _ _), le_trans (le_max_right _ _) (h1 i).2⟩
      · exact h2 p hp i
    · intro i
      rcases h3 i with h | ⟨p, hp, h⟩
      · rw [h]
        rcases min_choice (b.min i) (q i) with e | e
        · left; exact e
        · right; exact ⟨q, by simp, e⟩
      · right; exact ⟨p, by simp [hp], h⟩
    · intro i
      rcases h4 i with h | ⟨p, hp, h⟩
      · rw [h]
        rcases max_choice (b.max i) (q i) with e | e
        · left; exact e
        · right; exact ⟨q, by simp, e⟩
      · right; exact ⟨p, by simp [hp], h⟩

/-- The box of a point list contains all points and every side passes through one of them; hence it is
    contained in any box containing all the points. -/
theorem C36_points_box {big : K} {pts : List (Fin d → K)} (hne : pts ≠ [])
    (hb : ∀ p ∈ pts, ∀ i, |p i| ≤ big) :
    (∀ p ∈ pts, (Box.ofPoints big pts).contains p = true) ∧
    (∀ i, (∃ p ∈ pts, (Box.ofPoints big pts).min i = p i) ∧ ∃ p ∈ pts, (Box.ofPoints big pts).max i = p i) ∧
    Ordered (Box.ofPoints big pts) ∧
    ∀ b : Box K d, (∀ p ∈ pts, b.contains p = true) →
      ∀ i, b.min i ≤ (Box.ofPoints big pts).min i ∧ (Box.ofPoints big pts).max i ≤ b.max i := by
  obtain ⟨h1, h2, h3, h4⟩ := foldl_extend pts (⟨fun _ => big, fun _ => -big⟩ : Box K d)
  obtain ⟨q, hq⟩ := List.exists_mem_of_ne_nil _ hne
  have hatt : ∀ i, (∃ p ∈ pts, (Box.ofPoints big pts).min i = p i) ∧
      ∃ p ∈ pts, (Box.ofPoints big pts).max i = p i := by
    intro i
    constructor
    · rcases h3 i with h | h
      · refine ⟨q, hq, le_antisymm (h2 q hq i).1 ?_⟩
        show q i ≤ (pts.foldl Box.extend _).min i
        rw [h]; exact (abs_le.1 (hb q hq i)).2
      · exact h
    · rcases h4 i with h | h
      · refine ⟨q, hq, le_antisymm ?_ (h2 q hq i).2⟩
        show (pts.foldl Box.extend _).max i ≤ q i
        rw [h]; exact (abs_le.1 (hb q hq i)).1
      · exact h
  refine ⟨fun p hp => contains_iff.2 (h2 p hp), hatt, fun i => le_trans (h2 q hq i).1 (h2 q hq i).2, ?_⟩
  intro b hbc i
  obtain ⟨⟨p, hp, e⟩, p', hp', e'⟩ := hatt i
  rw [e, e']
  exact ⟨(contains_iff.1 (hbc p hp) i).1, (contains_iff.1 (hbc p' hp') i).2⟩

/-- The box of no points contains nothing and overlaps nothing ordinary. -/
theorem C36_empty_box {big : K} (hbig : 0 < big) (hd : 0 < d) (p : Fin d → K) :
    (Box.ofPoints big ([] : List (Fin d → K))).contains p = false := by
  rw [← Bool.not_eq_true, contains_iff]
  intro h
  have := h ⟨0, hd⟩
  have h1 : big ≤ p ⟨0, hd⟩ := this.1
  have h2 : p ⟨0, hd⟩ ≤ -big := this.2
  linarith

theorem and_shift_eq_zero {i j : ℕ} : i &&& (1 <<< j) = 0 ↔ i.testBit j = false := by
  rw [Nat.shiftLeft_eq, one_mul]
  constructor
  · intro h
    have : (i &&& 2 ^ j).testBit j = false := by rw [h]; simp
    rw [Nat.testBit_and, Nat.testBit_two_pow_self, Bool.and_true] at this
    exact this
  · intro h
    apply Nat.eq_of_testBit_eq
    intro k
    rw [Nat.testBit_and, Nat.zero_testBit]
    by_cases hk : j = k
    · subst hk; rw [h]; rfl
    · rw [Nat.testBit_two_pow_of_ne hk, Bool.and_false]

/-- The corners are exactly the points each of whose coordinates is a minimum or a maximum. -/
theorem C36_corners (b : Box K d) : b.corners.length = 2 ^ d ∧
    ∀ p, p ∈ b.corners ↔ ∀ i, p i = b.min i ∨ p i = b.max i := by
  refine ⟨by simp [Box.corners], ?_⟩
  intro p
  unfold Box.corners
  rw [List.mem_map]
  constructor
  · rintro ⟨i, _, rfl⟩ j
    by_cases h : i &&& (1 <<< (j : ℕ)) = 0
    · left; simp only [if_pos h]
    · right; simp only [if_neg h]
  · intro h
    refine ⟨Nat.ofBits (fun j : Fin d => decide (p j ≠ b.min j)), List.mem_range.2 (Nat.ofBits_lt_two_pow _), ?_⟩
    funext j
    have : (Nat.ofBits (fun j : Fin d => decide (p j ≠ b.min j))).testBit j = decide (p j ≠ b.min j) :=
      Nat.testBit_ofBits_lt _ _ j.2
    by_cases hm : p j = b.min j
    · rw [if_pos (and_shift_eq_zero.2 (by rw [this]; simp [hm])), hm]
    · rw [if_neg (by rw [and_shift_eq_zero, this]; simp [hm])]
      exact ((h j).resolve_left hm).symm

/-- The lines join corners that differ in one coordinate only; each edge is listed in both directions
    (so twice as often as needed). -/
theorem C36_lines (b : Box K d) : ∃ ls, b.lines = .ok ls ∧ ls.length = d * 2 ^ d ∧
    (∀ e ∈ ls, e.1 ∈ b.corners ∧ e.2 ∈ b.corners ∧ (e.2, e.1) ∈ ls ∧
      ∃ i, (∀ j, j ≠ i → e.1 j = e.2 j) ∧
        ((e.1 i = b.min i ∧ e.2 i = b.max i) ∨ (e.1 i = b.max i ∧ e.2 i = b.min i))) := by
  have hlen : b.corners.length = 2 ^ d := (C36_corners b).1
  have hlt : ∀ i, i < d → ∀ j, j < 2 ^ d → j ^^^ (1 <<< i) < 2 ^ d := by
    intro i hi j hj
    apply Nat.xor_lt_two_pow hj
    rw [Nat.shiftLeft_eq, one_mul]
    exact Nat.pow_lt_pow_right (by norm_num) hi
  have hin : ∀ i, i < d → (List.range (2 ^ d)).mapM (fun j => (do
      let p ← getR b.corners j
      let q ← getR b.corners (j ^^^ (1 <<< i))
      pure (p, q) : Res _)) = .ok ((List.range (2 ^ d)).map fun j =>
        (b.corners.getD j 0, b.corners.getD (j ^^^ (1 <<< i)) 0)) := by
    intro i hi
    apply mapM_ok
    intro j hj
    have hj := List.mem_range.1 hj
    rw [getR_eq_getD 0 (by omega), ok_bind, getR_eq_getD 0 (by rw [hlen]; exact hlt i hi j hj), ok_bind]
    rfl
  have hout : (List.range d).mapM (fun i => (List.range (2 ^ d)).mapM (fun j => (do
      let p ← getR b.corners j
      let q ← getR b.corners (j ^^^ (1 <<< i))
      pure (p, q) : Res _))) = .ok ((List.range d).map fun i => (List.range (2 ^ d)).map fun j =>
        (b.corners.getD j 0, b.corners.getD (j ^^^ (1 <<< i)) 0)) := by
    apply mapM_ok
    intro i hi
    exact hin i (List.mem_range.1 hi)
  have hc : ∀ j, j < 2 ^ d → ∀ k : Fin d, b.corners.getD j 0 k = if j.testBit k then b.max k else b.min k := by
    intro j hj k
    have : b.corners.getD j 0 = fun k : Fin d => if j &&& (1 <<< (k : ℕ)) = 0 then b.min k else b.max k := by
      simp [Box.corners, hj]
    rw [this]
    beta_reduce
    by_cases h : j.testBit k = true
    · rw [if_pos h, if_neg (by rw [and_shift_eq_zero, h]; simp)]
    · rw [if_neg h, if_pos (by rw [and_shift_eq_zero]; simpa using h)]
  refine ⟨_, by rw [Box.lines, hout]; rfl, ?_, ?_⟩
  · rw [List.length_flatten, List.map_map]
    have : (List.length ∘ fun i => (List.range (2 ^ d)).map fun j =>
        (b.corners.getD j 0, b.corners.getD (j ^^^ (1 <<< i)) 0)) = fun _ => 2 ^ d := by
      funext i; simp
    rw [this]; simp
  · intro e he
    simp only [List.mem_flatten, List.mem_map, List.mem_range] at he
    obtain ⟨_, ⟨i, hi, rfl⟩, he⟩ := he
    simp only [List.mem_map, List.mem_range] at he
    obtain ⟨j, hj, rfl⟩ := he
    have hj' := hlt i hi j hj
    have hmem : ∀ j, j < 2 ^ d → b.corners.getD j 0 ∈ b.corners := by
      intro j hj
      rw [List.getD_eq_getElem?_getD, List.getElem?_eq_getElem (by omega)]
      exact List.getElem_mem _
    refine ⟨hmem _ hj, hmem _ hj', ?_, ⟨i, hi⟩, ?_, ?_⟩
    · simp only [List.mem_flatten, List.mem_map, List.mem_range]
      refine ⟨_, ⟨i, hi, rfl⟩, ?_⟩
      simp only [List.mem_map, List.mem_range]
      exact ⟨j ^^^ (1 <<< i), hj', by rw [Nat.xor_assoc, Nat.xor_self, Nat.xor_zero]⟩
    · intro k hk
      have hki : i ≠ (k : ℕ) := fun h => hk (Fin.ext h.symm)
      simp only
      rw [hc _ hj, hc _ hj', Nat.testBit_xor, Nat.shiftLeft_eq, one_mul, Nat.testBit_two_pow_of_ne hki,
        Bool.xor_false]
    · simp only
      rw [hc _ hj, hc _ hj', Nat.testBit_xor, Nat.shiftLeft_eq, one_mul]
      simp only [Nat.testBit_two_pow_self, Bool.xor_true]
      cases j.testBit i <;> simp

/-- Witness boxes. -/
def exBox : Box ℚ 2 := Box.ofPoints 1000000 [![0, 1], ![2, -1], ![1, 3]]

example : exBox.contains ![1, 2] = true := by decide +kernel
example : Box.intersects (1/100) exBox (Box.new 1000000 ![2, 3] ![5, 4]) = true ∧
    Box.intersects (1/100) exBox (Box.new 1000000 ![3, 3] ![5, 4]) = false := by decide +kernel

/-! ### C10 -/

variable {W : Type} [AddCommGroup W] [Module K W]

/-- A linear bound on the control points is a bound on the curve: a curve with positive weights stays in
    every half space that contains its control points. -/
theorem C10_half_space {eps : K} {c : Curve K (W × K)} {u : K} (h : c.Good eps)
    (hw : ∀ p ∈ c.cps, 0 < p.2) (h1 : c.lo ≤ u) (h2 : u ≤ c.hi) (f : W →ₗ[K] K) (b : K)
    (hf : ∀ p ∈ c.cps, f (p.2⁻¹ • p.1) ≤ b) :
    ∃ q, c.pointAt eps u = .ok q ∧ f q ≤ b := by
  obtain ⟨e, hpos⟩ := C09_point_at_positive_weights h hw h1 h2
  refine ⟨_, e, ?_⟩
  obtain ⟨s, _, hps, hsn, hin⟩ := h.exists_span h1 h2
  have hcp := h.cps_pos
  have hnn : ∀ i ∈ Finset.range c.cps.length, 0 ≤ NS (kf c.knots) s c.degree i u := by
    intro i hi
    have := Finset.mem_range.1 hi
    exact NS_nonneg h.good.mono (inSpan_le hin).1 (inSpan_le hin).2 _ _ (by omega)
  have key : f (c.eval u).1 ≤ b * (c.eval u).2 := by
    rw [eval_eq_NS h hsn hin, Prod.fst_sum, Prod.snd_sum, map_sum, Finset.mul_sum]
    apply Finset.sum_le_sum
    intro i hi
    have hi' := Finset.mem_range.1 hi
    have hm : c.cps.getD i 0 ∈ c.cps := by
      rw [List.getD_eq_getElem?_getD, List.getElem?_eq_getElem hi']
      exact List.getElem_mem _
    have hwp := hw _ hm
    have hfp := hf _ hm
    rw [map_smul, smul_eq_mul, inv_mul_le_iff₀ hwp] at hfp
    have := mul_le_mul_of_nonneg_left hfp (hnn i hi)
    simp only [Prod.smul_fst, Prod.smul_snd, map_smul, smul_eq_mul]
    calc _ ≤ _ := this
      _ = _ := by ring
  rw [map_smul, smul_eq_mul, inv_mul_le_iff₀ hpos, mul_comm]
  exact key

/-- Coordinate functional. -/
def coord (i : Fin d) : (Fin d → K) →ₗ[K] K := LinearMap.proj i

theorem dehomogenizedCps_eq {c : Curve K (W × K)} (hw : ∀ p ∈ c.cps, 0 < p.2) :
    c.dehomogenizedCps = .ok (c.cps.map fun p => p.2⁻¹ • p.1) := by
  unfold dehomogenizedCps
  apply mapM_ok
  intro p hp
  rw [dehomogenize, if_pos (hw p hp).ne']; rfl

/-- A curve with positive weights is contained in its bounding box. -/
theorem C10_in_bounding_box {eps big : K} {c : Curve K ((Fin d → K) × K)} {u : K} (h : c.Good eps)
    (hw : ∀ p ∈ c.cps, 0 < p.2) (h1 : c.lo ≤ u)
    (h2 : u ≤ c.hi) :
    ∃ box q, Box.ofCurve big c = .ok box ∧ c.pointAt eps u = .ok q ∧ box.contains q = true := by
  obtain ⟨e, hpos⟩ := C09_point_at_positive_weights h hw h1 h2
  refine ⟨_, _, by rw [Box.ofCurve, dehomogenizedCps_eq hw]; rfl, e, ?_⟩
  rw [contains_iff]
  obtain ⟨_, m1, _, _⟩ := foldl_extend (c.cps.map fun p => p.2⁻¹ • p.1) (⟨fun _ => big, fun _ => -big⟩ : Box K d)
  intro i
  constructor
  · obtain ⟨q, hq, hle⟩ := C10_half_space h hw h1 h2 (-coord i)
      (-(Box.ofPoints big (c.cps.map fun p => p.2⁻¹ • p.1)).min i) (by
        intro p hp
        rw [LinearMap.neg_apply]
        exact neg_le_neg (m1 _ (List.mem_map_of_mem hp) i).1)
    rw [e] at hq
    cases hq
    rw [LinearMap.neg_apply] at hle
    exact neg_le_neg_iff.1 hle
  · obtain ⟨q, hq, hle⟩ := C10_half_space h hw h1 h2 (coord i)
      ((Box.ofPoints big (c.cps.map fun p => p.2⁻¹ • p.1)).max i) (by
        intro p hp
        exact (m1 _ (List.mem_map_of_mem hp) i).2)
    rw [e] at hq
    cases hq
    exact hle

/-- Witness: a rational curve in the plane with positive weights. -/
def exPlane : Curve ℚ ((Fin 2 → ℚ) × ℚ) where
  degree := 2
  cps := [(![0, 0], 1), (![2, 4], 2), (![3, 0], 1), (![5, 5], 1)]
  knots := [0, 0, 0, 1, 2, 2, 2]

theorem exPlane_good : exPlane.Good (1/1000) where
  cps_pos := by decide
  knots_len := by decide
  good := by
    refine ⟨by norm_num, by decide, ?_, ?_, ?_, ?_, ?_⟩
    · intro i j hij hj
      exact (by decide +kernel : ∀ i ≤ 6, ∀ j ≤ 6, i ≤ j → kf exPlane.knots i ≤ kf exPlane.knots j)
        i (by have : j ≤ 6 := hj; omega) j hj hij
    all_goals simp [exPlane, kf]; try norm_num

theorem exPlane_weights : ∀ p ∈ exPlane.cps, 0 < p.2 := by simp [exPlane]

example : ∃ box q, Box.ofCurve 1000000 exPlane = .ok box ∧ exPlane.pointAt (1/1000) (1/2) = .ok q ∧
    box.contains q = true :=
  C10_in_bounding_box exPlane_good exPlane_weights (by simp [exPlane, Curve.lo, kf])
    (by simp [exPlane, Curve.hi, kf]; norm_num)

end Curvo.Props

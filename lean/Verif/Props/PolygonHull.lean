/-
  Property theorems: polygons and half planes, reversed polygons, C57.
-/
import Verif.Props.PolygonWinding

set_option linter.unusedSectionVars false

namespace Curvo.Props

open Curvo Curvo.Misc

variable {K : Type} [Field K] [LinearOrder K] [IsStrictOrderedRing K]

theorem exists_upper (l : List K) : ∃ M : K, 0 ≤ M ∧ ∀ x ∈ l, x ≤ M := by
  induction l with
  | nil => exact ⟨0, le_rfl, by simp⟩
  | cons a l ih =>
    obtain ⟨M, h0, h⟩ := ih
    refine ⟨max a M, h0.trans (le_max_right _ _), ?_⟩
    intro x hx
    rcases List.mem_cons.1 hx with rfl | hx
    · exact le_max_left _ _
    · exact (h x hx).trans (le_max_right _ _)

/-- **A point separated from all vertices by a line is not contained**, for every polygon, self-intersecting ones included. -/
theorem C57_outside_hull (vs : List (K × K)) (c n : K × K) (h : ∀ v ∈ vs, n.1 * v.1 + n.2 * v.2 < n.1 * c.1 + n.2 * c.2) :
    winding vs c = 0 ∧ polygonContains vs c = false := by
  have hn : ∀ s : K, 0 ≤ s → ∀ e ∈ circularPairs vs, SegApart c (c + s • n) e.1 e.2 := by
    intro s hs e he x ⟨t, t0, t1, hx⟩ ⟨u, u0, u1, hx'⟩
    obtain ⟨h1, h2⟩ := mem_circularPairs (l := vs) (x := e.1) (y := e.2) he
    have a1 := h _ h1
    have a2 := h _ h2
    have ex1 : x.1 = c.1 + t * s * n.1 := by
      rw [hx]; simp only [Prod.fst_add, Prod.smul_fst, smul_eq_mul]; ring
    have ex2 : x.2 = c.2 + t * s * n.2 := by
      rw [hx]; simp only [Prod.snd_add, Prod.smul_snd, smul_eq_mul]; ring
    have ey1 : x.1 = (1 - u) * e.1.1 + u * e.2.1 := by rw [hx']; simp
    have ey2 : x.2 = (1 - u) * e.1.2 + u * e.2.2 := by rw [hx']; simp
    have g1 : n.1 * c.1 + n.2 * c.2 ≤ n.1 * x.1 + n.2 * x.2 := by
      rw [ex1, ex2]
      have := mul_nonneg (mul_nonneg t0 hs) (add_nonneg (mul_self_nonneg n.1) (mul_self_nonneg n.2))
      nlinarith
    have g2 : n.1 * x.1 + n.2 * x.2 < n.1 * c.1 + n.2 * c.2 := by
      rw [ey1, ey2]
      have e0 : n.1 * ((1 - u) * e.1.1 + u * e.2.1) + n.2 * ((1 - u) * e.1.2 + u * e.2.2) =
          (1 - u) * (n.1 * e.1.1 + n.2 * e.1.2) + u * (n.1 * e.2.1 + n.2 * e.2.2) := by ring
      rw [e0]
      rcases u0.eq_or_lt with rfl | hu
      · simpa using a1
      · have b1 := mul_le_mul_of_nonneg_left a1.le (sub_nonneg.2 u1)
        have b2 := mul_lt_mul_of_pos_left a2 hu
        nlinarith
    exact absurd g1 (not_le.2 g2)
  have box : ∃ s : K, 0 ≤ s ∧ (vs = [] ∨ (∀ v ∈ vs, v.2 < (c + s • n).2) ∨ (∀ v ∈ vs, (c + s • n).2 < v.2) ∨
      (∀ v ∈ vs, v.1 < (c + s • n).1) ∨ (∀ v ∈ vs, (c + s • n).1 < v.1)) := by
    obtain ⟨M, M0, hM⟩ := exists_upper (vs.map fun v => |v.1 - c.1| + |v.2 - c.2|)
    have hM1 : ∀ v ∈ vs, |v.1 - c.1| ≤ M := fun v hv =>
      (le_add_of_nonneg_right (abs_nonneg _)).trans (hM _ (List.mem_map.2 ⟨v, hv, rfl⟩))
    have hM2 : ∀ v ∈ vs, |v.2 - c.2| ≤ M := fun v hv =>
      (le_add_of_nonneg_left (abs_nonneg _)).trans (hM _ (List.mem_map.2 ⟨v, hv, rfl⟩))
    rcases lt_trichotomy n.1 0 with h1 | h1 | h1
    · refine ⟨(M + 1) / (-n.1), div_nonneg (by linarith) (by linarith), .inr (.inr (.inr (.inr fun v hv => ?_)))⟩
      have e : (M + 1) / (-n.1) * n.1 = -(M + 1) := by rw [div_neg, neg_mul, div_mul_cancel₀ _ h1.ne]
      have := abs_le.1 (hM1 v hv)
      simp only [Prod.fst_add, Prod.smul_fst, smul_eq_mul, e]
      linarith [this.1]
    · rcases lt_trichotomy n.2 0 with h2 | h2 | h2
      · refine ⟨(M + 1) / (-n.2), div_nonneg (by linarith) (by linarith), .inr (.inr (.inl fun v hv => ?_))⟩
        have e : (M + 1) / (-n.2) * n.2 = -(M + 1) := by rw [div_neg, neg_mul, div_mul_cancel₀ _ h2.ne]
        have := abs_le.1 (hM2 v hv)
        simp only [Prod.snd_add, Prod.smul_snd, smul_eq_mul, e]
        linarith [this.1]
      · refine ⟨0, le_rfl, .inl ?_⟩
        cases vs with
        | nil => rfl
        | cons v vs => have := h v (by simp); simp [h1, h2] at this
      · refine ⟨(M + 1) / n.2, div_nonneg (by linarith) h2.le, .inr (.inl fun v hv => ?_)⟩
        have e : (M + 1) / n.2 * n.2 = M + 1 := by field_simp
        have := abs_le.1 (hM2 v hv)
        simp only [Prod.snd_add, Prod.smul_snd, smul_eq_mul, e]
        linarith [this.2]
    · refine ⟨(M + 1) / n.1, div_nonneg (by linarith) h1.le, .inr (.inr (.inr (.inl fun v hv => ?_)))⟩
      have e : (M + 1) / n.1 * n.1 = M + 1 := by field_simp
      have := abs_le.1 (hM1 v hv)
      simp only [Prod.fst_add, Prod.smul_fst, smul_eq_mul, e]
      linarith [this.2]
  obtain ⟨s, s0, hs⟩ := box
  have hw : winding vs c = 0 := by
    rw [(C57_constant vs c (c + s • n) (hn s s0)).1]
    rcases hs with rfl | hs
    · rfl
    · have := C57_outside_box vs (c + s • n) hs
      simpa [polygonContains] using this
  exact ⟨hw, by simp [polygonContains, hw]⟩

/-- **Convex polygons**: where no vertex lies to the right of an edge, a point to the right of some edge is not contained. Together
    with `C57_inside_convex` this decides all points off the boundary. -/
theorem C57_outside_convex (vs : List (K × K)) (c : K × K) {p q : K × K} (hv : ∀ v ∈ vs, 0 ≤ det p q v) (hc : det p q c < 0) :
    polygonContains vs c = false := by
  refine (C57_outside_hull vs c (q.2 - p.2, -(q.1 - p.1)) fun v hv' => ?_).2
  have := hv v hv'
  simp only [det] at this hc
  nlinarith

/-! ### Reversed polygons -/

theorem circularPairs_reverse {α : Type} (l : List α) : List.Perm (circularPairs l.reverse) ((circularPairs l).map Prod.swap) := by
  rcases l.eq_nil_or_concat with rfl | ⟨m, a, rfl⟩
  · simp [circularPairs]
  · rw [List.concat_eq_append]
    have e : circularPairs (m ++ [a]).reverse = (((circularPairs (m ++ [a])).rotate m.length).map Prod.swap).reverse := by
      rw [← circularPairs_rotate, List.rotate_append_length_eq]
      unfold circularPairs
      simp only [List.reverse_append, List.reverse_cons, List.reverse_nil, List.nil_append, List.cons_append, List.rotate_cons_succ, List.rotate_zero,
        List.zip_swap]
      have hl : (m ++ [a]).length = (a :: m).length := by simp
      rw [List.zip_eq_zipWith, List.zip_eq_zipWith, List.reverse_zipWith hl]
      simp
    rw [e]
    exact (List.reverse_perm _).trans ((List.rotate_perm _ _).map _)

/-- **Reversing a polygon negates its winding number around every point** (on the boundary too) **and keeps containment.** -/
theorem C57_reverse (vs : List (K × K)) (c : K × K) :
    winding vs.reverse c = - winding vs c ∧ polygonContains vs.reverse c = polygonContains vs c := by
  have h : winding vs.reverse c = - winding vs c := by
    rw [winding_sum, winding_sum, ((circularPairs_reverse vs).map (windingStep c)).sum_eq, List.map_map]
    have e : (windingStep c ∘ Prod.swap : (K × K) × (K × K) → ℤ) = fun x => - windingStep c x := funext fun x => windingStep_swap c x.1 x.2
    rw [e]
    induction circularPairs vs with
    | nil => rfl
    | cons x l ih => simp only [List.map_cons, List.sum_cons, ih]; ring
  exact ⟨h, by simp [polygonContains, h]⟩

/-- A point beyond the slanted side of a triangle, inside its bounding box. -/
example : polygonContains [((0 : ℚ), (0 : ℚ)), (4, 0), (0, 4)] (3, 3) = false :=
  C57_outside_convex _ _ (p := (4, 0)) (q := (0, 4)) (by decide +kernel) (by decide +kernel)

/-- A point of the pentagram and its reverse. -/
example : winding ([((0 : ℚ), (3 : ℚ)), (2, -2), (-3, 1), (3, 1), (-2, -2)].reverse) (0, 0) =
    - winding [((0 : ℚ), (3 : ℚ)), (2, -2), (-3, 1), (3, 1), (-2, -2)] (0, 0) := (C57_reverse _ _).1

end Curvo.Props

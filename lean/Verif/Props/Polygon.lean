/-
  Property theorems about polygon containment and segment intersection: C57, C58.
-/
import Mathlib.Algebra.BigOperators.Group.List.Basic
import Mathlib.Algebra.Order.BigOperators.Group.List
import Verif.Props.Misc2

set_option linter.unusedSectionVars false

namespace Curvo.Props

open Curvo Curvo.Misc

variable {K : Type} [Field K] [LinearOrder K] [IsStrictOrderedRing K]

/-! ### C57 -/

theorem winding_sum (vs : List (K × K)) (c : K × K) :
    winding vs c = ((circularPairs vs).map (windingStep c)).sum := by
  have : ∀ (l : List ((K × K) × (K × K))) (a : ℤ),
      l.foldl (fun acc e => acc + windingStep c e) a = a + (l.map (windingStep c)).sum := by
    intro l
    induction l with
    | nil => simp
    | cons e l ih => intro a; rw [List.foldl_cons, ih]; simp [add_assoc]
  rw [winding, this, zero_add]

theorem circularPairs_rotate {α : Type} (l : List α) (k : ℕ) :
    circularPairs (l.rotate k) = (circularPairs l).rotate k := by
  unfold circularPairs
  have := List.zipWith_rotate_distrib Prod.mk l (l.rotate 1) k (by simp)
  rw [List.rotate_rotate, Nat.add_comm] at this
  rw [List.rotate_rotate]
  exact this.symm

/-- The containment test does not depend on the starting vertex. -/
theorem C57_rotation (vs : List (K × K)) (c : K × K) (k : ℕ) :
    winding (vs.rotate k) c = winding vs c ∧ polygonContains (vs.rotate k) c = polygonContains vs c := by
  have : winding (vs.rotate k) c = winding vs c := by
    rw [winding_sum, winding_sum, circularPairs_rotate]
    exact ((List.rotate_perm _ _).map _).sum_eq
  exact ⟨this, by rw [polygonContains, this, polygonContains]⟩

theorem windingStep_translate (c d : K × K) (e : (K × K) × (K × K)) :
    windingStep (c + d) (e.1 + d, e.2 + d) = windingStep c e := by
  have : orientation (e.1 + d) (e.2 + d) (c + d) = orientation e.1 e.2 c := by
    have hd : det (e.1 + d) (e.2 + d) (c + d) = det e.1 e.2 c := by
      simp only [det, Prod.fst_add, Prod.snd_add, add_sub_add_right_eq_sub]
    rw [orientation, hd, orientation]
  simp only [windingStep, this, Prod.snd_add, add_le_add_iff_right, ne_eq, add_left_inj]

/-- Translating polygon and point together changes nothing. -/
theorem C57_translate (vs : List (K × K)) (c d : K × K) :
    polygonContains (vs.map (· + d)) (c + d) = polygonContains vs c := by
  have : winding (vs.map (· + d)) (c + d) = winding vs c := by
    rw [winding_sum, winding_sum, circularPairs, circularPairs, ← List.map_rotate, List.zip_map, List.map_map]
    congr 1
    apply List.map_congr_left
    intro e _
    exact windingStep_translate c d e
  rw [polygonContains, this, polygonContains]

theorem mem_circularPairs {α : Type} {l : List α} {x y : α} (h : (x, y) ∈ circularPairs l) :
    x ∈ l ∧ y ∈ l := by
  have := List.of_mem_zip h
  exact ⟨this.1, by simpa using this.2⟩

theorem pair_at {α : Type} {l : List α} {i : ℕ} (h : i < l.length) :
    (l[i], l[(i + 1) % l.length]'(Nat.mod_lt _ (by omega))) ∈ circularPairs l := by
  rw [List.mem_iff_getElem]
  refine ⟨i, by simpa [circularPairs] using h, ?_⟩
  simp [circularPairs, List.getElem_rotate]

/-- Differences around a cycle sum to zero. -/
theorem telescope {α : Type} (l : List α) (g : α → ℤ) :
    ((circularPairs l).map fun e => g e.2 - g e.1).sum = 0 := by
  have h1 : ((circularPairs l).map fun e => g e.2).sum = (l.map g).sum := by
    have : ((circularPairs l).map fun e => g e.2) = (l.rotate 1).map g := by
      rw [show (fun e : α × α => g e.2) = g ∘ Prod.snd from rfl, ← List.map_map, circularPairs,
        List.map_snd_zip (by simp)]
    rw [this]
    exact ((List.rotate_perm _ _).map _).sum_eq
  have h2 : ((circularPairs l).map fun e => g e.1).sum = (l.map g).sum := by
    rw [show (fun e : α × α => g e.1) = g ∘ Prod.fst from rfl, ← List.map_map, circularPairs,
      List.map_fst_zip (by simp)]
  have h3 : ∀ q : List (α × α), (q.map fun e => g e.2 - g e.1).sum =
      (q.map fun e => g e.2).sum - (q.map fun e => g e.1).sum := by
    intro q
    induction q with
    | nil => simp
    | cons e q ih => simp only [List.map_cons, List.sum_cons, ih]; ring
  rw [h3, h1, h2, sub_self]

/-- A step from inside a set to outside of it. -/
theorem cyclic_step {α : Type} {l : List α} {P : α → Prop} {x y : α} (hx : x ∈ l) (hy : y ∈ l) (h1 : P x)
    (h2 : ¬ P y) : ∃ e ∈ circularPairs l, P e.1 ∧ ¬ P e.2 := by
  by_contra hc
  push Not at hc
  obtain ⟨i, hi, rfl⟩ := List.mem_iff_getElem.1 hx
  obtain ⟨j, hj, rfl⟩ := List.mem_iff_getElem.1 hy
  have hall : ∀ d, P (l[(i + d) % l.length]'(Nat.mod_lt _ (by omega))) := by
    intro d
    induction d with
    | zero => simpa [Nat.mod_eq_of_lt hi] using h1
    | succ d ih =>
      have := hc _ (pair_at (Nat.mod_lt (i + d) (by omega : 0 < l.length))) ih
      simpa [Nat.add_assoc] using this
  have := hall (l.length - i + j)
  rw [show i + (l.length - i + j) = j + l.length by omega] at this
  apply h2
  simpa [Nat.mod_eq_of_lt hj] using this

/-- A strict order cannot increase all the way around a cycle. -/
theorem cyclic_lt {α β : Type} [LinearOrder β] {l : List α} (hne : l ≠ []) {f : α → β}
    (h : ∀ e ∈ circularPairs l, f e.1 < f e.2) : False := by
  obtain ⟨x, hx, hmax⟩ : ∃ x ∈ l, ∀ y ∈ l, f y ≤ f x := by
    clear h
    induction l with
    | nil => exact absurd rfl hne
    | cons a l ih =>
      by_cases hl : l = []
      · subst hl; exact ⟨a, by simp, by simp⟩
      · obtain ⟨x, hx, hm⟩ := ih hl
        rcases le_total (f a) (f x) with hle | hle
        · refine ⟨x, by simp [hx], ?_⟩
          intro y hy
          rcases List.mem_cons.1 hy with rfl | hy
          · exact hle
          · exact hm y hy
        · refine ⟨a, by simp, ?_⟩
          intro y hy
          rcases List.mem_cons.1 hy with rfl | hy
          · exact le_refl _
          · exact le_trans (hm y hy) hle
  obtain ⟨i, hi, rfl⟩ := List.mem_iff_getElem.1 hx
  exact absurd (h _ (pair_at hi)) (not_lt.2 (hmax _ (List.getElem_mem _)))

theorem sum_zero_of {α : Type} {l : List α} {g : α → ℤ} (h : ∀ e ∈ l, g e = 0) : (l.map g).sum = 0 := by
  induction l with
  | nil => rfl
  | cons e l ih =>
    rw [List.map_cons, List.sum_cons, h e (by simp), ih (fun e he => h e (by simp [he])), add_zero]

/-- A point above, below, left of or right of all vertices is not contained. -/
theorem C57_outside_box (vs : List (K × K)) (c : K × K)
    (h : (∀ v ∈ vs, v.2 < c.2) ∨ (∀ v ∈ vs, c.2 < v.2) ∨ (∀ v ∈ vs, v.1 < c.1) ∨ (∀ v ∈ vs, c.1 < v.1)) :
    polygonContains vs c = false := by
  have : winding vs c = 0 := by
    rw [winding_sum]
    rcases h with h | h | h | h
    · apply sum_zero_of
      rintro ⟨x, y⟩ he
      obtain ⟨hx, hy⟩ := mem_circularPairs he
      simp only [windingStep]
      rw [if_pos (h x hx).le, if_neg (not_le.2 (h y hy))]
    · apply sum_zero_of
      rintro ⟨x, y⟩ he
      obtain ⟨hx, hy⟩ := mem_circularPairs he
      simp only [windingStep]
      rw [if_neg (not_le.2 (h x hx)), if_neg (not_le.2 (h y hy))]
    · apply sum_zero_of
      rintro ⟨x, y⟩ he
      obtain ⟨hx, hy⟩ := mem_circularPairs he
      have h1 := h x hx
      have h2 := h y hy
      simp only [windingStep]
      by_cases ha : x.2 ≤ c.2
      · rw [if_pos ha]
        by_cases hb : c.2 ≤ y.2
        · rw [if_pos hb, if_neg]
          rintro ⟨ho, hne⟩
          have hlt : c.2 < y.2 := lt_of_le_of_ne hb (Ne.symm hne)
          have hd : det x y c < 0 := by
            have := mul_pos (sub_pos.2 h1) (sub_pos.2 hlt)
            have := mul_nonneg (sub_pos.2 h2).le (sub_nonneg.2 ha)
            simp only [det]
            nlinarith
          rw [orientation, if_pos hd] at ho
          cases ho
        · rw [if_neg hb]
      · rw [if_neg ha]
        have ha := not_le.1 ha
        by_cases hb : y.2 ≤ c.2
        · rw [if_pos hb, if_neg]
          intro ho
          have hd : 0 < det x y c := by
            have := mul_nonneg (sub_pos.2 h1).le (sub_nonneg.2 hb)
            have := mul_pos (sub_pos.2 h2) (sub_pos.2 ha)
            simp only [det]
            nlinarith
          rw [orientation, if_neg (not_lt.2 hd.le), if_pos hd] at ho
          cases ho
        · rw [if_neg hb]
    · have key : ∀ e ∈ circularPairs vs, windingStep c e =
          (if c.2 < e.2.2 then 1 else 0) - (if c.2 < e.1.2 then (1 : ℤ) else 0) := by
        rintro ⟨x, y⟩ he
        obtain ⟨hx, hy⟩ := mem_circularPairs he
        have h1 := h x hx
        have h2 := h y hy
        simp only [windingStep]
        by_cases ha : x.2 ≤ c.2
        · rw [if_pos ha, if_neg (not_lt.2 ha)]
          by_cases hb : c.2 < y.2
          · have hd : 0 < det x y c := by
              have := mul_pos (sub_pos.2 h1) (sub_pos.2 hb)
              have := mul_nonneg (sub_pos.2 h2).le (sub_nonneg.2 ha)
              simp only [det]
              nlinarith
            have ho : orientation x y c = .ccw := by
              rw [orientation, if_neg (not_lt.2 hd.le), if_pos hd]
            rw [if_pos hb.le, if_pos ⟨ho, hb.ne'⟩, if_pos hb]; norm_num
          · rw [if_neg hb]
            by_cases hb' : c.2 ≤ y.2
            · rw [if_pos hb', if_neg (fun h => h.2 (le_antisymm (not_lt.1 hb) hb'))]; norm_num
            · rw [if_neg hb']; norm_num
        · rw [if_neg ha]
          have ha := not_le.1 ha
          rw [if_pos ha]
          by_cases hb : y.2 ≤ c.2
          · have hd : det x y c < 0 := by
              have := mul_nonneg (sub_pos.2 h1).le (sub_nonneg.2 hb)
              have := mul_pos (sub_pos.2 h2) (sub_pos.2 ha)
              simp only [det]
              nlinarith
            have ho : orientation x y c = .cw := by rw [orientation, if_pos hd]
            rw [if_pos hb, if_pos ho, if_neg (not_lt.2 hb)]; norm_num
          · rw [if_neg hb, if_pos (not_le.1 hb)]; norm_num
      rw [List.map_congr_left key]
      exact telescope vs fun v => if c.2 < v.2 then 1 else 0
  rw [polygonContains, this]; simp

/-- Position of a non zero direction in the closed lower half plane, ordered counter clockwise. -/
def lowerKey (q : K × K) : Lex (ℤ × K) :=
  if q.2 = 0 then toLex (if q.1 < 0 then 0 else 2, 0) else toLex (1, q.1 / -q.2)

theorem lowerKey_lt {a b : K × K} (ha : a.2 ≤ 0) (hb : b.2 ≤ 0) (h : 0 < a.1 * b.2 - a.2 * b.1) :
    lowerKey a < lowerKey b := by
  unfold lowerKey
  rw [Prod.Lex.lt_iff']
  by_cases ha0 : a.2 = 0
  · rw [ha0, zero_mul, sub_zero] at h
    have hb0 : b.2 ≠ 0 := by rintro e; rw [e, mul_zero] at h; exact lt_irrefl _ h
    have hblt : b.2 < 0 := lt_of_le_of_ne hb hb0
    have hneg : a.1 < 0 := by
      by_contra hc
      exact absurd h (not_lt.2 (mul_nonpos_of_nonneg_of_nonpos (not_lt.1 hc) hb))
    rw [if_pos ha0, if_neg hb0, if_pos hneg]
    simp
  · have halt : a.2 < 0 := lt_of_le_of_ne ha ha0
    rw [if_neg ha0]
    by_cases hb0 : b.2 = 0
    · rw [hb0, mul_zero, zero_sub] at h
      have hpos : ¬ b.1 < 0 := by
        intro hc
        have := mul_pos_of_neg_of_neg halt hc
        linarith
      rw [if_pos hb0, if_neg hpos]
      simp
    · have hblt : b.2 < 0 := lt_of_le_of_ne hb hb0
      rw [if_neg hb0]
      simp only [ofLex_toLex, le_refl, true_and, forall_const]
      rw [div_lt_div_iff₀ (by linarith) (by linarith)]
      linarith

theorem det_eq (x y c : K × K) :
    det x y c = (x.1 - c.1) * (y.2 - c.2) - (x.2 - c.2) * (y.1 - c.1) := by
  simp only [det]; ring

theorem orientation_ccw_iff {p q r : K × K} : orientation p q r = .ccw ↔ 0 < det p q r := by
  unfold orientation
  constructor
  · intro h
    split at h
    · cases h
    · split at h
      · assumption
      · cases h
  · intro h; rw [if_neg (not_lt.2 h.le), if_pos h]

theorem orientation_cw_iff {p q r : K × K} : orientation p q r = .cw ↔ det p q r < 0 := by
  unfold orientation
  constructor
  · intro h
    split at h
    · assumption
    · split at h <;> cases h
  · intro h; rw [if_pos h]

theorem orientation_collinear_iff {p q r : K × K} : orientation p q r = .collinear ↔ det p q r = 0 := by
  unfold orientation
  constructor
  · intro h
    by_cases h1 : det p q r < 0
    · rw [if_pos h1] at h; cases h
    · by_cases h2 : 0 < det p q r
      · rw [if_neg h1, if_pos h2] at h; cases h
      · exact le_antisymm (not_lt.1 h2) (not_lt.1 h1)
  · intro h; rw [if_neg (by rw [h]; exact lt_irrefl _), if_neg (by rw [h]; exact lt_irrefl _)]

/-- A polygon that turns counter clockwise around a point has vertices strictly above it and vertices
    not above it. -/
theorem ccw_above_below {vs : List (K × K)} {c : K × K} (hne : vs ≠ [])
    (h : ∀ e ∈ circularPairs vs, 0 < det e.1 e.2 c) :
    (∃ v ∈ vs, c.2 < v.2) ∧ ∃ v ∈ vs, v.2 ≤ c.2 := by
  constructor
  · by_contra hc
    push Not at hc
    refine cyclic_lt hne (f := fun v => lowerKey (v - c)) ?_
    rintro ⟨x, y⟩ he
    obtain ⟨hx, hy⟩ := mem_circularPairs he
    apply lowerKey_lt
    · simpa using hc x hx
    · simpa using hc y hy
    · have := h _ he; rw [det_eq] at this; simpa using this
  · by_contra hc
    push Not at hc
    refine cyclic_lt hne (f := fun v => -((v.1 - c.1) / (v.2 - c.2))) ?_
    rintro ⟨x, y⟩ he
    obtain ⟨hx, hy⟩ := mem_circularPairs he
    have h1 := sub_pos.2 (hc x hx)
    have h2 := sub_pos.2 (hc y hy)
    have := h _ he
    rw [det_eq] at this
    simp only at this ⊢
    rw [neg_lt_neg_iff, div_lt_div_iff₀ h2 h1]
    linarith

/-- The same for a clockwise polygon. -/
theorem cw_above_below {vs : List (K × K)} {c : K × K} (hne : vs ≠ [])
    (h : ∀ e ∈ circularPairs vs, det e.1 e.2 c < 0) :
    (∃ v ∈ vs, c.2 < v.2) ∧ ∃ v ∈ vs, v.2 ≤ c.2 := by
  constructor
  · by_contra hc
    push Not at hc
    refine cyclic_lt hne (f := fun v => OrderDual.toDual (lowerKey (v - c))) ?_
    rintro ⟨x, y⟩ he
    obtain ⟨hx, hy⟩ := mem_circularPairs he
    apply OrderDual.toDual_lt_toDual.2
    apply lowerKey_lt
    · simpa using hc y hy
    · simpa using hc x hx
    · have := h _ he; rw [det_eq] at this; simp only [Prod.fst_sub, Prod.snd_sub]; linarith
  · by_contra hc
    push Not at hc
    refine cyclic_lt hne (f := fun v => (v.1 - c.1) / (v.2 - c.2)) ?_
    rintro ⟨x, y⟩ he
    obtain ⟨hx, hy⟩ := mem_circularPairs he
    have h1 := sub_pos.2 (hc x hx)
    have h2 := sub_pos.2 (hc y hy)
    have := h _ he
    rw [det_eq] at this
    simp only at this ⊢
    rw [div_lt_div_iff₀ h1 h2]
    linarith

/-- A point strictly to the left of all edges (in particular: strictly inside a counter clockwise convex
    polygon), or strictly to the right of all edges, is contained. -/
theorem C57_inside_convex (vs : List (K × K)) (c : K × K) (hne : vs ≠ [])
    (h : (∀ e ∈ circularPairs vs, 0 < det e.1 e.2 c) ∨ (∀ e ∈ circularPairs vs, det e.1 e.2 c < 0)) :
    polygonContains vs c = true := by
  have : winding vs c ≠ 0 := by
    rw [winding_sum]
    rcases h with h | h
    · have hnn : ∀ x ∈ (circularPairs vs).map (windingStep c), 0 ≤ x := by
        intro x hx
        obtain ⟨e, he, rfl⟩ := List.mem_map.1 hx
        have ho : orientation e.1 e.2 c ≠ .cw := fun ho =>
          absurd (orientation_cw_iff.1 ho) (not_lt.2 (h e he).le)
        unfold windingStep
        split_ifs <;> simp_all
      obtain ⟨⟨a, ha, ha'⟩, b, hb, hb'⟩ := ccw_above_below hne h
      obtain ⟨e, he, h1, h2⟩ := cyclic_step (P := fun v => v.2 ≤ c.2) hb ha hb' (not_le.2 ha')
      have h2 := not_le.1 h2
      have hval : windingStep c e = 1 := by
        unfold windingStep
        rw [if_pos h1, if_pos h2.le, if_pos ⟨orientation_ccw_iff.2 (h e he), h2.ne'⟩]
      have := List.single_le_sum hnn (windingStep c e) (List.mem_map_of_mem he)
      rw [hval] at this
      omega
    · have hnn : ∀ x ∈ (circularPairs vs).map (fun e => - windingStep c e), 0 ≤ x := by
        intro x hx
        obtain ⟨e, he, rfl⟩ := List.mem_map.1 hx
        have ho : orientation e.1 e.2 c ≠ .ccw := fun ho =>
          absurd (orientation_ccw_iff.1 ho) (not_lt.2 (h e he).le)
        unfold windingStep
        split_ifs <;> simp_all
      obtain ⟨⟨a, ha, ha'⟩, b, hb, hb'⟩ := cw_above_below hne h
      obtain ⟨e, he, h1, h2⟩ := cyclic_step (P := fun v => c.2 < v.2) ha hb ha' (not_lt.2 hb')
      have h2 := not_lt.1 h2
      have hval : windingStep c e = -1 := by
        unfold windingStep
        rw [if_neg (not_le.2 h1), if_pos h2, if_pos (orientation_cw_iff.2 (h e he))]
      have := List.single_le_sum hnn (- windingStep c e)
        (List.mem_map_of_mem (f := fun e => - windingStep c e) he)
      rw [hval] at this
      have hneg : ∀ l : List ((K × K) × (K × K)),
          (l.map fun e => - windingStep c e).sum = - (l.map (windingStep c)).sum := by
        intro l
        induction l with
        | nil => simp
        | cons e l ih => simp only [List.map_cons, List.sum_cons, ih]; ring
      rw [hneg] at this
      omega
  rw [polygonContains]; simpa using this

/-- Witness: a convex pentagon and a point inside. -/
def exPentagon : List (ℚ × ℚ) := [(0, 0), (4, 0), (5, 3), (2, 5), (-1, 3)]

example : polygonContains exPentagon (2, 2) = true :=
  C57_inside_convex _ _ (by simp [exPentagon]) (Or.inl (by decide +kernel))
example : polygonContains exPentagon (2, 6) = false :=
  C57_outside_box _ _ (Or.inl (by decide +kernel))
example : polygonContains (exPentagon.rotate 3) (2, 2) = polygonContains exPentagon (2, 2) :=
  (C57_rotation _ _ 3).2

/-! ### C58 -/

/-- Two closed segments share a point. -/
def SegmentsMeet (p q r s : K × K) : Prop :=
  ∃ t u : K, 0 ≤ t ∧ t ≤ 1 ∧ 0 ≤ u ∧ u ≤ 1 ∧
    p.1 + t * (q.1 - p.1) = r.1 + u * (s.1 - r.1) ∧ p.2 + t * (q.2 - p.2) = r.2 + u * (s.2 - r.2)

theorem rangesMeet_of {tol a0 a1 b0 b1 x : K} (ht : 0 ≤ tol) (h1 : min a0 a1 ≤ x) (h2 : x ≤ max a0 a1)
    (h3 : min b0 b1 ≤ x) (h4 : x ≤ max b0 b1) : rangesMeet tol a0 a1 b0 b1 = true := by
  unfold rangesMeet
  simp only [Bool.not_eq_true', decide_eq_false_iff_not, not_lt]
  apply mul_nonpos_of_nonpos_of_nonneg <;> linarith

theorem between {p q t : K} (h0 : 0 ≤ t) (h1 : t ≤ 1) :
    min p q ≤ p + t * (q - p) ∧ p + t * (q - p) ≤ max p q := by
  rcases le_total p q with h | h
  · rw [min_eq_left h, max_eq_right h]
    have := mul_nonneg h0 (sub_nonneg.2 h)
    have := mul_le_mul_of_nonneg_right h1 (sub_nonneg.2 h)
    constructor <;> linarith
  · rw [min_eq_right h, max_eq_left h]
    have := mul_nonneg h0 (sub_nonneg.2 h)
    have := mul_le_mul_of_nonneg_right h1 (sub_nonneg.2 h)
    constructor <;> linarith

theorem lineIntersects_iff {tol : K} {p q r s : K × K} : lineIntersects tol p q r s = true ↔
    (rangesMeet tol p.1 q.1 r.1 s.1 = true ∧ rangesMeet tol p.2 q.2 r.2 s.2 = true) ∧
    ¬ (det p q r < 0 ∧ det p q s < 0) ∧ ¬ (0 < det p q r ∧ 0 < det p q s) ∧
    ¬ (det r s p < 0 ∧ det r s q < 0) ∧ ¬ (0 < det r s p ∧ 0 < det r s q) ∧
    ¬ (det p q r = 0 ∧ det p q s = 0 ∧ det r s p = 0 ∧ det r s q = 0) := by
  unfold lineIntersects
  simp only [orientation_cw_iff, orientation_ccw_iff, orientation_collinear_iff]
  split_ifs with g1 g2 g3 g4
  · simp only [Bool.false_eq_true, false_iff]; exact fun h => g2.elim h.2.1 h.2.2.1
  · simp only [Bool.false_eq_true, false_iff]; exact fun h => g3.elim h.2.2.2.1 h.2.2.2.2.1
  · simp only [Bool.false_eq_true, false_iff]; exact fun h => h.2.2.2.2.2 g4
  · simp only [true_iff]
    exact ⟨g1, fun h => g2 (Or.inl h), fun h => g2 (Or.inr h), fun h => g3 (Or.inl h),
      fun h => g3 (Or.inr h), g4⟩
  · simp only [Bool.false_eq_true, false_iff]; exact fun h => g1 h.1

theorem det_diff (p q r s : K × K) : det r s p - det r s q = det p q s - det p q r := by
  simp only [det]; ring

theorem nonpos_of_not_same {a b : K} (h1 : ¬ (a < 0 ∧ b < 0)) (h2 : ¬ (0 < a ∧ 0 < b)) : a * b ≤ 0 := by
  rcases lt_trichotomy a 0 with h | h | h
  · have : 0 ≤ b := by by_contra hc; exact h1 ⟨h, not_le.1 hc⟩
    exact mul_nonpos_of_nonpos_of_nonneg h.le this
  · simp [h]
  · have : b ≤ 0 := by by_contra hc; exact h2 ⟨h, not_le.1 hc⟩
    exact mul_nonpos_of_nonneg_of_nonpos h.le this

theorem frac_mem {a b : K} (h : a * b ≤ 0) (hne : a - b ≠ 0) : 0 ≤ a / (a - b) ∧ a / (a - b) ≤ 1 := by
  rcases lt_or_gt_of_ne hne with hlt | hgt
  · have ha : a ≤ 0 := by
      by_contra hc
      have hc := not_le.1 hc
      nlinarith
    have hb : 0 ≤ b := by
      by_contra hc
      have hc := not_le.1 hc
      nlinarith
    refine ⟨div_nonneg_of_nonpos ha hlt.le, ?_⟩
    rw [div_le_one_of_neg hlt]; linarith
  · have ha : 0 ≤ a := by
      by_contra hc
      have hc := not_le.1 hc
      nlinarith
    have hb : b ≤ 0 := by
      by_contra hc
      have hc := not_le.1 hc
      nlinarith
    refine ⟨div_nonneg ha hgt.le, ?_⟩
    rw [div_le_one hgt]; linarith

/-- For segments that do not lie on one line the test is true exactly when they share a point. -/
theorem C58_intersects_iff {tol : K} (ht : 0 ≤ tol) {p q r s : K × K}
    (hnc : ¬ (det p q r = 0 ∧ det p q s = 0 ∧ det r s p = 0 ∧ det r s q = 0)) :
    lineIntersects tol p q r s = true ↔ SegmentsMeet p q r s := by
  rw [lineIntersects_iff]
  constructor
  · rintro ⟨_, h1, h2, h3, h4, _⟩
    have hab := nonpos_of_not_same h1 h2
    have hcd := nonpos_of_not_same h3 h4
    have hD := det_diff p q r s
    have hne : det r s p - det r s q ≠ 0 := by
      intro h0
      apply hnc
      have e1 : det r s p = det r s q := sub_eq_zero.1 h0
      have e2 : det p q s = det p q r := by rw [h0] at hD; exact sub_eq_zero.1 hD.symm
      rw [e1] at hcd
      rw [e2] at hab
      have z1 : det r s q = 0 := by nlinarith
      have z2 : det p q r = 0 := by nlinarith
      exact ⟨z2, e2.trans z2, e1.trans z1, z1⟩
    have hne' : det p q r - det p q s ≠ 0 := by
      intro h0; apply hne; rw [hD]; linarith
    obtain ⟨t0, t1⟩ := frac_mem hcd hne
    obtain ⟨u0, u1⟩ := frac_mem hab hne'
    refine ⟨_, _, t0, t1, u0, u1, ?_, ?_⟩
    all_goals
      have hs : det p q r - det p q s = -(det r s p - det r s q) := by rw [hD]; ring
      rw [hs]
      have hne2 := hne
      generalize hDD : det r s p - det r s q = D at hne2
      have hD2 : D = (q.1 - p.1) * (s.2 - r.2) - (q.2 - p.2) * (s.1 - r.1) := by
        rw [← hDD]; simp only [det]; ring
      field_simp
      rw [hD2]; simp only [det]; ring
  · rintro ⟨t, u, t0, t1, u0, u1, e1, e2⟩
    have hr1 := between (p := p.1) (q := q.1) t0 t1
    have hr2 := between (p := p.2) (q := q.2) t0 t1
    have hr3 := between (p := r.1) (q := s.1) u0 u1
    have hr4 := between (p := r.2) (q := s.2) u0 u1
    rw [← e1] at hr3
    rw [← e2] at hr4
    -- the common point is on both lines
    have hA : (1 - u) * det p q r + u * det p q s = 0 := by
      have : (1 - u) * det p q r + u * det p q s =
          (q.1 - p.1) * ((r.2 + u * (s.2 - r.2)) - p.2) - (q.2 - p.2) * ((r.1 + u * (s.1 - r.1)) - p.1) := by
        simp only [det]; ring
      rw [this, ← e1, ← e2]; ring
    have hB : (1 - t) * det r s p + t * det r s q = 0 := by
      have : (1 - t) * det r s p + t * det r s q =
          (s.1 - r.1) * ((p.2 + t * (q.2 - p.2)) - r.2) - (s.2 - r.2) * ((p.1 + t * (q.1 - p.1)) - r.1) := by
        simp only [det]; ring
      rw [this, e1, e2]; ring
    have same : ∀ {w a b : K}, 0 ≤ w → w ≤ 1 → (1 - w) * a + w * b = 0 →
        ¬ (a < 0 ∧ b < 0) ∧ ¬ (0 < a ∧ 0 < b) := by
      intro w a b w0 w1 h
      constructor
      · rintro ⟨ha, hb⟩
        rcases eq_or_lt_of_le w0 with hw | hw
        · rw [← hw] at h; simp at h; linarith
        · nlinarith [mul_neg_of_pos_of_neg hw hb, mul_nonneg (sub_nonneg.2 w1) (neg_nonneg.2 ha.le)]
      · rintro ⟨ha, hb⟩
        rcases eq_or_lt_of_le w0 with hw | hw
        · rw [← hw] at h; simp at h; linarith
        · nlinarith [mul_pos hw hb, mul_nonneg (sub_nonneg.2 w1) ha.le]
    obtain ⟨s1, s2⟩ := same u0 u1 hA
    obtain ⟨s3, s4⟩ := same t0 t1 hB
    exact ⟨⟨rangesMeet_of ht hr1.1 hr1.2 hr3.1 hr3.2, rangesMeet_of ht hr2.1 hr2.2 hr4.1 hr4.2⟩,
      s1, s2, s3, s4, hnc⟩

/-- Segments on one line are always reported as not intersecting, even if they overlap. -/
theorem C58_collinear_false (tol : K) {p q r s : K × K}
    (hc : det p q r = 0 ∧ det p q s = 0 ∧ det r s p = 0 ∧ det r s q = 0) :
    lineIntersects tol p q r s = false := by
  rw [← Bool.not_eq_true, lineIntersects_iff]
  exact fun h => h.2.2.2.2.2 hc

/-- The collinear case is a genuine miss: two overlapping collinear segments. -/
theorem C58_collinear_overlap_missed :
    SegmentsMeet ((0, 0) : ℚ × ℚ) (2, 0) (1, 0) (3, 0) ∧
      ∀ tol : ℚ, lineIntersects tol (0, 0) (2, 0) (1, 0) (3, 0) = false :=
  ⟨⟨1/2, 0, by norm_num, by norm_num, by norm_num, by norm_num, by norm_num, by norm_num⟩,
    fun tol => C58_collinear_false tol (by norm_num [det])⟩

theorem rangesMeet_symm (tol a0 a1 b0 b1 : K) : rangesMeet tol a0 a1 b0 b1 = rangesMeet tol b0 b1 a0 a1 := by
  unfold rangesMeet
  simp only
  congr 2
  rw [show (min a0 a1 - tol - (max b0 b1 + tol)) * (max a0 a1 + tol - (min b0 b1 - tol)) =
    (min b0 b1 - tol - (max a0 a1 + tol)) * (max b0 b1 + tol - (min a0 a1 - tol)) by ring]

/-- The test is symmetric, and does not depend on the direction of the segments. -/
theorem C58_symmetric (tol : K) (p q r s : K × K) :
    lineIntersects tol p q r s = lineIntersects tol r s p q ∧
    lineIntersects tol p q r s = lineIntersects tol q p r s ∧
    lineIntersects tol p q r s = lineIntersects tol p q s r := by
  have sw : ∀ a b c : K × K, det b a c = - det a b c := by intro a b c; simp only [det]; ring
  have rm1 : ∀ a0 a1 b0 b1 : K, rangesMeet tol a1 a0 b0 b1 = rangesMeet tol a0 a1 b0 b1 := by
    intro a0 a1 b0 b1; simp only [rangesMeet, min_comm, max_comm]
  have rm2 : ∀ a0 a1 b0 b1 : K, rangesMeet tol a0 a1 b1 b0 = rangesMeet tol a0 a1 b0 b1 := by
    intro a0 a1 b0 b1; simp only [rangesMeet, min_comm, max_comm]
  refine ⟨?_, ?_, ?_⟩
  · rw [Bool.eq_iff_iff, lineIntersects_iff, lineIntersects_iff, rangesMeet_symm tol p.1, rangesMeet_symm tol p.2]
    constructor
    · rintro ⟨h0, h1, h2, h3, h4, h5⟩
      exact ⟨h0, h3, h4, h1, h2, fun ⟨a, b, c, d⟩ => h5 ⟨c, d, a, b⟩⟩
    · rintro ⟨h0, h1, h2, h3, h4, h5⟩
      exact ⟨h0, h3, h4, h1, h2, fun ⟨a, b, c, d⟩ => h5 ⟨c, d, a, b⟩⟩
  · rw [Bool.eq_iff_iff, lineIntersects_iff, lineIntersects_iff, rm1 p.1 q.1, rm1 p.2 q.2, sw p q r, sw p q s]
    simp only [neg_lt_zero, neg_pos, neg_eq_zero]
    constructor
    · rintro ⟨h0, h1, h2, h3, h4, h5⟩
      exact ⟨h0, h2, h1, fun h => h3 h.symm, fun h => h4 h.symm, fun ⟨a, b, c, d⟩ => h5 ⟨a, b, d, c⟩⟩
    · rintro ⟨h0, h1, h2, h3, h4, h5⟩
      exact ⟨h0, h2, h1, fun h => h3 h.symm, fun h => h4 h.symm, fun ⟨a, b, c, d⟩ => h5 ⟨a, b, d, c⟩⟩
  · rw [Bool.eq_iff_iff, lineIntersects_iff, lineIntersects_iff, rm2 p.1 q.1, rm2 p.2 q.2, sw r s p, sw r s q]
    simp only [neg_lt_zero, neg_pos, neg_eq_zero]
    constructor
    · rintro ⟨h0, h1, h2, h3, h4, h5⟩
      exact ⟨h0, fun h => h1 h.symm, fun h => h2 h.symm, h4, h3, fun ⟨a, b, c, d⟩ => h5 ⟨b, a, c, d⟩⟩
    · rintro ⟨h0, h1, h2, h3, h4, h5⟩
      exact ⟨h0, fun h => h1 h.symm, fun h => h2 h.symm, h4, h3, fun ⟨a, b, c, d⟩ => h5 ⟨b, a, c, d⟩⟩

example : lineIntersects (1/1000) ((0, 0) : ℚ × ℚ) (2, 2) (0, 2) (2, 0) = true :=
  (C58_intersects_iff (by norm_num) (by norm_num [det])).2
    ⟨1/2, 1/2, by norm_num, by norm_num, by norm_num, by norm_num, by norm_num, by norm_num⟩

end Curvo.Props

/-
  C57, continued: the winding number behind the polygon test is constant along segments that avoid the boundary and jumps
  by one where a segment crosses a single edge.
-/
import Verif.Props.Polygon

set_option linter.unusedSectionVars false

namespace Curvo.Props

open Curvo Curvo.Misc

variable {K : Type} [Field K] [LinearOrder K] [IsStrictOrderedRing K]

/-- The points of the segment from `p` to `q`. -/
def OnSegment (p q x : K × K) : Prop := ∃ t : K, 0 ≤ t ∧ t ≤ 1 ∧ x = (1 - t) • p + t • q

/-- The segments `c d` and `p q` have no point in common. -/
def SegApart (c d p q : K × K) : Prop := ∀ x, OnSegment c d x → ¬ OnSegment p q x

theorem OnSegment.symm {p q x : K × K} (h : OnSegment p q x) : OnSegment q p x := by
  obtain ⟨t, h0, h1, rfl⟩ := h
  refine ⟨1 - t, by linarith, by linarith, ?_⟩
  rw [sub_sub_cancel, add_comm]

theorem SegApart.symm_right {c d p q : K × K} (h : SegApart c d p q) : SegApart c d q p := fun x h1 h2 => h x h1 h2.symm

theorem SegApart.symm_left {c d p q : K × K} (h : SegApart c d p q) : SegApart d c p q := fun x h1 h2 => h x h1.symm h2

/-- Abscissa of the line through `p` and `q` at height `h`. -/
def absc (p q : K × K) (h : K) : K := p.1 + (h - p.2) / (q.2 - p.2) * (q.1 - p.1)

theorem det_absc {p q : K × K} (hpq : p.2 < q.2) (r : K × K) :
    det p q r = (q.2 - p.2) * (absc p q r.2 - r.1) := by
  have : q.2 - p.2 ≠ 0 := (sub_pos.2 hpq).ne'
  unfold det absc
  field_simp
  ring

theorem det_pos_absc {p q : K × K} (hpq : p.2 < q.2) (r : K × K) : 0 < det p q r ↔ r.1 < absc p q r.2 := by
  rw [det_absc hpq, mul_pos_iff_of_pos_left (sub_pos.2 hpq), sub_pos]

theorem det_neg_absc {p q : K × K} (hpq : p.2 < q.2) (r : K × K) : det p q r < 0 ↔ absc p q r.2 < r.1 := by
  have := sub_pos.2 hpq
  rw [det_absc hpq]
  constructor
  · intro h; by_contra hn; nlinarith [not_lt.1 hn]
  · intro h; nlinarith

theorem absc_left {p q : K × K} : absc p q p.2 = p.1 := by simp [absc]

theorem absc_right {p q : K × K} (hpq : p.2 < q.2) : absc p q q.2 = q.1 := by
  have : q.2 - p.2 ≠ 0 := (sub_pos.2 hpq).ne'
  simp [absc, div_self this]

theorem onSegment_absc {p q : K × K} (hpq : p.2 < q.2) {h : K} (h0 : p.2 ≤ h) (h1 : h ≤ q.2) :
    OnSegment p q (absc p q h, h) := by
  have hd : 0 < q.2 - p.2 := sub_pos.2 hpq
  refine ⟨(h - p.2) / (q.2 - p.2), div_nonneg (by linarith) hd.le, (div_le_one hd).2 (by linarith), ?_⟩
  ext
  · simp only [absc, Prod.fst_add, Prod.smul_fst, smul_eq_mul]; ring
  · simp only [Prod.snd_add, Prod.smul_snd, smul_eq_mul]
    field_simp
    ring

/-- Two upward segments without a common point keep their order over their common heights. -/
theorem absc_order {p q c d : K × K} (hpq : p.2 < q.2) (hcd : c.2 < d.2) (ha : SegApart c d p q) {h0 h1 : K}
    (h : h0 ≤ h1) (hp : p.2 ≤ h0) (hc : c.2 ≤ h0) (hq : h1 ≤ q.2) (hd : h1 ≤ d.2)
    (hlt : absc c d h0 < absc p q h0) : absc c d h1 < absc p q h1 := by
  by_contra hn
  rw [not_lt] at hn
  -- the affine difference vanishes in between
  have g0 : 0 < absc p q h0 - absc c d h0 := sub_pos.2 hlt
  have g1 : absc p q h1 - absc c d h1 ≤ 0 := by linarith
  have hw : 0 < (absc p q h0 - absc c d h0) - (absc p q h1 - absc c d h1) := by linarith
  obtain ⟨s, hs⟩ : ∃ s, s = (absc p q h0 - absc c d h0) / ((absc p q h0 - absc c d h0) - (absc p q h1 - absc c d h1)) :=
    ⟨_, rfl⟩
  have hs0 : 0 ≤ s := by rw [hs]; exact div_nonneg g0.le hw.le
  have hs1 : s ≤ 1 := by rw [hs]; exact (div_le_one hw).2 (by linarith)
  have haff : ∀ p q : K × K, absc p q (h0 + s * (h1 - h0)) = absc p q h0 + s * (absc p q h1 - absc p q h0) := by
    intro p q
    unfold absc
    ring
  have hz : absc p q (h0 + s * (h1 - h0)) = absc c d (h0 + s * (h1 - h0)) := by
    rw [haff, haff]
    have : s * ((absc p q h0 - absc c d h0) - (absc p q h1 - absc c d h1)) = absc p q h0 - absc c d h0 := by
      rw [hs]; exact div_mul_cancel₀ _ hw.ne'
    linarith
  have m0 : h0 ≤ h0 + s * (h1 - h0) := by nlinarith
  have m1 : h0 + s * (h1 - h0) ≤ h1 := by nlinarith
  refine ha _ (onSegment_absc hcd (hc.trans m0) (m1.trans hd)) ?_
  rw [← hz]
  exact onSegment_absc hpq (hp.trans m0) (m1.trans hq)

theorem absc_order_iff {p q c d : K × K} (hpq : p.2 < q.2) (hcd : c.2 < d.2) (ha : SegApart c d p q) {h0 h1 : K}
    (h : h0 ≤ h1) (hp : p.2 ≤ h0) (hc : c.2 ≤ h0) (hq : h1 ≤ q.2) (hd : h1 ≤ d.2) :
    absc c d h0 < absc p q h0 ↔ absc c d h1 < absc p q h1 := by
  refine ⟨absc_order hpq hcd ha h hp hc hq hd, fun h1' => ?_⟩
  by_contra hn
  rw [not_lt] at hn
  rcases hn.lt_or_eq with hn | hn
  · exact absurd (absc_order hcd hpq (fun x a b => ha x b a) h hc hp hd hq hn) (not_lt.2 h1'.le)
  · refine ha _ (onSegment_absc hcd hc (h.trans hd)) ?_
    rw [← hn]
    exact onSegment_absc hpq hp (h.trans hq)

/-- The half open strip between the two rays, right of the segment. -/
def strip (c d v : K × K) : ℤ := if c.2 < v.2 ∧ v.2 ≤ d.2 ∧ det c d v < 0 then 1 else 0

theorem orientation_ccw_iff' {p q r : K × K} : orientation p q r = .ccw ↔ 0 < det p q r := by
  unfold orientation
  split_ifs with h1 h2
  · simp [not_lt.2 h1.le]
  · simp [h2]
  · simp [h2]

theorem orientation_cw_iff' {p q r : K × K} : orientation p q r = .cw ↔ det p q r < 0 := by
  unfold orientation
  split_ifs with h1 h2
  · simp [h1]
  · simp [h1]
  · simp [h1]

theorem windingStep_eq (c p q : K × K) :
    windingStep c (p, q) = (if p.2 ≤ c.2 ∧ c.2 < q.2 ∧ 0 < det p q c then 1 else 0) -
      (if q.2 ≤ c.2 ∧ c.2 < p.2 ∧ det p q c < 0 then 1 else 0) := by
  simp only [windingStep, orientation_ccw_iff', orientation_cw_iff']
  by_cases h1 : p.2 ≤ c.2
  · rw [if_pos h1]
    have h2 : ¬ (q.2 ≤ c.2 ∧ c.2 < p.2 ∧ det p q c < 0) := fun h => absurd h.2.1 (not_lt.2 h1)
    rw [if_neg h2, sub_zero]
    by_cases h3 : c.2 < q.2
    · rw [if_pos h3.le]
      simp [h1, h3, h3.ne']
    · by_cases h4 : c.2 ≤ q.2
      · have : q.2 = c.2 := le_antisymm (not_lt.1 h3) h4
        simp [this]
      · simp [h3, h4]
  · rw [if_neg h1]
    have h2 : ¬ (p.2 ≤ c.2 ∧ c.2 < q.2 ∧ 0 < det p q c) := fun h => h1 h.1
    rw [if_neg h2, zero_sub]
    have := not_le.1 h1
    by_cases h3 : q.2 ≤ c.2
    · by_cases h4 : det p q c < 0 <;> simp [h3, this, h4]
    · simp [h3]

theorem det_swap (p q r : K × K) : det q p r = - det p q r := by unfold det; ring

theorem windingStep_swap (c p q : K × K) : windingStep c (q, p) = - windingStep c (p, q) := by
  rw [windingStep_eq, windingStep_eq, det_swap]
  simp only [neg_pos, neg_lt_zero]
  ring

/-- Up edges. -/
theorem step_diff_up {c d p q : K × K} (hcd : c.2 < d.2) (ha : SegApart c d p q) (hpq : p.2 ≤ q.2) :
    windingStep c (p, q) - windingStep d (p, q) = strip c d q - strip c d p := by
  have n1 : ¬ (q.2 ≤ c.2 ∧ c.2 < p.2 ∧ det p q c < 0) := fun h => absurd (h.1.trans_lt h.2.1) (not_lt.2 hpq)
  have n2 : ¬ (q.2 ≤ d.2 ∧ d.2 < p.2 ∧ det p q d < 0) := fun h => absurd (h.1.trans_lt h.2.1) (not_lt.2 hpq)
  rw [windingStep_eq, windingStep_eq, if_neg n1, if_neg n2, sub_zero, sub_zero, strip, strip]
  rcases hpq.lt_or_eq with hpq | hpq
  · simp only [det_pos_absc hpq, det_neg_absc hcd]
    by_cases hpc : p.2 ≤ c.2
    · -- the edge starts below the lower ray
      have fp : ¬ (c.2 < p.2 ∧ p.2 ≤ d.2 ∧ absc c d p.2 < p.1) := fun h => absurd h.1 (not_lt.2 hpc)
      rw [if_neg fp, sub_zero]
      by_cases hqc : c.2 < q.2
      · by_cases hqd : q.2 ≤ d.2
        · have sd : ¬ (p.2 ≤ d.2 ∧ d.2 < q.2 ∧ d.1 < absc p q d.2) := fun h => absurd h.2.1 (not_lt.2 hqd)
          rw [if_neg sd, sub_zero]
          have := absc_order_iff hpq hcd ha hqc.le hpc le_rfl le_rfl hqd
          rw [absc_left, absc_right hpq] at this
          simp only [hpc, hqc, hqd, true_and, this]
        · rw [not_le] at hqd
          have := absc_order_iff hpq hcd ha hcd.le hpc le_rfl hqd.le le_rfl
          rw [absc_left, absc_right hcd] at this
          have hpd : p.2 ≤ d.2 := hpc.trans hcd.le
          simp only [hpc, hqc, hqd, hpd, true_and, this, not_le.2 hqd, false_and, and_false, if_false, sub_self]
      · rw [not_lt] at hqc
        have hqd : ¬ d.2 < q.2 := not_lt.2 (hqc.trans hcd.le)
        simp only [not_lt.2 hqc, hqd, false_and, and_false, if_false, sub_self]
    · rw [not_le] at hpc
      have hqc : c.2 < q.2 := hpc.trans hpq
      by_cases hpd : p.2 ≤ d.2
      · by_cases hqd : q.2 ≤ d.2
        · have := absc_order_iff hpq hcd ha hpq.le le_rfl hpc.le le_rfl hqd
          rw [absc_left, absc_right hpq] at this
          simp only [hpc, hqc, hpd, hqd, not_le.2 hpc, not_lt.2 hqd, true_and, false_and, and_false, if_false, sub_self, this]
        · rw [not_le] at hqd
          have := absc_order_iff hpq hcd ha hpd le_rfl hpc.le hqd.le le_rfl
          rw [absc_left, absc_right hcd] at this
          simp only [hpc, hqc, hpd, hqd, not_le.2 hpc, not_le.2 hqd, true_and, false_and, and_false, if_false, this]
      · have hqd : ¬ q.2 ≤ d.2 := fun h => hpd (hpq.le.trans h)
        simp only [not_le.2 hpc, hpd, hqd, false_and, and_false, if_false, sub_self]
  · -- horizontal edge
    have s : ∀ y : K, ¬ (p.2 ≤ y ∧ y < q.2) := fun y h => absurd (h.1.trans_lt h.2) (by rw [hpq]; exact lt_irrefl _)
    have e1 : ¬ (p.2 ≤ c.2 ∧ c.2 < q.2 ∧ 0 < det p q c) := fun h => s _ ⟨h.1, h.2.1⟩
    have e2 : ¬ (p.2 ≤ d.2 ∧ d.2 < q.2 ∧ 0 < det p q d) := fun h => s _ ⟨h.1, h.2.1⟩
    rw [if_neg e1, if_neg e2, sub_self]
    simp only [det_neg_absc hcd, ← hpq]
    by_cases hin : c.2 < p.2 ∧ p.2 ≤ d.2
    · have key : absc c d p.2 < q.1 ↔ absc c d p.2 < p.1 := by
        have on := onSegment_absc hcd hin.1.le hin.2
        have : ∀ {a b : K × K}, SegApart c d a b → a.2 = b.2 → a.2 = p.2 → absc c d p.2 < a.1 → absc c d p.2 < b.1 := by
          intro a b hab h1 h2 h3
          by_contra hn
          rw [not_lt] at hn
          have hw : 0 < a.1 - b.1 := by linarith
          refine hab _ on ⟨(a.1 - absc c d p.2) / (a.1 - b.1), div_nonneg (by linarith) hw.le, (div_le_one hw).2 (by linarith), ?_⟩
          ext
          · simp only [Prod.fst_add, Prod.smul_fst, smul_eq_mul]
            field_simp
            ring
          · simp only [Prod.snd_add, Prod.smul_snd, smul_eq_mul, ← h1, ← h2]
            ring
        exact ⟨this ha.symm_right hpq.symm hpq.symm, this ha hpq rfl⟩
      simp only [key, sub_self]
    · have h1 : ¬ (c.2 < p.2 ∧ p.2 ≤ d.2 ∧ absc c d p.2 < q.1) := fun h => hin ⟨h.1, h.2.1⟩
      have h2 : ¬ (c.2 < p.2 ∧ p.2 ≤ d.2 ∧ absc c d p.2 < p.1) := fun h => hin ⟨h.1, h.2.1⟩
      rw [if_neg h1, if_neg h2, sub_self]

theorem step_diff {c d p q : K × K} (hcd : c.2 < d.2) (ha : SegApart c d p q) :
    windingStep c (p, q) - windingStep d (p, q) = strip c d q - strip c d p := by
  rcases le_total p.2 q.2 with h | h
  · exact step_diff_up hcd ha h
  · have := step_diff_up hcd ha.symm_right h
    rw [windingStep_swap, windingStep_swap d] at this
    linarith

/-- Moving horizontally without meeting the edge does not change its contribution. -/
theorem step_horizontal {c d p q : K × K} (hcd : c.2 = d.2) (ha : SegApart c d p q) :
    windingStep c (p, q) = windingStep d (p, q) := by
  have up : ∀ {p q : K × K}, SegApart c d p q → p.2 ≤ q.2 → windingStep c (p, q) = windingStep d (p, q) := by
    intro p q ha hpq
    have n1 : ¬ (q.2 ≤ c.2 ∧ c.2 < p.2 ∧ det p q c < 0) := fun h => absurd (h.1.trans_lt h.2.1) (not_lt.2 hpq)
    have n2 : ¬ (q.2 ≤ d.2 ∧ d.2 < p.2 ∧ det p q d < 0) := fun h => absurd (h.1.trans_lt h.2.1) (not_lt.2 hpq)
    rw [windingStep_eq, windingStep_eq, if_neg n1, if_neg n2, ← hcd]
    by_cases hin : p.2 ≤ c.2 ∧ c.2 < q.2
    · have hpq : p.2 < q.2 := hin.1.trans_lt hin.2
      simp only [det_pos_absc hpq, ← hcd]
      have on := onSegment_absc hpq hin.1 hin.2.le
      have : ∀ {a b : K × K}, SegApart a b p q → a.2 = b.2 → a.2 = c.2 → a.1 < absc p q c.2 → b.1 < absc p q c.2 := by
        intro a b hab h1 h2 h3
        by_contra hn
        rw [not_lt] at hn
        have hw : 0 < b.1 - a.1 := by linarith
        refine hab _ ⟨(absc p q c.2 - a.1) / (b.1 - a.1), div_nonneg (by linarith) hw.le, (div_le_one hw).2 (by linarith), ?_⟩ on
        ext
        · simp only [Prod.fst_add, Prod.smul_fst, smul_eq_mul]
          field_simp
          ring
        · simp only [Prod.snd_add, Prod.smul_snd, smul_eq_mul, ← h1, ← h2]
          ring
      have key : c.1 < absc p q c.2 ↔ d.1 < absc p q c.2 :=
        ⟨this ha hcd rfl, this ha.symm_left hcd.symm hcd.symm⟩
      simp only [key]
    · have h1 : ¬ (p.2 ≤ c.2 ∧ c.2 < q.2 ∧ 0 < det p q c) := fun h => hin ⟨h.1, h.2.1⟩
      have h2 : ¬ (p.2 ≤ c.2 ∧ c.2 < q.2 ∧ 0 < det p q d) := fun h => hin ⟨h.1, h.2.1⟩
      rw [if_neg h1, if_neg h2]
  rcases le_total p.2 q.2 with h | h
  · exact up ha h
  · have := up ha.symm_right h
    rw [windingStep_swap, windingStep_swap d] at this
    linarith

/-- Sums of differences around a cycle vanish. -/
theorem cyclic_sum (f : K × K → ℤ) (vs : List (K × K)) :
    ((circularPairs vs).map fun e => f e.2 - f e.1).sum = 0 := by
  have h1 : (circularPairs vs).map Prod.fst = vs := by
    rw [circularPairs, List.map_fst_zip]; simp
  have h2 : (circularPairs vs).map Prod.snd = vs.rotate 1 := by
    rw [circularPairs, List.map_snd_zip]; simp
  have : ∀ l : List ((K × K) × (K × K)),
      (l.map fun e => f e.2 - f e.1).sum = ((l.map Prod.snd).map f).sum - ((l.map Prod.fst).map f).sum := by
    intro l
    induction l with
    | nil => rfl
    | cons e l ih => simp only [List.map_cons, List.sum_cons, ih]; ring
  rw [this, h1, h2, ((List.rotate_perm vs 1).map f).sum_eq, sub_self]

theorem sum_sub_map {α : Type} (f g : α → ℤ) (l : List α) : (l.map f).sum - (l.map g).sum = (l.map fun e => f e - g e).sum := by
  induction l with
  | nil => rfl
  | cons e l ih => simp only [List.map_cons, List.sum_cons, ← ih]; ring

/-- Two points joined by a segment that meets no edge of the polygon have the same winding number; they are both contained
    or both not. -/
theorem C57_constant (vs : List (K × K)) (c d : K × K) (h : ∀ e ∈ circularPairs vs, SegApart c d e.1 e.2) :
    winding vs c = winding vs d ∧ polygonContains vs c = polygonContains vs d := by
  have main : winding vs c = winding vs d := by
    rcases lt_trichotomy c.2 d.2 with hcd | hcd | hcd
    · have : winding vs c - winding vs d = 0 := by
        rw [winding_sum, winding_sum, sum_sub_map, ← cyclic_sum (strip c d) vs]
        exact congrArg List.sum (List.map_congr_left fun e he => step_diff hcd (h e he))
      linarith
    · rw [winding_sum, winding_sum]
      exact congrArg List.sum (List.map_congr_left fun e he => step_horizontal hcd (h e he))
    · have : winding vs d - winding vs c = 0 := by
        rw [winding_sum, winding_sum, sum_sub_map, ← cyclic_sum (strip d c) vs]
        exact congrArg List.sum (List.map_congr_left fun e he => step_diff hcd (h e he).symm_left)
      linarith
  exact ⟨main, by rw [polygonContains, main, polygonContains]⟩

/-- An edge crossed from left to right, moving upwards. -/
theorem step_cross {c d p q : K × K} (hcd : c.2 < d.2) (h1 : 0 < det p q c) (h2 : det p q d < 0) (h3 : det c d p < 0)
    (h4 : 0 < det c d q) :
    windingStep c (p, q) - windingStep d (p, q) = strip c d q - strip c d p + 1 := by
  have hsum : det p q c - det p q d = det c d q - det c d p := by unfold det; ring
  have hmeet : det p q c * d.2 - det p q d * c.2 = -(det c d p) * q.2 + det c d q * p.2 := by unfold det; ring
  -- the crossing lies between the heights of the ends
  have m1 : ¬ (p.2 ≤ c.2 ∧ q.2 ≤ c.2) := by
    rintro ⟨a, b⟩
    have k : (det p q c - det p q d) * c.2 = (det c d q - det c d p) * c.2 := by rw [hsum]
    have k1 := mul_nonneg (neg_pos.2 h3).le (sub_nonneg.2 b)
    have k2 := mul_nonneg h4.le (sub_nonneg.2 a)
    have k3 := mul_pos h1 (sub_pos.2 hcd)
    linarith
  have m2 : ¬ (d.2 < p.2 ∧ d.2 < q.2) := by
    rintro ⟨a, b⟩
    have k : (det p q c - det p q d) * d.2 = (det c d q - det c d p) * d.2 := by rw [hsum]
    have k1 := mul_pos (neg_pos.2 h3) (sub_pos.2 b)
    have k2 := mul_pos h4 (sub_pos.2 a)
    have k3 := mul_pos (neg_pos.2 h2) (sub_pos.2 hcd)
    linarith
  rw [windingStep_eq, windingStep_eq, strip, strip]
  simp only [h1, h2, h3, h4, not_lt.2 h1.le, not_lt.2 h2.le, not_lt.2 h4.le, and_true, and_false, if_false, sub_zero,
    zero_sub]
  rcases le_or_gt p.2 c.2 with a | a
  · have b : c.2 < q.2 := by by_contra hb; exact m1 ⟨a, not_lt.1 hb⟩
    have e1 : ¬ (c.2 < p.2 ∧ p.2 ≤ d.2) := fun h => absurd h.1 (not_lt.2 a)
    have e2 : ¬ (q.2 ≤ d.2 ∧ d.2 < p.2) := fun h => absurd (h.2.trans_le a) (not_lt.2 hcd.le)
    rw [if_pos ⟨a, b⟩, if_neg e1, if_neg e2]
    rfl
  · have e1 : ¬ (p.2 ≤ c.2 ∧ c.2 < q.2) := fun h => absurd a (not_lt.2 h.1)
    rw [if_neg e1]
    rcases le_or_gt p.2 d.2 with b | b
    · have e2 : ¬ (q.2 ≤ d.2 ∧ d.2 < p.2) := fun h => absurd h.2 (not_lt.2 b)
      rw [if_neg e2, if_pos ⟨a, b⟩]
      rfl
    · have b' : q.2 ≤ d.2 := by by_contra hb; exact m2 ⟨b, not_le.1 hb⟩
      have e2 : ¬ (c.2 < p.2 ∧ p.2 ≤ d.2) := fun h => absurd b (not_lt.2 h.2)
      rw [if_pos ⟨b', b⟩, if_neg e2]
      rfl

theorem step_cross_horizontal {c d p q : K × K} (hcd : c.2 = d.2) (h1 : 0 < det p q c) (h2 : det p q d < 0)
    (h3 : det c d p < 0) (h4 : 0 < det c d q) :
    windingStep c (p, q) - windingStep d (p, q) = 1 := by
  have hx : c.1 ≠ d.1 := by
    intro h
    rw [Prod.ext h hcd] at h1
    exact absurd h1 (not_lt.2 h2.le)
  have e3 : (d.1 - c.1) * (p.2 - c.2) < 0 := by
    have : det c d p = (d.1 - c.1) * (p.2 - c.2) := by unfold det; rw [hcd]; ring
    rwa [← this]
  have e4 : 0 < (d.1 - c.1) * (q.2 - c.2) := by
    have : det c d q = (d.1 - c.1) * (q.2 - c.2) := by unfold det; rw [hcd]; ring
    rwa [← this]
  rw [windingStep_eq, windingStep_eq, ← hcd]
  simp only [h1, h2, not_lt.2 h1.le, not_lt.2 h2.le, and_true, and_false, if_false, sub_zero, zero_sub]
  rcases hx.lt_or_gt with hx | hx
  · have a : p.2 < c.2 := by by_contra hn; nlinarith
    have b : c.2 < q.2 := by by_contra hn; nlinarith
    have e2 : ¬ (q.2 ≤ c.2 ∧ c.2 < p.2) := fun h => absurd h.2 (not_lt.2 a.le)
    rw [if_pos ⟨a.le, b⟩, if_neg e2]
    rfl
  · have a : c.2 < p.2 := by by_contra hn; nlinarith
    have b : q.2 < c.2 := by by_contra hn; nlinarith
    have e2 : ¬ (p.2 ≤ c.2 ∧ c.2 < q.2) := fun h => absurd h.2 (not_lt.2 b.le)
    rw [if_neg e2, if_pos ⟨b.le, a⟩]
    rfl

/-- A segment that crosses a single edge of the polygon, from its left to its right and not through a vertex, leads from a
    point to one whose winding number is smaller by one. -/
theorem C57_crossing (vs : List (K × K)) (c d x : K × K) (l₁ l₂ : List ((K × K) × (K × K))) (p q : K × K)
    (hvs : circularPairs vs = l₁ ++ (p, q) :: l₂) (hl : ∀ e ∈ l₁ ++ l₂, SegApart c d e.1 e.2)
    (hc : 0 < det p q c) (hd : det p q d < 0) (hx : OnSegment c d x) (hx' : OnSegment p q x) (hp : x ≠ p) (hq : x ≠ q) :
    winding vs c = winding vs d + 1 := by
  have hsum : det p q c - det p q d = det c d q - det c d p := by unfold det; ring
  obtain ⟨s, hs0, hs1, hs⟩ := hx
  obtain ⟨t, ht0, ht1, ht⟩ := hx'
  have ht0 : 0 < t := ht0.lt_of_ne (by rintro rfl; apply hp; simpa using ht)
  have ht1 : t < 1 := ht1.lt_of_ne (by rintro rfl; apply hq; simpa using ht)
  have z1 : det c d x = 0 := by
    rw [hs]; simp only [det, Prod.fst_add, Prod.snd_add, Prod.smul_fst, Prod.smul_snd, smul_eq_mul]; ring
  have z2 : det c d x = (1 - t) * det c d p + t * det c d q := by
    rw [ht]; simp only [det, Prod.fst_add, Prod.snd_add, Prod.smul_fst, Prod.smul_snd, smul_eq_mul]; ring
  rw [z1] at z2
  have h3 : det c d p < 0 := by nlinarith
  have h4 : 0 < det c d q := by nlinarith
  have h3' : 0 < det d c p := by have : det d c p = - det c d p := by unfold det; ring
                                 rw [this]; linarith
  have h4' : det d c q < 0 := by have : det d c q = - det c d q := by unfold det; ring
                                 rw [this]; linarith
  -- the sums over all edges
  have split : ∀ g : (K × K) × (K × K) → ℤ, ((circularPairs vs).map g).sum = (l₁.map g).sum + (g (p, q) + (l₂.map g).sum) := by
    intro g; rw [hvs]; simp
  have tele := fun f : K × K → ℤ => cyclic_sum f vs
  have d1 : winding vs c - winding vs d = (l₁.map fun e => windingStep c e - windingStep d e).sum +
      ((windingStep c (p, q) - windingStep d (p, q)) + (l₂.map fun e => windingStep c e - windingStep d e).sum) := by
    rw [winding_sum, winding_sum, sum_sub_map, split]
  suffices winding vs c - winding vs d = 1 by linarith
  rw [d1]
  rcases lt_trichotomy c.2 d.2 with hcd | hcd | hcd
  · rw [step_cross hcd hc hd h3 h4,
      List.map_congr_left fun e he => step_diff hcd (hl e (List.mem_append_left _ he)),
      List.map_congr_left (l := l₂) fun e he => step_diff hcd (hl e (List.mem_append_right _ he))]
    have := tele (strip c d)
    rw [split] at this
    simp only at this
    linarith
  · rw [step_cross_horizontal hcd hc hd h3 h4]
    have z : ∀ l : List ((K × K) × (K × K)), (∀ e ∈ l, SegApart c d e.1 e.2) →
        (l.map fun e => windingStep c e - windingStep d e).sum = 0 := by
      intro l hl
      apply List.sum_eq_zero
      intro y hy
      obtain ⟨e, he, rfl⟩ := List.mem_map.1 hy
      exact sub_eq_zero.2 (step_horizontal hcd (hl e he))
    rw [z l₁ fun e he => hl e (List.mem_append_left _ he), z l₂ fun e he => hl e (List.mem_append_right _ he)]
    rfl
  · have hcross := step_cross (c := d) (d := c) (p := q) (q := p) hcd (by rw [det_swap]; linarith) (by rw [det_swap]; linarith)
      h4' h3'
    rw [windingStep_swap, windingStep_swap c] at hcross
    have e : ∀ e ∈ l₁ ++ l₂, windingStep c e - windingStep d e = -(strip d c e.2 - strip d c e.1) := by
      intro e he
      have := step_diff hcd (hl e he).symm_left
      rw [← this]
      ring
    rw [List.map_congr_left fun x hx => e x (List.mem_append_left _ hx),
      List.map_congr_left (l := l₂) fun x hx => e x (List.mem_append_right _ hx)]
    have := tele fun v => - strip d c v
    rw [split] at this
    simp only at this
    have neg : ∀ l : List ((K × K) × (K × K)), (l.map fun e => -(strip d c e.2 - strip d c e.1)).sum =
        (l.map fun e => -strip d c e.2 - -strip d c e.1).sum :=
      fun l => congrArg List.sum (List.map_congr_left fun e _ => by ring)
    rw [neg, neg]
    linarith

/-- A polygon that turns twice around its hole and a path from the hole to the outside: the winding number drops by one at
    each of the two crossings. -/
def exSpiral : List (ℚ × ℚ) := [(-2, -2), (2, -2), (2, 2), (-2, 2), (-2, -1), (1, -1), (1, 1), (-1, 1)]

example : winding exSpiral (0, 0) = 2 ∧ winding exSpiral (3/2, 0) = 1 ∧ winding exSpiral (3, 0) = 0 := by decide +kernel

/-- the segments `c d` and `p q` are apart when both ends of one lie strictly on one side of the other. -/
theorem apart_of_side {c d p q : K × K} (h : (0 < det p q c ∧ 0 < det p q d) ∨ (det p q c < 0 ∧ det p q d < 0) ∨
    (0 < det c d p ∧ 0 < det c d q) ∨ (det c d p < 0 ∧ det c d q < 0)) : SegApart c d p q := by
  rintro x ⟨s, hs0, hs1, hs⟩ ⟨t, ht0, ht1, ht⟩
  have z1 : det c d x = 0 := by
    rw [hs]; simp only [det, Prod.fst_add, Prod.snd_add, Prod.smul_fst, Prod.smul_snd, smul_eq_mul]; ring
  have z2 : det c d x = (1 - t) * det c d p + t * det c d q := by
    rw [ht]; simp only [det, Prod.fst_add, Prod.snd_add, Prod.smul_fst, Prod.smul_snd, smul_eq_mul]; ring
  have y1 : det p q x = 0 := by
    rw [ht]; simp only [det, Prod.fst_add, Prod.snd_add, Prod.smul_fst, Prod.smul_snd, smul_eq_mul]; ring
  have y2 : det p q x = (1 - s) * det p q c + s * det p q d := by
    rw [hs]; simp only [det, Prod.fst_add, Prod.snd_add, Prod.smul_fst, Prod.smul_snd, smul_eq_mul]; ring
  rw [z1] at z2
  rw [y1] at y2
  rcases h with ⟨a, b⟩ | ⟨a, b⟩ | ⟨a, b⟩ | ⟨a, b⟩
  · rcases hs0.lt_or_eq with h | h
    · nlinarith [mul_nonneg (sub_nonneg.2 hs1) a.le, mul_pos h b]
    · rw [← h] at y2; linarith
  · rcases hs0.lt_or_eq with h | h
    · nlinarith [mul_nonneg (sub_nonneg.2 hs1) (neg_pos.2 a).le, mul_pos h (neg_pos.2 b)]
    · rw [← h] at y2; linarith
  · rcases ht0.lt_or_eq with h | h
    · nlinarith [mul_nonneg (sub_nonneg.2 ht1) a.le, mul_pos h b]
    · rw [← h] at z2; linarith
  · rcases ht0.lt_or_eq with h | h
    · nlinarith [mul_nonneg (sub_nonneg.2 ht1) (neg_pos.2 a).le, mul_pos h (neg_pos.2 b)]
    · rw [← h] at z2; linarith

/-- From the hole to the middle ring: only the edge from (1, -1) to (1, 1) is crossed. -/
example : circularPairs exSpiral = (circularPairs exSpiral).take 5 ++ ((1, -1), (1, 1)) :: (circularPairs exSpiral).drop 6 ∧
    (∀ e ∈ (circularPairs exSpiral).take 5 ++ (circularPairs exSpiral).drop 6, SegApart (0, 0) (3/2, 0) e.1 e.2) ∧
    0 < det ((1, -1) : ℚ × ℚ) (1, 1) (0, 0) ∧ det ((1, -1) : ℚ × ℚ) (1, 1) (3/2, 0) < 0 ∧
    OnSegment ((0, 0) : ℚ × ℚ) (3/2, 0) (1, 0) ∧ OnSegment ((1, -1) : ℚ × ℚ) (1, 1) (1, 0) := by
  refine ⟨by decide +kernel, fun e he => apart_of_side ?_, by decide +kernel, by decide +kernel, ⟨2/3, ?_⟩, ⟨1/2, ?_⟩⟩
  · revert e
    decide +kernel
  · decide +kernel
  · decide +kernel

end Curvo.Props

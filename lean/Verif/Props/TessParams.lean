/-
  Property theorems about the parameters of the adaptive tessellations: C44 (curves), C47 (grid neighbours), C48 (merging
  boundary parameters).
-/
import Verif.Model.Tess
import Verif.Lemmas.Res
import Verif.Props.Curve
import Verif.Props.Curve2
import Mathlib.Algebra.Order.Archimedean.Basic

set_option linter.unusedSectionVars false

namespace Curvo.Props

open Curvo Curvo.Tess

/-! ### C48 -/

section params
variable {K : Type} [LinearOrder K]

theorem mergeSorted_count (p q : List K) (hp : p.Pairwise (· ≤ ·)) (hq : q.Pairwise (· ≤ ·)) (x : K) :
    (mergeSorted p q).count x = max (p.count x) (q.count x) := by
  fun_induction mergeSorted p q with
  | case1 q => simp
  | case2 p h => simp
  | case3 a p b q h ih =>
    rw [List.count_cons, List.count_cons, ih hp.of_cons hq]
    by_cases e : a = x
    · subst e
      have h0 : (b :: q).count a = 0 := by
        rw [List.count_eq_zero]
        intro hm
        rcases List.mem_cons.1 hm with rfl | hm
        · exact lt_irrefl _ h
        · exact absurd (List.rel_of_pairwise_cons hq hm) (not_le.2 h)
      rw [h0]; simp
    · simp [e]
  | case4 a p b q h h' ih =>
    rw [List.count_cons, List.count_cons (l := q), ih hp hq.of_cons]
    by_cases e : b = x
    · subst e
      have h0 : (a :: p).count b = 0 := by
        rw [List.count_eq_zero]
        intro hm
        rcases List.mem_cons.1 hm with rfl | hm
        · exact lt_irrefl _ h'
        · exact absurd (List.rel_of_pairwise_cons hp hm) (not_le.2 h')
      rw [h0]; simp
    · simp [e]
  | case5 a p b q h h' ih =>
    have : a = b := le_antisymm (not_lt.1 h') (not_lt.1 h)
    subst this
    rw [List.count_cons, List.count_cons, List.count_cons, ih hp.of_cons hq.of_cons, Nat.add_max_add_right]

theorem mergeSorted_sorted (p q : List K) (hp : p.Pairwise (· ≤ ·)) (hq : q.Pairwise (· ≤ ·)) :
    (mergeSorted p q).Pairwise (· ≤ ·) := by
  have mem : ∀ p q : List K, p.Pairwise (· ≤ ·) → q.Pairwise (· ≤ ·) → ∀ x ∈ mergeSorted p q, x ∈ p ∨ x ∈ q := by
    intro p q hp hq x hx
    have h1 := mergeSorted_count p q hp hq x
    have h2 := List.count_pos_iff.2 hx
    rcases Nat.lt_or_ge 0 (p.count x) with h | h
    · exact Or.inl (List.count_pos_iff.1 h)
    · exact Or.inr (List.count_pos_iff.1 (by omega))
  fun_induction mergeSorted p q with
  | case1 q => exact hq
  | case2 p h => exact hp
  | case3 a p b q h ih =>
    refine List.pairwise_cons.2 ⟨?_, ih hp.of_cons hq⟩
    intro x hx
    rcases mem _ _ hp.of_cons hq x hx with hm | hm
    · exact List.rel_of_pairwise_cons hp hm
    · rcases List.mem_cons.1 hm with rfl | hm
      · exact h.le
      · exact h.le.trans (List.rel_of_pairwise_cons hq hm)
  | case4 a p b q h h' ih =>
    refine List.pairwise_cons.2 ⟨?_, ih hp hq.of_cons⟩
    intro x hx
    rcases mem _ _ hp hq.of_cons x hx with hm | hm
    · rcases List.mem_cons.1 hm with rfl | hm
      · exact h'.le
      · exact h'.le.trans (List.rel_of_pairwise_cons hp hm)
    · exact List.rel_of_pairwise_cons hq hm
  | case5 a p b q h h' ih =>
    have : a = b := le_antisymm (not_lt.1 h') (not_lt.1 h)
    subst this
    refine List.pairwise_cons.2 ⟨?_, ih hp.of_cons hq.of_cons⟩
    intro x hx
    rcases mem _ _ hp.of_cons hq.of_cons x hx with hm | hm
    · exact List.rel_of_pairwise_cons hp hm
    · exact List.rel_of_pairwise_cons hq hm

/-- Merging two sorted parameter lists: the result is sorted and every value occurs as often as in the list where it
    occurs most. -/
theorem C48_merge {p q : List K} (hp : p.Pairwise (· ≤ ·)) (hq : q.Pairwise (· ≤ ·)) :
    (mergeSorted p q).Pairwise (· ≤ ·) ∧ ∀ x, (mergeSorted p q).count x = max (p.count x) (q.count x) :=
  ⟨mergeSorted_sorted p q hp hq, mergeSorted_count p q hp hq⟩

/-- Merging two strictly increasing lists gives the strictly increasing list of the union: no value is lost and no value
    is repeated. -/
theorem C48_merge_strict {p q : List K} (hp : p.Pairwise (· < ·)) (hq : q.Pairwise (· < ·)) :
    (mergeSorted p q).Pairwise (· < ·) ∧ ∀ x, x ∈ mergeSorted p q ↔ x ∈ p ∨ x ∈ q := by
  obtain ⟨h1, h2⟩ := C48_merge (hp.imp le_of_lt) (hq.imp le_of_lt)
  have np : p.Nodup := hp.imp ne_of_lt
  have nq : q.Nodup := hq.imp ne_of_lt
  have nd : (mergeSorted p q).Nodup := by
    rw [List.nodup_iff_count_le_one]
    intro a
    rw [h2]
    exact max_le (List.nodup_iff_count_le_one.1 np a) (List.nodup_iff_count_le_one.1 nq a)
  refine ⟨?_, ?_⟩
  · exact (List.pairwise_and_iff.2 ⟨h1, nd⟩).imp fun h => lt_of_le_of_ne h.1 h.2
  · intro x
    rw [← List.count_pos_iff, h2, lt_max_iff, List.count_pos_iff, List.count_pos_iff]

example : mergeSorted [(0 : ℚ), 1, 2, 4] [1/2, 1, 3] = [0, 1/2, 1, 2, 3, 4] := by decide +kernel

/-- There is no tolerance: two different values are both kept, however close. -/
theorem C48_no_tolerance {a b : K} (h : a < b) : mergeSorted [a] [b] = [a, b] ∧ mergeSorted [b] [a] = [a, b] := by
  constructor <;> simp [mergeSorted, h, not_lt.2 h.le]

theorem dedup_mem (l : List K) (x : K) : x ∈ Tess.dedup l ↔ x ∈ l := by
  fun_induction Tess.dedup l with
  | case1 => simp
  | case2 a => simp
  | case3 b l ih => rw [ih]; simp
  | case4 a b l h ih => rw [List.mem_cons, ih, List.mem_cons (l := b :: l)]

theorem dedup_strict (l : List K) (h : l.Pairwise (· ≤ ·)) : (Tess.dedup l).Pairwise (· < ·) := by
  fun_induction Tess.dedup l with
  | case1 => simp
  | case2 a => simp
  | case3 b l ih => exact ih h.of_cons
  | case4 a b l hne ih =>
    refine List.pairwise_cons.2 ⟨?_, ih h.of_cons⟩
    intro x hx
    have hab : a < b := lt_of_le_of_ne (List.rel_of_pairwise_cons h (by simp)) hne
    rcases List.mem_cons.1 ((dedup_mem _ _).1 hx) with rfl | hm
    · exact hab
    · exact hab.trans_le (List.rel_of_pairwise_cons h.of_cons hm)

/-- The constraint parameters of two opposite sides: strictly increasing, exactly the given values, whatever the order
    of the input. -/
theorem C48_both_sides (mi ma : List K) : ∃ l, sortedParameters (some mi) (some ma) = some l ∧ l.Pairwise (· < ·) ∧
    ∀ x, x ∈ l ↔ x ∈ mi ∨ x ∈ ma := by
  refine ⟨_, rfl, ?_, ?_⟩
  · apply dedup_strict
    refine (List.pairwise_mergeSort (le := fun a b => decide (a ≤ b)) ?_ ?_ _).imp ?_
    · intro a b c h1 h2
      simp only [decide_eq_true_eq] at h1 h2 ⊢
      exact h1.trans h2
    · intro a b
      simpa using le_total a b
    · intro a b h
      exact of_decide_eq_true h
  · intro x
    rw [dedup_mem, List.mem_mergeSort, List.mem_append]

/-- The parameters of a single side are passed on as they are; if they are not sorted, the merged grid parameters are
    not sorted either. -/
theorem C48_one_side_unsorted : ∃ l : List ℚ, sortedParameters (some [3, 1]) none = some l ∧
    mergeSorted [0, 2, 4] l = [0, 2, 3, 1, 4] ∧ ¬ (mergeSorted [0, 2, 4] l).Pairwise (· ≤ ·) :=
  ⟨[3, 1], rfl, by decide +kernel, by decide +kernel⟩

end params

/-! ### C47 -/

/-- The neighbours to the north, south and east are the cells one row up, one row down and one column further, and there
    is none outside of the grid. -/
theorem C47_neighbours {divsU divsV iv iu : ℕ} (hu : iu < divsU) (hv : iv < divsV) :
    north (iv * divsU + iu) iv divsU = .ok (if iv = 0 then none else some ((iv - 1) * divsU + iu)) ∧
    south (iv * divsU + iu) iv divsU divsV = .ok (if iv + 1 < divsV then some ((iv + 1) * divsU + iu) else none) ∧
    east (iv * divsU + iu) iu divsU = .ok (if iu + 1 < divsU then some (iv * divsU + (iu + 1)) else none) := by
  refine ⟨?_, ?_, ?_⟩
  · rw [north]
    by_cases h : iv = 0
    · rw [if_pos h, if_pos h]; rfl
    · obtain ⟨k, rfl⟩ : ∃ k, iv = k + 1 := ⟨iv - 1, by omega⟩
      have : (k + 1) * divsU = k * divsU + divsU := by ring
      rw [if_neg h, if_neg h, subR_eq_ok (by omega), ok_bind, Nat.add_sub_cancel,
        show (k + 1) * divsU + iu - divsU = k * divsU + iu by omega]
      rfl
  · rw [south, subR_eq_ok (by omega), ok_bind]
    have : (iv + 1) * divsU = iv * divsU + divsU := by ring
    by_cases h : iv + 1 < divsV
    · rw [if_neg (by omega), if_pos h, show iv * divsU + iu + divsU = (iv + 1) * divsU + iu by omega]; rfl
    · rw [if_pos (by omega), if_neg h]; rfl
  · rw [east, subR_eq_ok (by omega), ok_bind]
    by_cases h : iu + 1 < divsU
    · rw [if_neg (by omega), if_pos h]; rfl
    · rw [if_pos (by omega), if_neg h]; rfl

/-- North and south are inverse to each other. -/
theorem C47_north_south {divsU divsV iv iu : ℕ} (hu : iu < divsU) (hv : iv + 1 < divsV) :
    south (iv * divsU + iu) iv divsU divsV = .ok (some ((iv + 1) * divsU + iu)) ∧
    north ((iv + 1) * divsU + iu) (iv + 1) divsU = .ok (some (iv * divsU + iu)) := by
  constructor
  · rw [(C47_neighbours hu (by omega)).2.1, if_pos hv]
  · rw [(C47_neighbours hu hv).1, if_neg (by omega)]; rfl

/-- Outside of the first row the west neighbour inverts the east neighbour. -/
theorem C47_east_west {divsU iv iu : ℕ} (hu : iu + 1 < divsU) (h0 : 0 < iv) :
    east (iv * divsU + iu) iu divsU = .ok (some (iv * divsU + (iu + 1))) ∧
    west (iv * divsU + (iu + 1)) iv = .ok (some (iv * divsU + iu)) := by
  constructor
  · rw [(C47_neighbours (divsV := iv + 1) (by omega) (by omega)).2.2, if_pos hu]
  · rw [west, if_neg (by omega), subR_eq_ok (by omega), ok_bind]; rfl

/-- In the first row no cell has a west neighbour, although the cell to its left exists for every column but the
    first. -/
theorem C47_west_first_row {divsU iu : ℕ} (hu : iu + 1 < divsU) :
    east (0 * divsU + iu) iu divsU = .ok (some (0 * divsU + (iu + 1))) ∧ west (0 * divsU + (iu + 1)) 0 = .ok none :=
  ⟨by rw [(C47_neighbours (divsV := 1) (by omega) (by omega)).2.2, if_pos hu], rfl⟩

/-- In the first column of every other row the west neighbour is the last cell of the row above, although there is no cell
    to the left. -/
theorem C47_west_first_column {divsU iv : ℕ} (hu : 0 < divsU) :
    west ((iv + 1) * divsU + 0) (iv + 1) = .ok (some (iv * divsU + (divsU - 1))) := by
  have : (iv + 1) * divsU = iv * divsU + divsU := by ring
  rw [west, if_neg (by omega), subR_eq_ok (by omega), ok_bind,
    show (iv + 1) * divsU + 0 - 1 = iv * divsU + (divsU - 1) by omega]
  rfl

/-! ### C44 -/

section curve
variable {K : Type} [Field K] [LinearOrder K] [IsStrictOrderedRing K] {W : Type} [AddCommGroup W] [Module K W]

/-- The flatness test of the tessellation on the piece `[a, b]` with the random number `r`. -/
def Passes (M : Metric K W) (pt : K → W) (tol a b r : K) : Prop :=
  ¬ (M.normSq (pt a - pt b) < tol ∧ tol < M.normSq (pt a - pt (a + (b - a) * (1 / 2 + 1 / 5 * r)))) ∧
    M.flat (pt a) (pt (a + (b - a) * (1 / 2 + 1 / 5 * r))) (pt b) tol = true

theorem half_bounds {a b : K} (h : a ≤ b) : a ≤ a + (b - a) * (1 / 2) ∧ a + (b - a) * (1 / 2) ≤ b := by
  constructor <;> linarith

theorem mid_bounds {a b r : K} (h : a ≤ b) (r0 : 0 ≤ r) (r1 : r < 1) :
    a ≤ a + (b - a) * (1 / 2 + 1 / 5 * r) ∧ a + (b - a) * (1 / 2 + 1 / 5 * r) ≤ b := by
  have h0 : 0 ≤ b - a := sub_nonneg.2 h
  constructor
  · have := mul_nonneg h0 (by linarith : (0 : K) ≤ 1 / 2 + 1 / 5 * r)
    linarith
  · have := mul_le_mul_of_nonneg_left (by linarith : 1 / 2 + 1 / 5 * r ≤ (1 : K)) h0
    linarith

/-- The result of the recursion, in every case: it terminates when the fuel covers the number of halvings down to the
    parameter floor, and its points are points of the curve at strictly increasing parameters. -/
theorem adaptive_spec {M : Metric K W} {floor tol lo hi : K} {rnd : ℕ → K} {pointAt : K → Res W} {pt : K → W}
    (hf : 0 < floor) (hr : ∀ n, 0 ≤ rnd n ∧ rnd n < 1) (hp : ∀ t, lo ≤ t → t ≤ hi → pointAt t = .ok (pt t)) :
    ∀ (fuel : ℕ) (a b : K) (pos : ℕ), lo ≤ a → a ≤ b → b ≤ hi → b - a < floor * 2 ^ fuel →
      ∃ (ts : List K) (pos' : ℕ), adaptive M floor rnd pointAt tol (fuel + 1) a b pos = .ok (ts.map pt, pos') ∧ ts ≠ [] ∧
        ts.Pairwise (· < ·) ∧ ∀ t ∈ ts, a ≤ t ∧ t ≤ b := by
  intro fuel
  induction fuel with
  | zero =>
    intro a b pos h1 h2 h3 h4
    rw [pow_zero, mul_one] at h4
    refine ⟨[a], pos, ?_, by simp, by simp, by simpa using h2⟩
    rw [adaptive, hp a h1 (by linarith), ok_bind]
    simp only []
    rw [if_pos h4]
    rfl
  | succ fuel ih =>
    intro a b pos h1 h2 h3 h4
    rw [adaptive, hp a h1 (by linarith), ok_bind]
    simp only []
    by_cases hs : b - a < floor
    · rw [if_pos hs]
      exact ⟨[a], pos, rfl, by simp, by simp, by simpa using h2⟩
    · rw [if_neg hs]
      have hm := mid_bounds h2 (hr pos).1 (hr pos).2
      have hh := half_bounds h2
      rw [hp b (by linarith) h3, ok_bind, hp _ (by linarith) (by linarith), ok_bind]
      split_ifs with hc
      · have hlt : b - a < floor * 2 ^ fuel * 2 := by rw [pow_succ, ← mul_assoc] at h4; exact h4
        obtain ⟨tl, pl, el, nl, sl, bl⟩ := ih a (a + (b - a) * (1 / 2)) (pos + 1) h1 hh.1 (by linarith) (by linarith)
        obtain ⟨tr, pr, er, nr, sr, br⟩ := ih (a + (b - a) * (1 / 2)) b pl (by linarith) hh.2 h3 (by linarith)
        rw [el, ok_bind]
        simp only []
        rw [er, ok_bind]
        refine ⟨tl.dropLast ++ tr, pr, ?_, ?_, ?_, ?_⟩
        · simp only []
          rw [List.map_append, List.map_dropLast]
          rfl
        · simp [nr]
        · rw [List.pairwise_append]
          refine ⟨sl.sublist (List.dropLast_sublist _), sr, ?_⟩
          intro x hx y hy
          have hlast : x < tl.getLast nl := by
            have := sl
            rw [← List.dropLast_append_getLast nl, List.pairwise_append] at this
            exact this.2.2 x hx _ (by simp)
          have h1 := (bl _ (List.getLast_mem nl)).2
          have h2 := (br y hy).1
          linarith
        · intro t ht
          rcases List.mem_append.1 ht with ht | ht
          · have := bl t (List.mem_of_mem_dropLast ht)
            exact ⟨this.1, by linarith⟩
          · have := br t ht
            exact ⟨by linarith, this.2⟩
      · refine ⟨[a, b], pos + 1, rfl, by simp, ?_, ?_⟩
        · have : a < b := by linarith
          simpa using this
        · intro t ht
          simp only [List.mem_cons, List.not_mem_nil, or_false] at ht
          rcases ht with rfl | rfl
          · exact ⟨le_refl _, h2⟩
          · exact ⟨h2, le_refl _⟩

/-- When every piece shorter than twice the floor passes the flatness test, the result starts and ends at the end points
    and every chord passed the test. -/
theorem adaptive_ends {M : Metric K W} {floor tol lo hi : K} {rnd : ℕ → K} {pointAt : K → Res W} {pt : K → W}
    (hf : 0 < floor) (hr : ∀ n, 0 ≤ rnd n ∧ rnd n < 1) (hp : ∀ t, lo ≤ t → t ≤ hi → pointAt t = .ok (pt t))
    (hsmall : ∀ a b, lo ≤ a → b ≤ hi → a ≤ b → b - a < 2 * floor → ∀ r, 0 ≤ r → r < 1 → Passes M pt tol a b r) :
    ∀ (fuel : ℕ) (a b : K) (pos : ℕ), lo ≤ a → floor ≤ b - a → b ≤ hi → b - a < floor * 2 ^ fuel →
      ∃ (ts : List K) (pos' : ℕ), adaptive M floor rnd pointAt tol (fuel + 1) a b pos = .ok (ts.map pt, pos') ∧
        ts.head? = some a ∧ ts.getLast? = some b ∧
        ts.IsChain fun x y => x < y ∧ ∃ r, 0 ≤ r ∧ r < 1 ∧ Passes M pt tol x y r := by
  intro fuel
  induction fuel with
  | zero =>
    intro a b pos h1 h2 h3 h4
    rw [pow_zero, mul_one] at h4
    exact absurd h4 (not_lt.2 h2)
  | succ fuel ih =>
    intro a b pos h1 h2 h3 h4
    have hab : a ≤ b := by linarith
    rw [adaptive, hp a h1 (by linarith), ok_bind]
    simp only []
    rw [if_neg (not_lt.2 h2)]
    have hm := mid_bounds hab (hr pos).1 (hr pos).2
    have hh := half_bounds hab
    rw [hp b (by linarith) h3, ok_bind, hp _ (by linarith) (by linarith), ok_bind]
    split_ifs with hc
    · have hbig : 2 * floor ≤ b - a := by
        by_contra hcon
        have := hsmall a b h1 h3 hab (not_le.1 hcon) (rnd pos) (hr pos).1 (hr pos).2
        rcases hc with hc | hc
        · exact this.1 hc
        · rw [this.2] at hc; exact absurd hc (by simp)
      have hlt : b - a < floor * 2 ^ fuel * 2 := by rw [pow_succ, ← mul_assoc] at h4; exact h4
      obtain ⟨tl, pl, el, hl, ll, cl⟩ := ih a (a + (b - a) * (1 / 2)) (pos + 1) h1 (by linarith) (by linarith) (by linarith)
      obtain ⟨tr, pr, er, hr', lr, cr⟩ := ih (a + (b - a) * (1 / 2)) b pl (by linarith) (by linarith) h3 (by linarith)
      rw [el, ok_bind]
      simp only []
      rw [er, ok_bind]
      have nl : tl ≠ [] := by rintro rfl; simp at hl
      obtain ⟨m, tr', rfl⟩ : ∃ m tr', tr = m :: tr' := by
        cases tr with
        | nil => simp at hr'
        | cons m t => exact ⟨m, t, rfl⟩
      have em : m = a + (b - a) * (1 / 2) := by simpa using hr'
      have eL : tl = tl.dropLast ++ [m] := by
        have := List.dropLast_append_getLast nl
        rw [List.getLast?_eq_getLast_of_ne_nil nl] at ll
        rw [em, ← Option.some.inj ll]
        exact this.symm
      have eC : tl.dropLast ++ m :: tr' = tl ++ tr' := by
        conv_rhs => rw [eL]
        simp
      refine ⟨tl.dropLast ++ m :: tr', pr, ?_, ?_, ?_, ?_⟩
      · rw [List.map_append, List.map_dropLast]
        rfl
      · rw [eC, List.head?_append, hl]; rfl
      · rw [List.getLast?_append, lr]; rfl
      · rw [eL] at cl
        exact List.isChain_split.2 ⟨cl, cr⟩
    · refine ⟨[a, b], pos + 1, rfl, rfl, rfl, ?_⟩
      rw [List.isChain_pair]
      refine ⟨by linarith, rnd pos, (hr pos).1, (hr pos).2, ?_⟩
      rw [not_or] at hc
      exact ⟨hc.1, by simpa using hc.2⟩

theorem exists_fuel [Archimedean K] {floor x : K} (hf : 0 < floor) : ∃ n : ℕ, x < floor * 2 ^ n := by
  obtain ⟨n, hn⟩ := pow_unbounded_of_one_lt (x / floor) (one_lt_two : (1 : K) < 2)
  exact ⟨n, by rwa [div_lt_iff₀' hf] at hn⟩

/-- Adaptive tessellation of a curve of degree other than one, every tolerance and every random stream: it terminates
    and returns at least one point; the points are points of the curve at strictly increasing parameters of the domain. -/
theorem C44_increasing [Archimedean K] {M : Metric K W} {eps floor tol : K} {rnd : ℕ → K} {c : Curve K (W × K)}
    (h : c.Good eps) (hw : ∀ p ∈ c.cps, 0 < p.2) (hd : c.degree ≠ 1) (hf : 0 < floor)
    (hr : ∀ n, 0 ≤ rnd n ∧ rnd n < 1) :
    ∃ (fuel : ℕ) (ts : List K) (pts : List W) (pos : ℕ), tessellateCurve M eps floor rnd fuel c tol = .ok (pts, pos) ∧
      ts ≠ [] ∧ List.Forall₂ (fun t p => c.pointAt eps t = .ok p) ts pts ∧ ts.Pairwise (· < ·) ∧
      ∀ t ∈ ts, c.lo ≤ t ∧ t ≤ c.hi := by
  have hlt : c.lo ≤ c.hi := by
    have := h.cps_pos
    have := h.good.le
    have := h.good.mono c.degree c.cps.length (by omega) (by omega)
    exact this
  obtain ⟨fuel, hfuel⟩ := exists_fuel (x := c.hi - c.lo) hf
  obtain ⟨ts, pos, e, n, s, b⟩ := adaptive_spec (M := M) (tol := tol) (pt := fun t => (c.eval t).2⁻¹ • (c.eval t).1) hf hr
    (fun t h1 h2 => (C09_point_at_positive_weights h hw h1 h2).1) fuel c.lo c.hi 0 (le_refl _) hlt (le_refl _) hfuel
  refine ⟨fuel + 1, ts, _, pos, by rw [tessellateCurve, if_neg hd, knotsDomain_eq h, ok_bind]; exact e, n, ?_, s, b⟩
  rw [List.forall₂_map_right_iff, List.forall₂_same]
  intro t ht
  exact (C09_point_at_positive_weights h hw (b t ht).1 (b t ht).2).1

/-- If every piece shorter than twice the parameter floor is flat, the polyline starts and ends at the ends of the curve
    and every chord passed the flatness test. -/
theorem C44_end_points [Archimedean K] {M : Metric K W} {eps floor tol : K} {rnd : ℕ → K} {c : Curve K (W × K)}
    (h : c.Good eps) (hw : ∀ p ∈ c.cps, 0 < p.2) (hd : c.degree ≠ 1) (hf : 0 < floor)
    (hr : ∀ n, 0 ≤ rnd n ∧ rnd n < 1) (hdom : floor ≤ c.hi - c.lo)
    (hsmall : ∀ a b, c.lo ≤ a → b ≤ c.hi → a ≤ b → b - a < 2 * floor → ∀ r, 0 ≤ r → r < 1 →
      Passes M (fun t => (c.eval t).2⁻¹ • (c.eval t).1) tol a b r) :
    ∃ (fuel : ℕ) (ts : List K) (pts : List W) (pos : ℕ), tessellateCurve M eps floor rnd fuel c tol = .ok (pts, pos) ∧
      List.Forall₂ (fun t p => c.pointAt eps t = .ok p) ts pts ∧
      ts.head? = some c.lo ∧ ts.getLast? = some c.hi ∧
      ts.IsChain fun x y => x < y ∧
        ∃ r, 0 ≤ r ∧ r < 1 ∧ Passes M (fun t => (c.eval t).2⁻¹ • (c.eval t).1) tol x y r := by
  obtain ⟨fuel, hfuel⟩ := exists_fuel (x := c.hi - c.lo) hf
  obtain ⟨ts, pos, e, hh, hl, hc⟩ := adaptive_ends (M := M) (tol := tol)
    (pt := fun t => (c.eval t).2⁻¹ • (c.eval t).1) hf hr
    (fun t h1 h2 => (C09_point_at_positive_weights h hw h1 h2).1) hsmall fuel c.lo c.hi 0 (le_refl _) hdom (le_refl _) hfuel
  obtain ⟨ts', pos', e', -, -, b⟩ := adaptive_spec (M := M) (tol := tol)
    (pt := fun t => (c.eval t).2⁻¹ • (c.eval t).1) hf hr
    (fun t h1 h2 => (C09_point_at_positive_weights h hw h1 h2).1) fuel c.lo c.hi 0 (le_refl _) (by linarith) (le_refl _)
    hfuel
  refine ⟨fuel + 1, ts, _, pos, by rw [tessellateCurve, if_neg hd, knotsDomain_eq h, ok_bind]; exact e, ?_, hh, hl, hc⟩
  rw [List.forall₂_map_right_iff, List.forall₂_same]
  intro t ht
  have hsorted : ts.Pairwise (· < ·) := by
    have : ts.IsChain (· < ·) := hc.imp fun _ _ h => h.1
    exact List.isChain_iff_pairwise.1 this
  have hlo : c.lo ≤ t := by
    cases ts with
    | nil => simp at ht
    | cons x l =>
      have : x = c.lo := by simpa using hh
      subst this
      rcases List.mem_cons.1 ht with rfl | ht
      · exact le_refl _
      · exact (List.rel_of_pairwise_cons hsorted ht).le
  have hhi : t ≤ c.hi := by
    have hne : ts ≠ [] := by rintro rfl; simp at ht
    have : ts.getLast hne = c.hi := by
      rw [List.getLast?_eq_getLast_of_ne_nil hne] at hl
      exact Option.some.inj hl
    rw [← List.dropLast_append_getLast hne, List.pairwise_append] at hsorted
    rw [← List.dropLast_append_getLast hne] at ht
    rcases List.mem_append.1 ht with ht | ht
    · rw [← this]; exact (hsorted.2.2 t ht _ (by simp)).le
    · rw [List.mem_singleton.1 ht, this]
  exact (C09_point_at_positive_weights h hw hlo hhi).1

/-- A curve of degree one is returned as its control polygon. -/
theorem C44_degree_one {M : Metric K W} {eps floor tol : K} {rnd : ℕ → K} {fuel : ℕ} {c : Curve K (W × K)}
    (hw : ∀ p ∈ c.cps, 0 < p.2) (hd : c.degree = 1) :
    tessellateCurve M eps floor rnd fuel c tol = .ok (c.cps.map (fun p => p.2⁻¹ • p.1), 0) := by
  rw [tessellateCurve, if_pos hd, mapM_ok (g := fun p => p.2⁻¹ • p.1), ok_bind]
  · rfl
  · intro p hp
    rw [Curve.dehomogenize, if_pos (hw p hp).ne']
    rfl

/-! ### The plane -/

/-- The euclidean operations in the plane (there is no use of the cross product and of the normalisation here). -/
def planeMetric : Metric K (K × K) where
  cross := fun _ _ => 0
  normalize := id
  normSq := fun v => v.1 * v.1 + v.2 * v.2
  flat := Misc.threePointsAreFlat2

/-- A curve whose coordinates have Lipschitz constant `L` is flat on short intervals. -/
theorem passes_of_lipschitz {floor tol L : K} {c : Curve K ((K × K) × K)} (hf : 0 < floor) (hL0 : 0 ≤ L)
    (hL : ∀ a b, c.lo ≤ a → a ≤ b → b ≤ c.hi →
      |((c.eval b).2⁻¹ • (c.eval b).1).1 - ((c.eval a).2⁻¹ • (c.eval a).1).1| ≤ L * (b - a) ∧
      |((c.eval b).2⁻¹ • (c.eval b).1).2 - ((c.eval a).2⁻¹ • (c.eval a).1).2| ≤ L * (b - a))
    (htol : 8 * (L * floor) ^ 2 < tol) :
    ∀ a b, c.lo ≤ a → b ≤ c.hi → a ≤ b → b - a < 2 * floor → ∀ r, 0 ≤ r → r < 1 →
      Passes planeMetric (fun t => (c.eval t).2⁻¹ • (c.eval t).1) tol a b r := by
  intro a b ha hb hab hlen r r0 r1
  obtain ⟨m1, m2⟩ := mid_bounds hab r0 r1
  obtain ⟨m, hm⟩ : ∃ m, m = a + (b - a) * (1 / 2 + 1 / 5 * r) := ⟨_, rfl⟩
  rw [← hm] at m1 m2
  obtain ⟨x1, y1⟩ := hL a m ha m1 (by linarith)
  obtain ⟨x2, y2⟩ := hL a b ha hab hb
  obtain ⟨E, hE⟩ : ∃ E, E = L * (2 * floor) := ⟨_, rfl⟩
  have hE0 : 0 ≤ E := by rw [hE]; positivity
  have q1 : L * (m - a) ≤ E := by rw [hE]; exact mul_le_mul_of_nonneg_left (by linarith) hL0
  have q2 : L * (b - a) ≤ E := by rw [hE]; exact mul_le_mul_of_nonneg_left (by linarith) hL0
  have hEt : 2 * E ^ 2 < tol := by rw [hE]; nlinarith
  replace x1 := x1.trans q1
  replace y1 := y1.trans q1
  replace x2 := x2.trans q2
  replace y2 := y2.trans q2
  have mulb : ∀ {p q : K}, |p| ≤ E → |q| ≤ E → |p * q| ≤ E ^ 2 := by
    intro p q hp hq
    rw [abs_mul, pow_two]
    exact mul_le_mul hp hq (abs_nonneg _) hE0
  unfold Passes
  rw [← hm]
  constructor
  · rintro ⟨-, hgt⟩
    simp only [planeMetric, Prod.fst_sub, Prod.snd_sub] at hgt
    have z1 := le_of_abs_le (mulb x1 x1)
    have z2 := le_of_abs_le (mulb y1 y1)
    nlinarith
  · simp only [planeMetric, Misc.threePointsAreFlat2, decide_eq_true_eq]
    have z1 := mulb x1 y2
    have z2 := mulb y1 x2
    calc _ ≤ _ := abs_sub _ _
      _ ≤ E ^ 2 + E ^ 2 := add_le_add z1 z2
      _ < tol := by linarith

/-- In the plane, a curve whose coordinates have Lipschitz constant `L` with `8 * (L * floor)^2 < tol` is flat below
    the parameter floor, so its tessellation has the right end points.  For the floor `1e-8` and the default tolerance
    `1e-3` every `L ≤ 10^6` will do. -/
theorem C44_lipschitz [Archimedean K] {eps floor tol L : K} {rnd : ℕ → K} {c : Curve K ((K × K) × K)}
    (h : c.Good eps) (hw : ∀ p ∈ c.cps, 0 < p.2) (hd : c.degree ≠ 1) (hf : 0 < floor)
    (hr : ∀ n, 0 ≤ rnd n ∧ rnd n < 1) (hdom : floor ≤ c.hi - c.lo) (hL0 : 0 ≤ L)
    (hL : ∀ a b, c.lo ≤ a → a ≤ b → b ≤ c.hi →
      |((c.eval b).2⁻¹ • (c.eval b).1).1 - ((c.eval a).2⁻¹ • (c.eval a).1).1| ≤ L * (b - a) ∧
      |((c.eval b).2⁻¹ • (c.eval b).1).2 - ((c.eval a).2⁻¹ • (c.eval a).1).2| ≤ L * (b - a))
    (htol : 8 * (L * floor) ^ 2 < tol) :
    ∃ (fuel : ℕ) (ts : List K) (pts : List (K × K)) (pos : ℕ),
      tessellateCurve planeMetric eps floor rnd fuel c tol = .ok (pts, pos) ∧
      List.Forall₂ (fun t p => c.pointAt eps t = .ok p) ts pts ∧
      ts.head? = some c.lo ∧ ts.getLast? = some c.hi ∧
      ts.IsChain fun x y => x < y ∧
        ∃ r, 0 ≤ r ∧ r < 1 ∧ Passes planeMetric (fun t => (c.eval t).2⁻¹ • (c.eval t).1) tol x y r :=
  C44_end_points h hw hd hf hr hdom (passes_of_lipschitz hf hL0 hL htol)

/-- A parabola. -/
def exParabola : Curve ℚ ((ℚ × ℚ) × ℚ) where
  degree := 2
  knots := [0, 0, 0, 1, 1, 1]
  cps := [((0, 0), 1), ((1/2, 0), 1), ((1, 1), 1)]

theorem exParabola_good : exParabola.Good (1/1000) where
  cps_pos := by simp [exParabola]
  knots_len := by simp [exParabola]
  good := by
    refine ⟨by norm_num, by simp [exParabola], ?_, ?_, ?_, ?_, ?_⟩
    · exact mono_of_sorted (by norm_num [exParabola]) (by simp [exParabola])
    all_goals norm_num [exParabola, kf]

theorem exParabola_eval {t : ℚ} (h0 : 0 ≤ t) (h1 : t ≤ 1) : exParabola.eval t = ((t, t * t), 1) := by
  have hin : Spec.InSpan (kf exParabola.knots) exParabola.hi t 2 := by
    unfold Spec.InSpan
    split_ifs with h
    · norm_num [exParabola, kf, Curve.hi] at h ⊢; rw [h]; norm_num
    · norm_num [exParabola, kf, Curve.hi] at h ⊢
      exact ⟨h0, lt_of_le_of_ne h1 h⟩
  rw [Curve.eval_eq_span exParabola_good (s := 2) (by simp [exParabola]) (by simp [exParabola]) hin]
  simp [exParabola, Finset.sum_range_succ, Spec.NS, kf]
  constructor <;> ring

/-- The parabola has Lipschitz constant two. -/
theorem exParabola_lipschitz : ∀ a b, exParabola.lo ≤ a → a ≤ b → b ≤ exParabola.hi →
      |((exParabola.eval b).2⁻¹ • (exParabola.eval b).1).1 - ((exParabola.eval a).2⁻¹ • (exParabola.eval a).1).1| ≤ 2 * (b - a) ∧
      |((exParabola.eval b).2⁻¹ • (exParabola.eval b).1).2 - ((exParabola.eval a).2⁻¹ • (exParabola.eval a).1).2| ≤ 2 * (b - a) := by
  intro a b h1 h2 h3
  rw [show exParabola.lo = 0 by norm_num [exParabola, Curve.lo, kf]] at h1
  rw [show exParabola.hi = 1 by norm_num [exParabola, Curve.hi, kf]] at h3
  rw [exParabola_eval h1 (h2.trans h3), exParabola_eval (h1.trans h2) h3]
  simp only [inv_one, one_smul]
  constructor
  · rw [abs_of_nonneg (by linarith)]; linarith
  · rw [abs_of_nonneg (by nlinarith)]; nlinarith

example : ∃ (fuel : ℕ) (ts : List ℚ) (pts : List (ℚ × ℚ)) (pos : ℕ),
      tessellateCurve planeMetric (1/1000) (1/10^8) (fun n : ℕ => 1 / ((n : ℚ) + 2)) fuel exParabola (1/1000) = .ok (pts, pos) ∧
      ts.head? = some 0 ∧ ts.getLast? = some 1 := by
  have hlo : exParabola.lo = 0 := by norm_num [exParabola, Curve.lo, kf]
  have hhi : exParabola.hi = 1 := by norm_num [exParabola, Curve.hi, kf]
  obtain ⟨fuel, ts, pts, pos, e, -, hh, hl, -⟩ := C44_lipschitz (eps := 1/1000) (floor := 1/10^8) (tol := 1/1000) (L := 2)
    (rnd := fun n : ℕ => 1 / ((n : ℚ) + 2)) exParabola_good (by decide +kernel) (by simp [exParabola]) (by norm_num) (by
      intro n
      refine ⟨by positivity, ?_⟩
      rw [div_lt_one (by positivity)]
      have : (0 : ℚ) ≤ n := Nat.cast_nonneg n
      linarith) (by rw [hlo, hhi]; norm_num) (by norm_num) exParabola_lipschitz (by norm_num)
  exact ⟨fuel, ts, pts, pos, e, hlo ▸ hh, hhi ▸ hl⟩

/-- The same parabola over a domain shorter than the parameter floor `1e-8`. -/
def exTiny : Curve ℚ ((ℚ × ℚ) × ℚ) where
  degree := 2
  knots := [0, 0, 0, 1/10^9, 1/10^9, 1/10^9]
  cps := [((0, 0), 1), ((1/2, 0), 1), ((1, 1), 1)]

/-- A curve whose domain is shorter than the parameter floor `1e-8` is reduced to its start point: the end point is
    lost. -/
theorem C44_end_lost (rnd : ℕ → ℚ) :
    tessellateCurve planeMetric (1/10^16) (1/10^8) rnd 5 exTiny (1/1000) = .ok ([(0, 0)], 0) ∧
      exTiny.pointAt (1/10^16) (1/10^9) = .ok (1, 1) := by
  constructor
  · have h1 : exTiny.knotsDomain = .ok (0, 1/10^9) := by decide +kernel
    have h2 : exTiny.pointAt (1/10^16) 0 = .ok (0, 0) := by decide +kernel
    rw [tessellateCurve, if_neg (by decide), h1, ok_bind]
    simp only []
    rw [adaptive, h2, ok_bind]
    simp only []
    rw [if_pos (by norm_num)]
    rfl
  · decide +kernel

end curve

end Curvo.Props

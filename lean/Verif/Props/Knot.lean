/-
  Property theorems about knot vectors: C01, C02, C03, C05, C06, C07.
-/
import Mathlib.Tactic.NormNum
import Mathlib.Data.Rat.Defs
import Mathlib.Algebra.Order.Ring.Rat
import Mathlib.Algebra.Field.Rat
import Mathlib.Data.List.Pairwise
import Mathlib.Data.List.Dedup
import Verif.Lemmas.Knot

set_option linter.unusedSectionVars false

namespace Curvo.Props

open Curvo Curvo.Knots Curvo.Spec

variable {K : Type} [Field K] [LinearOrder K]

/-- A clamped quadratic knot vector with a double interior knot, used as witness below. -/
def exKnots : List ℚ := [0, 0, 0, 1, 2, 2, 3, 3, 3]

theorem exKnots_good : GoodKnots (1/1000 : ℚ) (kf exKnots) 2 5 where
  eps_nonneg := by norm_num
  le := by norm_num
  mono := mono_of_sorted (ks := exKnots) (by decide +kernel) (by simp [exKnots])
  first := by norm_num [kf, exKnots]
  last := by norm_num [kf, exKnots]
  first_gap := by norm_num [kf, exKnots]
  last_gap := by norm_num [kf, exKnots]

section order
variable [IsStrictOrderedRing K]

/-! ### C01 -/

/-- Every parameter of the domain is answered with the (unique, see `inSpan_unique`) span that
    contains it, and the search terminates without reading outside the vector. -/
theorem C01_span_brackets {eps : K} {ks : List K} {p n : ℕ} {u : K}
    (hlen : ks.length = n + p + 2) (h : GoodKnots eps (kf ks) p n)
    (h1 : kf ks p ≤ u) (h2 : u ≤ kf ks (n + 1)) :
    ∃ s, findKnotSpanIndex eps ks n p u = .ok s ∧ p ≤ s ∧ s ≤ n ∧
      InSpan (kf ks) (kf ks (n + 1)) u s := by
  have hm1 : MonoUpTo (kf ks) (n + 1) := fun i j hij hj => h.mono i j hij (by omega)
  have hle := h.le
  rw [findKnotSpanIndex, getR_kf (by omega)]
  simp only [ok_bind]
  split
  · rename_i hu
    refine ⟨n, rfl, h.le, le_refl _, ?_⟩
    have hg := h.last_gap
    unfold InSpan
    split
    · rename_i he; rw [he]; exact ⟨h.last, le_refl _⟩
    · rename_i he; exact ⟨by linarith, lt_of_le_of_ne h2 he⟩
  · rename_i hu
    rw [getR_kf (by omega)]
    simp only [ok_bind]
    split
    · rename_i hu'
      refine ⟨p, rfl, le_refl _, h.le, ?_⟩
      have hg := h.first_gap
      unfold InSpan
      split
      · rename_i he
        have h3 := h.mono (p + 1) (n + 1) (by omega) (by omega)
        exact absurd (lt_of_lt_of_le hu' (le_trans hg h3)) (by rw [he]; exact lt_irrefl _)
      · exact ⟨h1, by linarith⟩
    · rename_i hu'
      obtain ⟨s, hs, hps, hsn, hk1, hk2⟩ := spanGo_spec (u := u) (p := p) (n := n) (by omega) hm1 (n + 2)
        p (n + 1) (le_refl _) (by omega) (le_refl _) (by omega) h1 (Or.inr ⟨rfl, h2⟩)
      refine ⟨s, hs, hps, hsn, ?_⟩
      unfold InSpan
      split
      · rename_i he
        rcases hk2 with h3 | ⟨rfl, h3⟩
        · have := hm1 (s + 1) (n + 1) (by omega) (le_refl _)
          rw [he] at h3
          exact absurd (lt_of_lt_of_le h3 this) (lt_irrefl _)
        · exact ⟨by rw [he]; exact h.last, h2⟩
      · rename_i he
        rcases hk2 with h3 | ⟨rfl, h3⟩
        · exact ⟨hk1, h3⟩
        · exact absurd h3 he

/-- The answer is the only span containing the parameter. -/
theorem C01_span_unique {eps : K} {ks : List K} {p n : ℕ} {u : K}
    (hlen : ks.length = n + p + 2) (h : GoodKnots eps (kf ks) p n)
    (h1 : kf ks p ≤ u) (h2 : u ≤ kf ks (n + 1)) {s : ℕ} (hs : s ≤ n + p)
    (hin : InSpan (kf ks) (kf ks (n + 1)) u s) : findKnotSpanIndex eps ks n p u = .ok s := by
  obtain ⟨s', e, _, hs', hin'⟩ := C01_span_brackets hlen h h1 h2
  rw [e, inSpan_unique h.mono (by omega) (by omega) hin' hin]

/-- Parameters left of the domain get the first span. -/
theorem C01_left_of_domain {eps : K} {ks : List K} {p n : ℕ} {u : K}
    (hlen : ks.length = n + p + 2) (h : GoodKnots eps (kf ks) p n) (h1 : u < kf ks p) :
    findKnotSpanIndex eps ks n p u = .ok p := by
  have hle := h.le
  have h3 := h.mono (p + 1) (n + 1) (by omega) (by omega)
  have := h.first_gap
  have := h.eps_nonneg
  rw [findKnotSpanIndex, getR_kf (by omega)]
  simp only [ok_bind]
  rw [if_neg (by intro hc; linarith), getR_kf (by omega)]
  simp only [ok_bind]
  rw [if_pos (by linarith)]; rfl

/-- Parameters right of the domain get the last span. -/
theorem C01_right_of_domain {eps : K} {ks : List K} {p n : ℕ} {u : K}
    (hlen : ks.length = n + p + 2) (h : GoodKnots eps (kf ks) p n) (h1 : kf ks (n + 1) < u) :
    findKnotSpanIndex eps ks n p u = .ok n := by
  have := h.eps_nonneg
  rw [findKnotSpanIndex, getR_kf (by omega)]
  simp only [ok_bind]
  rw [if_pos (by linarith)]; rfl

theorem spanLinearGo_spec {ks : List K} {u : K} {n p : ℕ} (hlen : n + 1 < ks.length) :
    ∀ fuel span, span ≤ n + 1 → p + 1 ≤ span → n + 1 - span < fuel → kf ks (span - 1) ≤ u →
      ∃ s, spanLinearGo ks (n + 1) u fuel span = .ok (s + 1) ∧ p ≤ s ∧ s ≤ n ∧ kf ks s ≤ u ∧
        (u < kf ks (s + 1) ∨ s = n) := by
  intro fuel
  induction fuel with
  | zero => intro span _ _ h; omega
  | succ fuel ih =>
    intro span h1 h2 h3 h4
    rw [spanLinearGo]
    split
    · rw [getR_kf (by omega)]
      simp only [ok_bind]
      split
      · rename_i hu
        exact ih (span + 1) (by omega) (by omega) (by omega) hu
      · rename_i hu
        refine ⟨span - 1, ?_, by omega, by omega, h4, Or.inl ?_⟩
        · rw [Nat.sub_add_cancel (by omega)]; rfl
        · rw [Nat.sub_add_cancel (by omega)]; exact not_le.1 hu
    · refine ⟨span - 1, ?_, by omega, by omega, h4, Or.inr (by omega)⟩
      rw [Nat.sub_add_cancel (by omega)]; rfl

/-- The linear search, given the number of control points, agrees with the binary search. -/
theorem C01_linear_agrees {eps : K} {ks : List K} {p n : ℕ} {u : K}
    (hlen : ks.length = n + p + 2) (h : GoodKnots eps (kf ks) p n)
    (h1 : kf ks p ≤ u) (h2 : u ≤ kf ks (n + 1)) :
    findKnotSpanLinear ks (n + 1) p u = findKnotSpanIndex eps ks n p u := by
  have hle := h.le
  obtain ⟨s, hs, hps, hsn, hk1, hk2⟩ := spanLinearGo_spec (u := u) (n := n) (p := p) (ks := ks)
    (by omega) (n + 2) (p + 1) (by omega) (le_refl _) (by omega) (by simpa using h1)
  have e1 : findKnotSpanLinear ks (n + 1) p u = .ok s := by
    rw [findKnotSpanLinear, hs]; simp [subR]
  rw [e1, C01_span_unique hlen h h1 h2 (s := s) (by omega)]
  unfold InSpan
  split
  · rename_i he
    rcases hk2 with h3 | rfl
    · have := h.mono (s + 1) (n + 1) (by omega) (by omega)
      rw [he] at h3
      exact absurd (lt_of_lt_of_le h3 this) (lt_irrefl _)
    · exact ⟨by rw [he]; exact h.last, h2⟩
  · rename_i he
    rcases hk2 with h3 | rfl
    · exact ⟨hk1, h3⟩
    · exact ⟨hk1, lt_of_le_of_ne h2 he⟩

example : ∃ s, findKnotSpanIndex (1/1000) exKnots 5 2 (5/2) = .ok s ∧ 2 ≤ s ∧ s ≤ 5 ∧
    InSpan (kf exKnots) (kf exKnots 6) (5/2) s :=
  C01_span_brackets (by simp [exKnots]) exKnots_good (by norm_num [kf, exKnots])
    (by norm_num [kf, exKnots])

example : findKnotSpanIndex (1/1000) exKnots 5 2 (-7) = .ok 2 :=
  C01_left_of_domain (by simp [exKnots]) exKnots_good (by norm_num [kf, exKnots])

example : findKnotSpanIndex (1/1000) exKnots 5 2 7 = .ok 5 :=
  C01_right_of_domain (by simp [exKnots]) exKnots_good (by norm_num [kf, exKnots])

end order

/-! ### C02 -/

/-- On a non degenerate span the returned values are the Cox–de Boor basis functions. -/
theorem C02_basis_is_cox_de_boor {ks : List K} {p s : ℕ} {b u : K}
    (hsort : ks.Pairwise (· ≤ ·)) (hp : p ≤ s) (hlen : s + p + 1 < ks.length)
    (hspan : kf ks s < kf ks (s + 1)) (hin : InSpan (kf ks) b u s) :
    basisFunctions ks s u p = .ok ((List.range (p + 1)).map fun r => N (kf ks) b p (s - p + r) u) := by
  have hm := mono_of_sorted hsort hlen
  rw [basisFunctions_eq p hp (by omega)
    (fun i j hi hj hj' => ne_across hm hspan i j hi hj (by omega))]
  congr 1
  apply List.map_congr_left
  intro r hr
  have := List.mem_range.1 hr
  rw [N_eq_NS hm (by omega) hin p _ (by omega)]

/-- All other basis functions vanish. -/
theorem C02_other_basis_vanish {ks : List K} {p s i : ℕ} {b u : K}
    (hsort : ks.Pairwise (· ≤ ·)) (hs : s + 1 < ks.length) (hin : InSpan (kf ks) b u s)
    (hi : i + p + 1 < ks.length) (hout : i + p < s ∨ s < i) : N (kf ks) b p i u = 0 := by
  have hm := mono_of_sorted (m := ks.length - 1) hsort (by omega)
  rw [N_eq_NS hm (by omega) hin p i (by omega)]
  rcases hout with h | h
  · exact NS_eq_zero_left _ _ _ _ _ h
  · exact NS_eq_zero_right _ _ _ _ _ h

/-- On a degenerate span (positive degree) the computation divides by zero. -/
theorem C02_degenerate_span_nonfinite {ks : List K} {s : ℕ} {u : K} (hlen : s + 1 < ks.length)
    (hspan : kf ks s = kf ks (s + 1)) : ∀ p, 1 ≤ p → p ≤ s → s + p < ks.length →
    basisFunctions ks s u p = .error .nonfinite := by
  intro p
  induction p with
  | zero => intro h; omega
  | succ p ih =>
    intro _ hps hl
    rw [basisFunctions]
    rcases Nat.eq_zero_or_pos p with rfl | hp
    · simp only [basisFunctions, pure_eq_ok, ok_bind]
      rw [leftAt_eq (by omega) (by omega), rightAt_eq (by omega)]
      simp only [ok_bind, basisInner]
      rw [leftAt_eq (by omega) (by omega), rightAt_eq (by omega)]
      simp [divR, hspan]
    · rw [ih hp (by omega) (by omega)]; rfl

example : basisFunctions exKnots 5 (5/2) 2 =
    .ok ((List.range 3).map fun r => N (kf exKnots) 3 2 (5 - 2 + r) (5/2)) :=
  C02_basis_is_cox_de_boor (by decide +kernel) (by norm_num) (by simp [exKnots])
    (by norm_num [kf, exKnots]) (by norm_num [InSpan, kf, exKnots])

example : N (kf exKnots) 3 2 1 (5/2) = 0 :=
  C02_other_basis_vanish (s := 5) (by decide +kernel) (by simp [exKnots])
    (by norm_num [InSpan, kf, exKnots]) (by simp [exKnots]) (by norm_num)

example : basisFunctions exKnots 4 2 2 = .error .nonfinite :=
  C02_degenerate_span_nonfinite (by simp [exKnots]) (by norm_num [kf, exKnots]) 2 (by norm_num)
    (by norm_num) (by simp [exKnots])

/-! ### C03 -/

/-- The values add up to one, for every parameter. -/
theorem C03_partition_of_unity {ks : List K} {p s : ℕ} (u : K)
    (hsort : ks.Pairwise (· ≤ ·)) (hp : p ≤ s) (hlen : s + p < ks.length)
    (hspan : p = 0 ∨ kf ks s < kf ks (s + 1)) :
    ∃ vs, basisFunctions ks s u p = .ok vs ∧ vs.length = p + 1 ∧ vs.sum = 1 := by
  have hne : ∀ i j, i ≤ s → s < j → j ≤ s + p → kf ks j ≠ kf ks i := by
    rcases hspan with rfl | hspan
    · intro i j _ _ _; omega
    · exact fun i j hi hj hj' => ne_across (mono_of_sorted hsort hlen) hspan i j hi hj (by omega)
  refine ⟨_, basisFunctions_eq p hp (by omega) hne, by simp, ?_⟩
  have h := NS_sum_eq_one (k := kf ks) (s := s) u p hp hne
  rw [← h]
  exact list_sum_range _ _

variable [IsStrictOrderedRing K]

/-- Inside the span the values are non-negative. -/
theorem C03_nonneg {ks : List K} {p s : ℕ} {u : K}
    (hsort : ks.Pairwise (· ≤ ·)) (hp : p ≤ s) (hlen : s + p + 1 < ks.length)
    (hspan : kf ks s < kf ks (s + 1)) (h1 : kf ks s ≤ u) (h2 : u ≤ kf ks (s + 1)) :
    ∃ vs, basisFunctions ks s u p = .ok vs ∧ (∀ v ∈ vs, 0 ≤ v ∧ v ≤ 1) ∧ vs.sum = 1 := by
  obtain ⟨vs, e, _, hsum⟩ := C03_partition_of_unity u hsort hp (by omega : s + p < ks.length) (Or.inr hspan)
  have hm := mono_of_sorted hsort hlen
  have e' := basisFunctions_eq (u := u) p hp (by omega)
    (fun i j hi hj hj' => ne_across hm hspan i j hi hj (by omega))
  rw [e] at e'
  have e'' := Except.ok.inj e'
  have hnn : ∀ v ∈ vs, 0 ≤ v := by
    intro v hv
    rw [e''] at hv
    obtain ⟨r, hr, rfl⟩ := List.mem_map.1 hv
    have := List.mem_range.1 hr
    exact NS_nonneg hm h1 h2 p _ (by omega)
  refine ⟨vs, e, fun v hv => ⟨hnn v hv, ?_⟩, hsum⟩
  rw [← hsum]
  exact List.single_le_sum hnn v hv

example : ∃ vs, basisFunctions exKnots 5 (5/2) 2 = .ok vs ∧ (∀ v ∈ vs, 0 ≤ v ∧ v ≤ 1) ∧ vs.sum = 1 :=
  C03_nonneg (by decide +kernel) (by norm_num) (by simp [exKnots]) (by norm_num [kf, exKnots])
    (by norm_num [kf, exKnots]) (by norm_num [kf, exKnots])

/-! ### C05 -/

theorem rposition_some {α : Type} {q : α → Bool} : ∀ {l : List α} {i : ℕ}, rposition q l = some i →
    ∃ h : i < l.length, q l[i] = true ∧ ∀ j, i < j → (hj : j < l.length) → q l[j] = false := by
  intro l
  induction l with
  | nil => intro i h; simp [rposition] at h
  | cons a l ih =>
    intro i h
    rw [rposition] at h
    split at h
    · rename_i i' hi'
      obtain ⟨h1, h2, h3⟩ := ih hi'
      have : i = i' + 1 := by simpa using h.symm
      subst this
      refine ⟨by simpa using h1, by simpa using h2, fun j hj hj' => ?_⟩
      obtain ⟨j, rfl⟩ : ∃ j', j = j' + 1 := ⟨j - 1, by omega⟩
      simpa using h3 j (by omega) (by simpa using hj')
    · rename_i hn
      split at h
      · rename_i ha
        have : i = 0 := by simpa using h.symm
        subst this
        refine ⟨by simp, by simpa using ha, fun j hj hj' => ?_⟩
        obtain ⟨j, rfl⟩ : ∃ j', j = j' + 1 := ⟨j - 1, by omega⟩
        have hnone : ∀ (l : List α), rposition q l = none → ∀ j (hj : j < l.length), q l[j] = false := by
          intro l
          induction l with
          | nil => intro _ j hj; simp at hj
          | cons b l ih2 =>
            intro h j hj
            rw [rposition] at h
            split at h
            · simp at h
            · rename_i hn2
              cases j with
              | zero => split at h <;> simp_all
              | succ j => simpa using ih2 hn2 j (by simpa using hj)
        simpa using hnone l hn j (by simpa using hj')
      · simp at h

theorem rposition_none {α : Type} {q : α → Bool} : ∀ {l : List α}, rposition q l = none →
    ∀ a ∈ l, q a = false := by
  intro l
  induction l with
  | nil => simp
  | cons b l ih2 =>
    intro h
    rw [rposition] at h
    split at h
    · simp at h
    · rename_i hn2
      intro a ha
      rcases List.mem_cons.1 ha with rfl | ha
      · split at h <;> simp_all
      · exact ih2 hn2 a ha

theorem insertIdx_take_drop {α : Type} (t : α) : ∀ (l : List α) (i : ℕ), i ≤ l.length →
    l.insertIdx i t = l.take i ++ t :: l.drop i
  | l, 0, _ => by simp
  | [], i + 1, h => by simp at h
  | a :: l, i + 1, h => by simp [insertIdx_take_drop t l i (by simpa using h)]

/-- Adding a knot to a sorted vector: the result is the sorted vector with exactly one more copy of
    the knot, the returned index holds it, and everything right of it is strictly larger. -/
theorem C05_add_knot {ks : List K} {t : K} (hsort : ks.Pairwise (· ≤ ·)) :
    (add ks t).1.Pairwise (· ≤ ·) ∧ (add ks t).1.Perm (t :: ks) ∧
      (add ks t).1[(add ks t).2]? = some t ∧
      ∀ j x, (add ks t).2 < j → (add ks t).1[j]? = some x → t < x := by
  unfold add
  split
  · rename_i i hi
    obtain ⟨h1, h2, h3⟩ := rposition_some hi
    have h2' : ks[i] ≤ t := by simpa using h2
    have h3' : ∀ j, i < j → (hj : j < ks.length) → t < ks[j] := by
      intro j hj hj'; simpa using h3 j hj hj'
    have hins : ks.insertIdx (i + 1) t = ks.take (i + 1) ++ t :: ks.drop (i + 1) := by
      exact insertIdx_take_drop t ks (i + 1) (by omega)
    have hl : (ks.take (i + 1)).length = i + 1 := by simp; omega
    have hdrop : ∀ x ∈ ks.drop (i + 1), t < x := by
      intro x hx
      obtain ⟨j, hj, rfl⟩ := List.mem_iff_getElem.1 hx
      rw [List.getElem_drop]
      exact h3' _ (by omega) _
    have htake : ∀ x ∈ ks.take (i + 1), x ≤ t := by
      intro x hx
      obtain ⟨j, hj, rfl⟩ := List.mem_iff_getElem.1 hx
      rw [List.getElem_take]
      rcases Nat.lt_or_eq_of_le (show j ≤ i by simp at hj; omega) with h | rfl
      · exact le_trans (List.pairwise_iff_getElem.1 hsort j i (by omega) h1 h) h2'
      · exact h2'
    refine ⟨?_, ?_, ?_, ?_⟩
    · simp only [hins]
      rw [List.pairwise_append]
      refine ⟨hsort.sublist (List.take_sublist _ _), ?_, ?_⟩
      · rw [List.pairwise_cons]
        exact ⟨fun x hx => (hdrop x hx).le, hsort.sublist (List.drop_sublist _ _)⟩
      · intro a ha b hb
        rcases List.mem_cons.1 hb with rfl | hb
        · exact htake a ha
        · exact le_trans (htake a ha) (hdrop b hb).le
    · simp only [hins]
      refine List.perm_middle.trans ?_
      rw [List.take_append_drop]
    · simp only [hins]
      rw [List.getElem?_append_right (by omega), hl]; simp
    · intro j x hj hx
      simp only [hins] at hx
      rw [List.getElem?_append_right (by simp at hj; omega), hl] at hx
      obtain ⟨d, rfl⟩ : ∃ d, j = i + 1 + (d + 1) := ⟨j - (i + 2), by simp at hj; omega⟩
      rw [show i + 1 + (d + 1) - (i + 1) = d + 1 by omega, List.getElem?_cons_succ] at hx
      exact hdrop x (List.mem_of_getElem? hx)
  · rename_i hn
    have h := rposition_none hn
    have h' : ∀ x ∈ ks, t < x := by
      intro x hx; simpa using h x hx
    refine ⟨?_, ?_, ?_, ?_⟩
    · simpa using ⟨fun x hx => (h' x hx).le, hsort⟩
    · simp
    · simp
    · intro j x hj hx
      simp only at hj
      obtain ⟨j, rfl⟩ : ∃ j', j = j' + 1 := ⟨j - 1, by omega⟩
      simp at hx
      exact h' x (List.mem_of_getElem? hx)

example : (add exKnots 2).1.Pairwise (· ≤ ·) ∧ (add exKnots 2).1.Perm (2 :: exKnots) ∧
      (add exKnots 2).1[(add exKnots 2).2]? = some 2 ∧
      ∀ j x, (add exKnots 2).2 < j → (add exKnots 2).1[j]? = some x → 2 < x :=
  C05_add_knot (by decide +kernel)

/-! ### C06 -/

/-- Expand a run-length encoding. -/
def expandRuns {α : Type} (m : List (α × ℕ)) : List α := m.flatMap fun x => List.replicate x.2 x.1

theorem multGo_length (eps : K) (ks : List K) : ∀ cur : K × ℕ,
    ((multGo eps cur ks).map Prod.snd).sum = cur.2 + ks.length := by
  induction ks with
  | nil => intro cur; simp [multGo]
  | cons a l ih =>
    intro cur
    rw [multGo]
    split
    · simp only [List.map_cons, List.sum_cons, ih, List.length_cons]; omega
    · rw [ih]; simp; omega

/-- The multiplicities always add up to the number of knots. -/
theorem C06_sum_is_length {eps : K} {ks : List K} (hne : ks ≠ []) :
    ∃ m, multiplicity eps ks = .ok m ∧ (m.map Prod.snd).sum = ks.length := by
  obtain ⟨a, l, rfl⟩ := List.exists_cons_of_ne_nil hne
  exact ⟨_, rfl, by rw [multGo_length]; simp⟩

theorem multGo_runs {eps : K} (heps : 0 ≤ eps) (ks : List K) : ∀ (a : K) (c : ℕ),
    (a :: ks).Pairwise (· ≤ ·) → (∀ x ∈ a :: ks, ∀ y ∈ a :: ks, x ≠ y → eps < |x - y|) →
    expandRuns (multGo eps (a, c) ks) = List.replicate c a ++ ks ∧
    ((multGo eps (a, c) ks).map Prod.fst).Pairwise (· < ·) ∧
    (∀ x ∈ (multGo eps (a, c) ks).map Prod.fst, a ≤ x) ∧
    (∀ m ∈ multGo eps (a, c) ks, m.1 = a ∧ c ≤ m.2 ∨ 1 ≤ m.2) ∧
    (∀ x ∈ (multGo eps (a, c) ks).map Prod.fst, x = a ∨ x ∈ ks) := by
  induction ks with
  | nil => intro a c _ _; simp [multGo, expandRuns]
  | cons b l ih =>
    intro a c hs hd
    have hs' := List.pairwise_cons.1 hs
    rw [multGo]
    split
    · rename_i hlt
      simp only at hlt
      have hab : a < b := by
        refine lt_of_le_of_ne (hs'.1 b (by simp)) ?_
        rintro rfl
        simp at hlt
        exact absurd hlt (not_lt.2 heps)
      obtain ⟨h1, h2, h3, h4, h5⟩ := ih b 1 hs'.2
        (fun x hx y hy => hd x (List.mem_cons_of_mem _ hx) y (List.mem_cons_of_mem _ hy))
      refine ⟨?_, ?_, ?_, ?_, ?_⟩
      · simp only [expandRuns, List.flatMap_cons] at h1 ⊢
        rw [h1]; simp
      · simp only [List.map_cons, List.pairwise_cons]
        exact ⟨fun x hx => lt_of_lt_of_le hab (h3 x hx), h2⟩
      · simp only [List.map_cons, List.mem_cons]
        rintro x (rfl | hx)
        · exact le_refl _
        · exact le_trans hab.le (h3 x hx)
      · intro m hm
        rcases List.mem_cons.1 hm with rfl | hm
        · left; simp
        · right
          rcases h4 m hm with h | h
          · exact h.2
          · exact h
      · simp only [List.map_cons, List.mem_cons]
        rintro x (rfl | hx)
        · simp
        · right; exact h5 x hx
    · rename_i hlt
      simp only at hlt
      have hab : b = a := by
        by_contra hne
        exact hlt (hd b (by simp) a (by simp) hne)
      subst hab
      obtain ⟨h1, h2, h3, h4, h5⟩ := ih b (c + 1) hs'.2
        (fun x hx y hy => hd x (List.mem_cons_of_mem _ hx) y (List.mem_cons_of_mem _ hy))
      refine ⟨?_, h2, h3, ?_, ?_⟩
      · rw [h1, List.replicate_succ']; simp
      · intro m hm
        rcases h4 m hm with h | h
        · exact Or.inl ⟨h.1, by omega⟩
        · exact Or.inr h
      · intro x hx
        rcases h5 x hx with h | h
        · exact Or.inl h
        · exact Or.inr (List.mem_cons_of_mem _ h)

/-- The reported multiplicities are the run-length encoding of the vector: expanding them gives the
    vector back, the reported knots are strictly increasing and every multiplicity is positive. -/
theorem C06_multiplicity_runs {eps : K} (heps : 0 ≤ eps) {ks : List K} (hne : ks ≠ [])
    (hsort : ks.Pairwise (· ≤ ·)) (hd : ∀ x ∈ ks, ∀ y ∈ ks, x ≠ y → eps < |x - y|) :
    ∃ m, multiplicity eps ks = .ok m ∧ expandRuns m = ks ∧ (m.map Prod.fst).Pairwise (· < ·) ∧
      ∀ x ∈ m, 1 ≤ x.2 := by
  obtain ⟨a, l, rfl⟩ := List.exists_cons_of_ne_nil hne
  refine ⟨_, rfl, ?_⟩
  have hs : (a :: a :: l).Pairwise (· ≤ ·) := by
    rw [List.pairwise_cons]
    refine ⟨?_, hsort⟩
    intro x hx
    rcases List.mem_cons.1 hx with rfl | hx
    · exact le_refl _
    · exact (List.pairwise_cons.1 hsort).1 x hx
  have hd' : ∀ x ∈ a :: a :: l, ∀ y ∈ a :: a :: l, x ≠ y → eps < |x - y| := by
    intro x hx y hy
    exact hd x (by simpa using hx) y (by simpa using hy)
  obtain ⟨h1, h2, _, h4, _⟩ := multGo_runs heps (a :: l) a 0 hs hd'
  refine ⟨by simpa using h1, h2, ?_⟩
  have hstep : multGo eps (a, 0) (a :: l) = multGo eps (a, 1) l := by
    rw [multGo]; simp [not_lt.2 heps]
  intro x hx
  rw [hstep] at hx
  obtain ⟨_, _, _, h4', _⟩ := multGo_runs heps l a 1 hsort hd
  rcases h4' x hx with h | h
  · exact h.2
  · exact h

theorem count_expandRuns : ∀ {m : List (K × ℕ)}, (m.map Prod.fst).Pairwise (· < ·) →
    ∀ x ∈ m, (expandRuns m).count x.1 = x.2 := by
  intro m
  induction m with
  | nil => intro _ x hx; simp at hx
  | cons y m ih =>
    intro hp x hx
    simp only [List.map_cons, List.pairwise_cons] at hp
    have hcons : expandRuns (y :: m) = List.replicate y.2 y.1 ++ expandRuns m := by
      simp [expandRuns]
    rw [hcons, List.count_append]
    rcases List.mem_cons.1 hx with rfl | hx
    · have : (expandRuns m).count x.1 = 0 := by
        rw [List.count_eq_zero]
        intro hmem
        simp only [expandRuns, List.mem_flatMap, List.mem_replicate] at hmem
        obtain ⟨z, hz, _, he⟩ := hmem
        have := hp.1 z.1 (List.mem_map_of_mem hz)
        rw [he] at this
        exact lt_irrefl _ this
      rw [this]; simp
    · rw [ih hp.2 x hx]
      have : y.1 < x.1 := hp.1 x.1 (List.mem_map_of_mem hx)
      rw [List.count_replicate]
      simp [this.ne]

/-- Consequently each reported multiplicity is the number of occurrences of its knot, and every knot
    of the vector is reported. -/
theorem C06_multiplicity_counts {eps : K} (heps : 0 ≤ eps) {ks : List K} (hne : ks ≠ [])
    (hsort : ks.Pairwise (· ≤ ·)) (hd : ∀ x ∈ ks, ∀ y ∈ ks, x ≠ y → eps < |x - y|) :
    ∃ m, multiplicity eps ks = .ok m ∧ ∀ x c, (x, c) ∈ m ↔ x ∈ ks ∧ c = ks.count x := by
  obtain ⟨m, e, h1, h2, h3⟩ := C06_multiplicity_runs heps hne hsort hd
  refine ⟨m, e, fun x c => ⟨fun h => ?_, fun h => ?_⟩⟩
  · have hc := count_expandRuns h2 _ h
    rw [h1] at hc
    have := h3 _ h
    simp only at hc this
    exact ⟨List.count_pos_iff.1 (by omega), hc.symm⟩
  · have hx := h.1
    rw [← h1] at hx
    simp only [expandRuns, List.mem_flatMap, List.mem_replicate] at hx
    obtain ⟨z, hz, _, he⟩ := hx
    have hc := count_expandRuns h2 _ hz
    rw [h1, ← he] at hc
    have : (x, c) = z := by
      rw [h.2, hc, he]
    rw [this]; exact hz

/-- The clamped test is true exactly when the first and the last knot both occur more than `degree`
    times. -/
theorem C06_is_clamped {eps : K} (heps : 0 ≤ eps) {ks : List K} (hne : ks ≠ [])
    (hsort : ks.Pairwise (· ≤ ·)) (hd : ∀ x ∈ ks, ∀ y ∈ ks, x ≠ y → eps < |x - y|) (degree : ℕ) :
    ∃ b, isClamped eps ks degree = .ok b ∧
      (b = true ↔ degree + 1 ≤ ks.count (ks.head hne) ∧ degree + 1 ≤ ks.count (ks.getLast hne)) := by
  obtain ⟨m, e, h1, h2, h3⟩ := C06_multiplicity_runs heps hne hsort hd
  have hmne : m ≠ [] := by
    rintro rfl; exact hne (by simpa [expandRuns] using h1.symm)
  have hhead : (m.head hmne).1 = ks.head hne := by
    obtain ⟨y, m', rfl⟩ := List.exists_cons_of_ne_nil hmne
    obtain ⟨c, hc⟩ : ∃ c, y.2 = c + 1 := ⟨y.2 - 1, by have := h3 y (by simp); omega⟩
    subst h1
    simp [expandRuns, hc, List.replicate_succ]
  have hlast : (m.getLast hmne).1 = ks.getLast hne := by
    obtain ⟨m', y, rfl⟩ : ∃ m' y, m = m' ++ [y] :=
      ⟨m.dropLast, m.getLast hmne, (List.dropLast_append_getLast hmne).symm⟩
    obtain ⟨c, hc⟩ : ∃ c, y.2 = c + 1 := ⟨y.2 - 1, by have := h3 y (by simp); omega⟩
    subst h1
    simp [expandRuns, hc, List.replicate_succ']
  have c1 := count_expandRuns h2 _ (List.head_mem hmne)
  have c2 := count_expandRuns h2 _ (List.getLast_mem hmne)
  rw [h1, hhead] at c1
  rw [h1, hlast] at c2
  rw [isClamped, e]
  simp only [ok_bind, List.head?_eq_some_head hmne, List.getLast?_eq_some_getLast hmne, pure_eq_ok]
  refine ⟨_, rfl, ?_⟩
  rw [c1, c2]
  simp

/-- An empty knot vector panics. -/
theorem C06_empty_panics (eps : K) (degree : ℕ) :
    multiplicity eps ([] : List K) = .error .panic ∧ isClamped eps ([] : List K) degree = .error .panic := by
  constructor <;> rfl

theorem exKnots_sep : ∀ x ∈ exKnots, ∀ y ∈ exKnots, x ≠ y → (1/1000 : ℚ) < |x - y| := by
  decide +kernel

example : ∃ b, isClamped (1/1000) exKnots 2 = .ok b ∧
      (b = true ↔ 3 ≤ exKnots.count 0 ∧ 3 ≤ exKnots.count 3) :=
  C06_is_clamped (by norm_num) (by simp [exKnots]) (by decide +kernel) exKnots_sep 2

example : ∃ m, multiplicity (1/1000) exKnots = .ok m ∧
    ∀ x c, (x, c) ∈ m ↔ x ∈ exKnots ∧ c = exKnots.count x :=
  C06_multiplicity_counts (by norm_num) (by simp [exKnots]) (by decide +kernel) exKnots_sep

/-! ### C07 -/

theorem invertGo_eq (l : List K) : ∀ prev a : K, invertGo prev (a :: l) = l.map fun b => prev + (a - b) := by
  induction l with
  | nil => intro prev a; simp [invertGo]
  | cons b l ih =>
    intro prev a
    rw [invertGo, ih]
    simp only [List.map_cons, List.cons.injEq, true_and]
    apply List.map_congr_left
    intro c _; ring

/-- Inverting mirrors every knot at the middle of the knot range and reverses the order. -/
theorem C07_invert_mirror {ks : List K} (hne : ks ≠ []) :
    invert ks = .ok (ks.reverse.map fun k => ks.head hne + ks.getLast hne - k) := by
  obtain ⟨l, z, rfl⟩ : ∃ m' y, ks = m' ++ [y] :=
      ⟨ks.dropLast, ks.getLast hne, (List.dropLast_append_getLast hne).symm⟩
  have h0 : getR (l ++ [z]) 0 = .ok ((l ++ [z]).head hne) := by
    rw [getR_eq_ok (by simp)]; rw [List.head_eq_getElem]
  rw [invert, h0]
  simp only [ok_bind, List.reverse_append, List.reverse_cons, List.reverse_nil, List.nil_append,
    List.singleton_append, invertGo_eq, pure_eq_ok, List.map_cons, List.getLast_append_singleton]
  congr 2
  · ring
  · apply List.map_congr_left; intro b _; ring

/-- The same in terms of indices. -/
theorem C07_invert_index {ks ks' : List K} (h : invert ks = .ok ks') :
    ks'.length = ks.length ∧ ∀ i, i < ks.length →
      kf ks' i = kf ks 0 + kf ks (ks.length - 1) - kf ks (ks.length - 1 - i) := by
  have hne : ks ≠ [] := by rintro rfl; simp [invert, getR] at h
  rw [C07_invert_mirror hne] at h
  have h := (Except.ok.inj h).symm
  subst h
  refine ⟨by simp, fun i hi => ?_⟩
  rw [kf_eq (by simpa using hi), kf_eq (by omega), kf_eq (by omega), kf_eq (by omega)]
  simp [List.head_eq_getElem, List.getLast_eq_getElem]

/-- First and last knot are kept. -/
theorem C07_invert_keeps_ends {ks ks' : List K} (h : invert ks = .ok ks') :
    kf ks' 0 = kf ks 0 ∧ kf ks' (ks.length - 1) = kf ks (ks.length - 1) := by
  have hne : ks ≠ [] := by rintro rfl; simp [invert, getR] at h
  have hpos := List.length_pos_of_ne_nil hne
  obtain ⟨_, h2⟩ := C07_invert_index h
  constructor
  · rw [h2 0 hpos]; simp
  · rw [h2 _ (by omega)]; simp

/-- Inverting twice is the identity. -/
theorem C07_invert_involutive {ks ks' : List K} (h : invert ks = .ok ks') : invert ks' = .ok ks := by
  have hne : ks ≠ [] := by rintro rfl; simp [invert, getR] at h
  have h' := h
  rw [C07_invert_mirror hne] at h
  have e := (Except.ok.inj h).symm
  have hne' : ks' ≠ [] := by rw [e]; simpa using hne
  rw [C07_invert_mirror hne']
  have hh : ks'.head hne' = ks.head hne := by
    simp [e, List.head_eq_getElem, List.getLast_eq_getElem]
  have hl : ks'.getLast hne' = ks.getLast hne := by
    simp [e, List.head_eq_getElem, List.getLast_eq_getElem]
  rw [hh, hl, e]
  congr 1
  rw [← List.map_reverse, List.reverse_reverse, List.map_map]
  simp

/-- A sorted vector stays sorted. -/
theorem C07_invert_sorted {ks ks' : List K} (h : invert ks = .ok ks') (hsort : ks.Pairwise (· ≤ ·)) :
    ks'.Pairwise (· ≤ ·) := by
  have hne : ks ≠ [] := by rintro rfl; simp [invert, getR] at h
  rw [C07_invert_mirror hne] at h
  have e := (Except.ok.inj h).symm
  rw [e, List.pairwise_map, List.pairwise_reverse]
  exact hsort.imp (fun hab => by linarith)

/-- The domain is mirrored. -/
theorem C07_invert_domain {ks ks' : List K} {degree : ℕ} {a b : K} (h : invert ks = .ok ks')
    (hd : domain ks degree = .ok (a, b)) :
    domain ks' degree = .ok (kf ks 0 + kf ks (ks.length - 1) - b, kf ks 0 + kf ks (ks.length - 1) - a) := by
  obtain ⟨h1, h2⟩ := C07_invert_index h
  have hdeg : degree < ks.length := by
    by_contra hc
    rw [domain, getR_eq_panic (by omega)] at hd; simp at hd
  rw [domain, getR_kf hdeg, subR_eq_ok (by omega), ok_bind, ok_bind, subR_eq_ok (by omega), ok_bind,
    getR_kf (by omega)] at hd
  simp only [ok_bind, pure_eq_ok, Except.ok.injEq, Prod.mk.injEq] at hd
  rw [domain, getR_kf (by omega), h1, subR_eq_ok (by omega), ok_bind, ok_bind, subR_eq_ok (by omega),
    ok_bind, getR_kf (by omega), ok_bind, h2 _ hdeg, h2 _ (by omega), ← hd.1, ← hd.2]
  simp only [pure_eq_ok, Except.ok.injEq, Prod.mk.injEq, true_and]
  congr 2; omega

example : ∃ ks', invert exKnots = .ok ks' ∧ invert ks' = .ok exKnots ∧ ks'.Pairwise (· ≤ ·) ∧
    ks' ≠ exKnots := by
  refine ⟨[0, 0, 0, 1, 1, 2, 3, 3, 3], ?_, ?_, ?_, ?_⟩
  · rw [C07_invert_mirror (by simp [exKnots])]; norm_num [exKnots]
  · apply C07_invert_involutive
    rw [C07_invert_mirror (by simp [exKnots])]; norm_num [exKnots]
  · decide +kernel
  · decide +kernel

end Curvo.Props

/-
  When a refinement can be evaluated, and sub-curves of a curve.
-/
import Verif.Lemmas.Refine
import Verif.Lemmas.Sorted

set_option linter.unusedSectionVars false

namespace Curvo.Curve

open Curvo.Spec

variable {K : Type} [Field K] [LinearOrder K]
variable {V : Type} [AddCommGroup V] [Module K V]

theorem Pre.exists_span {c : Curve K V} (h : c.Pre) {u : K} (h1 : c.lo ≤ u) (h2 : u ≤ c.hi) :
    ∃ s, c.degree ≤ s ∧ s < c.cps.length ∧ InSpan (kf c.knots) c.hi u s := by
  have hd := h.deg_lt
  have hn : c.cps.length - 1 + 1 = c.cps.length := by omega
  obtain ⟨s, hps, hsn, hs⟩ := exists_inSpan (k := kf c.knots) (p := c.degree) (n := c.cps.length - 1)
    (u := u) (by omega) (by rw [hn]; exact h.dom) h1 (by rw [hn]; exact h2)
  rw [hn] at hs
  exact ⟨s, hps, by omega, hs⟩

theorem evalB_eq_NS {c : Curve K V} {b u : K} {s : ℕ}
    (hm : MonoUpTo (kf c.knots) (c.cps.length - 1 + c.degree + 1)) (hs : s < c.cps.length)
    (hin : InSpan (kf c.knots) b u s) :
    c.evalB b u = (Finset.range c.cps.length).sum fun i =>
      NS (kf c.knots) s c.degree i u • c.cps.getD i 0 := by
  rw [evalB]
  apply Finset.sum_congr rfl
  intro i hi
  have := Finset.mem_range.1 hi
  rw [N_eq_NS hm (by omega) hin _ _ (by omega)]

/-- Two conventions about the right end with a common active span agree. -/
theorem evalB_congr {c : Curve K V} {b b' u : K} {s : ℕ}
    (hm : MonoUpTo (kf c.knots) (c.cps.length - 1 + c.degree + 1)) (hs : s < c.cps.length)
    (hin : InSpan (kf c.knots) b u s) (hin' : InSpan (kf c.knots) b' u s) : c.evalB b u = c.evalB b' u := by
  rw [evalB_eq_NS hm hs hin, evalB_eq_NS hm hs hin']

theorem inSpan_congr {k : ℕ → K} {b b' u : K} {s : ℕ} (h : u = b ↔ u = b') (hin : InSpan k b u s) :
    InSpan k b' u s := by
  unfold InSpan at hin ⊢
  by_cases hu : u = b
  · rw [if_pos hu] at hin; rw [if_pos (h.1 hu)]; exact hin
  · rw [if_neg hu] at hin; rw [if_neg (fun h' => hu (h.2 h'))]; exact hin

/-- `d` is the part of `c` that starts at control point `a`. -/
structure Sub (c d : Curve K V) (a : ℕ) : Prop where
  degree : d.degree = c.degree
  knots : ∀ j, j ≤ d.cps.length + d.degree → kf d.knots j = kf c.knots (j + a)
  cps : ∀ j, j < d.cps.length → d.cps.getD j 0 = c.cps.getD (j + a) 0
  le : d.cps.length + a ≤ c.cps.length

theorem Sub.mono {c d : Curve K V} {a : ℕ} (h : Sub c d a)
    (hm : MonoUpTo (kf c.knots) (c.cps.length - 1 + c.degree + 1)) (hd : 0 < d.cps.length) :
    MonoUpTo (kf d.knots) (d.cps.length - 1 + d.degree + 1) := by
  intro i j hij hj
  have := h.le
  have := h.degree
  rw [h.knots _ (by omega), h.knots _ (by omega)]
  exact hm _ _ (by omega) (by omega)

theorem Sub.evalB {c d : Curve K V} {a s : ℕ} {b u : K} (h : Sub c d a)
    (hm : MonoUpTo (kf c.knots) (c.cps.length - 1 + c.degree + 1)) (hps : d.degree ≤ s)
    (hs : s < d.cps.length) (hin : InSpan (kf d.knots) b u s) :
    InSpan (kf c.knots) b u (s + a) ∧ d.evalB b u = c.evalB b u := by
  have hle := h.le
  have hdeg := h.degree
  have hin' : InSpan (kf c.knots) b u (s + a) := by
    unfold InSpan at hin ⊢
    rw [h.knots _ (by omega), h.knots _ (by omega), show s + 1 + a = s + a + 1 by omega] at hin
    exact hin
  refine ⟨hin', ?_⟩
  rw [evalB_eq_NS (h.mono hm (by omega)) hs hin, evalB_eq_NS hm (by omega) hin',
    sum_NS_window (fun i => d.cps.getD i 0) hps hs,
    sum_NS_window (fun i => c.cps.getD i 0) (by omega) (by omega), hdeg]
  apply Finset.sum_congr rfl
  intro r hr
  have := Finset.mem_range.1 hr
  rw [h.cps _ (by omega), show s + a - c.degree + r = s - c.degree + r + a by omega, ← NS_shift]
  congr 1
  exact NS_congr _ _ (fun j h1 h2 => h.knots j (by omega))

variable [IsStrictOrderedRing K]

/-- A refinement by knots strictly inside the domain can be evaluated. -/
theorem Refines.good {eps : K} {c c' : Curve K V} {xs : List K} (h : c.Good eps) (hr : Refines c c' xs)
    (hin : ∀ x ∈ xs, c.lo < x ∧ x < c.hi)
    (hsep : ∀ x ∈ xs, ∀ y ∈ c.knots, |y - x| < eps → y = x) : c'.Good eps := by
  have hpre := h.pre
  have hl := hpre.knots_len
  have hd := hpre.deg_lt
  have hl' := hr.pre.knots_len
  have hd' := hr.pre.deg_lt
  have hdeg := hr.degree
  have hcl := hr.cps_len
  have hlen : c'.cps.length - 1 + 1 = c'.cps.length := by omega
  have hlo : kf c'.knots c'.degree = c.lo := hr.lo
  have hhi : kf c'.knots c'.cps.length = c.hi := hr.hi
  -- the first span
  have first : c.lo < kf c'.knots (c'.degree + 1) := by
    have hP : ∀ a b : K, a ≤ b → decide (b ≤ c.lo) = true → decide (a ≤ c.lo) = true := by
      intro a b hab hb; simp only [decide_eq_true_eq] at hb ⊢; exact le_trans hab hb
    have e1 := (sorted_countP (P := fun y => decide (y ≤ c.lo)) hP hpre.sorted
      (t := c.degree + 1) (by omega)).not
    have e2 := (sorted_countP (P := fun y => decide (y ≤ c.lo)) hP hr.pre.sorted
      (t := c'.degree + 1) (by omega)).not
    rw [← kf_eq] at e1 e2
    simp only [decide_eq_true_eq, not_le, not_lt] at e1 e2
    rw [e2, hr.knots.countP_eq, List.countP_append]
    have : xs.countP (fun y => decide (y ≤ c.lo)) = 0 := by
      rw [List.countP_eq_zero]
      intro x hx; simp only [decide_eq_true_eq, not_le]; exact (hin x hx).1
    rw [this, hdeg, Nat.zero_add]
    exact e1.1 h.good.first
  have last : kf c'.knots (c'.cps.length - 1) < c.hi := by
    have hP : ∀ a b : K, a ≤ b → decide (b < c.hi) = true → decide (a < c.hi) = true := by
      intro a b hab hb; simp only [decide_eq_true_eq] at hb ⊢; exact lt_of_le_of_lt hab hb
    have e1 := (sorted_countP (P := fun y => decide (y < c.hi)) hP hpre.sorted
      (t := c.cps.length - 1) (by omega))
    have e2 := (sorted_countP (P := fun y => decide (y < c.hi)) hP hr.pre.sorted
      (t := c'.cps.length - 1) (by omega))
    rw [← kf_eq] at e1 e2
    simp only [decide_eq_true_eq] at e1 e2
    rw [e2, hr.knots.countP_eq, List.countP_append]
    have : xs.countP (fun y => decide (y < c.hi)) = xs.length := by
      rw [List.countP_eq_length]
      intro x hx; simp only [decide_eq_true_eq]; exact (hin x hx).2
    rw [this]
    have := e1.1 (by have := h.good.last; rw [hi_eq h] at this; exact this)
    omega
  have memlo : c.lo ∈ c.knots := by
    show kf c.knots c.degree ∈ _
    rw [kf_eq (by omega)]; exact List.getElem_mem _
  have memhi : c.hi ∈ c.knots := by
    show kf c.knots c.cps.length ∈ _
    rw [kf_eq (by omega)]; exact List.getElem_mem _
  refine ⟨by omega, hl', h.good.eps_nonneg, by omega, hr.pre.mono, ?_, ?_, ?_, ?_⟩
  · rw [hlo]; exact first
  · rw [hlen, hhi]; exact last
  · rw [hlo]
    have hmem : kf c'.knots (c'.degree + 1) ∈ c'.knots := by
      rw [kf_eq (by omega)]; exact List.getElem_mem _
    generalize kf c'.knots (c'.degree + 1) = y at first hmem
    rcases List.mem_append.1 (hr.knots.subset hmem) with hy | hy
    · by_contra hlt
      have hlt := lt_of_not_ge hlt
      have := hsep y hy c.lo memlo (by
        rw [abs_sub_comm, abs_of_pos (sub_pos.2 first)]; exact sub_lt_iff_lt_add'.2 hlt)
      exact absurd this first.ne
    · obtain ⟨j, hj, rfl⟩ := List.mem_iff_getElem.1 hy
      rw [← kf_eq hj] at first ⊢
      refine le_trans h.good.first_gap (h.good.mono _ _ ?_ (by omega))
      by_contra hc
      exact absurd (h.good.mono j c.degree (by omega) (by omega)) (not_le.2 first)
  · rw [hlen, hhi]
    have hmem : kf c'.knots (c'.cps.length - 1) ∈ c'.knots := by
      rw [kf_eq (by omega)]; exact List.getElem_mem _
    generalize kf c'.knots (c'.cps.length - 1) = y at last hmem
    rcases List.mem_append.1 (hr.knots.subset hmem) with hy | hy
    · by_contra hlt
      have hlt := lt_of_not_ge hlt
      have := hsep y hy c.hi memhi (by
        rw [abs_of_pos (sub_pos.2 last)]; exact sub_lt_iff_lt_add'.2 hlt)
      exact absurd this last.ne'
    · obtain ⟨j, hj, rfl⟩ := List.mem_iff_getElem.1 hy
      rw [← kf_eq hj] at last ⊢
      have hg := h.good.last_gap
      rw [hi_eq h] at hg
      refine le_trans (add_le_add_left (h.good.mono j (c.cps.length - 1) ?_ (by omega)) eps) hg
      by_contra hc
      exact absurd (h.good.mono c.cps.length j (by omega) (by omega)) (not_le.2 last)

end Curvo.Curve

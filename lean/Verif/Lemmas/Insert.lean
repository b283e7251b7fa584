/-
  One knot insertion on the level of curves, and that it does not change what the curve denotes.
-/
import Mathlib.Tactic.Module
import Mathlib.Tactic.Linarith
import Mathlib.Algebra.BigOperators.GroupWithZero.Action
import Mathlib.Algebra.BigOperators.Intervals
import Verif.Lemmas.Boehm
import Verif.Lemmas.Curve

set_option linter.unusedSectionVars false

namespace Curvo.Spec

/-- A predicate true at `p` and false at `q > p` changes from true to false somewhere between. -/
theorem exists_step {P : ℕ → Prop} : ∀ {p q : ℕ}, p ≤ q → P p → ¬ P q →
    ∃ s, p ≤ s ∧ s + 1 ≤ q ∧ P s ∧ ¬ P (s + 1) := by
  intro p q hpq
  induction q, hpq using Nat.le_induction with
  | base => intro h h'; exact absurd h h'
  | succ q hq ih =>
    intro h h'
    by_cases hP : P q
    · exact ⟨q, hq, le_refl _, hP, h'⟩
    · obtain ⟨s, a, b, c⟩ := ih h hP
      exact ⟨s, a, by omega, c⟩

variable {K : Type} [Field K] [LinearOrder K]
variable {V : Type} [AddCommGroup V] [Module K V]

/-- Every parameter of a non degenerate domain has an active span. -/
theorem exists_inSpan {k : ℕ → K} {p n : ℕ} {u : K} (hpn : p ≤ n)
    (hlt : k p < k (n + 1)) (h1 : k p ≤ u) (h2 : u ≤ k (n + 1)) :
    ∃ s, p ≤ s ∧ s ≤ n ∧ InSpan k (k (n + 1)) u s := by
  by_cases hu : u = k (n + 1)
  · obtain ⟨s, a, b, c, d⟩ := exists_step (P := fun j => k j < u) (p := p) (q := n + 1) (by omega)
      (by rw [hu]; exact hlt) (by rw [hu]; exact lt_irrefl _)
    exact ⟨s, a, by omega, by rw [InSpan, if_pos hu]; exact ⟨c, le_of_not_gt d⟩⟩
  · obtain ⟨s, a, b, c, d⟩ := exists_step (P := fun j => k j ≤ u) (p := p) (q := n + 1) (by omega)
      h1 (fun h => hu (le_antisymm h2 h))
    exact ⟨s, a, by omega, by rw [InSpan, if_neg hu]; exact ⟨c, lt_of_not_ge d⟩⟩

/-- The active span after inserting a knot. -/
theorem inSpan_insKnot {v : ℕ → K} {i s : ℕ} {x u b : K} (hs : InSpan v b u s) :
    ∃ s', ((s' = s ∧ s ≤ i) ∨ (s' = s + 1 ∧ i ≤ s)) ∧ InSpan (insKnot v i x) b u s' := by
  rcases Nat.lt_trichotomy s i with h | h | h
  · refine ⟨s, Or.inl ⟨rfl, h.le⟩, ?_⟩
    unfold InSpan at hs ⊢
    rwa [insKnot_le (by omega), insKnot_le (by omega)]
  · subst h
    unfold InSpan at hs ⊢
    by_cases hu : u = b
    · rw [if_pos hu] at hs
      by_cases hx : u ≤ x
      · refine ⟨s, Or.inl ⟨rfl, le_refl _⟩, ?_⟩
        rw [if_pos hu, insKnot_le (le_refl _), insKnot_mid]; exact ⟨hs.1, hx⟩
      · refine ⟨s + 1, Or.inr ⟨rfl, le_refl _⟩, ?_⟩
        rw [if_pos hu, insKnot_mid, insKnot_gt (by omega)]; exact ⟨lt_of_not_ge hx, hs.2⟩
    · rw [if_neg hu] at hs
      by_cases hx : u < x
      · refine ⟨s, Or.inl ⟨rfl, le_refl _⟩, ?_⟩
        rw [if_neg hu, insKnot_le (le_refl _), insKnot_mid]; exact ⟨hs.1, hx⟩
      · refine ⟨s + 1, Or.inr ⟨rfl, le_refl _⟩, ?_⟩
        rw [if_neg hu, insKnot_mid, insKnot_gt (by omega)]; exact ⟨le_of_not_gt hx, hs.2⟩
  · refine ⟨s + 1, Or.inr ⟨rfl, h.le⟩, ?_⟩
    unfold InSpan at hs ⊢
    rwa [insKnot_gt (by omega), insKnot_gt (by omega)]

theorem insAlpha_mem [IsStrictOrderedRing K] {v : ℕ → K} {p n i t : ℕ} {x : K} (hv : MonoUpTo v (n + p + 1)) (hin : i ≤ n)
    (h1 : v i ≤ x) (h2 : x ≤ v (i + 1)) :
    0 ≤ insAlpha v p i x t ∧ insAlpha v p i x t ≤ 1 := by
  unfold insAlpha
  split_ifs with c1 c2
  · simp
  · simp
  · have m1 : v t ≤ x := le_trans (hv t i (by omega) (by omega)) h1
    have m2 : x ≤ v (t + p) := le_trans h2 (hv _ _ (by omega) (by omega))
    have hf0 : 0 ≤ (v (t + p) - x) / (v (t + p) - v t) := div_nonneg (sub_nonneg.2 m2) (sub_nonneg.2 (le_trans m1 m2))
    have hf1 : (v (t + p) - x) / (v (t + p) - v t) ≤ 1 :=
      div_le_one_of_le₀ (sub_le_sub_left m1 _) (sub_nonneg.2 (le_trans m1 m2))
    constructor <;> linarith

/-- The control points after inserting `x` behind index `i`. -/
def insCps (v : ℕ → K) (p i : ℕ) (x : K) (P : ℕ → V) (t : ℕ) : V :=
  insAlpha v p i x t • P t + (1 - insAlpha v p i x t) • P (t - 1)

theorem insCps_le {v : ℕ → K} {p i t : ℕ} {x : K} {P : ℕ → V} (h : t + p ≤ i) :
    insCps v p i x P t = P t := by
  simp [insCps, insAlpha, h]

theorem insCps_gt {v : ℕ → K} {p i t : ℕ} {x : K} {P : ℕ → V} (h : i < t) :
    insCps v p i x P t = P (t - 1) := by
  simp [insCps, insAlpha, h, show ¬ t + p ≤ i by omega]

/-- Knot insertion does not change the sum, on a fixed pair of related spans; `i` may be anywhere, only
    the span `s` has to belong to the domain. -/
theorem sum_insert' {v : ℕ → K} {i p n : ℕ} {x u : K} (hv : MonoUpTo v (n + p + 1))
    (him : i ≤ n + p + 1) (h1 : v i ≤ x) (h2 : i + 1 ≤ n + p + 1 → x ≤ v (i + 1)) {s s' : ℕ}
    (hps : p ≤ s) (hsn : s ≤ n)
    (hs : (s' = s ∧ s ≤ i) ∨ (s' = s + 1 ∧ i ≤ s))
    (hnd : insKnot v i x s' < insKnot v i x (s' + 1)) (P : ℕ → V) :
    ((Finset.range (n + 2)).sum fun t => NS (insKnot v i x) s' p t u • insCps v p i x P t) =
      (Finset.range (n + 1)).sum fun t => NS v s p t u • P t := by
  have key := boehm hv him h1 h2 hs hnd (u := u) p
  have e1 : ((Finset.range (n + 1)).sum fun t => NS v s p t u • P t) =
      ((Finset.range (n + 1)).sum fun t => (insAlpha v p i x t * NS (insKnot v i x) s' p t u) • P t) +
      (Finset.range (n + 1)).sum fun t =>
        ((1 - insAlpha v p i x (t + 1)) * NS (insKnot v i x) s' p (t + 1) u) • P t := by
    rw [← Finset.sum_add_distrib]
    apply Finset.sum_congr rfl
    intro t ht
    rw [key t (by have := Finset.mem_range.1 ht; omega), add_smul]
  have e2 : ((Finset.range (n + 2)).sum fun t => NS (insKnot v i x) s' p t u • insCps v p i x P t) =
      ((Finset.range (n + 2)).sum fun t => (insAlpha v p i x t * NS (insKnot v i x) s' p t u) • P t) +
      (Finset.range (n + 2)).sum fun t =>
        ((1 - insAlpha v p i x t) * NS (insKnot v i x) s' p t u) • P (t - 1) := by
    rw [← Finset.sum_add_distrib]
    apply Finset.sum_congr rfl
    intro t _
    rw [insCps]; module
  have a0 : (1 - insAlpha v p i x 0) * NS (insKnot v i x) s' p 0 u = 0 := by
    by_cases hpi : p ≤ i
    · simp [insAlpha, hpi]
    · rw [NS_eq_zero_left _ _ _ _ _ (by omega), mul_zero]
  have an : insAlpha v p i x (n + 1) * NS (insKnot v i x) s' p (n + 1) u = 0 := by
    by_cases hin : i ≤ n
    · simp [insAlpha, show ¬ n + 1 + p ≤ i by omega, show i < n + 1 by omega]
    · rw [NS_eq_zero_right _ _ _ _ _ (by omega), mul_zero]
  rw [e1, e2, Finset.sum_range_succ, an, Finset.sum_range_succ' _ (n + 1), a0]
  simp

/-- Knot insertion does not change the sum, on a fixed pair of related spans. -/
theorem sum_insert {v : ℕ → K} {i p n : ℕ} {x u : K} (hv : MonoUpTo v (n + p + 1))
    (hpi : p ≤ i) (hin : i ≤ n) (h1 : v i ≤ x) (h2 : x ≤ v (i + 1)) {s s' : ℕ}
    (hs : (s' = s ∧ s ≤ i) ∨ (s' = s + 1 ∧ i ≤ s))
    (hnd : insKnot v i x s' < insKnot v i x (s' + 1)) (P : ℕ → V) :
    ((Finset.range (n + 2)).sum fun t => NS (insKnot v i x) s' p t u • insCps v p i x P t) =
      (Finset.range (n + 1)).sum fun t => NS v s p t u • P t := by
  have key := boehm hv (by omega) h1 (fun _ => h2) hs hnd (u := u) p
  have e1 : ((Finset.range (n + 1)).sum fun t => NS v s p t u • P t) =
      ((Finset.range (n + 1)).sum fun t => (insAlpha v p i x t * NS (insKnot v i x) s' p t u) • P t) +
      (Finset.range (n + 1)).sum fun t =>
        ((1 - insAlpha v p i x (t + 1)) * NS (insKnot v i x) s' p (t + 1) u) • P t := by
    rw [← Finset.sum_add_distrib]
    apply Finset.sum_congr rfl
    intro t ht
    rw [key t (by have := Finset.mem_range.1 ht; omega), add_smul]
  have e2 : ((Finset.range (n + 2)).sum fun t => NS (insKnot v i x) s' p t u • insCps v p i x P t) =
      ((Finset.range (n + 2)).sum fun t => (insAlpha v p i x t * NS (insKnot v i x) s' p t u) • P t) +
      (Finset.range (n + 2)).sum fun t =>
        ((1 - insAlpha v p i x t) * NS (insKnot v i x) s' p t u) • P (t - 1) := by
    rw [← Finset.sum_add_distrib]
    apply Finset.sum_congr rfl
    intro t _
    rw [insCps]; module
  have a0 : insAlpha v p i x 0 = 1 := by simp [insAlpha, hpi]
  have an : insAlpha v p i x (n + 1) = 0 := by
    simp [insAlpha, show ¬ n + 1 + p ≤ i by omega, show i < n + 1 by omega]
  rw [e1, e2, Finset.sum_range_succ, an, Finset.sum_range_succ' _ (n + 1), a0]
  simp

/-- **Knot insertion does not change the B-spline sum**, for any convention `b` about the right end. -/
theorem sumN_insert {v : ℕ → K} {i p n s : ℕ} {x u b : K} (hv : MonoUpTo v (n + p + 1))
    (hpi : p ≤ i) (hin : i ≤ n) (h1 : v i ≤ x) (h2 : x ≤ v (i + 1)) (hsn : s ≤ n)
    (hs : InSpan v b u s) (P : ℕ → V) :
    ((Finset.range (n + 2)).sum fun t => N (insKnot v i x) b p t u • insCps v p i x P t) =
      (Finset.range (n + 1)).sum fun t => N v b p t u • P t := by
  obtain ⟨s', hss, hs'⟩ := inSpan_insKnot (i := i) (x := x) hs
  have hw := insKnot_mono hv (by omega : i ≤ n + p + 1) h1 (fun _ => h2)
  have e1 : ((Finset.range (n + 1)).sum fun t => N v b p t u • P t) =
      (Finset.range (n + 1)).sum fun t => NS v s p t u • P t := by
    apply Finset.sum_congr rfl
    intro t ht
    rw [N_eq_NS hv (by omega) hs _ _ (by have := Finset.mem_range.1 ht; omega)]
  have e2 : ((Finset.range (n + 2)).sum fun t => N (insKnot v i x) b p t u • insCps v p i x P t) =
      (Finset.range (n + 2)).sum fun t => NS (insKnot v i x) s' p t u • insCps v p i x P t := by
    apply Finset.sum_congr rfl
    intro t ht
    rw [N_eq_NS hw (by omega) hs' _ _ (by have := Finset.mem_range.1 ht; omega)]
  rw [e1, e2]
  exact sum_insert hv hpi hin h1 h2 hss (Curve.inSpan_lt hs') P

end Curvo.Spec

namespace Curvo.Curve

open Curvo.Spec

variable {K : Type} [Field K] [LinearOrder K]
variable {V : Type} [AddCommGroup V] [Module K V]

/-- Boehm insertion of `x` behind knot index `i`, as an operation on curves (specification level). -/
def insertOne (c : Curve K V) (i : ℕ) (x : K) : Curve K V where
  degree := c.degree
  knots := c.knots.take (i + 1) ++ x :: c.knots.drop (i + 1)
  cps := (List.range (c.cps.length + 1)).map
    (insCps (kf c.knots) c.degree i x fun t => c.cps.getD t 0)

theorem kf_insert {ks : List K} {i : ℕ} {x : K} (h : i < ks.length) :
    kf (ks.take (i + 1) ++ x :: ks.drop (i + 1)) = insKnot (kf ks) i x := by
  funext j
  have hl : (ks.take (i + 1)).length = i + 1 := by simp; omega
  unfold kf insKnot
  simp only [List.getD_eq_getElem?_getD]
  by_cases h1 : j ≤ i
  · rw [if_pos h1, List.getElem?_append_left (by omega), List.getElem?_take_of_lt (by omega)]
  · rw [if_neg h1, List.getElem?_append_right (by omega), hl]
    by_cases h2 : j = i + 1
    · subst h2; simp
    · rw [if_neg h2]
      obtain ⟨d, hd⟩ : ∃ d, j = i + 1 + (d + 1) := ⟨j - (i + 2), by omega⟩
      rw [show j - (i + 1) = d + 1 by omega, List.getElem?_cons_succ, List.getElem?_drop]
      congr 2; omega

theorem getD_map_range {f : ℕ → V} {n t : ℕ} (h : t < n) :
    ((List.range n).map f).getD t 0 = f t := by
  simp [h]

/-- Sorted knots with matching lengths and a non degenerate domain. -/
structure Pre (c : Curve K V) : Prop where
  deg_lt : c.degree < c.cps.length
  knots_len : c.knots.length = c.cps.length + c.degree + 1
  sorted : c.knots.Pairwise (· ≤ ·)
  dom : c.lo < c.hi

theorem Pre.mono {c : Curve K V} (h : c.Pre) :
    MonoUpTo (kf c.knots) (c.cps.length - 1 + c.degree + 1) :=
  mono_of_sorted h.sorted (by have := h.knots_len; have := h.deg_lt; omega)

theorem insertOne_knots {c : Curve K V} {i : ℕ} {x : K} (hi : i < c.knots.length) :
    kf (c.insertOne i x).knots = insKnot (kf c.knots) i x := kf_insert hi

theorem sorted_insert {ks : List K} {i : ℕ} {x : K} (hs : ks.Pairwise (· ≤ ·))
    (h1 : ∀ y ∈ ks.take i, y ≤ x) (h2 : ∀ y ∈ ks.drop i, x ≤ y) :
    (ks.take i ++ x :: ks.drop i).Pairwise (· ≤ ·) := by
  have := hs
  rw [← List.take_append_drop i ks, List.pairwise_append] at this
  rw [List.pairwise_append]
  refine ⟨this.1, List.pairwise_cons.2 ⟨h2, this.2.1⟩, ?_⟩
  intro a ha b hb
  rcases List.mem_cons.1 hb with rfl | hb
  · exact h1 a ha
  · exact this.2.2 a ha b hb

/-- The B-spline sum with an arbitrary convention `b` about which span is closed on the right:
    `evalB c.hi` is the denotation, `evalB u u` the limit from the left at `u`. -/
def evalB (c : Curve K V) (b u : K) : V :=
  (Finset.range c.cps.length).sum fun i => N (kf c.knots) b c.degree i u • c.cps.getD i 0

theorem eval_eq_evalB {c : Curve K V} (h : 0 < c.cps.length) (u : K) : c.eval u = c.evalB c.hi u := by
  rw [eval, curve, evalB, Nat.sub_add_cancel h]; rfl

/-- The control polygon of `c'` arises from that of `c` by cutting corners: in each step every new vertex lies on a leg of the
    polygon before, consecutive ones on consecutive legs, and the ends stay. Stated by the properties of control polygons that
    are kept by such steps. -/
def Cut (c c' : Curve K V) : Prop :=
  ∀ R : List V → Prop, (∀ (P : List V) (α : ℕ → K), (∀ t, 0 ≤ α t ∧ α t ≤ 1) → α 0 = 1 → α P.length = 0 → R P →
    R ((List.range (P.length + 1)).map fun t => α t • P.getD t 0 + (1 - α t) • P.getD (t - 1) 0)) → R c.cps → R c'.cps

/-- `c'` is a refinement of `c` by the knots `xs`. -/
structure Refines (c c' : Curve K V) (xs : List K) : Prop where
  pre : c'.Pre
  degree : c'.degree = c.degree
  lo : c'.lo = c.lo
  hi : c'.hi = c.hi
  knots : c'.knots.Perm (xs ++ c.knots)
  cps_len : c'.cps.length = c.cps.length + xs.length
  evalB : ∀ b u s, c.degree ≤ s → s < c.cps.length → InSpan (kf c.knots) b u s →
    (∃ s', c'.degree ≤ s' ∧ s' < c'.cps.length ∧ InSpan (kf c'.knots) b u s') ∧ c'.evalB b u = c.evalB b u
  cut : (∀ x ∈ xs, x < c.hi) → Cut c c'

theorem Refines.refl {c : Curve K V} (h : c.Pre) : Refines c c [] :=
  ⟨h, rfl, rfl, rfl, List.Perm.refl _, rfl, fun _ _ s hp hs hin => ⟨⟨s, hp, hs, hin⟩, rfl⟩, fun _ _ _ h => h⟩

theorem Refines.trans {c c' c'' : Curve K V} {xs ys : List K} (h : Refines c c' xs)
    (h' : Refines c' c'' ys) : Refines c c'' (xs ++ ys) where
  pre := h'.pre
  degree := h'.degree.trans h.degree
  lo := h'.lo.trans h.lo
  hi := h'.hi.trans h.hi
  knots := by
    refine h'.knots.trans ?_
    refine (h.knots.append_left ys).trans ?_
    rw [← List.append_assoc]
    exact (List.perm_append_comm).append_right _
  cps_len := by rw [h'.cps_len, h.cps_len, List.length_append]; omega
  evalB := by
    intro b u s hp hs hin
    obtain ⟨⟨s', hp', hs', hin'⟩, e⟩ := h.evalB b u s hp hs hin
    obtain ⟨h1, e'⟩ := h'.evalB b u s' hp' hs' hin'
    exact ⟨h1, e'.trans e⟩
  cut := fun hx R hR hc => h'.cut (fun x hm => by rw [h.hi]; exact hx x (List.mem_append_right _ hm)) R hR
    (h.cut (fun x hm => hx x (List.mem_append_left _ hm)) R hR hc)

/-- A refinement denotes the same curve. -/
theorem Refines.eval {c c' : Curve K V} {xs : List K} (hc : c.Pre) (h : Refines c c' xs) {u : K}
    (h1 : c.lo ≤ u) (h2 : u ≤ c.hi) : c'.eval u = c.eval u := by
  have hd := hc.deg_lt
  have hn : c.cps.length - 1 + 1 = c.cps.length := by omega
  obtain ⟨s, hps, hsn, hs⟩ := exists_inSpan (k := kf c.knots) (p := c.degree) (n := c.cps.length - 1)
    (u := u) (by omega) (by rw [hn]; exact hc.dom) h1 (by rw [hn]; exact h2)
  rw [hn] at hs
  rw [eval_eq_evalB (c := c) (by omega), eval_eq_evalB (c := c') (by rw [h.cps_len]; omega), h.hi]
  exact (h.evalB c.hi u s hps (by omega) hs).2

/-- One insertion at a proper place is a refinement. -/
theorem insertOne_refines [IsStrictOrderedRing K] {c : Curve K V} {i : ℕ} {x : K} (h : c.Pre) (hpi : c.degree ≤ i)
    (hin : i < c.cps.length) (h1 : ∀ y ∈ c.knots.take (i + 1), y ≤ x)
    (h2 : ∀ y ∈ c.knots.drop (i + 1), x ≤ y) : Refines c (c.insertOne i x) [x] := by
  have hl := h.knots_len
  have hd := h.deg_lt
  have hk := insertOne_knots (c := c) (i := i) (x := x) (by omega)
  have hcl : (c.insertOne i x).cps.length = c.cps.length + 1 := by simp [insertOne]
  have e1 : (c.insertOne i x).lo = c.lo := by
    show kf (c.insertOne i x).knots c.degree = _
    rw [hk, insKnot_le hpi]; rfl
  have e2 : (c.insertOne i x).hi = c.hi := by
    show kf (c.insertOne i x).knots (c.insertOne i x).cps.length = _
    rw [hk, hcl, insKnot_gt hin]; rfl
  have hv1 : kf c.knots i ≤ x := by
    apply h1
    rw [kf_eq (by omega)]
    exact List.mem_take_iff_getElem.2 ⟨i, by omega, rfl⟩
  have hv2 : x ≤ kf c.knots (i + 1) := by
    apply h2
    rw [kf_eq (by omega)]
    exact List.mem_drop_iff_getElem.2 ⟨0, by omega, by simp⟩
  refine ⟨⟨by rw [hcl]; show c.degree < _; omega, ?_, ?_, by rw [e1, e2]; exact h.dom⟩, rfl, e1, e2,
    ?_, by rw [hcl]; rfl, ?_, ?_⟩
  · rw [hcl]
    show (c.knots.take (i + 1) ++ x :: c.knots.drop (i + 1)).length = c.cps.length + 1 + c.degree + 1
    simp; omega
  · exact sorted_insert h.sorted h1 h2
  · show (c.knots.take (i + 1) ++ x :: c.knots.drop (i + 1)).Perm ([x] ++ c.knots)
    refine List.perm_middle.trans ?_
    rw [List.take_append_drop]; rfl
  · intro b u s hps hs hsp
    refine ⟨?_, ?_⟩
    · obtain ⟨s', hss, hs'⟩ := inSpan_insKnot (i := i) (x := x) hsp
      exact ⟨s', by show c.degree ≤ s'; omega, by rw [hcl]; omega, by rw [hk]; exact hs'⟩
    · have := sumN_insert (P := fun t => c.cps.getD t 0) (u := u) (b := b) h.mono hpi (by omega) hv1 hv2
        (s := s) (by omega) hsp
      rw [show c.cps.length - 1 + 2 = c.cps.length + 1 by omega,
        show c.cps.length - 1 + 1 = c.cps.length by omega] at this
      rw [Curve.evalB, Curve.evalB, ← this, hk, hcl]
      apply Finset.sum_congr rfl
      intro t ht
      have ht := Finset.mem_range.1 ht
      congr 1
      show ((List.range (c.cps.length + 1)).map _).getD t 0 = _
      rw [getD_map_range (by omega)]
  · intro _ R hR hc
    refine hR c.cps (insAlpha (kf c.knots) c.degree i x)
      (fun t => insAlpha_mem (n := c.cps.length - 1) h.mono (by omega) hv1 hv2) ?_ ?_ hc
    · rw [insAlpha, if_pos (by omega)]
    · rw [insAlpha, if_neg (by omega), if_pos hin]

/-- The control points of `c'` are convex combinations of those of `c`, stated by the properties that are
    closed under convex combinations. -/
def Hull (c c' : Curve K V) : Prop :=
  ∀ Q : V → Prop, (∀ (p q : V) (t : K), 0 ≤ t → t ≤ 1 → Q p → Q q → Q (t • p + (1 - t) • q)) →
    (∀ p ∈ c.cps, Q p) → ∀ p ∈ c'.cps, Q p

theorem Hull.refl (c : Curve K V) : Hull c c := fun _ _ h => h

theorem Hull.trans {c c' c'' : Curve K V} (h : Hull c c') (h' : Hull c' c'') : Hull c c'' :=
  fun Q hQ hc => h' Q hQ (h Q hQ hc)

theorem insertOne_hull [IsStrictOrderedRing K] {c : Curve K V} {i : ℕ} {x : K} (h : c.Pre) (hpi : c.degree ≤ i)
    (hin : i < c.cps.length) (h1 : ∀ y ∈ c.knots.take (i + 1), y ≤ x)
    (h2 : ∀ y ∈ c.knots.drop (i + 1), x ≤ y) : Hull c (c.insertOne i x) := by
  have hl := h.knots_len
  have hd := h.deg_lt
  have hv1 : kf c.knots i ≤ x := by
    apply h1
    rw [kf_eq (by omega)]
    exact List.mem_take_iff_getElem.2 ⟨i, by omega, rfl⟩
  have hv2 : x ≤ kf c.knots (i + 1) := by
    apply h2
    rw [kf_eq (by omega)]
    exact List.mem_drop_iff_getElem.2 ⟨0, by omega, by simp⟩
  intro Q hQ hc p hp
  have hcd : ∀ t, t < c.cps.length → Q (c.cps.getD t 0) := by
    intro t ht
    apply hc
    rw [List.getD_eq_getElem?_getD, List.getElem?_eq_getElem ht]
    exact List.getElem_mem _
  obtain ⟨t, ht, rfl⟩ := List.mem_map.1 hp
  have ht := List.mem_range.1 ht
  by_cases c1 : t + c.degree ≤ i
  · rw [insCps_le c1]; exact hcd t (by omega)
  · by_cases c2 : i < t
    · rw [insCps_gt c2]; exact hcd (t - 1) (by omega)
    · have m1 : kf c.knots t ≤ x := le_trans (h.mono t i (by omega) (by omega)) hv1
      have m2 : x ≤ kf c.knots (t + c.degree) := le_trans hv2 (h.mono _ _ (by omega) (by omega))
      have ha : insAlpha (kf c.knots) c.degree i x t =
          1 - (kf c.knots (t + c.degree) - x) / (kf c.knots (t + c.degree) - kf c.knots t) := by
        rw [insAlpha, if_neg c1, if_neg c2]
      have hf0 : 0 ≤ (kf c.knots (t + c.degree) - x) / (kf c.knots (t + c.degree) - kf c.knots t) :=
        div_nonneg (sub_nonneg.2 m2) (sub_nonneg.2 (le_trans m1 m2))
      have hf1 : (kf c.knots (t + c.degree) - x) / (kf c.knots (t + c.degree) - kf c.knots t) ≤ 1 :=
        div_le_one_of_le₀ (sub_le_sub_left m1 _) (sub_nonneg.2 (le_trans m1 m2))
      rw [insCps]
      apply hQ
      · rw [ha]; exact sub_nonneg.2 hf1
      · rw [ha]; exact sub_le_self _ hf0
      · exact hcd t (by omega)
      · exact hcd (t - 1) (by omega)

end Curvo.Curve

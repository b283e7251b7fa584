/-
  Property theorems about knot refinement, splitting and trimming: C19, C21, C22.
-/
import Verif.Lemmas.Refine2
import Verif.Props.Curve2

set_option linter.unusedSectionVars false

namespace Curvo.Props

open Curvo Curvo.Knots Curvo.Spec Curvo.Curve

variable {K : Type} [Field K] [LinearOrder K] [IsStrictOrderedRing K]
variable {V : Type} [AddCommGroup V] [Module K V]

/-! ### C19 -/

/-- Refining with a sorted list of domain parameters (each equal to or at least `eps` away from every
    knot and every other inserted parameter): no index is out of range, the knots are the sorted
    merge, one control point is added per knot, and the curve denotes the same function. -/
theorem C19_refine_keeps_curve {eps : K} {c : Curve K V} {xs : List K} (h : c.Good eps)
    (hsort : xs.Pairwise (· ≤ ·)) (hdom : ∀ x ∈ xs, c.lo ≤ x ∧ x ≤ c.hi)
    (hsep : ∀ x ∈ xs, ∀ y ∈ xs ++ c.knots, |y - x| < eps → y = x) :
    ∃ c', c.tryRefineKnot eps xs = .ok c' ∧ c'.degree = c.degree ∧
      c'.knots.Pairwise (· ≤ ·) ∧ c'.knots.Perm (xs ++ c.knots) ∧
      c'.cps.length = c.cps.length + xs.length ∧ c'.knots.length = c'.cps.length + c'.degree + 1 ∧
      c'.lo = c.lo ∧ c'.hi = c.hi ∧ ∀ u, c.lo ≤ u → u ≤ c.hi → c'.eval u = c.eval u := by
  obtain ⟨c', h1, h2⟩ := tryRefineKnot_refines h hsort hdom hsep
  exact ⟨c', h1, h2.degree, h2.pre.sorted, h2.knots, h2.cps_len, h2.pre.knots_len, h2.lo, h2.hi,
    fun u => h2.eval h.pre⟩

/-- If moreover the new knots lie strictly inside the domain, the refined curve can be evaluated on the
    whole domain and gives the same points. -/
theorem C19_refine_same_points {eps : K} {c : Curve K V} {xs : List K} (h : c.Good eps)
    (hsort : xs.Pairwise (· ≤ ·)) (hdom : ∀ x ∈ xs, c.lo < x ∧ x < c.hi)
    (hsep : ∀ x ∈ xs, ∀ y ∈ xs ++ c.knots, |y - x| < eps → y = x) :
    ∃ c', c.tryRefineKnot eps xs = .ok c' ∧ c'.Good eps ∧
      ∀ u, c.lo ≤ u → u ≤ c.hi → c'.point eps u = c.point eps u := by
  obtain ⟨c', h1, h2⟩ := tryRefineKnot_refines h hsort
    (fun x hx => ⟨(hdom x hx).1.le, (hdom x hx).2.le⟩) hsep
  have hg := h2.good h hdom (fun x hx y hy => hsep x hx y (List.mem_append_right _ hy))
  refine ⟨c', h1, hg, ?_⟩
  intro u hu1 hu2
  rw [point_eq_eval hg (by rw [h2.lo]; exact hu1) (by rw [h2.hi]; exact hu2), point_eq_eval h hu1 hu2,
    h2.eval h.pre hu1 hu2]

/-- Refining at the end of the domain makes evaluation at that end divide by zero (positive degree):
    the "same points" claim does not extend to the ends of the domain. -/
theorem C19_end_knot_breaks_evaluation {eps : K} {c : Curve K V} (h : c.Good eps) (heps : 0 < eps)
    (hp : 1 ≤ c.degree) (hsep : ∀ y ∈ c.knots, |y - c.hi| < eps → y = c.hi) :
    ∃ c', c.tryRefineKnot eps [c.hi] = .ok c' ∧ c'.point eps c.hi = .error .nonfinite := by
  obtain ⟨c', h1, h2⟩ := tryRefineKnot_refines h (xs := [c.hi]) (by simp)
    (by intro x hx; rw [List.mem_singleton.1 hx]; exact ⟨h.pre.dom.le, le_refl _⟩)
    (by
      intro x hx y hy
      rw [List.mem_singleton.1 hx]
      rcases List.mem_append.1 hy with hy | hy
      · intro _; exact List.mem_singleton.1 hy
      · exact hsep y hy)
  refine ⟨c', h1, ?_⟩
  have hl := h2.pre.knots_len
  have hd := h2.pre.deg_lt
  have hn : c'.lastIndex = .ok (c'.cps.length - 1) := by
    rw [lastIndex, subR_eq_ok (by omega), ok_bind, subR_eq_ok (by omega)]
    congr 1; omega
  have hhi : kf c'.knots c'.cps.length = c.hi := h2.hi
  have hprev : kf c'.knots (c'.cps.length - 1) = c.hi := by
    apply le_antisymm
    · rw [← hhi]; exact h2.pre.mono _ _ (by omega) (by omega)
    · -- the number of knots below `hi` did not change
      have hP : ∀ a b : K, a ≤ b → decide (b < c.hi) = true → decide (a < c.hi) = true := by
        intro a b hab hb; simp only [decide_eq_true_eq] at hb ⊢; exact lt_of_le_of_lt hab hb
      have e1 := (sorted_countP (P := fun y => decide (y < c.hi)) hP h.pre.sorted
        (t := c.cps.length) (by have := h.knots_len; omega)).not
      have e2 := (sorted_countP (P := fun y => decide (y < c.hi)) hP h2.pre.sorted
        (t := c'.cps.length - 1) (by omega)).not
      rw [← kf_eq] at e1 e2
      simp only [decide_eq_true_eq, not_lt] at e1 e2
      rw [e2, h2.knots.countP_eq, List.countP_append]
      have := e1.1 (le_refl _)
      have := h2.cps_len
      simp at this ⊢
      omega
  have hspan : findKnotSpanIndex eps c'.knots (c'.cps.length - 1) c'.degree c.hi =
      .ok (c'.cps.length - 1) := by
    rw [findKnotSpanIndex, show c'.cps.length - 1 + 1 = c'.cps.length by omega, getR_kf (by omega), ok_bind,
      hhi, if_pos (sub_lt_self _ heps)]
    rfl
  rw [point, hn, ok_bind, hspan, ok_bind, C02_degenerate_span_nonfinite (by omega)
    (by rw [hprev, show c'.cps.length - 1 + 1 = c'.cps.length by omega, hhi]) _ (by rw [h2.degree]; exact hp)
    (by omega) (by omega)]
  rfl

example : ∃ c', exCurve.tryRefineKnot (1/1000) [1/2, 1, 5/2, 5/2] = .ok c' ∧ c'.Good (1/1000) ∧
    ∀ u, exCurve.lo ≤ u → u ≤ exCurve.hi → c'.point (1/1000) u = exCurve.point (1/1000) u :=
  C19_refine_same_points exCurve_good (by decide +kernel)
    (by rw [exCurve_lo, exCurve_hi]; decide +kernel) (by decide +kernel)

example : ∃ c', exCurve.tryRefineKnot (1/1000) [exCurve.hi] = .ok c' ∧
    c'.point (1/1000) exCurve.hi = .error .nonfinite :=
  C19_end_knot_breaks_evaluation exCurve_good (by norm_num) (by decide)
    (by rw [exCurve_hi]; decide +kernel)

/-! ### C21 -/

/-- The clamp used by split is the identity on the domain. -/
theorem clamp_domain {eps : K} {c : Curve K V} (h : c.Good eps) {u : K} (h1 : c.lo ≤ u) (h2 : u ≤ c.hi) :
    Knots.clamp c.knots c.degree u = .ok u := by
  have := knotsDomain_eq h
  rw [knotsDomain] at this
  rw [Knots.clamp, this, ok_bind]
  show Except.ok (if u < c.lo then c.lo else if c.hi < u then c.hi else u) = _
  rw [if_neg (not_lt.2 h1), if_neg (not_lt.2 h2)]

theorem clamp_left {eps : K} {c : Curve K V} (h : c.Good eps) {u : K} (h1 : u < c.lo) :
    Knots.clamp c.knots c.degree u = .ok c.lo := by
  have := knotsDomain_eq h
  rw [knotsDomain] at this
  rw [Knots.clamp, this, ok_bind]
  show Except.ok (if u < c.lo then c.lo else if c.hi < u then c.hi else u) = _
  rw [if_pos h1]

theorem clamp_right {eps : K} {c : Curve K V} (h : c.Good eps) {u : K} (h1 : c.hi < u) :
    Knots.clamp c.knots c.degree u = .ok c.hi := by
  have := knotsDomain_eq h
  rw [knotsDomain] at this
  rw [Knots.clamp, this, ok_bind]
  show Except.ok (if u < c.lo then c.lo else if c.hi < u then c.hi else u) = _
  rw [if_neg (not_lt.2 (le_trans h.pre.dom.le h1.le)), if_pos h1]

/-- What splitting at a parameter `u` of the domain returns. -/
structure SplitAt (c : Curve K V) (u : K) (s : ℕ) (c' l r : Curve K V) : Prop where
  refines : Refines c c' (List.replicate (c.degree + 1) u)
  knots : c'.knots = c.knots.take (s + 1) ++ (List.replicate (c.degree + 1) u ++ c.knots.drop (s + 1))
  ps : c.degree ≤ s
  sn : s < c.cps.length
  inSpan : InSpan (kf c.knots) c.hi u s
  lk : l.knots = c.knots.take (s + 1) ++ List.replicate (c.degree + 1) u
  rk : r.knots = List.replicate (c.degree + 1) u ++ c.knots.drop (s + 1)
  lsub : Sub c' l 0
  rsub : Sub c' r (s + 1)
  ll : l.cps.length = s + 1
  rl : r.cps.length = c.cps.length + c.degree - s
  ld : l.degree = c.degree
  rd : r.degree = c.degree
  lhull : Hull c l
  rhull : Hull c r

theorem mergeSort_of_sorted {l : List K} (h : l.Pairwise (· ≤ ·)) :
    l.mergeSort (fun a b => decide (a ≤ b)) = l := by
  apply List.mergeSort_of_pairwise
  exact h.imp (fun h => by simpa using h)

theorem sub_pieces {c' : Curve K V} {s p : ℕ} (hp : c'.degree = p)
    (hl : c'.knots.length = c'.cps.length + c'.degree + 1) (hs : s + p + 1 ≤ c'.cps.length) :
    Sub c' { degree := p, cps := c'.cps.take (s + 1), knots := c'.knots.take (s + p + 2) } 0 ∧
    Sub c' { degree := p, cps := c'.cps.drop (s + 1), knots := c'.knots.drop (s + 1) } (s + 1) := by
  constructor
  · refine ⟨hp.symm, ?_, ?_, by simp⟩
    · intro j hj
      simp only [List.length_take] at hj
      unfold kf
      rw [getD_take (by omega)]; rfl
    · intro j hj
      simp only [List.length_take] at hj
      show (List.take _ _).getD j 0 = _
      rw [getD_take (by omega)]; rfl
  · refine ⟨hp.symm, ?_, ?_, by simp; omega⟩
    · intro j hj
      unfold kf
      show (List.drop _ _).getD j 0 = _
      rw [getD_drop, Nat.add_comm]
    · intro j hj
      show (List.drop _ _).getD j 0 = _
      rw [getD_drop, Nat.add_comm]

/-- Splitting succeeds for every parameter of the domain that is a knot or at least `eps` away from
    all knots; the pieces are the two halves of the curve refined by `degree + 1` copies of `u`. -/
theorem split_pieces {eps : K} {c : Curve K V} (h : c.Good eps) {u : K} (h1 : c.lo ≤ u) (h2 : u ≤ c.hi)
    (hsep : ∀ y ∈ c.knots, |y - u| < eps → y = u) :
    ∃ s c' l r, c.trySplit eps u = .ok (l, r) ∧ SplitAt c u s c' l r := by
  obtain ⟨c', hc', hr, hH⟩ := tryRefineKnot_refines_hull h (xs := List.replicate (c.degree + 1) u)
    (by rw [List.pairwise_replicate]; right; exact le_refl _)
    (by intro x hx; rw [List.eq_of_mem_replicate hx]; exact ⟨h1, h2⟩)
    (by
      intro x hx y hy
      rw [List.eq_of_mem_replicate hx]
      rcases List.mem_append.1 hy with hy | hy
      · intro _; exact List.eq_of_mem_replicate hy
      · exact hsep y hy)
  obtain ⟨s, hs, hps, hsn, hin⟩ := h.exists_span h1 h2
  have hl := h.knots_len
  have hpos := h.cps_pos
  have hl' := hr.pre.knots_len
  have hcl := hr.cps_len
  have hdeg := hr.degree
  rw [List.length_replicate] at hcl
  have hspan := inSpan_le hin
  have hsplit : c'.knots = c.knots.take (s + 1) ++ (List.replicate (c.degree + 1) u ++ c.knots.drop (s + 1)) := by
    apply sorted_ext hr.pre.sorted
    · rw [List.pairwise_append, List.pairwise_append]
      refine ⟨h.pre.sorted.sublist (List.take_sublist _ _), ⟨?_, h.pre.sorted.sublist (List.drop_sublist _ _), ?_⟩, ?_⟩
      · rw [List.pairwise_replicate]; right; exact le_refl _
      · intro a ha b hb
        rw [List.eq_of_mem_replicate ha]
        obtain ⟨j, hj, rfl⟩ := List.mem_drop_iff_getElem.1 hb
        rw [← kf_eq]
        exact le_trans hspan.2 (h.good.mono _ _ (by omega) (by omega))
      · intro a ha b hb
        obtain ⟨j, hj, rfl⟩ := List.mem_take_iff_getElem.1 ha
        rw [← kf_eq]
        refine le_trans (h.good.mono j s (by omega) (by omega)) ?_
        rcases List.mem_append.1 hb with hb | hb
        · rw [List.eq_of_mem_replicate hb]; exact hspan.1
        · obtain ⟨j', hj', rfl⟩ := List.mem_drop_iff_getElem.1 hb
          rw [← kf_eq]
          exact h.good.mono _ _ (by omega) (by omega)
    · refine hr.knots.trans ?_
      refine List.Perm.trans ?_ (List.perm_append_comm_assoc _ _ _)
      rw [List.take_append_drop]
  have hlt : (c.knots.take (s + 1)).length = s + 1 := by simp; omega
  have e0 : c'.knots.take (s + c.degree + 2) = c.knots.take (s + 1) ++ List.replicate (c.degree + 1) u := by
    rw [hsplit, ← List.append_assoc]
    exact List.take_left' (by simp; omega)
  have e1 : c'.knots.drop (s + 1) = List.replicate (c.degree + 1) u ++ c.knots.drop (s + 1) := by
    rw [hsplit]
    exact List.drop_left' hlt
  obtain ⟨sub0, sub1⟩ := sub_pieces (s := s) hdeg hl' (by omega)
  refine ⟨s, c', _, _, ?_, ⟨hr, hsplit, hps, by omega, hin, ?_, ?_, sub0, sub1, ?_, ?_, rfl, rfl,
    fun Q hQ hc p hp => hH Q hQ hc p (List.mem_of_mem_take hp),
    fun Q hQ hc p hp => hH Q hQ hc p (List.mem_of_mem_drop hp)⟩⟩
  · have s0 : (c'.knots.take (s + c.degree + 2)).Pairwise (· ≤ ·) :=
      hr.pre.sorted.sublist (List.take_sublist _ _)
    have s1 : (c'.knots.drop (s + 1)).Pairwise (· ≤ ·) :=
      hr.pre.sorted.sublist (List.drop_sublist _ _)
    rw [trySplit, clamp_domain h h1 h2, ok_bind, hc', ok_bind, h.lastIndex, ok_bind, hs, ok_bind,
      sliceR_eq_ok (by omega) (by omega), ok_bind, sliceR_eq_ok (by omega) (by omega), ok_bind,
      sliceR_eq_ok (by omega) (by omega), ok_bind, sliceR_eq_ok (by omega) (by omega), ok_bind,
      List.drop_zero, List.drop_zero, List.take_length, List.take_length,
      tryNew, if_neg (by simp; omega), if_neg (by simp; omega), mergeSort_of_sorted s0, pure_eq_ok, ok_bind,
      tryNew, if_neg (by simp; omega), if_neg (by simp; omega), mergeSort_of_sorted s1, pure_eq_ok, ok_bind]
    rfl
  · exact e0
  · exact e1
  · simp; omega
  · simp; omega

section SplitAt
variable {c c' l r : Curve K V} {u eps : K} {s : ℕ}

theorem SplitAt.lkf (h : SplitAt c u s c' l r) (hc : c.Good eps) (j : ℕ) (hj : j ≤ s) :
    kf l.knots j = kf c.knots j := by
  have := hc.knots_len; have := h.sn
  rw [h.lk]; unfold kf
  rw [getD_append_left (by simp; omega), getD_take (by omega)]

theorem SplitAt.lku (h : SplitAt c u s c' l r) (hc : c.Good eps) (j : ℕ) (hj : s < j)
    (hj' : j ≤ s + c.degree + 1) : kf l.knots j = u := by
  have := hc.knots_len; have := h.sn
  have hlt : (c.knots.take (s + 1)).length = s + 1 := by simp; omega
  rw [h.lk]; unfold kf
  rw [getD_append_right (by omega), hlt, List.getD_eq_getElem?_getD, List.getElem?_replicate,
    if_pos (by omega)]
  rfl

theorem SplitAt.rku (h : SplitAt c u s c' l r) (j : ℕ) (hj : j ≤ c.degree) : kf r.knots j = u := by
  rw [h.rk]; unfold kf
  rw [getD_append_left (by simp; omega), List.getD_eq_getElem?_getD, List.getElem?_replicate,
    if_pos (by omega)]
  rfl

theorem SplitAt.rkf (h : SplitAt c u s c' l r) (e : ℕ) :
    kf r.knots (c.degree + 1 + e) = kf c.knots (s + 1 + e) := by
  rw [h.rk]; unfold kf
  rw [getD_append_right (by simp), getD_drop]
  congr 1; simp

theorem SplitAt.lsorted (h : SplitAt c u s c' l r) : l.knots.Pairwise (· ≤ ·) := by
  refine h.refines.pre.sorted.sublist ?_
  rw [h.knots, h.lk, ← List.append_assoc]
  exact List.sublist_append_left _ _

theorem SplitAt.rsorted (h : SplitAt c u s c' l r) : r.knots.Pairwise (· ≤ ·) := by
  refine h.refines.pre.sorted.sublist ?_
  rw [h.knots, h.rk]
  exact List.sublist_append_right _ _

theorem SplitAt.l_len (h : SplitAt c u s c' l r) (hc : c.Good eps) :
    l.knots.length = l.cps.length + l.degree + 1 := by
  have := hc.knots_len; have := h.sn
  rw [h.lk, h.ll, h.ld]; simp; omega

theorem SplitAt.r_len (h : SplitAt c u s c' l r) (hc : c.Good eps) :
    r.knots.length = r.cps.length + r.degree + 1 := by
  have := hc.knots_len; have := h.sn
  rw [h.rk, h.rl, h.rd]; simp; omega

theorem SplitAt.llo (h : SplitAt c u s c' l r) (hc : c.Good eps) : l.lo = c.lo := by
  show kf l.knots l.degree = _
  rw [h.ld, h.lkf hc _ h.ps]; rfl

theorem SplitAt.lhi (h : SplitAt c u s c' l r) (hc : c.Good eps) : l.hi = u := by
  show kf l.knots l.cps.length = _
  rw [h.ll, h.lku hc _ (by omega) (by omega)]

theorem SplitAt.rlo (h : SplitAt c u s c' l r) : r.lo = u := by
  show kf r.knots r.degree = _
  rw [h.rd, h.rku _ (le_refl _)]

theorem SplitAt.rhi (h : SplitAt c u s c' l r) : r.hi = c.hi := by
  have := h.sn
  show kf r.knots r.cps.length = kf c.knots c.cps.length
  rw [h.rl, show c.cps.length + c.degree - s = c.degree + 1 + (c.cps.length - s - 1) by omega, h.rkf]
  congr 1; omega

theorem SplitAt.rgood (h : SplitAt c u s c' l r) (hc : c.Good eps) (hu : u < c.hi)
    (hsep : ∀ y ∈ c.knots, |y - u| < eps → y = u) : r.Good eps := by
  have hsn := h.sn
  have hl := hc.knots_len
  have hrl := h.r_len hc
  have hin := h.inSpan
  rw [InSpan, if_neg hu.ne] at hin
  have gap : u + eps ≤ kf c.knots (s + 1) := by
    by_contra hlt
    have hlt := lt_of_not_ge hlt
    refine absurd (hsep (kf c.knots (s + 1)) ?_ ?_) hin.2.ne'
    · rw [kf_eq (by omega)]; exact List.getElem_mem _
    · rw [abs_of_pos (sub_pos.2 hin.2)]; exact sub_lt_iff_lt_add'.2 hlt
  have f1 : kf r.knots r.degree = u := h.rlo
  have f2 : kf r.knots (r.degree + 1) = kf c.knots (s + 1) := by rw [h.rd]; exact h.rkf 0
  have hlen : r.cps.length - 1 + 1 = r.cps.length := by rw [h.rl]; omega
  have f3 : kf r.knots (r.cps.length - 1 + 1) = c.hi := by rw [hlen]; exact h.rhi
  have f4 : s + 1 = c.cps.length ∧ kf r.knots (r.cps.length - 1) = u ∨
      kf r.knots (r.cps.length - 1) = kf c.knots (c.cps.length - 1) := by
    rcases Nat.lt_or_eq_of_le (show s + 1 ≤ c.cps.length by omega) with hlt | heq
    · right
      rw [h.rl, show c.cps.length + c.degree - s - 1 = c.degree + 1 + (c.cps.length - s - 2) by omega, h.rkf]
      congr 1; omega
    · left
      refine ⟨heq, ?_⟩
      rw [h.rl, show c.cps.length + c.degree - s - 1 = c.degree by omega, h.rku _ (le_refl _)]
  have hlast := hc.good.last
  have hlastg := hc.good.last_gap
  rw [hi_eq hc] at hlast hlastg
  refine ⟨by rw [h.rl]; omega, hrl, hc.good.eps_nonneg, by rw [h.rl, h.rd]; omega,
    mono_of_sorted h.rsorted (by rw [hrl, h.rl]; omega), ?_, ?_, ?_, ?_⟩
  · rw [f1, f2]; exact hin.2
  · rw [f3]
    rcases f4 with ⟨_, e⟩ | e
    · rw [e]; exact hu
    · rw [e]; exact hlast
  · rw [f1, f2]; exact gap
  · rw [f3]
    rcases f4 with ⟨e', e⟩ | e
    · rw [e]; rw [e'] at gap; exact gap
    · rw [e]; exact hlastg

theorem SplitAt.lgood (h : SplitAt c u s c' l r) (hc : c.Good eps) (hu : kf c.knots s < u)
    (hsep : ∀ y ∈ c.knots, |y - u| < eps → y = u) : l.Good eps := by
  have hsn := h.sn
  have hps := h.ps
  have hl := hc.knots_len
  have hll := h.l_len hc
  have gap : kf c.knots s + eps ≤ u := by
    by_contra hlt
    have hlt := lt_of_not_ge hlt
    refine absurd (hsep (kf c.knots s) ?_ ?_) hu.ne
    · rw [kf_eq (by omega)]; exact List.getElem_mem _
    · rw [abs_sub_comm, abs_of_pos (sub_pos.2 hu)]; exact sub_lt_iff_lt_add'.2 hlt
  have f1 : kf l.knots l.degree = kf c.knots c.degree := by rw [h.ld, h.lkf hc _ h.ps]
  have hlen : l.cps.length - 1 + 1 = l.cps.length := by rw [h.ll]; omega
  have f3 : kf l.knots (l.cps.length - 1 + 1) = u := by rw [hlen]; exact h.lhi hc
  have f4 : kf l.knots (l.cps.length - 1) = kf c.knots s := by
    rw [h.ll, Nat.add_sub_cancel, h.lkf hc _ (le_refl _)]
  have f2 : s = c.degree ∧ kf l.knots (l.degree + 1) = u ∨
      kf l.knots (l.degree + 1) = kf c.knots (c.degree + 1) := by
    rcases Nat.lt_or_eq_of_le hps with hlt | heq
    · right; rw [h.ld, h.lkf hc _ (by omega)]
    · left; refine ⟨heq.symm, ?_⟩; rw [h.ld, h.lku hc _ (by omega) (by omega)]
  refine ⟨by rw [h.ll]; omega, hll, hc.good.eps_nonneg, by rw [h.ll, h.ld]; omega,
    mono_of_sorted h.lsorted (by rw [hll, h.ll]; omega), ?_, ?_, ?_, ?_⟩
  · rw [f1]
    rcases f2 with ⟨e', e⟩ | e
    · rw [e, ← e']; exact hu
    · rw [e]; exact hc.good.first
  · rw [f3, f4]; exact hu
  · rw [f1]
    rcases f2 with ⟨e', e⟩ | e
    · rw [e, ← e']; exact gap
    · rw [e]; exact hc.good.first_gap
  · rw [f3, f4]; exact gap

/-- The right piece denotes the curve. -/
theorem SplitAt.reval (h : SplitAt c u s c' l r) (hc : c.Good eps) {t : ℕ} {x : K} (hx1 : c.lo ≤ x)
    (hx2 : x ≤ c.hi) (hp : r.degree ≤ t) (ht : t < r.cps.length) (hin : InSpan (kf r.knots) c.hi x t) :
    r.evalB c.hi x = c.eval x := by
  rw [(h.rsub.evalB h.refines.pre.mono hp ht hin).2]
  obtain ⟨s0, hp0, hs0, hin0⟩ := hc.pre.exists_span hx1 hx2
  rw [(h.refines.evalB _ _ s0 hp0 hs0 hin0).2, eval_eq_evalB hc.cps_pos]

/-- The left piece denotes the curve, except possibly at its end. -/
theorem SplitAt.leval (h : SplitAt c u s c' l r) (hc : c.Good eps) {t : ℕ} {x : K} (hx1 : c.lo ≤ x)
    (hx2 : x ≤ u) (hend : x = u → kf c.knots s < u) (hp : l.degree ≤ t) (ht : t < l.cps.length)
    (hin : InSpan (kf l.knots) u x t) : l.evalB u x = c.eval x := by
  have hu : u ≤ c.hi := le_trans (inSpan_le h.inSpan).2 (by
    have := h.sn
    exact hc.good.mono _ _ (by omega) (by omega))
  rw [(h.lsub.evalB h.refines.pre.mono hp ht hin).2]
  obtain ⟨s0, hp0, hs0, hin1, hin2⟩ : ∃ s0, c.degree ≤ s0 ∧ s0 < c.cps.length ∧ InSpan (kf c.knots) u x s0 ∧
      InSpan (kf c.knots) c.hi x s0 := by
    rcases lt_or_eq_of_le hx2 with hlt | heq
    · obtain ⟨s0, hp0, hs0, hin0⟩ := hc.pre.exists_span hx1 (le_trans hx2 hu)
      refine ⟨s0, hp0, hs0, inSpan_congr ?_ hin0, hin0⟩
      constructor
      · intro e; exact absurd e (lt_of_lt_of_le hlt hu).ne
      · intro e; exact absurd e hlt.ne
    · subst heq
      refine ⟨s, h.ps, h.sn, ?_, h.inSpan⟩
      rw [InSpan, if_pos rfl]
      exact ⟨hend rfl, (inSpan_le h.inSpan).2⟩
  rw [(h.refines.evalB _ _ s0 hp0 hs0 hin1).2, eval_eq_evalB hc.cps_pos,
    evalB_congr hc.pre.mono hs0 hin1 hin2]

end SplitAt

/-- Splitting succeeds on every parameter of the domain; both pieces have sorted knots and matching
    sizes; their domains are `[lo, u]` and `[u, hi]`. -/
theorem C21_split_domains {eps : K} {c : Curve K V} (h : c.Good eps) {u : K} (h1 : c.lo ≤ u)
    (h2 : u ≤ c.hi) (hsep : ∀ y ∈ c.knots, |y - u| < eps → y = u) :
    ∃ l r, c.trySplit eps u = .ok (l, r) ∧ l.degree = c.degree ∧ r.degree = c.degree ∧
      l.knots.Pairwise (· ≤ ·) ∧ r.knots.Pairwise (· ≤ ·) ∧
      l.knots.length = l.cps.length + l.degree + 1 ∧ r.knots.length = r.cps.length + r.degree + 1 ∧
      l.lo = c.lo ∧ l.hi = u ∧ r.lo = u ∧ r.hi = c.hi := by
  obtain ⟨s, c', l, r, e, hs⟩ := split_pieces h h1 h2 hsep
  exact ⟨l, r, e, hs.ld, hs.rd, hs.lsorted, hs.rsorted, hs.l_len h, hs.r_len h, hs.llo h, hs.lhi h,
    hs.rlo, hs.rhi⟩

/-- Parameters outside of the domain are moved to its ends first. -/
theorem C21_split_clamps {eps : K} {c : Curve K V} (h : c.Good eps) (u : K) :
    (u < c.lo → c.trySplit eps u = c.trySplit eps c.lo) ∧
    (c.hi < u → c.trySplit eps u = c.trySplit eps c.hi) := by
  constructor
  · intro hu
    unfold trySplit
    rw [clamp_left h hu, clamp_domain h (le_refl _) h.pre.dom.le]
  · intro hu
    unfold trySplit
    rw [clamp_right h hu, clamp_domain h h.pre.dom.le (le_refl _)]

/-- The right piece can be evaluated on all of `[u, hi]` and agrees with the curve. -/
theorem C21_right_piece {eps : K} {c : Curve K V} (h : c.Good eps) {u : K} (h1 : c.lo ≤ u)
    (h2 : u < c.hi) (hsep : ∀ y ∈ c.knots, |y - u| < eps → y = u) :
    ∃ l r, c.trySplit eps u = .ok (l, r) ∧ r.Good eps ∧ r.lo = u ∧ r.hi = c.hi ∧
      ∀ x, u ≤ x → x ≤ c.hi → r.point eps x = c.point eps x := by
  obtain ⟨s, c', l, r, e, hs⟩ := split_pieces h h1 h2.le hsep
  have hg := hs.rgood h h2 hsep
  refine ⟨l, r, e, hg, hs.rlo, hs.rhi, ?_⟩
  intro x hx1 hx2
  rw [point_eq_eval hg (by rw [hs.rlo]; exact hx1) (by rw [hs.rhi]; exact hx2),
    point_eq_eval h (le_trans h1 hx1) hx2, eval_eq_evalB hg.cps_pos, hs.rhi]
  obtain ⟨t, hpt, ht, hin⟩ := hg.pre.exists_span (u := x) (by rw [hs.rlo]; exact hx1) (by rw [hs.rhi]; exact hx2)
  rw [hs.rhi] at hin
  rw [hs.reval h (le_trans h1 hx1) hx2 hpt ht hin]

/-- If `u` is not an existing interior knot, the left piece can be evaluated on all of `[lo, u]`,
    including the split point, and agrees with the curve. -/
theorem C21_left_piece {eps : K} {c : Curve K V} (h : c.Good eps) {u : K} (h1 : c.lo ≤ u)
    (h2 : u ≤ c.hi) (hsep : ∀ y ∈ c.knots, |y - u| < eps → y = u) (hnew : u ∈ c.knots → u = c.hi) :
    ∃ l r, c.trySplit eps u = .ok (l, r) ∧ l.Good eps ∧ l.lo = c.lo ∧ l.hi = u ∧
      ∀ x, c.lo ≤ x → x ≤ u → l.point eps x = c.point eps x := by
  obtain ⟨s, c', l, r, e, hs⟩ := split_pieces h h1 h2 hsep
  have hks : kf c.knots s < u := by
    have hin := hs.inSpan
    by_cases hu : u = c.hi
    · rw [InSpan, if_pos hu] at hin; exact hin.1
    · rw [InSpan, if_neg hu] at hin
      refine lt_of_le_of_ne hin.1 (fun he => hu (hnew ?_))
      have := hs.sn; have := h.knots_len
      rw [← he, kf_eq (by omega)]; exact List.getElem_mem _
  have hg := hs.lgood h hks hsep
  refine ⟨l, r, e, hg, hs.llo h, hs.lhi h, ?_⟩
  intro x hx1 hx2
  rw [point_eq_eval hg (by rw [hs.llo h]; exact hx1) (by rw [hs.lhi h]; exact hx2),
    point_eq_eval h hx1 (le_trans hx2 h2), eval_eq_evalB hg.cps_pos, hs.lhi h]
  obtain ⟨t, hpt, ht, hin⟩ := hg.pre.exists_span (u := x) (by rw [hs.llo h]; exact hx1) (by rw [hs.lhi h]; exact hx2)
  rw [hs.lhi h] at hin
  rw [hs.leval h hx1 hx2 (fun _ => hks) hpt ht hin]

/-- Splitting at an existing interior knot (positive degree): the left piece agrees with the curve up to
    `eps` before the split point, but evaluating it at the split point divides by zero. -/
theorem C21_left_piece_at_knot {eps : K} {c : Curve K V} (h : c.Good eps) (heps : 0 < eps)
    (hp : 1 ≤ c.degree) {u : K} (h1 : c.lo < u) (h2 : u < c.hi)
    (hsep : ∀ y ∈ c.knots, |y - u| < eps → y = u) (hold : u ∈ c.knots) :
    ∃ l r, c.trySplit eps u = .ok (l, r) ∧ l.hi = u ∧ l.point eps u = .error .nonfinite ∧
      ∀ x, c.lo ≤ x → x + eps ≤ u → l.point eps x = c.point eps x := by
  obtain ⟨s, c', l, r, e, hs⟩ := split_pieces h h1.le h2.le hsep
  have hsn := hs.sn
  have hps := hs.ps
  have hl := h.knots_len
  have hll := hs.l_len h
  have hin := hs.inSpan
  rw [InSpan, if_neg h2.ne] at hin
  have hks : kf c.knots s = u := by
    refine le_antisymm hin.1 ?_
    obtain ⟨j, hj, rfl⟩ := List.mem_iff_getElem.1 hold
    rw [← kf_eq hj] at hin ⊢
    refine h.good.mono _ _ ?_ (by omega)
    by_contra hc
    exact absurd (h.good.mono (s + 1) j (by omega) (by omega)) (not_le.2 hin.2)
  have hlen : l.cps.length - 1 = s := by rw [hs.ll]; omega
  have hn : l.lastIndex = .ok s := by
    rw [lastIndex, hll, hs.ll, hs.ld, subR_eq_ok (by omega), ok_bind, subR_eq_ok (by omega)]
    congr 1; omega
  have hkn : kf l.knots (s + 1) = u := hs.lku h _ (by omega) (by omega)
  have hkl : l.knots.length = s + c.degree + 2 := by rw [hll, hs.ll, hs.ld]; omega
  refine ⟨l, r, e, hs.lhi h, ?_, ?_⟩
  · rw [point, hn, ok_bind, findKnotSpanIndex, getR_kf (by omega), ok_bind, hkn,
      if_pos (sub_lt_self _ heps), pure_eq_ok, ok_bind,
      C02_degenerate_span_nonfinite (by omega) (by rw [hkn, hs.lkf h _ (le_refl _), hks]) _
        (by rw [hs.ld]; exact hp) (by rw [hs.ld]; exact hps) (by rw [hs.ld]; omega)]
    rfl
  · intro x hx1 hx2
    have hxu : x < u := lt_of_lt_of_le (lt_add_of_pos_right x heps) hx2
    have hpsl : c.degree < s := by
      rcases Nat.lt_or_eq_of_le hps with h' | h'
      · exact h'
      · exfalso
        have : c.lo = u := by rw [← hks, ← h']; rfl
        exact h1.ne this
    have hm : MonoUpTo (kf l.knots) (s + 1) := mono_of_sorted hs.lsorted (by omega)
    have hkp : kf l.knots c.degree = c.lo := by rw [hs.lkf h _ hps]; rfl
    have hkp1 : kf l.knots (c.degree + 1) = kf c.knots (c.degree + 1) := hs.lkf h _ (by omega)
    obtain ⟨t, ht, hpt, hts, hin1, hin2⟩ : ∃ t, findKnotSpanIndex eps l.knots s c.degree x = .ok t ∧
        c.degree ≤ t ∧ t ≤ s ∧ kf l.knots t ≤ x ∧ x < kf l.knots (t + 1) := by
      rw [findKnotSpanIndex, getR_kf (by omega), ok_bind, hkn,
        if_neg (not_lt.2 (le_sub_iff_add_le.2 hx2)), getR_kf (by omega), ok_bind]
      split
      · rename_i hlt
        refine ⟨c.degree, rfl, le_refl _, by omega, by rw [hkp]; exact hx1, ?_⟩
        rw [hkp1]
        refine lt_of_lt_of_le hlt ?_
        rw [hkp]; exact h.good.first_gap
      · obtain ⟨t, a1, a2, a3, a4, a5⟩ := spanGo_spec (ks := l.knots) (u := x) (p := c.degree) (n := s)
          (by omega) hm (s + 2) c.degree (s + 1) (le_refl _) (by omega) (le_refl _) (by omega)
          (by rw [hkp]; exact hx1) (Or.inl (by rw [hkn]; exact hxu))
        refine ⟨t, a1, a2, a3, a4, ?_⟩
        rcases a5 with a5 | ⟨_, a5⟩
        · exact a5
        · rw [hkn] at a5; exact absurd a5 hxu.ne
    have hspan : InSpan (kf l.knots) u x t := by
      rw [InSpan, if_neg hxu.ne]; exact ⟨hin1, hin2⟩
    have hml := mono_of_sorted hs.lsorted (m := s + c.degree + 1) (by omega)
    rw [point_eq_eval h hx1 (le_trans hxu.le h2.le), ← hs.leval h hx1 hxu.le (fun e => absurd e hxu.ne)
      (by rw [hs.ld]; exact hpt) (by rw [hs.ll]; omega) hspan]
    rw [point, hn, ok_bind, hs.ld, ht, ok_bind, basisFunctions_eq _ hpt (by omega)
      (fun i j hi hj hj' => ne_across hml (lt_of_le_of_lt hin1 hin2) i j hi hj (by omega)), ok_bind,
      subR_eq_ok hpt, ok_bind, sumPoints_eq (by rw [hs.ll]; omega)]
    congr 1
    rw [evalB_eq_NS (by rw [hs.ll, hs.ld]; exact hml) (by rw [hs.ll]; omega) hspan, hs.ld,
      sum_NS_window (fun i => l.cps.getD i 0) hpt (by rw [hs.ll]; omega)]

example : ∃ l r, exCurve.trySplit (1/1000) (5/2) = .ok (l, r) ∧ l.Good (1/1000) ∧ l.lo = exCurve.lo ∧
    l.hi = 5/2 ∧ ∀ x, exCurve.lo ≤ x → x ≤ 5/2 → l.point (1/1000) x = exCurve.point (1/1000) x :=
  C21_left_piece exCurve_good (by rw [exCurve_lo]; norm_num) (by rw [exCurve_hi]; norm_num)
    (by decide +kernel) (by decide +kernel)

example : ∃ l r, exCurve.trySplit (1/1000) 1 = .ok (l, r) ∧ r.Good (1/1000) ∧ r.lo = 1 ∧
    r.hi = exCurve.hi ∧ ∀ x, 1 ≤ x → x ≤ exCurve.hi → r.point (1/1000) x = exCurve.point (1/1000) x :=
  C21_right_piece exCurve_good (by rw [exCurve_lo]; norm_num) (by rw [exCurve_hi]; norm_num)
    (by decide +kernel)

example : ∃ l r, exCurve.trySplit (1/1000) 1 = .ok (l, r) ∧ l.hi = 1 ∧
    l.point (1/1000) 1 = .error .nonfinite ∧
    ∀ x, exCurve.lo ≤ x → x + 1/1000 ≤ 1 → l.point (1/1000) x = exCurve.point (1/1000) x :=
  C21_left_piece_at_knot exCurve_good (by norm_num) (by decide) (by rw [exCurve_lo]; norm_num)
    (by rw [exCurve_hi]; norm_num) (by decide +kernel) (by decide +kernel)

/-! ### C22 -/

theorem mem_right_knots {c c' l r : Curve K V} {u : K} {s : ℕ} (hs : SplitAt c u s c' l r) {y : K}
    (hy : y ∈ r.knots) : y = u ∨ y ∈ c.knots := by
  rw [hs.rk] at hy
  rcases List.mem_append.1 hy with h | h
  · exact Or.inl (List.eq_of_mem_replicate h)
  · exact Or.inr (List.mem_of_mem_drop h)

/-- Trimming to `p0 < p1` returns one curve with domain `[p0, p1]` that agrees with the original. -/
theorem C22_trim_inside {eps : K} {c : Curve K V} (h : c.Good eps) {p0 p1 : K} (hlo : c.lo ≤ p0)
    (h01 : p0 + eps ≤ p1) (hlt : p0 < p1) (hhi : p1 ≤ c.hi)
    (hsep0 : ∀ y ∈ c.knots, |y - p0| < eps → y = p0) (hsep1 : ∀ y ∈ c.knots, |y - p1| < eps → y = p1)
    (hnew : p1 ∈ c.knots → p1 = c.hi) :
    ∃ d, c.tryTrimRange eps p0 p1 = .ok [d] ∧ d.Good eps ∧ d.degree = c.degree ∧ d.lo = p0 ∧ d.hi = p1 ∧
      ∀ x, p0 ≤ x → x ≤ p1 → d.point eps x = c.point eps x := by
  have hp0 : p0 < c.hi := lt_of_lt_of_le hlt hhi
  obtain ⟨s, c', l, r, e, hs⟩ := split_pieces h hlo hp0.le hsep0
  obtain ⟨l', r', e', hg, hrlo, hrhi, hpt⟩ := C21_right_piece h hlo hp0 hsep0
  rw [e] at e'
  obtain ⟨rfl, rfl⟩ := Prod.mk.inj (Except.ok.inj e')
  obtain ⟨d, r2, f, fg, flo, fhi, fpt⟩ := C21_left_piece hg (u := p1) (by rw [hrlo]; exact hlt.le)
    (by rw [hrhi]; exact hhi)
    (by
      intro y hy hsm
      rcases mem_right_knots hs hy with rfl | hy
      · exfalso
        rw [abs_sub_comm, abs_of_pos (sub_pos.2 hlt)] at hsm
        exact absurd (lt_of_le_of_lt h01 (sub_lt_iff_lt_add'.1 hsm)) (lt_irrefl _)
      · exact hsep1 y hy hsm)
    (by
      intro hy
      rw [hrhi]
      rcases mem_right_knots hs hy with he | hy
      · exact absurd he hlt.ne'
      · exact hnew hy)
  obtain ⟨s2, c2, l2, r2', f', hs2⟩ := split_pieces hg (u := p1) (by rw [hrlo]; exact hlt.le)
    (by rw [hrhi]; exact hhi)
    (by
      intro y hy hsm
      rcases mem_right_knots hs hy with rfl | hy
      · exfalso
        rw [abs_sub_comm, abs_of_pos (sub_pos.2 hlt)] at hsm
        exact absurd (lt_of_le_of_lt h01 (sub_lt_iff_lt_add'.1 hsm)) (lt_irrefl _)
      · exact hsep1 y hy hsm)
  rw [f] at f'
  obtain ⟨rfl, rfl⟩ := Prod.mk.inj (Except.ok.inj f')
  refine ⟨d, ?_, fg, by rw [hs2.ld, hs.rd], by rw [flo, hrlo], fhi, ?_⟩
  · unfold tryTrimRange
    simp only [min_eq_left hlt.le, max_eq_right hlt.le, if_pos hlt, e, ok_bind, f]
    rfl
  · intro x hx1 hx2
    rw [fpt x (by rw [hrlo]; exact hx1) hx2, hpt x hx1 (le_trans hx2 hhi)]

/-- Trimming with `p1 < p0` returns the complement: `[p0, hi]` followed by `[lo, p1]`. -/
theorem C22_trim_outside {eps : K} {c : Curve K V} (h : c.Good eps) {p0 p1 : K} (hlo : c.lo ≤ p1)
    (h01 : p1 + eps ≤ p0) (hlt : p1 < p0) (hhi : p0 < c.hi)
    (hsep0 : ∀ y ∈ c.knots, |y - p0| < eps → y = p0) (hsep1 : ∀ y ∈ c.knots, |y - p1| < eps → y = p1)
    (hnew : p1 ∉ c.knots) :
    ∃ d1 d2, c.tryTrimRange eps p0 p1 = .ok [d1, d2] ∧ d1.Good eps ∧ d2.Good eps ∧
      d1.lo = p0 ∧ d1.hi = c.hi ∧ d2.lo = c.lo ∧ d2.hi = p1 ∧
      (∀ x, p0 ≤ x → x ≤ c.hi → d1.point eps x = c.point eps x) ∧
      (∀ x, c.lo ≤ x → x ≤ p1 → d2.point eps x = c.point eps x) := by
  have hp1 : p1 < c.hi := lt_trans hlt hhi
  obtain ⟨s, c', l, r, e, hs⟩ := split_pieces h hlo hp1.le hsep1
  obtain ⟨l', r', e', hg, hrlo, hrhi, hpt⟩ := C21_right_piece h hlo hp1 hsep1
  rw [e] at e'
  obtain ⟨rfl, rfl⟩ := Prod.mk.inj (Except.ok.inj e')
  obtain ⟨l', r', e', hgl, hllo, hlhi, hptl⟩ := C21_left_piece h hlo hp1.le hsep1 (fun hm => absurd hm hnew)
  rw [e] at e'
  obtain ⟨rfl, rfl⟩ := Prod.mk.inj (Except.ok.inj e')
  obtain ⟨l2, d1, f, fg, flo, fhi, fpt⟩ := C21_right_piece hg (u := p0) (by rw [hrlo]; exact hlt.le)
    (by rw [hrhi]; exact hhi)
    (by
      intro y hy hsm
      rcases mem_right_knots hs hy with rfl | hy
      · exfalso
        rw [abs_sub_comm, abs_of_pos (sub_pos.2 hlt)] at hsm
        exact absurd (lt_of_le_of_lt h01 (sub_lt_iff_lt_add'.1 hsm)) (lt_irrefl _)
      · exact hsep0 y hy hsm)
  refine ⟨d1, l, ?_, fg, hgl, flo, by rw [fhi, hrhi], hllo, hlhi, ?_, hptl⟩
  · unfold tryTrimRange
    simp only [min_eq_right hlt.le, max_eq_left hlt.le, if_neg (not_lt.2 hlt.le), e, ok_bind, f]
    rfl
  · intro x hx1 hx2
    rw [fpt x hx1 (by rw [hrhi]; exact hx2), hpt x (le_trans hlt.le hx1) hx2]

/-- Trimming up to an existing interior knot (positive degree) returns a curve that divides by zero
    when evaluated at its end. -/
theorem C22_trim_to_knot_breaks {eps : K} {c : Curve K V} (h : c.Good eps) (heps : 0 < eps)
    (hp : 1 ≤ c.degree) {p0 p1 : K} (hlo : c.lo ≤ p0) (h01 : p0 + eps ≤ p1) (hhi : p1 < c.hi)
    (hsep0 : ∀ y ∈ c.knots, |y - p0| < eps → y = p0) (hsep1 : ∀ y ∈ c.knots, |y - p1| < eps → y = p1)
    (hold : p1 ∈ c.knots) :
    ∃ d, c.tryTrimRange eps p0 p1 = .ok [d] ∧ d.hi = p1 ∧ d.point eps p1 = .error .nonfinite := by
  have hlt : p0 < p1 := lt_of_lt_of_le (lt_add_of_pos_right _ heps) h01
  have hp0 : p0 < c.hi := lt_trans hlt hhi
  obtain ⟨s, c', l, r, e, hs⟩ := split_pieces h hlo hp0.le hsep0
  obtain ⟨l', r', e', hg, hrlo, hrhi, hpt⟩ := C21_right_piece h hlo hp0 hsep0
  rw [e] at e'
  obtain ⟨rfl, rfl⟩ := Prod.mk.inj (Except.ok.inj e')
  have hmem : p1 ∈ r.knots := by
    rw [hs.rk]
    refine List.mem_append_right _ ?_
    obtain ⟨j, hj, rfl⟩ := List.mem_iff_getElem.1 hold
    have hin := hs.inSpan
    rw [InSpan, if_neg hp0.ne] at hin
    have hjs : s + 1 ≤ j := by
      by_contra hc
      have := h.good.mono j s (by omega) (by have := hs.sn; omega)
      rw [kf_eq hj] at this
      exact absurd (lt_of_lt_of_le hlt this) (not_lt.2 hin.1)
    exact List.mem_drop_iff_getElem.2 ⟨j - (s + 1), by omega, by congr 1; omega⟩
  obtain ⟨d, r2, f, fhi, ferr, _⟩ := C21_left_piece_at_knot hg heps (by rw [hs.rd]; exact hp) (u := p1)
    (by rw [hrlo]; exact hlt) (by rw [hrhi]; exact hhi)
    (by
      intro y hy hsm
      rcases mem_right_knots hs hy with rfl | hy
      · exfalso
        rw [abs_sub_comm, abs_of_pos (sub_pos.2 hlt)] at hsm
        exact absurd (lt_of_le_of_lt h01 (sub_lt_iff_lt_add'.1 hsm)) (lt_irrefl _)
      · exact hsep1 y hy hsm) hmem
  refine ⟨d, ?_, fhi, ferr⟩
  unfold tryTrimRange
  simp only [min_eq_left hlt.le, max_eq_right hlt.le, if_pos hlt, e, ok_bind, f]
  rfl

example : ∃ d, exCurve.tryTrimRange (1/1000) (1/2) (5/2) = .ok [d] ∧ d.Good (1/1000) ∧
    d.degree = exCurve.degree ∧ d.lo = 1/2 ∧ d.hi = 5/2 ∧
    ∀ x, 1/2 ≤ x → x ≤ 5/2 → d.point (1/1000) x = exCurve.point (1/1000) x :=
  C22_trim_inside exCurve_good (by rw [exCurve_lo]; norm_num) (by norm_num) (by norm_num)
    (by rw [exCurve_hi]; norm_num) (by decide +kernel) (by decide +kernel) (by decide +kernel)

example : ∃ d1 d2, exCurve.tryTrimRange (1/1000) (5/2) (1/2) = .ok [d1, d2] ∧ d1.lo = 5/2 ∧ d2.hi = 1/2 := by
  obtain ⟨d1, d2, h1, _, _, h2, _, _, h3, _⟩ := C22_trim_outside exCurve_good (p0 := 5/2) (p1 := 1/2)
    (by rw [exCurve_lo]; norm_num) (by norm_num) (by norm_num)
    (by rw [exCurve_hi]; norm_num) (by decide +kernel) (by decide +kernel) (by decide +kernel)
  exact ⟨d1, d2, h1, h2, h3⟩

end Curvo.Props

/-
  Property theorems about isocurves: C32.
-/
import Verif.Props.Surface3
import Verif.Props.Curve4

set_option linter.unusedSectionVars false

namespace Curvo.Props

open Curvo Curvo.Knots Curvo.Spec Curvo.Surface

variable {K : Type} [Field K] [LinearOrder K] [IsStrictOrderedRing K]
variable {V W : Type} [AddCommGroup V] [Module K V] [AddCommGroup W] [Module K W]

theorem kf_mem {ks : List K} {j : ℕ} (h : j < ks.length) : kf ks j ∈ ks := by
  rw [kf, List.getD_eq_getElem?_getD, List.getElem?_eq_getElem h]
  exact List.getElem_mem h

theorem exists_kf {ks : List K} {x : K} (h : x ∈ ks) : ∃ j, j < ks.length ∧ kf ks j = x := by
  obtain ⟨j, hj, rfl⟩ := List.mem_iff_getElem.1 h
  exact ⟨j, hj, by rw [kf, List.getD_eq_getElem?_getD, List.getElem?_eq_getElem hj]; rfl⟩

theorem count_of_range {ks : List K} {t : K} {a b : ℕ} (hab : a ≤ b) (hb : b ≤ ks.length)
    (h : ∀ j, j < ks.length → (kf ks j = t ↔ a ≤ j ∧ j < b)) : ks.count t = b - a := by
  have hk : ks = ks.take a ++ (List.replicate (b - a) t ++ ks.drop b) := by
    apply List.ext_getElem
    · simp; omega
    · intro i h1 h2
      have hi : ks[i] = kf ks i := by rw [kf, List.getD_eq_getElem?_getD, List.getElem?_eq_getElem h1]; rfl
      rcases lt_or_ge i a with g | g
      · rw [List.getElem_append_left (by simp; omega), List.getElem_take]
      · rw [List.getElem_append_right (by simp; omega)]
        rcases lt_or_ge i b with g' | g'
        · rw [List.getElem_append_left (by simp; omega), List.getElem_replicate, hi, (h i h1).2 ⟨g, g'⟩]
        · rw [List.getElem_append_right (by simp; omega), List.getElem_drop]
          congr 1
          simp; omega
  rw [hk, List.count_append, List.count_append, List.count_replicate_self]
  have z1 : (ks.take a).count t = 0 := by
    rw [List.count_eq_zero]
    intro hm
    obtain ⟨j, hj, e⟩ := List.mem_take_iff_getElem.1 hm
    have := (h j (by omega)).1 (by rw [kf, List.getD_eq_getElem?_getD, List.getElem?_eq_getElem (by omega)]; exact e)
    omega
  have z2 : (ks.drop b).count t = 0 := by
    rw [List.count_eq_zero]
    intro hm
    obtain ⟨j, hj, e⟩ := List.mem_drop_iff_getElem.1 hm
    have := (h (b + j) (by omega)).1 (by rw [kf, List.getD_eq_getElem?_getD, List.getElem?_eq_getElem (by omega)]; exact e)
    omega
  omega

/-- The knots of a refinement by copies of one value. -/
theorem refined_knots {c c' : Curve K V} {t : K} {n s : ℕ} (hc : c.Pre) (hr : Curve.Refines c c' (List.replicate n t))
    (hs : s + 1 < c.knots.length) (h1 : kf c.knots s ≤ t) (h2 : t ≤ kf c.knots (s + 1)) :
    c'.knots = c.knots.take (s + 1) ++ (List.replicate n t ++ c.knots.drop (s + 1)) := by
  have hm := mono_of_sorted (m := c.knots.length - 1) hc.sorted (by omega)
  apply sorted_ext hr.pre.sorted
  · rw [List.pairwise_append, List.pairwise_append]
    refine ⟨hc.sorted.sublist (List.take_sublist _ _), ⟨?_, hc.sorted.sublist (List.drop_sublist _ _), ?_⟩, ?_⟩
    · rw [List.pairwise_replicate]; right; exact le_refl _
    · intro a ha b hb
      rw [List.eq_of_mem_replicate ha]
      obtain ⟨j, hj, rfl⟩ := List.mem_drop_iff_getElem.1 hb
      rw [← kf_eq]
      exact le_trans h2 (hm _ _ (by omega) (by omega))
    · intro a ha b hb
      obtain ⟨j, hj, rfl⟩ := List.mem_take_iff_getElem.1 ha
      rw [← kf_eq]
      refine le_trans (hm j s (by omega) (by omega)) ?_
      rcases List.mem_append.1 hb with hb | hb
      · rw [List.eq_of_mem_replicate hb]; exact h1
      · obtain ⟨j', hj', rfl⟩ := List.mem_drop_iff_getElem.1 hb
        rw [← kf_eq]
        exact hm _ _ (by omega) (by omega)
  · refine hr.knots.trans ?_
    refine List.Perm.trans ?_ (List.perm_append_comm_assoc _ _ _)
    rw [List.take_append_drop]

theorem kf_spliced {ks : List K} {t : K} {n s : ℕ} (hs : s + 1 < ks.length) :
    (∀ j, j ≤ s → kf (ks.take (s + 1) ++ (List.replicate n t ++ ks.drop (s + 1))) j = kf ks j) ∧
    (∀ j, s < j → j ≤ s + n → kf (ks.take (s + 1) ++ (List.replicate n t ++ ks.drop (s + 1))) j = t) ∧
    (∀ j, s + n < j → kf (ks.take (s + 1) ++ (List.replicate n t ++ ks.drop (s + 1))) j = kf ks (j - n)) := by
  have hlt : (ks.take (s + 1)).length = s + 1 := by simp; omega
  refine ⟨?_, ?_, ?_⟩
  · intro j hj
    unfold kf
    rw [Curve.getD_append_left (by omega), Curve.getD_take (by omega)]
  · intro j h1 h2
    unfold kf
    rw [Curve.getD_append_right (by omega), hlt, Curve.getD_append_left (by simp; omega), List.getD_eq_getElem?_getD,
      List.getElem?_replicate, if_pos (by omega)]
    rfl
  · intro j hj
    unfold kf
    rw [Curve.getD_append_right (by omega), hlt, Curve.getD_append_right (by simp; omega), List.length_replicate, Curve.getD_drop]
    congr 1; omega

/-- The control point in front of a run of `degree` copies of `t` is the point at `t`, from the left. -/
theorem iso_left {c c' : Curve K V} {t : K} {xs : List K} {s : ℕ} (hc : c.Pre) (hr : Curve.Refines c c' xs)
    (hps : c.degree ≤ s) (hsn : s < c.cps.length) (hin : InSpan (kf c.knots) c.hi t s) (hlt : kf c.knots s < t)
    (hk : kf c'.knots s < t) (hk' : ∀ j, s < j → j ≤ s + c.degree → kf c'.knots j = t) (hk1 : t ≤ kf c'.knots (s + 1)) :
    c'.cps.getD s 0 = c.eval t := by
  have hspan := Curve.inSpan_le hin
  have hlen := hr.cps_len
  have in1 : InSpan (kf c.knots) t t s := by rw [InSpan, if_pos rfl]; exact ⟨hlt, hspan.2⟩
  have in2 : InSpan (kf c'.knots) t t s := by rw [InSpan, if_pos rfl]; exact ⟨hk, hk1⟩
  have e1 := (hr.evalB t t s hps hsn in1).2
  rw [Curve.evalB_eq_NS hr.pre.mono (by omega) in2, Curve.evalB_eq_NS hc.mono hsn in1,
    ← Curve.evalB_eq_NS hc.mono hsn hin, ← Curve.eval_eq_evalB (by omega), hr.degree] at e1
  have hd : ∀ i, NS (kf c'.knots) s c.degree i t = if i = s then 1 else 0 :=
    NS_left_delta (m := c.degree) hk' hk.ne _ (le_refl _)
  simp only [hd] at e1
  rw [Finset.sum_eq_single s] at e1
  · simpa using e1
  · intro i _ hi; simp [hi]
  · intro h0; exact absurd (Finset.mem_range.2 (by omega)) h0

/-- The control point at the start of a run of `degree + 1` copies of `t` is the point at `t`. -/
theorem iso_right {c c' : Curve K V} {t : K} {xs : List K} {q : ℕ} (hc : c.Pre) (hr : Curve.Refines c c' xs)
    (h1 : c.lo ≤ t) (h2 : t < c.hi) (hq : q + c.degree < c'.cps.length)
    (hk : ∀ j, q ≤ j → j ≤ q + c.degree → kf c'.knots j = t) (hk1 : t < kf c'.knots (q + c.degree + 1)) :
    c'.cps.getD q 0 = c.eval t := by
  have in2 : InSpan (kf c'.knots) c'.hi t (q + c.degree) := by
    rw [InSpan, hr.hi, if_neg h2.ne]; exact ⟨(hk _ (by omega) (le_refl _)).le, hk1⟩
  have e1 := hr.eval hc h1 h2.le
  rw [Curve.eval_eq_evalB (c := c') (by omega), Curve.evalB_eq_NS hr.pre.mono hq in2, hr.degree] at e1
  have hd : ∀ i, NS (kf c'.knots) (q + c.degree) c.degree i t = if i + c.degree = q + c.degree then 1 else 0 :=
    NS_right_delta (m := c.degree + 1) (fun j a b => hk j (by omega) b) hk1.ne' _ (by omega) (by omega)
  simp only [hd, Nat.add_right_cancel_iff] at e1
  rw [Finset.sum_eq_single q] at e1
  · simpa using e1
  · intro i _ hi; simp [hi]
  · intro h0; exact absurd (Finset.mem_range.2 (by omega)) h0

theorem isoCount_eq {eps : K} (heps : 0 < eps) {ks : List K} (hne : ks ≠ []) (hsort : ks.Pairwise (· ≤ ·))
    (hd : ∀ x ∈ ks, ∀ y ∈ ks, x ≠ y → eps < |x - y|) {t : K} (hsep : ∀ y ∈ ks, |y - t| < eps → y = t) {p : ℕ}
    (hcount : ks.count t ≤ p + 1) :
    ∃ m, multiplicity eps ks = .ok m ∧ isoCount eps m p t = p + 1 - ks.count t := by
  obtain ⟨m, e, hm⟩ := C06_multiplicity_counts heps.le hne hsort hd
  refine ⟨m, e, ?_⟩
  unfold isoCount
  cases hf : m.find? (fun x => decide (|t - x.1| < eps)) with
  | none =>
    have hnone := List.find?_eq_none.1 hf
    have : ks.count t = 0 := by
      rw [List.count_eq_zero]
      intro hmem
      exact hnone (t, ks.count t) ((hm _ _).2 ⟨hmem, rfl⟩) (by simpa using heps)
    simp [this]
  | some x =>
    have h1 := List.mem_of_find?_eq_some hf
    have h2 := List.find?_some hf
    simp only [decide_eq_true_eq] at h2
    obtain ⟨g1, g2⟩ := (hm x.1 x.2).1 h1
    have : x.1 = t := hsep _ g1 (by rw [abs_sub_comm]; exact h2)
    rw [this] at g2
    simp only [g2]
    rw [if_pos hcount]

/-- The heart of the isocurve computation, for one curve: after the refinement the control point that is read
    is the curve's point at `t`. -/
theorem iso_col {eps : K} {c : Curve K V} (h : c.Good eps) (heps : 0 < eps) {t : K} (h1 : c.lo ≤ t) (h2 : t ≤ c.hi)
    (hsep : ∀ y ∈ c.knots, |y - t| < eps → y = t)
    (hmult : t < c.hi → t ≠ kf c.knots 0 → c.knots.count t ≤ 1) :
    c.knots.count t ≤ c.degree + 1 ∧
    ∃ s, isoSpan eps c.knots c.degree (c.cps.length + (c.degree + 1 - c.knots.count t) - 1) t = .ok s ∧
      s < c.cps.length + (c.degree + 1 - c.knots.count t) ∧
      ∀ c', Curve.Refines c c' (List.replicate (c.degree + 1 - c.knots.count t) t) → c'.cps.getD s 0 = c.eval t := by
  have hl := h.knots_len
  have hpos := h.cps_pos
  have hle := h.good.le
  have hmono := h.good.mono
  have hhi := Curve.hi_eq h
  have hlohi := h.pre.dom
  have hlast : kf c.knots (c.cps.length - 1) < c.hi := by
    have := h.good.last; rwa [hhi] at this
  have hfirst := h.good.first
  have hnear : ∀ y ∈ c.knots, (|t - y| < eps ↔ t = y) := by
    intro y hy
    constructor
    · intro hh; exact (hsep y hy (by rw [abs_sub_comm]; exact hh)).symm
    · rintro rfl; simpa using heps
  have g0 : getR c.knots 0 = .ok (kf c.knots 0) := getR_kf (by omega)
  have gl : getR c.knots (c.knots.length - 1) = .ok (kf c.knots (c.knots.length - 1)) := getR_kf (by omega)
  by_cases ht0 : t = kf c.knots 0
  · -- the clamped start
    have hlo : c.lo = t := le_antisymm h1 (by rw [ht0]; exact hmono _ _ (by omega) (by omega))
    have hcount : c.knots.count t = c.degree + 1 := by
      have := count_of_range (ks := c.knots) (t := t) (a := 0) (b := c.degree + 1) (by omega) (by omega) (by
        intro j hj
        constructor
        · intro e
          refine ⟨by omega, ?_⟩
          by_contra hc
          have := hmono (c.degree + 1) j (by omega) (by omega)
          rw [e, ← hlo] at this
          exact absurd hfirst (not_lt.2 this)
        · rintro ⟨_, hj2⟩
          refine le_antisymm ?_ (by rw [ht0]; exact hmono _ _ (by omega) (by omega))
          rw [← hlo]; exact hmono _ _ (by omega) (by omega))
      omega
    rw [hcount]
    refine ⟨le_refl _, 0, ?_, by omega, ?_⟩
    · rw [isoSpan, g0, ok_bind, if_pos ((hnear _ (kf_mem (by omega))).2 ht0)]; rfl
    · intro c' hr
      rw [Nat.sub_self, List.replicate_zero] at hr
      have hk : c'.knots = c.knots := sorted_ext hr.pre.sorted h.pre.sorted (by simpa using hr.knots)
      refine iso_right h.pre hr h1 (by rw [← hlo]; exact hlohi) (by rw [hr.cps_len]; simp; omega) ?_ ?_
      · intro j _ hj
        rw [hk]
        refine le_antisymm ?_ (by rw [ht0]; exact hmono _ _ (by omega) (by omega))
        rw [← hlo]; exact hmono _ _ (by omega) (by omega)
      · rw [hk, ← hlo, Nat.zero_add]; exact hfirst
  have nt0 : ¬ |t - kf c.knots 0| < eps := by rw [hnear _ (kf_mem (by omega))]; exact ht0
  by_cases htl : t = kf c.knots (c.knots.length - 1)
  · -- the clamped end
    have hthi : t = c.hi := le_antisymm h2 (by rw [htl]; exact hmono _ _ (by omega) (by omega))
    have hin : ∀ j, c.cps.length ≤ j → j < c.knots.length → kf c.knots j = t := by
      intro j j1 j2
      apply le_antisymm
      · rw [htl]; exact hmono _ _ (by omega) (by omega)
      · rw [hthi]; exact hmono _ _ j1 (by omega)
    have hcount : c.knots.count t = c.degree + 1 := by
      have := count_of_range (ks := c.knots) (t := t) (a := c.cps.length) (b := c.knots.length) (by omega) (by omega) (by
        intro j hj
        constructor
        · intro e
          refine ⟨?_, hj⟩
          by_contra hc
          have := hmono j (c.cps.length - 1) (by omega) (by omega)
          rw [e, hthi] at this
          exact absurd hlast (not_lt.2 this)
        · rintro ⟨j1, _⟩; exact hin j j1 hj)
      omega
    rw [hcount]
    refine ⟨le_refl _, c.cps.length - 1, ?_, by omega, ?_⟩
    · rw [isoSpan, g0, ok_bind, if_neg nt0, subR_eq_ok (by omega), ok_bind, gl, ok_bind,
        if_pos ((hnear _ (kf_mem (by omega))).2 htl)]
      simp
    · intro c' hr
      rw [Nat.sub_self, List.replicate_zero] at hr
      have hk : c'.knots = c.knots := sorted_ext hr.pre.sorted h.pre.sorted (by simpa using hr.knots)
      have hinS : InSpan (kf c.knots) c.hi t (c.cps.length - 1) := by
        rw [InSpan, if_pos hthi, hthi, hhi]; exact ⟨hlast, le_refl _⟩
      have hltt : kf c.knots (c.cps.length - 1) < t := by rw [hthi]; exact hlast
      refine iso_left h.pre hr (by omega) (by omega) hinS hltt (by rw [hk]; exact hltt) ?_ ?_
      · intro j j1 j2; rw [hk]; exact hin j (by omega) (by omega)
      · rw [hk, hin _ (by omega) (by omega)]
  have ntl : ¬ |t - kf c.knots (c.knots.length - 1)| < eps := by rw [hnear _ (kf_mem (by omega))]; exact htl
  obtain ⟨s, hs, hps, hsn, hin⟩ := h.exists_span h1 h2
  have hspan := Curve.inSpan_le hin
  have hisoSpan : ∀ last, isoSpan eps c.knots c.degree last t = .ok s := by
    intro last
    have hli := h.lastIndex
    unfold Curve.lastIndex at hli
    obtain ⟨n0, q1, q2⟩ := bind_eq_ok.1 hli
    rw [isoSpan, g0, ok_bind, if_neg nt0, subR_eq_ok (by omega), ok_bind, gl, ok_bind, if_neg ntl, q1, ok_bind, q2,
      ok_bind, hs]
  by_cases hks : kf c.knots s < t
  · -- `t` is inside of the span, or the unclamped end
    have hbefore : (c.knots.take (s + 1)).count t = 0 := by
      rw [List.count_eq_zero]
      intro hmem
      obtain ⟨j, hj, e⟩ := List.mem_take_iff_getElem.1 hmem
      rw [← kf_eq] at e
      have := hmono j s (by omega) (by omega)
      rw [e] at this
      exact absurd hks (not_lt.2 this)
    have hcd : c.knots.count t = (c.knots.drop (s + 1)).count t := by
      have := List.count_append (a := t) (l₁ := c.knots.take (s + 1)) (l₂ := c.knots.drop (s + 1))
      rw [List.take_append_drop] at this
      omega
    have hrun : ∀ i, i < c.knots.count t → kf c.knots (s + 1 + i) = t := by
      intro i hi
      have hne : c.knots.drop (s + 1) ≠ [] := by
        intro e; rw [hcd, e] at hi; simp at hi
      have hmem : t ∈ c.knots.drop (s + 1) := List.count_pos_iff.1 (by omega)
      obtain ⟨j, hj, e⟩ := List.mem_drop_iff_getElem.1 hmem
      rw [← kf_eq] at e
      have hs1 : kf c.knots (s + 1) = t := by
        apply le_antisymm
        · rw [← e]; exact hmono _ _ (by omega) (by omega)
        · exact hspan.2
      have hkf : ∀ a, kf (c.knots.drop (s + 1)) a = kf c.knots (s + 1 + a) := fun a => by
        unfold kf; rw [Curve.getD_drop]
      have hh : (c.knots.drop (s + 1)).head hne = t := by
        rw [← hs1, List.head_drop, ← kf_eq]
      have := kf_of_count_head (h.pre.sorted.sublist (List.drop_sublist (s + 1) _)) hne (k := i) (by rw [hh]; omega)
      rw [hkf, hkf] at this
      rw [← this]; exact hs1
    have hcount : c.knots.count t ≤ c.degree + 1 := by
      by_contra hcon
      have hz := hrun 0 (by omega)
      have hthi : t = c.hi := by
        by_contra hne
        rw [InSpan, if_neg hne] at hin
        rw [hz] at hin
        exact absurd hin.2 (lt_irrefl _)
      have hsn' : s = c.cps.length - 1 := by
        by_contra hne
        have := hmono (s + 1) (c.cps.length - 1) (by omega) (by omega)
        rw [hz, hthi] at this
        exact absurd hlast (not_lt.2 this)
      have : (c.knots.drop (s + 1)).count t ≤ (c.knots.drop (s + 1)).length := List.count_le_length
      rw [List.length_drop] at this
      omega
    refine ⟨hcount, s, hisoSpan _, by omega, ?_⟩
    intro c' hr
    have hk := refined_knots h.pre hr (s := s) (by omega) hspan.1 hspan.2
    obtain ⟨k1, k2, k3⟩ := kf_spliced (ks := c.knots) (t := t) (n := c.degree + 1 - c.knots.count t) (s := s) (by omega)
    rw [← hk] at k1 k2 k3
    have hrun' : ∀ j, s < j → j ≤ s + c.degree + 1 → kf c'.knots j = t := by
      intro j j1 j2
      rcases le_or_gt j (s + (c.degree + 1 - c.knots.count t)) with g | g
      · exact k2 j j1 g
      · rw [k3 j g]
        have := hrun (j - (c.degree + 1 - c.knots.count t) - (s + 1)) (by omega)
        exact (congrArg (kf c.knots) (by omega)).trans this
    refine iso_left h.pre hr hps (by omega) hin hks (by rw [k1 s (le_refl _)]; exact hks)
      (fun j j1 j2 => hrun' j j1 (by omega)) (by rw [hrun' (s + 1) (by omega) (by omega)])
  · -- a simple inner knot
    have hts : kf c.knots s = t := le_antisymm hspan.1 (not_lt.1 hks)
    have hthi : t < c.hi := by
      refine lt_of_le_of_ne h2 (fun e => ?_)
      rw [InSpan, if_pos e] at hin
      exact hks hin.1
    rw [InSpan, if_neg hthi.ne] at hin
    have hc1 := hmult hthi ht0
    have hc0 : 0 < c.knots.count t := List.count_pos_iff.2 (by rw [← hts]; exact kf_mem (by omega))
    have hcount : c.knots.count t = 1 := by omega
    rw [hcount]
    refine ⟨by omega, s, hisoSpan _, by omega, ?_⟩
    intro c' hr
    rw [Nat.add_sub_cancel] at hr
    have hk := refined_knots h.pre hr (s := s) (by omega) hspan.1 hspan.2
    obtain ⟨k1, k2, k3⟩ := kf_spliced (ks := c.knots) (t := t) (n := c.degree) (s := s) (by omega)
    rw [← hk] at k1 k2 k3
    refine iso_right h.pre hr h1 hthi (by rw [hr.cps_len]; simp; omega) ?_ ?_
    · intro j j1 j2
      rcases Nat.eq_or_lt_of_le j1 with g | g
      · rw [← g, k1 s (le_refl _), hts]
      · exact k2 j g j2
    · rw [k3 _ (by omega), show s + c.degree + 1 - c.degree = s + 1 by omega]
      exact hin.2

/-- C32: the isocurve of fixed `u` runs through the surface's points: for every parameter that the code can place
    (equal to a knot, or further than the tolerance from all of them) inside of the domain, and of multiplicity
    at most one if it is an interior knot. -/
theorem C32_isocurve_u {eps : K} {S : Surface K V} (h : S.Good eps) (heps : 0 < eps)
    (hd : ∀ x ∈ S.uKnots, ∀ y ∈ S.uKnots, x ≠ y → eps < |x - y|) {t : K} (h1 : S.ulo ≤ t) (h2 : t ≤ S.uhi)
    (hsep : ∀ y ∈ S.uKnots, |y - t| < eps → y = t)
    (hmult : t < S.uhi → t ≠ kf S.uKnots 0 → S.uKnots.count t ≤ 1) :
    ∃ c, S.tryIsocurve eps t .u = .ok c ∧ c.Good eps ∧ c.degree = S.vDegree ∧ c.knots = S.vKnots ∧
      c.cps.length = S.cols ∧ ∀ v, S.vlo ≤ v → v ≤ S.vhi → c.point eps v = S.point eps t v := by
  refine ⟨S.isoU t, ?_, h.isoU t, rfl, rfl, by simp [Surface.isoU], ?_⟩
  swap
  · intro v h3 h4
    rw [Curve.point_eq_eval (h.isoU t) h3 (by rw [isoU_hi]; exact h4), Surface.point_eq_eval h h1 h2 h3 h4,
      Surface.eval_eq_isoU h]
  have hcl : ∀ j, (S.col j).cps.length = S.cps.length := fun j => by simp [Surface.col]
  have hcol := fun j => iso_col (h.col j) heps (t := t) h1 (by rw [col_hi]; exact h2) hsep
    (by rw [col_hi]; exact hmult)
  have hul := h.u_len
  have hrows := h.rows_pos
  obtain ⟨hcount, s, es, hs, _⟩ := hcol 0
  rw [hcl] at es hs
  change S.uKnots.count t ≤ S.uDegree + 1 at hcount
  change isoSpan eps S.uKnots S.uDegree (S.cps.length + (S.uDegree + 1 - S.uKnots.count t) - 1) t = .ok s at es
  change s < S.cps.length + (S.uDegree + 1 - S.uKnots.count t) at hs
  obtain ⟨n, hn⟩ : ∃ n, n = S.uDegree + 1 - S.uKnots.count t := ⟨_, rfl⟩
  have hread : ∀ j c', Curve.Refines (S.col j) c' (List.replicate n t) → c'.cps.getD s 0 = (S.col j).eval t := by
    intro j c' hr
    obtain ⟨_, s', es', _, hc'⟩ := hcol j
    rw [hcl] at es'
    change isoSpan eps S.uKnots S.uDegree (S.cps.length + (S.uDegree + 1 - S.uKnots.count t) - 1) t = .ok s' at es'
    rw [es] at es'
    rw [Except.ok.inj es']
    exact hc' c' (by rw [hn] at hr; exact hr)
  have hne : S.uKnots ≠ [] := by intro e; rw [e] at hul; simp at hul
  obtain ⟨m, em, hm⟩ := isoCount_eq (p := S.uDegree) heps hne (h.col 0).pre.sorted hd hsep hcount
  rw [← hn] at hm es hs
  obtain ⟨R, eR, hR1, hR2, hR3, hR4, hR5⟩ : ∃ R : Surface K V,
      (if 0 < n then S.tryRefineKnot eps (List.replicate n t) .u else pure S) = .ok R ∧ R.vDegree = S.vDegree ∧
        R.vKnots = S.vKnots ∧ R.cps.length = S.cps.length + n ∧ (∀ row ∈ R.cps, row.length = S.cols) ∧
        ∀ j, j < S.cols → Curve.Refines (S.col j) (R.col j) (List.replicate n t) := by
    by_cases h0 : 0 < n
    · obtain ⟨R, e, _, r1, r2, _, _, r3, r4, r5, _⟩ := C33_refine_u h (xs := List.replicate n t)
        (by rw [List.pairwise_replicate]; right; exact le_refl _)
        (by intro x hx; rw [List.eq_of_mem_replicate hx]; exact ⟨h1, h2⟩)
        (by
          intro x hx y hy hxy
          rw [List.eq_of_mem_replicate hx] at hxy ⊢
          rcases List.mem_append.1 hy with hy | hy
          · exact List.eq_of_mem_replicate hy
          · exact hsep y hy hxy)
      exact ⟨R, by rw [if_pos h0, e], r1, r2, by rw [r3, List.length_replicate], r4, r5⟩
    · refine ⟨S, by rw [if_neg h0]; rfl, rfl, rfl, by omega, h.rect, fun j _ => ?_⟩
      rw [show n = 0 by omega]
      exact Curve.Refines.refl (h.col j).pre
  have hsR : s < R.cps.length := by omega
  have hrow : R.cps[s] = (S.isoU t).cps := by
    apply Curve.ext_getD (d := 0)
    · rw [hR4 _ (List.getElem_mem _)]; simp [Surface.isoU]
    · intro j hj
      rw [hR4 _ (List.getElem_mem _)] at hj
      have e1 := hread j _ (hR5 j hj)
      rw [col_getD R hsR, cp] at e1
      have e2 : (S.isoU t).cps.getD j 0 = (S.col j).eval t := getD_map_range hj _
      rw [e2, ← e1]
      simp [List.getD_eq_getElem?_getD, hsR]
  simp only [tryIsocurve]
  rw [em, ok_bind, hm]
  have hfin : Curve.tryNew S.vDegree (S.isoU t).cps S.vKnots = .ok (S.isoU t) := tryNew_good (h.isoU t)
  split_ifs at eR ⊢ <;>
  rw [eR, ok_bind, subR_eq_ok (by omega), ok_bind, hR3, es, ok_bind,
    getR_ok_iff.2 (List.getElem?_eq_getElem hsR), ok_bind, hR1, hR2, hrow, hfin]

/-- C32, fixed `v`. -/
theorem C32_isocurve_v {eps : K} {S : Surface K V} (h : S.Good eps) (heps : 0 < eps)
    (hd : ∀ x ∈ S.vKnots, ∀ y ∈ S.vKnots, x ≠ y → eps < |x - y|) {t : K} (h1 : S.vlo ≤ t) (h2 : t ≤ S.vhi)
    (hsep : ∀ y ∈ S.vKnots, |y - t| < eps → y = t)
    (hmult : t < S.vhi → t ≠ kf S.vKnots 0 → S.vKnots.count t ≤ 1) :
    ∃ c, S.tryIsocurve eps t .v = .ok c ∧ c.Good eps ∧ c.degree = S.uDegree ∧ c.knots = S.uKnots ∧
      c.cps.length = S.cps.length ∧ ∀ u, S.ulo ≤ u → u ≤ S.uhi → c.point eps u = S.point eps u t := by
  refine ⟨S.isoV t, ?_, h.isoV t, rfl, rfl, by simp [Surface.isoV], ?_⟩
  swap
  · intro u h3 h4
    rw [Curve.point_eq_eval (h.isoV t) h3 (by rw [isoV_hi]; exact h4), Surface.point_eq_eval h h3 h4 h1 h2,
      Surface.eval_eq_isoV h]
  have hcl : ∀ i, i < S.cps.length → (S.row i).cps.length = S.cols := fun i hi => h.row_len hi
  have hrow := fun i (hi : i < S.cps.length) => iso_col (h.row hi) heps (t := t) h1 (by rw [row_hi h hi]; exact h2) hsep
    (by rw [row_hi h hi]; exact hmult)
  have hvl := h.v_len
  have hrows := h.rows_pos
  have hcols := h.cols_pos
  obtain ⟨hcount, s, es, hs, _⟩ := hrow 0 hrows
  rw [hcl 0 hrows] at es hs
  change S.vKnots.count t ≤ S.vDegree + 1 at hcount
  change isoSpan eps S.vKnots S.vDegree (S.cols + (S.vDegree + 1 - S.vKnots.count t) - 1) t = .ok s at es
  change s < S.cols + (S.vDegree + 1 - S.vKnots.count t) at hs
  obtain ⟨n, hn⟩ : ∃ n, n = S.vDegree + 1 - S.vKnots.count t := ⟨_, rfl⟩
  have hread : ∀ i, i < S.cps.length → ∀ c', Curve.Refines (S.row i) c' (List.replicate n t) →
      c'.cps.getD s 0 = (S.row i).eval t := by
    intro i hi c' hr
    obtain ⟨_, s', es', _, hc'⟩ := hrow i hi
    rw [hcl i hi] at es'
    change isoSpan eps S.vKnots S.vDegree (S.cols + (S.vDegree + 1 - S.vKnots.count t) - 1) t = .ok s' at es'
    rw [es] at es'
    rw [Except.ok.inj es']
    exact hc' c' (by rw [hn] at hr; exact hr)
  have hne : S.vKnots ≠ [] := by intro e; rw [e] at hvl; simp at hvl
  obtain ⟨m, em, hm⟩ := isoCount_eq (p := S.vDegree) heps hne (h.row hrows).pre.sorted hd hsep hcount
  rw [← hn] at hm es hs
  obtain ⟨R, eR, hR1, hR2, hR3, hR4, hR5⟩ : ∃ R : Surface K V,
      (if 0 < n then S.tryRefineKnot eps (List.replicate n t) .v else pure S) = .ok R ∧ R.uDegree = S.uDegree ∧
        R.uKnots = S.uKnots ∧ R.cps.length = S.cps.length ∧ (∀ row ∈ R.cps, row.length = S.cols + n) ∧
        ∀ i, i < S.cps.length → Curve.Refines (S.row i) (R.row i) (List.replicate n t) := by
    by_cases h0 : 0 < n
    · obtain ⟨R, e, r1, _, r2, _, _, r3, r4, r5, _⟩ := C33_refine_v h (xs := List.replicate n t)
        (by rw [List.pairwise_replicate]; right; exact le_refl _)
        (by intro x hx; rw [List.eq_of_mem_replicate hx]; exact ⟨h1, h2⟩)
        (by
          intro x hx y hy hxy
          rw [List.eq_of_mem_replicate hx] at hxy ⊢
          rcases List.mem_append.1 hy with hy | hy
          · exact List.eq_of_mem_replicate hy
          · exact hsep y hy hxy)
      exact ⟨R, by rw [if_pos h0, e], r1, r2, r3, by simpa using r4, r5⟩
    · refine ⟨S, by rw [if_neg h0]; rfl, rfl, rfl, rfl, fun row hr => by rw [h.rect row hr]; omega, fun i hi => ?_⟩
      rw [show n = 0 by omega]
      exact Curve.Refines.refl (h.row hi).pre
  have hcolR : (R.cps.mapM fun row => getR row s) = .ok (S.isoV t).cps := by
    rw [mapM_ok (g := fun row => row.getD s 0) (fun row hr => getR_eq_getD 0 (by rw [hR4 row hr]; exact hs))]
    congr 1
    apply List.ext_getElem
    · simp [Surface.isoV, hR3]
    · intro i g1 g2
      have hi : i < S.cps.length := by simpa [hR3] using g1
      have e1 := hread i hi _ (hR5 i hi)
      have hi' : i < R.cps.length := by omega
      simp only [Surface.isoV, List.getElem_map, List.getElem_range]
      rw [← e1]
      simp [Surface.row, List.getD_eq_getElem?_getD, hi']
  simp only [tryIsocurve]
  have hr0 : 0 < R.cps.length := by omega
  rw [em, ok_bind, hm]
  have hfin : Curve.tryNew S.uDegree (S.isoV t).cps S.uKnots = .ok (S.isoV t) := tryNew_good (h.isoV t)
  split_ifs at eR ⊢ <;>
  rw [eR, ok_bind, getR_ok_iff.2 (List.getElem?_eq_getElem hr0), ok_bind,
    hR4 _ (List.getElem_mem _), subR_eq_ok (by omega), ok_bind, es, ok_bind, hcolR, ok_bind, hR1, hR2, hfin]

theorem u_domain_eq {eps : K} {S : Surface K V} (h : S.Good eps) : S.uDomain = .ok (S.ulo, S.uhi) := by
  have := knotsDomain_eq (h.col 0)
  rw [col_lo, col_hi] at this
  exact this

theorem v_domain_eq {eps : K} {S : Surface K V} (h : S.Good eps) : S.vDomain = .ok (S.vlo, S.vhi) := by
  have := knotsDomain_eq (h.isoU 0)
  rw [isoU_lo, isoU_hi] at this
  exact this

/-- The boundary curves of a clamped surface are its four edges: start of u, start of v, end of u, end of v. -/
theorem C32_boundary_curves {eps : K} {S : Surface K V} (h : S.Good eps) (heps : 0 < eps)
    (hdu : ∀ x ∈ S.uKnots, ∀ y ∈ S.uKnots, x ≠ y → eps < |x - y|)
    (hdv : ∀ x ∈ S.vKnots, ∀ y ∈ S.vKnots, x ≠ y → eps < |x - y|)
    (hcu : kf S.uKnots 0 = S.ulo) (hcv : kf S.vKnots 0 = S.vlo) :
    ∃ a b c d, S.tryBoundaryCurves eps = .ok [a, b, c, d] ∧
      (a.Good eps ∧ b.Good eps ∧ c.Good eps ∧ d.Good eps) ∧
      (∀ v, S.vlo ≤ v → v ≤ S.vhi → a.point eps v = S.point eps S.ulo v ∧ c.point eps v = S.point eps S.uhi v) ∧
      (∀ u, S.ulo ≤ u → u ≤ S.uhi → b.point eps u = S.point eps u S.vlo ∧ d.point eps u = S.point eps u S.vhi) := by
  have hu : S.ulo < S.uhi := by
    have := (h.col 0).pre.dom; rwa [col_lo, col_hi] at this
  have hv : S.vlo < S.vhi := by
    have := (h.isoU 0).pre.dom; rwa [isoU_lo, isoU_hi] at this
  have hr := h.rows_pos
  have hc := h.cols_pos
  have hul := h.u_len
  have hvl := h.v_len
  have near : ∀ {ks : List K} (_ : ∀ x ∈ ks, ∀ y ∈ ks, x ≠ y → eps < |x - y|) {t : K}, t ∈ ks →
      ∀ y ∈ ks, |y - t| < eps → y = t := by
    intro ks hk t ht y hy hh
    by_contra hne
    exact absurd hh (not_lt.2 (hk y hy t ht hne).le)
  have m1 : S.ulo ∈ S.uKnots := kf_mem (by omega)
  have m2 : S.uhi ∈ S.uKnots := kf_mem (by omega)
  have m3 : S.vlo ∈ S.vKnots := kf_mem (by omega)
  have m4 : S.vhi ∈ S.vKnots := kf_mem (by omega)
  obtain ⟨a, ea, ga, _, _, _, pa⟩ := C32_isocurve_u h heps hdu (le_refl _) hu.le (near hdu m1)
    (fun _ g => absurd hcu.symm g)
  obtain ⟨c, ec, gc, _, _, _, pc⟩ := C32_isocurve_u h heps hdu hu.le (le_refl _) (near hdu m2)
    (fun g _ => absurd g (lt_irrefl _))
  obtain ⟨b, eb, gb, _, _, _, pb⟩ := C32_isocurve_v h heps hdv (le_refl _) hv.le (near hdv m3)
    (fun _ g => absurd hcv.symm g)
  obtain ⟨d, ed, gd, _, _, _, pd⟩ := C32_isocurve_v h heps hdv hv.le (le_refl _) (near hdv m4)
    (fun g _ => absurd g (lt_irrefl _))
  refine ⟨a, b, c, d, ?_, ⟨ga, gb, gc, gd⟩, fun v g1 g2 => ⟨pa v g1 g2, pc v g1 g2⟩, fun u g1 g2 => ⟨pb u g1 g2, pd u g1 g2⟩⟩
  simp only [Surface.tryBoundaryCurves]
  rw [u_domain_eq h, ok_bind, v_domain_eq h, ok_bind, ea, ok_bind, eb, ok_bind, ec, ok_bind, ed, ok_bind]
  rfl

/-- Witnesses: an inner knot, a value that is no knot, and an end of the example surface. -/
example : ∀ t ∈ ([1, 1/2, 2] : List ℚ), ∃ c, exSurf.tryIsocurve (1/1000) t .u = .ok c ∧
    c.point (1/1000) (5/2) = exSurf.point (1/1000) t (5/2) := by
  intro t ht
  obtain ⟨c, e, _, _, _, _, hp⟩ := C32_isocurve_u exSurf_good (by norm_num) (by decide +kernel) (t := t)
    (by revert t; decide +kernel) (by revert t; decide +kernel) (by revert t; decide +kernel) (by revert t; decide +kernel)
  exact ⟨c, e, hp _ (by decide +kernel) (by decide +kernel)⟩

example : ∃ c, exSurf.tryIsocurve (1/1000) 1 .v = .ok c ∧ c.point (1/1000) 1 = exSurf.point (1/1000) 1 1 := by
  obtain ⟨c, e, _, _, _, _, hp⟩ := C32_isocurve_v exSurf_good (by norm_num) (by decide +kernel) (t := 1)
    (by decide +kernel) (by decide +kernel) (by decide +kernel) (by decide +kernel)
  exact ⟨c, e, hp _ (by decide +kernel) (by decide +kernel)⟩

example : ∃ a b c d, exSurf.tryBoundaryCurves (1/1000) = .ok [a, b, c, d] := by
  obtain ⟨a, b, c, d, e, _⟩ := C32_boundary_curves exSurf_good (by norm_num) (by decide +kernel) (by decide +kernel)
    rfl rfl
  exact ⟨a, b, c, d, e⟩

deriving instance DecidableEq for Curve, Surface

/-- A surface with a double inner knot in u. -/
def exDouble : Surface ℚ ((ℚ × ℚ) × ℚ) where
  uDegree := 2
  vDegree := 1
  uKnots := [0, 0, 0, 1, 1, 2, 2, 2]
  vKnots := [0, 0, 1, 1]
  cps := [[((0, 0), 1), ((0, 1), 1)], [((1, 1), 1), ((1, 2), 1)], [((2, 0), 1), ((2, 1), 1)],
          [((3, 1), 1), ((3, 2), 1)], [((4, 0), 1), ((4, 1), 1)]]

/-- The exception: at an inner knot of multiplicity two the isocurve reads the wrong row and leaves the surface's
    point. -/
theorem C32_double_knot_wrong :
    ∃ c p q, exDouble.tryIsocurve (1/1000) 1 .u = .ok c ∧ c.point (1/1000) 0 = .ok p ∧
      exDouble.point (1/1000) 1 0 = .ok q ∧ p ≠ q := by
  have sort : exDouble.uKnots.Pairwise (· ≤ ·) := by decide +kernel
  have hnew : ∀ row : List ((ℚ × ℚ) × ℚ), Curve.tryNew 2 row exDouble.uKnots =
      if ¬row.length > 2 then .error .err else if ¬exDouble.uKnots.length = row.length + 2 + 1 then .error .err
        else .ok ⟨2, row, exDouble.uKnots⟩ := by
    intro row
    rw [Curve.tryNew, mergeSort_of_sorted sort]
    rfl
  have e1 : exDouble.tryRefineKnot (1/1000) [1] .u = .ok ⟨2, 1, [0, 0, 0, 1, 1, 1, 2, 2, 2], [0, 0, 1, 1],
      [[((0, 0), 1), ((0, 1), 1)], [((1, 1), 1), ((1, 2), 1)], [((2, 0), 1), ((2, 1), 1)],
       [((2, 0), 1), ((2, 1), 1)], [((3, 1), 1), ((3, 2), 1)], [((4, 0), 1), ((4, 1), 1)]]⟩ := by
    simp only [Surface.tryRefineKnot, show exDouble.uDegree = 2 from rfl, hnew]
    decide +kernel
  have e2 : exDouble.tryIsocurve (1/1000) 1 .u = .ok ⟨1, [((3, 1), 1), ((3, 2), 1)], [0, 0, 1, 1]⟩ := by
    simp only [Surface.tryIsocurve]
    rw [show multiplicity (1/1000) exDouble.uKnots = .ok [(0, 3), (1, 2), (2, 3)] by decide +kernel, ok_bind,
      show isoCount (1/1000 : ℚ) [(0, 3), (1, 2), (2, 3)] exDouble.uDegree 1 = 1 by decide +kernel,
      if_pos (by norm_num), List.replicate_one, e1, ok_bind]
    simp only [List.length_cons, List.length_nil]
    rw [show subR (0 + 1 + 1 + 1 + 1 + 1 + 1) 1 = .ok 5 from rfl, ok_bind,
      show isoSpan (1/1000) exDouble.uKnots exDouble.uDegree 5 1 = .ok 4 by decide +kernel, ok_bind]
    exact tryNew_sorted (deg := 1) (cps := [((3, 1), 1), ((3, 2), 1)]) (ks := [0, 0, 1, 1]) (by decide) (by decide)
      (by decide +kernel)
  exact ⟨_, ((3, 1), 1), ((2, 0), 1), e2, by decide +kernel, by decide +kernel, by decide +kernel⟩

end Curvo.Props

/-
  `try_add_knot`: what its loop computes, and that for constant weights it is Boehm's insertion.
-/
import Verif.Props.Knot
import Verif.Lemmas.Refine2

set_option linter.unusedSectionVars false

namespace Curvo.Curve

open Curvo.Spec Curvo.Knots Curvo.Props

variable {K : Type} [Field K] [LinearOrder K]
variable {W : Type} [AddCommGroup W] [Module K W]

theorem getD_eq_getElem {α : Type} {l : List α} {d : α} {t : ℕ} (h : t < l.length) :
    l.getD t d = l[t] := by simp [h]

/-- The value written by one round of the loop. -/
def addVal (degree : ℕ) (kn : List K) (idx t : ℕ) (q q' : W × K) : W × K :=
  (q.1 - (1 - (kf kn idx - kf kn t) *
      (if kf kn (t + degree + 1) - kf kn t ≠ 0 then 1 / (kf kn (t + degree + 1) - kf kn t) else 0)) •
    (if t = 0 then q.1 else q.1 - q'.1), q.2)

theorem addKnotStep_eq {degree idx i0 : ℕ} {kn : List K} {cps : List (W × K)}
    (h1 : i0 + degree + 1 < kn.length) (h2 : idx < kn.length) (h3 : i0 < cps.length) :
    addKnotStep degree kn idx cps i0 =
      .ok (cps.set i0 (addVal degree kn idx i0 (cps.getD i0 0) (cps.getD (i0 - 1) 0))) := by
  unfold addKnotStep
  rw [getR_eq_getD 0 h1, getR_eq_getD 0 (by omega : i0 < kn.length), getR_eq_getD 0 h2,
    getR_eq_getD 0 h3]
  simp only [ok_bind]
  by_cases h0 : i0 = 0
  · rw [if_pos h0]
    simp only [pure_eq_ok, ok_bind]
    rw [setR_eq_ok h3]; simp [addVal, h0, kf]
  · rw [if_neg h0, getR_eq_getD 0 (by omega : i0 - 1 < cps.length)]
    simp only [pure_eq_ok, ok_bind]
    rw [setR_eq_ok h3]; simp [addVal, h0, kf]

theorem addKnot_fold {degree idx : ℕ} {kn : List K} {start : ℕ} : ∀ (L : ℕ) (cps : List (W × K)),
    start + L ≤ cps.length → (∀ t, t < start + L → t + degree + 1 < kn.length) → idx < kn.length →
    ∃ cps', (List.range' start L).reverse.foldlM (addKnotStep degree kn idx) cps = .ok cps' ∧
      cps'.length = cps.length ∧
      (∀ t, t < start ∨ start + L ≤ t → cps'.getD t 0 = cps.getD t 0) ∧
      ∀ t, start ≤ t → t < start + L →
        cps'.getD t 0 = addVal degree kn idx t (cps.getD t 0) (cps.getD (t - 1) 0) := by
  intro L
  induction L with
  | zero => intro cps _ _ _; exact ⟨cps, rfl, rfl, fun _ _ => rfl, fun t h h' => by omega⟩
  | succ L ih =>
    intro cps hl hk hidx
    rw [List.range'_concat, List.reverse_append]
    simp only [List.reverse_cons, List.reverse_nil, List.nil_append, List.singleton_append,
      List.foldlM_cons, Nat.one_mul]
    rw [addKnotStep_eq (hk _ (by omega)) hidx (by omega)]
    obtain ⟨cps', e, e1, e2, e3⟩ := ih (cps.set (start + L) (addVal degree kn idx (start + L)
      (cps.getD (start + L) 0) (cps.getD (start + L - 1) 0))) (by simp; omega)
      (fun t ht => hk t (by omega)) hidx
    refine ⟨cps', e, by simpa using e1, ?_, ?_⟩
    · intro t ht
      rw [e2 t (by omega), getD_set_ne (by omega)]
    · intro t h1 h2
      by_cases ht : t = start + L
      · subst ht
        rw [e2 _ (by omega), getD_set_eq (by omega)]
      · rw [e3 t h1 (by omega), getD_set_ne (by omega), getD_set_ne (by omega)]

variable [IsStrictOrderedRing K]

/-- Adding a knot anywhere in the knot range, for constant weights. -/
theorem tryAddKnot_spec {c : Curve K (W × K)} {x w : K} (hd : c.degree < c.cps.length)
    (hlen : c.knots.length = c.cps.length + c.degree + 1) (hsort : c.knots.Pairwise (· ≤ ·))
    (hw : ∀ q ∈ c.cps, q.2 = w) (h1 : kf c.knots 0 ≤ x) (h2 : x ≤ kf c.knots (c.knots.length - 1)) :
    ∃ i c', floor c.knots x = some i ∧ c.tryAddKnot x = .ok c' ∧ c'.degree = c.degree ∧
      c'.knots = c.knots.take (i + 1) ++ x :: c.knots.drop (i + 1) ∧
      c'.cps.length = c.cps.length + 1 ∧ (∀ q ∈ c'.cps, q.2 = w) ∧
      (c.degree ≤ i → i < c.cps.length → c' = c.insertOne i x) ∧
      ∀ b u s, c.degree ≤ s → s < c.cps.length → InSpan (kf c.knots) b u s →
        (∃ s', ((s' = s ∧ s ≤ i) ∨ (s' = s + 1 ∧ i ≤ s)) ∧ InSpan (kf c'.knots) b u s') ∧
          c'.evalB b u = c.evalB b u := by
  obtain ⟨i, hfl⟩ : ∃ i, floor c.knots x = some i := by
    cases hf : floor c.knots x with
    | some i => exact ⟨i, rfl⟩
    | none =>
      have := rposition_none hf (kf c.knots 0) (by rw [kf_eq (by omega)]; exact List.getElem_mem _)
      simp at this
      exact absurd h1 (not_le.2 this)
  obtain ⟨hi, hi1, hi2⟩ := rposition_some hfl
  have hi1 : kf c.knots i ≤ x := by rw [kf_eq hi]; simpa using hi1
  have hi2 : ∀ j, i < j → j < c.knots.length → x < kf c.knots j := by
    intro j hj hj'; rw [kf_eq hj']; simpa using hi2 j hj hj'
  have hadd : add c.knots x = (c.knots.take (i + 1) ++ x :: c.knots.drop (i + 1), i + 1) := by
    unfold add; rw [hfl]
    simp only
    rw [insertIdx_take_drop x c.knots (i + 1) (by omega)]
  set kn := c.knots.take (i + 1) ++ x :: c.knots.drop (i + 1) with hkn
  have hknl : kn.length = c.knots.length + 1 := by simp [hkn]; omega
  have hkf : kf kn = insKnot (kf c.knots) i x := kf_insert hi
  have hmono : MonoUpTo (kf c.knots) (c.cps.length - 1 + c.degree + 1) := mono_of_sorted hsort (by omega)
  -- the control points before the loop
  obtain ⟨cps0, stop, hst, hbranch, hl0, hlow, hhigh, hw0, hstop⟩ :
      ∃ (cps0 : List (W × K)) (stop : ℕ), stop ≤ i + 1 ∧
        addKnotDup c.cps (i + 1) = .ok (cps0, stop) ∧
        cps0.length = c.cps.length + 1 ∧
        (∀ t, t ≤ i → t < c.cps.length → cps0.getD t 0 = c.cps.getD t 0) ∧
        (∀ t, i < t → t ≤ c.cps.length → cps0.getD t 0 = c.cps.getD (t - 1) 0) ∧
        (∀ q ∈ cps0, q.2 = w) ∧ (stop = i + 1 ∧ i < c.cps.length ∨ stop = c.cps.length + 1 ∧ c.cps.length ≤ i) := by
    by_cases hb : c.cps.length < i + 1
    · have hne : c.cps ≠ [] := by intro h; rw [h] at hd; simp at hd
      refine ⟨c.cps ++ [c.cps.getLast hne], c.cps.length + 1, by omega, ?_, by simp, ?_, ?_, ?_, by omega⟩
      · rw [addKnotDup, if_pos hb, List.getLast?_eq_getLast_of_ne_nil hne]; rfl
      · intro t _ ht; rw [getD_append_left ht]
      · intro t ht ht'; omega
      · intro q hq
        rcases List.mem_append.1 hq with h | h
        · exact hw q h
        · rw [List.mem_singleton.1 h]; exact hw _ (List.getLast_mem hne)
    · have hin : i < c.cps.length := by omega
      have hins := insertIdx_take_drop (c.cps.getD i 0) c.cps i hin.le
      refine ⟨c.cps.insertIdx i (c.cps.getD i 0), i + 1, le_refl _, ?_, ?_, ?_, ?_, ?_, by omega⟩
      · rw [addKnotDup, if_neg hb, subR_eq_ok (by omega)]
        simp only [ok_bind, Nat.add_sub_cancel]
        rw [getR_eq_getD 0 hin]; rfl
      · rw [hins]; simp; omega
      · intro t ht htl
        rw [hins]
        rcases Nat.lt_or_eq_of_le ht with h | rfl
        · rw [getD_append_left (by simp; omega), getD_take h]
        · rw [getD_append_right (by simp)]; simp [hin.le]
      · intro t ht htl
        rw [hins, getD_append_right (by simp; omega)]
        obtain ⟨d, rfl⟩ : ∃ d, t = i + (d + 1) := ⟨t - (i + 1), by omega⟩
        have e : i + (d + 1) - (c.cps.take i).length = d + 1 := by simp; omega
        rw [e, List.getD_cons_succ, getD_drop]
        congr 1
      · intro q hq
        have hmem : c.cps.getD i 0 ∈ c.cps := by
          rw [getD_eq_getElem hin]; exact List.getElem_mem _
        rw [hins] at hq
        rcases List.mem_append.1 hq with h | h
        · exact hw q (List.mem_of_mem_take h)
        · rcases List.mem_cons.1 h with rfl | h
          · exact hw _ hmem
          · exact hw q (List.mem_of_mem_drop h)
  obtain ⟨cps', e, e1, e2, e3⟩ := addKnot_fold (degree := c.degree) (idx := i + 1) (kn := kn)
    (start := i + 1 - c.degree) (stop - (i + 1 - c.degree)) cps0 (by omega)
    (by intro t ht; omega) (by omega)
  have hval2 : ∀ t, t ≤ c.cps.length → (cps'.getD t 0).2 = w := by
    intro t ht
    have hm : (cps0.getD t 0).2 = w := by
      apply hw0
      rw [getD_eq_getElem (by omega)]; exact List.getElem_mem _
    by_cases hr : i + 1 - c.degree ≤ t ∧ t < i + 1 - c.degree + (stop - (i + 1 - c.degree))
    · rw [e3 t hr.1 hr.2]; exact hm
    · rw [e2 t (by omega)]; exact hm
  have hval : ∀ t, t ≤ c.cps.length → (t < c.cps.length ∨ i < t) → (0 < t ∨ c.degree ≤ i) →
      cps'.getD t 0 = insCps (kf c.knots) c.degree i x (fun t => c.cps.getD t 0) t := by
    intro t ht hor hor'
    by_cases hA : t + c.degree ≤ i
    · rw [insCps_le hA, e2 t (by omega), hlow t (by omega) (by omega)]
    by_cases hB : i < t
    · rw [insCps_gt hB, e2 t (by omega), hhigh t hB (by omega)]
    have htlt : t < c.cps.length := by omega
    have hq : (c.cps.getD t 0).2 = w := by
      apply hw; rw [getD_eq_getElem (by omega)]; exact List.getElem_mem _
    have hq' : (c.cps.getD (t - 1) 0).2 = w := by
      apply hw; rw [getD_eq_getElem (by omega)]; exact List.getElem_mem _
    rw [e3 t (by omega) (by omega), hlow t (by omega) htlt, hlow (t - 1) (by omega) (by omega)]
    have ht0 : t ≠ 0 := by omega
    have k1 : kf kn (i + 1) = x := by rw [hkf, insKnot_mid]
    have k2 : kf kn t = kf c.knots t := by rw [hkf, insKnot_le (by omega)]
    have k3 : kf kn (t + c.degree + 1) = kf c.knots (t + c.degree) := by rw [hkf, insKnot_gt (by omega)]
    have hpos : kf c.knots t < kf c.knots (t + c.degree) :=
      lt_of_le_of_lt (le_trans (hmono t i (by omega) (by omega)) hi1) (hi2 _ (by omega) (by omega))
    have hne : kf c.knots (t + c.degree) - kf c.knots t ≠ 0 := (sub_pos.2 hpos).ne'
    rw [addVal, k1, k2, k3, if_pos hne, if_neg ht0, insCps, insAlpha, if_neg hA, if_neg hB]
    have ha : (x - kf c.knots t) * (1 / (kf c.knots (t + c.degree) - kf c.knots t)) =
        1 - (kf c.knots (t + c.degree) - x) / (kf c.knots (t + c.degree) - kf c.knots t) := by
      field_simp; ring
    rw [ha]
    generalize (kf c.knots (t + c.degree) - x) / (kf c.knots (t + c.degree) - kf c.knots t) = a
    apply Prod.ext
    · simp only [Prod.fst_add, Prod.smul_fst]; module
    · simp only [Prod.snd_add, Prod.smul_snd, hq, hq', smul_eq_mul]; ring
  refine ⟨i, { degree := c.degree, cps := cps', knots := kn }, hfl, ?_, rfl, rfl, by rw [← hl0, ← e1], ?_, ?_, ?_⟩
  · unfold tryAddKnot
    rw [getR_eq_getD 0 (by omega : 0 < c.knots.length)]
    simp only [ok_bind]
    rw [if_neg (by rw [not_not]; exact h1)]
    have hlast : Knots.last c.knots = .ok (kf c.knots (c.knots.length - 1)) := by
      unfold Knots.last
      first
        | rw [subR_eq_ok (by omega)]; simp only [ok_bind]; rw [getR_eq_getD 0 (by omega)]; rfl
        | rw [getR_eq_getD 0 (by omega)]; rfl
    rw [hlast]
    simp only [ok_bind]
    rw [if_neg (by rw [not_not]; exact h2), hadd]
    simp only
    rw [hbranch]
    simp only [ok_bind]
    rw [e]; rfl
  · intro q hq
    obtain ⟨t, ht, rfl⟩ := List.mem_iff_getElem.1 hq
    have := hval2 t (by simp at ht; omega)
    rwa [getD_eq_getElem ht] at this
  · intro hpi hin
    unfold insertOne
    congr 1
    apply List.ext_getElem
    · simp; omega
    · intro t h1 h2
      have := hval t (by omega) (by omega) (by omega)
      rw [getD_eq_getElem h1] at this
      rw [this]; simp
  · intro b u s hps hs hsp
    obtain ⟨s', hss, hs'⟩ := inSpan_insKnot (i := i) (x := x) hsp
    refine ⟨⟨s', hss, by show InSpan (kf kn) b u s'; rw [hkf]; exact hs'⟩, ?_⟩
    have hnext : i + 1 ≤ c.cps.length - 1 + c.degree + 1 → x ≤ kf c.knots (i + 1) :=
      fun h => (hi2 _ (by omega) (by omega)).le
    have key := sum_insert' (u := u) hmono (by omega) hi1 hnext hps (by omega) hss
      (inSpan_lt hs') (fun t => c.cps.getD t 0)
    have hmono' : MonoUpTo (kf kn) (c.cps.length + 1 - 1 + c.degree + 1) := by
      rw [hkf]
      have := insKnot_mono hmono (by omega) hi1 hnext
      rwa [show c.cps.length - 1 + c.degree + 1 + 1 = c.cps.length + 1 - 1 + c.degree + 1 by omega] at this
    rw [evalB_eq_NS (c := c) hmono hs hsp, evalB_eq_NS (c := { degree := c.degree, cps := cps', knots := kn })
      (s := s') (by show MonoUpTo (kf kn) (cps'.length - 1 + c.degree + 1); rw [e1, hl0]; exact hmono')
      (by show s' < cps'.length; omega) (by show InSpan (kf kn) b u s'; rw [hkf]; exact hs')]
    rw [show c.cps.length - 1 + 2 = c.cps.length + 1 by omega,
        show c.cps.length - 1 + 1 = c.cps.length by omega] at key
    rw [← key]
    show (Finset.range cps'.length).sum (fun t => NS (kf kn) s' c.degree t u • cps'.getD t 0) = _
    rw [e1, hl0, hkf]
    apply Finset.sum_congr rfl
    intro t ht
    have ht := Finset.mem_range.1 ht
    by_cases hz : NS (insKnot (kf c.knots) i x) s' c.degree t u = 0
    · rw [hz, zero_smul, zero_smul]
    have ht1 : t ≤ s' := by
      by_contra hc; exact hz (NS_eq_zero_right _ _ _ _ _ (by omega))
    have ht2 : s' ≤ t + c.degree := by
      by_contra hc; exact hz (NS_eq_zero_left _ _ _ _ _ (by omega))
    congr 1
    exact hval t (by omega) (by omega) (by omega)

end Curvo.Curve

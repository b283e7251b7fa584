/-
  `try_refine_knot` performs one Boehm insertion per inserted knot, from the right.
-/
import Mathlib.Algebra.Order.AbsoluteValue.Basic
import Verif.Model.Refine
import Verif.Lemmas.Insert

set_option linter.unusedSectionVars false

namespace Curvo.Curve

open Curvo.Spec

variable {K : Type} [Field K] [LinearOrder K]
variable {V : Type} [AddCommGroup V] [Module K V]

/-- The curve a loop state stands for: the untouched left part of the original followed by the already
    computed right part. -/
def view (c : Curve K V) (s : RefState K V) : Curve K V where
  degree := c.degree
  knots := c.knots.take (s.i + 1) ++ s.kn.drop (s.k + 1)
  cps := c.cps.take (s.i - c.degree) ++ s.cp.drop (s.k - c.degree)

/-- Loop invariant: `q` knots are still to be inserted, out of `r1`, and `x` bounds the right part. -/
structure RInv (c : Curve K V) (a r1 q : ℕ) (x : K) (s : RefState K V) : Prop where
  k_eq : s.k = s.i + q
  kn_len : s.kn.length = c.knots.length + r1
  cp_len : s.cp.length = c.cps.length + r1
  q_le : q ≤ r1
  a_le : a ≤ s.i
  i_le : s.i < c.cps.length + c.degree
  kn_take : s.kn.take (a + 1) = c.knots.take (a + 1)
  cp_take : s.cp.take (a - c.degree) = c.cps.take (a - c.degree)
  right : ∀ y ∈ s.kn.drop (s.k + 1), x ≤ y

theorem take_set_of_le {α : Type} {l : List α} {n k : ℕ} {v : α} (h : n ≤ k) :
    (l.set k v).take n = l.take n := by
  apply List.ext_getElem?
  intro j
  by_cases hj : j < n
  · rw [List.getElem?_take_of_lt hj, List.getElem?_take_of_lt hj, List.getElem?_set_ne (by omega)]
  · rw [List.getElem?_eq_none (by simp; omega), List.getElem?_eq_none (by simp; omega)]

theorem drop_set_self {α : Type} {l : List α} {k : ℕ} {v : α} (h : k < l.length) :
    (l.set k v).drop k = v :: l.drop (k + 1) := by
  rw [List.drop_eq_getElem_cons (by simpa using h)]
  simp [List.drop_set]

theorem take_succ_append {α : Type} {l r : List α} {i j : ℕ} (hj : j = i + 1) (h : i < l.length) :
    l.take j ++ r = l.take i ++ l[i] :: r := by
  rw [hj, List.take_succ_eq_append_getElem h, List.append_assoc]; rfl

/-- The `while` loop does not change the curve the state stands for. -/
theorem refineWhile_spec {c : Curve K V} {a r1 q : ℕ} {x : K} (hd : c.degree < c.cps.length)
    (hl : c.knots.length = c.cps.length + c.degree + 1) (hpa : c.degree ≤ a) (hq : 0 < q) :
    ∀ fuel s, RInv c a r1 q x s → s.i < fuel →
      ∃ s', refineWhile c a x fuel s = .ok s' ∧ RInv c a r1 q x s' ∧ view c s' = view c s ∧
        (kf c.knots s'.i < x ∨ s'.i = a) := by
  intro fuel
  induction fuel with
  | zero => intro s _ h; omega
  | succ fuel ih =>
    intro s hs hf
    obtain ⟨hk, hkl, hcl, hqr, hai, hil, hkt, hct, hr⟩ := hs
    rw [refineWhile, getR_kf (by omega), ok_bind]
    split
    · rename_i hc
      have hip : c.degree + 1 ≤ s.i := by omega
      rw [subR_eq_ok (by omega), ok_bind, subR_eq_ok (by omega), ok_bind,
        getR_eq_ok (by omega : s.i - c.degree - 1 < c.cps.length), ok_bind,
        subR_eq_ok (by omega), ok_bind, subR_eq_ok (by omega), ok_bind,
        setR_eq_ok (by omega), ok_bind, setR_eq_ok (by omega), ok_bind,
        subR_eq_ok (by omega), ok_bind, subR_eq_ok (by omega), ok_bind]
      have hkn : (s.kn.set s.k (kf c.knots s.i)).drop (s.k - 1 + 1) =
          kf c.knots s.i :: s.kn.drop (s.k + 1) := by
        rw [show s.k - 1 + 1 = s.k by omega, drop_set_self (by omega)]
      obtain ⟨s', h1, h2, h3, h4⟩ := ih { cp := s.cp.set (s.k - c.degree - 1) c.cps[s.i - c.degree - 1], kn := s.kn.set s.k (kf c.knots s.i), k := s.k - 1, i := s.i - 1 }
        ⟨by show s.k - 1 = s.i - 1 + q; omega, by simpa using hkl, by simpa using hcl, hqr,
          by show a ≤ s.i - 1; omega, by show s.i - 1 < _; omega,
          by show List.take _ (s.kn.set _ _) = _; rw [take_set_of_le (by omega)]; exact hkt,
          by show List.take _ (s.cp.set _ _) = _; rw [take_set_of_le (by omega)]; exact hct,
          by
            show ∀ y ∈ (s.kn.set s.k (kf c.knots s.i)).drop (s.k - 1 + 1), x ≤ y
            rw [hkn]
            intro y hy
            rcases List.mem_cons.1 hy with rfl | hy
            · exact hc.1
            · exact hr y hy⟩ (by show s.i - 1 < fuel; omega)
      refine ⟨s', h1, h2, ?_, h4⟩
      rw [h3]
      unfold view
      congr 1
      · show List.take (s.i - 1 - c.degree) c.cps ++
          (s.cp.set (s.k - c.degree - 1) _).drop (s.k - 1 - c.degree) = _
        rw [show s.k - 1 - c.degree = s.k - c.degree - 1 by omega, drop_set_self (by omega),
          show s.i - 1 - c.degree = s.i - c.degree - 1 by omega,
          show s.k - c.degree - 1 + 1 = s.k - c.degree by omega,
          take_succ_append (i := s.i - c.degree - 1) (j := s.i - c.degree) (by omega) (by omega)]
      · show List.take (s.i - 1 + 1) c.knots ++ (s.kn.set s.k _).drop (s.k - 1 + 1) = _
        rw [hkn, show s.i - 1 + 1 = s.i by omega, take_succ_append (j := s.i + 1) rfl (by omega), kf_eq (by omega)]
    · rename_i hc
      refine ⟨s, rfl, ⟨hk, hkl, hcl, hqr, hai, hil, hkt, hct, hr⟩, rfl, ?_⟩
      by_cases h : a < s.i
      · left; exact lt_of_not_ge fun h' => hc ⟨h', h⟩
      · right; omega

theorem getD_set_eq {α : Type} {l : List α} {k : ℕ} {v d : α} (h : k < l.length) :
    (l.set k v).getD k d = v := by
  simp [List.getD_eq_getElem?_getD, h]

theorem getD_set_ne {α : Type} {l : List α} {k j : ℕ} {v d : α} (h : k ≠ j) :
    (l.set k v).getD j d = l.getD j d := by
  simp [List.getD_eq_getElem?_getD, List.getElem?_set_ne h]

/-- The inner loop overwrites `degree` control points by the affine combinations `g`. -/
theorem refineAlpha_fold {eps : K} {c : Curve K V} {x : K} {kn : List K} {k i : ℕ} {cp : List V}
    (hpi : c.degree ≤ i) (hik : i ≤ k) (hk : k < cp.length) (hkn : k + c.degree < kn.length)
    (hil : i < c.knots.length) (hpk : c.degree < k)
    (hsep : ∀ l, 1 ≤ l → l ≤ c.degree → |kf kn (k + l) - x| < eps → kf kn (k + l) = x) :
    ∀ L, L ≤ c.degree → ∃ cp', (List.range' 1 L).foldlM (refineAlpha eps c x kn k i) cp = .ok cp' ∧
      cp'.length = cp.length ∧
      (∀ t, t < k - c.degree ∨ k - c.degree + L ≤ t → cp'.getD t 0 = cp.getD t 0) ∧
      (∀ l, 1 ≤ l → l ≤ L → cp'.getD (k - c.degree + l - 1) 0 =
        lerp (cp.getD (k - c.degree + l - 1) 0) (cp.getD (k - c.degree + l) 0)
          (1 - (kf kn (k + l) - x) / (kf kn (k + l) - kf c.knots (i - c.degree + l)))) := by
  intro L
  induction L with
  | zero => intro _; exact ⟨cp, rfl, rfl, fun _ _ => rfl, fun l h1 h2 => by omega⟩
  | succ L ih =>
    intro hL
    obtain ⟨cp1, h1, h2, h3, h4⟩ := ih (by omega)
    set v := lerp (cp.getD (k - c.degree + L) 0) (cp.getD (k - c.degree + (L + 1)) 0)
      (1 - (kf kn (k + (L + 1)) - x) / (kf kn (k + (L + 1)) - kf c.knots (i - c.degree + (L + 1)))) with hv
    have step : refineAlpha eps c x kn k i cp1 (1 + L) = .ok (cp1.set (k - c.degree + L) v) := by
      have hD : subR k c.degree = .ok (k - c.degree) := subR_eq_ok (by omega)
      rw [refineAlpha, hD, ok_bind]
      have e1 : k - c.degree + (1 + L) = k - c.degree + L + 1 := by omega
      simp only [e1]
      rw [if_pos (by omega), getR_kf (by omega), ok_bind, subR_eq_ok (by omega), ok_bind]
      have e2 : k + (1 + L) = k + (L + 1) := by omega
      have g1 : cp1.getD (k - c.degree + L + 1) 0 = cp.getD (k - c.degree + (L + 1)) 0 :=
        h3 _ (Or.inr (by omega))
      have g0 : cp1.getD (k - c.degree + L) 0 = cp.getD (k - c.degree + L) 0 := h3 _ (Or.inr (by omega))
      rw [e2]
      split
      · rename_i hsmall
        rw [getR_eq_getD (0 : V) (by omega), ok_bind, setR_eq_ok (by omega), g1,
          Nat.add_sub_cancel]
        congr 2
        rw [hv, hsep (L + 1) (by omega) hL hsmall]
        simp [lerp]
      · rw [subR_eq_ok (by omega), ok_bind, getR_kf (by omega), ok_bind,
          getR_eq_getD (0 : V) (by omega), ok_bind, getR_eq_getD (0 : V) (by omega), ok_bind,
          setR_eq_ok (by omega), Nat.add_sub_cancel, g0, g1, hv,
          show i - c.degree + (1 + L) = i - c.degree + (L + 1) by omega]
        congr 3
        by_cases hz : kf kn (k + (L + 1)) - kf c.knots (i - c.degree + (L + 1)) = 0
        · rw [hz]; simp
        · rw [if_pos hz]
    refine ⟨cp1.set (k - c.degree + L) v, ?_, by simpa using h2, ?_, ?_⟩
    · rw [List.range'_1_concat, List.foldlM_append, h1]
      simp only [List.foldlM_cons, List.foldlM_nil, ok_bind]
      rw [step, ok_bind]; rfl
    · intro t ht
      rw [getD_set_ne (by omega), h3 t (by omega)]
    · intro l hl1 hl2
      rcases Nat.lt_or_eq_of_le hl2 with h | h
      · rw [getD_set_ne (by omega), h4 l hl1 (by omega)]
      · subst h
        rw [show k - c.degree + (L + 1) - 1 = k - c.degree + L by omega, getD_set_eq (by omega), hv]

theorem ext_getD {α : Type} {l r : List α} {d : α} (hl : l.length = r.length)
    (h : ∀ t, t < l.length → l.getD t d = r.getD t d) : l = r := by
  apply List.ext_getElem hl
  intro t h1 h2
  have := h t h1
  simpa [List.getD_eq_getElem?_getD, h1, h2] using this

theorem getD_append_left {α : Type} {l r : List α} {d : α} {t : ℕ} (h : t < l.length) :
    (l ++ r).getD t d = l.getD t d := by
  simp [List.getD_eq_getElem?_getD, List.getElem?_append_left h]

theorem getD_append_right {α : Type} {l r : List α} {d : α} {t : ℕ} (h : l.length ≤ t) :
    (l ++ r).getD t d = r.getD (t - l.length) d := by
  simp [List.getD_eq_getElem?_getD, List.getElem?_append_right h]

theorem getD_take {α : Type} {l : List α} {d : α} {n t : ℕ} (h : t < n) :
    (l.take n).getD t d = l.getD t d := by
  simp [List.getD_eq_getElem?_getD, List.getElem?_take_of_lt h]

theorem getD_drop {α : Type} {l : List α} {d : α} {n t : ℕ} :
    (l.drop n).getD t d = l.getD (n + t) d := by
  simp [List.getD_eq_getElem?_getD, List.getElem?_drop]

/-- One round of the outer loop is one Boehm insertion. -/
theorem refineStep_spec {eps : K} {c : Curve K V} {a r1 q : ℕ} {x : K} {s : RefState K V}
    (hd : c.degree < c.cps.length)
    (hl : c.knots.length = c.cps.length + c.degree + 1) (hpa : c.degree ≤ a) (han : a < c.cps.length)
    (hq : 0 < q) (hs : RInv c a r1 q x s)
    (hmono : c.knots.Pairwise (· ≤ ·)) (hax : kf c.knots a ≤ x) (hxhi : x ≤ c.hi)
    (hsep : ∀ y ∈ (view c s).knots, |y - x| < eps → y = x) :
    ∃ s', refineStep eps c a s x = .ok s' ∧ RInv c a r1 (q - 1) x s' ∧
      c.degree ≤ s'.i ∧ s'.i < c.cps.length ∧
      (∀ y ∈ (view c s).knots.take (s'.i + 1), y ≤ x) ∧
      (∀ y ∈ (view c s).knots.drop (s'.i + 1), x ≤ y) ∧
      (kf c.knots s'.i < x ∨ s'.i = a) ∧
      view c s' = (view c s).insertOne s'.i x := by
  obtain ⟨t, h1, h2, h3, h4⟩ := refineWhile_spec hd hl hpa hq (s.i + 1) s hs (by omega)
  have hit : t.i < c.cps.length := by
    rcases h4 with h | h
    · by_contra hge
      have := mono_of_sorted hmono (m := t.i) (by have := h2.i_le; omega) c.cps.length t.i (by omega)
        (le_refl _)
      exact absurd (lt_of_le_of_lt this h) (not_lt.2 hxhi)
    · omega
  have hvt : kf c.knots t.i ≤ x := by
    rcases h4 with h | h
    · exact h.le
    · rw [h]; exact hax
  obtain ⟨hk, hkl, hcl, hqr, hai, hil, hkt, hct, hr⟩ := h2
  have hv : (view c s).knots = c.knots.take (t.i + 1) ++ t.kn.drop (t.k + 1) := by rw [← h3]; rfl
  have hvl : (c.knots.take (t.i + 1)).length = t.i + 1 := by simp; omega
  have hvtake : (view c s).knots.take (t.i + 1) = c.knots.take (t.i + 1) := by
    rw [hv, List.take_left' hvl]
  have hvdrop : (view c s).knots.drop (t.i + 1) = t.kn.drop (t.k + 1) := by
    rw [hv, List.drop_left' hvl]
  have hW1 : ∀ j, j ≤ t.i → kf (view c s).knots j = kf c.knots j := by
    intro j hj
    rw [hv]; unfold kf
    rw [getD_append_left (by omega), getD_take (by omega)]
  have hW2 : ∀ l, 1 ≤ l → kf (view c s).knots (t.i + l) = kf t.kn (t.k + l) := by
    intro l hl1
    rw [hv]; unfold kf
    rw [getD_append_right (by omega), hvl, getD_drop]
    congr 1; omega
  have hcv : (view c s).cps = c.cps.take (t.i - c.degree) ++ t.cp.drop (t.k - c.degree) := by
    rw [← h3]; rfl
  have hcvl : (c.cps.take (t.i - c.degree)).length = t.i - c.degree := by simp; omega
  have hQ1 : ∀ j, j < t.i - c.degree → (view c s).cps.getD j 0 = c.cps.getD j 0 := by
    intro j hj
    rw [hcv, getD_append_left (by omega), getD_take hj]
  have hQ2 : ∀ e, (view c s).cps.getD (t.i - c.degree + e) 0 = t.cp.getD (t.k - c.degree + e) 0 := by
    intro e
    rw [hcv, getD_append_right (by omega), hcvl, getD_drop]
    congr 1; omega
  -- run the code
  obtain ⟨cp', f1, f2, f3, f4⟩ := refineAlpha_fold (eps := eps) (c := c) (x := x) (kn := t.kn) (k := t.k)
    (i := t.i) (cp := t.cp.set (t.k - c.degree - 1) (t.cp.getD (t.k - c.degree) 0)) (by omega) (by omega)
    (by simp; omega) (by omega) (by omega) (by omega)
    (by
      intro l hl1 hl2 hsm
      apply hsep _ _ hsm
      rw [hv]
      apply List.mem_append_right
      rw [kf_eq (by omega)]
      exact List.mem_drop_iff_getElem.2 ⟨l - 1, by omega, by congr 1; omega⟩)
    c.degree (le_refl _)
  have run : refineStep eps c a s x = .ok
      { cp := cp', kn := t.kn.set t.k x, k := t.k - 1, i := t.i } := by
    rw [refineStep, h1, ok_bind, subR_eq_ok (by omega), ok_bind, subR_eq_ok (by omega), ok_bind,
      getR_eq_getD (0 : V) (by omega), ok_bind, setR_eq_ok (by omega), ok_bind, f1, ok_bind,
      setR_eq_ok (by omega), ok_bind, subR_eq_ok (by omega), ok_bind]
    rfl
  have hknd : (t.kn.set t.k x).drop (t.k - 1 + 1) = x :: t.kn.drop (t.k + 1) := by
    rw [show t.k - 1 + 1 = t.k by omega, drop_set_self (by omega)]
  have hset : ∀ j, j ≠ t.k - c.degree - 1 → (t.cp.set (t.k - c.degree - 1)
      (t.cp.getD (t.k - c.degree) 0)).getD j 0 = t.cp.getD j 0 := fun j hj => getD_set_ne (by omega)
  simp only [List.length_set] at f2
  refine ⟨_, run, ⟨?_, by simpa using hkl, by show cp'.length = _; omega, by omega, hai, hil,
    ?_, ?_, ?_⟩, by show c.degree ≤ t.i; omega, hit, ?_, ?_, h4, ?_⟩
  · show t.k - 1 = t.i + (q - 1); omega
  · show (t.kn.set t.k x).take (a + 1) = _
    rw [take_set_of_le (by omega)]; exact hkt
  · show cp'.take (a - c.degree) = _
    rw [← hct]
    apply ext_getD (d := 0)
    · simp only [List.length_take]; omega
    · intro j hj
      simp only [List.length_take] at hj
      rw [getD_take (by omega), getD_take (by omega), f3 j (by omega), hset j (by omega)]
  · show ∀ y ∈ (t.kn.set t.k x).drop (t.k - 1 + 1), x ≤ y
    rw [hknd]
    intro y hy
    rcases List.mem_cons.1 hy with rfl | hy
    · exact le_refl _
    · exact hr y hy
  · show ∀ y ∈ (view c s).knots.take (t.i + 1), y ≤ x
    rw [hvtake]
    intro y hy
    obtain ⟨j, hj, rfl⟩ := List.mem_take_iff_getElem.1 hy
    refine le_trans ?_ hvt
    rw [← kf_eq]
    exact mono_of_sorted hmono (m := t.i) (by omega) _ _ (by omega) (le_refl _)
  · show ∀ y ∈ (view c s).knots.drop (t.i + 1), x ≤ y
    rw [hvdrop]; exact hr
  · show view c _ = (view c s).insertOne t.i x
    unfold insertOne
    rw [view]
    congr 1
    · -- control points
      show c.cps.take (t.i - c.degree) ++ cp'.drop (t.k - 1 - c.degree) = _
      have hlen : (view c s).cps.length = t.i - c.degree + (t.cp.length - (t.k - c.degree)) := by
        rw [hcv, List.length_append, hcvl, List.length_drop]
      apply ext_getD (d := 0)
      · rw [List.length_append, hcvl, List.length_drop, List.length_map, List.length_range, hlen]
        omega
      · intro j hj
        rw [List.length_append, hcvl, List.length_drop] at hj
        rw [getD_map_range (by omega)]
        show _ = insCps (kf (view c s).knots) c.degree t.i x _ j
        by_cases c1 : j < t.i - c.degree
        · rw [getD_append_left (by omega), getD_take c1, insCps_le (by omega), hQ1 j c1]
        · obtain ⟨e, rfl⟩ : ∃ e, j = t.i - c.degree + e := ⟨j - (t.i - c.degree), by omega⟩
          rw [getD_append_right (by omega), hcvl, getD_drop, Nat.add_sub_cancel_left]
          by_cases c2 : e = 0
          · subst c2
            rw [f3 _ (by omega), show t.k - 1 - c.degree + 0 = t.k - c.degree - 1 by omega,
              getD_set_eq (by omega), insCps_le (by omega), hQ2 0]; rfl
          · by_cases c3 : e ≤ c.degree
            · rw [show t.k - 1 - c.degree + e = t.k - c.degree + e - 1 by omega, f4 e (by omega) c3,
                hset _ (by omega), hset _ (by omega), insCps, hQ2 e,
                show t.i - c.degree + e - 1 = t.i - c.degree + (e - 1) by omega, hQ2 (e - 1),
                insAlpha, if_neg (by omega), if_neg (by omega),
                show t.i - c.degree + e + c.degree = t.i + e by omega, hW2 e (by omega),
                hW1 _ (by omega), lerp, show t.k - c.degree + e - 1 = t.k - c.degree + (e - 1) by omega]
              exact add_comm _ _
            · rw [f3 _ (by omega), hset _ (by omega), insCps_gt (by omega),
                show t.i - c.degree + e - 1 = t.i - c.degree + (e - 1) by omega, hQ2 (e - 1)]
              congr 1; omega
    · show c.knots.take (t.i + 1) ++ (t.kn.set t.k x).drop (t.k - 1 + 1) = _
      rw [hknd, hvtake, hvdrop]

theorem RInv.weaken {c : Curve K V} {a r1 q : ℕ} {x y : K} {s : RefState K V}
    (h : RInv c a r1 q x s) (hy : y ≤ x) : RInv c a r1 q y s :=
  { h with right := fun z hz => le_trans hy (h.right z hz) }

/-- The whole outer loop. -/
theorem refineFold_spec [IsStrictOrderedRing K] {eps : K} {c : Curve K V} {a r1 : ℕ}
    (hd : c.degree < c.cps.length)
    (hl : c.knots.length = c.cps.length + c.degree + 1) (hpa : c.degree ≤ a) (han : a < c.cps.length)
    (hmono : c.knots.Pairwise (· ≤ ·)) :
    ∀ (ys : List K) (z : K) (s : RefState K V), RInv c a r1 ys.length z s →
      ys.Pairwise (· ≥ ·) → (∀ y ∈ ys, y ≤ z) → (∀ y ∈ ys, kf c.knots a ≤ y ∧ y ≤ c.hi) →
      (∀ x ∈ ys, ∀ y ∈ ys ++ (view c s).knots, |y - x| < eps → y = x) → (view c s).Pre →
      ∃ s' z', ys.foldlM (refineStep eps c a) s = .ok s' ∧ RInv c a r1 0 z' s' ∧
        (Refines (view c s) (view c s') ys ∧ Hull (view c s) (view c s')) ∧
        (∀ y, ys.getLast? = some y → kf c.knots s'.i < y ∨ s'.i = a)
  | [], z, s, hs, _, _, _, _, hp => ⟨s, z, rfl, hs, ⟨Refines.refl hp, Hull.refl _⟩, by simp⟩
  | x :: ys, z, s, hs, hsort, hz, hdom, hsep, hp => by
    have hsort' := List.pairwise_cons.1 hsort
    obtain ⟨s1, e1, e2, e3, e4, e5, e6, e7, e8⟩ := refineStep_spec (eps := eps) hd hl hpa han
      (by simp) (hs.weaken (hz x (by simp))) hmono (hdom x (by simp)).1 (hdom x (by simp)).2
      (fun y hy => hsep x (by simp) y (List.mem_append_right _ hy))
    have hlt : s1.i < (view c s).cps.length := by
      show s1.i < (c.cps.take _ ++ s.cp.drop _).length
      have := hs.cp_len; have := hs.k_eq; have := hs.a_le; have := hs.q_le; have := hs.i_le
      simp only [List.length_append, List.length_take, List.length_drop]; omega
    have hR : Refines (view c s) (view c s1) [x] := by
      rw [e8]; exact insertOne_refines hp e3 hlt e5 e6
    have hH : Hull (view c s) (view c s1) := by
      rw [e8]; exact insertOne_hull hp e3 hlt e5 e6
    simp only [List.length_cons, Nat.add_sub_cancel] at e2
    obtain ⟨s', z', f1, f2, f3, f4⟩ := refineFold_spec (eps := eps) hd hl hpa han hmono ys x s1 e2
      hsort'.2 hsort'.1 (fun y hy => hdom y (List.mem_cons_of_mem _ hy))
      (by
        intro w hw y hy
        apply hsep w (List.mem_cons_of_mem _ hw) y
        rcases List.mem_append.1 hy with h | h
        · exact List.mem_append_left _ (List.mem_cons_of_mem _ h)
        · have := hR.knots.subset h
          simp only [List.mem_append, List.mem_cons, List.not_mem_nil, or_false] at this ⊢
          tauto)
      hR.pre
    refine ⟨s', z', by rw [List.foldlM_cons, e1, ok_bind, f1], f2, ⟨hR.trans f3.1, hH.trans f3.2⟩, ?_⟩
    intro y hy
    cases ys with
    | nil =>
      have : s' = s1 := (Except.ok.inj f1).symm
      subst this
      simp at hy; subst hy; exact e7
    | cons y0 ys => exact f4 y (by simpa using hy)

theorem copyRange_spec {α : Type} {src dst : List α} {d lo hi : ℕ} (a0 : α) (h1 : hi < src.length)
    (h2 : hi + d < dst.length) :
    ∃ dst', copyRange src d lo hi dst = .ok dst' ∧ dst'.length = dst.length ∧
      (∀ t, t < lo + d ∨ hi + d < t → dst'.getD t a0 = dst.getD t a0) ∧
      (∀ t, lo ≤ t → t ≤ hi → dst'.getD (t + d) a0 = src.getD t a0) := by
  unfold copyRange
  have key : ∀ L, lo + L ≤ hi + 1 → ∃ dst', (List.range' lo L).foldlM (copyShift src d) dst = .ok dst' ∧
      dst'.length = dst.length ∧ (∀ t, t < lo + d ∨ lo + L + d ≤ t → dst'.getD t a0 = dst.getD t a0) ∧
      (∀ t, lo ≤ t → t < lo + L → dst'.getD (t + d) a0 = src.getD t a0) := by
    intro L
    induction L with
    | zero => intro _; exact ⟨dst, rfl, rfl, fun _ _ => rfl, fun t _ _ => by omega⟩
    | succ L ih =>
      intro hL
      obtain ⟨d1, f1, f2, f3, f4⟩ := ih (by omega)
      refine ⟨d1.set (lo + L + d) (src.getD (lo + L) a0), ?_, by simpa using f2, ?_, ?_⟩
      · rw [List.range'_1_concat, List.foldlM_append, f1]
        simp only [List.foldlM_cons, List.foldlM_nil, ok_bind]
        rw [copyShift, getR_eq_getD a0 (by omega), ok_bind, setR_eq_ok (by omega), ok_bind]; rfl
      · intro t ht
        rw [getD_set_ne (by omega), f3 t (by omega)]
      · intro t ht1 ht2
        rcases Nat.lt_or_eq_of_le (show t ≤ lo + L by omega) with h | h
        · rw [getD_set_ne (by omega), f4 t ht1 h]
        · subst h; rw [getD_set_eq (by omega)]
  by_cases hlo : lo ≤ hi + 1
  · obtain ⟨d1, f1, f2, f3, f4⟩ := key (hi + 1 - lo) (by omega)
    exact ⟨d1, f1, f2, fun t ht => f3 t (by omega), fun t h1 h2 => f4 t h1 (by omega)⟩
  · rw [show hi + 1 - lo = 0 by omega]
    exact ⟨dst, rfl, rfl, fun _ _ => rfl, fun t _ _ => by omega⟩

variable [IsStrictOrderedRing K]

theorem Good.pre {eps : K} {c : Curve K V} (h : c.Good eps) : c.Pre := by
  have hl := h.knots_len
  have hp := h.cps_pos
  have := h.good.le
  refine ⟨by omega, hl, ?_, ?_⟩
  · rw [List.pairwise_iff_getElem]
    intro i j hi hj hij
    rw [← kf_eq, ← kf_eq]
    exact h.good.mono i j (by omega) (by omega)
  · refine lt_of_lt_of_le h.good.first ?_
    rw [← hi_eq h]
    exact h.good.mono _ _ (by omega) (by omega)

/-- `try_refine_knot` refines the curve, by convex combinations of the control points. -/
theorem tryRefineKnot_refines_hull {eps : K} {c : Curve K V} {xs : List K} (h : c.Good eps)
    (hsort : xs.Pairwise (· ≤ ·)) (hdom : ∀ x ∈ xs, c.lo ≤ x ∧ x ≤ c.hi)
    (hsep : ∀ x ∈ xs, ∀ y ∈ xs ++ c.knots, |y - x| < eps → y = x) :
    ∃ c', c.tryRefineKnot eps xs = .ok c' ∧ Refines c c' xs ∧ Hull c c' := by
  have hpre := h.pre
  have hl := hpre.knots_len
  have hd := hpre.deg_lt
  have hmono := h.good.mono
  cases xs with
  | nil => exact ⟨c, rfl, Refines.refl hpre, Hull.refl _⟩
  | cons x0 rest =>
    obtain ⟨a, ha, hpa, han, hain⟩ := h.exists_span (hdom x0 (by simp)).1 (hdom x0 (by simp)).2
    set xr := (x0 :: rest)[rest.length] with hxr
    have hxrm : xr ∈ x0 :: rest := List.getElem_mem _
    obtain ⟨b', hb, hpb, hbn, hbin⟩ := h.exists_span (hdom xr hxrm).1 (hdom xr hxrm).2
    have hlast : ∀ x ∈ x0 :: rest, x ≤ xr := by
      intro x hx
      obtain ⟨j, hj, rfl⟩ := List.mem_iff_getElem.1 hx
      rcases Nat.lt_or_eq_of_le (show j ≤ rest.length by simp at hj; omega) with h' | h'
      · exact List.pairwise_iff_getElem.1 hsort j rest.length hj (by simp) h'
      · subst h'; exact le_refl _
    have hab : a ≤ b' := by
      by_contra hlt
      have m1 := hmono (b' + 1) a (by omega) (by omega)
      have m2 := inSpan_le hbin
      have m3 := inSpan_le hain
      have m4 := hlast x0 (by simp)
      have heq : xr = x0 := le_antisymm (le_trans m2.2 (le_trans m1 m3.1)) m4
      rw [heq] at hbin
      exact absurd (inSpan_unique hmono (by omega) (by omega) hain hbin) (by omega)
    unfold tryRefineKnot
    have s1 : subR c.cps.length 1 = .ok (c.cps.length - 1) := subR_eq_ok (by omega)
    have s2 : getR (x0 :: rest) rest.length = .ok xr := getR_eq_ok (by simp)
    simp only [s1, s2, ok_bind, ha, hb]
    rw [subR_eq_ok hpa, ok_bind, sliceR_eq_ok (by omega) (by omega), ok_bind,
      sliceR_eq_ok (by omega) (by simp; omega), ok_bind]
    set cp0 : List V := (List.take (a - c.degree + 1) c.cps).drop 0 ++
      (List.replicate (c.cps.length - 1 + rest.length + 2) (0 : V)).drop (a - c.degree + 1) with hcp0
    have hcp0l : cp0.length = c.cps.length + (rest.length + 1) := by
      simp [hcp0]; omega
    obtain ⟨cp1, f1, f2, f3, f4⟩ := copyRange_spec (src := c.cps) (dst := cp0) (d := rest.length + 1)
      (lo := b' + 1 - 1) (hi := c.cps.length - 1) (0 : V) (by omega) (by omega)
    rw [f1, ok_bind]
    set kn0 : List K := List.replicate (c.cps.length - 1 + c.degree + 1 + 1 + rest.length + 1) (0 : K) with hkn0
    have hkn0l : kn0.length = c.knots.length + (rest.length + 1) := by simp [hkn0]; omega
    obtain ⟨kn1, g1, g2, g3, g4⟩ := copyRange_spec (src := c.knots) (dst := kn0) (d := 0)
      (lo := 0) (hi := a) (0 : K) (by omega) (by omega)
    obtain ⟨kn2, k1, k2, k3, k4⟩ := copyRange_spec (src := c.knots) (dst := kn1) (d := rest.length + 1)
      (lo := b' + 1 + c.degree) (hi := c.cps.length - 1 + c.degree + 1) (0 : K) (by omega) (by omega)
    rw [g1, ok_bind, k1, ok_bind]
    set st : RefState K V := RefState.mk cp1 kn2 (b' + 1 + c.degree + rest.length) (b' + 1 + c.degree - 1) with hst
    have hdropk : kn2.drop (b' + 1 + c.degree + rest.length + 1) = c.knots.drop (b' + c.degree + 1) := by
      apply ext_getD (d := 0)
      · simp only [List.length_drop]; omega
      · intro t ht
        simp only [List.length_drop] at ht
        rw [getD_drop, getD_drop, ← k4 _ (by omega) (by omega)]
        congr 1; omega
    have hdropc : cp1.drop (b' + 1 + c.degree + rest.length - c.degree) = c.cps.drop b' := by
      apply ext_getD (d := 0)
      · simp only [List.length_drop]; omega
      · intro t ht
        simp only [List.length_drop] at ht
        rw [getD_drop, getD_drop, ← f4 _ (by omega) (by omega)]
        congr 1; omega
    have hview : view c st = c := by
      have q1 : c.cps.take (b' + 1 + c.degree - 1 - c.degree) ++
          cp1.drop (b' + 1 + c.degree + rest.length - c.degree) = c.cps := by
        rw [hdropc, show b' + 1 + c.degree - 1 - c.degree = b' by omega, List.take_append_drop]
      have q2 : c.knots.take (b' + 1 + c.degree - 1 + 1) ++
          kn2.drop (b' + 1 + c.degree + rest.length + 1) = c.knots := by
        rw [hdropk, show b' + 1 + c.degree - 1 + 1 = b' + c.degree + 1 by omega, List.take_append_drop]
      unfold view
      simp only [hst]
      rw [q1, q2]
    have hinv : RInv c a (rest.length + 1) (x0 :: rest).reverse.length xr st := by
      refine ⟨?_, by show kn2.length = _; omega, by show cp1.length = _; omega, by simp,
        by show a ≤ b' + 1 + c.degree - 1; omega, by show b' + 1 + c.degree - 1 < _; omega, ?_, ?_, ?_⟩
      · show b' + 1 + c.degree + rest.length = b' + 1 + c.degree - 1 + _
        simp; omega
      · show kn2.take (a + 1) = _
        apply ext_getD (d := 0)
        · simp only [List.length_take]; omega
        · intro t ht
          simp only [List.length_take] at ht
          rw [getD_take (by omega), getD_take (by omega), k3 t (by omega)]
          exact g4 t (by omega) (by omega)
      · show cp1.take (a - c.degree) = _
        apply ext_getD (d := 0)
        · simp only [List.length_take]; omega
        · intro t ht
          simp only [List.length_take] at ht
          rw [getD_take (by omega), getD_take (by omega), f3 t (by omega), hcp0, List.drop_zero,
            getD_append_left (by simp; omega), getD_take (by omega)]
      · show ∀ y ∈ kn2.drop (b' + 1 + c.degree + rest.length + 1), xr ≤ y
        rw [hdropk]
        intro y hy
        obtain ⟨j, hj, rfl⟩ := List.mem_drop_iff_getElem.1 hy
        rw [← kf_eq]
        exact le_trans (inSpan_le hbin).2 (hmono _ _ (by omega) (by omega))
    obtain ⟨s', z', r1, r2, ⟨r3, r5⟩, r4⟩ := refineFold_spec (eps := eps) hd hl hpa (by omega) hpre.sorted
      (x0 :: rest).reverse xr st hinv
      (by rw [List.pairwise_reverse]; exact hsort) (fun y hy => hlast y (List.mem_reverse.1 hy))
      (fun y hy => ⟨le_trans (inSpan_le hain).1 (by
        rcases List.mem_cons.1 (List.mem_reverse.1 hy) with h | h
        · rw [h]
        · exact (List.pairwise_cons.1 hsort).1 y h), (hdom y (List.mem_reverse.1 hy)).2⟩)
      (by
        rw [hview]
        intro x hx y hy
        apply hsep x (List.mem_reverse.1 hx) y
        simp only [List.mem_append, List.mem_reverse] at hy ⊢
        exact hy)
      (by rw [hview]; exact hpre)
    rw [hview] at r3 r5
    have hia : s'.i = a := by
      rcases r4 x0 (by simp) with h' | h'
      · by_contra hne
        have := r2.a_le
        have m := hmono (a + 1) s'.i (by omega) (by have := r2.i_le; omega)
        exact absurd (lt_of_le_of_lt (le_trans (inSpan_le hain).2 m) h') (lt_irrefl _)
      · exact h'
    have hka : s'.k = a := by have := r2.k_eq; omega
    have hv' : view c s' = { degree := c.degree, knots := s'.kn, cps := s'.cp } := by
      unfold view
      rw [hia, hka, ← r2.kn_take, ← r2.cp_take, List.take_append_drop, List.take_append_drop]
    refine ⟨_, by rw [r1, ok_bind]; rfl, ?_⟩
    rw [← hv']
    refine ⟨{ r3 with knots := r3.knots.trans ((List.reverse_perm _).append_right _), cps_len := ?_, cut := ?_ }, r5⟩
    · rw [r3.cps_len]; simp
    · exact fun hx => r3.cut fun y hy => hx y (List.mem_reverse.1 hy)

/-- `try_refine_knot` refines the curve. -/
theorem tryRefineKnot_refines {eps : K} {c : Curve K V} {xs : List K} (h : c.Good eps)
    (hsort : xs.Pairwise (· ≤ ·)) (hdom : ∀ x ∈ xs, c.lo ≤ x ∧ x ≤ c.hi)
    (hsep : ∀ x ∈ xs, ∀ y ∈ xs ++ c.knots, |y - x| < eps → y = x) :
    ∃ c', c.tryRefineKnot eps xs = .ok c' ∧ Refines c c' xs := by
  obtain ⟨c', h1, h2, _⟩ := tryRefineKnot_refines_hull h hsort hdom hsep
  exact ⟨c', h1, h2⟩

end Curvo.Curve

/-
  C25: knot removal.
-/
import Verif.Lemmas.Refine
import Verif.Props.Curve2
import Verif.Model.Remove

set_option linter.unusedSectionVars false

namespace Curvo.Props

open Curvo.Knots Curvo.Spec Curvo.Curve

variable {K : Type} [Field K] [LinearOrder K]
variable {V : Type} [AddCommGroup V] [Module K V]

/-! ### The shifting loops -/

theorem moveDown_spec {α : Type} (d : α) {dst src : ℕ} (h : dst ≤ src) : ∀ {cnt : ℕ} {xs : List α}, src + cnt ≤ xs.length →
    ∃ ys, moveDown dst src cnt xs = .ok ys ∧ ys.length = xs.length ∧
      ∀ y, ys.getD y d = if dst ≤ y ∧ y < dst + cnt then xs.getD (src + (y - dst)) d else xs.getD y d
  | 0, xs, _ => ⟨xs, rfl, rfl, fun y => by rw [if_neg (by omega)]⟩
  | cnt + 1, xs, hl => by
    obtain ⟨ys, e, hlen, hy⟩ := moveDown_spec d h (cnt := cnt) (xs := xs) (by omega)
    refine ⟨ys.set (dst + cnt) (ys.getD (src + cnt) d), ?_, by simp [hlen], ?_⟩
    · rw [moveDown] at e ⊢
      rw [List.range_succ, List.foldlM_append, e, ok_bind, List.foldlM_cons, getR_eq_getD d (by omega), ok_bind,
        setR_eq_ok (by omega), ok_bind]
      rfl
    · intro y
      have hsrc : ys.getD (src + cnt) d = xs.getD (src + cnt) d := by rw [hy, if_neg (by omega)]
      by_cases e1 : y = dst + cnt
      · subst e1
        rw [getD_set_eq (by omega), hsrc, if_pos (by omega)]
        congr 1; omega
      · rw [getD_set_ne (fun h => e1 h.symm), hy]
        by_cases e2 : dst ≤ y ∧ y < dst + cnt
        · rw [if_pos e2, if_pos (by omega)]
        · rw [if_neg e2, if_neg (by omega)]

theorem moveDown_length {α : Type} {dst src : ℕ} : ∀ {cnt : ℕ} {xs ys : List α}, moveDown dst src cnt xs = .ok ys →
    ys.length = xs.length
  | 0, xs, ys, h => by obtain rfl := Except.ok.inj h; rfl
  | cnt + 1, xs, ys, h => by
    rw [moveDown, List.range_succ, List.foldlM_append] at h
    obtain ⟨zs, hz, h⟩ := bind_eq_ok.1 h
    rw [List.foldlM_cons] at h
    obtain ⟨ws, hw, h⟩ := bind_eq_ok.1 h
    obtain rfl := Except.ok.inj h
    obtain ⟨v, -, hw⟩ := bind_eq_ok.1 hw
    have h2 : zs.length = xs.length := moveDown_length (dst := dst) (src := src) hz
    rw [setR] at hw
    split at hw
    · obtain rfl := Except.ok.inj hw; simp [h2]
    · cases hw

/-- Moving everything behind position `a` one down and dropping the last entry erases position `a`. -/
theorem moveDown_erase {α : Type} {a : ℕ} {xs : List α} (h : a < xs.length) :
    ∃ ys, moveDown a (a + 1) (xs.length - 1 - a) xs = .ok ys ∧ ys.take (xs.length - 1) = xs.eraseIdx a := by
  have hne : xs ≠ [] := by rintro rfl; simp at h
  obtain ⟨d, -⟩ := List.exists_mem_of_ne_nil xs hne
  obtain ⟨ys, e, hl, hy⟩ := moveDown_spec d (Nat.le_succ a) (cnt := xs.length - 1 - a) (xs := xs) (by omega)
  refine ⟨ys, e, ?_⟩
  apply List.ext_getElem
  · rw [List.length_take, hl, List.length_eraseIdx_of_lt h]; omega
  · intro i h1 h2
    have hi : i < xs.length - 1 := by rw [List.length_take] at h1; omega
    have := hy i
    rw [List.getElem_take, List.getElem_eraseIdx]
    rw [List.getD_eq_getElem?_getD, List.getElem?_eq_getElem (show i < ys.length by omega), Option.getD_some] at this
    rw [this]
    split
    · rename_i hc
      rw [dif_neg (show ¬ i < a by omega), List.getD_eq_getElem?_getD,
        List.getElem?_eq_getElem (show a.succ + (i - a) < xs.length by omega), Option.getD_some]
      congr 1; omega
    · rename_i hc
      rw [dif_pos (show i < a by omega), List.getD_eq_getElem?_getD, List.getElem?_eq_getElem (show i < xs.length by omega),
        Option.getD_some]

/-! ### Bookkeeping -/

theorem setR_length {α : Type} {xs ys : List α} {i : ℕ} {a : α} (h : setR xs i a = .ok ys) : ys.length = xs.length := by
  rw [setR] at h
  split at h
  · obtain rfl := Except.ok.inj h; simp
  · cases h

theorem removeStore_length {temp : List V} {off t : ℕ} : ∀ {fuel i j : ℕ} {P Q : List V},
    removeStore temp off t fuel i j P = .ok Q → Q.length = P.length
  | 0, _, _, _, _, h => by cases h
  | fuel + 1, i, j, P, Q, h => by
    rw [removeStore] at h
    split at h
    · obtain ⟨a, -, h⟩ := bind_eq_ok.1 h
      obtain ⟨x, -, h⟩ := bind_eq_ok.1 h
      obtain ⟨P1, h1, h⟩ := bind_eq_ok.1 h
      obtain ⟨b, -, h⟩ := bind_eq_ok.1 h
      obtain ⟨y, -, h⟩ := bind_eq_ok.1 h
      obtain ⟨P2, h2, h⟩ := bind_eq_ok.1 h
      obtain ⟨j', -, h⟩ := bind_eq_ok.1 h
      rw [removeStore_length h, setR_length h2, setR_length h1]
    · rw [← Except.ok.inj h]

theorem removeRound_length {norm : V → K} {U : List K} {knot tol : K} {ord first last t : ℕ} {temp P temp' P' : List V}
    (h : removeRound norm U knot tol ord first last t temp P = .ok (some (temp', P'))) : P'.length = P.length := by
  rw [removeRound] at h
  obtain ⟨off, -, h⟩ := bind_eq_ok.1 h
  obtain ⟨p0, -, h⟩ := bind_eq_ok.1 h
  obtain ⟨t1, -, h⟩ := bind_eq_ok.1 h
  obtain ⟨right, -, h⟩ := bind_eq_ok.1 h
  obtain ⟨p1, -, h⟩ := bind_eq_ok.1 h
  obtain ⟨t2, -, h⟩ := bind_eq_ok.1 h
  obtain ⟨jj, -, h⟩ := bind_eq_ok.1 h
  obtain ⟨s, -, h⟩ := bind_eq_ok.1 h
  obtain ⟨ok, -, h⟩ := bind_eq_ok.1 h
  split at h
  · obtain ⟨Q, hQ, h⟩ := bind_eq_ok.1 h
    have e := Option.some.inj (Except.ok.inj h)
    rw [← (Prod.mk.inj e).2]
    exact removeStore_length hQ
  · cases h

theorem removeRounds_spec {norm : V → K} {U : List K} {knot tol : K} {ord : ℕ} :
    ∀ {rounds first last t : ℕ} {temp P : List V} {t' : ℕ} {P' : List V},
      removeRounds norm U knot tol ord rounds first last t temp P = .ok (t', P') →
      P'.length = P.length ∧ t ≤ t' ∧ t' ≤ t + rounds ∧ (t' = t → P' = P)
  | 0, _, _, t, _, P, t', P', h => by
    obtain ⟨rfl, rfl⟩ := Prod.mk.inj (Except.ok.inj h)
    exact ⟨rfl, le_refl _, le_refl _, fun _ => rfl⟩
  | rounds + 1, first, last, t, temp, P, t', P', h => by
    rw [removeRounds] at h
    obtain ⟨r, hr, h⟩ := bind_eq_ok.1 h
    cases r with
    | none =>
      obtain ⟨rfl, rfl⟩ := Prod.mk.inj (Except.ok.inj h)
      exact ⟨rfl, le_refl _, by omega, fun _ => rfl⟩
    | some x =>
      obtain ⟨temp1, P1⟩ := x
      obtain ⟨f, -, h⟩ := bind_eq_ok.1 h
      obtain ⟨h1, h2, h3, -⟩ := removeRounds_spec h
      exact ⟨h1.trans (removeRound_length hr), by omega, by omega, fun e => absurd e (by omega)⟩

/-- Whatever knot and tolerance: a call that succeeds reports `t` at most the multiplicity, shortens knots
    and control points by exactly `t`, keeps the degree, and leaves the curve as it is if `t = 0`. -/
theorem C25_bookkeeping {eps : K} {norm : V → K} {c c' : Curve K V} {knot tol : K} {t : ℕ}
    (hlen : c.knots.length = c.cps.length + c.degree + 1)
    (h : tryRemoveKnot eps norm c knot tol = .ok (c', t)) :
    c'.degree = c.degree ∧ c'.knots.length + t = c.knots.length ∧ c'.cps.length + t = c.cps.length ∧
      knot ∈ c.knots ∧ (t = 0 → c' = c) ∧
      ∃ m s, Knots.multiplicity eps c.knots = .ok m ∧ (knot, s) ∈ m ∧ t ≤ s := by
  rw [tryRemoveKnot] at h
  obtain ⟨n, hn, h⟩ := bind_eq_ok.1 h
  split at h
  · cases h
  · rename_i r hr
    have hr' := List.findIdx?_eq_some_iff_getElem.1 hr
    obtain ⟨hrl, hrk, -⟩ := hr'
    have hmem : knot ∈ c.knots := by
      have := of_decide_eq_true hrk
      rw [← this]; exact List.getElem_mem _
    obtain ⟨m, hm, h⟩ := bind_eq_ok.1 h
    split at h
    · cases h
    · rename_i k s hs
      have hk : k = knot := by
        have := List.find?_some hs
        simpa using this
      subst hk
      have hms := List.mem_of_find?_eq_some hs
      split at h
      · cases h
      · split at h
        · cases h
        · obtain ⟨⟨t', P⟩, hrnd, h⟩ := bind_eq_ok.1 h
          obtain ⟨h1, -, h3, h4⟩ := removeRounds_spec hrnd
          have hnl : n + 1 = c.cps.length := by
            rw [subR] at hn
            split at hn
            · have := Except.ok.inj hn; omega
            · cases hn
          simp only at h
          split at h
          · rename_i hpos
            obtain ⟨dst, -, h⟩ := bind_eq_ok.1 h
            obtain ⟨U, hU, h⟩ := bind_eq_ok.1 h
            obtain ⟨lu, hlu, h⟩ := bind_eq_ok.1 h
            obtain ⟨Q, hQ, h⟩ := bind_eq_ok.1 h
            obtain ⟨lp, hlp, h⟩ := bind_eq_ok.1 h
            obtain ⟨rfl, rfl⟩ := Prod.mk.inj (Except.ok.inj h)
            have hU' := moveDown_length hU
            have hQ' := moveDown_length hQ
            rw [subR] at hlu hlp
            split at hlu
            · split at hlp
              · have e1 := Except.ok.inj hlu
                have e2 := Except.ok.inj hlp
                refine ⟨rfl, ?_, ?_, hmem, fun e => absurd e (by omega), m, s, hm, hms, by omega⟩
                · simp only [List.length_take]; omega
                · simp only [List.length_take]; omega
              · cases hlp
            · cases hlu
          · obtain ⟨rfl, rfl⟩ := Prod.mk.inj (Except.ok.inj h)
            exact ⟨rfl, by omega, by omega, hmem, fun _ => rfl, m, s, hm, hms, by omega⟩

/-- An absent knot, and a knot among the first `degree + 1`, are errors. -/
theorem C25_errors {eps : K} {norm : V → K} {c : Curve K V} {knot tol : K} (hpos : 0 < c.cps.length) :
    (knot ∉ c.knots → tryRemoveKnot eps norm c knot tol = .error .err) ∧
    (∀ i, i ≤ c.degree → c.knots[i]? = some knot → tryRemoveKnot eps norm c knot tol = .error .err) := by
  constructor
  · intro hn
    rw [tryRemoveKnot, subR_eq_ok hpos, ok_bind]
    have : c.knots.findIdx? (fun k => decide (k = knot)) = none := by
      rw [List.findIdx?_eq_none_iff]
      intro x hx
      simp only [decide_eq_false_iff_not]
      rintro rfl; exact hn hx
    rw [this]
  · intro i hi hk
    rw [tryRemoveKnot, subR_eq_ok hpos, ok_bind]
    obtain ⟨hil, hik⟩ := List.getElem?_eq_some_iff.1 hk
    cases hr : c.knots.findIdx? (fun k => decide (k = knot)) with
    | none => rfl
    | some r =>
      obtain ⟨hrl, -, hmin⟩ := List.findIdx?_eq_some_iff_getElem.1 hr
      have hri : r ≤ i := by
        by_contra hcon
        have := hmin i (by omega)
        simp [hik] at this
      simp only
      rw [Knots.multiplicity, getR_eq_ok (show 0 < c.knots.length by omega), ok_bind]
      show (match (multGo eps (c.knots[0], 0) c.knots).find? _ with | none => _ | some (_, s) => _) = _
      split
      · rfl
      · rw [if_pos (by omega)]

end Curvo.Props

/-
  C25: removal of a simple interior knot.
-/
import Verif.Lemmas.Insert
import Verif.Props.Knot
import Verif.Props.Remove

set_option linter.unusedSectionVars false

namespace Curvo.Props

open Curvo.Knots Curvo.Spec Curvo.Curve

variable {K : Type} [Field K] [LinearOrder K]
variable {V : Type} [AddCommGroup V] [Module K V]

/-- `(u - U x) / (U (x + p + 1) - U x)`, the coefficient of inserting `u`. -/
def remA (U : List K) (u : K) (p x : ℕ) : K := (u - kf U x) / (kf U (x + p + 1) - kf U x)

/-- The knots used by the coefficients `off + 1 .. off + p` are apart from `u` and from each other. -/
structure Apart (U : List K) (u : K) (p off : ℕ) : Prop where
  len : off + 2 * p + 1 < U.length
  lo : ∀ x, off + 1 ≤ x → x ≤ off + p → kf U x ≠ u
  hi : ∀ x, off + 1 ≤ x → x ≤ off + p → u ≠ kf U (x + p + 1)
  lh : ∀ x, off + 1 ≤ x → x ≤ off + p → kf U x ≠ kf U (x + p + 1)

theorem Apart.alpha {U : List K} {u : K} {p off x : ℕ} (h : Apart U u p off) (h1 : off + 1 ≤ x) (h2 : x ≤ off + p) :
    removeAlpha U u x (x + (p + 1)) = .ok (remA U u p x) ∧ remA U u p x ≠ 0 ∧ 1 - remA U u p x ≠ 0 := by
  have hl := h.len
  have hd : kf U (x + p + 1) - kf U x ≠ 0 := sub_ne_zero.2 (h.lh x h1 h2).symm
  refine ⟨?_, ?_, ?_⟩
  · rw [removeAlpha, getR_kf (by omega), ok_bind, getR_kf (by omega), ok_bind, divR_eq_ok (by rw [← Nat.add_assoc]; exact hd)]
    rfl
  · rw [remA, Ne, div_eq_zero_iff, not_or]
    exact ⟨sub_ne_zero.2 (h.lo x h1 h2).symm, hd⟩
  · have : 1 - remA U u p x = (kf U (x + p + 1) - u) / (kf U (x + p + 1) - kf U x) := by
      rw [remA]; field_simp; ring
    rw [this, Ne, div_eq_zero_iff, not_or]
    exact ⟨sub_ne_zero.2 (h.hi x h1 h2).symm, hd⟩

/-- The equations the entries of `temp` solve. -/
structure RemSolves (U : List K) (u : K) (p off : ℕ) (Q T : ℕ → V) (k : ℕ) : Prop where
  first : T 0 = Q off
  last : T (p + 1) = Q (off + p + 1)
  left : ∀ x, 1 ≤ x → x ≤ k → Q (off + x) = remA U u p (off + x) • T x + (1 - remA U u p (off + x)) • T (x - 1)
  right : ∀ x, 1 ≤ x → x ≤ k → Q (off + p + 1 - x) =
    remA U u p (off + p + 1 - x) • T (p + 2 - x) + (1 - remA U u p (off + p + 1 - x)) • T (p + 1 - x)

structure AtTurn (U : List K) (u : K) (p off : ℕ) (P : List V) (k : ℕ) (s : RemState V) : Prop where
  i : s.i = off + 1 + k
  j : s.j = off + p - k
  ii : s.ii = 1 + k
  jj : s.jj = p - k
  len : p + 2 ≤ s.temp.length
  sol : RemSolves U u p off (fun x => P.getD x 0) (fun x => s.temp.getD x 0) k

theorem removeWhile_spec {U : List K} {u : K} {p off : ℕ} {P : List V} (ha : Apart U u p off)
    (hP : off + p + 1 < P.length) : ∀ {fuel k : ℕ} {s : RemState V}, AtTurn U u p off P k s → k ≤ p / 2 →
      p / 2 < k + fuel →
      ∃ s', removeWhile U P u (p + 1) 0 fuel s = .ok s' ∧ AtTurn U u p off P (p / 2) s'
  | 0, k, s, _, h1, h2 => by omega
  | fuel + 1, k, s, hs, hk, hf => by
    obtain ⟨hi, hj, hii, hjj, hlen, sol⟩ := hs
    rw [removeWhile]
    by_cases hc : k = p / 2
    · subst hc
      rw [if_neg (by omega)]
      exact ⟨s, rfl, hi, hj, hii, hjj, hlen, sol⟩
    · rw [if_pos (by omega)]
      obtain ⟨e1, n1, -⟩ := ha.alpha (x := s.i) (by omega) (by omega)
      obtain ⟨e2, -, n2⟩ := ha.alpha (x := s.j) (by omega) (by omega)
      rw [Nat.add_zero, e1, ok_bind, subR_eq_ok (Nat.zero_le _), ok_bind, Nat.sub_zero, e2, ok_bind,
        subR_eq_ok (show 1 ≤ s.ii by omega), ok_bind, getR_eq_getD 0 (show s.ii - 1 < s.temp.length by omega), ok_bind,
        getR_eq_getD 0 (show s.jj + 1 < s.temp.length by omega), ok_bind, getR_eq_getD 0 (show s.i < P.length by omega), ok_bind,
        divV, if_neg n1, ok_bind, getR_eq_getD 0 (show s.j < P.length by omega), ok_bind, divV, if_neg n2, ok_bind,
        setR_eq_ok (show s.ii < s.temp.length by omega), ok_bind, setR_eq_ok (by rw [List.length_set]; omega), ok_bind,
        subR_eq_ok (show 1 ≤ s.j by omega), ok_bind, subR_eq_ok (show 1 ≤ s.jj by omega), ok_bind]
      refine removeWhile_spec ha hP (k := k + 1) ?_ (by omega) (by omega)
      generalize hA : (remA U u p s.i)⁻¹ • (P.getD s.i 0 - (1 - remA U u p s.i) • s.temp.getD (s.ii - 1) 0) = A
      generalize hB : (1 - remA U u p s.j)⁻¹ • (P.getD s.j 0 - remA U u p s.j • s.temp.getD (s.jj + 1) 0) = B
      have hA' : P.getD s.i 0 = remA U u p s.i • A + (1 - remA U u p s.i) • s.temp.getD (s.ii - 1) 0 := by
        rw [← hA, smul_inv_smul₀ n1]; abel
      have hB' : P.getD s.j 0 = remA U u p s.j • s.temp.getD (s.jj + 1) 0 + (1 - remA U u p s.j) • B := by
        rw [← hB, smul_inv_smul₀ n2]; abel
      have T1 : ∀ x, x ≠ s.ii → x ≠ s.jj → ((s.temp.set s.ii A).set s.jj B).getD x 0 = s.temp.getD x 0 := by
        intro x h1 h2
        rw [getD_set_ne (Ne.symm h2), getD_set_ne (Ne.symm h1)]
      have T2 : ((s.temp.set s.ii A).set s.jj B).getD s.ii 0 = A := by
        rw [getD_set_ne (by omega), getD_set_eq (by omega)]
      have T3 : ((s.temp.set s.ii A).set s.jj B).getD s.jj 0 = B := by
        rw [getD_set_eq (by rw [List.length_set]; omega)]
      refine ⟨by show s.i + 1 = _; omega, by show s.j - 1 = _; omega, by show s.ii + 1 = _; omega, by show s.jj - 1 = _; omega,
        by simpa using hlen, ?_, ?_, ?_, ?_⟩
      · show ((s.temp.set s.ii A).set s.jj B).getD 0 0 = _
        rw [T1 _ (by omega) (by omega)]; exact sol.first
      · show ((s.temp.set s.ii A).set s.jj B).getD (p + 1) 0 = _
        rw [T1 _ (by omega) (by omega)]; exact sol.last
      · intro x h1 h2
        show _ = _ • ((s.temp.set s.ii A).set s.jj B).getD x 0 + _ • ((s.temp.set s.ii A).set s.jj B).getD (x - 1) 0
        by_cases hx : x = k + 1
        · have e : x = s.ii := by omega
          have e' : off + x = s.i := by omega
          rw [e'] 
          rw [e, T2, T1 (s.ii - 1) (by omega) (by omega)]
          exact hA'
        · rw [T1 _ (by omega) (by omega), T1 _ (by omega) (by omega)]
          exact sol.left x h1 (by omega)
      · intro x h1 h2
        show _ = _ • ((s.temp.set s.ii A).set s.jj B).getD (p + 2 - x) 0 +
          _ • ((s.temp.set s.ii A).set s.jj B).getD (p + 1 - x) 0
        by_cases hx : x = k + 1
        · have e : p + 1 - x = s.jj := by omega
          have e2 : p + 2 - x = s.jj + 1 := by omega
          have e' : off + p + 1 - x = s.j := by omega
          rw [e', e, e2, T3, T1 (s.jj + 1) (by omega) (by omega)]
          exact hB'
        · rw [T1 _ (by omega) (by omega), T1 _ (by omega) (by omega)]
          exact sol.right x h1 (by omega)

theorem removeStore_spec {temp Q : List V} {p off : ℕ} (hT : p + 2 ≤ temp.length) (hQ : off + p + 1 < Q.length) :
    ∀ {fuel k : ℕ} {P : List V}, k ≤ p / 2 → p / 2 < k + fuel → P.length = Q.length →
      (∀ y, P.getD y 0 = if (off + 1 ≤ y ∧ y ≤ off + k) ∨ (off + p + 1 ≤ y + k ∧ y ≤ off + p) then temp.getD (y - off) 0
        else Q.getD y 0) →
      ∃ P', removeStore temp off 0 fuel (off + 1 + k) (off + p - k) P = .ok P' ∧ P'.length = Q.length ∧
        ∀ y, P'.getD y 0 = if (off + 1 ≤ y ∧ y ≤ off + p / 2) ∨ (off + p + 1 ≤ y + p / 2 ∧ y ≤ off + p) then
          temp.getD (y - off) 0 else Q.getD y 0
  | 0, k, P, h1, h2, _, _ => by omega
  | fuel + 1, k, P, hk, hf, hl, hP => by
    rw [removeStore]
    by_cases hc : k = p / 2
    · subst hc
      rw [if_neg (by omega)]
      exact ⟨P, rfl, hl, hP⟩
    · rw [if_pos (by omega), subR_eq_ok (show off ≤ off + 1 + k by omega), ok_bind,
        getR_eq_getD 0 (show off + 1 + k - off < temp.length by omega), ok_bind, setR_eq_ok (show off + 1 + k < P.length by omega),
        ok_bind, subR_eq_ok (show off ≤ off + p - k by omega), ok_bind,
        getR_eq_getD 0 (show off + p - k - off < temp.length by omega), ok_bind,
        setR_eq_ok (show off + p - k < (P.set (off + 1 + k) _).length by rw [List.length_set]; omega), ok_bind,
        subR_eq_ok (show 1 ≤ off + p - k by omega), ok_bind]
      rw [show off + 1 + k + 1 = off + 1 + (k + 1) by omega, show off + p - k - 1 = off + p - (k + 1) by omega]
      refine removeStore_spec hT hQ (k := k + 1) (by omega) (by omega) (by simpa using hl) ?_
      intro y
      by_cases e1 : y = off + p - k
      · subst e1
        rw [getD_set_eq (by rw [List.length_set]; omega), if_pos (by omega)]
      · rw [getD_set_ne (Ne.symm e1)]
        by_cases e2 : y = off + 1 + k
        · subst e2
          rw [getD_set_eq (by omega), if_pos (by omega)]
        · rw [getD_set_ne (Ne.symm e2), hP]
          by_cases e3 : (off + 1 ≤ y ∧ y ≤ off + k) ∨ (off + p + 1 ≤ y + k ∧ y ≤ off + p)
          · rw [if_pos e3, if_pos (by omega)]
          · rw [if_neg e3, if_neg (by omega)]

/-- What the round decides by: the gap at the middle. -/
def remGap (U : List K) (u : K) (p off : ℕ) (Q T : ℕ → V) : V :=
  Q (off + 1 + p / 2) -
    (remA U u p (off + 1 + p / 2) • T (p / 2 + 2) + (1 - remA U u p (off + 1 + p / 2)) • T (p / 2))

/-- The round for a simple knot: it computes a solution `T` of the equations, breaks if the gap exceeds the
    tolerance, and stores `T` otherwise. -/
theorem removeRound_spec {norm : V → K} {U : List K} {u tol : K} {p off : ℕ} {temp P : List V} (hp : 1 ≤ p)
    (ha : Apart U u p off) (hP : off + p + 1 < P.length) (ht : p + 2 ≤ temp.length) :
    ∃ T : List V, RemSolves U u p off (fun x => P.getD x 0) (fun x => T.getD x 0) (p / 2) ∧
      (¬ norm (remGap U u p off (fun x => P.getD x 0) (fun x => T.getD x 0)) ≤ tol →
        removeRound norm U u tol (p + 1) (off + 1) (off + p) 0 temp P = .ok none) ∧
      (norm (remGap U u p off (fun x => P.getD x 0) (fun x => T.getD x 0)) ≤ tol →
        ∃ P', removeRound norm U u tol (p + 1) (off + 1) (off + p) 0 temp P = .ok (some (T, P')) ∧
          P'.length = P.length ∧
          ∀ y, P'.getD y 0 = if (off + 1 ≤ y ∧ y ≤ off + p / 2) ∨ (off + p + 1 ≤ y + p / 2 ∧ y ≤ off + p) then
            T.getD (y - off) 0 else P.getD y 0) := by
  have e0 : off + 1 - 1 = off := by omega
  have e1 : off + p + 1 - off = p + 1 := by omega
  have e2 : p + 1 - 1 = p := by omega
  have hrun := removeWhile_spec (U := U) (u := u) (p := p) (off := off) (P := P) ha hP (fuel := off + p + 2) (k := 0)
    (s := { i := off + 1, j := off + p, ii := 1, jj := p, temp := (temp.set 0 (P.getD off 0)).set (p + 1) (P.getD (off + p + 1) 0) })
    ⟨rfl, rfl, rfl, rfl, by simpa using ht,
      ⟨by show ((temp.set 0 _).set (p + 1) _).getD 0 0 = _; rw [getD_set_ne (by omega), getD_set_eq (by omega)],
       by show ((temp.set 0 _).set (p + 1) _).getD (p + 1) 0 = _; rw [getD_set_eq (by rw [List.length_set]; omega)],
       fun x h1 h2 => by omega, fun x h1 h2 => by omega⟩⟩ (by omega) (by omega)
  obtain ⟨s, hs, hi, hj, hii, hjj, hlen, sol⟩ := hrun
  have hchk : removable norm U P u tol (p + 1) 0 s =
      .ok (decide (norm (remGap U u p off (fun x => P.getD x 0) (fun x => s.temp.getD x 0)) ≤ tol)) := by
    obtain ⟨a1, -, -⟩ := ha.alpha (x := s.i) (by omega) (by omega)
    rw [removable, if_neg (by omega), Nat.add_zero, a1, ok_bind, getR_eq_getD 0 (show s.i < P.length by omega), ok_bind,
      subR_eq_ok (show 1 ≤ s.ii by omega), ok_bind, getR_eq_getD 0 (show s.ii - 1 < s.temp.length by omega), ok_bind,
      getR_eq_getD 0 (show s.ii + 0 + 1 < s.temp.length by omega), ok_bind]
    rw [remGap, show s.i = off + 1 + p / 2 from hi, show s.ii - 1 = p / 2 by omega, show s.ii + 0 + 1 = p / 2 + 2 by omega]
    rfl
  have hround : removeRound norm U u tol (p + 1) (off + 1) (off + p) 0 temp P =
      (do if decide (norm (remGap U u p off (fun x => P.getD x 0) (fun x => s.temp.getD x 0)) ≤ tol) = true then do
            let P ← removeStore s.temp off 0 (off + p + 2) (off + 1) (off + p) P
            pure (some (s.temp, P))
          else pure none) := by
    rw [removeRound, subR_eq_ok (by omega), ok_bind, e0, getR_eq_getD 0 (show off < P.length by omega), ok_bind,
      setR_eq_ok (show 0 < temp.length by omega), ok_bind, subR_eq_ok (by omega), ok_bind, e1,
      getR_eq_getD 0 (show off + p + 1 < P.length by omega), ok_bind,
      setR_eq_ok (show p + 1 < (temp.set 0 _).length by rw [List.length_set]; omega), ok_bind, subR_eq_ok (by omega), ok_bind, e2,
      hs, ok_bind, hchk, ok_bind]
  refine ⟨s.temp, sol, fun hn => ?_, fun hn => ?_⟩
  · rw [hround, if_neg (by simpa using hn)]; rfl
  · obtain ⟨P', h1, h2, h3⟩ := removeStore_spec (temp := s.temp) (Q := P) (p := p) (off := off) hlen hP
      (fuel := off + p + 2) (k := 0) (P := P) (by omega) (by omega) rfl (fun y => by rw [if_neg (by omega)])
    refine ⟨P', ?_, h2, h3⟩
    rw [hround, if_pos (by simpa using hn)]
    rw [Nat.add_zero, Nat.sub_zero] at h1
    rw [h1]; rfl

/-! ### The whole call -/

/-- `u` is the knot with index `r`, it occurs once and lies strictly inside the domain; different knots
    differ by more than `eps`. -/
structure SimpleAt (eps : K) (c : Curve K V) (u : K) (r : ℕ) : Prop where
  pre : c.Pre
  eps_nonneg : 0 ≤ eps
  deg : 1 ≤ c.degree
  lo : c.degree < r
  hi : r < c.cps.length
  at_r : kf c.knots r = u
  once : c.knots.count u = 1
  sep : ∀ x ∈ c.knots, ∀ y ∈ c.knots, x ≠ y → eps < |x - y|

section ord
variable [IsStrictOrderedRing K]

theorem SimpleAt.split {eps : K} {c : Curve K V} {u : K} {r : ℕ} (h : SimpleAt eps c u r) :
    r < c.knots.length ∧ (∀ j, j < r → kf c.knots j < u) ∧ (∀ j, r < j → j < c.knots.length → u < kf c.knots j) := by
  have hl := h.pre.knots_len
  have hr : r < c.knots.length := by have := h.hi; omega
  have hu := h.at_r
  rw [kf_eq hr] at hu
  have hone := h.once
  rw [← List.take_append_drop r c.knots, List.drop_eq_getElem_cons hr, hu, List.count_append, List.count_cons_self] at hone
  have n1 : u ∉ c.knots.take r := by
    rw [← List.count_eq_zero]; omega
  have n2 : u ∉ c.knots.drop (r + 1) := by
    rw [← List.count_eq_zero]; omega
  have mono := mono_of_sorted (m := c.knots.length - 1) h.pre.sorted (by omega)
  refine ⟨hr, fun j hj => lt_of_le_of_ne ?_ ?_, fun j hj hjl => lt_of_le_of_ne ?_ ?_⟩
  · rw [← h.at_r]; exact mono _ _ (by omega) (by omega)
  · rintro e
    rw [kf_eq (by omega)] at e
    exact n1 (e ▸ List.mem_take_iff_getElem.2 ⟨j, by omega, rfl⟩)
  · rw [← h.at_r]; exact mono _ _ (by omega) (by omega)
  · rintro e
    rw [kf_eq (by omega)] at e
    refine n2 (e ▸ List.mem_drop_iff_getElem.2 ⟨j - (r + 1), by omega, ?_⟩)
    congr 1; omega

theorem SimpleAt.apart {eps : K} {c : Curve K V} {u : K} {r : ℕ} (h : SimpleAt eps c u r) :
    Apart c.knots u c.degree (r - c.degree - 1) := by
  obtain ⟨hr, h1, h2⟩ := h.split
  have hl := h.pre.knots_len
  have hlo := h.lo
  have hhi := h.hi
  refine ⟨by omega, fun x a b => (h1 x (by omega)).ne, fun x a b => (h2 _ (by omega) (by omega)).ne, fun x a b => ?_⟩
  exact ((h1 x (by omega)).trans (h2 _ (by omega) (by omega))).ne

/-- The control points of the answer in terms of the solution `T`. -/
def remCps (p off : ℕ) (Q T : ℕ → V) (y : ℕ) : V :=
  if y ≤ off then Q y else if y < off + p - p / 2 then T (y - off) else if y ≤ off + p then T (y + 1 - off) else Q (y + 1)

/-- Everything about the call on a simple interior knot. -/
theorem remove_simple {eps : K} {norm : V → K} {c : Curve K V} {u tol : K} {r : ℕ} (h : SimpleAt eps c u r) :
    ∃ T : ℕ → V, RemSolves c.knots u c.degree (r - c.degree - 1) (fun x => c.cps.getD x 0) T (c.degree / 2) ∧
      (¬ norm (remGap c.knots u c.degree (r - c.degree - 1) (fun x => c.cps.getD x 0) T) ≤ tol →
        tryRemoveKnot eps norm c u tol = .ok (c, 0)) ∧
      (norm (remGap c.knots u c.degree (r - c.degree - 1) (fun x => c.cps.getD x 0) T) ≤ tol →
        ∃ c', tryRemoveKnot eps norm c u tol = .ok (c', 1) ∧ c'.degree = c.degree ∧ c'.knots = c.knots.eraseIdx r ∧
          c'.cps.length + 1 = c.cps.length ∧
          ∀ y, y < c'.cps.length →
            c'.cps.getD y 0 = remCps c.degree (r - c.degree - 1) (fun x => c.cps.getD x 0) T y) := by
  obtain ⟨hr, hlt, hgt⟩ := h.split
  have hl := h.pre.knots_len
  have hlo := h.lo
  have hhi := h.hi
  have hdeg := h.deg
  obtain ⟨m, hm, hmem⟩ := C06_multiplicity_counts h.eps_nonneg (ks := c.knots) (by rintro e; rw [e] at hr; simp at hr)
    h.pre.sorted h.sep
  have hu : c.knots[r] = u := by rw [← kf_eq hr]; exact h.at_r
  have hidx : c.knots.findIdx? (fun k => decide (k = u)) = some r := by
    rw [List.findIdx?_eq_some_iff_getElem]
    refine ⟨hr, by simpa using hu, fun j hj => ?_⟩
    have := hlt j hj
    rw [kf_eq (by omega)] at this
    simpa using this.ne
  have humem : u ∈ c.knots := hu ▸ List.getElem_mem _
  have hfind : m.find? (fun x => decide (x.1 = u)) = some (u, 1) := by
    have h1 : (u, 1) ∈ m := (hmem u 1).2 ⟨humem, h.once.symm⟩
    cases hf : m.find? (fun x => decide (x.1 = u)) with
    | none =>
      have := List.find?_eq_none.1 hf _ h1
      simp at this
    | some x =>
      obtain ⟨a, b⟩ := x
      have ha : a = u := by simpa using List.find?_some hf
      subst ha
      have := ((hmem a b).1 (List.mem_of_find?_eq_some hf)).2
      rw [this, h.once]
  set p := c.degree with hp
  set off := r - p - 1 with hoff
  obtain ⟨T, sol, hno, hyes⟩ := removeRound_spec (norm := norm) (tol := tol)
    (temp := List.replicate (2 * (c.cps.length - 1 + p + 1 + 1)) (0 : V)) hdeg h.apart
    (show off + p + 1 < c.cps.length by omega) (by rw [List.length_replicate]; omega)
  have hstart : tryRemoveKnot eps norm c u tol = (do
      let (t, P) ← removeRounds norm c.knots u tol (p + 1) 1 (off + 1) (off + p) 0
          (List.replicate (2 * (c.cps.length - 1 + p + 1 + 1)) 0) c.cps
      if 0 < t then do
        let dst ← subR (r + 1) t
        let U ← moveDown dst (r + 1) (c.cps.length - 1 + p + 1 - r) c.knots
        let lu ← subR (c.cps.length - 1 + p + 1 + 1) t
        let fout := (2 * r - 1 - p) / 2
        let (i, j) := removeOut (t - 1) 1 fout fout
        let P ← moveDown j (i + 1) (c.cps.length - 1 - i) P
        let lp ← subR (c.cps.length - 1 + 1) t
        pure ({ c with knots := U.take lu, cps := P.take lp }, t)
      else pure (c, t)) := by
    rw [tryRemoveKnot, subR_eq_ok (show 1 ≤ c.cps.length by omega), ok_bind]
    simp only [hidx]
    rw [hm, ok_bind]
    simp only [hfind]
    rw [if_neg (show ¬ r ≤ c.degree by omega), if_neg (show ¬ r ≤ 1 by omega), ← hp, show r - p = off + 1 by omega,
      show r - 1 = off + p by omega]
  refine ⟨fun x => T.getD x 0, sol, fun hn => ?_, fun hn => ?_⟩
  · rw [hstart, removeRounds, hno hn]; rfl
  · obtain ⟨P', e1, hP'l, hP'⟩ := hyes hn
    have hfl : (2 * r - 1 - p) / 2 = off + p - p / 2 := by omega
    obtain ⟨U, hU, hU'⟩ := moveDown_erase (xs := c.knots) (a := r) hr
    obtain ⟨P2, hP2, hP2'⟩ := moveDown_erase (xs := P') (a := off + p - p / 2) (by omega)
    have hrounds : removeRounds norm c.knots u tol (p + 1) 1 (off + 1) (off + p) 0
          (List.replicate (2 * (c.cps.length - 1 + p + 1 + 1)) 0) c.cps = .ok (1, P') := by
      rw [removeRounds, e1, ok_bind]
      simp only
      rw [subR_eq_ok (by omega), ok_bind, removeRounds]; rfl
    refine ⟨⟨c.degree, P'.eraseIdx (off + p - p / 2), c.knots.eraseIdx r⟩, ?_, rfl, rfl, ?_, ?_⟩
    · rw [hstart, hrounds, ok_bind]
      simp only
      rw [if_pos (by omega), subR_eq_ok (show 1 ≤ r + 1 by omega), ok_bind, Nat.add_sub_cancel,
        show c.cps.length - 1 + p + 1 - r = c.knots.length - 1 - r by omega, hU, ok_bind, subR_eq_ok (by omega), ok_bind,
        hfl, removeOut]
      simp only
      rw [show c.cps.length - 1 - (off + p - p / 2) = P'.length - 1 - (off + p - p / 2) by omega, hP2, ok_bind,
        subR_eq_ok (by omega), ok_bind, show c.cps.length - 1 + p + 1 + 1 - 1 = c.knots.length - 1 by omega, hU',
        show c.cps.length - 1 + 1 - 1 = P'.length - 1 by omega, hP2']
      rfl
    · show (P'.eraseIdx _).length + 1 = _
      rw [List.length_eraseIdx_of_lt (by omega)]; omega
    · intro y hy
      replace hy : y < (P'.eraseIdx (off + p - p / 2)).length := hy
      rw [List.length_eraseIdx_of_lt (by omega)] at hy
      show (P'.eraseIdx (off + p - p / 2)).getD y 0 = _
      have hget : (P'.eraseIdx (off + p - p / 2)).getD y 0 =
          if y < off + p - p / 2 then P'.getD y 0 else P'.getD (y + 1) 0 := by
        simp only [List.getD_eq_getElem?_getD, List.getElem?_eraseIdx]
        split <;> rfl
      rw [hget, remCps]
      by_cases h1 : y ≤ off
      · rw [if_pos h1, if_pos (by omega), hP', if_neg (by omega)]
      · rw [if_neg h1]
        by_cases h2 : y < off + p - p / 2
        · rw [if_pos h2, if_pos h2, hP', if_pos (by omega)]
        · rw [if_neg h2, if_neg h2, hP']
          by_cases h3 : y ≤ off + p
          · rw [if_pos h3]
            by_cases h4 : y = off + p
            · rw [if_neg (by omega)]
              subst h4
              have := sol.last
              rw [show off + p + 1 - off = p + 1 by omega, this]
            · rw [if_pos (by omega)]
          · rw [if_neg h3, if_neg (by omega)]

end ord

end Curvo.Props

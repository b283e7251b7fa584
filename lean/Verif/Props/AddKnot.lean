/-
  Property theorems about single knot insertion: C20.
-/
import Verif.Lemmas.AddKnot
import Verif.Props.Curve2

set_option linter.unusedSectionVars false

namespace Curvo.Props

open Curvo Curvo.Knots Curvo.Spec Curvo.Curve

variable {K : Type} [Field K] [LinearOrder K] [IsStrictOrderedRing K]
variable {W : Type} [AddCommGroup W] [Module K W]

/-! ### C20 -/

theorem take_knot_le {ks : List K} (hs : ks.Pairwise (· ≤ ·)) {x : K} {i : ℕ}
    (hi : floor ks x = some i) : (∀ y ∈ ks.take (i + 1), y ≤ x) ∧ ∀ y ∈ ks.drop (i + 1), x < y := by
  obtain ⟨h, h1, h2⟩ := rposition_some hi
  constructor
  · intro y hy
    obtain ⟨j, hj, rfl⟩ := List.mem_take_iff_getElem.1 hy
    have h1 : ks[i] ≤ x := by simpa using h1
    rcases Nat.lt_or_eq_of_le (show j ≤ i by omega) with hlt | rfl
    · exact le_trans (List.pairwise_iff_getElem.1 hs j i (by omega) h hlt) h1
    · exact h1
  · intro y hy
    obtain ⟨j, hj, rfl⟩ := List.mem_drop_iff_getElem.1 hy
    simpa [Nat.add_comm, Nat.add_left_comm] using h2 (i + 1 + j) (by omega) (by omega)

/-- Adding a knot anywhere in the knot range to a curve with constant weights: no index is out of
    range, the knots are the old ones plus the new one in sorted order, there is one more control
    point, all weights keep their value, and on the old domain (the end excluded) the homogeneous points
    are unchanged. -/
theorem C20_add_knot {c : Curve K (W × K)} {x w : K} (h : c.Pre) (hw : ∀ q ∈ c.cps, q.2 = w)
    (h1 : kf c.knots 0 ≤ x) (h2 : x ≤ kf c.knots (c.knots.length - 1)) :
    ∃ c', c.tryAddKnot x = .ok c' ∧ c'.degree = c.degree ∧ c'.knots.Pairwise (· ≤ ·) ∧
      c'.knots.Perm (x :: c.knots) ∧ c'.cps.length = c.cps.length + 1 ∧
      c'.knots.length = c'.cps.length + c'.degree + 1 ∧ (∀ q ∈ c'.cps, q.2 = w) ∧
      ∀ u, c.lo ≤ u → u < c.hi → c'.eval u = c.eval u := by
  have hd := h.deg_lt
  have hl := h.knots_len
  obtain ⟨i, c', hi, e, e1, e2, e3, e4, -, e5⟩ := tryAddKnot_spec h.deg_lt h.knots_len h.sorted hw h1 h2
  obtain ⟨t1, t2⟩ := take_knot_le h.sorted hi
  obtain ⟨hil, _, _⟩ := rposition_some hi
  have hperm : c'.knots.Perm (x :: c.knots) := by
    rw [e2]; refine List.perm_middle.trans ?_; rw [List.take_append_drop]
  have hlen := hperm.length_eq
  have hsorted : c'.knots.Pairwise (· ≤ ·) := by
    rw [e2]; exact sorted_insert h.sorted t1 (fun y hy => (t2 y hy).le)
  refine ⟨c', e, e1, hsorted, hperm, e3, by simp at hlen; omega, e4, ?_⟩
  intro u hu1 hu2
  obtain ⟨s, hp, hs, hin⟩ := h.exists_span hu1 hu2.le
  obtain ⟨⟨s', hss, hin'⟩, ev⟩ := e5 c.hi u s hp hs hin
  rw [eval_eq_evalB (c := c) (by omega), eval_eq_evalB (c := c') (by omega), ← ev]
  refine (evalB_congr (mono_of_sorted hsorted (by simp at hlen; omega)) (by omega) hin'
    (inSpan_congr ?_ hin')).symm
  constructor
  · intro e; exact absurd e hu2.ne
  · intro e'
    exfalso
    have hge : c.hi ≤ c'.hi := by
      show _ ≤ kf c'.knots c'.cps.length
      have hk : kf c'.knots = insKnot (kf c.knots) i x := by rw [e2]; exact kf_insert hil
      rw [hk, e3]
      by_cases hc : i < c.cps.length
      · rw [insKnot_gt hc]; exact le_refl _
      · by_cases hc2 : i = c.cps.length
        · rw [hc2, insKnot_mid]
          have hm : kf c.knots c.cps.length ∈ c.knots.take (i + 1) := by
            rw [kf_eq (by omega)]
            exact List.mem_take_iff_getElem.2 ⟨c.cps.length, by omega, rfl⟩
          exact t1 _ hm
        · rw [insKnot_le (by omega)]; exact h.mono _ _ (by omega) (by omega)
    exact absurd (lt_of_lt_of_le hu2 hge) (by rw [e']; exact lt_irrefl _)

/-- A knot in the domain: the domain and the denoted curve stay the same (the end included). -/
theorem C20_add_knot_in_domain {c : Curve K (W × K)} {x w : K} (h : c.Pre) (hw : ∀ q ∈ c.cps, q.2 = w)
    (h1 : c.lo ≤ x) (h2 : x ≤ c.hi) :
    ∃ c', c.tryAddKnot x = .ok c' ∧ c'.lo = c.lo ∧ c'.hi = c.hi ∧
      c'.knots.Perm (x :: c.knots) ∧ (∀ q ∈ c'.cps, q.2 = w) ∧ c'.Pre ∧
      (∀ u, c.lo ≤ u → u ≤ c.hi → c'.eval u = c.eval u) ∧ Refines c c' [x] := by
  have hd := h.deg_lt
  have hl := h.knots_len
  have hmono := h.mono
  obtain ⟨i, c', hi, e, e1, e2, e3, e4, e6, e5⟩ := tryAddKnot_spec h.deg_lt h.knots_len h.sorted hw
    (le_trans (hmono 0 c.degree (by omega) (by omega)) h1)
    (le_trans h2 (hmono c.cps.length (c.knots.length - 1) (by omega) (by omega)))
  obtain ⟨t1, t2⟩ := take_knot_le h.sorted hi
  obtain ⟨hil, _, _⟩ := rposition_some hi
  have hperm : c'.knots.Perm (x :: c.knots) := by
    rw [e2]; refine List.perm_middle.trans ?_; rw [List.take_append_drop]
  have hlen := hperm.length_eq
  have hk : kf c'.knots = insKnot (kf c.knots) i x := by rw [e2]; exact kf_insert hil
  have hpi : c.degree ≤ i := by
    by_contra hc
    have : kf c.knots c.degree ∈ c.knots.drop (i + 1) := by
      rw [kf_eq (by omega)]
      exact List.mem_drop_iff_getElem.2 ⟨c.degree - (i + 1), by omega, by congr 1; omega⟩
    exact absurd (t2 _ this) (not_lt.2 h1)
  have hlo : c'.lo = c.lo := by
    show kf c'.knots c'.degree = kf c.knots c.degree
    rw [hk, e1, insKnot_le hpi]
  have htake : ∀ j, j ≤ i → kf c.knots j ≤ x := by
    intro j hj
    apply t1
    rw [kf_eq (by omega)]
    exact List.mem_take_iff_getElem.2 ⟨j, by omega, rfl⟩
  have hhi : c'.hi = c.hi := by
    show kf c'.knots c'.cps.length = kf c.knots c.cps.length
    rw [hk, e3]
    by_cases hc : i < c.cps.length
    · rw [insKnot_gt hc]
    · by_cases hc2 : i = c.cps.length
      · rw [hc2, insKnot_mid]
        exact le_antisymm h2 (htake _ (by omega))
      · rw [insKnot_le (by omega)]
        exact le_antisymm (le_trans (htake _ (by omega)) h2) (hmono _ _ (by omega) (by omega))
  have hr : Refines c c' [x] := by
    refine ⟨⟨by omega, by simp at hlen; omega, ?_, by rw [hlo, hhi]; exact h.dom⟩, e1, hlo, hhi, hperm, e3, ?_, ?_⟩
    · rw [e2]; exact sorted_insert h.sorted t1 (fun y hy => (t2 y hy).le)
    · intro b u s hp hs hin
      obtain ⟨⟨s', hss, hin'⟩, ev⟩ := e5 b u s hp hs hin
      exact ⟨⟨s', by omega, by omega, hin'⟩, ev⟩
    · intro hx
      have hil' : i < c.cps.length := by
        by_contra hc
        have := htake c.cps.length (by omega)
        exact absurd (hx x (by simp)) (not_lt.2 this)
      rw [e6 hpi hil']
      exact (insertOne_refines h hpi hil' t1 (fun y hy => (t2 y hy).le)).cut hx
  exact ⟨c', e, hlo, hhi, hperm, e4, hr.pre, fun u => hr.eval h, hr⟩

/-- A knot strictly inside the domain which is an existing knot or `eps` away from all of them: every
    evaluated point is unchanged. -/
theorem C20_add_knot_same_points {eps : K} {c : Curve K (W × K)} {x w : K} (h : c.Good eps)
    (hw : ∀ q ∈ c.cps, q.2 = w) (h1 : c.lo < x) (h2 : x < c.hi)
    (hsep : ∀ y ∈ c.knots, |y - x| < eps → y = x) :
    ∃ c', c.tryAddKnot x = .ok c' ∧ c'.Good eps ∧
      ∀ u, c.lo ≤ u → u ≤ c.hi → c'.point eps u = c.point eps u := by
  obtain ⟨c', e, hlo, hhi, _, _, _, hev, hr⟩ := C20_add_knot_in_domain h.pre hw h1.le h2.le
  have hg := hr.good h (by intro y hy; rw [List.mem_singleton.1 hy]; exact ⟨h1, h2⟩)
    (by intro y hy; rw [List.mem_singleton.1 hy]; exact hsep)
  refine ⟨c', e, hg, ?_⟩
  intro u hu1 hu2
  rw [point_eq_eval hg (by rw [hlo]; exact hu1) (by rw [hhi]; exact hu2), point_eq_eval h hu1 hu2,
    hev u hu1 hu2]

/-- Knots outside the knot range are rejected with an error (and nothing is modified). -/
theorem C20_rejects_out_of_range {c : Curve K (W × K)} {x : K} (hne : c.knots ≠ [])
    (h : x < kf c.knots 0 ∨ kf c.knots (c.knots.length - 1) < x) : c.tryAddKnot x = .error .err := by
  have hpos : 0 < c.knots.length := List.length_pos_iff.2 hne
  unfold tryAddKnot
  rw [getR_eq_getD 0 hpos]
  simp only [ok_bind]
  have e : Knots.last c.knots = .ok (kf c.knots (c.knots.length - 1)) := by
    unfold Knots.last; rw [subR_eq_ok (by omega)]; simp only [ok_bind]
    rw [getR_eq_getD 0 (by omega)]; rfl
  rw [e]
  simp only [ok_bind]
  by_cases h0 : x < kf c.knots 0
  · rw [if_pos (by rw [not_le]; exact h0)]
  · have h1 := h.resolve_left h0
    by_cases h2 : (¬ c.knots.getD 0 0 ≤ x)
    · rw [if_pos h2]
    · rw [if_neg h2, if_pos (by rw [not_le]; exact h1)]

/-- Witness: the polynomial version of `exCurve`, weight 2 everywhere. -/
def exPoly : Curve ℚ ((ℚ × ℚ) × ℚ) where
  degree := 2
  cps := [((0, 0), 2), ((2, 4), 2), ((3, 1), 2), ((4, 4), 2), ((5, 0), 2), ((6, 3), 2)]
  knots := exKnots

theorem exPoly_good : exPoly.Good (1/1000) where
  cps_pos := by simp [exPoly]
  knots_len := by simp [exPoly, exKnots]
  good := exKnots_good

example : ∃ c', exPoly.tryAddKnot (1/2) = .ok c' ∧ c'.Good (1/1000) ∧
    ∀ u, exPoly.lo ≤ u → u ≤ exPoly.hi → c'.point (1/1000) u = exPoly.point (1/1000) u :=
  C20_add_knot_same_points (w := 2) exPoly_good (by decide +kernel) (by decide +kernel) (by decide +kernel)
    (by decide +kernel)

example : ∃ c', exPoly.tryAddKnot 3 = .ok c' ∧ ∀ u, exPoly.lo ≤ u → u ≤ exPoly.hi → c'.eval u = exPoly.eval u := by
  obtain ⟨c', e, _, _, _, _, _, h, _⟩ := C20_add_knot_in_domain (x := 3) (w := 2) exPoly_good.pre
    (by decide +kernel) (by decide +kernel) (by decide +kernel)
  exact ⟨c', e, h⟩

example : exPoly.tryAddKnot 4 = .error .err :=
  C20_rejects_out_of_range (by simp [exPoly, exKnots]) (Or.inr (by decide +kernel))

/-- With different weights the added knot moves the curve: the rational curve `exCurve` has a different
    affine point at 1/4 after adding the knot 1/2. -/
theorem C20_rational_curve_moves :
    ∃ c' p q, exCurve.tryAddKnot (1/2) = .ok c' ∧ exCurve.point (1/1000) (1/4) = .ok p ∧
      c'.point (1/1000) (1/4) = .ok q ∧ proj p ≠ proj q := by
  have key : (do
      let c' ← exCurve.tryAddKnot (1/2)
      let p ← exCurve.point (1/1000) (1/4)
      let q ← c'.point (1/1000) (1/4)
      pure (decide (proj p = proj q)) : Res Bool) = .ok false := by decide +kernel
  cases h1 : exCurve.tryAddKnot (1/2) with
  | error e => rw [h1] at key; simp at key
  | ok c' =>
    cases h2 : exCurve.point (1/1000) (1/4) with
    | error e => rw [h1, h2] at key; simp at key
    | ok p =>
      cases h3 : c'.point (1/1000) (1/4) with
      | error e => rw [h1, h2, ok_bind, ok_bind, h3] at key; simp at key
      | ok q =>
        rw [h1, h2, ok_bind, ok_bind, h3, ok_bind] at key
        exact ⟨c', p, q, rfl, rfl, h3, by simpa using key⟩

end Curvo.Props

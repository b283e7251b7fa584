/-
  C25: what removing a simple knot does to the curve, and what goes wrong with multiple knots.
-/
import Verif.Props.AddKnot
import Verif.Props.RemoveSimple

set_option linter.unusedSectionVars false

namespace Curvo.Props

open Curvo.Knots Curvo.Spec Curvo.Curve

variable {K : Type} [Field K] [LinearOrder K]
variable {V : Type} [AddCommGroup V] [Module K V]

theorem kf_eraseIdx {ks : List K} {r j : ℕ} : kf (ks.eraseIdx r) j = if j < r then kf ks j else kf ks (j + 1) := by
  simp only [kf, List.getD_eq_getElem?_getD, List.getElem?_eraseIdx]
  split <;> rfl

/-- Factor between the gap that is compared with the tolerance and the change of the control point. -/
def remFactor (U : List K) (u : K) (p off : ℕ) : K :=
  if p % 2 = 1 then 1 else -(remA U u p (off + p / 2) / (1 - remA U u p (off + 1 + p / 2)))

theorem insAlpha_erase {U : List K} {u : K} {p off t : ℕ} (ha : Apart U u p off) (h1 : off < t) (h2 : t ≤ off + p) :
    insAlpha (kf (U.eraseIdx (off + p + 1))) p (off + p) u t = remA U u p t := by
  have hd : kf U (t + p + 1) - kf U t ≠ 0 := sub_ne_zero.2 (ha.lh t (by omega) (by omega)).symm
  rw [insAlpha, if_neg (by omega), if_neg (by omega), kf_eraseIdx, if_neg (by omega), kf_eraseIdx, if_pos (by omega), remA]
  field_simp
  ring

/-- The old control points are those of the insertion into the new ones, except for one. -/
theorem remove_old_cps {U : List K} {u : K} {p off : ℕ} {Q T : ℕ → V} (hp : 1 ≤ p) (ha : Apart U u p off)
    (sol : RemSolves U u p off Q T (p / 2)) (t : ℕ) :
    Q t = insCps (kf (U.eraseIdx (off + p + 1))) p (off + p) u (remCps p off Q T) t +
      if t = off + p - p / 2 then remFactor U u p off • remGap U u p off Q T else 0 := by
  by_cases h1 : t ≤ off
  · rw [insCps_le (by omega), remCps, if_pos h1, if_neg (by omega), add_zero]
  by_cases h2 : off + p < t
  · rw [insCps_gt h2, remCps, if_neg (by omega), if_neg (by omega), if_neg (show ¬ t = off + p - p / 2 by omega), add_zero]
    by_cases h3 : t - 1 ≤ off + p
    · obtain rfl : t = off + p + 1 := by omega
      rw [if_pos h3, show off + p + 1 - 1 + 1 - off = p + 1 by omega, sol.last]
    · rw [if_neg h3, show t - 1 + 1 = t by omega]
  obtain ⟨x, rfl⟩ : ∃ x, t = off + x := ⟨t - off, by omega⟩
  rw [insCps, insAlpha_erase ha (by omega) (by omega)]
  have hprev : x ≤ p - p / 2 → remCps p off Q T (off + x - 1) = T (x - 1) := by
    intro hx
    rw [remCps]
    by_cases h3 : off + x - 1 ≤ off
    · rw [if_pos h3, show x - 1 = 0 by omega, sol.first]; congr 1; omega
    · rw [if_neg h3, if_pos (by omega)]; congr 1; omega
  rcases lt_trichotomy x (p - p / 2) with h | h | h
  · rw [hprev (by omega), remCps, if_neg (by omega), if_pos (by omega), if_neg (by omega), add_zero,
      show off + x - off = x by omega]
    exact sol.left x (by omega) (by omega)
  · rw [hprev (by omega), remCps, if_neg (by omega), if_neg (by omega), if_pos (by omega), if_pos (by omega),
      show off + x + 1 - off = x + 1 by omega, remFactor, remGap]
    by_cases hodd : p % 2 = 1
    · rw [if_pos hodd, one_smul]
      have e : x = p / 2 + 1 := by omega
      subst e
      rw [show off + 1 + p / 2 = off + (p / 2 + 1) by omega, show p / 2 + 1 - 1 = p / 2 by omega]
      abel
    · rw [if_neg hodd]
      have e : x = p / 2 := by omega
      have hl := sol.left x (by omega) (by omega)
      have hr := sol.right (p / 2) (by omega) (le_refl _)
      rw [show off + p + 1 - p / 2 = off + 1 + p / 2 by omega, show p + 2 - p / 2 = p / 2 + 2 by omega,
        show p + 1 - p / 2 = p / 2 + 1 by omega] at hr
      obtain ⟨-, -, n2⟩ := ha.alpha (x := off + 1 + p / 2) (by omega) (by omega)
      rw [hl, hr, e]
      generalize remA U u p (off + p / 2) = a at *
      generalize remA U u p (off + 1 + p / 2) = b at *
      have : b • T (p / 2 + 2) + (1 - b) • T (p / 2 + 1) - (b • T (p / 2 + 2) + (1 - b) • T (p / 2)) =
          (1 - b) • (T (p / 2 + 1) - T (p / 2)) := by module
      rw [this, smul_smul, neg_mul, div_mul_cancel₀ _ n2]
      module
  · rw [remCps, if_neg (by omega), if_neg (by omega), if_pos (by omega), remCps, if_neg (by omega), if_neg (by omega),
      if_pos (by omega), if_neg (by omega), add_zero]
    have := sol.right (p + 1 - x) (by omega) (by omega)
    rw [show off + p + 1 - (p + 1 - x) = off + x by omega, show p + 2 - (p + 1 - x) = x + 1 by omega,
      show p + 1 - (p + 1 - x) = x by omega] at this
    rw [this, show off + x + 1 - off = x + 1 by omega, show off + x - 1 + 1 - off = x by omega]

section ord
variable [IsStrictOrderedRing K]

/-- Removing a simple interior knot always answers. Either nothing changes, or exactly this knot and one
    control point go, the domain stays, and the curve changes by a multiple of one basis function: the
    factor is `remFactor` times a vector whose norm is at most the tolerance. -/
theorem C25_simple_knot {eps : K} {norm : V → K} {c : Curve K V} {u tol : K} {r : ℕ} (h : SimpleAt eps c u r) :
    ∃ c' t, tryRemoveKnot eps norm c u tol = .ok (c', t) ∧ ((t = 0 ∧ c' = c) ∨
      (t = 1 ∧ c'.Pre ∧ c'.degree = c.degree ∧ c'.lo = c.lo ∧ c'.hi = c.hi ∧ c'.knots = c.knots.eraseIdx r ∧
        c'.cps.length + 1 = c.cps.length ∧
        ∃ g, norm g ≤ tol ∧ ∀ x, c.lo ≤ x → x ≤ c.hi → c.eval x = c'.eval x +
          N (kf c.knots) c.hi c.degree (r - 1 - c.degree / 2) x • remFactor c.knots u c.degree (r - c.degree - 1) • g)) := by
  obtain ⟨T, sol, hno, hyes⟩ := remove_simple (norm := norm) (tol := tol) h
  obtain ⟨hr, hlt, hgt⟩ := h.split
  have hl := h.pre.knots_len
  have hlo := h.lo
  have hhi := h.hi
  have hdeg := h.deg
  by_cases hn : norm (remGap c.knots u c.degree (r - c.degree - 1) (fun x => c.cps.getD x 0) T) ≤ tol
  · obtain ⟨c', e, hd, hk, hcl, hcps⟩ := hyes hn
    have elo : c'.lo = c.lo := by
      show kf c'.knots c'.degree = _
      rw [hk, hd, kf_eraseIdx, if_pos hlo]; rfl
    have ehi : c'.hi = c.hi := by
      show kf c'.knots c'.cps.length = _
      rw [hk, kf_eraseIdx, if_neg (by omega), hcl]; rfl
    have hpre : c'.Pre := by
      refine ⟨by omega, ?_, ?_, by rw [elo, ehi]; exact h.pre.dom⟩
      · rw [hk, List.length_eraseIdx_of_lt hr]; omega
      · rw [hk]; exact h.pre.sorted.sublist (List.eraseIdx_sublist _ _)
    refine ⟨c', 1, e, Or.inr ⟨rfl, hpre, hd, elo, ehi, hk, hcl, _, hn, ?_⟩⟩
    have htk : c'.knots.take (r - 1 + 1) = c.knots.take r := by
      rw [hk, show r - 1 + 1 = r by omega, List.take_eraseIdx_eq_take_of_le _ _ _ (le_refl _)]
    have hdr : c'.knots.drop (r - 1 + 1) = c.knots.drop (r + 1) := by
      rw [hk, show r - 1 + 1 = r by omega, List.eraseIdx_eq_take_drop_succ, List.drop_append]
      simp [hr.le]
    have hu : c.knots[r] = u := by rw [← kf_eq hr]; exact h.at_r
    have hins : (c'.insertOne (r - 1) u).knots = c.knots := by
      show c'.knots.take (r - 1 + 1) ++ u :: c'.knots.drop (r - 1 + 1) = _
      rw [htk, hdr, ← hu, ← List.drop_eq_getElem_cons hr, List.take_append_drop]
    have href := insertOne_refines (c := c') (i := r - 1) (x := u) hpre (by omega) (by omega)
      (by
        rw [htk]
        intro y hy
        obtain ⟨j, hj, rfl⟩ := List.mem_take_iff_getElem.1 hy
        have := hlt j (by omega)
        rw [kf_eq (by omega)] at this
        exact this.le)
      (by
        rw [hdr]
        intro y hy
        obtain ⟨j, hj, rfl⟩ := List.mem_drop_iff_getElem.1 hy
        have := hgt (r + 1 + j) (by omega) (by omega)
        rw [kf_eq (by omega)] at this
        exact this.le)
    intro x hx1 hx2
    rw [← href.eval hpre (by rw [elo]; exact hx1) (by rw [ehi]; exact hx2),
      eval_eq_evalB (c := c) (by omega), eval_eq_evalB (by rw [href.cps_len]; simp), href.hi, ehi, evalB, evalB, hins,
      href.cps_len, href.degree, hd, List.length_singleton, hcl]
    have hoff : r - c.degree - 1 + c.degree = r - 1 := by omega
    have hterm : ∀ i ∈ Finset.range c.cps.length, c.cps.getD i 0 = (c'.insertOne (r - 1) u).cps.getD i 0 +
        if i = r - 1 - c.degree / 2 then remFactor c.knots u c.degree (r - c.degree - 1) •
          remGap c.knots u c.degree (r - c.degree - 1) (fun x => c.cps.getD x 0) T else 0 := by
      intro i hi
      have hi := Finset.mem_range.1 hi
      have key := remove_old_cps hdeg h.apart sol i
      rw [hoff, show r - 1 + 1 = r by omega, ← hk] at key
      rw [key]
      congr 1
      rw [insertOne, getD_map_range (by omega), hd]
      by_cases hc : i = c'.cps.length
      · rw [insCps_gt (by omega), insCps_gt (by omega), hcps _ (by omega)]
      · rw [insCps, insCps, hcps _ (by omega), hcps _ (by omega)]
    rw [Finset.sum_congr rfl (fun i hi => by rw [hterm i hi, smul_add])]
    rw [Finset.sum_add_distrib]
    congr 1
    rw [Finset.sum_eq_single (r - 1 - c.degree / 2)]
    · rw [if_pos rfl]
    · intro b _ hb
      rw [if_neg hb, smul_zero]
    · intro hb
      exact absurd (Finset.mem_range.2 (by omega)) hb
  · exact ⟨c, 0, hno hn, Or.inl ⟨rfl, rfl⟩⟩

/-- Basis functions lie between `0` and `1` on the domain. -/
theorem N_unit {c : Curve K V} (h : c.Pre) {x : K} (h1 : c.lo ≤ x) (h2 : x ≤ c.hi) {i : ℕ} (hi : i < c.cps.length) :
    0 ≤ N (kf c.knots) c.hi c.degree i x ∧ N (kf c.knots) c.hi c.degree i x ≤ 1 := by
  obtain ⟨s, hps, hs, hin⟩ := h.exists_span h1 h2
  have hm := h.mono
  have hlt := inSpan_lt hin
  have hb : kf c.knots s ≤ x ∧ x ≤ kf c.knots (s + 1) := by
    unfold InSpan at hin
    split at hin
    · exact ⟨hin.1.le, hin.2⟩
    · exact ⟨hin.1, hin.2.le⟩
  have hnn : ∀ j, j < c.cps.length → 0 ≤ NS (kf c.knots) s c.degree j x := fun j hj =>
    NS_nonneg hm hb.1 hb.2 c.degree j (by omega)
  rw [N_eq_NS hm (by omega) hin c.degree i (by omega)]
  refine ⟨hnn i hi, ?_⟩
  by_cases hw : s - c.degree ≤ i ∧ i ≤ s
  · have hsum := NS_sum_eq_one (k := kf c.knots) (s := s) x c.degree hps (fun a b ha hb' hb'' => by
      have h3 : kf c.knots a ≤ kf c.knots s := hm _ _ (by omega) (by omega)
      have h4 : kf c.knots (s + 1) ≤ kf c.knots b := hm _ _ (by omega) (by omega)
      exact (lt_of_le_of_lt h3 (lt_of_lt_of_le hlt h4)).ne')
    rw [← hsum]
    have := Finset.single_le_sum (f := fun r => NS (kf c.knots) s c.degree (s - c.degree + r) x)
      (s := Finset.range (c.degree + 1)) (fun r hr => hnn _ (by have := Finset.mem_range.1 hr; omega))
      (Finset.mem_range.2 (show i - (s - c.degree) < c.degree + 1 by omega))
    rwa [show s - c.degree + (i - (s - c.degree)) = i by omega] at this
  · have : NS (kf c.knots) s c.degree i x = 0 := by
      by_cases h3 : i ≤ s
      · exact NS_eq_zero_left _ _ _ _ _ (by omega)
      · exact NS_eq_zero_right _ _ _ _ _ (by omega)
    rw [this]; exact zero_le_one

/-- How far the (homogeneous) curve can move. -/
theorem C25_simple_knot_bound {eps : K} {norm : V → K} {c c' : Curve K V} {u tol : K} {r t : ℕ} (h : SimpleAt eps c u r)
    (hnorm : ∀ (a : K) v, norm (a • v) = |a| * norm v) (hnn : ∀ v, 0 ≤ norm v)
    (he : tryRemoveKnot eps norm c u tol = .ok (c', t)) {x : K} (h1 : c.lo ≤ x) (h2 : x ≤ c.hi) (htol : 0 ≤ tol) :
    norm (c.eval x - c'.eval x) ≤ |remFactor c.knots u c.degree (r - c.degree - 1)| * tol := by
  obtain ⟨d, t', e, hcase⟩ := C25_simple_knot (norm := norm) (tol := tol) h
  obtain ⟨rfl, rfl⟩ := Prod.mk.inj (Except.ok.inj (he.symm.trans e))
  have hlo := h.lo
  have hhi := h.hi
  rcases hcase with ⟨-, rfl⟩ | ⟨-, -, -, -, -, -, -, g, hg, hev⟩
  · have h0 : norm (0 : V) = 0 := by
      have := hnorm 0 0
      rwa [zero_smul, abs_zero, zero_mul] at this
    rw [sub_self, h0]
    exact mul_nonneg (abs_nonneg _) htol
  · rw [hev x h1 h2, add_sub_cancel_left, hnorm, hnorm]
    obtain ⟨n1, n2⟩ := N_unit h.pre h1 h2 (show r - 1 - c.degree / 2 < c.cps.length by omega)
    rw [abs_of_nonneg n1]
    calc _ ≤ 1 * (|remFactor c.knots u c.degree (r - c.degree - 1)| * norm g) :=
          mul_le_mul_of_nonneg_right n2 (mul_nonneg (abs_nonneg _) (hnn _))
      _ = |remFactor c.knots u c.degree (r - c.degree - 1)| * norm g := one_mul _
      _ ≤ _ := mul_le_mul_of_nonneg_left hg (abs_nonneg _)

/-- For odd degrees the (homogeneous) curve moves by at most the tolerance. -/
theorem C25_within_tolerance {eps : K} {norm : V → K} {c c' : Curve K V} {u tol : K} {r t : ℕ} (h : SimpleAt eps c u r)
    (hnorm : ∀ (a : K) v, norm (a • v) = |a| * norm v) (hnn : ∀ v, 0 ≤ norm v) (hodd : c.degree % 2 = 1)
    (he : tryRemoveKnot eps norm c u tol = .ok (c', t)) {x : K} (h1 : c.lo ≤ x) (h2 : x ≤ c.hi) (htol : 0 ≤ tol) :
    norm (c.eval x - c'.eval x) ≤ tol := by
  have := C25_simple_knot_bound h hnorm hnn he h1 h2 htol
  rwa [remFactor, if_pos hodd, abs_one, one_mul] at this

/-- With tolerance zero the curve does not move at all, whatever the degree. -/
theorem C25_exact {eps : K} {norm : V → K} {c c' : Curve K V} {u : K} {r t : ℕ} (h : SimpleAt eps c u r)
    (hdef : ∀ v, norm v ≤ 0 → v = 0)
    (he : tryRemoveKnot eps norm c u 0 = .ok (c', t)) {x : K} (h1 : c.lo ≤ x) (h2 : x ≤ c.hi) :
    c'.eval x = c.eval x := by
  obtain ⟨d, t', e, hcase⟩ := C25_simple_knot (norm := norm) (tol := 0) h
  obtain ⟨rfl, rfl⟩ := Prod.mk.inj (Except.ok.inj (he.symm.trans e))
  rcases hcase with ⟨-, rfl⟩ | ⟨-, -, -, -, -, -, -, g, hg, hev⟩
  · rfl
  · rw [hev x h1 h2, hdef g hg, smul_zero, smul_zero, add_zero]

/-- Removing undoes inserting: after the insertion of a new knot into any curve, removing it succeeds with
    any non negative tolerance and gives the original curve back. -/
theorem remove_insertOne {eps : K} {norm : V → K} {c : Curve K V} {u tol : K} {i : ℕ} (hc : c.Pre)
    (h : SimpleAt eps (c.insertOne i u) u (i + 1)) (h0 : norm 0 ≤ tol) (hdeg : c.degree ≤ i) (hi : i < c.cps.length) :
    tryRemoveKnot eps norm (c.insertOne i u) u tol = .ok (c, 1) := by
  obtain ⟨T, sol, -, hyes⟩ := remove_simple (norm := norm) (tol := tol) h
  have hap := h.apart
  have hp : 1 ≤ c.degree := h.deg
  have hk : kf (c.insertOne i u).knots = insKnot (kf c.knots) i u := insertOne_knots (by have := hc.knots_len; omega)
  have hcl : (c.insertOne i u).cps.length = c.cps.length + 1 := by simp [insertOne]
  obtain ⟨off, rfl⟩ : ∃ off, i = off + c.degree := ⟨i - c.degree, by omega⟩
  have hoff : off + c.degree + 1 - (c.insertOne (off + c.degree) u).degree - 1 = off := by
    show off + c.degree + 1 - c.degree - 1 = off; omega
  have hoff2 : off + c.degree + 1 - c.degree - 1 = off := by omega
  rw [hoff] at sol hap hyes
  replace sol : RemSolves (c.insertOne (off + c.degree) u).knots u c.degree off
    (fun x => (c.insertOne (off + c.degree) u).cps.getD x 0) T (c.degree / 2) := sol
  replace hap : Apart (c.insertOne (off + c.degree) u).knots u c.degree off := hap
  -- the coefficients and the control points
  have hα : ∀ t, off < t → t ≤ off + c.degree →
      insAlpha (kf c.knots) c.degree (off + c.degree) u t = remA (c.insertOne (off + c.degree) u).knots u c.degree t := by
    intro t h1 h2
    have hd := sub_ne_zero.2 (hap.lh t (by omega) (by omega)).symm
    rw [hk, insKnot_gt (by omega), insKnot_le h2] at hd
    rw [insAlpha, if_neg (by omega), if_neg (by omega), remA, hk, insKnot_gt (by omega), insKnot_le h2]
    field_simp
    ring
  have hQ : ∀ t, t ≤ c.cps.length → (c.insertOne (off + c.degree) u).cps.getD t 0 =
      insCps (kf c.knots) c.degree (off + c.degree) u (fun t => c.cps.getD t 0) t := by
    intro t ht
    show ((List.range (c.cps.length + 1)).map _).getD t 0 = _
    rw [getD_map_range (by omega)]
  have hmid : ∀ t, off < t → t ≤ off + c.degree → (c.insertOne (off + c.degree) u).cps.getD t 0 =
      remA (c.insertOne (off + c.degree) u).knots u c.degree t • c.cps.getD t 0 +
        (1 - remA (c.insertOne (off + c.degree) u).knots u c.degree t) • c.cps.getD (t - 1) 0 := by
    intro t h1 h2
    rw [hQ t (by omega), insCps, hα t h1 h2]
  -- the solution is the original polygon
  have hleft : ∀ x, x ≤ c.degree / 2 → T x = c.cps.getD (off + x) 0 := by
    intro x
    induction x with
    | zero =>
      intro _
      rw [sol.first]
      show (c.insertOne (off + c.degree) u).cps.getD off 0 = _
      rw [hQ _ (by omega), insCps_le (le_refl _)]; rfl
    | succ x ih =>
      intro hx
      have h1 := sol.left (x + 1) (by omega) hx
      rw [hmid (off + (x + 1)) (by omega) (by omega), show x + 1 - 1 = x by omega, ih (by omega),
        show off + (x + 1) - 1 = off + x by omega] at h1
      obtain ⟨-, n1, -⟩ := hap.alpha (x := off + (x + 1)) (by omega) (by omega)
      exact (smul_right_injective V n1 (add_right_cancel h1)).symm
  have hright : ∀ x, x ≤ c.degree / 2 → T (c.degree + 1 - x) = c.cps.getD (off + c.degree - x) 0 := by
    intro x
    induction x with
    | zero =>
      intro _
      rw [Nat.sub_zero, sol.last]
      show (c.insertOne (off + c.degree) u).cps.getD (off + c.degree + 1) 0 = _
      rw [hQ _ (by omega), insCps_gt (by omega)]; rfl
    | succ x ih =>
      intro hx
      have h1 := sol.right (x + 1) (by omega) hx
      rw [show off + c.degree + 1 - (x + 1) = off + c.degree - x by omega,
        hmid (off + c.degree - x) (by omega) (by omega), show c.degree + 2 - (x + 1) = c.degree + 1 - x by omega,
        ih (by omega), show off + c.degree - x - 1 = off + c.degree - (x + 1) by omega] at h1
      obtain ⟨-, -, n2⟩ := hap.alpha (x := off + c.degree - x) (by omega) (by omega)
      exact (smul_right_injective V n2 (add_left_cancel h1)).symm
  have hgap : remGap (c.insertOne (off + c.degree) u).knots u c.degree off
      (fun x => (c.insertOne (off + c.degree) u).cps.getD x 0) T = 0 := by
    have h2 := hright (c.degree - 1 - c.degree / 2) (by omega)
    rw [show c.degree + 1 - (c.degree - 1 - c.degree / 2) = c.degree / 2 + 2 by omega] at h2
    rw [remGap]
    rw [hmid (off + 1 + c.degree / 2) (by omega) (by omega), hleft _ (le_refl _), h2,
      show off + c.degree - (c.degree - 1 - c.degree / 2) = off + 1 + c.degree / 2 by omega,
      show off + 1 + c.degree / 2 - 1 = off + c.degree / 2 by omega, sub_self]
  obtain ⟨c', e, hd, hk', hl', hcps⟩ := hyes (by
    show norm (remGap _ u c.degree off _ T) ≤ tol
    rw [hgap]; exact h0)
  rw [e]
  have hkn : c'.knots = c.knots := by
    rw [hk']
    show (c.knots.take (off + c.degree + 1) ++ u :: c.knots.drop (off + c.degree + 1)).eraseIdx (off + c.degree + 1) = _
    have hlen : (c.knots.take (off + c.degree + 1)).length = off + c.degree + 1 := by
      rw [List.length_take]; have := hc.knots_len; omega
    rw [List.eraseIdx_append_of_length_le (by omega), hlen, Nat.sub_self, List.eraseIdx_cons_zero, List.take_append_drop]
  have hcp : c'.cps = c.cps := by
    apply List.ext_getElem
    · omega
    · intro y h1 h2
      have := hcps y h1
      rw [List.getD_eq_getElem?_getD, List.getElem?_eq_getElem h1, Option.getD_some] at this
      rw [this]
      have hy : c.cps[y] = c.cps.getD y 0 := by
        rw [List.getD_eq_getElem?_getD, List.getElem?_eq_getElem h2, Option.getD_some]
      rw [hy]
      show remCps c.degree off (fun x => (c.insertOne (off + c.degree) u).cps.getD x 0) T y = _
      rw [remCps]
      by_cases c1 : y ≤ off
      · rw [if_pos c1]
        rw [hQ _ (by omega), insCps_le (by omega)]
      · rw [if_neg c1]
        by_cases c2 : y < off + c.degree - c.degree / 2
        · rw [if_pos c2, hleft _ (by omega)]; congr 1; omega
        · rw [if_neg c2]
          by_cases c3 : y ≤ off + c.degree
          · rw [if_pos c3]
            have := hright (off + c.degree - y) (by omega)
            rw [show c.degree + 1 - (off + c.degree - y) = y + 1 - off by omega] at this
            rw [this]; congr 1; omega
          · rw [if_neg c3]
            rw [hQ _ (by omega), insCps_gt (by omega)]; rfl
  cases c'
  cases c
  simp only at hkn hcp hd
  subst hkn hcp
  have hd' : _ = _ := hd
  simp only [insertOne] at hd'
  subst hd'
  rfl

/-- Adding a knot and removing it again gives the curve back. -/
theorem C25_undoes_add_knot {W : Type} [AddCommGroup W] [Module K W] {eps : K} {norm : W × K → K} {c : Curve K (W × K)}
    {u w tol : K} (hc : c.Pre) (hw : ∀ q ∈ c.cps, q.2 = w) (hdeg : 1 ≤ c.degree) (heps : 0 ≤ eps)
    (h1 : c.lo < u) (h2 : u < c.hi) (hsep : ∀ x ∈ u :: c.knots, ∀ y ∈ u :: c.knots, x ≠ y → eps < |x - y|)
    (hnew : u ∉ c.knots) (h0 : norm 0 ≤ tol) :
    ∃ c1, c.tryAddKnot u = .ok c1 ∧ tryRemoveKnot eps norm c1 u tol = .ok (c, 1) := by
  have hd := hc.deg_lt
  have hl := hc.knots_len
  have hmono := hc.mono
  obtain ⟨i, c1, hi, e, -, -, -, -, hins, -⟩ := tryAddKnot_spec hc.deg_lt hc.knots_len hc.sorted hw
    (le_trans (hmono 0 c.degree (by omega) (by omega)) h1.le)
    (le_trans h2.le (hmono c.cps.length (c.knots.length - 1) (by omega) (by omega)))
  obtain ⟨t1, t2⟩ := take_knot_le hc.sorted hi
  obtain ⟨hil, hi1, -⟩ := rposition_some hi
  have hi1 : c.knots[i] ≤ u := by simpa using hi1
  have hpi : c.degree ≤ i := by
    by_contra hcon
    have : kf c.knots c.degree ∈ c.knots.drop (i + 1) := by
      rw [kf_eq (by omega)]
      exact List.mem_drop_iff_getElem.2 ⟨c.degree - (i + 1), by omega, by congr 1; omega⟩
    exact absurd (t2 _ this) (not_lt.2 h1.le)
  have hin : i < c.cps.length := by
    by_contra hcon
    have h3 := hmono c.cps.length i (by omega) (by omega)
    rw [kf_eq hil] at h3
    exact absurd (lt_of_lt_of_le h2 h3) (not_lt.2 hi1)
  obtain rfl := hins hpi hin
  have href := insertOne_refines (x := u) hc hpi hin t1 (fun y hy => (t2 y hy).le)
  have hmem : ∀ y, y ∈ (c.insertOne i u).knots → y ∈ u :: c.knots := fun y hy => (href.knots.mem_iff).1 hy
  refine ⟨_, e, remove_insertOne hc ⟨href.pre, heps, hdeg, ?_, ?_, ?_, ?_, ?_⟩ h0 hpi hin⟩
  · show c.degree < i + 1; omega
  · rw [href.cps_len]; simp; omega
  · rw [insertOne_knots (by omega), insKnot_mid]
  · rw [href.knots.count_eq]
    rw [List.singleton_append, List.count_cons_self, List.count_eq_zero_of_not_mem hnew]
  · exact fun x hx y hy => hsep x (hmem x hx) y (hmem y hy)

end ord

/-! ### Cases -/

/-- The 1-norm of a homogeneous point of the line. -/
def norm1 (v : ℚ × ℚ) : ℚ := |v.1| + |v.2|

theorem norm1_smul (a : ℚ) (v : ℚ × ℚ) : norm1 (a • v) = |a| * norm1 v := by
  simp only [norm1, Prod.smul_fst, Prod.smul_snd, smul_eq_mul, abs_mul]; ring

theorem norm1_nonneg (v : ℚ × ℚ) : 0 ≤ norm1 v := add_nonneg (abs_nonneg _) (abs_nonneg _)

theorem norm1_def (v : ℚ × ℚ) (h : norm1 v ≤ 0) : v = 0 := by
  have h1 := abs_nonneg v.1
  have h2 := abs_nonneg v.2
  unfold norm1 at h
  exact Prod.ext (abs_eq_zero.1 (by linarith)) (abs_eq_zero.1 (by linarith))

/-- A cubic with one interior knot. -/
def exRemove : Curve ℚ (ℚ × ℚ) := ⟨3, [(0, 1), (1, 1), (3, 1), (6, 1), (7, 1)], [0, 0, 0, 0, 1, 2, 2, 2, 2]⟩

theorem exRemove_simple : SimpleAt (1/1000) exRemove 1 4 where
  pre := ⟨by decide, by decide, by decide +kernel, by decide +kernel⟩
  eps_nonneg := by norm_num
  deg := by decide
  lo := by decide
  hi := by decide
  at_r := by decide +kernel
  once := by decide +kernel
  sep := by decide +kernel

/-- The knot of the example goes with tolerance 2 and stays with tolerance 1. -/
example : (tryRemoveKnot (1/1000) norm1 exRemove 1 2).map (fun r => (r.1.cps, r.1.knots, r.2)) =
      .ok ([(0, 1), (2, 1), (5, 1), (7, 1)], [0, 0, 0, 0, 2, 2, 2, 2], 1) ∧
    (tryRemoveKnot (1/1000) norm1 exRemove 1 (1/10)).map (fun r => (r.1.cps, r.1.knots, r.2)) =
      .ok (exRemove.cps, exRemove.knots, 0) := by decide +kernel

example (c' : Curve ℚ (ℚ × ℚ)) (t : ℕ) (h : tryRemoveKnot (1/1000) norm1 exRemove 1 2 = .ok (c', t)) (x : ℚ)
    (h1 : exRemove.lo ≤ x) (h2 : x ≤ exRemove.hi) : norm1 (exRemove.eval x - c'.eval x) ≤ 2 :=
  C25_within_tolerance exRemove_simple norm1_smul norm1_nonneg rfl h h1 h2 (by norm_num)

example (c' : Curve ℚ (ℚ × ℚ)) (t : ℕ) (h : tryRemoveKnot (1/1000) norm1 exRemove 1 0 = .ok (c', t)) (x : ℚ)
    (h1 : exRemove.lo ≤ x) (h2 : x ≤ exRemove.hi) : c'.eval x = exRemove.eval x :=
  C25_exact exRemove_simple norm1_def h h1 h2

example : ∃ c1, exRemove.tryAddKnot (1/2) = .ok c1 ∧ tryRemoveKnot (1/1000) norm1 c1 (1/2) 0 = .ok (exRemove, 1) :=
  C25_undoes_add_knot (w := 1) exRemove_simple.pre (by decide +kernel) (by decide) (by norm_num) (by decide +kernel)
    (by decide +kernel) (by decide +kernel) (by decide +kernel) (by decide +kernel)

example : tryRemoveKnot (1/1000) norm1 exRemove 3 1 = .error .err :=
  (C25_errors (by decide)).1 (by decide +kernel)

example : tryRemoveKnot (1/1000) norm1 exRemove 0 1 = .error .err :=
  (C25_errors (by decide)).2 2 (by decide) (by decide +kernel)

/-- For even degrees the code compares the tolerance with a weighted gap, and the curve can move by more
    than the tolerance: here by `9/20` and more with tolerance `1/10`. -/
def exEven : Curve ℚ (ℚ × ℚ) := ⟨2, [(0, 1), (9/10, 1), (0, 1), (0, 1)], [0, 0, 0, 9/10, 1, 1, 1]⟩

theorem C25_even_degree_exceeds_tolerance :
    ∃ c' p q, tryRemoveKnot (1/1000) norm1 exEven (9/10) (1/10) = .ok (c', 1) ∧ exEven.point (1/1000) (1/2) = .ok p ∧
      c'.point (1/1000) (1/2) = .ok q ∧ 4/10 < norm1 (p - q) := by
  have key : (do
      let r ← tryRemoveKnot (1/1000) norm1 exEven (9/10) (1/10)
      let p ← exEven.point (1/1000) (1/2)
      let q ← r.1.point (1/1000) (1/2)
      pure (decide (r.2 = 1 ∧ 4/10 < norm1 (p - q))) : Res Bool) = .ok true := by decide +kernel
  obtain ⟨⟨c', t⟩, e1, key⟩ := bind_eq_ok.1 key
  obtain ⟨p, e2, key⟩ := bind_eq_ok.1 key
  obtain ⟨q, e3, key⟩ := bind_eq_ok.1 key
  obtain ⟨h1, h2⟩ := of_decide_eq_true (Except.ok.inj key)
  obtain rfl : t = 1 := h1
  exact ⟨c', p, q, e1, e2, e3, h2⟩

/-- The straight line `x = u` with a simple knot at 1. -/
def exIdent : Curve ℚ (ℚ × ℚ) := ⟨2, [(0, 1), (1/2, 1), (3/2, 1), (5/2, 1), (3, 1)], [0, 0, 0, 1, 2, 3, 3, 3]⟩

/-- A second copy of an interior knot, which the code has just inserted itself, is not removed again,
    not even with tolerance `1/10`: the search starts from the first copy of the knot and compares the
    wrong control points. -/
theorem C25_double_knot_not_removed :
    (exIdent.tryAddKnot 1).map (fun c => (c.cps, c.knots)) =
      .ok ([(0, 1), (1/2, 1), (1, 1), (3/2, 1), (5/2, 1), (3, 1)], [0, 0, 0, 1, 1, 2, 3, 3, 3]) ∧
    ((exIdent.tryAddKnot 1) >>= fun c => tryRemoveKnot (1/1000) norm1 c 1 (1/10)).map (fun r => r.2) = .ok 0 := by
  decide +kernel

/-- Two equal control points before the first copy of a double knot: the knot is removed and the curve
    moves by more than the tolerance. -/
def exDup : Curve ℚ (ℚ × ℚ) := ⟨2, [(0, 1), (1, 1), (5, 1), (5, 1), (6, 1), (9, 1)], [0, 0, 0, 1, 2, 2, 3, 3, 3]⟩

theorem C25_double_knot_moves_curve :
    ∃ c' p q, tryRemoveKnot (1/1000) norm1 exDup 2 (1/10) = .ok (c', 1) ∧ exDup.point (1/1000) 2 = .ok p ∧
      c'.point (1/1000) 2 = .ok q ∧ 4/10 < norm1 (p - q) := by
  have key : (do
      let r ← tryRemoveKnot (1/1000) norm1 exDup 2 (1/10)
      let p ← exDup.point (1/1000) 2
      let q ← r.1.point (1/1000) 2
      pure (decide (r.2 = 1 ∧ 4/10 < norm1 (p - q))) : Res Bool) = .ok true := by decide +kernel
  obtain ⟨⟨c', t⟩, e1, key⟩ := bind_eq_ok.1 key
  obtain ⟨p, e2, key⟩ := bind_eq_ok.1 key
  obtain ⟨q, e3, key⟩ := bind_eq_ok.1 key
  obtain ⟨h1, h2⟩ := of_decide_eq_true (Except.ok.inj key)
  obtain rfl : t = 1 := h1
  exact ⟨c', p, q, e1, e2, e3, h2⟩

/-- The same at the first interior knot: the second round starts before the first control point and panics. -/
theorem C25_double_knot_panics :
    tryRemoveKnot (1/1000) norm1 ⟨2, [(0, 1), (5, 1), (5, 1), (6, 1), (9, 1)], [0, 0, 0, 1, 1, 3, 3, 3]⟩ 1 (1/10) =
      .error .panic := by
  have key : (tryRemoveKnot (1/1000) norm1 ⟨2, [(0, 1), (5, 1), (5, 1), (6, 1), (9, 1)], [0, 0, 0, 1, 1, 3, 3, 3]⟩ 1
      (1/10)).map (fun r => r.2) = .error .panic := by decide +kernel
  revert key
  generalize tryRemoveKnot (1/1000) norm1 _ _ _ = x
  intro key
  cases x with
  | ok r => cases key
  | error e => exact congrArg Except.error (Except.error.inj key)

end Curvo.Props

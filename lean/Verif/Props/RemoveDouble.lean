/-
  C25: removal of a double knot of a quadratic curve.
-/
import Verif.Props.RemoveClaims
import Verif.Props.ElevQuad

set_option linter.unusedSectionVars false
set_option linter.unusedSimpArgs false

namespace Curvo.Props

open Curvo Curvo.Curve Curvo.Spec

variable {K : Type} [Field K] [LinearOrder K] [IsStrictOrderedRing K] {V : Type} [AddCommGroup V] [Module K V]

/-- **Only one copy goes.** Whatever the number `t` of removals that the call reports: the knots that go are the first copy of the
    knot and the `t - 1` knots before it. So the multiplicity of the knot is one less, and other knots are lost. -/
theorem C25_only_one_copy_goes {eps : K} {norm : V → K} {c c' : Curve K V} {knot tol : K} {t : ℕ}
    (hlen : c.knots.length = c.cps.length + c.degree + 1) (h : tryRemoveKnot eps norm c knot tol = .ok (c', t)) (ht : 1 ≤ t) :
    c'.knots.count knot + 1 = c.knots.count knot ∧
      ∃ r, c.knots[r]? = some knot ∧ knot ∉ c.knots.take r ∧ t ≤ r + 1 ∧ c'.knots = c.knots.take (r + 1 - t) ++ c.knots.drop (r + 1) := by
  suffices hr : ∃ r, c.knots[r]? = some knot ∧ knot ∉ c.knots.take r ∧ t ≤ r + 1 ∧
      c'.knots = c.knots.take (r + 1 - t) ++ c.knots.drop (r + 1) by
    refine ⟨?_, hr⟩
    obtain ⟨r, g1, g2, g3, g4⟩ := hr
    obtain ⟨hl, hk⟩ := List.getElem?_eq_some_iff.1 g1
    have e : c.knots = c.knots.take r ++ knot :: c.knots.drop (r + 1) := by
      rw [← hk, ← List.drop_eq_getElem_cons hl, List.take_append_drop]
    have z1 : (c.knots.take r).count knot = 0 := List.count_eq_zero.2 g2
    have z2 : (c.knots.take (r + 1 - t)).count knot = 0 := by
      refine List.count_eq_zero.2 fun hm => g2 ?_
      exact (List.take_subset_take_left _ (by omega)) hm
    rw [g4, List.count_append, z2]
    conv_rhs => rw [e]
    rw [List.count_append, z1, List.count_cons_self]
    omega
  rw [tryRemoveKnot] at h
  obtain ⟨n, hn, h⟩ := bind_eq_ok.1 h
  split at h
  · cases h
  · rename_i r hr
    obtain ⟨hrl, hrk, hrf⟩ := List.findIdx?_eq_some_iff_getElem.1 hr
    have hrk := of_decide_eq_true hrk
    obtain ⟨m, hm, h⟩ := bind_eq_ok.1 h
    split at h
    · cases h
    · rename_i k s hs
      split at h
      · cases h
      · split at h
        · cases h
        · obtain ⟨⟨t', P⟩, hrnd, h⟩ := bind_eq_ok.1 h
          have hnl : n + 1 = c.cps.length := by
            rw [subR] at hn
            split at hn
            · have := Except.ok.inj hn; omega
            · cases hn
          simp only at h
          split at h
          · obtain ⟨dst, hd, h⟩ := bind_eq_ok.1 h
            obtain ⟨U, hU, h⟩ := bind_eq_ok.1 h
            obtain ⟨lu, hlu, h⟩ := bind_eq_ok.1 h
            obtain ⟨Q, hQ, h⟩ := bind_eq_ok.1 h
            obtain ⟨lp, hlp, h⟩ := bind_eq_ok.1 h
            obtain ⟨rfl, rfl⟩ := Prod.mk.inj (Except.ok.inj h)
            have b1 : t' ≤ r + 1 ∧ dst = r + 1 - t' := by
              rw [subR] at hd
              split at hd
              · exact ⟨by omega, (Except.ok.inj hd).symm⟩
              · cases hd
            have b2 : lu = c.knots.length - t' := by
              rw [subR] at hlu
              split at hlu
              · have := Except.ok.inj hlu; omega
              · cases hlu
            refine ⟨r, by rw [List.getElem?_eq_getElem hrl, hrk], ?_, b1.1, ?_⟩
            · intro hmem
              obtain ⟨i, hi, e⟩ := List.getElem_of_mem hmem
              rw [List.length_take] at hi
              have := hrf i (by omega)
              rw [List.getElem_take] at e
              simp [e] at this
            · show U.take lu = _
              obtain ⟨ys, e, hl, hy⟩ := moveDown_spec knot (show dst ≤ r + 1 by omega) (cnt := n + c.degree + 1 - r) (xs := c.knots)
                (by omega)
              rw [hU] at e
              obtain rfl := Except.ok.inj e
              have hd' := b1.2
              apply List.ext_getElem
              · rw [List.length_take, List.length_append, List.length_take, List.length_drop, hl]
                omega
              · intro i i1 i2
                have hi : i < c.knots.length - t' := by rw [List.length_take] at i1; omega
                have := hy i
                rw [List.getD_eq_getElem?_getD, List.getElem?_eq_getElem (show i < U.length by omega), Option.getD_some] at this
                rw [List.getElem_take, this]
                by_cases hc : dst ≤ i
                · rw [if_pos ⟨hc, by omega⟩, List.getElem_append_right (by rw [List.length_take]; omega), List.getElem_drop,
                    List.getD_eq_getElem?_getD, List.getElem?_eq_getElem (show r + 1 + (i - dst) < c.knots.length by omega),
                    Option.getD_some]
                  congr 1
                  rw [List.length_take]
                  omega
                · rw [if_neg (by omega), List.getElem_append_left (by rw [List.length_take]; omega), List.getElem_take,
                    List.getD_eq_getElem?_getD, List.getElem?_eq_getElem (show i < c.knots.length by omega), Option.getD_some]
          · obtain ⟨rfl, rfl⟩ := Prod.mk.inj (Except.ok.inj h)
            omega

/-- A quadratic curve with a simple and a double inner knot. -/
def kinked (a b c d : K) (P : Fin 6 → V) : Curve K V :=
  ⟨2, [P 0, P 1, P 2, P 3, P 4, P 5], [a, a, a, b, c, c, d, d, d]⟩

/-- The answer for every quadratic curve with a double knot `c` after a simple one. -/
theorem C25_double_knot_answer {eps tol : K} (he : 0 ≤ eps) {a b c d : K} (h1 : a + eps < b) (h2 : b + eps < c) (h3 : c + eps < d)
    (norm : V → K) (P : Fin 6 → V) :
    tryRemoveKnot eps norm (kinked a b c d P) c tol = .ok (
      if norm (P 2 - P 3) ≤ tol then
        if norm (P 1 - (1 - (c - a) / (d - a))⁻¹ • (P 3 - ((c - a) / (d - a)) • P 4)) ≤ tol then
          (⟨2, [P 0, P 1, P 4, P 5], [a, a, a, c, d, d, d]⟩, 2)
        else (⟨2, [P 0, P 1, P 3, P 4, P 5], [a, a, a, b, c, d, d, d]⟩, 1)
      else (kinked a b c d P, 0)) := by
  have l1 : a < b := by linarith
  have l2 : b < c := by linarith
  have l3 : c < d := by linarith
  have a1 : eps < |b - a| := by rw [abs_of_pos (by linarith)]; linarith
  have a2 : eps < |c - b| := by rw [abs_of_pos (by linarith)]; linarith
  have a3 : eps < |d - c| := by rw [abs_of_pos (by linarith)]; linarith
  have m : Knots.multiplicity eps [a, a, a, b, c, c, d, d, d] = .ok [(a, 3), (b, 1), (c, 2), (d, 3)] := by
    simp [Knots.multiplicity, Knots.multGo, getR, bind, Except.bind, pure, Except.pure, a1, a2, a3, not_lt.2 he]
  have n1 : ¬ a = c := (l1.trans l2).ne
  have n2 : ¬ b = c := l2.ne
  have n3 : c - a ≠ 0 := sub_ne_zero.2 (l1.trans l2).ne'
  have n4 : d - a ≠ 0 := sub_ne_zero.2 ((l1.trans l2).trans l3).ne'
  have n5 : 1 - (c - a) / (d - a) ≠ 0 := by
    rw [one_sub_div n4, sub_sub_sub_cancel_right]
    exact div_ne_zero (sub_ne_zero.2 l3.ne') n4
  simp (maxSteps := 10000000) [kinked, tryRemoveKnot, m, n1, n2, subR, getR, setR, List.findIdx?_cons, bind, Except.bind, pure, Except.pure,
    List.replicate]
  by_cases g1 : norm (P 2 - P 3) ≤ tol
  · by_cases g2 : norm (P 1 - (1 - (c - a) / (d - a))⁻¹ • (P 3 - ((c - a) / (d - a)) • P 4)) ≤ tol
    · simp (maxSteps := 10000000) [removeRounds, removeRound, removeWhile, removable, removeStore, removeAlpha, subR, getR, setR, bind, Except.bind, pure,
        Except.pure, divR_ok, n3, n4, divV, n5, g1, g2, moveDown, removeOut, List.range_succ]
    · simp (maxSteps := 10000000) [removeRounds, removeRound, removeWhile, removable, removeStore, removeAlpha, subR, getR, setR, bind, Except.bind, pure,
        Except.pure, divR_ok, n3, n4, divV, n5, g1, g2, moveDown, removeOut, List.range_succ]
  · simp (maxSteps := 10000000) [removeRounds, removeRound, removeWhile, removable, removeStore, removeAlpha, subR, getR, setR, bind, Except.bind, pure,
        Except.pure, divR_ok, n3, n4, divV, n5, g1, moveDown, removeOut, List.range_succ]

/-- Witness: a curve whose double knot 2 is "removed" twice, with tolerance 0. One copy of 2 and the knot 1 go, and the curve moves
    by 3/4. -/
theorem C25_double_knot_loses_another :
    ∃ c' q, tryRemoveKnot (1/1000) norm1 (kinked (0 : ℚ) 1 2 4 ![((-1 : ℚ), (1 : ℚ)), (0, 1), (2, 1), (2, 1), (4, 1), (5, 1)]) 2 0 =
      .ok (c', 2) ∧ c'.knots = [0, 0, 0, 2, 4, 4, 4] ∧ c'.point (1/1000) 1 = .ok q ∧ q = (1/4, 1) ∧
      (kinked (0 : ℚ) 1 2 4 ![((-1 : ℚ), (1 : ℚ)), (0, 1), (2, 1), (2, 1), (4, 1), (5, 1)]).point (1/1000) 1 = .ok (1, 1) := by
  refine ⟨⟨2, [(-1, 1), (0, 1), (4, 1), (5, 1)], [0, 0, 0, 2, 4, 4, 4]⟩, (1/4, 1), ?_, rfl, by decide +kernel, rfl, by decide +kernel⟩
  rw [C25_double_knot_answer (by norm_num) (by norm_num) (by norm_num) (by norm_num), if_pos (by decide +kernel),
    if_pos (by decide +kernel)]
  rfl

/-- The hypotheses of `C25_only_one_copy_goes` hold there. -/
example : ∃ c', (c'.knots.count 2 + 1 = (kinked (0 : ℚ) 1 2 4 ![((-1 : ℚ), (1 : ℚ)), (0, 1), (2, 1), (2, 1), (4, 1), (5, 1)]).knots.count 2) ∧
    tryRemoveKnot (1/1000) norm1 (kinked (0 : ℚ) 1 2 4 ![((-1 : ℚ), (1 : ℚ)), (0, 1), (2, 1), (2, 1), (4, 1), (5, 1)]) 2 0 = .ok (c', 2) := by
  obtain ⟨c', q, e, -⟩ := C25_double_knot_loses_another
  exact ⟨c', (C25_only_one_copy_goes rfl e (by omega)).1, e⟩

end Curvo.Props

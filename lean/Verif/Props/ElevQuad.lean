/-
  C24: degree elevation of quadratic curves with simple inner knots.
-/
import Verif.Props.Elevate
import Mathlib.Tactic.Module
import Mathlib.Tactic.IntervalCases
import Mathlib.Tactic.FieldSimp
import Mathlib.Tactic.Ring

set_option linter.unusedSectionVars false

namespace Curvo.Props

open Curvo Curvo.Curve Curvo.Spec

variable {K : Type} [Field K] [LinearOrder K] [IsStrictOrderedRing K] {V : Type} [AddCommGroup V] [Module K V]

/-- A quadratic curve with four segments and simple inner knots. -/
def quadratic (a b c d e : K) (P : Fin 6 → V) : Curve K V :=
  ⟨2, [P 0, P 1, P 2, P 3, P 4, P 5], [a, a, a, b, c, d, e, e, e]⟩

theorem divR_ok {x y : K} (h : y ≠ 0) : divR x y = .ok (x / y) := by
  simp [divR, h]

theorem quadratic_elevate {a b c d e : K} (h1 : a < b) (h2 : b < c) (h3 : c < d) (h4 : d < e) (P : Fin 6 → V) :
    (quadratic a b c d e P).tryElevateDegree 3 = .ok ⟨3,
      [P 0, (1/3 : K) • (P 0 + (2 : K) • P 1),
        (1/3 : K) • ((2 : K) • P 1 + lerp1 (P 2) (P 1) ((b - a) / (c - a))),
        (1/3 : K) • (lerp1 (P 2) (P 1) ((b - a) / (c - a)) + (2 : K) • P 2),
        (1/3 : K) • ((2 : K) • P 2 + lerp1 (P 3) (P 2) ((c - b) / (d - b))),
        (1/3 : K) • (lerp1 (P 3) (P 2) ((c - b) / (d - b)) + (2 : K) • P 3),
        (1/3 : K) • ((2 : K) • P 3 + lerp1 (P 4) (P 3) ((d - c) / (e - c))),
        (1/3 : K) • (lerp1 (P 4) (P 3) ((d - c) / (e - c)) + (2 : K) • P 4),
        (1/3 : K) • ((2 : K) • P 4 + P 5), P 5],
      [a, a, a, a, b, b, c, c, d, d, e, e, e, e]⟩ := by
  have n2 : ¬ (b = c) := h2.ne
  have n3 : ¬ (c = d) := h3.ne
  have n4 : ¬ (d = e) := h4.ne
  have n5 : c - a ≠ 0 := sub_ne_zero.2 (h1.trans h2).ne'
  have n6 : d - b ≠ 0 := sub_ne_zero.2 (h2.trans h3).ne'
  have n7 : e - c ≠ 0 := sub_ne_zero.2 (h3.trans h4).ne'
  have z3 : (3 : K) ≠ 0 := by norm_num
  have co : elevCoeffs (K := K) 2 1 = .ok [[1, 0, 0], [3⁻¹, 3⁻¹ * 2, 0], [0, 3⁻¹ * 2, 3⁻¹], [0, 0, 1]] := by
    simp [elevCoeffs, List.range_succ, set2R, get2R, getR, setR, subR, divR, binomGet_eq, Nat.choose, bind, Except.bind, pure,
      Except.pure, List.replicate]
  simp (maxSteps := 10000000) [quadratic, tryElevateDegree, subR, co, getR, setR, sliceR, List.range_succ, bind, Except.bind, pure,
    Except.pure, List.replicate]
  simp (maxSteps := 10000000) [elevLoop, elevStep, elevSkip, getR, n2, n3, n4, bind, Except.bind, pure, Except.pure, subR,
    elevInsert, elevSegment, setR, get2R, divR_ok, n5, n6, n7, List.range_succ, elevKnots, asUsize, sliceR]
  exact ⟨mul_smul _ _ _, mul_smul _ _ _, mul_smul _ _ _, mul_smul _ _ _⟩

theorem mono_steps {k : ℕ → K} {m : ℕ} (h : ∀ i, i < m → k i ≤ k (i + 1)) : Spec.MonoUpTo k m := by
  intro i j hij hj
  induction j, hij using Nat.le_induction with
  | base => exact le_rfl
  | succ j hij ih => exact le_trans (ih (by omega)) (h j (by omega))

theorem quadratic_good3 {eps : K} (he : 0 ≤ eps) {a b c d e : K} (h1 : a < b) (h2 : b < c) (h3 : c < d) (h4 : d < e)
    (g1 : a + eps ≤ b) (g2 : d + eps ≤ e) {P : List V} (hP : P.length = 10) :
    (⟨3, P, [a, a, a, a, b, b, c, c, d, d, e, e, e, e]⟩ : Curve K V).Good eps := by
  have hn : P.length - 1 = 9 := by omega
  refine ⟨by simp [hP], by simp [hP], ?_⟩
  simp only [hn]
  refine ⟨he, by simp, ?_, h1, h4, g1, g2⟩
  apply mono_steps
  intro i hi
  replace hi : i < 13 := hi
  interval_cases i <;> simp [kf, h1.le, h2.le, h3.le, h4.le]

/-- **Quadratic curves with simple inner knots** (four segments, any knots, any control points): elevation to degree 3 gives the
    cubic with double inner knots and the same points. -/
theorem C24_quadratic {eps : K} (he : 0 ≤ eps) {a b c d e : K} (h1 : a < b) (h2 : b < c) (h3 : c < d) (h4 : d < e)
    (g1 : a + eps ≤ b) (g2 : d + eps ≤ e) (P : Fin 6 → V) :
    ∃ c', (quadratic a b c d e P).tryElevateDegree 3 = .ok c' ∧ c'.Good eps ∧ c'.degree = 3 ∧
      c'.knots = [a, a, a, a, b, b, c, c, d, d, e, e, e, e] ∧
      ∀ t, a ≤ t → t ≤ e → c'.point eps t = (quadratic a b c d e P).point eps t := by
  have hq : (quadratic a b c d e P).Good eps := by
    refine ⟨by simp [quadratic], rfl, ⟨he, by simp [quadratic], ?_, h1, h4, g1, g2⟩⟩
    apply mono_steps
    intro i hi
    replace hi : i < 8 := hi
    interval_cases i <;> simp [kf, quadratic, h1.le, h2.le, h3.le, h4.le]
  refine ⟨_, quadratic_elevate h1 h2 h3 h4 P, ?_, rfl, rfl, ?_⟩
  · exact quadratic_good3 he h1 h2 h3 h4 g1 g2 (by rfl)
  intro t ht1 ht2
  have hg := quadratic_good3 he h1 h2 h3 h4 g1 g2 (P := [P 0, (1/3 : K) • (P 0 + (2 : K) • P 1),
        (1/3 : K) • ((2 : K) • P 1 + lerp1 (P 2) (P 1) ((b - a) / (c - a))),
        (1/3 : K) • (lerp1 (P 2) (P 1) ((b - a) / (c - a)) + (2 : K) • P 2),
        (1/3 : K) • ((2 : K) • P 2 + lerp1 (P 3) (P 2) ((c - b) / (d - b))),
        (1/3 : K) • (lerp1 (P 3) (P 2) ((c - b) / (d - b)) + (2 : K) • P 3),
        (1/3 : K) • ((2 : K) • P 3 + lerp1 (P 4) (P 3) ((d - c) / (e - c))),
        (1/3 : K) • (lerp1 (P 4) (P 3) ((d - c) / (e - c)) + (2 : K) • P 4),
        (1/3 : K) • ((2 : K) • P 4 + P 5), P 5]) (by rfl)
  rw [point_eq_eval hg ht1 ht2, point_eq_eval hq ht1 ht2]
  congr 1
  obtain ⟨j, -, hj, hin⟩ := Spec.exists_inSpan (k := kf [a, b, c, d, e]) (p := 0) (n := 3) (u := t) (by omega)
    (((h1.trans h2).trans h3).trans h4) ht1 ht2
  have n1 : b - a ≠ 0 := sub_ne_zero.2 h1.ne'
  have n2 : c - b ≠ 0 := sub_ne_zero.2 h2.ne'
  have n3 : d - c ≠ 0 := sub_ne_zero.2 h3.ne'
  have n4 : e - d ≠ 0 := sub_ne_zero.2 h4.ne'
  have n5 : c - a ≠ 0 := sub_ne_zero.2 (h1.trans h2).ne'
  have n6 : d - b ≠ 0 := sub_ne_zero.2 (h2.trans h3).ne'
  have n7 : e - c ≠ 0 := sub_ne_zero.2 (h3.trans h4).ne'
  interval_cases j
  · rw [eval_eq_NS hg (s := 3) (by simp) hin, eval_eq_NS hq (s := 2) (by simp [quadratic]) hin]
    simp [Finset.sum_range_succ, quadratic, NS, kf, lerp1]
    match_scalars <;> field_simp <;> ring
  · rw [eval_eq_NS hg (s := 5) (by simp) hin, eval_eq_NS hq (s := 3) (by simp [quadratic]) hin]
    simp [Finset.sum_range_succ, quadratic, NS, kf, lerp1]
    match_scalars <;> field_simp <;> ring
  · rw [eval_eq_NS hg (s := 7) (by simp) hin, eval_eq_NS hq (s := 4) (by simp [quadratic]) hin]
    simp [Finset.sum_range_succ, quadratic, NS, kf, lerp1]
    match_scalars <;> field_simp <;> ring
  · rw [eval_eq_NS hg (s := 9) (by simp) hin, eval_eq_NS hq (s := 5) (by simp [quadratic]) hin]
    simp [Finset.sum_range_succ, quadratic, NS, kf, lerp1]
    match_scalars <;> field_simp <;> ring

/-- Witness. -/
example : ∃ c', (quadratic (0 : ℚ) 1 3 4 6 ![(1 : ℚ), 5, -2, 7, 3, 11]).tryElevateDegree 3 = .ok c' ∧
    c'.point (1/1000) 3 = .ok 4 := by
  obtain ⟨c', e, -, -, -, h⟩ := C24_quadratic (eps := (1/1000 : ℚ)) (by norm_num) (show (0 : ℚ) < 1 by norm_num) (show (1 : ℚ) < 3 by norm_num)
    (show (3 : ℚ) < 4 by norm_num) (show (4 : ℚ) < 6 by norm_num) (by norm_num) (by norm_num) ![(1 : ℚ), 5, -2, 7, 3, 11]
  refine ⟨c', e, ?_⟩
  rw [h 3 (by norm_num) (by norm_num)]
  decide +kernel

end Curvo.Props

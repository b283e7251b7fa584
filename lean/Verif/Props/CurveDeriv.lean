/-
  Property theorems about the derivatives of curves: C26.
-/
import Mathlib.Analysis.Calculus.ContDiff.Operations
import Mathlib.Analysis.Normed.Field.Basic
import Verif.Lemmas.Rational
import Verif.Props.Deriv
import Verif.Props.Curve

set_option linter.unusedSectionVars false

namespace Curvo.Props

open Curvo Curvo.Knots Curvo.Spec Curvo.Curve Polynomial

section field
variable {K : Type} [Field K] [LinearOrder K] [IsStrictOrderedRing K] {W : Type} [AddCommGroup W] [Module K W]

theorem derivatives_span {V : Type} [AddCommGroup V] [Module K V] {eps : K} {c : Curve K V} {u : K} (h : c.Good eps)
    (h1 : c.lo ≤ u) (h2 : u ≤ c.hi) {s : ℕ} (hs : s < c.cps.length) (hin : InSpan (kf c.knots) c.hi u s) (m : ℕ) :
    c.derivatives eps u m = .ok (vec (m + 1) fun n => c.pieceDer s n u) ∧ c.degree ≤ s := by
  obtain ⟨s', e, hp, hn, hin'⟩ := h.exists_span h1 h2
  have hpos := h.cps_pos
  obtain rfl : s' = s := inSpan_unique (m := c.cps.length - 1 + c.degree + 1) h.good.mono (by omega) (by omega) hin' hin
  exact ⟨derivatives_spec h e hp hn (inSpan_lt hin), hp⟩

/-- Over any ordered field: the rational derivatives `Q` are the one list that satisfies the Leibniz rule
    `A^(k) = Σ_i C(k,i) w^(i) Q_(k-i)` with the derivatives `A^(k)`, `w^(k)` of numerator and weight, for all orders
    (also above the degree). -/
theorem C26_leibniz {eps : K} {c : Curve K (W × K)} {u : K} (h : c.Good eps) (h1 : c.lo ≤ u) (h2 : u ≤ c.hi)
    (hw : (c.eval u).2 ≠ 0) (m : ℕ) :
    ∃ ders Q, c.derivatives eps u m = .ok ders ∧ c.rationalDerivatives eps u m = .ok Q ∧ ders.length = m + 1 ∧
      Q.length = m + 1 ∧
      (∀ k, k ≤ m → (Finset.range (k + 1)).sum (fun i => (k.choose i : K) • (ders.getD i 0).2 • Q.getD (k - i) 0) =
        (ders.getD k 0).1) ∧
      ∀ R : ℕ → W, (∀ k, k ≤ m → (Finset.range (k + 1)).sum (fun i => (k.choose i : K) • (ders.getD i 0).2 • R (k - i)) =
        (ders.getD k 0).1) → ∀ k, k ≤ m → R k = Q.getD k 0 := by
  obtain ⟨s, e, hp, hn, hin⟩ := h.exists_span h1 h2
  have ed := derivatives_spec h e hp hn (inSpan_lt hin) (m := m)
  have e0 : c.pieceDer s 0 u = c.eval u := by
    rw [eval_eq_span h hp hn hin, pieceDer]
    simp only [Function.iterate_zero, id, spanPoly_eval]
  have gd : ∀ {α : Type} (f : ℕ → α) (d : α) k, k ≤ m → (vec (m + 1) f).getD k d = f k := by
    intro α f d k hk
    rw [List.getD_eq_getElem?_getD, vec, List.getElem?_map, List.getElem?_range (by omega)]; rfl
  obtain ⟨Q, eQ, hQ⟩ := rationalGo_spec (m := m) (A := fun n => (c.pieceDer s n u).1) (w := fun n => (c.pieceDer s n u).2)
    (by simpa only [e0] using hw)
  refine ⟨_, _, ed, by rw [rationalDerivatives, ed, ok_bind, vec_map, vec_map, eQ], by simp, by simp, ?_, ?_⟩
  · intro k hk
    rw [gd _ _ k hk]
    refine Eq.trans ?_ (hQ k hk)
    apply Finset.sum_congr rfl
    intro i hi
    have := Finset.mem_range.1 hi
    rw [gd _ _ i (by omega), gd _ _ (k - i) (by omega)]
  · intro R hR k hk
    rw [gd _ _ k hk]
    refine leibniz_unique (w := fun n => (c.pieceDer s n u).2) (m := m) (by simpa only [e0] using hw) ?_ k hk
    intro k hk
    rw [hQ k hk]
    refine Eq.trans ?_ ((hR k hk).trans (by rw [gd _ _ k hk]))
    apply Finset.sum_congr rfl
    intro i hi
    have := Finset.mem_range.1 hi
    rw [gd _ _ i (by omega)]

end field

section real
variable {V W : Type} [NormedAddCommGroup V] [NormedSpace ℝ V] [NormedAddCommGroup W] [NormedSpace ℝ W]

/-- Derivatives of a combination of polynomials with vector coefficients. -/
theorem iteratedDerivWithin_polys {S : Set ℝ} (hS : UniqueDiffOn ℝ S) {x : ℝ} (hx : x ∈ S) (P : ℕ → ℝ[X]) (v : ℕ → V)
    (m n : ℕ) : iteratedDerivWithin n (fun t => (Finset.range m).sum fun r => (P r).eval t • v r) S x =
      (Finset.range m).sum fun r => (derivative^[n] (P r)).eval x • v r := by
  rw [iteratedDerivWithin_fun_sum hx hS]
  · apply Finset.sum_congr rfl
    intro r _
    rw [iteratedDerivWithin_smul_const hx hS (f := fun t => (P r).eval t)
      (contDiff_poly (P r)).contDiffAt.contDiffWithinAt, iteratedDerivWithin_poly hS _ _ hx]
  · intro r _
    exact ((contDiff_poly (P r)).smul contDiff_const).contDiffAt.contDiffWithinAt

theorem contDiff_polys (P : ℕ → ℝ[X]) (v : ℕ → V) (m : ℕ) {n : WithTop ℕ∞} :
    ContDiff ℝ n fun t => (Finset.range m).sum fun r => (P r).eval t • v r :=
  ContDiff.sum fun r _ => (contDiff_poly (P r)).smul contDiff_const

/-- A curve is a combination of polynomials on a span. -/
theorem eval_eq_polys {eps : ℝ} {c : Curve ℝ V} (h : c.Good eps) {s : ℕ} (hp : c.degree ≤ s) (hs : s < c.cps.length) :
    Set.EqOn c.eval (fun t => (Finset.range (c.degree + 1)).sum fun r =>
      (spanPoly (kf c.knots) s c.degree (s - c.degree + r)).eval t • c.cps.getD (s - c.degree + r) 0)
      (spanSet (kf c.knots) c.hi s) := by
  intro t ht
  rw [eval_eq_span h hp (by omega) ht]
  simp only [spanPoly_eval]

theorem pieceDer_eq {eps : ℝ} {c : Curve ℝ V} (h : c.Good eps) {s : ℕ} (hp : c.degree ≤ s) (hs : s < c.cps.length)
    {u : ℝ} (hin : InSpan (kf c.knots) c.hi u s) (n : ℕ) :
    c.pieceDer s n u = iteratedDerivWithin n c.eval {t | InSpan (kf c.knots) c.hi t s} u := by
  have hS := spanSet_uniqueDiff (b := c.hi) (inSpan_lt hin)
  rw [show {t | InSpan (kf c.knots) c.hi t s} = spanSet (kf c.knots) c.hi s from rfl,
    iteratedDerivWithin_congr (eval_eq_polys h hp hs) hin, iteratedDerivWithin_polys hS hin]
  rfl

/-- The homogeneous derivatives are the derivatives of the homogeneous curve. -/
theorem C26_homogeneous_derivatives {eps : ℝ} {c : Curve ℝ V} {u : ℝ} (h : c.Good eps) (h1 : c.lo ≤ u) (h2 : u ≤ c.hi)
    {s : ℕ} (hs : s < c.cps.length) (hin : InSpan (kf c.knots) c.hi u s) (m : ℕ) :
    c.derivatives eps u m = .ok ((List.range (m + 1)).map fun n =>
      iteratedDerivWithin n c.eval {t | InSpan (kf c.knots) c.hi t s} u) := by
  obtain ⟨e, hp⟩ := derivatives_span h h1 h2 hs hin m
  rw [e]
  congr 1
  apply vec_congr
  intro n _
  exact pieceDer_eq h hp hs hin n

/-- The rational derivatives are the derivatives of the curve point `A(t) / w(t)` on the span of `u` (one sided at the
    ends of the span), for all orders. -/
theorem C26_rational_derivatives {eps : ℝ} {c : Curve ℝ (W × ℝ)} {u : ℝ} (h : c.Good eps) (h1 : c.lo ≤ u)
    (h2 : u ≤ c.hi) {s : ℕ} (hs : s < c.cps.length) (hin : InSpan (kf c.knots) c.hi u s) (hw : (c.eval u).2 ≠ 0)
    (m : ℕ) :
    c.rationalDerivatives eps u m = .ok ((List.range (m + 1)).map fun n =>
      iteratedDerivWithin n (fun t => (c.eval t).2⁻¹ • (c.eval t).1) {t | InSpan (kf c.knots) c.hi t s} u) := by
  obtain ⟨e, hp⟩ := derivatives_span h h1 h2 hs hin m
  have hS := spanSet_uniqueDiff (b := c.hi) (inSpan_lt hin)
  have hin' : u ∈ spanSet (kf c.knots) c.hi s := hin
  rw [show {t | InSpan (kf c.knots) c.hi t s} = spanSet (kf c.knots) c.hi s from rfl]
  have hE := eval_eq_polys h hp hs
  obtain ⟨F, hF⟩ : ∃ F : ℝ → W × ℝ, F = (fun t => (Finset.range (c.degree + 1)).sum fun r =>
      (spanPoly (kf c.knots) s c.degree (s - c.degree + r)).eval t • c.cps.getD (s - c.degree + r) 0) := ⟨_, rfl⟩
  rw [← hF] at hE
  have cF : ∀ {n : WithTop ℕ∞}, ContDiff ℝ n F := by
    intro n; rw [hF]; exact contDiff_polys _ _ _
  have c1 : ∀ {n : WithTop ℕ∞}, ContDiff ℝ n fun t => (F t).1 := cF.fst
  have c2 : ∀ {n : WithTop ℕ∞}, ContDiff ℝ n fun t => (F t).2 := cF.snd
  have hw' : (F u).2 ≠ 0 := by rw [← hE hin']; exact hw
  have cQ : ∀ {n : WithTop ℕ∞}, ContDiffAt ℝ n (fun t => (F t).2⁻¹ • (F t).1) u :=
    (c2.contDiffAt.inv hw').smul c1.contDiffAt
  -- derivatives of the components
  have f1 : (fun t => (F t).1) = fun t => (Finset.range (c.degree + 1)).sum fun r =>
      (spanPoly (kf c.knots) s c.degree (s - c.degree + r)).eval t • (c.cps.getD (s - c.degree + r) 0).1 := by
    funext t; rw [hF]; simp [Prod.fst_sum]
  have f2 : (fun t => (F t).2) = fun t => (Finset.range (c.degree + 1)).sum fun r =>
      (spanPoly (kf c.knots) s c.degree (s - c.degree + r)).eval t • (c.cps.getD (s - c.degree + r) 0).2 := by
    funext t; rw [hF]; simp [Prod.snd_sum]
  have d1 : ∀ n, (c.pieceDer s n u).1 = iteratedDerivWithin n (fun t => (F t).1) (spanSet (kf c.knots) c.hi s) u := by
    intro n
    rw [f1, iteratedDerivWithin_polys hS hin', pieceDer, Prod.fst_sum]
    rfl
  have d2 : ∀ n, (c.pieceDer s n u).2 = iteratedDerivWithin n (fun t => (F t).2) (spanSet (kf c.knots) c.hi s) u := by
    intro n
    rw [f2, iteratedDerivWithin_polys hS hin', pieceDer, Prod.snd_sum]
    rfl
  have hw0 : (c.pieceDer s 0 u).2 ≠ 0 := by rw [d2]; simpa using hw'
  obtain ⟨Q, eQ, hQ⟩ := rationalGo_spec (m := m) (A := fun n => (c.pieceDer s n u).1) (w := fun n => (c.pieceDer s n u).2)
    hw0
  rw [rationalDerivatives, e, ok_bind, vec_map, vec_map, eQ]
  congr 1
  apply vec_congr
  intro n hn
  rw [iteratedDerivWithin_congr (g := fun t => (F t).2⁻¹ • (F t).1) (fun t ht => by simp only [hE ht]) hin']
  refine leibniz_unique (w := fun n => (c.pieceDer s n u).2) (m := m) hw0 (R := fun n => iteratedDerivWithin n (fun t => (F t).2⁻¹ • (F t).1)
    (spanSet (kf c.knots) c.hi s) u) ?_ n (by omega)
  intro k hk
  rw [hQ k hk, d1]
  have near : (fun t => (F t).1) =ᶠ[nhdsWithin u (spanSet (kf c.knots) c.hi s)]
      ((fun t => (F t).2) • fun t => (F t).2⁻¹ • (F t).1) := by
    have : ∀ᶠ t in nhds u, (F t).2 ≠ 0 := (c2 (n := 0)).continuous.continuousAt.eventually_ne hw'
    filter_upwards [this.filter_mono nhdsWithin_le_nhds] with t ht
    simp only [Pi.smul_apply']
    rw [smul_inv_smul₀ ht]
  rw [near.iteratedDerivWithin_eq (by simp only [Pi.smul_apply']; rw [smul_inv_smul₀ hw']),
    iteratedDerivWithin_smul hin' hS c2.contDiffAt.contDiffWithinAt cQ.contDiffWithinAt]
  apply Finset.sum_congr rfl
  intro i _
  simp only [d2]
  rw [Nat.cast_smul_eq_nsmul]

/-- `tangent_at` is the first derivative of the curve point, `second_derivative_at` the second one, and
    `point_tangent_at` the pair of the point and the tangent. -/
theorem C26_tangent {eps : ℝ} {c : Curve ℝ (W × ℝ)} {u : ℝ} (h : c.Good eps) (h1 : c.lo ≤ u)
    (h2 : u ≤ c.hi) {s : ℕ} (hs : s < c.cps.length) (hin : InSpan (kf c.knots) c.hi u s) (hw : (c.eval u).2 ≠ 0) :
    c.tangentAt eps u = .ok (derivWithin (fun t => (c.eval t).2⁻¹ • (c.eval t).1)
      {t | InSpan (kf c.knots) c.hi t s} u) ∧
    c.secondDerivativeAt eps u = .ok (iteratedDerivWithin 2 (fun t => (c.eval t).2⁻¹ • (c.eval t).1)
      {t | InSpan (kf c.knots) c.hi t s} u) ∧
    c.pointTangentAt eps u = .ok ((c.eval u).2⁻¹ • (c.eval u).1, derivWithin (fun t => (c.eval t).2⁻¹ • (c.eval t).1)
      {t | InSpan (kf c.knots) c.hi t s} u) := by
  refine ⟨?_, ?_, ?_⟩
  · rw [tangentAt, C26_rational_derivatives h h1 h2 hs hin hw, ok_bind]
    simp [List.range_succ, getR, iteratedDerivWithin_one]
  · rw [secondDerivativeAt, C26_rational_derivatives h h1 h2 hs hin hw, ok_bind]
    simp [List.range_succ, getR]
  · rw [pointTangentAt, C26_rational_derivatives h h1 h2 hs hin hw, ok_bind]
    simp [List.range_succ, getR, iteratedDerivWithin_one]

/-- Witness: a rational quarter circle over the reals. -/
noncomputable def exArc : Curve ℝ ((ℝ × ℝ) × ℝ) where
  degree := 2
  cps := [((1, 0), 1), ((1, 1), 1), ((0, 2), 2)]
  knots := [0, 0, 0, 1, 1, 1]

theorem exArc_good : exArc.Good (1/1000) where
  cps_pos := by simp [exArc]
  knots_len := by simp [exArc]
  good := by
    refine ⟨by norm_num, by simp [exArc], ?_, ?_, ?_, ?_, ?_⟩
    · exact mono_of_sorted (by norm_num [exArc]) (by simp [exArc])
    all_goals norm_num [exArc, kf]

theorem exArc_weight {u : ℝ} (h1 : 0 ≤ u) (h2 : u ≤ 1) : (exArc.eval u).2 ≠ 0 := by
  have := eval_weight_pos exArc_good (hw := by
    intro q hq
    simp only [exArc, List.mem_cons, List.not_mem_nil, or_false] at hq
    rcases hq with rfl | rfl | rfl <;> norm_num) (u := u) (by simpa [Curve.lo, exArc, kf] using h1)
      (by simpa [Curve.hi, exArc, kf] using h2)
  exact this.ne'

example : ∃ v, exArc.tangentAt (1/1000) (1/2) = .ok v := by
  obtain ⟨h, _⟩ := C26_tangent (u := 1/2) exArc_good (by norm_num [Curve.lo, exArc, kf])
    (by norm_num [Curve.hi, exArc, kf]) (s := 2) (by simp [exArc]) (by
      rw [InSpan, if_neg (by norm_num [Curve.hi, exArc, kf])]; norm_num [exArc, kf]) (exArc_weight (by norm_num) (by norm_num))
  exact ⟨_, h⟩

end real


/-- The derivatives of the rational example curve up to an order above its degree, computed. -/
example : exCurve.rationalDerivatives (1/1000) (1/2) 3 =
    .ok [(1, 21/13), (16/13, 176/169), (-128/169, -9728/2197), (16512/2197, 281472/28561)] := by
  decide +kernel

end Curvo.Props

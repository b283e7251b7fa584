/-
  C81, C82: the solver of the intersection queries, applied to two curves and to a surface and a curve.
-/
import Verif.Props.Bfgs
import Verif.Props.SurfaceDeriv

set_option linter.unusedSectionVars false

namespace Curvo.Props

open Curvo.Knots Curvo.Spec Curvo.Bfgs Matrix

section field
variable {K : Type} [Field K] [LinearOrder K] [IsStrictOrderedRing K]
variable {W V : Type} [AddCommGroup W] [Module K W] [AddCommGroup V] [Module K V] {eps : K}

/-! ### Evaluation at any parameter -/

/-- Every parameter, inside the domain or not, gets a span that is not empty. -/
theorem any_span {ks : List K} {p n : ℕ} (hlen : ks.length = n + p + 2) (h : GoodKnots eps (kf ks) p n) (u : K) :
    ∃ s, findKnotSpanIndex eps ks n p u = .ok s ∧ p ≤ s ∧ s ≤ n ∧ kf ks s < kf ks (s + 1) := by
  by_cases h1 : u < kf ks p
  · exact ⟨p, C01_left_of_domain hlen h h1, le_refl _, h.le, h.first⟩
  by_cases h2 : kf ks (n + 1) < u
  · exact ⟨n, C01_right_of_domain hlen h h2, h.le, le_refl _, h.last⟩
  obtain ⟨s, e, hp, hn, hin⟩ := C01_span_brackets hlen h (not_lt.1 h1) (not_lt.1 h2)
  exact ⟨s, e, hp, hn, Curve.inSpan_lt hin⟩

theorem rationalGo_zero {m : ℕ} {A : ℕ → W} {w : ℕ → K} (h0 : w 0 = 0) :
    Curve.rationalGo (vec (m + 1) A) (vec (m + 1) w) m = .error .nonfinite := by
  rw [Curve.rationalGo, List.range_succ_eq_map, List.foldlM_cons]
  simp only [vec, List.range_succ_eq_map, List.map_cons, getR, List.range_zero, List.map_nil, List.foldlM_nil,
    List.getElem?_cons_zero, pure_eq_ok, ok_bind, divV, if_pos h0]
  rfl

/-- Point and derivatives at any parameter: defined where the weight is not zero. -/
theorem curve_anywhere {c : Curve K (W × K)} (h : c.Good eps) (u : K) :
    ∃ p : W × K, c.point eps u = .ok p ∧
      ((p.2 ≠ 0 ∧ ∃ d : W, c.rationalDerivatives eps u 1 = .ok [p.2⁻¹ • p.1, d]) ∨
       (p.2 = 0 ∧ c.rationalDerivatives eps u 1 = .error .nonfinite)) := by
  have hpos := h.cps_pos
  obtain ⟨s, e, hp, hn, hlt⟩ := any_span (n := c.cps.length - 1) (by have := h.knots_len; omega) h.good u
  have ed := Curve.derivatives_spec h e hp hn hlt (m := 1)
  have ep := Curve.point_of_span h e hp hn hlt
  have e0 : c.pieceDer s 0 u = (Finset.range (c.degree + 1)).sum fun r =>
      NS (kf c.knots) s c.degree (s - c.degree + r) u • c.cps.getD (s - c.degree + r) 0 := by
    rw [Curve.pieceDer]
    simp only [Function.iterate_zero, id, spanPoly_eval]
  rw [← e0] at ep
  refine ⟨_, ep, ?_⟩
  by_cases hz : (c.pieceDer s 0 u).2 = 0
  · right
    refine ⟨hz, ?_⟩
    rw [Curve.rationalDerivatives, ed, ok_bind, vec_map, vec_map]
    exact rationalGo_zero (w := fun n => (c.pieceDer s n u).2) hz
  · left
    refine ⟨hz, ?_⟩
    obtain ⟨Q, eQ, hQ⟩ := Curve.rationalGo_spec (m := 1) (A := fun n => (c.pieceDer s n u).1) (w := fun n => (c.pieceDer s n u).2) hz
    refine ⟨Q 1, ?_⟩
    rw [Curve.rationalDerivatives, ed, ok_bind, vec_map, vec_map, eQ]
    have := hQ 0 (by omega)
    simp only [zero_add, Finset.sum_range_one, Nat.choose_zero_right, Nat.cast_one, one_smul, Nat.sub_zero] at this
    rw [← this, inv_smul_smul₀ hz]
    rfl

/-- The same for a surface. -/
theorem surface_anywhere {S : Surface K (W × K)} (h : S.Good eps) (u v : K) :
    ∃ p : W × K, S.point eps u v = .ok p ∧
      ((p.2 ≠ 0 ∧ ∃ d d' : W, S.rationalDerivatives eps u v 1 = .ok [[p.2⁻¹ • p.1, d'], [d]]) ∨
       (p.2 = 0 ∧ S.rationalDerivatives eps u v 1 = .error .nonfinite)) := by
  have hr := h.rows_pos
  have hc := h.cols_pos
  have hul := h.u_len
  have hvl := h.v_len
  obtain ⟨su, eu, pu, nu, lu⟩ := any_span (n := S.cps.length - 1) (by omega) h.u_good u
  obtain ⟨sv, ev, pv, nv, lv⟩ := any_span (n := S.cols - 1) (by omega) h.v_good v
  have ed := Surface.derivatives_spec h eu ev pu nu pv nv lu lv (m := 1)
  have bu := basisFunctions_eq (ks := S.uKnots) S.uDegree (u := u) pu (by omega)
    (fun i j hi hj hj' => ne_across h.u_good.mono lu i j hi hj (by omega))
  have bv := basisFunctions_eq (ks := S.vKnots) S.vDegree (u := v) pv (by omega)
    (fun i j hi hj hj' => ne_across h.v_good.mono lv i j hi hj (by omega))
  have ep : S.point eps u v = .ok (S.patchDer su sv 0 0 u v) := by
    rw [Surface.point, subR_eq_ok (by omega), ok_bind, subR_eq_ok (by omega), ok_bind,
      subR_eq_ok (by omega), ok_bind, subR_eq_ok (by omega), ok_bind]
    rw [show S.uKnots.length - S.uDegree - 2 = S.cps.length - 1 by omega,
      show S.vKnots.length - S.vDegree - 2 = S.cols - 1 by omega, eu, ok_bind, ev, ok_bind, bu, ok_bind, bv, ok_bind,
      subR_eq_ok pu, ok_bind]
    rw [foldlM_sum (g := fun l => Surface.bder S.vKnots S.vDegree sv 0 l v •
      (Finset.range (S.uDegree + 1)).sum fun r => Surface.bder S.uKnots S.uDegree su 0 r u •
        S.cp (su - S.uDegree + r) (sv - S.vDegree + l))]
    · rw [zero_add]; rfl
    · intro acc l hl
      have hl' : sv - S.vDegree + l < S.cols := by omega
      have ei : S.isoPoint ((List.range (S.uDegree + 1)).map fun r => NS (kf S.uKnots) su S.uDegree (su - S.uDegree + r) u)
          (su - S.uDegree) (sv - S.vDegree + l) = .ok ((Finset.range (S.uDegree + 1)).sum fun r =>
            Surface.bder S.uKnots S.uDegree su 0 r u • S.cp (su - S.uDegree + r) (sv - S.vDegree + l)) := by
        rw [Surface.isoPoint]
        rw [foldlM_sum (g := fun r => Surface.bder S.uKnots S.uDegree su 0 r u •
          S.cp (su - S.uDegree + r) (sv - S.vDegree + l))]
        · rw [zero_add]
        · intro acc k hk
          have hk' : su - S.uDegree + k < S.cps.length := by omega
          rw [getR_eq_getD ([] : List (W × K)) hk', ok_bind, getR_eq_getD (0 : W × K) (by rw [h.row_len hk']; exact hl'), ok_bind,
            getR_eq_getD (0 : K) (by simpa using hk), ok_bind, Surface.getD_map_range hk]
          simp only [Surface.bder, Function.iterate_zero, id, spanPoly_eval]
          rfl
      rw [subR_eq_ok pv, ok_bind, ei, ok_bind, getR_eq_getD (0 : K) (by simpa using hl), ok_bind, Surface.getD_map_range hl]
      simp only [Surface.bder, Function.iterate_zero, id, spanPoly_eval]
      rfl
  refine ⟨_, ep, ?_⟩
  by_cases hz : (S.patchDer su sv 0 0 u v).2 = 0
  · right
    refine ⟨hz, ?_⟩
    rw [Surface.rationalDerivatives, ed, ok_bind]
    exact C27_zero_weight (F := fun k l => if k + l ≤ 1 then S.patchDer su sv k l u v else 0) (by simpa using hz)
  · left
    refine ⟨hz, ?_⟩
    obtain ⟨Q, eQ, hQ⟩ := Surface.rationalTable_spec (m := 1) (F := fun k l => if k + l ≤ 1 then S.patchDer su sv k l u v else 0)
      (by simpa using hz)
    refine ⟨Q 1 0, Q 0 1, ?_⟩
    rw [Surface.rationalDerivatives, ed, ok_bind, eQ]
    have := hQ 0 0 (by omega)
    simp [Surface.leib] at this
    rw [← this, inv_smul_smul₀ hz]
    rfl

/-- **C82** Cost and gradient of the problem of two curves are defined for all parameters (also outside the domains),
    except where a weight vanishes. -/
theorem C82_curves_total {dot : W → W → K} {a b : Curve K (W × K)} (ha : a.Good eps) (hb : b.Good eps) :
    Total (curveProblem dot eps a b) := by
  intro x
  obtain ⟨p, ep, hp⟩ := curve_anywhere ha (x 0)
  obtain ⟨q, eq, hq⟩ := curve_anywhere hb (x 1)
  simp only [curveProblem, ep, eq, ok_bind, pairCost]
  rcases hp with ⟨hp, d, ed⟩ | ⟨hp, ed⟩
  · rcases hq with ⟨hq, d', ed'⟩ | ⟨hq, ed'⟩
    · left
      rw [if_pos ⟨hp, hq⟩, ed, ed']
      exact ⟨_, _, rfl, rfl⟩
    · right
      rw [if_neg (by simp [hq]), ed, ed']
      exact ⟨rfl, rfl⟩
  · right
    rw [if_neg (by simp [hp]), ed]
    exact ⟨rfl, rfl⟩

theorem C82_surface_total {dot : W → W → K} {S : Surface K (W × K)} {c : Curve K (W × K)} (hS : S.Good eps) (hc : c.Good eps) :
    Total (surfaceProblem dot eps S c) := by
  intro x
  obtain ⟨p, ep, hp⟩ := surface_anywhere hS (x 1) (x 2)
  obtain ⟨q, eq, hq⟩ := curve_anywhere hc (x 0)
  simp only [surfaceProblem, ep, eq, ok_bind, pairCost]
  rcases hq with ⟨hq, d', ed'⟩ | ⟨hq, ed'⟩
  · rcases hp with ⟨hp, d, d', ed⟩ | ⟨hp, ed⟩
    · left
      rw [if_pos ⟨hp, hq⟩, ed, ed']
      exact ⟨_, _, rfl, rfl⟩
    · right
      rw [if_neg (by simp [hp]), ed, ed']
      exact ⟨rfl, rfl⟩
  · right
    rw [if_neg (by simp [hq]), ed']
    exact ⟨rfl, rfl⟩

/-! ### The solver call -/

/-- What a curve denotes as a point. -/
def dehom (p : W × K) : W := p.2⁻¹ • p.1

theorem curveProblem_cost {dot : W → W → K} {a b : Curve K (W × K)} (ha : a.Good eps) (hb : b.Good eps)
    (wa : ∀ p ∈ a.cps, 0 < p.2) (wb : ∀ p ∈ b.cps, 0 < p.2) {u v : K} (h1 : a.lo ≤ u) (h2 : u ≤ a.hi) (h3 : b.lo ≤ v)
    (h4 : v ≤ b.hi) :
    (curveProblem dot eps a b).cost ![u, v] = .ok (dot (dehom (a.eval u) - dehom (b.eval v)) (dehom (a.eval u) - dehom (b.eval v))) := by
  have p1 := eval_weight_pos ha h1 h2 wa
  have p2 := eval_weight_pos hb h3 h4 wb
  simp only [curveProblem, Matrix.cons_val_zero, Matrix.cons_val_one]
  rw [Curve.point_eq_eval ha h1 h2, ok_bind, Curve.point_eq_eval hb h3 h4, ok_bind, pairCost, if_pos ⟨p1.ne', p2.ne'⟩]
  rfl

/-- **C82** The solver always returns parameters for a pair of pieces, and what they give is not farther apart than the
    starts of the pieces. -/
theorem C82_curves {dot : W → W → K} {nrm : (Fin 2 → K) → K} {stepTol costTol : K} {maxIters : ℕ} {a b : Curve K (W × K)}
    (ha : a.Good eps) (hb : b.Good eps) (wa : ∀ p ∈ a.cps, 0 < p.2) (wb : ∀ p ∈ b.cps, 0 < p.2) :
    ∃ u v f, solveCurves dot nrm eps stepTol costTol maxIters a b = some (u, v) ∧
      (curveProblem dot eps a b).cost ![u, v] = .ok f ∧
      f ≤ dot (dehom (a.eval a.lo) - dehom (b.eval b.lo)) (dehom (a.eval a.lo) - dehom (b.eval b.lo)) ∧
      (a.lo ≤ u → u ≤ a.hi → b.lo ≤ v → v ≤ b.hi → ∃ p q, a.pointAt eps u = .ok p ∧ b.pointAt eps v = .ok q ∧
        dot (p - q) (p - q) ≤
          dot (dehom (a.eval a.lo) - dehom (b.eval b.lo)) (dehom (a.eval a.lo) - dehom (b.eval b.lo))) := by
  have c0 := curveProblem_cost (dot := dot) ha hb wa wb (le_refl _) (lo_lt_hi ha).le (le_refl _) (lo_lt_hi hb).le
  obtain ⟨x, ex⟩ := C82_terminates (C82_curves_total (dot := dot) ha hb) (nrm := nrm) (stepTol := stepTol) (costTol := costTol)
    (maxIters := maxIters) (fuel := maxIters + 1) (by omega) c0
  obtain ⟨f0, f, e0, e1, hle, -, -⟩ := C82_best ex
  rw [c0] at e0
  obtain rfl := Except.ok.inj e0
  have hx : x = ![x 0, x 1] := by ext i; fin_cases i <;> rfl
  refine ⟨x 0, x 1, f, ?_, by rw [← hx]; exact e1, hle, fun h1 h2 h3 h4 => ?_⟩
  · unfold solveCurves
    rw [knotsDomain_eq ha, knotsDomain_eq hb]
    simp only [ok_bind]
    rw [ex]
  · refine ⟨_, _, (C09_point_at_positive_weights ha wa h1 h2).1, (C09_point_at_positive_weights hb wb h3 h4).1, ?_⟩
    rw [hx, curveProblem_cost (dot := dot) ha hb wa wb h1 h2 h3 h4] at e1
    obtain rfl := Except.ok.inj e1
    exact hle

/-- Pieces that start at the same point: the solver returns the starts. -/
theorem C82_common_start {dot : W → W → K} {nrm : (Fin 2 → K) → K} {stepTol costTol : K} {maxIters : ℕ} {a b : Curve K (W × K)}
    (ha : a.Good eps) (hb : b.Good eps) (wa : ∀ p ∈ a.cps, 0 < p.2) (wb : ∀ p ∈ b.cps, 0 < p.2)
    (hdot : ∀ v, 0 ≤ dot v v) (h0 : dot 0 0 = 0) (hs : dehom (a.eval a.lo) = dehom (b.eval b.lo)) :
    solveCurves dot nrm eps stepTol costTol maxIters a b = some (a.lo, b.lo) := by
  have c0 := curveProblem_cost (dot := dot) ha hb wa wb (le_refl _) (lo_lt_hi ha).le (le_refl _) (lo_lt_hi hb).le
  rw [hs, sub_self, h0] at c0
  obtain ⟨x, ex⟩ := C82_terminates (C82_curves_total (dot := dot) ha hb) (nrm := nrm) (stepTol := stepTol) (costTol := costTol)
    (maxIters := maxIters) (fuel := maxIters + 1) (by omega) c0
  have hx := C82_exact_start c0 (fun y f hy => by
    simp only [curveProblem] at hy
    obtain ⟨p, -, hy⟩ := bind_eq_ok.1 hy
    obtain ⟨q, -, hy⟩ := bind_eq_ok.1 hy
    unfold pairCost at hy
    split_ifs at hy
    obtain rfl := Except.ok.inj hy
    exact hdot _) ex
  unfold solveCurves
  rw [knotsDomain_eq ha, knotsDomain_eq hb]
  simp only [ok_bind]
  rw [ex, hx]
  rfl

theorem surfaceProblem_cost {dot : W → W → K} {S : Surface K (W × K)} {c : Curve K (W × K)} (hS : S.Good eps) (hc : c.Good eps)
    (wS : ∀ row ∈ S.cps, ∀ p ∈ row, 0 < p.2) (wc : ∀ p ∈ c.cps, 0 < p.2) {t u v : K} (h1 : c.lo ≤ t) (h2 : t ≤ c.hi)
    (h3 : S.ulo ≤ u) (h4 : u ≤ S.uhi) (h5 : S.vlo ≤ v) (h6 : v ≤ S.vhi) :
    (surfaceProblem dot eps S c).cost ![t, u, v] =
      .ok (dot (dehom (S.eval u v) - dehom (c.eval t)) (dehom (S.eval u v) - dehom (c.eval t))) := by
  have p1 := eval_weight_pos hc h1 h2 wc
  have p2 := surf_weight_pos hS wS h3 h4 h5 h6
  simp only [surfaceProblem, Matrix.cons_val_zero, Matrix.cons_val_one, Matrix.cons_val]
  rw [Surface.point_eq_eval hS h3 h4 h5 h6, ok_bind, Curve.point_eq_eval hc h1 h2, ok_bind, pairCost, if_pos ⟨p2.ne', p1.ne'⟩]
  rfl

theorem surf_domain_lt {S : Surface K (W × K)} (h : S.Good eps) : S.ulo < S.uhi ∧ S.vlo < S.vhi := by
  have := h.rows_pos
  have := h.cols_pos
  have hu := h.u_good.le
  have hv := h.v_good.le
  constructor
  · refine lt_of_lt_of_le h.u_good.first (h.u_good.mono _ _ (by omega) (by omega))
  · refine lt_of_lt_of_le h.v_good.first (h.v_good.mono _ _ (by omega) (by omega))

/-- The same for a piece of a surface and a piece of a curve, started at the middles of the domains. -/
theorem C82_surface {dot : W → W → K} {nrm : (Fin 3 → K) → K} {stepTol costTol : K} {maxIters : ℕ} {S : Surface K (W × K)}
    {c : Curve K (W × K)} (hS : S.Good eps) (hc : c.Good eps) (wS : ∀ row ∈ S.cps, ∀ p ∈ row, 0 < p.2)
    (wc : ∀ p ∈ c.cps, 0 < p.2) :
    ∃ t u v f, solveSurface dot nrm eps stepTol costTol maxIters S c = some (t, u, v) ∧
      (surfaceProblem dot eps S c).cost ![t, u, v] = .ok f ∧
      (∀ d, d = dehom (S.eval ((S.ulo + S.uhi) * (1 / 2)) ((S.vlo + S.vhi) * (1 / 2))) - dehom (c.eval ((c.lo + c.hi) * (1 / 2))) →
        f ≤ dot d d ∧
        (c.lo ≤ t → t ≤ c.hi → S.ulo ≤ u → u ≤ S.uhi → S.vlo ≤ v → v ≤ S.vhi →
          ∃ p q, S.pointAt eps u v = .ok p ∧ c.pointAt eps t = .ok q ∧ dot (p - q) (p - q) ≤ dot d d)) := by
  have l1 := lo_lt_hi hc
  obtain ⟨l2, l3⟩ := surf_domain_lt hS
  have c0 := surfaceProblem_cost (dot := dot) hS hc wS wc (t := (c.lo + c.hi) * (1 / 2)) (u := (S.ulo + S.uhi) * (1 / 2))
    (v := (S.vlo + S.vhi) * (1 / 2)) (by linarith) (by linarith) (by linarith) (by linarith) (by linarith) (by linarith)
  obtain ⟨x, ex⟩ := C82_terminates (C82_surface_total (dot := dot) hS hc) (nrm := nrm) (stepTol := stepTol) (costTol := costTol)
    (maxIters := maxIters) (fuel := maxIters + 1) (by omega) c0
  obtain ⟨f0, f, e0, e1, hle, -, -⟩ := C82_best ex
  rw [c0] at e0
  obtain rfl := Except.ok.inj e0
  have hx : x = ![x 0, x 1, x 2] := by ext i; fin_cases i <;> rfl
  refine ⟨x 0, x 1, x 2, f, ?_, by rw [← hx]; exact e1, ?_⟩
  · unfold solveSurface
    rw [knotsDomain_eq hc, u_domain_eq hS, v_domain_eq hS]
    simp only [ok_bind]
    rw [ex]
  · rintro d rfl
    refine ⟨hle, fun h1 h2 h3 h4 h5 h6 => ?_⟩
    refine ⟨_, _, (C28_point_at hS wS h3 h4 h5 h6).1, (C09_point_at_positive_weights hc wc h1 h2).1, ?_⟩
    rw [hx, surfaceProblem_cost (dot := dot) hS hc wS wc h1 h2 h3 h4 h5 h6] at e1
    obtain rfl := Except.ok.inj e1
    exact hle

end field

section real
open scoped InnerProductSpace
variable {E : Type} [NormedAddCommGroup E] [InnerProductSpace ℝ E] {eps : ℝ}

/-! ### C81: the gradient -/

theorem distance_deriv {A : ℝ → E} {S : Set ℝ} {t : ℝ} (hU : UniqueDiffOn ℝ S) (ht : t ∈ S) (hA : DifferentiableWithinAt ℝ A S t) (q : E) :
    derivWithin (fun t => ‖A t - q‖ ^ 2) S t = 2 * ⟪A t - q, derivWithin A S t⟫_ℝ :=
  ((hA.hasDerivWithinAt.sub_const q).norm_sq).derivWithin (hU t ht)

theorem distance_deriv' {A : ℝ → E} {S : Set ℝ} {t : ℝ} (hU : UniqueDiffOn ℝ S) (ht : t ∈ S) (hA : DifferentiableWithinAt ℝ A S t) (q : E) :
    derivWithin (fun t => ‖q - A t‖ ^ 2) S t = 2 * -⟪q - A t, derivWithin A S t⟫_ℝ := by
  simp only [norm_sub_rev q]
  rw [distance_deriv hU ht hA, ← inner_neg_left, neg_sub]

theorem first_ders {c : Curve ℝ (E × ℝ)} (h : c.Good eps) (w : ∀ p ∈ c.cps, 0 < p.2) {u : ℝ} (h1 : c.lo ≤ u) (h2 : u ≤ c.hi)
    {s : ℕ} (hs : s < c.cps.length) (iu : InSpan (kf c.knots) c.hi u s) :
    c.rationalDerivatives eps u 1 = .ok [curvePoint c u, derivWithin (curvePoint c) {t | InSpan (kf c.knots) c.hi t s} u] := by
  rw [C26_rational_derivatives h h1 h2 hs iu (eval_weight_pos h h1 h2 w).ne']
  simp only [List.range_succ, List.range_zero, List.map_nil, List.nil_append, List.map_cons, List.cons_append,
    iteratedDerivWithin_zero, iteratedDerivWithin_one]
  rfl

theorem first_surface_ders {S : Surface ℝ (E × ℝ)} (hS : S.Good eps) (wS : ∀ row ∈ S.cps, ∀ p ∈ row, 0 < p.2) {u v : ℝ}
    (h3 : S.ulo ≤ u) (h4 : u ≤ S.uhi) (h5 : S.vlo ≤ v) (h6 : v ≤ S.vhi) {su sv : ℕ}
    (hsu : su < S.cps.length) (hsv : sv < S.cols) (iu : InSpan (kf S.uKnots) S.uhi u su)
    (iv : InSpan (kf S.vKnots) S.vhi v sv) :
    S.rationalDerivatives eps u v 1 = .ok [[surfPoint S (u, v),
        derivWithin (fun v => surfPoint S (u, v)) {t | InSpan (kf S.vKnots) S.vhi t sv} v],
      [derivWithin (fun u => surfPoint S (u, v)) {t | InSpan (kf S.uKnots) S.uhi t su} u]] := by
  rw [C27_rational_derivatives hS h3 h4 h5 h6 hsu hsv iu iv (surf_weight_pos hS wS h3 h4 h5 h6).ne']
  simp only [List.range_succ, List.range_zero, List.map_nil, List.nil_append, List.map_cons, List.cons_append,
    iteratedDerivWithin_zero, iteratedDerivWithin_one, Nat.sub_zero, Nat.sub_self]
  rfl

/-- **C81** For two curves the solver minimises the squared distance: cost and gradient are the squared distance of the
    two points and its partial derivatives (one sided at a knot). -/
theorem C81_gradient {a b : Curve ℝ (E × ℝ)} (ha : a.Good eps) (hb : b.Good eps) (wa : ∀ p ∈ a.cps, 0 < p.2)
    (wb : ∀ p ∈ b.cps, 0 < p.2) {u v : ℝ} (h1 : a.lo ≤ u) (h2 : u ≤ a.hi) (h3 : b.lo ≤ v) (h4 : v ≤ b.hi) {s r : ℕ}
    (hs : s < a.cps.length) (hr : r < b.cps.length) (iu : InSpan (kf a.knots) a.hi u s) (iv : InSpan (kf b.knots) b.hi v r) :
    (curveProblem (fun v w : E => ⟪v, w⟫_ℝ) eps a b).cost ![u, v] = .ok (‖curvePoint a u - curvePoint b v‖ ^ 2) ∧
    (curveProblem (fun v w : E => ⟪v, w⟫_ℝ) eps a b).gradient ![u, v] =
      .ok ![derivWithin (fun t => ‖curvePoint a t - curvePoint b v‖ ^ 2) {t | InSpan (kf a.knots) a.hi t s} u,
        derivWithin (fun t => ‖curvePoint a u - curvePoint b t‖ ^ 2) {t | InSpan (kf b.knots) b.hi t r} v] := by
  constructor
  · rw [curveProblem_cost ha hb wa wb h1 h2 h3 h4, real_inner_self_eq_norm_sq]
    rfl
  · have na := (eval_weight_pos ha h1 h2 wa).ne'
    have nb := (eval_weight_pos hb h3 h4 wb).ne'
    have ca := span_contDiffOn ha wa (derivatives_span ha h1 h2 hs iu 0).2 hs 1
    have cb := span_contDiffOn hb wb (derivatives_span hb h3 h4 hr iv 0).2 hr 1
    rw [distance_deriv (S := {t | InSpan (kf a.knots) a.hi t s}) (spanSet_uniqueDiff (Curve.inSpan_lt iu)) iu (ca.differentiableOn (by norm_num) u iu),
      distance_deriv' (S := {t | InSpan (kf b.knots) b.hi t r}) (spanSet_uniqueDiff (Curve.inSpan_lt iv)) iv (cb.differentiableOn (by norm_num) v iv)]
    simp only [curveProblem, Matrix.cons_val_zero, Matrix.cons_val_one]
    rw [first_ders ha wa h1 h2 hs iu, first_ders hb wb h3 h4 hr iv]
    refine congrArg Except.ok (?_ : (2 : ℝ) • ![_, _] = _)
    rw [Matrix.smul_cons, Matrix.smul_cons, Matrix.smul_empty]
    rfl

/-- For a surface and a curve the cost is the squared distance too, and the gradient its partial derivatives in the
    parameter of the curve and the two of the surface. -/
theorem C81_gradient_surface {S : Surface ℝ (E × ℝ)} {c : Curve ℝ (E × ℝ)} (hS : S.Good eps) (hc : c.Good eps)
    (wS : ∀ row ∈ S.cps, ∀ p ∈ row, 0 < p.2) (wc : ∀ p ∈ c.cps, 0 < p.2) {t u v : ℝ} (h1 : c.lo ≤ t) (h2 : t ≤ c.hi)
    (h3 : S.ulo ≤ u) (h4 : u ≤ S.uhi) (h5 : S.vlo ≤ v) (h6 : v ≤ S.vhi) {s su sv : ℕ} (hs : s < c.cps.length)
    (hsu : su < S.cps.length) (hsv : sv < S.cols) (it : InSpan (kf c.knots) c.hi t s) (iu : InSpan (kf S.uKnots) S.uhi u su)
    (iv : InSpan (kf S.vKnots) S.vhi v sv) :
    (surfaceProblem (fun v w : E => ⟪v, w⟫_ℝ) eps S c).cost ![t, u, v] = .ok (‖surfPoint S (u, v) - curvePoint c t‖ ^ 2) ∧
    (surfaceProblem (fun v w : E => ⟪v, w⟫_ℝ) eps S c).gradient ![t, u, v] =
      .ok ![derivWithin (fun t => ‖surfPoint S (u, v) - curvePoint c t‖ ^ 2) {t | InSpan (kf c.knots) c.hi t s} t,
        derivWithin (fun u => ‖surfPoint S (u, v) - curvePoint c t‖ ^ 2) {t | InSpan (kf S.uKnots) S.uhi t su} u,
        derivWithin (fun v => ‖surfPoint S (u, v) - curvePoint c t‖ ^ 2) {t | InSpan (kf S.vKnots) S.vhi t sv} v] := by
  constructor
  · rw [surfaceProblem_cost hS hc wS wc h1 h2 h3 h4 h5 h6, real_inner_self_eq_norm_sq]
    rfl
  · have nc := (eval_weight_pos hc h1 h2 wc).ne'
    have nS := (surf_weight_pos hS wS h3 h4 h5 h6).ne'
    obtain ⟨-, pu, pv⟩ := surf_span hS h3 h4 h5 h6 hsu hsv iu iv 0
    have cc := span_contDiffOn hc wc (derivatives_span hc h1 h2 hs it 0).2 hs 1
    have cu : DifferentiableWithinAt ℝ (fun u => surfPoint S (u, v)) {t | InSpan (kf S.uKnots) S.uhi t su} u := by
      have hd : DifferentiableAt ℝ (fun u' => (S.patchDer su sv 0 0 u' v).2⁻¹ • (S.patchDer su sv 0 0 u' v).1) u := by
        have d := (patch_smooth_u S su sv v 1).differentiable (by norm_num) u
        refine (d.snd.inv ?_).smul d.fst
        rw [← Surface.eval_eq_patch hS pu (by omega) pv (by omega) iu iv]
        exact nS
      refine hd.differentiableWithinAt.congr (fun u' hu' => ?_) ?_
      · rw [surfPoint, Surface.eval_eq_patch hS pu (by omega) pv (by omega) hu' iv]
      · rw [surfPoint, Surface.eval_eq_patch hS pu (by omega) pv (by omega) iu iv]
    have cv : DifferentiableWithinAt ℝ (fun v => surfPoint S (u, v)) {t | InSpan (kf S.vKnots) S.vhi t sv} v := by
      have hd : DifferentiableAt ℝ (fun v' => (S.patchDer su sv 0 0 u v').2⁻¹ • (S.patchDer su sv 0 0 u v').1) v := by
        have d := (patch_smooth_v S su sv 0 u 1).differentiable (by norm_num) v
        refine (d.snd.inv ?_).smul d.fst
        rw [← Surface.eval_eq_patch hS pu (by omega) pv (by omega) iu iv]
        exact nS
      refine hd.differentiableWithinAt.congr (fun v' hv' => ?_) ?_
      · rw [surfPoint, Surface.eval_eq_patch hS pu (by omega) pv (by omega) iu hv']
      · rw [surfPoint, Surface.eval_eq_patch hS pu (by omega) pv (by omega) iu iv]
    rw [distance_deriv' (S := {t | InSpan (kf c.knots) c.hi t s}) (spanSet_uniqueDiff (Curve.inSpan_lt it)) it (cc.differentiableOn (by norm_num) t it),
      distance_deriv (A := fun u => surfPoint S (u, v)) (S := {t | InSpan (kf S.uKnots) S.uhi t su}) (spanSet_uniqueDiff (Curve.inSpan_lt iu)) iu cu,
      distance_deriv (A := fun v => surfPoint S (u, v)) (S := {t | InSpan (kf S.vKnots) S.vhi t sv}) (spanSet_uniqueDiff (Curve.inSpan_lt iv)) iv cv]
    simp only [surfaceProblem, Matrix.cons_val_zero, Matrix.cons_val_one, Matrix.cons_val]
    rw [first_ders hc wc h1 h2 hs it, first_surface_ders hS wS h3 h4 h5 h6 hsu hsv iu iv]
    refine congrArg Except.ok (?_ : (2 : ℝ) • ![⟪-derivWithin (curvePoint c) _ t, surfPoint S (u, v) - curvePoint c t⟫_ℝ,
      ⟪derivWithin (fun u => surfPoint S (u, v)) _ u, surfPoint S (u, v) - curvePoint c t⟫_ℝ,
      ⟪derivWithin (fun v => surfPoint S (u, v)) _ v, surfPoint S (u, v) - curvePoint c t⟫_ℝ] = _)
    rw [Matrix.smul_cons, Matrix.smul_cons, Matrix.smul_cons, Matrix.smul_empty]
    simp only [smul_eq_mul, inner_neg_left]
    rw [real_inner_comm _ (derivWithin (curvePoint c) _ _), real_inner_comm _ (derivWithin (fun u => surfPoint S (u, v)) _ _),
      real_inner_comm _ (derivWithin (fun v => surfPoint S (u, v)) _ _)]

end real

/-! ### Witnesses and failures -/

/-- The largest entry. -/
def maxNorm (v : Fin 2 → ℚ) : ℚ := max |v 0| |v 1|

/-- The points `(1 - u², 0)` for `u` from 1/10 to 11/10. -/
def exHill : Curve ℚ ((ℚ × ℚ) × ℚ) where
  degree := 2
  cps := [((99/100, 0), 1), ((89/100, 0), 1), ((-21/100, 0), 1)]
  knots := [1/10, 1/10, 1/10, 11/10, 11/10, 11/10]

/-- The segment from the origin to `(0, 1)`. -/
def exWall : Curve ℚ ((ℚ × ℚ) × ℚ) where
  degree := 1
  cps := [((0, 0), 1), ((0, 1), 1)]
  knots := [0, 0, 1, 1]

theorem exHill_good : exHill.Good (1/1000) where
  cps_pos := by simp [exHill]
  knots_len := by simp [exHill]
  good := by
    refine ⟨by norm_num, by simp [exHill], ?_, ?_, ?_, ?_, ?_⟩
    · exact mono_of_sorted (by norm_num [exHill]) (by simp [exHill])
    all_goals norm_num [exHill, kf]

theorem exWall_good : exWall.Good (1/1000) where
  cps_pos := by simp [exWall]
  knots_len := by simp [exWall]
  good := by
    refine ⟨by norm_num, by simp [exWall], ?_, ?_, ?_, ?_, ?_⟩
    · exact mono_of_sorted (by norm_num [exWall]) (by simp [exWall])
    all_goals norm_num [exWall, kf]

theorem exHill_weights : ∀ p ∈ exHill.cps, 0 < p.2 := by decide +kernel
theorem exWall_weights : ∀ p ∈ exWall.cps, 0 < p.2 := by decide +kernel

/-- Witnesses of `C82_curves` and `C82_common_start`. -/
example := C82_curves (dot := dotQ) (nrm := maxNorm) (stepTol := 1 / 10 ^ 8) (costTol := 1 / 10 ^ 10) (maxIters := 200)
  exHill_good exWall_good exHill_weights exWall_weights
example : solveCurves dotQ maxNorm (1/1000) (1 / 10 ^ 8) (1 / 10 ^ 10) 200 exWall exWall = some (0, 0) :=
  C82_common_start exWall_good exWall_good exWall_weights exWall_weights
    (fun v => by unfold dotQ; nlinarith [mul_self_nonneg v.1, mul_self_nonneg v.2]) (by decide +kernel) rfl
example : solveCurves dotQ maxNorm (1/1000) (1 / 10 ^ 8) (1 / 10 ^ 10) 200 exWall exWall = some (0, 0) := by decide +kernel

/-- The solver may miss: the curves meet at the parameters 1 and 0, but with the default tolerances the solver returns the
    parameters 62/125 and 0, whose points are more than 3/4 apart. The gradient does not grow along the first step, so the next
    matrix is not positive definite and the next step goes uphill. -/
theorem C82_may_miss :
    exHill.pointAt (1/1000) 1 = .ok (0, 0) ∧ exWall.pointAt (1/1000) 0 = .ok (0, 0) ∧
    solveCurves dotQ maxNorm (1/1000) (1 / 10 ^ 8) (1 / 10 ^ 10) 200 exHill exWall = some (62/125, 0) ∧
    exHill.pointAt (1/1000) (62/125) = .ok (11781/15625, 0) := by
  refine ⟨by decide +kernel, by decide +kernel, by decide +kernel, by decide +kernel⟩

/-- The problem of the two curves. -/
def exClimb : Problem ℚ 2 := curveProblem dotQ (1/1000) exHill exWall

theorem exClimb_gradient : exClimb.gradient ![1/10, 0] = .ok ![-99/250, 0] := res_eq_of_ofFn (by decide +kernel)

/-- Witness of `C81_step`: the first iteration from the starts of the two curves. -/
example {st' : State ℚ 2} (h : nextIter exClimb maxNorm (1/100) (initial ![1/10, 0] (9801/10000) 50) = .ok st') :=
  C81_step (st := initial ![1/10, 0] (9801/10000) 50) (.inr ⟨rfl, exClimb_gradient⟩) identity_positive (by intro h; have := congrFun h 0; norm_num at this) h

example : (nextIter exClimb maxNorm (1/100) (initial ![1/10, 0] (9801/10000) 50)).isOk = true := by decide +kernel

/-- Witnesses of `C81_secant`, `C81_symmetric` and `C81_positive`. -/
example : (update (1 : Matrix (Fin 2) (Fin 2) ℚ) ![1, 2] ![3, 1]).isSome = true := by decide +kernel
example : (0 : ℚ) < ![3, 1] ⬝ᵥ ![1, 2] := by decide +kernel

/-- What the next two iterations give, for `C81_refused_taken`. -/
def climb : Res (Bool × Bool × Bool) := do
  let s1 ← nextIter exClimb maxNorm (1/100) (initial ![1/10, 0] (9801/10000) 50)
  let s2 ← nextIter exClimb maxNorm (1/100) s1
  let g1 ← exClimb.gradient s1.param
  let g2 ← exClimb.gradient s2.param
  pure (!(stops maxNorm (1/100) (1/1000) (initial ![1/10, 0] (9801/10000) 50)) && !(stops maxNorm (1/100) (1/1000) s1),
    decide (s1.cost < s2.cost), decide ((s2.hessian.getD 1 *ᵥ (g2 - g1)) 0 ≠ s2.param 0 - s1.param 0))

/-- A search without success takes the last refused candidate: the cost of the second state of this run is above the cost of the
    first, and the recorded step is half of the step made, so the secant equation fails. -/
theorem C81_refused_taken : ∃ s1 s2 g1 g2, Next exClimb maxNorm (1/100) (1/1000) (initial ![1/10, 0] (9801/10000) 50) s1 ∧
    Next exClimb maxNorm (1/100) (1/1000) s1 s2 ∧ s1.cost < s2.cost ∧ exClimb.gradient s1.param = .ok g1 ∧
    exClimb.gradient s2.param = .ok g2 ∧ s2.hessian.getD 1 *ᵥ (g2 - g1) ≠ s2.param - s1.param := by
  have h : climb = .ok (true, true, true) := by decide +kernel
  unfold climb at h
  obtain ⟨s1, e1, h⟩ := bind_eq_ok.1 h
  obtain ⟨s2, e2, h⟩ := bind_eq_ok.1 h
  obtain ⟨g1, e3, h⟩ := bind_eq_ok.1 h
  obtain ⟨g2, e4, h⟩ := bind_eq_ok.1 h
  have h := Except.ok.inj h
  simp only [Prod.mk.injEq, Bool.and_eq_true, Bool.not_eq_true', decide_eq_true_eq] at h
  exact ⟨s1, s2, g1, g2, ⟨h.1.1, e1⟩, ⟨h.1.2, e2⟩, h.2.1, e3, e4, fun hc => h.2.2 (congrFun hc 0)⟩

end Curvo.Props

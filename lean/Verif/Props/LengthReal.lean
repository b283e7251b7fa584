/-
  Property theorems about arc lengths over the reals: C54, termination and the integrand.
-/
import Verif.Props.Length
import Verif.Props.CurveDeriv
import Mathlib.Topology.UniformSpace.HeineCantor
import Mathlib.Analysis.Calculus.ContDiff.Deriv
import Mathlib.MeasureTheory.Integral.IntervalIntegral.Basic

set_option linter.unusedSectionVars false

namespace Curvo.Props
open Curvo Curvo.Curve Curvo.Length Curvo.Knots Curvo.Spec

variable {W : Type} [NormedAddCommGroup W] [NormedSpace ℝ W]

/-- The point of a curve at a parameter, `A(t) / w(t)`. -/
noncomputable def curvePoint (s : Curve ℝ (W × ℝ)) (t : ℝ) : W := (s.eval t).2⁻¹ • (s.eval t).1

/-- The velocity of a curve on its domain (one sided at the ends). -/
noncomputable def velocity (s : Curve ℝ (W × ℝ)) (t : ℝ) : W := derivWithin (curvePoint s) (Set.Icc s.lo s.hi) t

/-- A Bezier segment: one more control point than its degree. -/
structure Bezier (eps : ℝ) (s : Curve ℝ (W × ℝ)) : Prop where
  good : s.Good eps
  cps : s.cps.length = s.degree + 1
  weights : ∀ p ∈ s.cps, 0 < p.2

variable {eps : ℝ} {s : Curve ℝ (W × ℝ)}

theorem Bezier.span (h : Bezier eps s) : {t | InSpan (kf s.knots) s.hi t s.degree} = Set.Icc s.lo s.hi := by
  have hhi : s.hi = kf s.knots (s.degree + 1) := by rw [Curve.hi, h.cps]
  have hlt := lo_lt_hi h.good
  ext t
  show InSpan _ _ _ _ ↔ _
  unfold InSpan
  rw [← hhi]
  show (if t = s.hi then s.lo < t ∧ t ≤ s.hi else s.lo ≤ t ∧ t < s.hi) ↔ s.lo ≤ t ∧ t ≤ s.hi
  split_ifs with hc
  · subst hc; exact ⟨fun h => ⟨h.1.le, h.2⟩, fun h => ⟨hlt, h.2⟩⟩
  · exact ⟨fun h => ⟨h.1, h.2.le⟩, fun h => ⟨h.1, lt_of_le_of_ne h.2 hc⟩⟩

theorem Bezier.contDiffOn (h : Bezier eps s) : ContDiffOn ℝ 1 (curvePoint s) (Set.Icc s.lo s.hi) := by
  have hE := eval_eq_polys h.good (s := s.degree) (le_refl _) (by rw [h.cps]; omega)
  rw [show spanSet (kf s.knots) s.hi s.degree = Set.Icc s.lo s.hi from h.span] at hE
  obtain ⟨F, hF⟩ : ∃ F : ℝ → W × ℝ, F = (fun t => (Finset.range (s.degree + 1)).sum fun r =>
      (spanPoly (kf s.knots) s.degree s.degree (s.degree - s.degree + r)).eval t •
        s.cps.getD (s.degree - s.degree + r) 0) := ⟨_, rfl⟩
  rw [← hF] at hE
  have cF : ContDiff ℝ 1 F := by rw [hF]; exact contDiff_polys _ _ _
  have hw : ∀ t ∈ Set.Icc s.lo s.hi, (F t).2 ≠ 0 := by
    intro t ht
    rw [← hE ht]
    exact (eval_weight_pos h.good ht.1 ht.2 h.weights).ne'
  have : ContDiffOn ℝ 1 (fun t => (F t).2⁻¹ • (F t).1) (Set.Icc s.lo s.hi) :=
    (cF.snd.contDiffOn.inv hw).smul cF.fst.contDiffOn
  refine this.congr ?_
  intro t ht
  simp only [curvePoint, hE ht]

theorem Bezier.continuous (h : Bezier eps s) : ContinuousOn (velocity s) (Set.Icc s.lo s.hi) :=
  h.contDiffOn.continuousOn_derivWithin (uniqueDiffOn_Icc (lo_lt_hi h.good)) (le_refl _)

/-- **C54** The integrand of the length of a Bezier segment is the norm of the derivative of its point. -/
theorem C54_speed (h : Bezier eps s) {x : ℝ} (h1 : s.lo ≤ x) (h2 : x ≤ s.hi) :
    speed (fun v : W => ‖v‖) eps s x = .ok ‖velocity s x‖ := by
  have hin : InSpan (kf s.knots) s.hi x s.degree := by
    have : x ∈ {t | InSpan (kf s.knots) s.hi t s.degree} := by rw [h.span]; exact ⟨h1, h2⟩
    exact this
  have := C26_rational_derivatives h.good h1 h2 (s := s.degree) (by rw [h.cps]; omega) hin
    (eval_weight_pos h.good h1 h2 h.weights).ne' 1
  rw [speed, this]
  simp only [ok_bind, List.range_succ, List.range_zero, List.map_append, List.map_nil, List.nil_append, List.map_cons,
    getR, List.singleton_append]
  simp only [h.span, iteratedDerivWithin_one]
  rfl

/-- What the quadrature rule computes for the length up to `u`. -/
noncomputable def quad (rule : List (ℝ × ℝ)) (s : Curve ℝ (W × ℝ)) (u : ℝ) : ℝ :=
  (u - s.lo) / 2 * (rule.map fun xw => ‖velocity s ((u - s.lo) / 2 * xw.1 + (s.lo + u) / 2)‖ * xw.2).sum

theorem node_mem {a u x : ℝ} (hu : a ≤ u) (h1 : -1 ≤ x) (h2 : x ≤ 1) :
    a ≤ (u - a) / 2 * x + (a + u) / 2 ∧ (u - a) / 2 * x + (a + u) / 2 ≤ u := by
  constructor <;> nlinarith

/-- **C54** The length up to `u` is the quadrature of the norm of the derivative over `[lo, u]` (0 within the machine
    epsilon of the start). -/
theorem C54_quadrature (h : Bezier eps s) {rule : List (ℝ × ℝ)} (hr : ∀ x ∈ rule, -1 ≤ x.1 ∧ x.1 ≤ 1) {u : ℝ}
    (h1 : s.lo ≤ u) (h2 : u ≤ s.hi) :
    segmentLength (fun v : W => ‖v‖) rule eps s u = .ok (if s.lo + eps < u then quad rule s u else 0) := by
  unfold segmentLength
  rw [knotsDomain_eq h.good]
  simp only [ok_bind]
  by_cases hu : s.lo + eps < u
  · rw [if_pos hu, if_pos hu, min_eq_right h2, integrate]
    rw [mapM_ok (g := fun xw : ℝ × ℝ => ‖velocity s ((u - s.lo) / 2 * xw.1 + (s.lo + u) / 2)‖ * xw.2)]
    · rfl
    · intro xw hx
      obtain ⟨a, b⟩ := node_mem h1 (hr xw hx).1 (hr xw hx).2
      rw [C54_speed h a (b.trans h2)]
      rfl
  · rw [if_neg hu, if_neg hu]
    rfl

/-- With a rule that integrates the norm of the derivative exactly the result is the arc length. -/
theorem C54_exact_rule (h : Bezier eps s) {rule : List (ℝ × ℝ)} (hr : ∀ x ∈ rule, -1 ≤ x.1 ∧ x.1 ≤ 1) {u : ℝ}
    (h1 : s.lo + eps < u) (h2 : u ≤ s.hi)
    (hex : quad rule s u = ∫ t in s.lo..u, ‖velocity s t‖) :
    segmentLength (fun v : W => ‖v‖) rule eps s u = .ok (∫ t in s.lo..u, ‖velocity s t‖) := by
  have := h.good.good.eps_nonneg
  rw [C54_quadrature h hr (by linarith) h2, if_pos h1, hex]

theorem quad_continuous (h : Bezier eps s) {rule : List (ℝ × ℝ)} (hr : ∀ x ∈ rule, -1 ≤ x.1 ∧ x.1 ≤ 1) :
    ContinuousOn (quad rule s) (Set.Icc s.lo s.hi) := by
  unfold quad
  apply ContinuousOn.mul (by fun_prop)
  induction rule with
  | nil => simpa using continuousOn_const
  | cons xw rule ih =>
    simp only [List.map_cons, List.sum_cons]
    refine ContinuousOn.add ?_ (ih fun x hx => hr x (by simp [hx]))
    refine ContinuousOn.mul (ContinuousOn.norm ?_) continuousOn_const
    refine h.continuous.comp (by fun_prop) ?_
    intro u hu
    obtain ⟨a, b⟩ := node_mem hu.1 (hr xw (by simp)).1 (hr xw (by simp)).2
    exact ⟨a, b.trans hu.2⟩

theorem quad_le (h : Bezier eps s) {rule : List (ℝ × ℝ)} (hr : ∀ x ∈ rule, -1 ≤ x.1 ∧ x.1 ≤ 1 ∧ 0 ≤ x.2) {M : ℝ}
    (hM : ∀ t, s.lo ≤ t → t ≤ s.hi → ‖velocity s t‖ ≤ M) {u : ℝ} (h1 : s.lo ≤ u) (h2 : u ≤ s.hi) :
    quad rule s u ≤ (u - s.lo) / 2 * (M * (rule.map Prod.snd).sum) := by
  unfold quad
  apply mul_le_mul_of_nonneg_left _ (by linarith)
  rw [← List.sum_map_mul_left]
  apply List.sum_le_sum
  intro xw hx
  obtain ⟨a, b, c⟩ := hr xw hx
  obtain ⟨p, q⟩ := node_mem h1 a b
  exact mul_le_mul_of_nonneg_right (hM _ p (q.trans h2)) c

/-- **C54** The search for a parameter on a Bezier segment with positive weights ends, when the tolerance is larger
    than the machine epsilon times a bound of the speed. -/
theorem C54_search_ends_real (h : Bezier eps s) {rule : List (ℝ × ℝ)}
    (hr : ∀ x ∈ rule, -1 ≤ x.1 ∧ x.1 ≤ 1 ∧ 0 ≤ x.2) (hsum : (rule.map Prod.snd).sum = 2) {M tol : ℝ}
    (hM : ∀ t, s.lo ≤ t → t ≤ s.hi → ‖velocity s t‖ ≤ M) (htol : M * eps < tol) (l : ℝ) :
    ∃ total, segmentLength (fun v : W => ‖v‖) rule eps s s.hi = .ok total ∧
      ∃ N u, ∀ fuel, N ≤ fuel → segmentParameter fuel (fun v : W => ‖v‖) rule eps s l tol total = .ok u := by
  have hlt := lo_lt_hi h.good
  have heps := h.good.good.eps_nonneg
  have hM0 : 0 ≤ M := le_trans (norm_nonneg _) (hM s.lo (le_refl _) hlt.le)
  have htol0 : 0 < tol := lt_of_le_of_lt (mul_nonneg hM0 heps) htol
  have hr' : ∀ x ∈ rule, -1 ≤ x.1 ∧ x.1 ≤ 1 := fun x hx => ⟨(hr x hx).1, (hr x hx).2.1⟩
  have hq := fun {u : ℝ} (h1 : s.lo ≤ u) (h2 : u ≤ s.hi) => C54_quadrature h hr' h1 h2
  refine ⟨_, hq hlt.le (le_refl _), ?_⟩
  -- uniform continuity
  have huc := isCompact_Icc.uniformContinuousOn_of_continuous (quad_continuous h hr')
  rw [Metric.uniformContinuousOn_iff] at huc
  obtain ⟨d1, hd1, huc⟩ := huc tol htol0
  obtain ⟨d2, hd2, hd2'⟩ : ∃ d2, 0 < d2 ∧ M * (eps + d2) ≤ tol := by
    refine ⟨(tol - M * eps) / (M + 1), div_pos (by linarith) (by linarith), ?_⟩
    have : M * ((tol - M * eps) / (M + 1)) ≤ tol - M * eps := by
      rw [← mul_div_assoc, div_le_iff₀ (by linarith)]
      nlinarith
    linarith
  refine C54_search_ends h.good (d := min (d1 / 2) d2) (lt_min (by linarith) hd2) (hq hlt.le (le_refl _))
    (fun x h1 h2 => ⟨_, hq h1 h2⟩) ?_
  intro x y lx ly h1 h2 h3 h4 hx hy
  have hd1' : y - x ≤ d1 / 2 := h4.trans (min_le_left _ _)
  have hd2'' : y - x ≤ d2 := h4.trans (min_le_right _ _)
  rw [hq h1 (h2.trans h3)] at hx
  rw [hq (h1.trans h2) h3] at hy
  have hx : (if s.lo + eps < x then quad rule s x else 0) = lx := by simpa using hx
  have hy : (if s.lo + eps < y then quad rule s y else 0) = ly := by simpa using hy
  rw [← hx, ← hy]
  by_cases a : s.lo + eps < x
  · rw [if_pos a, if_pos (a.trans_le h2)]
    have := huc x ⟨h1, h2.trans h3⟩ y ⟨h1.trans h2, h3⟩ (by
      rw [Real.dist_eq, abs_sub_comm, abs_of_nonneg (by linarith)]; linarith)
    rw [Real.dist_eq, abs_sub_comm] at this
    exact (le_abs_self _).trans this.le
  · rw [if_neg a]
    by_cases b : s.lo + eps < y
    · rw [if_pos b, sub_zero]
      have := quad_le h hr hM (h1.trans h2) h3
      rw [hsum] at this
      have h5 : y - s.lo ≤ eps + d2 := by linarith [not_lt.1 a]
      have := mul_le_mul_of_nonneg_left h5 hM0
      linarith
    · rw [if_neg b, sub_zero]
      exact htol0.le

/-! ### Division by length ends -/

theorem fill_total {par : ℕ → ℝ → Res ℝ} {L bound : ℝ} (hL : 0 < L)
    (hpar : ∀ l, ∃ N u, ∀ fuel, N ≤ fuel → par fuel l = .ok u) : ∀ (k : ℕ) (lc : ℝ), bound - lc ≤ k * L →
    ∃ N r, ∀ fuel, N ≤ fuel → ∀ n, N ≤ n → fill (par fuel) L bound n lc = .ok r
  | 0, lc, h => by
    refine ⟨1, ([], lc), fun fuel _ n hn => ?_⟩
    obtain ⟨n, rfl⟩ : ∃ m, n = m + 1 := ⟨n - 1, by omega⟩
    unfold fill
    rw [if_neg (by simp at h; linarith)]
    rfl
  | k + 1, lc, h => by
    obtain ⟨N1, u, hu⟩ := hpar lc
    obtain ⟨N2, r, hr⟩ := fill_total (bound := bound) hL hpar k (lc + L) (by push_cast at h; linarith)
    by_cases hlt : lc < bound
    · refine ⟨max N1 N2 + 1, ((u, lc) :: r.1, r.2), fun fuel hf n hn => ?_⟩
      obtain ⟨n, rfl⟩ : ∃ m, n = m + 1 := ⟨n - 1, by omega⟩
      unfold fill
      rw [if_pos hlt, hu fuel (by omega)]
      simp only [ok_bind]
      rw [hr fuel (by omega) n (by omega)]
      rfl
    · refine ⟨1, ([], lc), fun fuel _ n hn => ?_⟩
      obtain ⟨n, rfl⟩ : ∃ m, n = m + 1 := ⟨n - 1, by omega⟩
      unfold fill
      rw [if_neg hlt]
      rfl

theorem divideGo_total {rule : List (ℝ × ℝ)} {L : ℝ} (hL : 0 < L) : ∀ {ss : List (Curve ℝ (W × ℝ) × ℝ)} (acc lc : ℝ),
    (∀ s ∈ ss, ∀ l, ∃ N u, ∀ fuel, N ≤ fuel →
      segmentParameter fuel (fun v : W => ‖v‖) rule eps s.1 l (1 / 400) s.2 = .ok u) →
    ∃ N r, ∀ fuel, N ≤ fuel → divideGo fuel (fun v : W => ‖v‖) rule eps L ss acc lc = .ok r
  | [], acc, lc, _ => ⟨0, [], fun _ _ => rfl⟩
  | s :: ss, acc, lc, h => by
    obtain ⟨k, hk⟩ := exists_nat_ge ((acc + s.2 + 1 / 1000000 - lc) / L)
    rw [div_le_iff₀ hL] at hk
    obtain ⟨N1, r, hr⟩ := fill_total (par := fun fuel x => segmentParameter fuel (fun v : W => ‖v‖) rule eps s.1
      (x - acc) (1 / 400) s.2) hL (fun l => h s (by simp) (l - acc)) k lc hk
    obtain ⟨N2, r', hr'⟩ := divideGo_total (ss := ss) hL (acc + s.2) r.2 fun t ht => h t (by simp [ht])
    refine ⟨max N1 N2, r.1 ++ r', fun fuel hf => ?_⟩
    unfold divideGo
    rw [hr fuel (by omega) fuel (by omega)]
    simp only [ok_bind]
    rw [hr' fuel (by omega)]
    rfl

/-- **C54** Division of a clamped curve with positive weights by a positive length below its total ends with a
    result, when the fixed tolerance 1/400 is larger than the machine epsilon times a bound of the speed. -/
theorem C54_divide_ends {rule : ℕ → List (ℝ × ℝ)} {c : Curve ℝ (W × ℝ)}
    (hr : ∀ n, ∀ x ∈ rule n, -1 ≤ x.1 ∧ x.1 ≤ 1 ∧ 0 ≤ x.2) (hsum : ∀ n, ((rule n).map Prod.snd).sum = 2)
    (h : c.Good eps) (hsep : ∀ x ∈ c.knots, ∀ y ∈ c.knots, x ≠ y → eps < |x - y|)
    (hclamped : c.isClamped eps = .ok true) (hcount : ∀ x ∈ c.knots, c.knots.count x ≤ c.degree + 1)
    (hw : ∀ p ∈ c.cps, 0 < p.2) :
    ∃ segs, Pieces eps c segs ∧ (∀ s ∈ segs, Bezier eps s) ∧
      ∃ total, tryLength (fun v : W => ‖v‖) rule eps c = .ok total ∧
        ∀ M, (∀ s ∈ segs, ∀ t, s.lo ≤ t → t ≤ s.hi → ‖velocity s t‖ ≤ M) → M * eps < 1 / 400 →
          ∀ L, 0 < L → L < total →
            ∃ N samples, ∀ fuel, N ≤ fuel →
              tryDivideByLength fuel (fun v : W => ‖v‖) rule eps c L = .ok samples := by
  obtain ⟨segs, hp⟩ := pieces h hsep hclamped hcount
  have hb : ∀ s ∈ segs, Bezier eps s := by
    intro s hs
    refine ⟨hp.good s hs, ?_, ?_⟩
    · rw [hp.cps s hs, hp.degree s hs]
    · refine hp.hull s hs (fun p => 0 < p.2) ?_ hw
      intro p q t t0 t1 hp hq
      simp only [Prod.snd_add, Prod.smul_snd, smul_eq_mul]
      rcases eq_or_lt_of_le t0 with h | h
      · rw [← h]; simpa using hq
      · exact add_pos_of_pos_of_nonneg (mul_pos h hp) (mul_nonneg (sub_nonneg.2 t1) hq.le)
  have hr' : ∀ n, ∀ x ∈ rule n, -1 ≤ x.1 ∧ x.1 ≤ 1 := fun n x hx => ⟨(hr n x hx).1, (hr n x hx).2.1⟩
  refine ⟨segs, hp, hb, ?_⟩
  obtain ⟨ls, hls⟩ : ∃ ls, List.Forall₂
      (fun s l => segmentLength (fun v : W => ‖v‖) (rule (16 + c.degree)) eps s s.hi = .ok l) segs ls := by
    refine ⟨segs.map fun s => if s.lo + eps < s.hi then quad (rule (16 + c.degree)) s s.hi else 0, ?_⟩
    rw [List.forall₂_map_right_iff, List.forall₂_same]
    intro s hs
    exact C54_quadrature (hb s hs) (hr' _) (lo_lt_hi (hp.good s hs)).le (le_refl _)
  refine ⟨ls.sum, (C54_length h hclamped hp _).2 ⟨ls, hls, rfl⟩, ?_⟩
  intro M hM htol L hL hLt
  obtain ⟨N, r, hgo⟩ := divideGo_total (eps := eps) (rule := rule (16 + c.degree)) hL (ss := segs.zip ls) 0 L (by
    intro s hs l
    obtain ⟨i, hi, rfl⟩ := List.mem_iff_getElem.1 hs
    rw [List.getElem_zip]
    have hi1 : i < segs.length := by rw [List.length_zip] at hi; omega
    have hi2 : i < ls.length := by rw [List.length_zip] at hi; omega
    obtain ⟨total, e, res⟩ := C54_search_ends_real (hb _ (List.getElem_mem hi1)) (hr (16 + c.degree)) (hsum _)
      (hM _ (List.getElem_mem hi1)) htol l
    have := forall₂_get hls i hi1 hi2
    rw [this] at e
    obtain rfl : ls[i] = total := by simpa using e
    exact res)
  refine ⟨N, (c.lo, 0) :: r, fun fuel hf => ?_⟩
  unfold tryDivideByLength
  rw [if_pos hL, hp.ok]
  simp only [ok_bind]
  rw [mapM_same fun s hs => hp.length _ rule s hs, mapM_of_forall₂ hls]
  simp only [ok_bind]
  rw [foldl_add_sum, zero_add, if_pos hLt, clamped_lo h hsep hclamped]
  simp only [ok_bind]
  rw [hgo fuel hf]
  rfl

/-! ### Witness -/

/-- Witness: the segment from 0 to 2 at constant speed 2. -/
noncomputable def exStep : Curve ℝ (ℝ × ℝ) where
  degree := 1
  cps := [(0, 1), (2, 1)]
  knots := [0, 0, 1, 1]

theorem exStep_good : exStep.Good (1/1000) where
  cps_pos := by decide
  knots_len := by decide
  good := ⟨by norm_num, by decide, by
    show Spec.MonoUpTo (kf [0, 0, 1, 1]) (1 + 1 + 1)
    exact mono_of_sorted (by simp) (by decide), by simp [exStep, kf], by
    simp [exStep, kf], by simp [exStep, kf]; norm_num, by norm_num [exStep, kf]⟩

theorem exStep_bezier : Bezier (1/1000) exStep := ⟨exStep_good, rfl, by simp [exStep]⟩

theorem exStep_velocity {t : ℝ} (h1 : 0 ≤ t) (h2 : t ≤ 1) : velocity exStep t = 2 := by
  have hlo : exStep.lo = 0 := by simp [exStep, Curve.lo, kf]
  have hhi : exStep.hi = 1 := by simp [exStep, Curve.hi, kf]
  have hpt : ∀ u ∈ Set.Icc (0 : ℝ) 1, curvePoint exStep u = 2 * u := by
    intro u hu
    have hev : exStep.eval u = (2 * u, 1) := by
      have hin : InSpan (kf exStep.knots) exStep.hi u exStep.degree := by
        have : u ∈ {t | InSpan (kf exStep.knots) exStep.hi t exStep.degree} := by
          rw [exStep_bezier.span, hlo, hhi]; exact hu
        exact this
      have hin' : InSpan (kf ([0, 0, 1, 1] : List ℝ)) 1 u 1 := by rw [hhi] at hin; exact hin
      have h0 : ¬ InSpan (kf ([0, 0, 1, 1] : List ℝ)) 1 u 0 := by
        intro h; have := inSpan_lt h; simp [kf] at this
      have h2 : ¬ InSpan (kf ([0, 0, 1, 1] : List ℝ)) 1 u 2 := by
        intro h; have := inSpan_lt h; simp [kf] at this
      have e : exStep.eval u = Spec.N (kf ([0, 0, 1, 1] : List ℝ)) 1 1 0 u • ((0 : ℝ), (1 : ℝ)) +
          Spec.N (kf ([0, 0, 1, 1] : List ℝ)) 1 1 1 u • ((2 : ℝ), (1 : ℝ)) := by
        simp [Curve.eval, Spec.curve, exStep, Finset.sum_range_succ, kf]
      rw [e]
      simp only [Spec.N, if_neg h0, if_neg h2, if_pos hin']
      simp [kf]
      ring
    rw [curvePoint, hev]
    simp
  rw [velocity, hlo, hhi, derivWithin_congr hpt (hpt t ⟨h1, h2⟩)]
  have := ((hasDerivAt_id t).const_mul (2 : ℝ)).hasDerivWithinAt (s := Set.Icc (0 : ℝ) 1)
  simpa using this.derivWithin (uniqueDiffOn_Icc one_pos t ⟨h1, h2⟩)

/-- The search on the witness ends for every length with tolerance 1/400: the hypotheses of
    `C54_search_ends_real` (and so of `C54_search_ends`) hold. -/
example (l : ℝ) : ∃ total, segmentLength (fun v : ℝ => ‖v‖) [(0, 2)] (1/1000) exStep exStep.hi = .ok total ∧
    ∃ N u, ∀ fuel, N ≤ fuel →
      segmentParameter fuel (fun v : ℝ => ‖v‖) [(0, 2)] (1/1000) exStep l (1/400) total = .ok u := by
  refine C54_search_ends_real exStep_bezier (M := 2) (by simp) (by simp) ?_ (by norm_num) l
  intro t h1 h2
  rw [exStep_velocity (by simpa [exStep, Curve.lo, kf] using h1) (by simpa [exStep, Curve.hi, kf] using h2)]
  norm_num

/-- The midpoint rule is exact on the witness. -/
example {u : ℝ} (h0 : 1/1000 < u) (h1 : u ≤ 1) :
    segmentLength (fun v : ℝ => ‖v‖) [(0, 2)] (1/1000) exStep u = .ok (∫ t in exStep.lo..u, ‖velocity exStep t‖) := by
  have hlo : exStep.lo = 0 := by simp [exStep, Curve.lo, kf]
  refine C54_exact_rule exStep_bezier (by simp) (by rw [hlo]; linarith) (by simpa [exStep, Curve.hi, kf] using h1) ?_
  have : ∫ t in exStep.lo..u, ‖velocity exStep t‖ = ∫ t in exStep.lo..u, (2 : ℝ) := by
    apply intervalIntegral.integral_congr
    intro t ht
    rw [hlo, Set.uIcc_of_le (by linarith)] at ht
    simp only
    rw [exStep_velocity ht.1 (ht.2.trans h1)]
    norm_num
  rw [this, hlo, intervalIntegral.integral_const]
  simp only [quad, List.map_cons, List.map_nil, List.sum_cons, List.sum_nil, hlo]
  rw [exStep_velocity (by linarith) (by linarith)]
  norm_num
  ring

end Curvo.Props

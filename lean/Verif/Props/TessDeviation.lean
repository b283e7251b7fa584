/-
  C92: how far the tessellation of a planar curve is from the curve.
-/
import Verif.Lemmas.SpanPoly
import Verif.Lemmas.BSpline2
import Verif.Props.TessParams

set_option linter.unusedSectionVars false

namespace Curvo.Props

open Curvo.Spec Curvo.Curve Curvo.Tess

variable {K : Type} [Field K] [LinearOrder K] [IsStrictOrderedRing K]
variable {V : Type} [AddCommGroup V] [Module K V]

/-- Between two parameters without a knot in between the curve is one polynomial piece, also at the second one. -/
theorem eval_piece {eps : K} {c : Curve K V} (h : c.Good eps) {x y : K} (hlo : c.lo ≤ x) (hxy : x < y) (hhi : y ≤ c.hi)
    (hk : ∀ k ∈ c.knots, k ≤ x ∨ y ≤ k)
    (hmul : ∀ j, j + c.degree < c.knots.length → c.lo < kf c.knots j → kf c.knots (j + c.degree) < c.hi →
      kf c.knots j < kf c.knots (j + c.degree)) :
    ∃ s, ∀ u, x ≤ u → u ≤ y →
      c.eval u = (Finset.range c.cps.length).sum fun t => NS (kf c.knots) s c.degree t u • c.cps.getD t 0 := by
  have hpos := h.cps_pos
  have hg := h.good
  have hlen := h.knots_len
  have span : ∀ u, c.lo ≤ u → u ≤ c.hi → ∃ s, c.degree ≤ s ∧ s ≤ c.cps.length - 1 ∧ InSpan (kf c.knots) c.hi u s := by
    intro u h1 h2
    obtain ⟨s, _, a, b, d⟩ := h.exists_span h1 h2
    exact ⟨s, a, b, d⟩
  have hmem : ∀ j, j < c.knots.length → kf c.knots j ∈ c.knots := by
    intro j hj
    rw [kf, List.getD_eq_getElem?_getD, List.getElem?_eq_getElem hj]
    exact List.getElem_mem _
  have hxb : x ≠ c.hi := (lt_of_lt_of_le hxy hhi).ne
  obtain ⟨s, hps, hsn, hs⟩ := span x hlo (hxy.le.trans hhi)
  have hs' := hs
  rw [InSpan, if_neg hxb] at hs'
  have hys : y ≤ kf c.knots (s + 1) := by
    rcases hk _ (hmem (s + 1) (by omega)) with e | e
    · exact absurd hs'.2 (not_lt.2 e)
    · exact e
  have hall : ∀ u, x ≤ u → InSpan (kf c.knots) c.hi u s →
      c.eval u = (Finset.range c.cps.length).sum fun t => NS (kf c.knots) s c.degree t u • c.cps.getD t 0 := by
    intro u _ hu
    exact eval_eq_NS h hsn hu
  refine ⟨s, fun u h1 h2 => ?_⟩
  rcases h2.lt_or_eq with h2 | rfl
  · refine hall u h1 ?_
    rw [InSpan, if_neg (lt_of_lt_of_le h2 hhi).ne]
    exact ⟨hs'.1.trans h1, lt_of_lt_of_le h2 hys⟩
  · by_cases hub : u = c.hi
    · refine hall u h1 ?_
      rw [InSpan, if_pos hub]
      exact ⟨lt_of_le_of_lt hs'.1 hxy, hys⟩
    · by_cases hlt : u < kf c.knots (s + 1)
      · refine hall u h1 ?_
        rw [InSpan, if_neg hub]
        exact ⟨hs'.1.trans h1, hlt⟩
      · have hu : kf c.knots (s + 1) = u := le_antisymm (not_lt.1 hlt) hys
        obtain ⟨s₁, hps1, hsn1, hs1⟩ := span u (hlo.trans h1) hhi
        rw [eval_eq_NS h hsn1 hs1]
        rw [InSpan, if_neg hub] at hs1
        have hss : s < s₁ := by
          by_contra hc
          have := hg.mono (s₁ + 1) (s + 1) (by omega) (by omega)
          rw [hu] at this
          exact absurd hs1.2 (not_lt.2 this)
        have heq : ∀ j, s < j → j ≤ s₁ → kf c.knots j = u := by
          intro j a1 a2
          have e1 := hg.mono (s + 1) j (by omega) (by omega)
          have e2 := hg.mono j s₁ (by omega) (by omega)
          rw [hu] at e1
          exact le_antisymm (e2.trans hs1.1) e1
        have hm : s₁ ≤ s + c.degree := by
          by_contra hc
          have e1 := heq (s + 1) (by omega) (by omega)
          have e2 := heq (s + 1 + c.degree) (by omega) (by omega)
          have := hmul (s + 1) (by omega) (by rw [e1]; exact lt_of_le_of_lt hlo hxy)
            (by rw [e2]; exact lt_of_le_of_ne hhi hub)
          rw [e1, e2] at this
          exact lt_irrefl _ this
        apply Finset.sum_congr rfl
        intro t _
        rw [NS_cont hss heq (lt_of_le_of_lt hs'.1 hxy).ne hs1.2.ne' c.degree hm t]

/-- Such a piece of a curve of degree two is a parabola in homogeneous coordinates. -/
theorem eval_parabola {eps : K} {c : Curve K V} (h : c.Good eps) (hd : c.degree = 2) {x y : K} (hlo : c.lo ≤ x) (hxy : x < y)
    (hhi : y ≤ c.hi) (hk : ∀ k ∈ c.knots, k ≤ x ∨ y ≤ k)
    (hmul : ∀ j, j + c.degree < c.knots.length → c.lo < kf c.knots j → kf c.knots (j + c.degree) < c.hi →
      kf c.knots j < kf c.knots (j + c.degree)) :
    ∃ A B C : V, ∀ u, x ≤ u → u ≤ y → c.eval u = A + u • B + (u * u) • C := by
  obtain ⟨s, hs⟩ := eval_piece h hlo hxy hhi hk hmul
  refine ⟨(Finset.range c.cps.length).sum fun t => (spanPoly (kf c.knots) s c.degree t).coeff 0 • c.cps.getD t 0,
    (Finset.range c.cps.length).sum fun t => (spanPoly (kf c.knots) s c.degree t).coeff 1 • c.cps.getD t 0,
    (Finset.range c.cps.length).sum fun t => (spanPoly (kf c.knots) s c.degree t).coeff 2 • c.cps.getD t 0, fun u h1 h2 => ?_⟩
  rw [hs u h1 h2, Finset.smul_sum, Finset.smul_sum, ← Finset.sum_add_distrib, ← Finset.sum_add_distrib]
  apply Finset.sum_congr rfl
  intro t _
  have hdeg := spanPoly_natDegree (kf c.knots) s c.degree t
  rw [← spanPoly_eval, Polynomial.eval_eq_sum_range' (n := 3) (by omega), Finset.sum_range_succ, Finset.sum_range_succ,
    Finset.sum_range_one, smul_smul, smul_smul, ← add_smul, ← add_smul]
  congr 1
  ring

/-- Twice the signed area of the triangle `a`, `q`, `b`: the length of the chord from `a` to `b` times the distance of `q`
    from its line. -/
def spread (a q b : K × K) : K := (q.1 - a.1) * (b.2 - a.2) - (q.2 - a.2) * (b.1 - a.1)

/-- The determinant of homogeneous points. -/
def hdet (P Q R : (K × K) × K) : K :=
  P.2 * (Q.1.1 * R.1.2 - Q.1.2 * R.1.1) - Q.2 * (P.1.1 * R.1.2 - P.1.2 * R.1.1) + R.2 * (P.1.1 * Q.1.2 - P.1.2 * Q.1.1)

theorem spread_hdet {P Q R : (K × K) × K} (hP : P.2 ≠ 0) (hQ : Q.2 ≠ 0) (hR : R.2 ≠ 0) :
    spread (P.2⁻¹ • P.1) (Q.2⁻¹ • Q.1) (R.2⁻¹ • R.1) * (P.2 * Q.2 * R.2) = hdet P Q R := by
  obtain ⟨⟨p1, p2⟩, p⟩ := P
  obtain ⟨⟨q1, q2⟩, q⟩ := Q
  obtain ⟨⟨r1, r2⟩, r⟩ := R
  simp only [spread, hdet, Prod.smul_mk, smul_eq_mul] at *
  field_simp
  ring

theorem hdet_parabola (A B C : (K × K) × K) (x u y : K) :
    hdet (A + x • B + (x * x) • C) (A + u • B + (u * u) • C) (A + y • B + (y * y) • C) =
      (u - x) * (y - x) * (y - u) * hdet A B C := by
  obtain ⟨⟨a1, a2⟩, a⟩ := A
  obtain ⟨⟨b1, b2⟩, b⟩ := B
  obtain ⟨⟨c1, c2⟩, c⟩ := C
  simp only [hdet, Prod.smul_mk, smul_eq_mul, Prod.mk_add_mk]
  ring

theorem weight_between {W : Type} [AddCommGroup W] [Module K W] {eps : K} {c : Curve K (W × K)} {u w0 w1 : K} (h : c.Good eps)
    (h1 : c.lo ≤ u) (h2 : u ≤ c.hi) (hw : ∀ p ∈ c.cps, w0 ≤ p.2 ∧ p.2 ≤ w1) : w0 ≤ (c.eval u).2 ∧ (c.eval u).2 ≤ w1 := by
  obtain ⟨s, _, hps, hsn, hin⟩ := h.exists_span h1 h2
  have hpos := h.cps_pos
  rw [eval_eq_span h hps hsn hin, Prod.snd_sum]
  have hnn : ∀ r ∈ Finset.range (c.degree + 1), 0 ≤ NS (kf c.knots) s c.degree (s - c.degree + r) u := by
    intro r hr
    have := Finset.mem_range.1 hr
    exact NS_nonneg h.good.mono (inSpan_le hin).1 (inSpan_le hin).2 _ _ (by omega)
  have hsum := NS_sum_eq_one (k := kf c.knots) u c.degree hps
    (fun i j hi hj hj' => Knots.ne_across h.good.mono (inSpan_lt hin) i j hi hj (by omega))
  have hwr : ∀ r ∈ Finset.range (c.degree + 1),
      w0 ≤ (c.cps.getD (s - c.degree + r) 0).2 ∧ (c.cps.getD (s - c.degree + r) 0).2 ≤ w1 := by
    intro r hr
    have := Finset.mem_range.1 hr
    have hlt : s - c.degree + r < c.cps.length := by omega
    rw [List.getD_eq_getElem?_getD, List.getElem?_eq_getElem hlt]
    exact hw _ (List.getElem_mem _)
  constructor
  · calc w0 = (Finset.range (c.degree + 1)).sum fun r => NS (kf c.knots) s c.degree (s - c.degree + r) u * w0 := by
          rw [← Finset.sum_mul, hsum, one_mul]
      _ ≤ _ := Finset.sum_le_sum fun r hr => by
          rw [Prod.smul_snd, smul_eq_mul]
          exact mul_le_mul_of_nonneg_left (hwr r hr).1 (hnn r hr)
  · calc _ ≤ (Finset.range (c.degree + 1)).sum fun r => NS (kf c.knots) s c.degree (s - c.degree + r) u * w1 :=
          Finset.sum_le_sum fun r hr => by
          rw [Prod.smul_snd, smul_eq_mul]
          exact mul_le_mul_of_nonneg_left (hwr r hr).2 (hnn r hr)
      _ = w1 := by rw [← Finset.sum_mul, hsum, one_mul]

/-- The arithmetic of the estimate. -/
private theorem spread_bound {x u m y a b e g su sm D w0 w1 tol : K} (hw0 : 0 < w0) (h1 : x ≤ u) (h2 : u ≤ y) (hxy : x < y)
    (m1 : x + (y - x) / 2 ≤ m) (m2 : m < x + 7 / 10 * (y - x)) (px : 0 < a) (pu : 0 < b) (py : 0 < e) (pm : 0 < g)
    (wu : w0 ≤ b ∧ b ≤ w1) (wm : w0 ≤ g ∧ g ≤ w1)
    (s1 : su * (a * b * e) = (u - x) * (y - x) * (y - u) * D) (s2 : sm * (a * g * e) = (m - x) * (y - x) * (y - m) * D)
    (hflat : |sm| < tol) : |su| < 25 / 21 * (w1 / w0) * tol := by
  have hδ := sub_pos.2 hxy
  -- `su * b * F = sm * g * G` with `F = (m - x) * (y - m)`, `G = (u - x) * (y - u)`
  have key : su * b * ((m - x) * (y - m)) = sm * g * ((u - x) * (y - u)) := by
    have hae : a * e * (y - x) ≠ 0 := by positivity
    apply mul_right_cancel₀ hae
    linear_combination (m - x) * (y - m) * (y - x) * s1 - (u - x) * (y - u) * (y - x) * s2
  have hF : 21 / 100 * (y - x) ^ 2 ≤ (m - x) * (y - m) := by nlinarith
  have hG : (u - x) * (y - u) ≤ 1 / 4 * (y - x) ^ 2 := by nlinarith [sq_nonneg ((u - x) - (y - u))]
  have hG0 : 0 ≤ (u - x) * (y - u) := mul_nonneg (sub_nonneg.2 h1) (sub_nonneg.2 h2)
  have hF0 : 0 < (m - x) * (y - m) := mul_pos (by linarith) (by linarith)
  have hkey : |su| * b * ((m - x) * (y - m)) = |sm| * g * ((u - x) * (y - u)) := by
    have := congrArg abs key
    rwa [abs_mul (su * b), abs_mul su b, abs_mul (sm * g), abs_mul sm g, abs_of_pos pu, abs_of_pos pm, abs_of_pos hF0, abs_of_nonneg hG0] at this
  have htol : 0 < tol := lt_of_le_of_lt (abs_nonneg _) hflat
  have hq : 0 < (y - x) ^ 2 := by positivity
  -- chain of estimates
  have c1 : |su| * w0 * (21 / 100 * (y - x) ^ 2) ≤ |su| * b * ((m - x) * (y - m)) :=
    mul_le_mul (mul_le_mul_of_nonneg_left wu.1 (abs_nonneg _)) hF (by positivity) (by positivity)
  have c2 : |sm| * g * ((u - x) * (y - u)) ≤ |sm| * w1 * (1 / 4 * (y - x) ^ 2) :=
    mul_le_mul (mul_le_mul_of_nonneg_left wm.2 (abs_nonneg _)) hG hG0 (mul_nonneg (abs_nonneg _) (pm.le.trans wm.2))
  have hw1 : 0 < w1 := lt_of_lt_of_le pm wm.2
  have c3 : |sm| * w1 * (1 / 4 * (y - x) ^ 2) < tol * w1 * (1 / 4 * (y - x) ^ 2) := by
    apply mul_lt_mul_of_pos_right _ (by positivity)
    exact mul_lt_mul_of_pos_right hflat hw1
  have c4 : |su| * w0 * (21 / 100 * (y - x) ^ 2) < tol * w1 * (1 / 4 * (y - x) ^ 2) := by linarith
  have c5 : |su| * w0 * 21 < tol * w1 * 25 := by
    by_contra hc
    nlinarith [mul_le_mul_of_nonneg_right (not_lt.1 hc) hq.le]
  rw [show 25 / 21 * (w1 / w0) * tol = (tol * w1 * 25) / (w0 * 21) by field_simp, lt_div_iff₀ (by positivity)]
  linarith

/-- **C92**: if a piece of a curve of degree two between two knots passes the flatness test, then all its points are nearly
    as close to the chord as the tested one. -/
theorem C92_quadratic_piece {eps : K} {c : Curve K ((K × K) × K)} (h : c.Good eps) (hd : c.degree = 2) {w0 w1 : K} (hw0 : 0 < w0)
    (hw : ∀ p ∈ c.cps, w0 ≤ p.2 ∧ p.2 ≤ w1) {x y : K} (hlo : c.lo ≤ x) (hxy : x < y) (hhi : y ≤ c.hi)
    (hk : ∀ k ∈ c.knots, k ≤ x ∨ y ≤ k)
    (hmul : ∀ j, j + c.degree < c.knots.length → c.lo < kf c.knots j → kf c.knots (j + c.degree) < c.hi →
      kf c.knots j < kf c.knots (j + c.degree))
    {tol r : K} (r0 : 0 ≤ r) (r1 : r < 1)
    (hp : Passes planeMetric (fun t => (c.eval t).2⁻¹ • (c.eval t).1) tol x y r) {u : K} (h1 : x ≤ u) (h2 : u ≤ y)
    {X U Y : K × K} (hX : c.pointAt eps x = .ok X) (hU : c.pointAt eps u = .ok U) (hY : c.pointAt eps y = .ok Y) :
    |spread X U Y| < 25 / 21 * (w1 / w0) * tol := by
  have hwp : ∀ p ∈ c.cps, 0 < p.2 := fun p hp => lt_of_lt_of_le hw0 (hw p hp).1
  have hwt : ∀ t, c.lo ≤ t → t ≤ c.hi → w0 ≤ (c.eval t).2 ∧ (c.eval t).2 ≤ w1 :=
    fun t a1 a2 => weight_between h a1 a2 hw
  obtain ⟨A, B, C, hE⟩ := eval_parabola h hd hlo hxy hhi hk hmul
  obtain ⟨m, hm⟩ : ∃ m, m = x + (y - x) * (1 / 2 + 1 / 5 * r) := ⟨_, rfl⟩
  have hδ := sub_pos.2 hxy
  have m1 : x + (y - x) / 2 ≤ m := by rw [hm]; nlinarith
  have m2 : m < x + 7 / 10 * (y - x) := by rw [hm]; nlinarith
  have hmx : x < m := by linarith
  have hmy : m < y := by linarith
  have pt : ∀ t, x ≤ t → t ≤ y → c.pointAt eps t = .ok ((c.eval t).2⁻¹ • (c.eval t).1) ∧ w0 ≤ (c.eval t).2 ∧ (c.eval t).2 ≤ w1 :=
    fun t a1 a2 => ⟨(C09_point_at_positive_weights h hwp (hlo.trans a1) (a2.trans hhi)).1, hwt t (hlo.trans a1) (a2.trans hhi)⟩
  obtain ⟨ex, wx⟩ := pt x (le_refl _) hxy.le
  obtain ⟨eu, wu⟩ := pt u h1 h2
  obtain ⟨ey, wy⟩ := pt y hxy.le (le_refl _)
  obtain ⟨em, wm⟩ := pt m hmx.le hmy.le
  rw [hX] at ex; rw [hU] at eu; rw [hY] at ey
  obtain rfl := Except.ok.inj ex
  obtain rfl := Except.ok.inj eu
  obtain rfl := Except.ok.inj ey
  have hflat := hp.2
  rw [← hm] at hflat
  simp only [planeMetric, Misc.threePointsAreFlat2, decide_eq_true_eq] at hflat
  have hflat : |spread ((c.eval x).2⁻¹ • (c.eval x).1) ((c.eval m).2⁻¹ • (c.eval m).1) ((c.eval y).2⁻¹ • (c.eval y).1)| < tol := hflat
  have px : 0 < (c.eval x).2 := lt_of_lt_of_le hw0 wx.1
  have pu : 0 < (c.eval u).2 := lt_of_lt_of_le hw0 wu.1
  have py : 0 < (c.eval y).2 := lt_of_lt_of_le hw0 wy.1
  have pm : 0 < (c.eval m).2 := lt_of_lt_of_le hw0 wm.1
  have s1 := spread_hdet px.ne' pu.ne' py.ne'
  have s2 := spread_hdet px.ne' pm.ne' py.ne'
  have d1 : hdet (c.eval x) (c.eval u) (c.eval y) = (u - x) * (y - x) * (y - u) * hdet A B C := by
    rw [hE x (le_refl _) hxy.le, hE u h1 h2, hE y hxy.le (le_refl _), hdet_parabola]
  have d2 : hdet (c.eval x) (c.eval m) (c.eval y) = (m - x) * (y - x) * (y - m) * hdet A B C := by
    rw [hE x (le_refl _) hxy.le, hE m hmx.le hmy.le, hE y hxy.le (le_refl _), hdet_parabola]
  rw [d1] at s1
  rw [d2] at s2
  exact spread_bound hw0 h1 h2 hxy m1 m2 px pu py pm wu wm s1 s2 hflat

/-- The foot of the perpendicular. -/
theorem spread_foot {X U Y : K × K} (h : 0 < (Y.1 - X.1) ^ 2 + (Y.2 - X.2) ^ 2) :
    ∃ l : K, ((U.1 - (X.1 + l * (Y.1 - X.1))) ^ 2 + (U.2 - (X.2 + l * (Y.2 - X.2))) ^ 2) * ((Y.1 - X.1) ^ 2 + (Y.2 - X.2) ^ 2) =
      spread X U Y ^ 2 := by
  refine ⟨((U.1 - X.1) * (Y.1 - X.1) + (U.2 - X.2) * (Y.2 - X.2)) / ((Y.1 - X.1) ^ 2 + (Y.2 - X.2) ^ 2), ?_⟩
  unfold spread
  have hne := h.ne'
  generalize Y.1 - X.1 = a at *
  generalize Y.2 - X.2 = b at *
  have e1 : ∀ l : K, U.1 - (X.1 + l * a) = (U.1 - X.1) - l * a := fun l => by ring
  have e2 : ∀ l : K, U.2 - (X.2 + l * b) = (U.2 - X.2) - l * b := fun l => by ring
  rw [e1, e2]
  generalize U.1 - X.1 = p at *
  generalize U.2 - X.2 = q at *
  field_simp
  ring

/-- **C92**: the adaptive tessellation of a parabola or another conic in Bezier form ends, begins and ends with the curve, and
    every point of the curve between two samples is within `25/21 √tol` times the ratio of the weights from the line through
    the samples, if these are not closer than `√tol`. -/
theorem C92_quadratic [Archimedean K] {eps floor tol w0 w1 : K} {rnd : ℕ → K} {c : Curve K ((K × K) × K)}
    (h : c.Good eps) (hd : c.degree = 2) (hw0 : 0 < w0) (hw : ∀ p ∈ c.cps, w0 ≤ p.2 ∧ p.2 ≤ w1)
    (hbez : ∀ k ∈ c.knots, k ≤ c.lo ∨ c.hi ≤ k) (hf : 0 < floor)
    (hr : ∀ n, 0 ≤ rnd n ∧ rnd n < 1) (hdom : floor ≤ c.hi - c.lo)
    (hsmall : ∀ a b, c.lo ≤ a → b ≤ c.hi → a ≤ b → b - a < 2 * floor → ∀ r, 0 ≤ r → r < 1 →
      Passes planeMetric (fun t => (c.eval t).2⁻¹ • (c.eval t).1) tol a b r) :
    ∃ (fuel : ℕ) (ts : List K) (pts : List (K × K)) (pos : ℕ), tessellateCurve planeMetric eps floor rnd fuel c tol = .ok (pts, pos) ∧
      List.Forall₂ (fun t p => c.pointAt eps t = .ok p) ts pts ∧ ts.head? = some c.lo ∧ ts.getLast? = some c.hi ∧
      ts.IsChain fun x y => x < y ∧ ∀ u, x ≤ u → u ≤ y →
        ∃ X U Y, c.pointAt eps x = .ok X ∧ c.pointAt eps u = .ok U ∧ c.pointAt eps y = .ok Y ∧
          |spread X U Y| < 25 / 21 * (w1 / w0) * tol ∧
          (tol ≤ (Y.1 - X.1) ^ 2 + (Y.2 - X.2) ^ 2 → ∃ l : K,
            (U.1 - (X.1 + l * (Y.1 - X.1))) ^ 2 + (U.2 - (X.2 + l * (Y.2 - X.2))) ^ 2 < (25 / 21 * (w1 / w0)) ^ 2 * tol) := by
  have hwp : ∀ p ∈ c.cps, 0 < p.2 := fun p hp => lt_of_lt_of_le hw0 (hw p hp).1
  obtain ⟨fuel, ts, pts, pos, e, hall, hh, hl, hchain⟩ := C44_end_points (M := planeMetric) h hwp (by omega) hf hr hdom hsmall
  refine ⟨fuel, ts, pts, pos, e, hall, hh, hl, ?_⟩
  -- all samples are in the domain
  have hin : ∀ t ∈ ts, c.lo ≤ t ∧ t ≤ c.hi := by
    have hpw : ts.Pairwise (· < ·) := (List.IsChain.imp (fun _ _ h => h.1) hchain).pairwise
    intro t ht
    obtain ⟨i, hi, rfl⟩ := List.mem_iff_getElem.1 ht
    have hle : ∀ a b (hb : b < ts.length) (hab : a ≤ b), ts[a]'(by omega) ≤ ts[b] := by
      intro a b hb hab
      rcases hab.eq_or_lt with rfl | hab
      · exact le_refl _
      · exact (List.pairwise_iff_getElem.1 hpw a b (by omega) hb hab).le
    constructor
    · have h0 := hle 0 i hi (Nat.zero_le _)
      rw [List.head?_eq_getElem?, List.getElem?_eq_getElem (by omega)] at hh
      rw [Option.some.inj hh] at h0
      exact h0
    · have h0 := hle i (ts.length - 1) (by omega) (by omega)
      rw [List.getLast?_eq_getElem?, List.getElem?_eq_getElem (by omega)] at hl
      rw [Option.some.inj hl] at h0
      exact h0
  have hmul : ∀ j, j + c.degree < c.knots.length → c.lo < kf c.knots j → kf c.knots (j + c.degree) < c.hi →
      kf c.knots j < kf c.knots (j + c.degree) := by
    intro j hj h1 h2
    exfalso
    have hg := h.good
    have := h.knots_len
    have := h.cps_pos
    have hm : kf c.knots j ∈ c.knots := by
      rw [kf, List.getD_eq_getElem?_getD, List.getElem?_eq_getElem (by omega)]
      exact List.getElem_mem _
    rcases hbez _ hm with h3 | h3
    · exact absurd h1 (not_lt.2 h3)
    · have := hg.mono j (j + c.degree) (by omega) (by omega)
      exact absurd (lt_of_le_of_lt (h3.trans this) h2) (lt_irrefl _)
  refine (List.isChain_iff_getElem).2 ?_
  intro i hi
  obtain ⟨hlt, r, r0, r1, hp⟩ := (List.isChain_iff_getElem).1 hchain i hi
  have hx := hin _ (List.getElem_mem (l := ts) (n := i) (by omega))
  have hy := hin _ (List.getElem_mem (l := ts) (n := i + 1) hi)
  refine ⟨hlt, fun u h1 h2 => ?_⟩
  have ex := (C09_point_at_positive_weights h hwp hx.1 hx.2).1
  have eu := (C09_point_at_positive_weights h hwp (hx.1.trans h1) (h2.trans hy.2)).1
  have ey := (C09_point_at_positive_weights h hwp hy.1 hy.2).1
  have hs := C92_quadratic_piece h hd hw0 hw hx.1 hlt hy.2
    (fun k hk => (hbez k hk).imp (fun h3 => h3.trans hx.1) (fun h3 => hy.2.trans h3)) hmul r0 r1 hp h1 h2 ex eu ey
  refine ⟨_, _, _, ex, eu, ey, hs, fun ht => ?_⟩
  have htol : 0 < tol := by
    have hflat := hp.2
    simp only [planeMetric, Misc.threePointsAreFlat2, decide_eq_true_eq] at hflat
    exact lt_of_le_of_lt (abs_nonneg _) hflat
  obtain ⟨l, hfoot⟩ := spread_foot (U := (c.eval u).2⁻¹ • (c.eval u).1) (lt_of_lt_of_le htol ht)
  refine ⟨l, ?_⟩
  have hsq : spread ((c.eval ts[i]).2⁻¹ • (c.eval ts[i]).1) ((c.eval u).2⁻¹ • (c.eval u).1)
      ((c.eval ts[i + 1]).2⁻¹ • (c.eval ts[i + 1]).1) ^ 2 < (25 / 21 * (w1 / w0) * tol) ^ 2 := sq_lt_sq' (by
        have := (abs_lt.1 hs).1; linarith) (abs_lt.1 hs).2
  rw [← hfoot] at hsq
  by_contra hc
  have h3 := mul_le_mul (not_lt.1 hc) ht htol.le (by positivity)
  have : (25 / 21 * (w1 / w0) * tol) ^ 2 = (25 / 21 * (w1 / w0)) ^ 2 * tol * tol := by ring
  rw [this] at hsq
  exact absurd hsq (not_lt.2 h3)

/-- The parabola meets the hypotheses; here the ratio of the weights is one. -/
example : ∃ (fuel : ℕ) (ts : List ℚ) (pts : List (ℚ × ℚ)) (pos : ℕ),
      tessellateCurve planeMetric (1/1000) (1/10^8) (fun n : ℕ => 1 / ((n : ℚ) + 2)) fuel exParabola (1/1000) = .ok (pts, pos) ∧
      ts.head? = some 0 ∧ ts.getLast? = some 1 ∧
      ts.IsChain fun x y => x < y ∧ ∀ u, x ≤ u → u ≤ y → ∃ X U Y, exParabola.pointAt (1/1000) x = .ok X ∧
        exParabola.pointAt (1/1000) u = .ok U ∧ exParabola.pointAt (1/1000) y = .ok Y ∧ |spread X U Y| < 25 / 21 * (1/1000) := by
  have hlo : exParabola.lo = 0 := by norm_num [exParabola, Curve.lo, kf]
  have hhi : exParabola.hi = 1 := by norm_num [exParabola, Curve.hi, kf]
  obtain ⟨fuel, ts, pts, pos, e, -, hh, hl, hc⟩ := C92_quadratic (eps := 1/1000) (floor := 1/10^8) (tol := 1/1000)
    (w0 := 1) (w1 := 1) (rnd := fun n : ℕ => 1 / ((n : ℚ) + 2)) exParabola_good rfl (by norm_num) (by decide +kernel)
    (by rw [hlo, hhi]; decide +kernel) (by norm_num) (by
      intro n
      refine ⟨by positivity, ?_⟩
      rw [div_lt_one (by positivity)]
      have : (0 : ℚ) ≤ n := Nat.cast_nonneg n
      linarith) (by rw [hlo, hhi]; norm_num)
    (passes_of_lipschitz (L := 2) (by norm_num) (by norm_num) exParabola_lipschitz (by norm_num))
  refine ⟨fuel, ts, pts, pos, e, hlo ▸ hh, hhi ▸ hl, hc.imp ?_⟩
  rintro x y ⟨h1, h2⟩
  refine ⟨h1, fun u h3 h4 => ?_⟩
  obtain ⟨X, U, Y, a, b, d, h5, -⟩ := h2 u h3 h4
  refine ⟨X, U, Y, a, b, d, ?_⟩
  norm_num at h5 ⊢
  exact h5

/-! ### A curve with inner knots -/

/-- A hill of any height on the first part of the curve, the second part is straight. -/
def exBump (h : ℚ) : Curve ℚ ((ℚ × ℚ) × ℚ) where
  degree := 2
  knots := [0, 0, 0, 2, 4, 10, 10, 10]
  cps := [((0, 0), 1), ((1, h), 1), ((3, 0), 1), ((7, 0), 1), ((10, 0), 1)]

theorem exBump_good (h : ℚ) : (exBump h).Good (1/1000) where
  cps_pos := by simp [exBump]
  knots_len := by simp [exBump]
  good := by
    refine ⟨by norm_num, by simp [exBump], ?_, ?_, ?_, ?_, ?_⟩
    · exact mono_of_sorted (by norm_num [exBump]) (by simp [exBump])
    all_goals norm_num [exBump, kf]

theorem exBump_flat (h : ℚ) {t : ℚ} (h0 : 4 ≤ t) (h1 : t ≤ 10) : (exBump h).pointAt (1/1000) t = .ok (t, 0) := by
  have hin : InSpan (kf (exBump h).knots) (exBump h).hi t 4 := by
    unfold InSpan
    split_ifs with h'
    · norm_num [exBump, kf, Curve.hi] at h' ⊢; rw [h']; norm_num
    · norm_num [exBump, kf, Curve.hi] at h' ⊢
      exact ⟨h0, lt_of_le_of_ne h1 h'⟩
  have e : (exBump h).eval t = ((t, 0), 1) := by
    rw [Curve.eval_eq_span (exBump_good h) (s := 4) (by simp [exBump]) (by simp [exBump]) hin]
    simp [exBump, Finset.sum_range_succ, NS, kf]
    constructor <;> ring
  rw [(C09_point_at_positive_weights (exBump_good h) (by simp [exBump]) (by norm_num [exBump, kf, Curve.lo]; linarith)
    (by norm_num [exBump, kf, Curve.hi]; exact h1)).1, e]
  simp

theorem exBump_hill (h : ℚ) {t : ℚ} (h0 : 0 ≤ t) (h1 : t < 2) :
    (exBump h).pointAt (1/1000) t = .ok (t, h * (t * (2 - t) / 4 + t * (4 - t) / 8)) := by
  have hin : InSpan (kf (exBump h).knots) (exBump h).hi t 2 := by
    unfold InSpan
    rw [if_neg (by norm_num [exBump, kf, Curve.hi]; linarith)]
    norm_num [exBump, kf]
    exact ⟨h0, h1⟩
  have e : (exBump h).eval t = ((t, h * (t * (2 - t) / 4 + t * (4 - t) / 8)), 1) := by
    rw [Curve.eval_eq_span (exBump_good h) (s := 2) (by simp [exBump]) (by simp [exBump]) hin]
    simp [exBump, Finset.sum_range_succ, NS, kf]
    ring_nf
    simp
  rw [(C09_point_at_positive_weights (exBump_good h) (by simp [exBump]) (by norm_num [exBump, kf, Curve.lo]; exact h0)
    (by norm_num [exBump, kf, Curve.hi]; linarith)).1, e]
  simp

/-- **C92**: with inner knots the tolerance bounds nothing: whatever the tolerance and the random numbers, this curve is replaced
    by one segment of the axis, though it passes at a height of `5/8 h`. -/
theorem C92_bump_missed (h tol : ℚ) (ht : 0 < tol) (rnd : ℕ → ℚ) (hr : ∀ n, 0 ≤ rnd n ∧ rnd n < 1) :
    tessellateCurve planeMetric (1/1000) (1/10^8) rnd 1 (exBump h) tol = .ok ([(0, 0), (10, 0)], 1) ∧
      (exBump h).pointAt (1/1000) 1 = .ok (1, 5 / 8 * h) := by
  constructor
  · have e1 : (exBump h).knotsDomain = .ok (0, 10) := by
      rw [knotsDomain_eq (exBump_good h)]
      norm_num [exBump, kf, Curve.lo, Curve.hi]
    rw [tessellateCurve, if_neg (by simp [exBump]), e1, ok_bind]
    simp only []
    have ea := exBump_hill h (t := 0) (le_refl _) (by norm_num)
    have eb := exBump_flat h (t := 10) (by norm_num) (le_refl _)
    have em := exBump_flat h (t := 0 + (10 - 0) * (1 / 2 + 1 / 5 * rnd 0)) (by have := (hr 0).1; linarith) (by have := (hr 0).2; linarith)
    rw [adaptive, ea, ok_bind]
    simp only []
    rw [if_neg (by norm_num), eb, ok_bind, em, ok_bind, if_neg]
    · norm_num
    · rintro (⟨h1, h2⟩ | h1)
      · simp only [planeMetric, Prod.mk_sub_mk] at h1 h2
        have b1 := (hr 0).1
        have b2 := (hr 0).2
        nlinarith
      · simp [planeMetric, Misc.threePointsAreFlat2] at h1
        linarith
  · have := exBump_hill h (t := 1) (by norm_num) (by norm_num)
    rw [this]
    congr 2
    ring

end Curvo.Props

/-
  What editing control points and weights does to a curve or a surface: C113.
-/
import Verif.Props.Unique
import Verif.Props.RemoveClaims
import Verif.Lemmas.Whitney
import Mathlib.Tactic.FieldSimp
import Mathlib.Tactic.Module

set_option linter.unusedSectionVars false
set_option linter.unusedSimpArgs false

namespace Curvo.Props

open Curvo Curvo.Knots Curvo.Spec Curvo.Curve Curvo.Surface

variable {K : Type} [Field K] [LinearOrder K] [IsStrictOrderedRing K]
variable {W : Type} [AddCommGroup W] [Module K W]

/-! ### One control point replaced -/

/-- The curve with control point `j` replaced
(`NurbsCurve::control_points_iter_mut`, curve/nurbs_curve.rs:386-388, gives write access to the control points). -/
def withCp {V : Type} (c : Curve K V) (j : ℕ) (q : V) : Curve K V := { c with cps := c.cps.set j q }

theorem withCp_good {V : Type} {eps : K} {c : Curve K V} (h : c.Good eps) (j : ℕ) (q : V) : (withCp c j q).Good eps where
  cps_pos := by simpa [withCp] using h.cps_pos
  knots_len := by simpa [withCp] using h.knots_len
  good := by simpa [withCp] using h.good

theorem withCp_eval {V : Type} [AddCommGroup V] [Module K V] {c : Curve K V} {j : ℕ} (hj : j < c.cps.length) (q : V) (u : K) :
    (withCp c j q).eval u = c.eval u + N (kf c.knots) c.hi c.degree j u • (q - c.cps.getD j 0) := by
  have hn : c.cps.length - 1 + 1 = c.cps.length := by omega
  have hs : ∀ i, (c.cps.set j q).getD i 0 = c.cps.getD i 0 + if i = j then q - c.cps.getD j 0 else 0 := by
    intro i
    by_cases e : i = j
    · subst e
      simp [List.getD_eq_getElem?_getD, List.getElem?_set_self hj]
    · simp [List.getD_eq_getElem?_getD, List.getElem?_set_ne (Ne.symm e), e]
  unfold Curve.eval Spec.curve withCp Curve.hi
  simp only [List.length_set, hn, hs, smul_add, Finset.sum_add_distrib]
  congr 1
  rw [Finset.sum_eq_single j]
  · simp
  · intro i _ hi; simp [hi]
  · intro hh; exact absurd (Finset.mem_range.2 hj) hh

theorem withCp_weights {c : Curve K (W × K)} (hw : ∀ p ∈ c.cps, 0 < p.2) (j : ℕ) {q : W × K} (hq : 0 < q.2) :
    ∀ p ∈ (withCp c j q).cps, 0 < p.2 := by
  intro p hp
  rcases List.mem_or_eq_of_mem_set hp with h | h
  · exact hw p h
  · rw [h]; exact hq

/-- One term of the weight is at most the whole weight. -/
theorem term_le_weight {eps : K} {c : Curve K (W × K)} (h : c.Good eps) (hw : ∀ p ∈ c.cps, 0 < p.2) {u : K}
    (h1 : c.lo ≤ u) (h2 : u ≤ c.hi) {j : ℕ} (hj : j < c.cps.length) :
    N (kf c.knots) c.hi c.degree j u * (c.cps.getD j 0).2 ≤ (c.eval u).2 := by
  have hn : c.cps.length - 1 + 1 = c.cps.length := by omega
  unfold Curve.eval Spec.curve
  rw [Prod.snd_sum, hn]
  refine Finset.single_le_sum (f := fun i => (N (kf c.knots) (kf c.knots c.cps.length) c.degree i u • c.cps.getD i 0).2) ?_ (Finset.mem_range.2 hj)
  intro i hi
  have hi := Finset.mem_range.1 hi
  refine mul_nonneg (N_unit h.pre h1 h2 hi).1 (hw _ ?_).le
  rw [getD_eq_getElem hi]; exact List.getElem_mem _

/-- A basis function is positive strictly inside its support. -/
theorem basis_pos {V : Type} [AddCommGroup V] [Module K V] {c : Curve K V} (h : c.Pre) {u : K} (h1 : c.lo ≤ u) (h2 : u < c.hi) {j : ℕ} (hj : j < c.cps.length)
    (h3 : kf c.knots j < u) (h4 : u < kf c.knots (j + c.degree + 1)) : 0 < N (kf c.knots) c.hi c.degree j u := by
  obtain ⟨s, hps, hs, hin⟩ := h.exists_span h1 h2.le
  have hm := h.mono
  rw [N_eq_NS hm (by omega) hin c.degree j (by omega)]
  unfold InSpan at hin
  rw [if_neg h2.ne] at hin
  refine NS_pos hm hin.1 hin.2 c.degree j (by omega) ?_ ?_ (Or.inl h3)
  · by_contra hh
    exact absurd (lt_of_lt_of_le hin.2 (hm (s + 1) j (by omega) (by omega))) (not_lt.2 h3.le)
  · by_contra hh
    exact absurd (lt_of_lt_of_le h4 (hm (j + c.degree + 1) s (by omega) (by omega))) (not_lt.2 hin.1)

/-- The homogeneous control point at the affine point `a` with weight `w`. -/
def homog (a : W) (w : K) : W × K := (w • a, w)

/-- **C113**: moving a control point by `v` moves every point of the curve by a fraction of `v`, between none and all of it;
the fraction depends on the parameter and not on `v`, and is positive strictly inside the support. -/
theorem C113_move {eps : K} {c : Curve K (W × K)} (h : c.Good eps) (hw : ∀ p ∈ c.cps, 0 < p.2) {u : K} (h1 : c.lo ≤ u)
    (h2 : u ≤ c.hi) {j : ℕ} {a : W} {w : K} (hj : c.cps[j]? = some (homog a w)) :
    ∃ p, ∃ r : K, c.pointAt eps u = .ok p ∧ 0 ≤ r ∧ r ≤ 1 ∧
      (∀ v, (withCp c j (homog (a + v) w)).pointAt eps u = .ok (p + r • v)) ∧
      (u < c.hi → kf c.knots j < u → u < kf c.knots (j + c.degree + 1) → 0 < r) := by
  obtain ⟨hjl, hje⟩ := List.getElem?_eq_some_iff.1 hj
  have hg : c.cps.getD j 0 = homog a w := by rw [getD_eq_getElem hjl, hje]
  have hwp : 0 < w := by have := hw (c.cps[j]) (List.getElem_mem _); rw [hje] at this; exact this
  obtain ⟨e, hp⟩ := C09_point_at_positive_weights h hw h1 h2
  have hN := (N_unit h.pre h1 h2 hjl).1
  have ht := term_le_weight h hw h1 h2 hjl
  rw [hg] at ht
  refine ⟨_, N (kf c.knots) c.hi c.degree j u * w / (c.eval u).2, e, by positivity, (div_le_one hp).2 ht, ?_, ?_⟩
  · intro v
    have e2 := (C09_point_at_positive_weights (u := u) (withCp_good h j (homog (a + v) w)) (withCp_weights hw j hwp) h1
      (by simpa [withCp, Curve.hi] using h2)).1
    rw [e2, withCp_eval hjl, hg]
    congr 1
    simp only [homog, Prod.fst_add, Prod.snd_add, Prod.smul_fst, Prod.smul_snd, Prod.fst_sub, Prod.snd_sub, sub_self, smul_zero, add_zero]
    rw [← smul_sub, add_sub_cancel_left, smul_add, smul_smul, smul_smul]
    congr 2
    rw [div_eq_inv_mul, mul_assoc]
  · intro h5 h6 h7
    exact div_pos (mul_pos (basis_pos h.pre h1 h5 hjl h6 h7) hwp) hp

/-- **C113**: raising a weight pulls every point of the curve straight towards the control point, further for a larger weight,
never past it, and as close as wanted strictly inside the support. -/
theorem C113_weight {eps : K} {c : Curve K (W × K)} (h : c.Good eps) (hw : ∀ p ∈ c.cps, 0 < p.2) {u : K} (h1 : c.lo ≤ u)
    (h2 : u ≤ c.hi) {j : ℕ} {a : W} {w : K} (hj : c.cps[j]? = some (homog a w)) :
    ∃ p, ∃ α : K → K, c.pointAt eps u = .ok p ∧ α w = 0 ∧
      (∀ w', 0 < w' → α w' < 1 ∧ (withCp c j (homog a w')).pointAt eps u = .ok (p + α w' • (a - p))) ∧
      (∀ w' w'', 0 < w' → w' ≤ w'' → α w' ≤ α w'') ∧
      (u < c.hi → kf c.knots j < u → u < kf c.knots (j + c.degree + 1) →
        (∀ w' w'', 0 < w' → w' < w'' → α w' < α w'') ∧ ∀ δ, 0 < δ → ∃ w₀, 0 < w₀ ∧ ∀ w', w₀ ≤ w' → 1 - δ < α w') := by
  obtain ⟨hjl, hje⟩ := List.getElem?_eq_some_iff.1 hj
  have hg : c.cps.getD j 0 = homog a w := by rw [getD_eq_getElem hjl, hje]
  have hwp : 0 < w := by have := hw (c.cps[j]) (List.getElem_mem _); rw [hje] at this; exact this
  obtain ⟨e, hp⟩ := C09_point_at_positive_weights h hw h1 h2
  have hN := (N_unit h.pre h1 h2 hjl).1
  have hE := fun w' => withCp_eval hjl (homog a w') u
  have hpos : ∀ w', 0 < w' → 0 < (c.eval u).2 + N (kf c.knots) c.hi c.degree j u * (w' - w) := by
    intro w' hw'
    have := (C09_point_at_positive_weights (u := u) (withCp_good h j (homog a w')) (withCp_weights hw j hw') h1
      (by simpa [withCp, Curve.hi] using h2)).2
    rw [hE, hg] at this
    simpa [homog] using this
  set A := (c.eval u).2 with hA
  set t := N (kf c.knots) c.hi c.degree j u with htd
  have key : ∀ w' w'', 0 < w' → 0 < w'' → t * (w'' - w) / (A + t * (w'' - w)) - t * (w' - w) / (A + t * (w' - w)) =
      A * t * (w'' - w') / ((A + t * (w'' - w)) * (A + t * (w' - w))) := by
    intro w' w'' hw' hw''
    rw [div_sub_div _ _ (hpos w'' hw'').ne' (hpos w' hw').ne']
    congr 1
    ring
  refine ⟨_, fun w' => t * (w' - w) / (A + t * (w' - w)), e, by simp, ?_, ?_, ?_⟩
  · intro w' hw'
    refine ⟨(div_lt_one (hpos w' hw')).2 (by linarith), ?_⟩
    have e2 := (C09_point_at_positive_weights (u := u) (withCp_good h j (homog a w')) (withCp_weights hw j hw') h1
      (by simpa [withCp, Curve.hi] using h2)).1
    rw [e2, hE, hg]
    congr 1
    simp only [homog, Prod.fst_add, Prod.snd_add, Prod.smul_fst, Prod.smul_snd, Prod.fst_sub, Prod.snd_sub, ← hA, ← htd, smul_eq_mul]
    have h3 := (hpos w' hw').ne'
    have h4 := hp.ne'
    rw [← sub_smul, smul_smul, smul_add, smul_sub, smul_smul, smul_smul]
    have q1 : (A + t * (w' - w))⁻¹ = A⁻¹ - t * (w' - w) / (A + t * (w' - w)) * A⁻¹ := by
      field_simp
      ring
    have q2 : (A + t * (w' - w))⁻¹ * (t * (w' - w)) = t * (w' - w) / (A + t * (w' - w)) := by
      rw [div_eq_inv_mul]
    rw [q2]
    nth_rewrite 1 [q1]
    rw [sub_smul]
    abel
  · intro w' w'' hw' hle
    have := key w' w'' hw' (lt_of_lt_of_le hw' hle)
    have h0 : 0 ≤ A * t * (w'' - w') / ((A + t * (w'' - w)) * (A + t * (w' - w))) :=
      div_nonneg (mul_nonneg (mul_nonneg hp.le hN) (sub_nonneg.2 hle)) (mul_pos (hpos _ (lt_of_lt_of_le hw' hle)) (hpos _ hw')).le
    simp only []
    linarith
  · intro h5 h6 h7
    have ht : 0 < t := basis_pos h.pre h1 h5 hjl h6 h7
    constructor
    · intro w' w'' hw' hlt
      have := key w' w'' hw' (lt_trans hw' hlt)
      have h0 : 0 < A * t * (w'' - w') / ((A + t * (w'' - w)) * (A + t * (w' - w))) :=
        div_pos (mul_pos (mul_pos hp ht) (sub_pos.2 hlt)) (mul_pos (hpos _ (lt_trans hw' hlt)) (hpos _ hw'))
      simp only []
      linarith
    · intro δ hδ
      refine ⟨w + A / (t * δ), by positivity, ?_⟩
      intro w' hw'
      have hw0 : 0 < w' := lt_of_lt_of_le (by positivity) hw'
      have h8 := hpos w' hw0
      have h9 : A ≤ δ * (t * (w' - w)) := by
        have : A / (t * δ) ≤ w' - w := by linarith
        rw [div_le_iff₀ (by positivity)] at this
        linarith
      simp only []
      rw [lt_div_iff₀ h8]
      have : 0 < δ * A := mul_pos hδ hp
      nlinarith

/-! ### All control points at once -/

/-- A measure of displacements: subadditive and positively homogeneous, like a norm or the length of a coordinate. -/
structure Sublinear (ν : W → K) : Prop where
  add : ∀ x y, ν (x + y) ≤ ν x + ν y
  smul : ∀ (t : K) x, 0 ≤ t → ν (t • x) = t * ν x

theorem Sublinear.sum {ν : W → K} (hν : Sublinear ν) {ι : Type} (I : Finset ι) (a : ι → K) (x : ι → W) (ha : ∀ i ∈ I, 0 ≤ a i) {δ : K}
    (hx : ∀ i ∈ I, a i ≠ 0 → ν (x i) ≤ δ) : ν (I.sum fun i => a i • x i) ≤ (I.sum a) * δ := by
  classical
  induction I using Finset.induction_on with
  | empty =>
    have := hν.smul 0 0 le_rfl
    simp only [zero_smul, zero_mul] at this
    simp [this]
  | insert i I hi ih =>
    rw [Finset.sum_insert hi, Finset.sum_insert hi, add_mul]
    refine le_trans (hν.add _ _) (add_le_add ?_ (ih (fun k hk => ha k (Finset.mem_insert_of_mem hk)) fun k hk => hx k (Finset.mem_insert_of_mem hk)))
    have h0 := ha i (Finset.mem_insert_self _ _)
    rw [hν.smul _ _ h0]
    by_cases e : a i = 0
    · simp [e]
    · exact mul_le_mul_of_nonneg_left (hx i (Finset.mem_insert_self _ _) e) h0

/-- Two weighted means with the same weights. -/
theorem Sublinear.mean {ν : W → K} (hν : Sublinear ν) {ι : Type} (I : Finset ι) (a : ι → K) (P Q : ι → W × K) (ha : ∀ i ∈ I, 0 ≤ a i)
    (hP : ∀ i ∈ I, 0 < (P i).2) (hPQ : ∀ i ∈ I, (Q i).2 = (P i).2) {δ : K}
    (hx : ∀ i ∈ I, a i ≠ 0 → ν (proj (Q i) - proj (P i)) ≤ δ) (hpos : 0 < (I.sum fun i => a i • P i).2) :
    ν (proj (I.sum fun i => a i • Q i) - proj (I.sum fun i => a i • P i)) ≤ δ := by
  have e2 : (I.sum fun i => a i • Q i).2 = (I.sum fun i => a i • P i).2 := by
    rw [Prod.snd_sum, Prod.snd_sum]
    exact Finset.sum_congr rfl fun i hi => by simp [hPQ i hi]
  have e1 : (I.sum fun i => a i • Q i).1 - (I.sum fun i => a i • P i).1 = I.sum fun i => (a i * (P i).2) • (proj (Q i) - proj (P i)) := by
    rw [Prod.fst_sum, Prod.fst_sum, ← Finset.sum_sub_distrib]
    refine Finset.sum_congr rfl fun i hi => ?_
    have := (hP i hi).ne'
    simp only [proj, hPQ i hi, Prod.smul_fst, ← smul_sub, smul_smul]
    rw [mul_assoc, mul_inv_cancel₀ this, mul_one]
  have e3 : (I.sum fun i => a i * (P i).2) = (I.sum fun i => a i • P i).2 := by
    rw [Prod.snd_sum]; rfl
  have key := hν.sum I (fun i => a i * (P i).2) (fun i => proj (Q i) - proj (P i))
    (fun i hi => mul_nonneg (ha i hi) (hP i hi).le) (fun i hi hne => hx i hi (left_ne_zero_of_mul hne))
  rw [← e1, e3] at key
  unfold proj at *
  rw [e2, ← smul_sub, hν.smul _ _ (inv_nonneg.2 hpos.le), inv_mul_le_iff₀ hpos]
  exact key

/-- **C113**: control points that differ by at most `δ` (same degree, knots and weights) give curves that differ by at most `δ`, at every
parameter; only the control points whose support contains the parameter count. -/
theorem C113_close {ν : W → K} (hν : Sublinear ν) {eps : K} {c d : Curve K (W × K)} (h : c.Good eps) (hd : d.Good eps)
    (hw : ∀ p ∈ c.cps, 0 < p.2) (e1 : d.degree = c.degree) (e2 : d.knots = c.knots) (e3 : d.cps.map Prod.snd = c.cps.map Prod.snd)
    {u δ : K} (h1 : c.lo ≤ u) (h2 : u ≤ c.hi)
    (hδ : ∀ i, i < c.cps.length → kf c.knots i ≤ u → u ≤ kf c.knots (i + c.degree + 1) → ν (proj (d.cps.getD i 0) - proj (c.cps.getD i 0)) ≤ δ) :
    ∃ p q, c.pointAt eps u = .ok p ∧ d.pointAt eps u = .ok q ∧ ν (q - p) ≤ δ := by
  have hl : d.cps.length = c.cps.length := by simpa using congrArg List.length e3
  have hn : c.cps.length - 1 + 1 = c.cps.length := by have := h.cps_pos; omega
  have hwd : ∀ p ∈ d.cps, 0 < p.2 := by
    intro p hp
    have : p.2 ∈ d.cps.map Prod.snd := List.mem_map.2 ⟨p, hp, rfl⟩
    rw [e3] at this
    obtain ⟨q, hq, e⟩ := List.mem_map.1 this
    rw [← e]; exact hw q hq
  have hsec : ∀ i, (d.cps.getD i 0).2 = (c.cps.getD i 0).2 := by
    intro i
    have := congrArg (fun l => l.getD i (0 : K)) e3
    simp only [List.getD_eq_getElem?_getD, List.getElem?_map] at this ⊢
    cases ha : d.cps[i]? <;> cases hb : c.cps[i]? <;> simp_all
  have hlo : d.lo = c.lo := by unfold Curve.lo; rw [e1, e2]
  have hhi : d.hi = c.hi := by unfold Curve.hi; rw [hl, e2]
  obtain ⟨ec, hp⟩ := C09_point_at_positive_weights h hw h1 h2
  have ed := (C09_point_at_positive_weights (u := u) hd hwd (by rw [hlo]; exact h1) (by rw [hhi]; exact h2)).1
  refine ⟨_, _, ec, ed, ?_⟩
  have fc : c.eval u = (Finset.range c.cps.length).sum fun i => N (kf c.knots) c.hi c.degree i u • c.cps.getD i 0 := by
    unfold Curve.eval Spec.curve Curve.hi; rw [hn]
  have fd : d.eval u = (Finset.range c.cps.length).sum fun i => N (kf c.knots) c.hi c.degree i u • d.cps.getD i 0 := by
    unfold Curve.eval Spec.curve Curve.hi; rw [hl, hn, e1, e2]
  have := hν.mean (Finset.range c.cps.length) (fun i => N (kf c.knots) c.hi c.degree i u) (fun i => c.cps.getD i 0) (fun i => d.cps.getD i 0)
    (fun i hi => (N_unit h.pre h1 h2 (Finset.mem_range.1 hi)).1)
    (fun i hi => hw _ (by rw [getD_eq_getElem (Finset.mem_range.1 hi)]; exact List.getElem_mem _))
    (fun i _ => hsec i) (δ := δ) ?_ (by rw [← fc]; exact hp)
  · rw [← fc, ← fd] at this; exact this
  · intro i hi hne
    have hi := Finset.mem_range.1 hi
    obtain ⟨s, hps, hs, hin⟩ := h.pre.exists_span h1 h2
    have hm := h.pre.mono
    have hb := Curve.inSpan_le hin
    rw [N_eq_NS hm (by omega) hin c.degree i (by omega)] at hne
    have hsup : i ≤ s ∧ s ≤ i + c.degree := by
      constructor
      · by_contra hh
        exact hne (NS_eq_zero_right _ _ _ _ _ (by omega))
      · by_contra hh
        exact hne (NS_eq_zero_left _ _ _ _ _ (by omega))
    exact hδ i hi (le_trans (hm i s hsup.1 (by omega)) hb.1) (le_trans hb.2 (hm _ _ (by omega) (by omega)))

/-- **C113**: the same for surfaces. -/
theorem C113_surface_close {ν : W → K} (hν : Sublinear ν) {eps : K} {S T : Surface K (W × K)} (h : S.Good eps) (hT : T.Good eps)
    (hw : ∀ row ∈ S.cps, ∀ p ∈ row, 0 < p.2) (e1 : T.uDegree = S.uDegree) (e2 : T.vDegree = S.vDegree) (e3 : T.uKnots = S.uKnots)
    (e4 : T.vKnots = S.vKnots) (e5 : T.cps.length = S.cps.length) (e6 : T.cols = S.cols) {δ : K}
    (hδ : ∀ i j, i < S.cps.length → j < S.cols → (T.cp i j).2 = (S.cp i j).2 ∧ ν (proj (T.cp i j) - proj (S.cp i j)) ≤ δ)
    {u v : K} (h1 : S.ulo ≤ u) (h2 : u ≤ S.uhi) (h3 : S.vlo ≤ v) (h4 : v ≤ S.vhi) :
    ∃ p q, S.pointAt eps u v = .ok p ∧ T.pointAt eps u v = .ok q ∧ ν (q - p) ≤ δ := by
  have hcp : ∀ (S : Surface K (W × K)), S.Good eps → ∀ i j, i < S.cps.length → j < S.cols → ∃ row ∈ S.cps, S.cp i j ∈ row := by
    intro S h i j hi hj
    refine ⟨S.cps.getD i [], by rw [getD_eq_getElem hi]; exact List.getElem_mem _, ?_⟩
    have := h.row_len hi
    unfold Surface.cp
    rw [getD_eq_getElem (l := S.cps.getD i []) (by omega)]
    exact List.getElem_mem _
  have hwS : ∀ i j, i < S.cps.length → j < S.cols → 0 < (S.cp i j).2 := by
    intro i j hi hj
    obtain ⟨row, hr, hm⟩ := hcp S h i j hi hj
    exact hw row hr _ hm
  have hwT : ∀ row ∈ T.cps, ∀ p ∈ row, 0 < p.2 := by
    intro row hr p hp
    obtain ⟨i, hi, rfl⟩ := List.mem_iff_getElem.1 hr
    obtain ⟨j, hj, rfl⟩ := List.mem_iff_getElem.1 hp
    have hlen := hT.rect _ hr
    have : T.cp i j = T.cps[i][j] := by
      unfold Surface.cp
      rw [getD_eq_getElem (l := T.cps) hi, getD_eq_getElem hj]
    rw [← this, (hδ i j (by omega) (by omega)).1]
    exact hwS i j (by omega) (by omega)
  have hu : T.ulo = S.ulo := by unfold Surface.ulo; rw [e1, e3]
  have hu' : T.uhi = S.uhi := by unfold Surface.uhi; rw [e5, e3]
  have hv : T.vlo = S.vlo := by unfold Surface.vlo; rw [e2, e4]
  have hv' : T.vhi = S.vhi := by unfold Surface.vhi; rw [e6, e4]
  obtain ⟨ec, hp⟩ := C28_point_at h hw h1 h2 h3 h4
  have ed := (C28_point_at (u := u) (v := v) hT hwT (by rw [hu]; exact h1) (by rw [hu']; exact h2) (by rw [hv]; exact h3) (by rw [hv']; exact h4)).1
  refine ⟨_, _, ec, ed, ?_⟩
  have fS : S.eval u v = ((Finset.range S.cps.length) ×ˢ (Finset.range S.cols)).sum fun x =>
      (N (kf S.uKnots) S.uhi S.uDegree x.1 u * N (kf S.vKnots) S.vhi S.vDegree x.2 v) • S.cp x.1 x.2 := by
    unfold Surface.eval; rw [Finset.sum_product]
  have fT : T.eval u v = ((Finset.range S.cps.length) ×ˢ (Finset.range S.cols)).sum fun x =>
      (N (kf S.uKnots) S.uhi S.uDegree x.1 u * N (kf S.vKnots) S.vhi S.vDegree x.2 v) • T.cp x.1 x.2 := by
    unfold Surface.eval; rw [Finset.sum_product, hu', hv', e1, e2, e3, e4, e5, e6]
  have := hν.mean ((Finset.range S.cps.length) ×ˢ (Finset.range S.cols))
    (fun x => N (kf S.uKnots) S.uhi S.uDegree x.1 u * N (kf S.vKnots) S.vhi S.vDegree x.2 v) (fun x => S.cp x.1 x.2) (fun x => T.cp x.1 x.2)
    (fun x hx => ?_) (fun x hx => ?_) (fun x hx => ?_) (δ := δ) (fun x hx _ => ?_) (by rw [← fS]; exact hp)
  · rw [← fS, ← fT] at this; exact this
  all_goals
    obtain ⟨hi, hj⟩ := Finset.mem_product.1 hx
    have hi := Finset.mem_range.1 hi
    have hj := Finset.mem_range.1 hj
  · refine mul_nonneg ?_ ?_
    · have := (N_unit (h.col 0).pre (x := u) h1 (by rw [col_hi]; exact h2) (i := x.1) (by simpa [Surface.col] using hi)).1
      rw [col_hi] at this
      exact this
    · have hI := h.isoU u
      have := (N_unit hI.pre (x := v) h3 (by rw [isoU_hi]; exact h4) (i := x.2) (by simpa [Surface.isoU] using hj)).1
      rw [isoU_hi] at this
      exact this
  · exact hwS _ _ hi hj
  · exact (hδ _ _ hi hj).1
  · exact (hδ _ _ hi hj).2

/-! ### Witnesses -/

/-- The second control point of `exCurve` sits at `(1, 2)` with weight `2`. -/
theorem exCurve_second : exCurve.cps[1]? = some (homog ((1, 2) : ℚ × ℚ) (2 : ℚ)) := by decide +kernel

example : ∃ p, ∃ r : ℚ, exCurve.pointAt (1/1000) (1/2) = .ok p ∧ 0 < r ∧
    (withCp exCurve 1 (homog ((1, 2) + (5, -3)) 2)).pointAt (1/1000) (1/2) = .ok (p + r • (5, -3)) := by
  obtain ⟨p, r, e, _, _, hm, hr⟩ := C113_move exCurve_good exCurve_weights (u := 1/2) (by rw [exCurve_lo]; norm_num)
    (by rw [exCurve_hi]; norm_num) exCurve_second
  exact ⟨p, r, e, hr (by rw [exCurve_hi]; norm_num) (by decide +kernel) (by decide +kernel), hm _⟩

example : ∃ p, ∃ α : ℚ, exCurve.pointAt (1/1000) (1/2) = .ok p ∧ 0 < α ∧ α < 1 ∧
    (withCp exCurve 1 (homog (1, 2) 9)).pointAt (1/1000) (1/2) = .ok (p + α • ((1, 2) - p)) := by
  obtain ⟨p, α, e, h0, hm, _, hs⟩ := C113_weight exCurve_good exCurve_weights (u := 1/2) (by rw [exCurve_lo]; norm_num)
    (by rw [exCurve_hi]; norm_num) exCurve_second
  have := (hs (by rw [exCurve_hi]; norm_num) (by decide +kernel) (by decide +kernel)).1 2 9 (by norm_num) (by norm_num)
  rw [h0] at this
  exact ⟨p, α 9, e, this, (hm 9 (by norm_num)).1, (hm 9 (by norm_num)).2⟩

theorem taxi_sublinear : Sublinear (fun x : ℚ × ℚ => |x.1| + |x.2|) where
  add x y := by
    have := abs_add_le x.1 y.1
    have := abs_add_le x.2 y.2
    simp only [Prod.fst_add, Prod.snd_add]
    linarith
  smul t x ht := by
    simp only [Prod.smul_fst, Prod.smul_snd, smul_eq_mul, abs_mul, abs_of_nonneg ht]
    ring

example : ∃ p q : ℚ × ℚ, exCurve.pointAt (1/1000) (1/2) = .ok p ∧ (withCp exCurve 1 (homog (1, 9/4) 2)).pointAt (1/1000) (1/2) = .ok q ∧
    |(q - p).1| + |(q - p).2| ≤ 1/4 := by
  refine C113_close taxi_sublinear exCurve_good (withCp_good exCurve_good _ _) exCurve_weights rfl rfl (by decide +kernel)
    (by rw [exCurve_lo]; norm_num) (by rw [exCurve_hi]; norm_num) ?_
  intro i hi _ _
  exact (by decide +kernel : ∀ i < exCurve.cps.length, |(proj ((withCp exCurve 1 (homog (1, 9/4) 2)).cps.getD i 0) - proj (exCurve.cps.getD i 0)).1| +
    |(proj ((withCp exCurve 1 (homog (1, 9/4) 2)).cps.getD i 0) - proj (exCurve.cps.getD i 0)).2| ≤ 1/4) i hi

/-- `exSurf` raised by `1/3`. -/
def exSurfUp : Surface ℚ ((ℚ × ℚ) × ℚ) := { exSurf with cps := exSurf.cps.map (·.map fun p => (p.1 + p.2 • (0, 1/3), p.2)) }

theorem exSurfUp_good : exSurfUp.Good (1/1000) where
  rows_pos := by decide
  u_len := by decide
  u_good := exSurf_good.u_good
  cols_pos := by decide
  v_good := exSurf_good.v_good
  rect := by decide +kernel

example {u v : ℚ} (h1 : exSurf.ulo ≤ u) (h2 : u ≤ exSurf.uhi) (h3 : exSurf.vlo ≤ v) (h4 : v ≤ exSurf.vhi) :
    ∃ p q : ℚ × ℚ, exSurf.pointAt (1/1000) u v = .ok p ∧ exSurfUp.pointAt (1/1000) u v = .ok q ∧ |(q - p).1| + |(q - p).2| ≤ 1/3 := by
  refine C113_surface_close taxi_sublinear exSurf_good exSurfUp_good (by decide +kernel) rfl rfl rfl rfl rfl rfl ?_ h1 h2 h3 h4
  intro i j hi hj
  exact (by decide +kernel : ∀ i < exSurf.cps.length, ∀ j < exSurf.cols, (exSurfUp.cp i j).2 = (exSurf.cp i j).2 ∧
    |(proj (exSurfUp.cp i j) - proj (exSurf.cp i j)).1| + |(proj (exSurfUp.cp i j) - proj (exSurf.cp i j)).2| ≤ 1/3) i hi j hj

end Curvo.Props

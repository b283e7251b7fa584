/-
  C91: curves turn like their control polygons.
-/
import Mathlib.LinearAlgebra.Matrix.Determinant.Basic
import Mathlib.Tactic.FinCases
import Verif.Lemmas.TotalPos
import Verif.Props.TessParams
import Verif.Props.Variation

set_option linter.unusedSectionVars false

namespace Curvo.Props

open Curvo.Spec Curvo.Curve Curvo.Tess

variable {K : Type} [Field K] [LinearOrder K] [IsStrictOrderedRing K]
variable {W : Type} [AddCommGroup W] [Module K W]

/-- Twice the signed area of a triangle: positive if `a`, `b`, `c` turn to the left. -/
def turn2 (a b c : Fin 2 → K) : K := (b 0 - a 0) * (c 1 - a 1) - (b 1 - a 1) * (c 0 - a 0)

/-- Six times the signed volume of a tetrahedron. -/
def volume6 (a b c d : Fin 3 → K) : K :=
  (b 0 - a 0) * ((c 1 - a 1) * (d 2 - a 2) - (c 2 - a 2) * (d 1 - a 1))
    - (b 1 - a 1) * ((c 0 - a 0) * (d 2 - a 2) - (c 2 - a 2) * (d 0 - a 0))
    + (b 2 - a 2) * ((c 0 - a 0) * (d 1 - a 1) - (c 1 - a 1) * (d 0 - a 0))

/-- **C91**: any orientation that all `k + 1` control points have, in the order of the control polygon, is that of the points
    at `k + 1` increasing parameters. -/
theorem C91_oriented {eps : K} {c : Curve K (W × K)} (h : c.Good eps) (hp : 1 ≤ c.degree) (hw : ∀ p ∈ c.cps, 0 < p.2)
    {k : ℕ} (φ : (W × K) [⋀^Fin (k + 1)]→ₗ[K] K)
    (hφ : ∀ ι : Fin (k + 1) → ℕ, StrictMono ι → (∀ j, ι j < c.cps.length) →
      0 ≤ φ fun j => (proj (c.cps.getD (ι j) 0), 1))
    {x : ℕ → K} {q : ℕ → W} (hx : ∀ j, j ≤ k → c.lo ≤ x j ∧ x j ≤ c.hi) (hm : ∀ j, j < k → x j < x (j + 1))
    (hq : ∀ j, j ≤ k → c.pointAt eps (x j) = .ok (q j)) : 0 ≤ φ fun j => (q j, 1) := by
  have hpos := h.cps_pos
  have lift : ∀ p : W × K, 0 < p.2 → p = p.2 • (proj p, (1 : K)) := by
    intro p hp
    ext
    · simp [proj, smul_smul, mul_inv_cancel₀ hp.ne']
    · simp
  have hP : Oriented φ (c.cps.length - 1) fun i => c.cps.getD i 0 := by
    intro ι hι hn
    have hmem : ∀ j, 0 < (c.cps.getD (ι j) 0).2 := fun j => by
      have hj : ι j < c.cps.length := by have := hn j; omega
      apply hw
      rw [List.getD_eq_getElem?_getD, List.getElem?_eq_getElem hj]
      exact List.getElem_mem _
    have e : (fun j => c.cps.getD (ι j) 0) = fun j => (c.cps.getD (ι j) 0).2 • (proj (c.cps.getD (ι j) 0), (1 : K)) := by
      funext j; exact lift _ (hmem j)
    have e2 : (φ fun j => c.cps.getD (ι j) 0) = (∏ j, (c.cps.getD (ι j) 0).2) • φ fun j => (proj (c.cps.getD (ι j) 0), (1 : K)) := by
      rw [e]; exact φ.toMultilinearMap.map_smul_univ _ _
    rw [e2, smul_eq_mul]
    exact mul_nonneg (Finset.prod_nonneg fun j _ => (hmem j).le) (hφ ι hι fun j => by have := hn j; omega)
  have hmain := Oriented.of_points (good_knots h) hp hP hx hm
  have hev : ∀ u, c.eval u = splV (kf c.knots) c.hi c.degree (c.cps.length - 1) (fun i => c.cps.getD i 0) u := by
    intro u
    rw [Curve.eval, Spec.curve, hi_eq h]; rfl
  have hpt : ∀ j, j ≤ k → c.eval (x j) = (c.eval (x j)).2 • (q j, (1 : K)) ∧ 0 < (c.eval (x j)).2 := by
    intro j hj
    obtain ⟨e, hpos⟩ := C09_point_at_positive_weights h hw (hx j hj).1 (hx j hj).2
    rw [hq j hj] at e
    refine ⟨?_, hpos⟩
    conv_lhs => rw [lift _ hpos]
    rw [Except.ok.inj e]; rfl
  have e : (fun j : Fin (k + 1) => splV (kf c.knots) c.hi c.degree (c.cps.length - 1) (fun i => c.cps.getD i 0) (x j)) =
      fun j : Fin (k + 1) => (c.eval (x j)).2 • (q j, (1 : K)) := by
    funext j
    rw [← hev]
    exact (hpt j (by have := j.2; omega)).1
  have e2 : (φ fun j : Fin (k + 1) => splV (kf c.knots) c.hi c.degree (c.cps.length - 1) (fun i => c.cps.getD i 0) (x j)) =
      (∏ j : Fin (k + 1), (c.eval (x j)).2) • φ fun j : Fin (k + 1) => (q j, (1 : K)) := by
    rw [e]; exact φ.toMultilinearMap.map_smul_univ _ _
  rw [e2, smul_eq_mul] at hmain
  exact nonneg_of_mul_nonneg_right hmain (Finset.prod_pos fun j _ => (hpt j (by have := j.2; omega)).2)

/-- Homogeneous coordinates in the plane, the weight first. -/
def lift2 : ((Fin 2 → K) × K) →ₗ[K] Fin 3 → K where
  toFun p := ![p.2, p.1 0, p.1 1]
  map_add' p q := by funext i; fin_cases i <;> rfl
  map_smul' a p := by funext i; fin_cases i <;> rfl

def lift3 : ((Fin 3 → K) × K) →ₗ[K] Fin 4 → K where
  toFun p := ![p.2, p.1 0, p.1 1, p.1 2]
  map_add' p q := by funext i; fin_cases i <;> rfl
  map_smul' a p := by funext i; fin_cases i <;> rfl

theorem det_lift2 (q : Fin 3 → Fin 2 → K) :
    (Matrix.detRowAlternating.compLinearMap lift2 : ((Fin 2 → K) × K) [⋀^Fin 3]→ₗ[K] K) (fun j => (q j, 1)) =
      turn2 (q 0) (q 1) (q 2) := by
  show Matrix.det (Matrix.of fun j => lift2 (q j, (1 : K))) = _
  rw [Matrix.det_fin_three]
  simp [lift2, turn2]
  ring

theorem det_lift3 (q : Fin 4 → Fin 3 → K) :
    (Matrix.detRowAlternating.compLinearMap lift3 : ((Fin 3 → K) × K) [⋀^Fin 4]→ₗ[K] K) (fun j => (q j, 1)) =
      volume6 (q 0) (q 1) (q 2) (q 3) := by
  show Matrix.det (Matrix.of fun j => lift3 (q j, (1 : K))) = _
  rw [Matrix.det_succ_row_zero]
  simp [Fin.sum_univ_succ, Matrix.det_fin_three, Matrix.submatrix, lift3, volume6, Fin.succAbove]
  ring

/-- **C91**: a planar curve whose control polygon never turns to the right never turns to the right. -/
theorem C91_convex {eps : K} {c : Curve K ((Fin 2 → K) × K)} (h : c.Good eps) (hp : 1 ≤ c.degree) (hw : ∀ p ∈ c.cps, 0 < p.2)
    (hc : ∀ i j k, i < j → j < k → k < c.cps.length →
      0 ≤ turn2 (proj (c.cps.getD i 0)) (proj (c.cps.getD j 0)) (proj (c.cps.getD k 0)))
    {u v w : K} (h1 : c.lo ≤ u) (huv : u < v) (hvw : v < w) (h2 : w ≤ c.hi) {A B C : Fin 2 → K}
    (hA : c.pointAt eps u = .ok A) (hB : c.pointAt eps v = .ok B) (hC : c.pointAt eps w = .ok C) : 0 ≤ turn2 A B C := by
  have := C91_oriented h hp hw (k := 2) (Matrix.detRowAlternating.compLinearMap lift2)
    (fun ι hι hn => by
      rw [det_lift2 fun j => proj (c.cps.getD (ι j) 0)]
      exact hc _ _ _ (hι (by decide)) (hι (by decide)) (hn 2))
    (x := fun j => if j = 0 then u else if j = 1 then v else w) (q := fun j => if j = 0 then A else if j = 1 then B else C)
    (fun j hj => by
      interval_cases j
      · exact ⟨h1, (huv.trans hvw).le.trans h2⟩
      · exact ⟨h1.trans huv.le, hvw.le.trans h2⟩
      · exact ⟨h1.trans (huv.trans hvw).le, h2⟩)
    (fun j hj => by
      interval_cases j
      · exact huv
      · exact hvw)
    (fun j hj => by
      interval_cases j
      · exact hA
      · exact hB
      · exact hC)
  rw [det_lift2 fun j : Fin 3 => if (j : ℕ) = 0 then A else if (j : ℕ) = 1 then B else C] at this
  exact this

/-- **C91**: the same in space for the sense in which the control polygon winds. -/
theorem C91_winding {eps : K} {c : Curve K ((Fin 3 → K) × K)} (h : c.Good eps) (hp : 1 ≤ c.degree) (hw : ∀ p ∈ c.cps, 0 < p.2)
    (hc : ∀ i j k l, i < j → j < k → k < l → l < c.cps.length → 0 ≤ volume6 (proj (c.cps.getD i 0)) (proj (c.cps.getD j 0))
      (proj (c.cps.getD k 0)) (proj (c.cps.getD l 0)))
    {x : ℕ → K} {q : ℕ → Fin 3 → K} (hx : ∀ j, j ≤ 3 → c.lo ≤ x j ∧ x j ≤ c.hi) (hm : ∀ j, j < 3 → x j < x (j + 1))
    (hq : ∀ j, j ≤ 3 → c.pointAt eps (x j) = .ok (q j)) : 0 ≤ volume6 (q 0) (q 1) (q 2) (q 3) := by
  have := C91_oriented h hp hw (k := 3) (Matrix.detRowAlternating.compLinearMap lift3)
    (fun ι hι hn => by
      rw [det_lift3 fun j => proj (c.cps.getD (ι j) 0)]
      exact hc _ _ _ _ (hι (by decide)) (hι (by decide)) (hι (by decide)) (hn 3)) hx hm hq
  rw [det_lift3 fun j : Fin 4 => q j] at this
  exact this

/-- Four points and an affine function in the plane. -/
theorem turn2_rel (f : (Fin 2 → K) →ₗ[K] K) (d : K) (a b c e : Fin 2 → K) :
    (f a - d) * turn2 b c e - (f b - d) * turn2 a c e + (f c - d) * turn2 a b e - (f e - d) * turn2 a b c = 0 := by
  have hf : ∀ p : Fin 2 → K, f p = p 0 * f (Pi.single 0 1) + p 1 * f (Pi.single 1 1) := by
    intro p
    have : p = p 0 • (Pi.single 0 1 : Fin 2 → K) + p 1 • Pi.single 1 1 := by
      funext i; fin_cases i <;> simp
    conv_lhs => rw [this]
    rw [map_add, map_smul, map_smul, smul_eq_mul, smul_eq_mul]
  rw [hf a, hf b, hf c, hf e]
  unfold turn2
  ring

/-- **C91**: a line crosses a curve with a strictly convex control polygon at most twice. -/
theorem C91_two_crossings {eps : K} {c : Curve K ((Fin 2 → K) × K)} (h : c.Good eps) (hp : 1 ≤ c.degree)
    (hw : ∀ p ∈ c.cps, 0 < p.2)
    (hc : ∀ i j k, i < j → j < k → k < c.cps.length →
      0 < turn2 (proj (c.cps.getD i 0)) (proj (c.cps.getD j 0)) (proj (c.cps.getD k 0)))
    (f : (Fin 2 → K) →ₗ[K] K) (d : K) {m : ℕ} {x : ℕ → K} {q : ℕ → Fin 2 → K}
    (hx : ∀ j, j ≤ m → c.lo ≤ x j ∧ x j ≤ c.hi) (hm : ∀ j, j < m → x j < x (j + 1))
    (hq : ∀ j, j ≤ m → c.pointAt eps (x j) = .ok (q j)) (hs : ∀ j, j < m → (f (q j) - d) * (f (q (j + 1)) - d) < 0) :
    m ≤ 2 := by
  by_contra hc3
  have h0 : f (q 0) ≠ d := fun e0 => by
    have := hs 0 (by omega); rw [e0, sub_self, zero_mul] at this; exact lt_irrefl _ this
  obtain ⟨φ, a1, a2, a3, a4⟩ := C89_variation_diminishing h hp hw f d hx hm hq h0 hs
  have l0 := a2 0 (by omega)
  have l1 := a2 1 (by omega)
  have l2 := a2 2 (by omega)
  have s0 := a4 0 (by omega)
  have s1 := a4 1 (by omega)
  have s2 := a4 2 (by omega)
  simp only [Nat.zero_add, Nat.reduceAdd] at l0 l1 l2 s0 s1 s2
  have p0 := hc _ _ _ l1 l2 (a1 3 (by omega))
  have p1 := hc _ _ _ (l0.trans l1) l2 (a1 3 (by omega))
  have p2 := hc _ _ _ l0 (l1.trans l2) (a1 3 (by omega))
  have p3 := hc _ _ _ l0 l1 (a1 2 (by omega))
  have rel := turn2_rel f d (proj (c.cps.getD (φ 0) 0)) (proj (c.cps.getD (φ 1) 0)) (proj (c.cps.getD (φ 2) 0))
    (proj (c.cps.getD (φ 3) 0))
  generalize f (proj (c.cps.getD (φ 0) 0)) - d = y0 at *
  generalize f (proj (c.cps.getD (φ 1) 0)) - d = y1 at *
  generalize f (proj (c.cps.getD (φ 2) 0)) - d = y2 at *
  generalize f (proj (c.cps.getD (φ 3) 0)) - d = y3 at *
  rcases lt_or_ge 0 y0 with hy | hy
  · have k1 : y1 < 0 := by by_contra hh; exact absurd s0 (not_lt.2 (mul_nonneg hy.le (not_lt.1 hh)))
    have k2 : 0 < y2 := by by_contra hh; exact absurd s1 (not_lt.2 (mul_nonneg_of_nonpos_of_nonpos k1.le (not_lt.1 hh)))
    have k3 : y3 < 0 := by by_contra hh; exact absurd s2 (not_lt.2 (mul_nonneg k2.le (not_lt.1 hh)))
    nlinarith [mul_pos hy p0, mul_pos (neg_pos.2 k1) p1, mul_pos k2 p2, mul_pos (neg_pos.2 k3) p3]
  · have k1 : 0 < y1 := by by_contra hh; exact absurd s0 (not_lt.2 (mul_nonneg_of_nonpos_of_nonpos hy (not_lt.1 hh)))
    have k2 : y2 < 0 := by by_contra hh; exact absurd s1 (not_lt.2 (mul_nonneg k1.le (not_lt.1 hh)))
    have k3 : 0 < y3 := by by_contra hh; exact absurd s2 (not_lt.2 (mul_nonneg_of_nonpos_of_nonpos k2.le (not_lt.1 hh)))
    nlinarith [mul_nonneg (neg_nonneg.2 hy) p0.le, mul_pos k1 p1, mul_pos (neg_pos.2 k2) p2, mul_pos k3 p3]

/-- **C91**: the adaptive tessellation of such a curve is a convex polygon. -/
theorem C91_tessellation [Archimedean K] {M : Metric K (Fin 2 → K)} {eps floor tol : K} {rnd : ℕ → K}
    {c : Curve K ((Fin 2 → K) × K)} (h : c.Good eps) (hp : 1 ≤ c.degree) (hw : ∀ p ∈ c.cps, 0 < p.2)
    (hc : ∀ i j k, i < j → j < k → k < c.cps.length →
      0 ≤ turn2 (proj (c.cps.getD i 0)) (proj (c.cps.getD j 0)) (proj (c.cps.getD k 0)))
    (hf : 0 < floor) (hr : ∀ n, 0 ≤ rnd n ∧ rnd n < 1) :
    ∃ (fuel : ℕ) (pts : List (Fin 2 → K)) (pos : ℕ), tessellateCurve M eps floor rnd fuel c tol = .ok (pts, pos) ∧ pts ≠ [] ∧
      ∀ i j k, i < j → j < k → k < pts.length → 0 ≤ turn2 (pts.getD i 0) (pts.getD j 0) (pts.getD k 0) := by
  have hpos := h.cps_pos
  by_cases hd : c.degree = 1
  · refine ⟨0, _, _, C44_degree_one hw hd, ?_, fun i j k hij hjk hk => ?_⟩
    · intro e; rw [List.map_eq_nil_iff] at e; rw [e] at hpos; exact lt_irrefl _ hpos
    · rw [List.length_map] at hk
      have e : ∀ l, l < c.cps.length → (c.cps.map fun p => p.2⁻¹ • p.1).getD l 0 = proj (c.cps.getD l 0) := by
        intro l hl
        simp [List.getD_eq_getElem?_getD, List.getElem?_eq_getElem hl, proj]
      rw [e i (by omega), e j (by omega), e k hk]
      exact hc i j k hij hjk hk
  · obtain ⟨fuel, ts, pts, pos, e, hne, hall, hpw, hdom⟩ := C44_increasing (M := M) (tol := tol) h hw hd hf hr
    have hlen := hall.length_eq
    refine ⟨fuel, pts, pos, e, fun e0 => ?_, fun i j k hij hjk hk => ?_⟩
    · rw [e0] at hlen; exact hne (List.length_eq_zero_iff.1 hlen)
    · have hat : ∀ l (hl : l < pts.length), c.pointAt eps (ts[l]'(by omega)) = .ok (pts.getD l 0) := by
        intro l hl
        rw [List.getD_eq_getElem?_getD, List.getElem?_eq_getElem hl]
        exact hall.get (by omega) hl
      have hlt : ∀ a b (hab : a < b) (hb : b < ts.length), ts[a]'(by omega) < ts[b] := fun a b hab hb =>
        List.pairwise_iff_getElem.1 hpw a b (by omega) hb hab
      exact C91_convex h hp hw hc (hdom _ (List.getElem_mem _)).1 (hlt i j hij (by omega)) (hlt j k hjk (by omega))
        (hdom _ (List.getElem_mem _)).2 (hat i (by omega)) (hat j (by omega)) (hat k hk)

/-! ### Concrete cases -/

/-- A rational curve with a strictly convex control polygon. -/
def exArch : Curve ℚ ((Fin 2 → ℚ) × ℚ) where
  degree := 2
  cps := [(![0, 4], 1), (![0, 0], 2), (![3, -1], 1), (![6, 3], 1)]
  knots := [0, 0, 0, 1, 2, 2, 2]

theorem exArch_good : exArch.Good (1/1000) where
  cps_pos := by decide
  knots_len := by decide
  good := by
    refine ⟨by norm_num, by decide, ?_, ?_, ?_, ?_, ?_⟩
    · intro i j hij hj
      exact (by decide +kernel : ∀ i ≤ 6, ∀ j ≤ 6, i ≤ j → kf exArch.knots i ≤ kf exArch.knots j)
        i (by have : j ≤ 6 := hj; omega) j hj hij
    all_goals simp [exArch, kf]; try norm_num

theorem exArch_weights : ∀ p ∈ exArch.cps, 0 < p.2 := by simp [exArch]

theorem exArch_convex : ∀ i j k, i < j → j < k → k < exArch.cps.length →
    0 < turn2 (proj (exArch.cps.getD i 0)) (proj (exArch.cps.getD j 0)) (proj (exArch.cps.getD k 0)) := by
  intro i j k hij hjk hk
  have : ∀ k, k < 4 → ∀ j, j < k → ∀ i, i < j →
      0 < turn2 (proj (exArch.cps.getD i 0)) (proj (exArch.cps.getD j 0)) (proj (exArch.cps.getD k 0)) := by decide +kernel
  exact this k hk j hjk i hij

/-- Three points of the curve, turning to the left. -/
example : ∃ A B C : Fin 2 → ℚ, exArch.pointAt (1/1000) (1/4) = .ok A ∧ exArch.pointAt (1/1000) 1 = .ok B ∧
    exArch.pointAt (1/1000) (7/4) = .ok C ∧ 0 ≤ turn2 A B C := by
  have pt : ∀ u, exArch.lo ≤ u → u ≤ exArch.hi → ∃ A, exArch.pointAt (1/1000) u = .ok A := fun u h1 h2 =>
    ⟨_, (C09_point_at_positive_weights exArch_good exArch_weights h1 h2).1⟩
  obtain ⟨A, hA⟩ := pt (1/4) (by decide +kernel) (by decide +kernel)
  obtain ⟨B, hB⟩ := pt 1 (by decide +kernel) (by decide +kernel)
  obtain ⟨C, hC⟩ := pt (7/4) (by decide +kernel) (by decide +kernel)
  exact ⟨A, B, C, hA, hB, hC, C91_convex exArch_good (by decide) exArch_weights
    (fun i j k h1 h2 h3 => (exArch_convex i j k h1 h2 h3).le) (by decide +kernel) (by norm_num) (by norm_num) (by decide +kernel)
    hA hB hC⟩

/-- A twisted cubic winds to the left. -/
def exTwist : Curve ℚ ((Fin 3 → ℚ) × ℚ) where
  degree := 3
  cps := [(![0, 0, 0], 1), (![1, 0, 0], 1), (![2, 1, 0], 1), (![3, 3, 1], 1)]
  knots := [0, 0, 0, 0, 1, 1, 1, 1]

theorem exTwist_good : exTwist.Good (1/1000) where
  cps_pos := by decide
  knots_len := by decide
  good := by
    refine ⟨by norm_num, by decide, ?_, ?_, ?_, ?_, ?_⟩
    · intro i j hij hj
      exact (by decide +kernel : ∀ i ≤ 7, ∀ j ≤ 7, i ≤ j → kf exTwist.knots i ≤ kf exTwist.knots j)
        i (by have : j ≤ 7 := hj; omega) j hj hij
    all_goals simp [exTwist, kf]; try norm_num

example : ∃ q : ℕ → Fin 3 → ℚ, (∀ j : ℕ, j ≤ 3 → exTwist.pointAt (1/1000) ((j : ℕ) / 4) = .ok (q j)) ∧
    0 ≤ volume6 (q 0) (q 1) (q 2) (q 3) := by
  have hw : ∀ p ∈ exTwist.cps, 0 < p.2 := by simp [exTwist]
  have hx : ∀ j : ℕ, j ≤ 3 → exTwist.lo ≤ (j : ℚ) / 4 ∧ (j : ℚ) / 4 ≤ exTwist.hi := by
    intro j hj
    interval_cases j <;> decide +kernel
  have pt : ∀ j : ℕ, ∃ A : Fin 3 → ℚ, j ≤ 3 → exTwist.pointAt (1/1000) ((j : ℚ) / 4) = .ok A := by
    intro j
    by_cases hj : j ≤ 3
    · exact ⟨_, fun _ => (C09_point_at_positive_weights exTwist_good hw (hx j hj).1 (hx j hj).2).1⟩
    · exact ⟨0, fun h => absurd h hj⟩
  choose q hq using pt
  refine ⟨q, hq, C91_winding exTwist_good (by decide) hw (fun i j k l h1 h2 h3 h4 => ?_) hx (fun j hj => ?_) hq⟩
  · have : l < 4 := h4
    obtain ⟨rfl, rfl, rfl, rfl⟩ : i = 0 ∧ j = 1 ∧ k = 2 ∧ l = 3 := by omega
    decide +kernel
  · push_cast; linarith

/-- Whatever line is taken, the curve changes its side at most twice. -/
example (f : (Fin 2 → ℚ) →ₗ[ℚ] ℚ) (d : ℚ) {m : ℕ} {x : ℕ → ℚ} {q : ℕ → Fin 2 → ℚ}
    (hx : ∀ j, j ≤ m → exArch.lo ≤ x j ∧ x j ≤ exArch.hi) (hm : ∀ j, j < m → x j < x (j + 1))
    (hq : ∀ j, j ≤ m → exArch.pointAt (1/1000) (x j) = .ok (q j))
    (hs : ∀ j, j < m → (f (q j) - d) * (f (q (j + 1)) - d) < 0) : m ≤ 2 :=
  C91_two_crossings exArch_good (by decide) exArch_weights exArch_convex f d hx hm hq hs

example (M : Metric ℚ (Fin 2 → ℚ)) (rnd : ℕ → ℚ) (hr : ∀ n, 0 ≤ rnd n ∧ rnd n < 1) :
    ∃ (fuel : ℕ) (pts : List (Fin 2 → ℚ)) (pos : ℕ), tessellateCurve M (1/1000) (1/10^8) rnd fuel exArch (1/100) = .ok (pts, pos) ∧
      pts ≠ [] ∧ ∀ i j k, i < j → j < k → k < pts.length → 0 ≤ turn2 (pts.getD i 0) (pts.getD j 0) (pts.getD k 0) :=
  C91_tessellation exArch_good (by decide) exArch_weights (fun i j k h1 h2 h3 => (exArch_convex i j k h1 h2 h3).le)
    (by norm_num) hr

end Curvo.Props

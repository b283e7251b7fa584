/-
  Property theorem about the division of a surface with the default tolerance: C37.
-/
import Verif.Props.TraverseParams
import Mathlib.Tactic.IntervalCases

set_option linter.unusedSectionVars false

namespace Curvo.Props

open Curvo Curvo.Spec Curvo.Curve

variable {K : Type} [Field K] [LinearOrder K] [IsStrictOrderedRing K] {d : ℕ} {Rng : Type} {eps big : K}

theorem UV_ne_opposite (x : UV) : x ≠ x.opposite := by cases x <;> decide

/-- What holds of the nodes below a root with the default tolerance: the sides were halved in turn, at most six times each. -/
structure Turns (t0 t : SurfTree K d) (i j : ℕ) : Prop where
  u : t.surface.uhi - t.surface.ulo = (t0.surface.uhi - t0.surface.ulo) * (1 / 2) ^ i
  v : t.surface.vhi - t.surface.vlo = (t0.surface.vhi - t0.surface.vlo) * (1 / 2) ^ j
  hi : i ≤ 6
  hj : j ≤ 6
  turn : (t.direction = t0.direction ∧ i = j) ∨ (t.direction = t0.direction.opposite ∧
    match t0.direction with
    | .u => i = j + 1
    | .v => j = i + 1)

theorem Turns.open {t0 t : SurfTree K d} {i j : ℕ} (h : Turns t0 t i j) (hg0 : t0.surface.Good eps) (hg : t.surface.Good eps)
    (htol : t0.tolerance = ((t0.surface.uhi - t0.surface.ulo) / 64, (t0.surface.vhi - t0.surface.vlo) / 64))
    (ht : t.tolerance = t0.tolerance) : t.isDividable = .ok (decide (¬ (i = 6 ∧ j = 6))) := by
  obtain ⟨e1, e2⟩ := surf_dom_lt hg0
  rw [surf_isDividable hg, ht, htol, h.u, h.v]
  have key : ∀ (x : K) (n : ℕ), 0 < x → n ≤ 6 → (x / 64 < x * (1 / 2) ^ n ↔ n ≠ 6) := by
    intro x n hx hn
    constructor
    · rintro h rfl
      norm_num at h
      linarith
    · intro h
      have : n ≤ 5 := by omega
      have h2 : (1 / 2 : K) ^ 5 ≤ (1 / 2) ^ n := pow_le_pow_of_le_one (by norm_num) (by norm_num) this
      have h3 := mul_le_mul_of_nonneg_left h2 hx.le
      norm_num at h3 ⊢
      linarith
  congr 1
  rw [Bool.eq_iff_iff]
  simp only [Bool.or_eq_true, decide_eq_true_eq]
  rw [key _ i (by linarith) h.hi, key _ j (by linarith) h.hj]
  tauto

/-- A surface is divided for the intersections, without a tolerance being given, into pieces of exactly one sixty-fourth of its
    two sides, whatever the direction of the first cut. -/
theorem C37_surface_default_tolerance {S : Surface K ((Fin d → K) × K)} (hgood : S.Good eps)
    (hw : ∀ row ∈ S.cps, ∀ p ∈ row, 0 < p.2) (dir : UV) : ∃ t0, SurfTree.new S dir none = .ok t0 ∧ t0.surface = S ∧
      (SurfGeneric Rng eps big t0 → ∀ t, Reach (SurfTree.tree Rng eps big) t0 t →
        (t.isDividable = .ok false ↔
          t.surface.uhi - t.surface.ulo = (S.uhi - S.ulo) / 64 ∧ t.surface.vhi - t.surface.vlo = (S.vhi - S.vlo) / 64) ∧
        (S.uhi - S.ulo) / 64 ≤ t.surface.uhi - t.surface.ulo ∧ (S.vhi - S.vlo) / 64 ≤ t.surface.vhi - t.surface.vlo) := by
  obtain ⟨d1, d2⟩ := surf_domains hgood
  refine ⟨⟨S, ((S.uhi - S.ulo) / 64, (S.vhi - S.vlo) / 64), dir⟩, ?_, rfl, ?_⟩
  · rw [SurfTree.new, d1, ok_bind, d2, ok_bind]
    rfl
  intro hgen t hreach
  generalize ht0 : (⟨S, ((S.uhi - S.ulo) / 64, (S.vhi - S.vlo) / 64), dir⟩ : SurfTree K d) = t0 at *
  have hS : t0.surface = S := by rw [← ht0]
  have htol : t0.tolerance = ((t0.surface.uhi - t0.surface.ulo) / 64, (t0.surface.vhi - t0.surface.vlo) / 64) := by rw [← ht0]
  have h0 : SurfInv Rng eps big t0 t0 := ⟨.root, by rw [hS]; exact hgood, by rw [hS]; exact hw, rfl⟩
  have hhalf : ∀ a b : K, (a + b) * (1 / 2) - a = (b - a) * (1 / 2) ∧ b - (a + b) * (1 / 2) = (b - a) * (1 / 2) := by
    intro a b; constructor <;> ring
  have step : ∀ x l r i j, Turns t0 x i j → ¬ (i = 6 ∧ j = 6) → Halves eps x l r →
      (∃ i j, Turns t0 l i j) ∧ ∃ i j, Turns t0 r i j := by
    intro x l r i j hx hne hh
    have hd := hh.doms
    have dl := hh.dl
    have dr := hh.dr
    obtain ⟨u, v, hi, hj, turn⟩ := hx
    cases hdir : x.direction with
    | u =>
      rw [hdir] at hd dl dr turn
      obtain ⟨a1, a2, a3, a4, b1, b2, b3, b4⟩ := hd
      have hm : midOf x = (x.surface.ulo + x.surface.uhi) * (1 / 2) := by rw [midOf, dirLo, dirHi, hdir]
      rw [hm] at a2 a3
      have hlt : i + 1 ≤ 6 := by
        cases h0 : t0.direction <;> rw [h0] at turn <;> simp [UV.opposite] at turn <;> omega
      have ht : ∀ y : SurfTree K d, y.direction = UV.opposite .u → (y.direction = t0.direction ∧ i + 1 = j) ∨
          (y.direction = t0.direction.opposite ∧ match t0.direction with
            | .u => i + 1 = j + 1
            | .v => j = i + 1 + 1) := by
        intro y hy
        rw [hy]
        cases h0 : t0.direction <;> rw [h0] at turn <;> simp [UV.opposite] at turn ⊢ <;> omega
      refine ⟨⟨i + 1, j, ?_, ?_, hlt, hj, ht l dl⟩, ⟨i + 1, j, ?_, ?_, hlt, hj, ht r dr⟩⟩
      · rw [a1, a2, (hhalf _ _).1, u, pow_succ, mul_assoc]
      · rw [b1, b2, v]
      · rw [a3, a4, (hhalf _ _).2, u, pow_succ, mul_assoc]
      · rw [b3, b4, v]
    | v =>
      rw [hdir] at hd dl dr turn
      obtain ⟨a1, a2, a3, a4, b1, b2, b3, b4⟩ := hd
      have hm : midOf x = (x.surface.vlo + x.surface.vhi) * (1 / 2) := by rw [midOf, dirLo, dirHi, hdir]
      rw [hm] at a2 a3
      have hlt : j + 1 ≤ 6 := by
        cases h0 : t0.direction <;> rw [h0] at turn <;> simp [UV.opposite] at turn <;> omega
      have ht : ∀ y : SurfTree K d, y.direction = UV.opposite .v → (y.direction = t0.direction ∧ i = j + 1) ∨
          (y.direction = t0.direction.opposite ∧ match t0.direction with
            | .u => i = j + 1 + 1
            | .v => j + 1 = i + 1) := by
        intro y hy
        rw [hy]
        cases h0 : t0.direction <;> rw [h0] at turn <;> simp [UV.opposite] at turn ⊢ <;> omega
      refine ⟨⟨i, j + 1, ?_, ?_, hi, hlt, ht l dl⟩, ⟨i, j + 1, ?_, ?_, hi, hlt, ht r dr⟩⟩
      · rw [b1, b2, u]
      · rw [a1, a2, (hhalf _ _).1, v, pow_succ, mul_assoc]
      · rw [b3, b4, u]
      · rw [a3, a4, (hhalf _ _).2, v, pow_succ, mul_assoc]
  have main : ∃ i j, Turns t0 t i j := by
    induction hreach with
    | root => exact ⟨0, 0, by simp, by simp, by simp, by simp, .inl ⟨rfl, rfl⟩⟩
    | @left x y z r r' hx hdv e ih =>
      obtain ⟨i, j, hT⟩ := ih
      have ix := (surf_reach hgen h0 hx).1
      have hop := hT.open h0.good ix.good htol ix.tol
      have hdv' : x.isDividable = .ok true := hdv
      rw [hdv'] at hop
      have hop := Except.ok.inj hop
      obtain ⟨l, rr, e', hh⟩ := surf_divide r ix.good ix.weights (hgen x hx hdv)
      have e1 : SurfTree.tryDivide eps x r = _ := e
      rw [e'] at e1
      cases e1
      exact (step x _ _ i j hT (of_decide_eq_true hop.symm) hh).1
    | @right x y z r r' hx hdv e ih =>
      obtain ⟨i, j, hT⟩ := ih
      have ix := (surf_reach hgen h0 hx).1
      have hop := hT.open h0.good ix.good htol ix.tol
      have hdv' : x.isDividable = .ok true := hdv
      rw [hdv'] at hop
      have hop := Except.ok.inj hop
      obtain ⟨l, rr, e', hh⟩ := surf_divide r ix.good ix.weights (hgen x hx hdv)
      have e1 : SurfTree.tryDivide eps x r = _ := e
      rw [e'] at e1
      cases e1
      exact (step x _ _ i j hT (of_decide_eq_true hop.symm) hh).2
  obtain ⟨i, j, hT⟩ := main
  have it := (surf_reach hgen h0 hreach).1
  obtain ⟨e1, e2⟩ := surf_dom_lt hgood
  have key : ∀ (x : K) (n : ℕ), 0 < x → n ≤ 6 → x / 64 ≤ x * (1 / 2) ^ n ∧ (x * (1 / 2) ^ n = x / 64 ↔ n = 6) := by
    intro x n hx hn
    have hle : x * (1 / 2 : K) ^ 6 ≤ x * (1 / 2) ^ n :=
      mul_le_mul_of_nonneg_left (pow_le_pow_of_le_one (by norm_num) (by norm_num) hn) hx.le
    refine ⟨by norm_num at hle ⊢; linarith, ?_, ?_⟩
    · intro h
      by_contra hne
      have h2 : x * (1 / 2 : K) ^ 5 ≤ x * (1 / 2) ^ n :=
        mul_le_mul_of_nonneg_left (pow_le_pow_of_le_one (by norm_num) (by norm_num) (by omega)) hx.le
      rw [h] at h2
      norm_num at h2
      linarith
    · rintro rfl
      norm_num
      ring
  rw [hT.open h0.good it.good htol it.tol, hT.u, hT.v, hS, (key _ i (by linarith) hT.hi).2, (key _ j (by linarith) hT.hj).2]
  refine ⟨?_, (key _ i (by linarith) hT.hi).1, (key _ j (by linarith) hT.hj).1⟩
  simp

/-- The tree of a saddle without tolerances: the pieces that are not divided have sides of `1/64`. -/
example (t : SurfTree ℚ 3) (h : Reach (SurfTree.tree ℕ (1/1000000) 1000) ⟨exSaddle, (1/64, 1/64), .u⟩ t)
    (hu : t.isDividable = .ok false) : SurfTree.new exSaddle .u none = .ok ⟨exSaddle, (1/64, 1/64), .u⟩ ∧
      t.surface.uhi - t.surface.ulo = 1/64 ∧ t.surface.vhi - t.surface.vlo = 1/64 := by
  have wa : ∀ row ∈ exSaddle.cps, ∀ p ∈ row, 0 < p.2 := by decide
  have e1 : exSaddle.uhi - exSaddle.ulo = 1 := by decide +kernel
  have e2 : exSaddle.vhi - exSaddle.vlo = 1 := by decide +kernel
  have e : SurfTree.new exSaddle .u none = .ok ⟨exSaddle, (1/64, 1/64), .u⟩ := by
    obtain ⟨d1, d2⟩ := surf_domains exSaddle_good
    rw [SurfTree.new, d1, ok_bind, d2, ok_bind]
    simp only [e1, e2]
    rfl
  obtain ⟨t0, h0, -, h1⟩ := C37_surface_default_tolerance (Rng := ℕ) (big := 1000) exSaddle_good wa .u
  rw [e] at h0
  obtain rfl := Except.ok.inj h0
  have := ((h1 (surf_generic_of_ends (δ := 1/64) exSaddle_good wa rfl (by decide +kernel) (by decide +kernel) (by decide +kernel)
      (by decide +kernel) (by norm_num) (by norm_num)) t h).1).1 hu
  rw [e1, e2] at this
  exact ⟨e, this⟩

end Curvo.Props

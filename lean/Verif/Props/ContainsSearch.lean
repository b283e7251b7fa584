/-
  Property theorems about the search for the nearest boundary point during containment tests: C78.
-/
import Verif.Props.Contains

set_option linter.unusedSectionVars false
set_option linter.unusedSimpArgs false

namespace Curvo.Props

open Curvo Curvo.Knots Curvo.Spec Curvo.Contains

section
variable {K : Type} [Field K] [LinearOrder K] {eps big : K} {nrm : (Fin 2 → K) → K}
  {closest closest' : (Fin 2 → K) → Res (Fin 2 → K)} {pos fuel : ℕ} {opt : Option (Options K)} {p : Fin 2 → K}

/-- The search fails with an error, or finds a point that is not closer than the tolerance. -/
def OffBoundary (nrm : (Fin 2 → K) → K) (opt : Option (Options K)) (p : Fin 2 → K) (r : Res (Fin 2 → K)) : Prop :=
  r = .error .err ∨ ∃ q, r = .ok q ∧ (match opt with | some o => o.minDist | none => 1 / 1000000) ≤ nrm (q - p)

theorem OffBoundary.eq {r : Res (Fin 2 → K)} (h : OffBoundary nrm opt p r) : onBoundary nrm opt p r = .ok false := by
  rcases h with rfl | ⟨q, rfl, hq⟩
  · rfl
  · rw [onBoundary]
    cases opt <;> simp only [Option.map_none, Option.map_some, Option.getD_none, Option.getD_some] at hq ⊢ <;>
      rw [decide_eq_false (not_lt.2 hq)] <;> rfl

/-- **C78** A search that fails with an error does not decide the answer: it is the same as when the nearest point is found to be
    farther away than the tolerance. -/
theorem C78_failed_search {c : Curve K ((Fin 2 → K) × K)} {rnd : ℕ → K} (h : closest p = .error .err) {q : Fin 2 → K} (h' : closest' p = .ok q)
    (hq : (match opt with | some o => o.minDist | none => 1 / 1000000) ≤ nrm (q - p)) :
    curveContains eps big nrm closest rnd pos fuel opt c p = curveContains eps big nrm closest' rnd pos fuel opt c p := by
  have e1 : onBoundary nrm opt p (closest p) = .ok false := OffBoundary.eq (.inl h)
  have e2 : onBoundary nrm opt p (closest' p) = .ok false := OffBoundary.eq (.inr ⟨q, h', hq⟩)
  rw [curveContains, curveContains, e1, e2]

/-- **C78** The same for compound curves. -/
theorem C78_failed_search_compound {spans : List (Curve K ((Fin 2 → K) × K))} {rnd : ℕ → ℕ → K} (h : closest p = .error .err) {q : Fin 2 → K}
    (h' : closest' p = .ok q) (hq : (match opt with | some o => o.minDist | none => 1 / 1000000) ≤ nrm (q - p)) :
    compoundContains eps big nrm closest rnd pos fuel opt spans p = compoundContains eps big nrm closest' rnd pos fuel opt spans p := by
  have e1 : onBoundary nrm opt p (closest p) = .ok false := OffBoundary.eq (.inl h)
  have e2 : onBoundary nrm opt p (closest' p) = .ok false := OffBoundary.eq (.inr ⟨q, h', hq⟩)
  rw [compoundContains, compoundContains, e1, e2]

end

section ray
variable {eps big : ℝ} {rnd : ℕ → ℝ}

/-- **C78** Even-odd rule, with the outcome of the search spelled out: it fails, or finds no point within the tolerance. -/
theorem C78_even_odd_search {c : Curve ℝ ((Fin 2 → ℝ) × ℝ)} (hc : c.Good eps) (he1 : eps ≤ 1) (hw : ∀ q ∈ c.cps, 0 < q.2)
    (hr : ∀ n, 0 ≤ rnd n ∧ rnd n ≤ 1) {opt : Option (Options ℝ)} {o : Options ℝ} (ho : opt.getD .default = o)
    (hdiv : 1 ≤ o.division) (hit : 1 ≤ o.maxIters)
    {γ : ℝ → Fin 2 → ℝ} (hγ : ∀ s, c.lo ≤ s → s ≤ c.hi → c.pointAt eps s = .ok (γ s)) (hcl : γ c.lo 1 = γ c.hi 1)
    {s₁ s₂ : ℝ} (hs₁ : c.lo ≤ s₁ ∧ s₁ ≤ c.hi) (hs₂ : c.lo ≤ s₂ ∧ s₂ ≤ c.hi) (hwide : γ s₁ 0 ≠ γ s₂ 0)
    {nrm : (Fin 2 → ℝ) → ℝ} (hn : ∀ v, nrm v = 0 → v = 0) (hclosed : c.isClosed eps (fun p q => nrm (p - q)) = .ok true)
    {p : Fin 2 → ℝ} {closest : (Fin 2 → ℝ) → Res (Fin 2 → ℝ)} (hon : OffBoundary nrm opt p (closest p))
    {L : ℝ} (hL : 0 ≤ L)
    (hl : ∀ s t, c.lo ≤ s → s ≤ c.hi → c.lo ≤ t → t ≤ c.hi → |γ s 1 - γ t 1| ≤ L * |s - t|)
    (hLδ : L * ((c.hi - c.lo) / o.division) < o.minDist * 2 ^ o.maxIters)
    (hG : Generic eps big rnd ⟨c, (c.hi - c.lo) / o.division⟩)
    (hgen : RayGeneral γ c.lo c.hi ((c.hi - c.lo) / o.division) o.minDist nrm p) :
    (rightCrossings γ c.lo c.hi p).Finite ∧
    ∃ N, ∀ fuel, N ≤ fuel → ∀ pos, curveContains eps big nrm closest rnd pos fuel opt c p =
      .ok (decide ((rightCrossings γ c.lo c.hi p).ncard % 2 = 1)) :=
  C78_even_odd hc he1 hw hr ho hdiv hit hγ hcl hs₁ hs₂ hwide hn hclosed hon.eq hL hl hLδ hG hgen

/-- Witness: a failing search for (8, 30), a point of the tear. -/
example (hr : ∀ n, 0 ≤ rnd n ∧ rnd n ≤ 1) : ∃ N, ∀ fuel, N ≤ fuel → ∀ pos,
    curveContains (1/1000000) 1000 (fun v => |v 0| + |v 1|) (fun _ => .error .err) rnd pos fuel none exTear ![8, 30] =
      .ok (decide ((rightCrossings tearAt 0 1 ![8, 30]).ncard % 2 = 1)) := by
  obtain ⟨N, hN⟩ := tear_contains (a := 8) (.inr (by norm_num)) hr
  refine ⟨N, fun fuel hf pos => ?_⟩
  rw [← hN fuel hf pos]
  exact C78_failed_search (q := ![0, 0]) rfl rfl (by norm_num)

end ray

end Curvo.Props

/-
  Property theorems: constraining a parameter to the domain, C67.
-/
import Verif.Props.Curve4
import Verif.Props.Refine

set_option linter.unusedSectionVars false

namespace Curvo.Props

open Curvo Curvo.Curve

variable {K : Type} [Field K] [LinearOrder K] [IsStrictOrderedRing K] {V : Type} [AddCommGroup V] [Module K V]

/-- **Constrained parameters**: the result lies in the domain, and no parameter of the domain is nearer to the given one. -/
theorem C67_constrain {eps : K} {c : Curve K V} (h : c.Good eps) (u : K) :
    ∃ r, c.knotsConstrain u = .ok r ∧ c.lo ≤ r ∧ r ≤ c.hi ∧ ∀ x, c.lo ≤ x → x ≤ c.hi → |r - u| ≤ |x - u| ∧ (|r - u| = |x - u| → x = r) := by
  have hle : c.lo ≤ c.hi := (lo_lt_hi h).le
  rw [knotsConstrain]
  rcases lt_or_ge u c.lo with h1 | h1
  · refine ⟨c.lo, clamp_left h h1, le_rfl, hle, fun x hx _ => ?_⟩
    rw [abs_of_pos (sub_pos.2 h1), abs_of_pos (sub_pos.2 (h1.trans_le hx))]
    exact ⟨sub_le_sub_right hx u, fun e => (sub_left_inj.1 e).symm⟩
  · rcases lt_or_ge c.hi u with h2 | h2
    · refine ⟨c.hi, clamp_right h h2, hle, le_rfl, fun x _ hx => ?_⟩
      rw [abs_of_neg (sub_neg.2 h2), abs_of_neg (sub_neg.2 (hx.trans_lt h2))]
      exact ⟨neg_le_neg (sub_le_sub_right hx u), fun e => (sub_left_inj.1 (neg_injective e)).symm⟩
    · refine ⟨u, clamp_domain h h1 h2, h1, h2, fun x _ _ => ?_⟩
      rw [sub_self, abs_zero]
      exact ⟨abs_nonneg _, fun e => sub_eq_zero.1 (abs_eq_zero.1 e.symm)⟩

/-- The witness curve: 7 is beyond the end of the domain. -/
example : exCurve.knotsConstrain 7 = .ok exCurve.hi ∧ exCurve.knotsConstrain (5/2) = .ok (5/2) := by
  constructor <;> decide +kernel

end Curvo.Props

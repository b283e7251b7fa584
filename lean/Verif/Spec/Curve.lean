/-
  Specification level notions about curves: which curves are well formed and what they denote.
-/
import Mathlib.Algebra.Module.Prod
import Verif.Spec.BSpline
import Verif.Model.Curve

namespace Curvo

namespace Curve

variable {K : Type} [Field K] [LinearOrder K] {V : Type}

/-- A well formed curve: `n + 1` control points, `n + p + 2` knots which are good for evaluation. -/
structure Good (eps : K) (c : Curve K V) : Prop where
  cps_pos : 0 < c.cps.length
  knots_len : c.knots.length = c.cps.length + c.degree + 1
  good : Spec.GoodKnots eps (kf c.knots) c.degree (c.cps.length - 1)

/-- Start of the domain. -/
def lo (c : Curve K V) : K := kf c.knots c.degree

/-- End of the domain. -/
def hi (c : Curve K V) : K := kf c.knots c.cps.length

/-- What a curve denotes: the B-spline sum over all its control points. -/
def eval [AddCommGroup V] [Module K V] (c : Curve K V) (u : K) : V :=
  Spec.curve (kf c.knots) c.degree (c.cps.length - 1) (fun i => c.cps.getD i 0) u

/-- The affine point denoted by homogeneous coordinates. -/
def proj {W : Type} [AddCommGroup W] [Module K W] (p : W × K) : W := p.2⁻¹ • p.1

end Curve

/-- No interior knot has multiplicity above the degree, so that the curve is continuous. -/
def Spec.ContKnots {K : Type} [LT K] (k : ℕ → K) (p n : ℕ) : Prop :=
  ∀ i, p < i → i + p ≤ n → k i < k (i + p)

end Curvo

/-
  Model of the reversal, the bounding boxes and the regular samples of curves in floating point arithmetic: the functions of
  `Model/Knot.lean`, `Model/Curve.lean` and `Model/BBox.lean` with every arithmetic operation on scalars followed by a rounding
  `fl`.  The simplifications are those of `Model/Rounded.lean`.
-/
import Verif.Model.Rounded
import Verif.Model.BBox

namespace Curvo.Rounded

variable {K : Type} [Field K] [LinearOrder K] {d : ℕ}

/-- Loop of `KnotVector::invert`, knot_vector.rs 413-415, rounded (see `Knots.invertGo`). -/
def invertGo (fl : K → K) (prev : K) : List K → List K
  | a :: b :: rest => fl (prev + fl (a - b)) :: invertGo fl (fl (prev + fl (a - b))) (b :: rest)
  | _ => []

/-- `KnotVector::invert`, knot_vector.rs 408-418, rounded. -/
def invertKnots (fl : K → K) (ks : List K) : Res (List K) := do
  let mn ← getR ks 0
  pure (mn :: invertGo fl mn ks.reverse)

/-- `Invertible::invert`, nurbs_curve.rs 1849-1852, rounded. -/
def invert (fl : K → K) (c : Curve K ((Fin d → K) × K)) : Res (Curve K ((Fin d → K) × K)) := do
  let ks ← invertKnots fl c.knots
  pure { c with cps := c.cps.reverse, knots := ks }

/-- `NurbsCurve::dehomogenized_control_points`, nurbs_curve.rs 177-186, rounded. -/
def dehomogenizedCps (fl : K → K) (c : Curve K ((Fin d → K) × K)) : Res (List (Fin d → K)) :=
  c.cps.mapM fun p => unwrapR (dehomogenize fl p)

/-- `From<&NurbsCurve> for BoundingBox`, bounding_box/mod.rs 194-205, rounded; `new_with_points` only compares. -/
def boxOfCurve (fl : K → K) (big : K) (c : Curve K ((Fin d → K) × K)) : Res (Box K d) := do
  let pts ← dehomogenizedCps fl c
  pure (Box.ofPoints big pts)

/-- One iteration of the loop of `BoundingBox::intersects`, bounding_box/mod.rs 102-120, rounded. -/
def overlap1 (fl : K → K) (tol min0 max0 min1 max1 : K) : Bool :=
  let a0 := fl (min0 - tol)
  let a1 := fl (max0 + tol)
  let b0 := fl (min1 - tol)
  let b1 := fl (max1 + tol)
  let d0 := fl (b0 - a1)
  let d1 := fl (b1 - a0)
  !decide (0 < fl (d0 * d1))

/-- `BoundingBox::intersects`, bounding_box/mod.rs 99-124, rounded. -/
def intersects (fl : K → K) (tol : K) (a b : Box K d) : Bool :=
  (List.finRange d).all fun i => overlap1 fl tol (a.min i) (a.max i) (b.min i) (b.max i)

/-- The parameters of `NurbsCurve::sample_regular_range`, nurbs_curve.rs 216-220, rounded: `start + i * step`.  The conversion
    of the counters to scalars is exact below `2^53`. -/
def sampleParameter (fl : K → K) (start stop : K) (samples i : ℕ) : Res K := do
  let step ← divR (fl (stop - start)) (fl ((samples : K) - 1))
  pure (fl (start + fl ((i : K) * fl step)))

/-- `NurbsCurve::sample_regular_range`, nurbs_curve.rs 206-224, rounded. -/
def sampleRegularRange (fl : K → K) (eps : K) (c : Curve K ((Fin d → K) × K)) (start stop : K) (samples : ℕ) :
    Res (List (Fin d → K)) :=
  (List.range samples).mapM fun i : ℕ => do
    let t ← sampleParameter fl start stop samples i
    pointAt fl eps c t

end Curvo.Rounded

/-
  Model of the knot vectors computed from data points, in floating point arithmetic: `Curve.polyline`, `Curve.normalizeKnots`
  (`Model/Curve.lean`), `Interp.chordParams`, `Interp.averageKnots`, `Interp.periodicKnots` (`Model/Interp.lean`), with every
  arithmetic operation on scalars followed by a rounding `fl`.  Simplified: `dist p q` is the computed distance of two points.
-/
import Verif.Model.Interp
import Verif.Model.Rounded

namespace Curvo.Rounded

variable {K : Type} [Field K] [LinearOrder K] {W : Type} {V : Type}

/-- Loop of `NurbsCurve::polyline`, nurbs_curve.rs 137-141, and of `try_interpolate_control_points`, 2021-2026, rounded: running
    chord lengths. -/
def chordGo (fl : K → K) (dist : W → W → K) : K → List W → List K
  | acc, p :: q :: rest => fl (acc + dist p q) :: chordGo fl dist (fl (acc + dist p q)) (q :: rest)
  | _, _ => []

/-- The final value of `acc` in `NurbsCurve::polyline`, nurbs_curve.rs 137-142, rounded. -/
def chordTotal (fl : K → K) (dist : W → W → K) (pts : List W) : K := ((0 : K) :: chordGo fl dist 0 pts).getLast (by simp)

/-- One division `k / acc` of nurbs_curve.rs 145 and `us[i] /= max` of 2031, rounded. -/
def quotient (fl : K → K) (k acc : K) : Res K := do
  let q ← divR k acc
  pure (fl q)

/-- The knots of `NurbsCurve::polyline`, nurbs_curve.rs 134-148, rounded. -/
def polylineKnots (fl : K → K) (dist : W → W → K) (pts : List W) (normalize : Bool) : Res (List K) := do
  let _ ← subR pts.length 1
  let acc := chordTotal fl dist pts
  let knots := [0, 0] ++ chordGo fl dist 0 pts ++ [acc]
  if normalize then knots.mapM (fun k => quotient fl k acc) else pure knots

/-- `us`, nurbs_curve.rs 2020-2032, rounded. -/
def chordParams (fl : K → K) (dist : W → W → K) (pts : List W) : Res (List K) := do
  let us := 0 :: chordGo fl dist 0 pts
  let k ← subR us.length 1
  let mx ← getR us k
  us.mapM fun u => quotient fl u mx

/-- One averaged knot, nurbs_curve.rs 2040-2044, rounded; `T::from_usize(degree)` is exact. -/
def averageKnot (fl : K → K) (us : List K) (degree i : ℕ) : Res K := do
  let w ← (List.range degree).foldlM (fun w j => do
    let x ← getR us (i + j)
    pure (fl (w + x))) 0
  quotient fl w (degree : K)

/-- The knot vector of the interpolation, nurbs_curve.rs 2034-2047, rounded. -/
def averageKnots (fl : K → K) (us : List K) (degree : ℕ) : Res (List K) := do
  let e ← subR us.length degree
  let mid ← (List.range (e - 1)).mapM fun k => averageKnot fl us degree (k + 1)
  pure (List.replicate (degree + 1) 0 ++ mid ++ List.replicate (degree + 1) 1)

/-- `NurbsCurve::normalize_knots`, nurbs_curve.rs 424-430, rounded. -/
def normalizeKnots (fl : K → K) (c : Curve K V) : Res (Curve K V) := do
  let d ← c.knotsDomain
  let size := fl (d.2 - d.1)
  let ks ← c.knots.mapM (fun k => quotient fl (fl (k - d.1)) size)
  pure { c with knots := ks }

/-- The running sums of nurbs_curve.rs 2102-2109, rounded. -/
def prefixSums (fl : K → K) : K → List K → List K
  | _, [] => []
  | acc, x :: xs => fl (acc + x) :: prefixSums fl (fl (acc + x)) xs

/-- The knot vector of the periodic interpolation, nurbs_curve.rs 2087-2124, rounded. -/
def periodicKnots (fl : K → K) (params : List K) (nPts degree : ℕ) : Res (List K) := do
  let d ← subR degree 1
  let head ← sliceR params 0 d
  let t ← subR params.length degree
  let tail ← sliceR params (t + 1) params.length
  let knots := (0 : K) :: prefixSums fl 0 (tail ++ params ++ head)
  let m := nPts + degree
  let k0 ← (if degree > 2 then do
      let a ← getR knots 0
      let b ← getR knots (m + 1)
      let c ← getR knots m
      pure (fl (a - fl (b - c)))
    else getR knots 0)
  let l ← subR knots.length 1
  let k1 ← (if degree > 2 then do
      let a ← getR knots l
      let b ← getR knots (degree + 1)
      let c ← getR knots degree
      pure (fl (a + fl (b - c)))
    else getR knots l)
  pure ([k0] ++ knots ++ [k1])

end Curvo.Rounded

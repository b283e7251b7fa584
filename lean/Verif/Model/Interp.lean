/-
  Model of interpolation: `/repo/src/curve/nurbs_curve.rs` 720-798 and 2010-2197,
  `/repo/src/curve/knot_style.rs`.

  A `DVector` data point is an element of a `K`-module `W`. `dist a b` stands for `(b - a).norm()`.
  The LU solver of nalgebra (`m_a.lu()`, `lu.solve`, run once per coordinate) is a parameter
  `solve`, which gets the matrix and the data points and answers `none` when a `lu.solve` fails.
-/
import Verif.Model.Curve

namespace Curvo

/-- `KnotStyle`, knot_style.rs 8-13. -/
inductive KnotStyle where
  | uniform | chordal | centripetal
  deriving DecidableEq

namespace Interp

open Curvo.Knots

variable {K : Type} [Field K] [LinearOrder K] {W : Type} [AddCommGroup W] [Module K W]

/-- `us` before normalisation, nurbs_curve.rs 2020-2026. -/
def chords (dist : W → W → K) (pts : List W) : List K := 0 :: Curve.chordGo dist 0 pts

/-- `us` after normalisation, nurbs_curve.rs 2028-2032. -/
def chordParams (dist : W → W → K) (pts : List W) : Res (List K) := do
  let us := chords dist pts
  let k ← subR us.length 1
  let mx ← getR us k
  us.mapM fun u => divR u mx

/-- One averaged knot, nurbs_curve.rs 2040-2044. -/
def averageKnot (us : List K) (degree i : ℕ) : Res K := do
  let w ← (List.range degree).foldlM (fun w j => do
    let x ← getR us (i + j)
    pure (w + x)) 0
  divR w (degree : K)

/-- The knot vector of the interpolation, nurbs_curve.rs 2034-2047. `KnotVector::new` does not
    sort. -/
def averageKnots (us : List K) (degree : ℕ) : Res (List K) := do
  let e ← subR us.length degree
  let mid ← (List.range (e - 1)).mapM fun k => averageKnot us degree (k + 1)
  pure (List.replicate (degree + 1) 0 ++ mid ++ List.replicate (degree + 1) 1)

/-- One matrix row, nurbs_curve.rs 2057-2068. -/
def matrixRow (eps : K) (knots : List K) (n degree ld : ℕ) (u : K) : Res (List K) := do
  let s ← findKnotSpanIndex eps knots n degree u
  let basis ← basisFunctions knots s u degree
  let ls ← subR s degree
  let le ← subR ld ls
  pure (List.replicate ls 0 ++ basis ++ List.replicate le 0)

/-- `try_interpolate_control_points`, nurbs_curve.rs 2010-2074, without the appended weight. -/
def controlPoints (eps : K) (dist : W → W → K) (solve : List (List K) → List W → Option (List W))
    (pts : List W) (degree : ℕ) : Res (List W × List K) :=
  if pts.length < degree + 1 then .error .err
  else do
    let us ← chordParams dist pts
    let knots ← averageKnots us degree
    let n ← subR pts.length 1
    let ld ← subR pts.length (degree + 1)
    let rows ← us.mapM fun u => matrixRow eps knots n degree ld u
    match solve rows pts with
    | none => .error .err
    | some x => pure (x, knots)

/-- `NurbsCurve::try_interpolate`, nurbs_curve.rs 720-745 (the curve is built without `try_new`);
    the weight 1 is the `homogeneous` case of `try_solve_interpolation`, 2187-2189. -/
def tryInterpolate (eps : K) (dist : W → W → K)
    (solve : List (List K) → List W → Option (List W)) (pts : List W) (degree : ℕ) :
    Res (Curve K (W × K)) := do
  let r ← controlPoints eps dist solve pts degree
  pure { degree := degree, cps := r.1.map Curve.homogenize, knots := r.2 }

/-- `KnotStyle::parameterize` with `closed = true`, knot_style.rs 16-50: `circular_tuple_windows`
    pairs each point with its successor, the last with the first; `powf(0.5)` is `sqrt`. -/
def parameterizeClosed (dist : W → W → K) (sqrt : K → K) (style : KnotStyle) (pts : List W) :
    Res (List K) :=
  match style with
  | .uniform => do
    let m ← subR pts.length 1
    let inv ← divR 1 (m : K)
    pure (List.replicate pts.length inv)
  | .chordal => pure ((pts.zip (pts.tail ++ pts.take 1)).map fun p => dist p.1 p.2)
  | .centripetal => pure ((pts.zip (pts.tail ++ pts.take 1)).map fun p => sqrt (dist p.1 p.2))

/-- `iter().scan(T::zero(), |p, x| { *p += *x; Some(*p) })`, nurbs_curve.rs 2102-2109. -/
def prefixSums : K → List K → List K
  | _, [] => []
  | acc, x :: xs => (acc + x) :: prefixSums (acc + x) xs

/-- The knot vector of the periodic interpolation, nurbs_curve.rs 2087-2124. -/
def periodicKnots (params : List K) (nPts degree : ℕ) : Res (List K) := do
  let d ← subR degree 1
  let head ← sliceR params 0 d
  let t ← subR params.length degree
  let tail ← sliceR params (t + 1) params.length
  let knots := (0 : K) :: prefixSums 0 (tail ++ params ++ head)
  let m := nPts + degree
  let k0 ← (if degree > 2 then do
      let a ← getR knots 0
      let b ← getR knots (m + 1)
      let c ← getR knots m
      pure (a - (b - c))
    else getR knots 0)
  let l ← subR knots.length 1
  let k1 ← (if degree > 2 then do
      let a ← getR knots l
      let b ← getR knots (degree + 1)
      let c ← getR knots degree
      pure (a + (b - c))
    else getR knots l)
  pure ([k0] ++ knots ++ [k1])

/-- One matrix row of the periodic interpolation, nurbs_curve.rs 2133-2152. -/
def periodicRow (eps : K) (knots : List K) (n degree pad i : ℕ) : Res (List K) := do
  let u ← getR knots (i + degree)
  let s ← findKnotSpanIndex eps knots n degree u
  let basis ← basisFunctions knots s u degree
  let padded := basis ++ List.replicate pad 0
  let ls ← subR s degree
  let k ← subR padded.length ls
  let a ← sliceR padded k padded.length
  let b ← sliceR padded 0 k
  pure (a ++ b)

/-- `try_periodic_interpolate_control_points`, nurbs_curve.rs 2076-2160. -/
def periodicControlPoints (eps : K) (dist : W → W → K) (sqrt : K → K)
    (solve : List (List K) → List W → Option (List W)) (pts : List W) (degree : ℕ)
    (style : KnotStyle) : Res (List W × List K) :=
  if pts.length < degree + 1 then .error .err
  else do
    let params ← parameterizeClosed dist sqrt style pts
    let knots ← periodicKnots params pts.length degree
    let pad ← subR pts.length (degree + 1)
    let n ← subR knots.length degree
    let n ← subR n 2
    let rows ← (List.range pts.length).mapM fun i => periodicRow eps knots n degree pad i
    match solve rows pts with
    | none => .error .err
    | some x => do
      let more ← (List.range degree).mapM fun i => getR x i
      pure (x ++ more, knots)

/-- `NurbsCurve::try_periodic_interpolate`, nurbs_curve.rs 772-798. -/
def tryPeriodicInterpolate (eps : K) (dist : W → W → K) (sqrt : K → K)
    (solve : List (List K) → List W → Option (List W)) (pts : List W) (degree : ℕ)
    (style : KnotStyle) : Res (Curve K (W × K)) := do
  let r ← periodicControlPoints eps dist sqrt solve pts degree style
  Curve.tryNew degree (r.1.map Curve.homogenize) r.2

end Interp
end Curvo

/-
  Model of `/repo/src/curve/nurbs_curve.rs`, part 1: construction, evaluation, simple edits.

  A homogeneous point `OPoint<T, D>` is an element of a `K`-module `V`; where the weight (the last
  coordinate) is used, `V = W × K` with `W` the module of the first `D - 1` coordinates.
-/
import Mathlib.Algebra.Module.Prod
import Mathlib.Algebra.Module.LinearMap.Defs
import Verif.Model.Knot

namespace Curvo

/-- `NurbsCurve`, nurbs_curve.rs 27-38. -/
structure Curve (K V : Type) where
  degree : ℕ
  cps : List V
  knots : List K

namespace Curve

variable {K : Type} [Field K] [LinearOrder K] {V W : Type}

/-- `NurbsCurve::try_new`, nurbs_curve.rs 77-101. `sort_by` with `partial_cmp` is a sort by `≤`
    (its `unwrap` panics on NaN only, which the model does not have). -/
def tryNew (degree : ℕ) (cps : List V) (knots : List K) : Res (Curve K V) :=
  if ¬ cps.length > degree then .error .err
  else if ¬ knots.length = cps.length + degree + 1 then .error .err
  else pure { degree := degree, cps := cps, knots := knots.mergeSort (fun a b => decide (a ≤ b)) }

/-- `NurbsCurve::knots_domain`, nurbs_curve.rs 390-392. -/
def knotsDomain (c : Curve K V) : Res (K × K) := Knots.domain c.knots c.degree

/-- `NurbsCurve::knots_constrain`, nurbs_curve.rs 399-401. -/
def knotsConstrain (c : Curve K V) (u : K) : Res K := Knots.clamp c.knots c.degree u

/-- `self.knots.len() - self.degree - 2`, nurbs_curve.rs 251 / 340. -/
def lastIndex (c : Curve K V) : Res ℕ := do
  let n ← subR c.knots.length c.degree
  subR n 2

section eval
variable [AddCommGroup V] [Module K V]

/-- The accumulation loop of `NurbsCurve::point`, nurbs_curve.rs 255-258. -/
def sumPoints (cps : List V) (basis : List K) (off degree : ℕ) : Res V :=
  (List.range (degree + 1)).foldlM (fun acc i => do
    let c ← getR cps (off + i)
    let b ← getR basis i
    pure (acc + b • c)) 0

/-- `NurbsCurve::point`, nurbs_curve.rs 250-260. -/
def point (eps : K) (c : Curve K V) (t : K) : Res V := do
  let n ← c.lastIndex
  let s ← Knots.findKnotSpanIndex eps c.knots n c.degree t
  let basis ← Knots.basisFunctions c.knots s t c.degree
  let off ← subR s c.degree
  sumPoints c.cps basis off c.degree

end eval

section rational
variable [AddCommGroup W] [Module K W]

/-- `dehomogenize`, nurbs_curve.rs 1990-2008. -/
def dehomogenize (p : W × K) : Option W := if p.2 ≠ 0 then some (p.2⁻¹ • p.1) else none

/-- `p.to_homogeneous()` followed by `OPoint::from_slice`, e.g. nurbs_curve.rs 155-158. -/
def homogenize (p : W) : W × K := (p, 1)

/-- `NurbsCurve::point_at`, nurbs_curve.rs 196-203. -/
def pointAt (eps : K) (c : Curve K (W × K)) (t : K) : Res W := do
  let p ← c.point eps t
  unwrapR (dehomogenize p)

/-- `NurbsCurve::dehomogenized_control_points`, nurbs_curve.rs 177-186. -/
def dehomogenizedCps (c : Curve K (W × K)) : Res (List W) :=
  c.cps.mapM fun p => unwrapR (dehomogenize p)

/-- `NurbsCurve::weights`, nurbs_curve.rs 188-193. -/
def weights (c : Curve K (W × K)) : List K := c.cps.map Prod.snd

/-- `NurbsCurve::sample_regular_range_with_parameter`, nurbs_curve.rs 228-247. The step is computed
    before the loop, but its value is only used inside, so the division is checked only there. -/
def sampleRegularRangeWithParameter (eps : K) (c : Curve K (W × K)) (start stop : K) (samples : ℕ) :
    Res (List (K × W)) :=
  (List.range samples).mapM fun i : ℕ => do
    let step ← divR (stop - start) ((samples : K) - 1)
    let t := start + (i : K) * step
    let p ← c.pointAt eps t
    pure (t, p)

/-- `NurbsCurve::sample_regular_range`, nurbs_curve.rs 206-224. -/
def sampleRegularRange (eps : K) (c : Curve K (W × K)) (start stop : K) (samples : ℕ) : Res (List W) :=
  (List.range samples).mapM fun i : ℕ => do
    let step ← divR (stop - start) ((samples : K) - 1)
    c.pointAt eps (start + (i : K) * step)

/-- `EndPoints::first_point`, end_points.rs 26-28. -/
def firstPoint (eps : K) (c : Curve K (W × K)) : Res W := do
  let d ← c.knotsDomain
  c.pointAt eps d.1

/-- `EndPoints::end_point`, end_points.rs 30-32. -/
def endPoint (eps : K) (c : Curve K (W × K)) : Res W := do
  let d ← c.knotsDomain
  c.pointAt eps d.2

/-- Loop of `NurbsCurve::polyline`, nurbs_curve.rs 137-141: running chord lengths. -/
def chordGo (dist : W → W → K) : K → List W → List K
  | acc, p :: q :: rest => (acc + dist p q) :: chordGo dist (acc + dist p q) (q :: rest)
  | _, _ => []

/-- The final value of `acc` in `NurbsCurve::polyline`, nurbs_curve.rs 137-142. -/
def chordTotal (dist : W → W → K) (pts : List W) : K := ((0 : K) :: chordGo dist 0 pts).getLast (by simp)

/-- `NurbsCurve::polyline`, nurbs_curve.rs 128-161. `dist p q` stands for `(p - q).norm()`.
    `points.len() - 1` underflows on an empty slice. -/
def polyline (dist : W → W → K) (pts : List W) (normalize : Bool) : Res (Curve K (W × K)) := do
  let _ ← subR pts.length 1
  let acc := chordTotal dist pts
  let knots := [0, 0] ++ chordGo dist 0 pts ++ [acc]
  let knots ← if normalize then knots.mapM (fun k => divR k acc) else pure knots
  pure { degree := 1, knots := knots, cps := pts.map homogenize }

/-- `NurbsCurve::try_periodic`, nurbs_curve.rs 660-689; `points.iter().cycle().take(n + degree)`. -/
def tryPeriodic (pts : List W) (degree : ℕ) : Res (Curve K (W × K)) :=
  let n := pts.length
  if n < degree + 1 then .error .err
  else do
    let cps ← (List.range (n + degree)).mapM fun i => getR pts (i % n)
    pure { degree := degree, cps := cps.map homogenize,
           knots := (List.range (n + 1 + degree * 2)).map (fun i : ℕ => (i : K)) }

/-- `NurbsCurve::elevate_dimension`, nurbs_curve.rs 1076-1097: a zero coordinate is put before the
    weight. -/
def elevateDimension (c : Curve K (W × K)) : Curve K ((W × K) × K) :=
  { degree := c.degree, knots := c.knots, cps := c.cps.map fun p => ((p.1, 0), p.2) }

/-- A `D × D` matrix acting on homogeneous coordinates (`OMatrix<T, Const<D>, Const<D>>`, nurbs_curve.rs 1805-1808), in blocks: `(x, w) ↦ (A x + w b, c x + w d)`. -/
structure Matrix4 (K W : Type) [Field K] [AddCommGroup W] [Module K W] where
  A : W →ₗ[K] W
  b : W
  c : W →ₗ[K] K
  d : K

/-- Matrix times point, `transform * pt` of nurbs_curve.rs 1817. -/
def Matrix4.apply (m : Matrix4 K W) (p : W × K) : W × K := (m.A p.1 + p.2 • m.b, m.c p.1 + p.2 * m.d)

/-- Body of the loop of `Transformable::transform`, nurbs_curve.rs 1809-1822. -/
def transformPoint (m : Matrix4 K W) (p : W × K) : Res (W × K) := do
  let ow := p.2
  let inv ← divR 1 ow
  let t := m.apply (inv • p.1, 1)
  let winv ← divR 1 t.2
  pure (ow • (winv • t.1), ow)

/-- `Transformable::transform`, nurbs_curve.rs 1808-1824. -/
def transform (m : Matrix4 K W) (c : Curve K (W × K)) : Res (Curve K (W × K)) := do
  let cps ← c.cps.mapM (transformPoint m)
  pure { c with cps := cps }

/-- `NurbsCurve::is_closed`, nurbs_curve.rs 1556-1576. `dist` stands for the norm of the difference. -/
def isClosed (eps : K) (dist : W → W → K) (c : Curve K (W × K)) : Res Bool := do
  let clamped ← Knots.isClamped eps c.knots c.degree
  if clamped then
    let pts ← c.dehomogenizedCps
    let a ← getR pts 0
    let i ← subR c.cps.length 1
    let b ← getR pts i
    pure (decide (dist a b < eps * 10))
  else
    let d ← c.knotsDomain
    let s ← c.pointAt eps d.1
    let e ← c.pointAt eps d.2
    pure (decide (dist s e < eps * 10))

end rational

/-- `NurbsCurve::normalize_knots`, nurbs_curve.rs 424-430. -/
def normalizeKnots (c : Curve K V) : Res (Curve K V) := do
  let d ← c.knotsDomain
  let ks ← c.knots.mapM (fun k => divR (k - d.1) (d.2 - d.1))
  pure { c with knots := ks }

/-- `Invertible::invert`, nurbs_curve.rs 1849-1852. -/
def invert (c : Curve K V) : Res (Curve K V) := do
  let ks ← Knots.invert c.knots
  pure { c with cps := c.cps.reverse, knots := ks }

end Curve

end Curvo

/-
  Model of the closest point searches: `find_closest_parameter` and `find_closest_point` of
  src/curve/nurbs_curve.rs and src/surface/nurbs_surface.rs and the files in src/closest_parameter.

  The executor of the external crate `argmin` 0.10 is modelled by its documented loop: `init`, then while the
  solver's `terminate` does not stop it and fewer than `max_iters` steps were made, `next_iter`; after each of
  them a parameter whose cost is below the best cost, or any parameter while both costs are infinite, becomes
  the best parameter.  The Newton method of the curve never sets a cost, so its best parameter is the last one.

  Simplified: norms and inner products are parameters; a division by zero faults with `nonfinite`.
-/
import Verif.Model.Tess

namespace Curvo.Closest

variable {K W : Type} [Field K] [LinearOrder K] [AddCommGroup W] [Module K W]

/-! ### Curves -/

/-- `segment_closest_point`, trigonometry.rs 28-58, with the norm and the inner product as parameters
    (`Misc.segmentClosestPoint` is the real instance). -/
def segmentClosest (nrm : W → K) (dot : W → W → K) (eps : K) (pt start stop : W) (u0 u1 : K) : K × W :=
  let dif := stop - start
  let l := nrm dif
  if l < eps then (u0, start)
  else
    let r := (1 / l) • dif
    let x := dot (pt - start) r
    if x < 0 then (u0, start)
    else if l < x then (u1, stop)
    else (u0 + (u1 - u0) * x / l, x • r + start)

/-- Body of the loop over the sampled segments, nurbs_curve.rs 1689-1702: state least distance (`none` is the
    largest number) and its parameter. -/
def keepNearest (nrm : W → K) (dot : W → W → K) (eps : K) (pt : W) (st : Option K × K) (s : (K × W) × (K × W)) :
    Option K × K :=
  let r := segmentClosest nrm dot eps pt s.1.2 s.2.2 s.1.1 s.2.1
  let d := nrm (pt - r.2)
  if st.1.all (d < ·) then (some d, r.1) else st

/-- The initial guess, nurbs_curve.rs 1679-1702. -/
def guess (nrm : W → K) (dot : W → W → K) (eps : K) (c : Curve K (W × K)) (pt : W) : Res K := do
  let d ← c.knotsDomain
  let pts ← c.sampleRegularRangeWithParameter eps d.1 d.2 (c.cps.length * c.degree)
  let _ ← subR pts.length 1
  pure ((pts.zip pts.tail).foldl (keepNearest nrm dot eps pt) (none, d.1)).2

/-- `CurveClosestParameterProblem::gradient`, curve_closest_parameter_problem.rs 41-47. -/
def gradient (dot : W → W → K) (eps : K) (c : Curve K (W × K)) (pt : W) (u : K) : Res K := do
  let pv ← c.pointTangentAt eps u
  pure (dot pv.2 (pv.1 - pt))

/-- `CurveClosestParameterProblem::hessian`, curve_closest_parameter_problem.rs 60-66. -/
def hessian (dot : W → W → K) (eps : K) (c : Curve K (W × K)) (pt : W) (u : K) : Res K := do
  let e ← c.rationalDerivatives eps u 2
  let e0 ← getR e 0
  let e2 ← getR e 2
  let e1 ← getR e 1
  pure (dot e2 (e0 - pt) + dot e1 e1)

/-- The parameter brought back to the domain, curve_closest_parameter_newton.rs 71-85. -/
def constrain (d : K × K) (closed : Bool) (x : K) : K :=
  if x < d.1 then (if closed then d.2 - (x - d.1) else d.1)
  else if d.2 < x then (if closed then d.1 + (x - d.2) else d.2)
  else x

/-- `CurveClosestParameterNewton::next_iter`, curve_closest_parameter_newton.rs 52-88, with `gamma` = 1. -/
def newtonStep (dot : W → W → K) (eps : K) (c : Curve K (W × K)) (pt : W) (d : K × K) (closed : Bool) (u : K) :
    Res K := do
  let g ← gradient dot eps c pt u
  let h ← hessian dot eps c pt u
  let inv ← divR 1 h
  pure (constrain d closed (u - inv * g))

/-- The executor with `terminate`, curve_closest_parameter_newton.rs 90-107: `n` steps are left, `prev` is the
    parameter before the last step. -/
def newtonRun (eps : K) (step : K → Res K) : ℕ → Option K → K → Res K
  | 0, _, u => pure u
  | n + 1, prev, u =>
    if prev.any (fun p => |u - p| < eps) then pure u
    else do
      let u' ← step u
      newtonRun eps step n (some u) u'

/-- `NurbsCurve::find_closest_parameter`, nurbs_curve.rs 1671-1716. -/
def findClosestParameter (nrm : W → K) (dot : W → W → K) (eps : K) (c : Curve K (W × K)) (pt : W) : Res K := do
  let d ← c.knotsDomain
  let u ← guess nrm dot eps c pt
  let closed ← c.isClosed eps (fun a b => nrm (a - b))
  newtonRun eps (newtonStep dot eps c pt d closed) 5 none u

/-- `NurbsCurve::find_closest_point`, nurbs_curve.rs 1658-1668. -/
def findClosestPoint (nrm : W → K) (dot : W → W → K) (eps : K) (c : Curve K (W × K)) (pt : W) : Res W := do
  let u ← findClosestParameter nrm dot eps c pt
  c.pointAt eps u

/-! ### Surfaces -/

/-- `constrain`, surface_closest_parameter_newton.rs 198-214. -/
def constrainEps (eps : K) (d : K × K) (closed : Bool) (x : K) : K :=
  if x < d.1 then (if closed then d.2 - (x - d.1) else d.1 + eps)
  else if d.2 < x then (if closed then d.1 + (x - d.2) else d.2 - eps)
  else x

/-- `SurfaceClosestParameterProblem::cost`, surface_closest_parameter_problem.rs 42-46. -/
def distanceCost (nrm : W → K) (eps : K) (S : Surface K (W × K)) (pt : W) (uv : K × K) : Res K := do
  let p ← S.pointAt eps uv.1 uv.2
  pure (nrm (p - pt))

/-- The solution of the symmetric system `[a b; b c] x = (p, q)` by nalgebra's LU decomposition,
    surface_closest_parameter_newton.rs 129-133 (in exact
    arithmetic it exists exactly when the determinant is not zero). -/
def solve2 (a b c p q : K) : Res (K × K) :=
  if a * c - b * b = 0 then .error .err
  else .ok ((p * c - b * q) / (a * c - b * b), (a * q - b * p) / (a * c - b * b))

/-- The proposed parameter, surface_closest_parameter_newton.rs 95-146 (`gamma` = 1/4); `none` when the step is
    refused because the point is reached or both second derivatives vanish. -/
def propose (nrm : W → K) (dot : W → W → K) (eps : K) (S : Surface K (W × K)) (pt : W) (uv : K × K) :
    Res (Option (K × K)) := do
  let p ← S.pointAt eps uv.1 uv.2
  let dif := p - pt
  let e ← S.rationalDerivatives eps uv.1 uv.2 2
  let su ← get2R e 1 0
  let sv ← get2R e 0 1
  let suu ← get2R e 2 0
  let svv ← get2R e 0 2
  let suv ← get2R e 1 1
  let gu := dot su dif
  let gv := dot sv dif
  if nrm dif < 1 / 100000 then pure none
  else
    let duu := dot su su + dot suu dif
    let dvv := dot sv sv + dot svv dif
    if duu < eps then
      if dvv < eps then pure none
      else do
        let y ← divR (-gv) dvv
        pure (some (uv.1 + 0 * (1 / 4), uv.2 + y * (1 / 4)))
    else if dvv < eps then do
      let x ← divR (-gu) duu
      pure (some (uv.1 + x * (1 / 4), uv.2 + 0 * (1 / 4)))
    else do
      let duv := dot su sv + dot suv dif
      let r ← solve2 duu duv dvv (-gu) (-gv)
      pure (some (uv.1 + r.1 * (1 / 4), uv.2 + r.2 * (1 / 4)))

/-- `SurfaceClosestParameterNewton::next_iter`, surface_closest_parameter_newton.rs 80-171: the new parameter
    with its cost; a step that raises the cost is refused. -/
def surfaceStep (nrm : W → K) (dot : W → W → K) (eps : K) (S : Surface K (W × K)) (pt : W)
    (du dv : K × K) (cu cv : Bool) (st : (K × K) × K) : Res ((K × K) × K) := do
  let x ← propose nrm dot eps S pt st.1
  match x with
  | none => pure st
  | some x => do
    let x := (constrainEps eps du cu x.1, constrainEps eps dv cv x.2)
    let c ← distanceCost nrm eps S pt x
    if st.2 < c then pure st else pure (x, c)

/-- The executor with `terminate`, surface_closest_parameter_newton.rs 173-195: the state is the parameter with
    its cost, `best` the best parameter with its cost; `nrm2` is the norm of a pair. -/
def surfaceRun (eps : K) (nrm2 : K × K → K) (step : (K × K) × K → Res ((K × K) × K)) :
    ℕ → Option (K × K) → (K × K) × K → (K × K) × K → Res (K × K)
  | 0, _, _, best => pure best.1
  | n + 1, prev, st, best =>
    if prev.any (fun p => nrm2 (st.1 - p) < eps) then pure best.1
    else do
      let st' ← step st
      surfaceRun eps nrm2 step n (some st.1) st' (if st'.2 < best.2 then st' else best)

/-- Body of the loop over the vertices, nurbs_surface.rs 951-958: state least squared distance (`none` is
    infinity) and its parameters. -/
def keepVertex (normSq : W → K) (pt : W) (st : Option K × (K × K)) (v : W × (K × K)) : Option K × (K × K) :=
  let d := normSq (pt - v.1)
  if st.1.all (d < ·) then (some d, v.2) else st

/-- The test whether the first and the last row coincide, nurbs_surface.rs 961-966. -/
def uClosed (nrm : W → K) (eps : K) (pts : List (List W)) : Res Bool := do
  let u0 ← unwrapR pts.head?
  let u1 ← unwrapR pts.getLast?
  (List.range u0.length).foldlM (fun b i => if b then do
    let x ← getR u0 i
    let y ← getR u1 i
    pure (decide (nrm (x - y) < eps * 10)) else pure false) true

/-- The test whether the first and the last column coincide, nurbs_surface.rs 967-972. -/
def vClosed (nrm : W → K) (eps : K) (pts : List (List W)) : Res Bool :=
  pts.foldlM (fun b row => if b then do
    let x ← unwrapR row.head?
    let y ← unwrapR row.getLast?
    pure (decide (nrm (x - y) < eps * 10)) else pure false) true

/-- `NurbsSurface::find_closest_parameter`, nurbs_surface.rs 923-992; `fuel` bounds the recursion of the
    tessellation, `dflt` holds its default options. -/
def findClosestParameterS (nrm : W → K) (dot : W → W → K) (nrm2 : K × K → K) (M : Tess.Metric K W) (eps : K)
    (fuel : ℕ) (dflt : Tess.Options K) (S : Surface K (W × K)) (pt : W) : Res (K × K) := do
  let du ← S.uDomain
  let dv ← S.vDomain
  let nu ← subR S.cps.length 1
  let row0 ← getR S.cps 0
  let nv ← subR row0.length 1
  let o : Tess.Options K := { dflt with minDivsU := nu * 2, minDivsV := nv * 2 }
  let t ← Tess.tessellateSurface M eps fuel S none (some o) dflt
  let uv := ((t.points.zip t.uvs).foldl (keepVertex M.normSq pt) (none, (du.1, dv.1))).2
  let pts ← S.dehomogenizedCps
  let cu ← uClosed nrm eps pts
  let cv ← vClosed nrm eps pts
  let c ← distanceCost nrm eps S pt uv
  surfaceRun eps nrm2 (surfaceStep nrm dot eps S pt du dv cu cv) 100 none (uv, c) (uv, c)

/-- `NurbsSurface::find_closest_point`, nurbs_surface.rs 908-920. -/
def findClosestPointS (nrm : W → K) (dot : W → W → K) (nrm2 : K × K → K) (M : Tess.Metric K W) (eps : K)
    (fuel : ℕ) (dflt : Tess.Options K) (S : Surface K (W × K)) (pt : W) : Res W := do
  let uv ← findClosestParameterS nrm dot nrm2 M eps fuel dflt S pt
  S.pointAt eps uv.1 uv.2

end Curvo.Closest

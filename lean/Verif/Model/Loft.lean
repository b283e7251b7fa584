/-
  Model of the loft: `/repo/src/surface/nurbs_surface.rs` 673-724, and of the sweep, 1107-1130.
-/
import Verif.Model.Elevate
import Verif.Model.Interp
import Verif.Model.Surface
import Verif.Model.Frame

namespace Curvo.Loft

variable {K : Type} [Field K] [LinearOrder K] {V : Type} [AddCommGroup V] [Module K V]

/-- One column of control points interpolated in the v direction, nurbs_surface.rs 686-708. The
    homogeneous control points (weight included) are the data points. -/
def column (eps : K) (dist : V → V → K) (solve : List (List K) → List V → Option (List V))
    (us : List (Curve K V)) (q i : ℕ) : Res (Curve K V) := do
  let pts ← us.mapM fun c => getR c.cps i
  let r ← Interp.controlPoints eps dist solve pts q
  Curve.tryNew q r.1 r.2

/-- `NurbsSurface::try_loft` after unification, nurbs_surface.rs 680-723: the v knots are those of
    the last column; the surface is built without validation. -/
def loftSections (eps : K) (dist : V → V → K) (solve : List (List K) → List V → Option (List V))
    (us : List (Curve K V)) (degreeV : Option ℕ) : Res (Surface K V) := do
  let c0 ← getR us 0
  let m ← subR us.length 1
  let q := min (degreeV.getD c0.degree) m
  let cols ← (List.range c0.cps.length).mapM fun i => column eps dist solve us q i
  let last ← unwrapR cols.getLast?
  pure { cps := cols.map (·.cps), uDegree := c0.degree, vDegree := q, uKnots := c0.knots, vKnots := last.knots }

/-- `NurbsSurface::try_loft`, nurbs_surface.rs 673-724. -/
def tryLoft (eps : K) (dist : V → V → K) (solve : List (List K) → List V → Option (List V))
    (cs : List (Curve K V)) (degreeV : Option ℕ) : Res (Surface K V) := do
  let us ← Curve.tryUnify eps cs
  loftSections eps dist solve us degreeV

open Frame

/-- `FrenetFrame::matrix`, frenet_frame.rs 52-56, as the homogeneous matrix that `profile.transformed(&transform.into())`
    uses, nurbs_surface.rs 1124-1125: the rotation, then the translation to the position of the frame. -/
noncomputable def frameMatrix (f : FrenetFrame) : Res (Curve.Matrix4 ℝ V3) := do
  let r ← faceTowards f.tangent f.normal
  pure { A := (LinearMap.proj 0).smulRight r.1 + (LinearMap.proj 1).smulRight r.2.1 + (LinearMap.proj 2).smulRight r.2.2
         b := f.position, c := 0, d := 1 }

/-- The parameters on the rail, nurbs_surface.rs 1112-1118. -/
noncomputable def railParameters (rail : Curve ℝ (V3 × ℝ)) : Res (List ℝ) := do
  let d ← rail.knotsDomain
  let samples := rail.cps.length * 2
  let m ← subR samples 1
  let span ← divR (d.2 - d.1) (m : ℝ)
  pure ((List.range samples).map fun (i : ℕ) => d.1 + (i : ℝ) * span)

/-- The moved profiles, nurbs_surface.rs 1120-1127. -/
noncomputable def sweepSections (eps : ℝ) (profile rail : Curve ℝ (V3 × ℝ)) : Res (List (Curve ℝ (V3 × ℝ))) := do
  let params ← railParameters rail
  let fs ← frames eps rail params
  fs.mapM fun f => do
    let m ← frameMatrix f
    profile.transform m

/-- `NurbsSurface::try_sweep`, nurbs_surface.rs 1107-1130. -/
noncomputable def trySweep (eps : ℝ) (dist : V3 × ℝ → V3 × ℝ → ℝ)
    (solve : List (List ℝ) → List (V3 × ℝ) → Option (List (V3 × ℝ))) (profile rail : Curve ℝ (V3 × ℝ))
    (degreeV : Option ℕ) : Res (Surface ℝ (V3 × ℝ)) := do
  let curves ← sweepSections eps profile rail
  tryLoft eps dist solve curves degreeV

end Curvo.Loft

/-
  Model of the frames along a curve, `/repo/src/curve/nurbs_curve.rs` 1858-1914 and `/repo/src/misc/frenet_frame.rs`.

  Vectors are triples of reals.  Norm, arc cosine, sine and cosine are the exact ones.  The functions
  `Rotation3::from_axis_angle` and `Rotation3::face_towards` of the external crate nalgebra are modelled from its
  documentation.
-/
import Mathlib.LinearAlgebra.CrossProduct
import Mathlib.Analysis.SpecialFunctions.Trigonometric.Inverse
import Verif.Model.Deriv

namespace Curvo

namespace Frame

open Matrix

/-- `Vector3<T>`, frenet_frame.rs 8-13. -/
abbrev V3 := Fin 3 → ℝ

/-- `v.norm()`, nurbs_curve.rs 1892. -/
noncomputable def norm (v : V3) : ℝ := Real.sqrt (v ⬝ᵥ v)

/-- `v.normalize()`, nurbs_curve.rs 1891; the components are not a number (`none`) when the vector is zero. -/
noncomputable def unit (v : V3) : Option V3 := open Classical in if v = 0 then none else some ((norm v)⁻¹ • v)

/-- `v.normalize()` where the result is stored, nurbs_curve.rs 1861, 1884-1886 and 1903. -/
noncomputable def normalize (v : V3) : Res V3 :=
  match unit v with
  | some w => .ok w
  | none => .error .nonfinite

/-- `Rotation3::from_axis_angle(k, theta) * v` of nalgebra, nurbs_curve.rs 1897-1898: the product with the matrix of the rotation. -/
noncomputable def rotate (k : V3) (theta : ℝ) (v : V3) : V3 :=
  let s := Real.sin theta
  let c := Real.cos theta
  ![(k 0 * k 0 + (1 - k 0 * k 0) * c) * v 0 + (k 0 * k 1 * (1 - c) - k 2 * s) * v 1 + (k 0 * k 2 * (1 - c) + k 1 * s) * v 2,
    (k 0 * k 1 * (1 - c) + k 2 * s) * v 0 + (k 1 * k 1 + (1 - k 1 * k 1) * c) * v 1 + (k 1 * k 2 * (1 - c) - k 0 * s) * v 2,
    (k 0 * k 2 * (1 - c) - k 1 * s) * v 0 + (k 1 * k 2 * (1 - c) + k 0 * s) * v 1 + (k 2 * k 2 + (1 - k 2 * k 2) * c) * v 2]

/-- `FrenetFrame`, frenet_frame.rs 8-13. -/
structure FrenetFrame where
  position : V3
  tangent : V3
  normal : V3
  binormal : V3

/-- The axis with the smallest component of the tangent, nurbs_curve.rs 1867-1884; the first comparison is with the
    largest number and always holds. -/
noncomputable def axis (t : V3) : V3 :=
  let r : ℝ × V3 := (|t 0|, ![1, 0, 0])
  let r : ℝ × V3 := if |t 1| ≤ r.1 then (|t 1|, ![0, 1, 0]) else r
  if |t 2| ≤ r.1 then ![0, 0, 1] else r.2

/-- The next normal, nurbs_curve.rs 1890-1904: comparisons with a value that is not a number fail. -/
noncomputable def nextNormal (eps : ℝ) (t t' n : V3) : V3 :=
  match unit (t ⨯₃ t') with
  | some v =>
    if norm v > eps then rotate ((norm v)⁻¹ • v) (Real.arccos (max (-1) (min 1 (t ⬝ᵥ t')))) n
    else n
  | none => n

/-- The loop over the parameters, nurbs_curve.rs 1890-1907: the normals after the first. -/
noncomputable def normals (eps : ℝ) : V3 → V3 → List V3 → List V3
  | _, _, [] => []
  | t, n, t' :: ts => nextNormal eps t t' n :: normals eps t' (nextNormal eps t t' n) ts

/-- One frame, nurbs_curve.rs 1888, 1906 and 1909-1916. -/
noncomputable def mkFrame (c : Curve ℝ (V3 × ℝ)) (eps : ℝ) (x : ℝ × V3 × V3) : Res FrenetFrame := do
  let b ← normalize (x.2.1 ⨯₃ x.2.2)
  let p ← c.pointAt eps x.1
  pure { position := p, tangent := x.2.1, normal := x.2.2, binormal := b }

/-- `NurbsCurve3D::compute_frenet_frames`, nurbs_curve.rs 1858-1914. -/
noncomputable def frames (eps : ℝ) (c : Curve ℝ (V3 × ℝ)) (params : List ℝ) : Res (List FrenetFrame) := do
  let ts ← params.mapM fun u => do
    let t ← c.tangentAt eps u
    normalize t
  let t0 ← getR ts 0
  let v ← normalize (t0 ⨯₃ axis t0)
  let n0 ← normalize (t0 ⨯₃ v)
  (params.zip (ts.zip (n0 :: normals eps t0 n0 ts.tail))).mapM (mkFrame c eps)

/-- `Rotation3::face_towards(dir, up)` of nalgebra, frenet_frame.rs 47-49: the images of the axes x, y and z. -/
noncomputable def faceTowards (dir up : V3) : Res (V3 × V3 × V3) := do
  let z ← normalize dir
  let x ← normalize (up ⨯₃ z)
  let y ← normalize (z ⨯₃ x)
  pure (x, y, z)

/-- `FrenetFrame::matrix` applied to a point, frenet_frame.rs 47-56. -/
noncomputable def FrenetFrame.apply (f : FrenetFrame) (p : V3) : Res V3 := do
  let r ← faceTowards f.tangent f.normal
  pure (f.position + (p 0 • r.1 + p 1 • r.2.1 + p 2 • r.2.2))

end Frame

end Curvo

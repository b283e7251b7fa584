/-
  Model of the conversions between scalar types (`cast`): every scalar of a knot vector, curve, surface, box or mesh is
  converted, everything else stays.

  The conversion of one scalar (`nalgebra::convert`, nalgebra's `cast`) is a parameter `conv`: exact from single to double
  precision, a rounding to the nearest from double to single precision.
-/
import Verif.Model.Surface
import Verif.Model.Deriv
import Verif.Model.BBox

namespace Curvo

variable {K L : Type} {d : ℕ}

/-- `KnotVector::cast`, knot_vector.rs 377-379. -/
def Knots.cast (conv : K → L) (ks : List K) : List L := ks.map conv

/-- `OPoint::cast` of nalgebra, used in nurbs_curve.rs 1796 and nurbs_surface.rs 1003: every coordinate of the homogeneous point. -/
def castPoint (conv : K → L) (p : (Fin d → K) × K) : (Fin d → L) × L := (fun i => conv (p.1 i), conv p.2)

/-- `NurbsCurve::cast`, nurbs_curve.rs 1788-1801. -/
def Curve.cast (conv : K → L) (c : Curve K ((Fin d → K) × K)) : Curve L ((Fin d → L) × L) where
  degree := c.degree
  cps := c.cps.map (castPoint conv)
  knots := Knots.cast conv c.knots

/-- `NurbsSurface::cast`, nurbs_surface.rs 995-1010. -/
def Surface.cast (conv : K → L) (S : Surface K ((Fin d → K) × K)) : Surface L ((Fin d → L) × L) where
  uDegree := S.uDegree
  vDegree := S.vDegree
  cps := S.cps.map fun row => row.map (castPoint conv)
  uKnots := Knots.cast conv S.uKnots
  vKnots := Knots.cast conv S.vKnots

/-- `BoundingBox::cast`, bounding_box/mod.rs 141-149. -/
def Box.cast (conv : K → L) (b : Box K d) : Box L d where
  min := fun i => conv (b.min i)
  max := fun i => conv (b.max i)

/-- `SurfaceTessellation::cast`, surface_tessellation.rs 174-185. -/
def Surface.Tessellation.cast (conv : K → L) (m : Surface.Tessellation K (Fin d → K)) : Surface.Tessellation L (Fin d → L) where
  points := m.points.map fun p i => conv (p i)
  normals := m.normals.map fun p i => conv (p i)
  faces := m.faces
  uvs := m.uvs.map fun p => (conv p.1, conv p.2)

end Curvo

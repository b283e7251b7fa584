/-
  Model of `/repo/src/polygon_mesh/mod.rs` 59-72: the area of a mesh in space.
-/
import Verif.Model.Misc
import Verif.Model.Frame

namespace Curvo.Mesh

open Curvo.Frame

/-- The doubled triangle area in space, polygon_mesh/mod.rs 65-68. -/
noncomputable def tri3 (a b c : V3) : ℝ := Frame.norm (crossProduct (b - a) (c - a))

/-- `PolygonMesh<T, U3>::area`, polygon_mesh/mod.rs 60-71. -/
noncomputable def area3 (m : Mesh V3) : Res ℝ := m.areaWith tri3

end Curvo.Mesh

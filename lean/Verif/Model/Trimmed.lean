/-
  Trimmed surfaces (surface/trimmed_surface.rs), their tessellation (tessellation/trimmed_surface.rs) and the tessellation of
  regions (tessellation/tessellation_region.rs).

  The constrained Delaunay triangulation of the crate `spade` is a parameter: a function from the inserted vertices to
  the vertices and the inner faces it reports.
-/
import Verif.Model.Misc
import Verif.Model.Tess
import Verif.Model.Closest
import Verif.Model.Intersect
import Verif.Model.Serde
import Verif.Model.Compound2

namespace Curvo.Trimmed

open Curvo Curvo.Misc Curvo.Serde

/-! ### Construction, trimmed_surface.rs -/

section construct
variable {K : Type} [Field K] [LinearOrder K]

/-- A trimming curve, trimmed_surface.rs 16-20: a rational curve in the parameter plane. -/
abbrev UvCurve (K : Type) := Curve K ((K × K) × K)

/-- A control point of the mapped curve, trimmed_surface.rs 152-153 and 170-171. -/
def weighted (uv : K × K) (w : K) : (K × K) × K := ((uv.1 * w, uv.2 * w), w)

section map
variable {W : Type} [AddCommGroup W] [Module K W]

/-- The common body of `try_project_curve`, trimmed_surface.rs 120-157, and `try_map_curve_closest_point`, 159-175: a
    parameter for every control point, same weights, degree and knots. -/
def mapCurve (find : W → Res (K × K)) (c : Curve K (W × K)) : Res (UvCurve K) := do
  let pts ← c.dehomogenizedCps
  let cps ← (pts.zip c.weights).mapM fun pw => do
    let uv ← find pw.1
    pure (weighted uv pw.2)
  Curve.tryNew c.degree cps c.knots

/-- The common body of `try_projection`, trimmed_surface.rs 38-64, and `try_map_closest_point`, 66-93. -/
def mapAll {S C D : Type} (f : C → Res D) (surface : S) (exterior : Option C) (interiors : List C) :
    Res (Trimmed S D) := do
  if exterior.isNone ∧ interiors = [] then .error .err else do
  let ext ← Tess.optMapM f exterior
  let int ← interiors.mapM f
  pure { surface := surface, exterior := ext, interiors := int }

/-- `TrimmedSurface::try_map_closest_point`, trimmed_surface.rs 66-93; `find` is `find_closest_parameter` of the surface. -/
def tryMapClosestPoint (find : W → Res (K × K)) (S : Surface K (W × K)) (exterior : Option (Curve K (W × K)))
    (interiors : List (Curve K (W × K))) : Res (Trimmed (Surface K (W × K)) (UvCurve K)) :=
  mapAll (mapCurve find) S exterior interiors

end map

section project
variable {d : ℕ}

/-- The length of the rays, trimmed_surface.rs 126-130; `norm` is the euclidean norm. -/
def rayLength (norm : (Fin d → K) → K) (b0 b1 : Box K d) (dir : Fin d → K) : K :=
  norm (fun i => b0.center i - b1.center i) + |∑ i, b0.size i * dir i| + |∑ i, b1.size i * dir i|

/-- The ray through a control point, trimmed_surface.rs 131 and 138-139: a line that starts one direction behind the point. -/
def ray (dist : (Fin d → K) → (Fin d → K) → K) (dir : Fin d → K) (len : K) (p : Fin d → K) :
    Res (Curve K ((Fin d → K) × K)) :=
  Curve.polyline dist [p - dir, p + dir + len • dir] true

/-- The parameter of a control point, trimmed_surface.rs 138-152; `hits` is `find_intersections` of the surface with a
    curve. -/
def projectPoint (normSq : (Fin d → K) → K) (dist : (Fin d → K) → (Fin d → K) → K)
    (hits : Curve K ((Fin d → K) × K) → Res (List (Intersect.Hit (Fin d → K) (K × K) K)))
    (dir : Fin d → K) (len : K) (p : Fin d → K) : Res (K × K) := do
  let r ← ray dist dir len p
  let hs ← hits r
  match hs.map fun h => (normSq (p - h.a.1), h) with
  | [] => .error .err
  | x :: xs => pure (Compound.minBy x xs).2.a.2

/-- `try_project_curve`, trimmed_surface.rs 120-157. -/
def projectCurve (norm normSq : (Fin d → K) → K) (dist : (Fin d → K) → (Fin d → K) → K) (big : K)
    (hits : Curve K ((Fin d → K) × K) → Res (List (Intersect.Hit (Fin d → K) (K × K) K)))
    (S : Surface K ((Fin d → K) × K)) (dir : Fin d → K) (c : Curve K ((Fin d → K) × K)) : Res (UvCurve K) := do
  let b0 ← S.boundingBox big
  let b1 ← Box.ofCurve big c
  mapCurve (projectPoint normSq dist hits dir (rayLength norm b0 b1 dir)) c

/-- `TrimmedSurface::try_projection`, trimmed_surface.rs 36-64. -/
def tryProjection (norm normSq : (Fin d → K) → K) (dist : (Fin d → K) → (Fin d → K) → K) (big : K)
    (hits : Curve K ((Fin d → K) × K) → Res (List (Intersect.Hit (Fin d → K) (K × K) K)))
    (S : Surface K ((Fin d → K) × K)) (dir : Fin d → K) (exterior : Option (Curve K ((Fin d → K) × K)))
    (interiors : List (Curve K ((Fin d → K) × K))) : Res (Trimmed (Surface K ((Fin d → K) × K)) (UvCurve K)) :=
  mapAll (projectCurve norm normSq dist big hits S dir) S exterior interiors

end project

variable {W : Type} [AddCommGroup W] [Module K W]

/-- `Transformable::transform`, trimmed_surface.rs 185-187. -/
def transform (m : Curve.Matrix4 K W) (t : Trimmed (Surface K (W × K)) (UvCurve K)) :
    Res (Trimmed (Surface K (W × K)) (UvCurve K)) := do
  let s ← t.surface.transform m
  pure { t with surface := s }

/-- `Invertible::invert`, trimmed_surface.rs 192-198. -/
def invert (t : Trimmed (Surface K (W × K)) (UvCurve K)) : Res (Trimmed (Surface K (W × K)) (UvCurve K)) := do
  let s ← t.surface.invert
  let ext ← Tess.optMapM (fun c : UvCurve K => c.invert) t.exterior
  let int ← t.interiors.mapM fun c : UvCurve K => c.invert
  pure { surface := s, exterior := ext, interiors := int }

end construct

/-! ### Sampling of the trimming curves, tessellation/trimmed_surface.rs -/

section sample
variable {K : Type} [Field K] [LinearOrder K] {W : Type} [AddCommGroup W] [Module K W]

/-- `Vertex`, tessellation/trimmed_surface.rs 17-22. -/
structure Vertex (K W : Type) where
  point : W
  normal : W
  uv : K × K

/-- The euclidean operations of this file (nurbs_surface.rs 410; tessellation/trimmed_surface.rs 340-348). -/
structure Space (K W : Type) where
  /-- `a.cross(&b)` -/
  cross : W → W → W
  /-- `v.norm()` in space -/
  norm : W → K
  /-- `v.norm()` in the parameter plane -/
  norm2 : K × K → K

/-- `Vertex::new` at a parameter, tessellation/trimmed_surface.rs 92-95 and 296-298. -/
def vertexAt (E : Space K W) (eps : K) (S : Surface K (W × K)) (uv : K × K) : Res (Vertex K W) := do
  let p ← S.pointAt eps uv.1 uv.2
  let n ← S.normalAt E.cross eps uv.1 uv.2
  pure ⟨p, n, uv⟩

/-- The test of `iterate_uv_curve_tessellation`, tessellation/trimmed_surface.rs 333-350: the second difference of the
    tangents (unless the curve is linear), then that of the surface normals. The arguments are points and tangents at
    the start, the middle and the end. -/
def bends (E : Space K W) (eps : K) (S : Surface K (W × K)) (degree : ℕ) (tol : K) (a b c : (K × K) × (K × K)) :
    Res Bool :=
  if degree ≠ 1 ∧ tol < E.norm2 ((b.2 - a.2) - (c.2 - b.2)) then pure true
  else do
    let n1 ← S.normalAt E.cross eps a.1.1 a.1.2
    let n2 ← S.normalAt E.cross eps b.1.1 b.1.2
    let n3 ← S.normalAt E.cross eps c.1.1 c.1.2
    pure (decide (tol < E.norm ((n2 - n1) - (n3 - n2))))

/-- `iterate_uv_curve_tessellation`, tessellation/trimmed_surface.rs 316-360. `floor` is the literal `1e-8`; `pt` is
    `point_tangent_at` of the curve and `test` the test above. -/
def iterateUv (floor : K) (pt : K → Res ((K × K) × (K × K)))
    (test : (K × K) × (K × K) → (K × K) × (K × K) → (K × K) × (K × K) → Res Bool) :
    ℕ → K → K → Res (List (K × K))
  | 0, _, _ => .error .diverge
  | fuel + 1, start, stop => do
    let a ← pt start
    if stop - start < floor then pure [a.1]
    else do
      let mid := start + (stop - start) * (1 / 2)
      let b ← pt mid
      let c ← pt stop
      let flag ← test a b c
      if flag then do
        let left ← iterateUv floor pt test fuel start mid
        let right ← iterateUv floor pt test fuel mid stop
        pure (left.dropLast ++ right)
      else pure [a.1, c.1]

/-- The points of `tessellate_uv_curve_adaptive`, tessellation/trimmed_surface.rs 266-314, before they are lifted: linear
    curves are sampled from knot to knot. -/
def uvSamples (E : Space K W) (eps floor : K) (fuel : ℕ) (c : UvCurve K) (S : Surface K (W × K)) (tol : K) :
    Res (List (K × K)) := do
  let go := iterateUv floor (c.pointTangentAt eps) (bends E eps S c.degree tol) fuel
  if c.degree = 1 then do
    let m ← subR c.knots.length 2
    let parts ← ((List.range m).drop 1).mapM fun i => do
      let k0 ← getR c.knots i
      let k1 ← getR c.knots (i + 1)
      let pts ← go k0 k1
      pure (if i = 1 then pts else pts.drop 1)
    pure parts.flatten
  else do
    let (start, stop) ← c.knotsDomain
    go start stop

/-- `tessellate_uv_curve_adaptive`, tessellation/trimmed_surface.rs 266-314. -/
def uvVertices (E : Space K W) (eps floor : K) (fuel : ℕ) (S : Surface K (W × K)) (tol : K) (c : UvCurve K) :
    Res (List (Vertex K W)) := do
  let pts ← uvSamples E eps floor fuel c S tol
  pts.mapM (vertexAt E eps S)

/-- The vertices at given parameters of a trimming curve, tessellation/trimmed_surface.rs 88-96 and 106-114. -/
def constraintVertices (E : Space K W) (eps : K) (S : Surface K (W × K)) (c : UvCurve K) (ts : List K) :
    Res (List (Vertex K W)) :=
  ts.mapM fun t => do
    let uv ← c.pointAt eps t
    vertexAt E eps S uv

/-- `TrimmedSurfaceConstraints`, trimmed_surface_constraints.rs 4-8. -/
structure TrimConstraints (K : Type) where
  exterior : Option (List K)
  interiors : List (Option (List K))

/-- The sampled trimming curves, tessellation/trimmed_surface.rs 81-134. -/
def boundaries (E : Space K W) (eps floor : K) (fuel : ℕ) (tol : K) (t : Trimmed (Surface K (W × K)) (UvCurve K)) :
    Option (TrimConstraints K) → Res (Option (List (Vertex K W)) × List (List (Vertex K W)))
  | some cs =>
    if cs.interiors.length ≠ t.interiors.length then .error .err
    else do
      let one := fun (c : UvCurve K) (k : Option (List K)) => match k with
        | some ts => constraintVertices E eps t.surface c ts
        | none => uvVertices E eps floor fuel t.surface tol c
      let ext ← Tess.optMapM (fun c => one c cs.exterior) t.exterior
      let int ← (t.interiors.zip cs.interiors).mapM fun ck => one ck.1 ck.2
      pure (ext, int)
  | none => do
    let ext ← Tess.optMapM (uvVertices E eps floor fuel t.surface tol) t.exterior
    let int ← t.interiors.mapM (uvVertices E eps floor fuel t.surface tol)
    pure (ext, int)

end sample

/-! ### Selection of the faces -/

section faces
variable {K : Type} [Field K] [LinearOrder K]

/-- What the triangulation of the crate spade reports (tessellation/trimmed_surface.rs 197-220, tessellation_region.rs 68-90): vertices in their order and inner faces by the indices of their corners. -/
structure Triangles (V : Type) where
  vertices : List V
  faces : List (ℕ × ℕ × ℕ)

/-- The twice signed area of a face, tessellation/trimmed_surface.rs 222-223 and tessellation_region.rs 95-96. -/
def faceArea (a b c : K × K) : K := (b.1 - a.1) * (c.2 - b.2) - (b.2 - a.2) * (c.1 - b.1)

/-- The centre of a face, tessellation/trimmed_surface.rs 228 and tessellation_region.rs 108-109. -/
def center (a b c : K × K) : K × K := ((a.1 + b.1 + c.1) * (1 / 3), (a.2 + b.2 + c.2) * (1 / 3))

/-- The condition under which a face is kept, tessellation/trimmed_surface.rs 222-237; without an exterior everything
    outside the holes is kept. Region: the exterior is always there, tessellation_region.rs 95-114. -/
def keep (eps : K) (ext : Option (List (K × K))) (ints : List (List (K × K))) (a b c : K × K) : Bool :=
  if |faceArea a b c| < eps then false
  else
    (match ext with
      | some vs => polygonContains vs (center a b c)
      | none => true) &&
    !ints.any fun vs => polygonContains vs (center a b c)

/-- The `filter_map` over the inner faces, tessellation/trimmed_surface.rs 215-247 and tessellation_region.rs 85-122. -/
def selectFaces {V : Type} (uv : V → K × K) (eps : K) (ext : Option (List (K × K))) (ints : List (List (K × K)))
    (t : Triangles V) : Res (List (ℕ × ℕ × ℕ)) := do
  let kept ← t.faces.mapM fun f => do
    let a ← getR t.vertices f.1
    let b ← getR t.vertices f.2.1
    let c ← getR t.vertices f.2.2
    pure (if keep eps ext ints (uv a) (uv b) (uv c) then some f else none)
  pure (kept.filterMap id)

/-- The vertices of a constraint that are inserted, tessellation/trimmed_surface.rs 157-173: the first one is skipped if
    first and last point agree. -/
def loopOf {W : Type} [DecidableEq W] (vs : List (Vertex K W)) : List (Vertex K W) :=
  match vs.head?, vs.getLast? with
  | some a, some b => if a.point = b.point then vs.drop 1 else vs
  | _, _ => vs

variable {W : Type} [AddCommGroup W] [Module K W]

/-- `trimmed_surface_adaptive_tessellate`, tessellation/trimmed_surface.rs 70-264. `mesh` is the tessellation of the
    untrimmed surface; `delaunay` receives the free vertices and the loops whose edges are constraints (an edge that
    would cross another constraint is not inserted, which is left to `delaunay`). -/
def tessellate [DecidableEq W] (E : Space K W) (eps floor : K) (fuel : ℕ) (tol : K)
    (delaunay : List (Vertex K W) → List (List (Vertex K W)) → Triangles (Vertex K W))
    (mesh : Res (Surface.Tessellation K W)) (t : Trimmed (Surface K (W × K)) (UvCurve K))
    (cs : Option (TrimConstraints K)) : Res (Surface.Tessellation K W) := do
  let b ← boundaries E eps floor fuel tol t cs
  let m ← mesh
  let free := ((m.points.zip m.normals).zip m.uvs).map fun v => (⟨v.1.1, v.1.2, v.2⟩ : Vertex K W)
  let tri := delaunay free ((b.1.toList ++ b.2).map loopOf)
  let faces ← selectFaces Vertex.uv eps (b.1.map fun l => l.map Vertex.uv) (b.2.map fun l => l.map Vertex.uv) tri
  pure { points := tri.vertices.map Vertex.point, normals := tri.vertices.map Vertex.normal, faces := faces,
         uvs := tri.vertices.map Vertex.uv }

/-- `Tessellation::tessellate` for `Region`, tessellation_region.rs 24-127; `sample` tessellates a compound curve. -/
def tessellateRegion {C : Type} (eps : K) (sample : C → Res (List (K × K)))
    (delaunay : List (List (K × K)) → Triangles (K × K)) (r : Boolean.Region C) : Res (Mesh (K × K)) := do
  let ext ← sample r.exterior
  let ints ← r.interiors.mapM sample
  let tri := delaunay (ext :: ints)
  let faces ← selectFaces id eps (some ext) ints tri
  pure ⟨tri.vertices, faces⟩

end faces

end Curvo.Trimmed

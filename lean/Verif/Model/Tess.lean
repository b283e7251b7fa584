/-
  Model of the adaptive tessellation in `/repo/src/tessellation`: curves (`tessellation_curve.rs`) and surfaces
  (`surface.rs`, `surface_point.rs`, `adaptive_tessellation_node.rs`, `adaptive_tessellation_processor.rs`,
  `surface_tessellation.rs`, `boundary_constraints.rs`).

  The metric operations (cross product, normalisation, squared norm of a difference) are collected in `Metric`; the random
  numbers of the curve tessellation are a stream with a position.
-/
import Verif.Model.Deriv
import Mathlib.Data.Fin.VecNotation

namespace Curvo.Tess

/-- The operations of the euclidean space that the tessellation uses (tessellation_curve.rs; surface.rs 148;
    adaptive_tessellation_node.rs 217-243 and 268-274). -/
structure Metric (K W : Type) where
  /-- `a.cross(&b)` -/
  cross : W → W → W
  /-- `v.normalize()` -/
  normalize : W → W
  /-- `v.norm_squared()` -/
  normSq : W → K
  /-- `three_points_are_flat(p1, p2, p3, tol)` -/
  flat : W → W → W → K → Bool

/-! ### Curves -/

section curve
variable {K : Type} [Field K] [LinearOrder K] {W : Type} [AddCommGroup W] [Module K W]

/-- `tessellate_adaptive`, tessellation_curve.rs 37-74.  `floor` is the literal `1e-8`; `rnd pos` the next random number
    in `[0, 1)`; the position of the stream is threaded through. -/
def adaptive (M : Metric K W) (floor : K) (rnd : ℕ → K) (pointAt : K → Res W) (tol : K) :
    ℕ → K → K → ℕ → Res (List W × ℕ)
  | 0, _, _, _ => .error .diverge
  | fuel + 1, start, stop, pos => do
    let p1 ← pointAt start
    let delta := stop - start
    if delta < floor then pure ([p1], pos)
    else do
      let p3 ← pointAt stop
      let t := 1 / 2 + 1 / 5 * rnd pos
      let mid := start + delta * t
      let p2 ← pointAt mid
      if (M.normSq (p1 - p3) < tol ∧ tol < M.normSq (p1 - p2)) ∨ M.flat p1 p2 p3 tol = false then do
        let exactMid := start + (stop - start) * (1 / 2)
        let (left, pos) ← adaptive M floor rnd pointAt tol fuel start exactMid (pos + 1)
        let (right, pos) ← adaptive M floor rnd pointAt tol fuel exactMid stop pos
        pure (left.dropLast ++ right, pos)
      else pure ([p1, p3], pos + 1)

/-- `Tessellation::tessellate` for curves, tessellation_curve.rs 23-32; `tol` is the tolerance (the default is `1e-3`).
    Also returns the position of the random stream. -/
def tessellateCurve (M : Metric K W) (eps floor : K) (rnd : ℕ → K) (fuel : ℕ) (c : Curve K (W × K)) (tol : K) :
    Res (List W × ℕ) := do
  if c.degree = 1 then do
    let pts ← c.cps.mapM fun p => unwrapR (Curve.dehomogenize p)
    pure (pts, 0)
  else do
    let (start, stop) ← c.knotsDomain
    adaptive M floor rnd (c.pointAt eps) tol fuel start stop 0

end curve

/-! ### Boundary parameters -/

section params
variable {K : Type} [LinearOrder K]

/-- `merge_sorted_parameters`, tessellation/surface.rs 233-259.  The two counters are modelled by the remaining suffixes;
    appending the rest is the pair of base cases. -/
def mergeSorted : List K → List K → List K
  | [], q => q
  | p, [] => p
  | a :: p, b :: q =>
    if a < b then a :: mergeSorted p (b :: q)
    else if b < a then b :: mergeSorted (a :: p) q
    else a :: mergeSorted p q
  termination_by p q => p.length + q.length

/-- `Itertools::dedup`, boundary_constraints.rs 94: removes consecutive equal elements. -/
def dedup : List K → List K
  | [] => []
  | [a] => [a]
  | a :: b :: l => if a = b then dedup (b :: l) else a :: dedup (b :: l)

/-- `BoundaryConstraints`, boundary_constraints.rs 10-17. -/
structure Constraints (K : Type) where
  vAtUMin : Option (List K) := none
  uAtVMin : Option (List K) := none
  vAtUMax : Option (List K) := none
  uAtVMax : Option (List K) := none

/-- `BoundaryConstraints::sorted_parameters`, boundary_constraints.rs 85-99. -/
def sortedParameters (mn mx : Option (List K)) : Option (List K) :=
  match mn, mx with
  | none, none => none
  | none, some ma => some ma
  | some mi, none => some mi
  | some mi, some ma => some (dedup ((mi ++ ma).mergeSort (fun a b => decide (a ≤ b))))

/-- `u_parameters`, boundary_constraints.rs 71-76. -/
def Constraints.uParameters (c : Constraints K) : Option (List K) := sortedParameters c.uAtVMin c.uAtVMax

/-- `v_parameters`, boundary_constraints.rs 78-83. -/
def Constraints.vParameters (c : Constraints K) : Option (List K) := sortedParameters c.vAtUMin c.vAtUMax

end params

/-! ### Nodes -/

/-- `SurfacePoint`, surface_point.rs 8-24. -/
structure SPoint (K W : Type) where
  uv : K × K
  point : W
  normal : W
  degenerate : Bool
  uConstraint : Bool := false
  vConstraint : Bool := false
  uMin : Bool := false
  uMax : Bool := false
  vMin : Bool := false
  vMax : Bool := false

/-- `AdaptiveTessellationNode`, adaptive_tessellation_node.rs 16-30.  The cache `mid_points` is left out: every node is
    divided at most once and the children start with an empty cache, so no cached value is ever read. -/
structure Node (K W : Type) where
  id : ℕ
  children : Option (ℕ × ℕ)
  corners : Fin 4 → SPoint K W
  neighbors : Fin 4 → Option ℕ
  direction : UV
  uvCenter : K × K

/-- `AdaptiveTessellationOptions`, adaptive_tessellation_option.rs 5-16. -/
structure Options (K : Type) where
  normTolerance : K
  minDivsU : ℕ := 1
  minDivsV : ℕ := 1
  minDepth : ℕ := 0
  maxDepth : ℕ := 8

/-- `DividableDirection`, adaptive_tessellation_node.rs 282-288. -/
inductive Dividable where
  | both
  | u
  | v
  deriving DecidableEq

section node
variable {K : Type} [Field K] [LinearOrder K] {W : Type} [AddCommGroup W]

/-- `uv[idx]` of a `Vector2`, adaptive_tessellation_node.rs 136. -/
def coord (uv : K × K) (idx : ℕ) : K := if idx = 0 then uv.1 else uv.2

/-- `AdaptiveTessellationNode::new`, adaptive_tessellation_node.rs 38-53. -/
def Node.new (id : ℕ) (corners : Fin 4 → SPoint K W) (neighbors : Fin 4 → Option ℕ) : Node K W where
  id := id
  corners := corners
  neighbors := neighbors
  children := none
  direction := .v
  uvCenter := (((corners 0).uv.1 + (corners 2).uv.1) * (1 / 2), ((corners 0).uv.2 + (corners 2).uv.2) * (1 / 2))

/-- `is_leaf`, adaptive_tessellation_node.rs 59-61. -/
def Node.isLeaf (n : Node K W) : Bool := n.children.isNone

/-- The children that meet an edge, in the order of the edge: the match of `get_edge_corners`,
    adaptive_tessellation_node.rs 77-109. -/
def edgeChildren (dir : UV) (e : Fin 4) (c : ℕ × ℕ) : List ℕ :=
  match dir, e with
  | .u, 0 => [c.1]
  | .u, 1 => [c.1, c.2]
  | .u, 2 => [c.2]
  | .u, 3 => [c.2, c.1]
  | .v, 0 => [c.1, c.2]
  | .v, 1 => [c.2]
  | .v, 2 => [c.2, c.1]
  | .v, 3 => [c.1]

/-- `get_edge_corners`, adaptive_tessellation_node.rs 72-115. -/
def getEdgeCorners (nodes : List (Node K W)) (e : Fin 4) : ℕ → ℕ → Res (List (SPoint K W))
  | 0, _ => .error .diverge
  | fuel + 1, id => do
    let n ← getR nodes id
    match n.children with
    | some c => do
      let parts ← (edgeChildren n.direction e c).mapM (getEdgeCorners nodes e fuel)
      pure parts.flatten
    | none => pure [n.corners e]

/-- `get_all_corners`, adaptive_tessellation_node.rs 117-142; `eps` is `T::default_epsilon()`. -/
def getAllCorners (eps : K) (nodes : List (Node K W)) (n : Node K W) (e : Fin 4) : Res (List (SPoint K W)) :=
  match n.neighbors e with
  | none => pure [n.corners e]
  | some m => do
    let corners ← getEdgeCorners nodes (e + 2) (nodes.length + 1) m
    let idx := e.val % 2
    pure (n.corners e :: (corners.filter fun c =>
      decide (coord (n.corners 0).uv idx + eps < coord c.uv idx ∧ coord c.uv idx < coord (n.corners 2).uv idx - eps)).reverse)

/-- `has_bad_normals`, adaptive_tessellation_node.rs 172-174. -/
def Node.hasBadNormals (n : Node K W) : Bool :=
  (n.corners 0).degenerate || (n.corners 1).degenerate || (n.corners 2).degenerate || (n.corners 3).degenerate

/-- One iteration of `fix_normals`, adaptive_tessellation_node.rs 179-191. -/
def fixNormal (cs : Fin 4 → SPoint K W) (i : Fin 4) : Fin 4 → SPoint K W :=
  if (cs i).degenerate then
    let v1 := cs (i + 1)
    let v2 := cs (i + 3)
    fun j => if j = i then { cs i with normal := if v1.degenerate then v2.normal else v1.normal } else cs j
  else cs

/-- `fix_normals`, adaptive_tessellation_node.rs 176-192. -/
def Node.fixNormals (n : Node K W) : Node K W :=
  { n with corners := [0, 1, 2, 3].foldl fixNormal n.corners }

/-- `should_divide`, adaptive_tessellation_node.rs 195-253: the (possibly corrected) node and the decision. -/
def Node.shouldDivide (M : Metric K W) (o : Options K) (n : Node K W) (depth : ℕ) : Node K W × Option Dividable :=
  if depth < o.minDepth then (n, some .both)
  else if o.maxDepth ≤ depth then (n, none)
  else if n.hasBadNormals then (n.fixNormals, none)
  else
    let far := fun i j : Fin 4 => decide (o.normTolerance < M.normSq ((n.corners i).normal - (n.corners j).normal))
    let v := (far 0 1 || far 2 3) && !((n.corners 0).uConstraint || (n.corners 1).uConstraint ||
      (n.corners 2).uConstraint || (n.corners 3).uConstraint)
    let u := (far 1 2 || far 3 0) && !((n.corners 0).vConstraint || (n.corners 1).vConstraint ||
      (n.corners 2).vConstraint || (n.corners 3).vConstraint)
    (n, match u, v with
      | true, true => some .both
      | true, false => some .u
      | false, true => some .v
      | false, false => none)

/-- The pair of children of a node, adaptive_tessellation_processor.rs 76-150 (with `evaluate_mid_point`,
    adaptive_tessellation_node.rs 145-169).  `ev` evaluates the surface. -/
def splitNode (ev : K × K → Res (SPoint K W)) (n : Node K W) (id0 id1 : ℕ) : Res (Node K W × Node K W) :=
  match n.direction with
  | .u => do
    let east ← ev ((n.corners 1).uv.1, n.uvCenter.2)
    let west ← ev ((n.corners 0).uv.1, n.uvCenter.2)
    pure (Node.new id0 ![n.corners 0, n.corners 1, east, west]
        ![n.neighbors 0, n.neighbors 1, some id1, n.neighbors 3],
      Node.new id1 ![west, east, n.corners 2, n.corners 3]
        ![some id0, n.neighbors 1, n.neighbors 2, n.neighbors 3])
  | .v => do
    let south ← ev (n.uvCenter.1, (n.corners 0).uv.2)
    let north ← ev (n.uvCenter.1, (n.corners 2).uv.2)
    pure (Node.new id0 ![n.corners 0, south, north, n.corners 3]
        ![n.neighbors 0, some id1, n.neighbors 2, n.neighbors 3],
      Node.new id1 ![south, n.corners 1, n.corners 2, north]
        ![n.neighbors 0, n.neighbors 1, n.neighbors 2, some id0])

/-- The direction of a division, adaptive_tessellation_processor.rs 67-74. -/
def Dividable.dir (d : Dividable) (dir : UV) : UV :=
  match d with
  | .both => dir
  | .u => .u
  | .v => .v

/-- `iterate`, adaptive_tessellation_processor.rs 53-159; the fuel bounds the depth of the recursion. -/
def iterate (M : Metric K W) (ev : K × K → Res (SPoint K W)) (o : Options K) :
    ℕ → List (Node K W) → ℕ → ℕ → UV → Res (List (Node K W))
  | 0, _, _, _, _ => .error .diverge
  | fuel + 1, nodes, id, depth, dir => do
    let id0 := nodes.length
    let id1 := id0 + 1
    let node ← getR nodes id
    match node.shouldDivide M o depth with
    | (node, none) => setR nodes id node
    | (node, some d) => do
      let node := { node with direction := d.dir dir }
      let (c0, c1) ← splitNode ev node id0 id1
      let nodes ← setR nodes id { node with children := some (id0, id1) }
      let nodes := nodes ++ [c0, c1]
      let nodes ← iterate M ev o fuel nodes id0 (depth + 1) dir.opposite
      iterate M ev o fuel nodes id1 (depth + 1) dir.opposite

/-- `divide`, adaptive_tessellation_processor.rs 43-50. -/
def divide (M : Metric K W) (ev : K × K → Res (SPoint K W)) (o : Options K) (uDegree fuel : ℕ)
    (nodes : List (Node K W)) (id : ℕ) : Res (List (Node K W)) :=
  iterate M ev o fuel nodes id 0 (if 1 < uDegree then .u else .v)

/-- The loop over the cells of the grid, tessellation/surface.rs 187-192. -/
def divideAll (M : Metric K W) (ev : K × K → Res (SPoint K W)) (o : Options K) (uDegree fuel divsU divsV : ℕ)
    (nodes : List (Node K W)) : Res (List (Node K W)) :=
  (List.range divsV).foldlM (fun nodes iv => (List.range divsU).foldlM (fun nodes iu =>
    divide M ev o uDegree fuel nodes (iv * divsU + iu)) nodes) nodes

/-! ### Triangulation -/

/-- `BoundaryEvaluation`, boundary_constraints.rs 103-114. -/
structure BoundaryEval (K W : Type) where
  uAtVMin : Option (List (SPoint K W)) := none
  uAtVMax : Option (List (SPoint K W)) := none
  vAtUMin : Option (List (SPoint K W)) := none
  vAtUMax : Option (List (SPoint K W)) := none

/-- `min_by`, boundary_constraints.rs 210: the first of the elements with the smallest key. -/
def minBy {α : Type} (key : α → K) : List α → Option α
  | [] => none
  | a :: l => some (l.foldl (fun best x => if key x < key best then x else best) a)

/-- `closest_point`, boundary_constraints.rs 199-214. -/
def closestPoint (M : Metric K W) (p : SPoint K W) (ps : List (SPoint K W)) : Res (SPoint K W) :=
  unwrapR (minBy (fun q => M.normSq (q.point - p.point)) ps)

/-- The replacement of a boundary vertex, surface_tessellation.rs 82-110 (with `closest_point_at_*`,
    boundary_constraints.rs 162-196: `u_min` looks up the points at `v_min` and so on). -/
def snap (M : Metric K W) (b : BoundaryEval K W) (p : SPoint K W) : Res (SPoint K W) :=
  match (if p.uMin then b.uAtVMin else none) with
  | some ps => closestPoint M p ps
  | none =>
    match (if p.uMax then b.uAtVMax else none) with
    | some ps => closestPoint M p ps
    | none =>
      match (if p.vMin then b.vAtUMin else none) with
      | some ps => closestPoint M p ps
      | none =>
        match (if p.vMax then b.vAtUMax else none) with
        | some ps => closestPoint M p ps
        | none => pure p

/-- The faces of a leaf polygon with `n` vertices from `base`, surface_tessellation.rs 122-154. -/
def polygonFaces (base n splitId : ℕ) : List (ℕ × ℕ × ℕ) :=
  if n = 4 then [(base, base + 1, base + 3), (base + 3, base + 1, base + 2)]
  else if n = 5 then
    let a := base + splitId
    let b := base + (splitId + 1) % n
    let c := base + (splitId + 2) % n
    let d := base + (splitId + 3) % n
    let e := base + (splitId + 4) % n
    [(a, b, c), (a, d, e), (a, c, d)]
  else (List.range n).map fun i => (base + n, base + (if i = 0 then n - 1 else i - 1), base + i)

/-- `split_id`, surface_tessellation.rs 75-79. -/
def splitId {α : Type} (corners : List (List α)) : ℕ :=
  match corners.findIdx? (fun c => c.length = 2) with
  | some i => i + 1
  | none => 0

/-- Replacing constrained vertices by boundary evaluations, surface_tessellation.rs 82-110. -/
def snapAll (M : Metric K W) (b : Option (BoundaryEval K W)) (pts : List (SPoint K W)) : Res (List (SPoint K W)) :=
  match b with
  | some b => pts.mapM (snap M b)
  | none => pure pts

/-- `triangulate`, surface_tessellation.rs 66-155.  `5`-gons read `ids[split_id]`, which panics if it is out of range. -/
def triangulate (M : Metric K W) (eps : K) (ev : K × K → Res (SPoint K W)) (nodes : List (Node K W))
    (b : Option (BoundaryEval K W)) (t : Surface.Tessellation K W) (n : Node K W) : Res (Surface.Tessellation K W) :=
  if n.isLeaf then do
    let corners ← [0, 1, 2, 3].mapM fun e : Fin 4 => getAllCorners eps nodes n e
    let sid := splitId corners
    let pts := corners.flatten
    let pts ← snapAll M b pts
    let base := t.points.length
    let k := pts.length
    let t := { t with
      points := t.points ++ pts.map SPoint.point
      normals := t.normals ++ pts.map SPoint.normal
      uvs := t.uvs ++ pts.map SPoint.uv }
    if k = 4 ∨ k = 5 then do
      if k = 5 ∧ ¬ sid < 5 then .error .panic
      else pure { t with faces := t.faces ++ polygonFaces base k sid }
    else do
      let c ← ev n.uvCenter
      let _ ← subR k 1
      pure { points := t.points ++ [c.point], normals := t.normals ++ [c.normal], uvs := t.uvs ++ [c.uv],
             faces := t.faces ++ polygonFaces base k sid }
  else pure t

/-- The loop of `SurfaceTessellation::new`, surface_tessellation.rs 43-63, after the boundary evaluation. -/
def triangulateAll (M : Metric K W) (eps : K) (ev : K × K → Res (SPoint K W)) (nodes : List (Node K W))
    (b : Option (BoundaryEval K W)) : Res (Surface.Tessellation K W) :=
  nodes.foldlM (triangulate M eps ev nodes b) { points := [], normals := [], faces := [], uvs := [] }

/-! ### The grid -/

/-- `north`, tessellation/surface.rs 200-206. -/
def north (index iv divsU : ℕ) : Res (Option ℕ) :=
  if iv = 0 then pure none else do
    let i ← subR index divsU
    pure (some i)

/-- `south`, tessellation/surface.rs 208-214. -/
def south (index iv divsU divsV : ℕ) : Res (Option ℕ) := do
  let l ← subR divsV 1
  if iv = l then pure none else pure (some (index + divsU))

/-- `east`, tessellation/surface.rs 216-222. -/
def east (index iu divsU : ℕ) : Res (Option ℕ) := do
  let l ← subR divsU 1
  if iu = l then pure none else pure (some (index + 1))

/-- `west`, tessellation/surface.rs 224-230.  The second argument is the row, as in the code. -/
def west (index iv : ℕ) : Res (Option ℕ) :=
  if iv = 0 then pure none else do
    let i ← subR index 1
    pure (some i)

/-- The grid parameters in one direction, tessellation/surface.rs 73-104: the inner knots for degree at most one, equal
    spacing otherwise. -/
def gridParams (degree : ℕ) (knots : List K) (count mult minDivs : ℕ) : Res (List K) := do
  if degree ≤ 1 then do
    let k ← subR knots.length 2
    pure ((knots.drop 1).take k)
  else do
    let m ← subR count 1
    let divs := max minDivs (m * mult)
    let (mn, mx) ← Knots.domain knots degree
    let d ← divR (mx - mn) (divs : K)
    pure ((List.range (divs + 1)).map fun i : ℕ => mn + d * (i : K))

/-- Inserting the boundary parameters, tessellation/surface.rs 106-122. -/
def insertParams (us : List K) (c : Option (List K)) : List K :=
  match c with
  | some iu => mergeSorted us iu
  | none => us

/-- The grid node in row `iv` (from the top) and column `iu`, tessellation/surface.rs 162-180. -/
def gridNode (pts : List (List (SPoint K W))) (divsU divsV iv iu : ℕ) : Res (Node K W) := do
  let r ← subR divsV iv
  let r1 ← subR r 1
  let c0 ← get2R pts r1 iu
  let c1 ← get2R pts r1 (iu + 1)
  let c2 ← get2R pts r (iu + 1)
  let c3 ← get2R pts r iu
  let index := iv * divsU + iu
  let s ← south index iv divsU divsV
  let e ← east index iu divsU
  let n ← north index iv divsU
  let w ← west index iv
  pure (Node.new index ![c0, c1, c2, c3] ![s, e, n, w])

end node

section surface
variable {K : Type} [Field K] [LinearOrder K] {W : Type} [AddCommGroup W] [Module K W]

/-- `evaluate_surface`, adaptive_tessellation_node.rs 257-280. -/
def evaluateSurface (M : Metric K W) (eps : K) (S : Surface K (W × K)) (uv : K × K) : Res (SPoint K W) := do
  let d ← S.rationalDerivatives eps uv.1 uv.2 1
  let pt ← get2R d 0 0
  let v0 ← get2R d 1 0
  let v1 ← get2R d 0 1
  let norm := M.cross v0 v1
  let deg := decide (M.normSq norm < eps)
  pure { uv := uv, point := pt, normal := if deg then norm else M.normalize norm, degenerate := deg }

/-- The closure `evaluate` of `BoundaryEvaluation::new`, boundary_constraints.rs 126-132. -/
def evaluateBoundary (M : Metric K W) (eps : K) (S : Surface K (W × K)) (uv : K × K) : Res (SPoint K W) := do
  let d ← S.rationalDerivatives eps uv.1 uv.2 1
  let pt ← get2R d 0 0
  let v0 ← get2R d 1 0
  let v1 ← get2R d 0 1
  let norm := M.cross v0 v1
  pure { uv := uv, point := pt, normal := norm, degenerate := decide (M.normSq norm < eps) }

/-- `Option::map` of a computation that may fail, boundary_constraints.rs 135-158. -/
def optMapM {α β : Type} (f : α → Res β) : Option α → Res (Option β)
  | none => pure none
  | some a => do
    let b ← f a
    pure (some b)

/-- `BoundaryEvaluation::new`, boundary_constraints.rs 123-160. -/
def BoundaryEval.new (M : Metric K W) (eps : K) (S : Surface K (W × K)) (c : Constraints K) : Res (BoundaryEval K W) := do
  let (u0, u1) ← S.uDomain
  let (v0, v1) ← S.vDomain
  let a ← optMapM (fun us : List K => us.mapM fun u => evaluateBoundary M eps S (u, v0)) c.uAtVMin
  let b ← optMapM (fun us : List K => us.mapM fun u => evaluateBoundary M eps S (u, v1)) c.uAtVMax
  let d ← optMapM (fun vs : List K => vs.mapM fun v => evaluateBoundary M eps S (u0, v)) c.vAtUMin
  let e ← optMapM (fun vs : List K => vs.mapM fun v => evaluateBoundary M eps S (u1, v)) c.vAtUMax
  pure { uAtVMin := a, uAtVMax := b, vAtUMin := d, vAtUMax := e }

/-- A grid point, tessellation/surface.rs 138-158; `iv`, `iu` are the row and the column. -/
def gridPoint (M : Metric K W) (eps : K) (S : Surface K (W × K)) (c : Constraints K) (divsU divsV : ℕ)
    (u v : K) (iu iv : ℕ) : Res (SPoint K W) := do
  let lv ← subR divsV 1
  let lu ← subR divsU 1
  let uMin := decide (iv = 0)
  let uMax := decide (iv = lv)
  let vMin := decide (iu = 0)
  let vMax := decide (iu = lu)
  let d ← S.rationalDerivatives eps u v 1
  let v0 ← get2R d 1 0
  let v1 ← get2R d 0 1
  let pt ← get2R d 0 0
  pure {
    uv := (u, v)
    point := pt
    normal := M.normalize (M.cross v0 v1)
    degenerate := false
    uConstraint := (uMin && c.uAtVMin.isSome) || (uMax && c.uAtVMax.isSome)
    vConstraint := (vMin && c.vAtUMin.isSome) || (vMax && c.vAtUMax.isSome)
    uMin := uMin
    uMax := uMax
    vMin := vMin
    vMax := vMax }

/-- `surface_adaptive_tessellate`, tessellation/surface.rs 54-180: the nodes of the initial grid and the numbers of divisions. -/
def adaptiveGrid (M : Metric K W) (eps : K) (S : Surface K (W × K)) (c : Option (Constraints K)) (o : Options K) :
    Res (List (Node K W) × ℕ × ℕ) := do
  let mult := if c.isSome then 1 else 2
  let us ← gridParams S.uDegree S.uKnots S.cps.length mult o.minDivsU
  let row0 ← getR S.cps 0
  let vs ← gridParams S.vDegree S.vKnots row0.length mult o.minDivsV
  let us := insertParams us (c.bind Constraints.uParameters)
  let vs := insertParams vs (c.bind Constraints.vParameters)
  let divsU ← subR us.length 1
  let divsV ← subR vs.length 1
  let pts ← (vs.zipIdx).mapM fun v => (us.zipIdx).mapM fun u =>
    gridPoint M eps S (c.getD {}) divsU divsV u.1 v.1 u.2 v.2
  let nodes ← (List.range divsV).mapM fun iv => (List.range divsU).mapM fun iu => gridNode pts divsU divsV iv iu
  pure (nodes.flatten, divsU, divsV)

/-- `surface_adaptive_tessellate`, tessellation/surface.rs 54-198; `fuel` bounds the recursion of the subdivision,
    `dflt` is `AdaptiveTessellationOptions::default()`. -/
def tessellateSurface (M : Metric K W) (eps : K) (fuel : ℕ) (S : Surface K (W × K)) (c : Option (Constraints K))
    (opts : Option (Options K)) (dflt : Options K) : Res (Surface.Tessellation K W) := do
  let o := opts.getD dflt
  let (nodes, divsU, divsV) ← adaptiveGrid M eps S c o
  let ev := evaluateSurface M eps S
  let nodes ← if opts.isSome then divideAll M ev o S.uDegree fuel divsU divsV nodes else pure nodes
  let b ← optMapM (BoundaryEval.new M eps S) c
  triangulateAll M eps ev nodes b

end surface

end Curvo.Tess

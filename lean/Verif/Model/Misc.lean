/-
  Model of `/repo/src/misc/*` and `/repo/src/polygon_mesh/mod.rs`.

  Points of the plane are pairs. Where the Rust code uses the norm or the dot product of vectors in `D`
  dimensions the model works in an arbitrary real inner product space. Floating point rounding is not
  modelled; `robust::orient2d` is modelled by the sign of the exact determinant.
-/
import Mathlib.Algebra.Order.Field.Basic
import Mathlib.Analysis.InnerProductSpace.Basic
import Verif.Basic

namespace Curvo.Misc

/-! ### transpose.rs -/

/-- `transposed[j].push(p)`, transpose.rs 15. -/
def pushAt {α : Type} (t : List (List α)) (jp : ℕ × α) : Res (List (List α)) := do
  let row ← getR t jp.1
  setR t jp.1 (row ++ [jp.2])

/-- The inner loop, transpose.rs 14-16. -/
def pushRow {α : Type} (t : List (List α)) (row : List α) : Res (List (List α)) :=
  (row.zipIdx.map fun x => (x.2, x.1)).foldlM pushAt t

/-- `transpose_control_points`, transpose.rs 6-19. -/
def transpose {α : Type} (points : List (List α)) : Res (List (List α)) := do
  let row0 ← getR points 0
  points.foldlM pushRow (List.replicate row0.length [])

/-! ### binomial.rs -/

section binomial
variable {K : Type} [Field K]

/-- `binomial`, binomial.rs 7-19. -/
def binomial (n k : ℕ) : K :=
  if k = 0 ∨ k = n then 1
  else if n = 0 ∨ n < k then 0
  else
    let k := min k (n - k)
    (List.range k).foldl (fun r i => r * ((n - i : ℕ) : K) / ((i + 1 : ℕ) : K)) 1

/-- The nested hash map of `Binomial`, binomial.rs 23-25, as a partial function. -/
abbrev Memo (K : Type) := ℕ → ℕ → Option K

/-- `Binomial::new`, binomial.rs 34-38. -/
def Memo.empty : Memo K := fun _ _ => none

/-- `Binomial::memoize`, binomial.rs 71-79. -/
def Memo.set (m : Memo K) (n k : ℕ) (v : K) : Memo K :=
  fun n' k' => if n' = n ∧ k' = k then some v else m n' k'

/-- `Binomial::get`, binomial.rs 41-57; threads the memo. -/
def Memo.get : ℕ → ℕ → Memo K → K × Memo K
  | 0, k, m => if k = 0 then (1, m) else (0, m)
  | n + 1, k, m =>
    if k = 0 ∨ k = n + 1 then (1, m)
    else if n + 1 < k then (0, m)
    else
      let k := min k (n + 1 - k)
      match m (n + 1) k with
      | some v => (v, m)
      | none =>
        let (a, m1) := Memo.get n k m
        let (b, m2) := Memo.get n (k - 1) m1
        (a + b, m2.set (n + 1) k (a + b))

/-- A sequence of queries against one `Binomial` (binomial.rs 41-57 called repeatedly). -/
def Memo.run (m : Memo K) : List (ℕ × ℕ) → List K × Memo K
  | [] => ([], m)
  | q :: qs =>
    let (v, m1) := Memo.get q.1 q.2 m
    let (vs, m2) := Memo.run m1 qs
    (v :: vs, m2)

end binomial

/-! ### orientation.rs, line.rs, polygon_boundary.rs -/

section plane
variable {K : Type} [Field K] [LinearOrder K]

/-- `Orientation`, orientation.rs 7-12. -/
inductive Orientation where
  | ccw | cw | collinear
  deriving DecidableEq, Repr

/-- Twice the signed area of the triangle `p q r`, `orient2d` of the crate robust (orientation.rs 17-30). -/
def det (p q r : K × K) : K := (q.1 - p.1) * (r.2 - p.2) - (q.2 - p.2) * (r.1 - p.1)

/-- `orientation`, orientation.rs 16-39 (exact arithmetic). -/
def orientation (p q r : K × K) : Orientation :=
  if det p q r < 0 then .cw else if 0 < det p q r then .ccw else .collinear

/-- One coordinate of `BoundingBox::intersects` applied to the boxes of two segments,
    bounding_box/mod.rs 99-124 with `BoundingBox::new` 36-49. -/
def rangesMeet (tol a0 a1 b0 b1 : K) : Bool :=
  let lo0 := min a0 a1 - tol
  let hi0 := max a0 a1 + tol
  let lo1 := min b0 b1 - tol
  let hi1 := max b0 b1 + tol
  !decide (0 < (lo1 - hi0) * (hi1 - lo0))

/-- `Line::intersects`, line.rs 31-71. `tol` is the tolerance of the box test (`default_epsilon`). -/
def lineIntersects (tol : K) (p q r s : K × K) : Bool :=
  if ¬ (rangesMeet tol p.1 q.1 r.1 s.1 ∧ rangesMeet tol p.2 q.2 r.2 s.2) then false
  else
    let pq1 := orientation p q r
    let pq2 := orientation p q s
    if (pq1 = .cw ∧ pq2 = .cw) ∨ (pq1 = .ccw ∧ pq2 = .ccw) then false
    else
      let qp1 := orientation r s p
      let qp2 := orientation r s q
      if (qp1 = .cw ∧ qp2 = .cw) ∨ (qp1 = .ccw ∧ qp2 = .ccw) then false
      else if pq1 = .collinear ∧ pq2 = .collinear ∧ qp1 = .collinear ∧ qp2 = .collinear then false
      else true

/-- The contribution of one edge to the winding number, polygon_boundary.rs 59-73. -/
def windingStep (c : K × K) (e : (K × K) × (K × K)) : ℤ :=
  if e.1.2 ≤ c.2 then
    if c.2 ≤ e.2.2 then
      if orientation e.1 e.2 c = .ccw ∧ e.2.2 ≠ c.2 then 1 else 0
    else 0
  else if e.2.2 ≤ c.2 then
    if orientation e.1 e.2 c = .cw then -1 else 0
  else 0

/-- `circular_tuple_windows` for pairs, polygon_boundary.rs 57. -/
def circularPairs {α : Type} (l : List α) : List (α × α) := l.zip (l.rotate 1)

/-- The winding number of polygon_boundary.rs 57-75. -/
def winding (vs : List (K × K)) (c : K × K) : ℤ :=
  (circularPairs vs).foldl (fun acc e => acc + windingStep c e) 0

/-- `PolygonBoundary::contains`, polygon_boundary.rs 56-77. -/
def polygonContains (vs : List (K × K)) (c : K × K) : Bool := decide (winding vs c ≠ 0)

end plane

/-! ### ray.rs, trigonometry.rs -/

section real
variable {E : Type} [NormedAddCommGroup E] [InnerProductSpace ℝ E]

open scoped InnerProductSpace

/-- `Ray::point_at`, ray.rs 44-46. -/
def rayPoint (o d : E) (t : ℝ) : E := o + t • d

/-- `Ray::find_intersection`, ray.rs 49-73: `((point0, t), (point1, w))`. -/
noncomputable def rayIntersection (eps : ℝ) (o a o' b : E) : Option ((E × ℝ) × (E × ℝ)) :=
  let dab := ⟪a, b⟫_ℝ
  let daa := ⟪a, a⟫_ℝ
  let dbb := ⟪b, b⟫_ℝ
  let div := daa * dbb - dab * dab
  if |div| < eps then none
  else
    let dab0 := ⟪a, o'⟫_ℝ
    let daa0 := ⟪a, o⟫_ℝ
    let dbb0 := ⟪b, o'⟫_ℝ
    let dba0 := ⟪b, o⟫_ℝ
    let num := dab * (dab0 - daa0) - daa * (dbb0 - dba0)
    let w := num / div
    let t := (dab0 - daa0 + w * dab) / daa
    some ((rayPoint o a t, t), (rayPoint o' b w, w))

/-- `segment_closest_point`, trigonometry.rs 28-58. -/
noncomputable def segmentClosestPoint (eps : ℝ) (pt start stop : E) (u0 u1 : ℝ) : ℝ × E :=
  let dif := stop - start
  let l := ‖dif‖
  if l < eps then (u0, start)
  else
    let r := (1 / l) • dif
    let x := ⟪pt - start, r⟫_ℝ
    if x < 0 then (u0, start)
    else if l < x then (u1, stop)
    else (u0 + (u1 - u0) * x / l, x • r + start)

end real

/-- `three_points_are_flat` in two dimensions, trigonometry.rs 3-20. -/
def threePointsAreFlat2 {K : Type} [Field K] [LinearOrder K] (p1 p2 p3 : K × K) (tolerance : K) : Bool :=
  decide (|(p2.1 - p1.1) * (p3.2 - p1.2) - (p2.2 - p1.2) * (p3.1 - p1.1)| < tolerance)

end Curvo.Misc

namespace Curvo

/-- `PolygonMesh`, polygon_mesh/mod.rs 7-13. -/
structure Mesh (V : Type) where
  vertices : List V
  faces : List (ℕ × ℕ × ℕ)
  deriving DecidableEq

namespace Mesh

variable {V : Type}

/-- `PolygonMesh::triangles`, polygon_mesh/mod.rs 31-42. -/
def triangles (m : Mesh V) : Res (List (V × V × V)) :=
  m.faces.mapM fun f => do
    let a ← getR m.vertices f.1
    let b ← getR m.vertices f.2.1
    let c ← getR m.vertices f.2.2
    pure (a, b, c)

/-- `Add for PolygonMesh`, polygon_mesh/mod.rs 83-96. -/
def add (m r : Mesh V) : Mesh V where
  vertices := m.vertices ++ r.vertices
  faces := m.faces ++ r.faces.map fun f =>
    (f.1 + m.vertices.length, f.2.1 + m.vertices.length, f.2.2 + m.vertices.length)

/-- `Sum for PolygonMesh`, polygon_mesh/mod.rs 100-106. -/
def sum (ms : List (Mesh V)) : Mesh V := ms.foldl add ⟨[], []⟩

variable {K : Type} [Field K] [LinearOrder K]

/-- `PolygonMesh::area` given the (doubled) area of a triangle, polygon_mesh/mod.rs 46-56 and 60-71. -/
def areaWith (tri : V → V → V → K) (m : Mesh V) : Res K := do
  let ts ← m.triangles
  pure ((ts.map fun t => tri t.1 t.2.1 t.2.2).foldl (· + ·) 0 / 2)

/-- The doubled triangle area in the plane, polygon_mesh/mod.rs 50-52. -/
def tri2 (a b c : K × K) : K := |(b.1 - a.1) * (c.2 - a.2) - (b.2 - a.2) * (c.1 - a.1)|

/-- `PolygonMesh<T, U2>::area`, polygon_mesh/mod.rs 46-56. -/
def area2 (m : Mesh (K × K)) : Res K := m.areaWith tri2

end Mesh

end Curvo

/-
  Model of the construction of circles, ellipses and arcs, `/repo/src/curve/nurbs_curve.rs` 819-1051, of rays,
  `/repo/src/misc/ray.rs`, and of surfaces of revolution, `/repo/src/surface/nurbs_surface.rs` 1151-1313.

  Vectors are those of a real inner product space; `eps` is `T::default_epsilon()`. The trigonometric functions,
  the norm and π are the exact ones.
-/
import Mathlib.Analysis.InnerProductSpace.Basic
import Mathlib.Analysis.SpecialFunctions.Trigonometric.Basic
import Verif.Model.Surface

namespace Curvo

namespace Conic

variable {V : Type} [NormedAddCommGroup V] [InnerProductSpace ℝ V]

/-- `v.normalize()` of nalgebra, nurbs_curve.rs 902-903, 940-941 and 975-976; a zero vector gives components that are not finite. -/
noncomputable def normalize (v : V) : Res V := open Classical in
  if v = 0 then .error .nonfinite else .ok (‖v‖⁻¹ • v)

/-- `Ray`, ray.rs 6-13. -/
structure Ray (V : Type) where
  origin : V
  direction : V

/-- `Ray::point_at`, ray.rs 44-46. -/
def Ray.pointAt (r : Ray V) (t : ℝ) : V := r.origin + t • r.direction

local notation "⟪" x ", " y "⟫" => @inner ℝ V _ x y

/-- `Ray::find_intersection`, ray.rs 49-73. -/
noncomputable def Ray.findIntersection (eps : ℝ) (a b : Ray V) : Res (Option ((V × ℝ) × (V × ℝ))) :=
  let dab := ⟪a.direction, b.direction⟫
  let daa := ⟪a.direction, a.direction⟫
  let dbb := ⟪b.direction, b.direction⟫
  let div := daa * dbb - dab * dab
  if |div| < eps then pure none
  else do
    let dab0 := ⟪a.direction, b.origin⟫
    let daa0 := ⟪a.direction, a.origin⟫
    let dbb0 := ⟪b.direction, b.origin⟫
    let dba0 := ⟪b.direction, a.origin⟫
    let num := dab * (dab0 - daa0) - daa * (dbb0 - dba0)
    let w ← divR num div
    let t ← divR (dab0 - daa0 + w * dab) daa
    pure (some ((a.pointAt t, t), (b.pointAt w, w)))

/-- The number of arcs, nurbs_curve.rs 955-956. (`to_usize` fails beyond 2^64, which is left out.) -/
noncomputable def arcCount (theta : ℝ) : ℕ := max 1 (min 4 ⌊theta / (Real.pi / 2)⌋.toNat)

/-- The loop over the arcs, nurbs_curve.rs 971-1001, with `n` arcs to go: the control points and weights after the
    first one. They are appended here instead of being written into a vector of the final length. -/
noncomputable def arcLoop (eps : ℝ) (center x y : V) (rx ry dtheta w1 : ℝ) : ℕ → ℝ → V → V → Res (List (V × ℝ))
  | 0, _, _, _ => pure []
  | n + 1, angle, p0, t0 => do
    let angle := angle + dtheta
    let p2 := center + (rx * Real.cos angle) • x + (ry * Real.sin angle) • y
    let t2 := Real.cos angle • y - Real.sin angle • x
    let d0 ← normalize t0
    let d2 ← normalize t2
    let i ← Ray.findIntersection eps ⟨p0, d0⟩ ⟨p2, d2⟩
    match i with
    | none => .error .err
    | some i => do
      let p1 := p0 + i.1.2 • t0
      let rest ← arcLoop eps center x y rx ry dtheta w1 n angle p2 t2
      pure ((p1, w1) :: (p2, 1) :: rest)

/-- The normalized knots, nurbs_curve.rs 965-967, 1003-1030; also nurbs_surface.rs 1161-1199. -/
noncomputable def arcKnots : ℕ → List ℝ
  | 1 => [0, 0, 0, 1, 1, 1]
  | 2 => [0, 0, 0, 1 / 2, 1 / 2, 1, 1, 1]
  | 3 => [0, 0, 0, 1 / 3, 1 / 3, 2 / 3, 2 / 3, 1, 1, 1]
  | _ => [0, 0, 0, 1 / 4, 1 / 4, 2 / 4, 2 / 4, 3 / 4, 3 / 4, 1, 1, 1]

/-- `NurbsCurve::try_ellipse_arc`, nurbs_curve.rs 926-1051. -/
noncomputable def ellipseArc (eps : ℝ) (center xAxis yAxis : V) (startAngle endAngle : ℝ) : Res (Curve ℝ (V × ℝ)) := do
  let rx := ‖xAxis‖
  let ry := ‖yAxis‖
  let x ← normalize xAxis
  let y ← normalize yAxis
  if startAngle < endAngle then do
    let theta := endAngle - startAngle
    let arcs := arcCount theta
    let dtheta := theta / arcs
    let w1 := Real.cos (dtheta / 2)
    let p0 := center + (rx * Real.cos startAngle) • x + (ry * Real.sin startAngle) • y
    let t0 := Real.cos startAngle • y - Real.sin startAngle • x
    let rest ← arcLoop eps center x y rx ry dtheta w1 arcs startAngle p0 t0
    pure ⟨2, ((p0, 1) :: rest).map fun p => (p.2 • p.1, p.2), (arcKnots arcs).map fun v => theta * v + startAngle⟩
  else .error .err

/-- `NurbsCurve::try_arc`, nurbs_curve.rs 890-905. -/
noncomputable def arc (eps : ℝ) (center xAxis yAxis : V) (radius startAngle endAngle : ℝ) : Res (Curve ℝ (V × ℝ)) := do
  let x ← normalize xAxis
  let y ← normalize yAxis
  ellipseArc eps center (radius • x) (radius • y) startAngle endAngle

/-- `NurbsCurve::try_circle`, nurbs_curve.rs 819-836. -/
noncomputable def circle (eps : ℝ) (center xAxis yAxis : V) (radius : ℝ) : Res (Curve ℝ (V × ℝ)) :=
  arc eps center xAxis yAxis radius 0 (2 * Real.pi)

/-- `NurbsCurve::try_ellipse`, nurbs_curve.rs 858-868. -/
noncomputable def ellipse (eps : ℝ) (center xAxis yAxis : V) : Res (Curve ℝ (V × ℝ)) :=
  ellipseArc eps center xAxis yAxis 0 (2 * Real.pi)

/-! ### Surfaces of revolution -/

/-- The loop over the arcs for one profile point, nurbs_surface.rs 1243-1283, with `n` arcs to go: control points
    (not yet scaled) and weights after the first one. `o` is the foot on the axis, `pw` the weight of the profile
    point. Cosines and sines are looked up in tables in the code; they are computed from the angle here. -/
noncomputable def revolveLoop (eps : ℝ) (o x y : V) (r dtheta wm pw : ℝ) : ℕ → ℝ → V → V → Res (List (V × ℝ))
  | 0, _, _, _ => pure []
  | n + 1, angle, p0, t0 => do
    let angle := angle + dtheta
    let p2 := if r ≤ eps then o else o + (Real.cos angle * r) • x + (Real.sin angle * r) • y
    let t2 := Real.cos angle • y - Real.sin angle • x
    let p1 ← if r ≤ eps then pure o
      else do
        let d0 ← normalize t0
        let d2 ← normalize t2
        let i ← Ray.findIntersection eps ⟨p0, d0⟩ ⟨p2, d2⟩
        match i with
        | none => .error .err
        | some i => pure i.1.1
    let rest ← revolveLoop eps o x y r dtheta wm pw n angle p2 t2
    pure ((p1, wm * pw) :: (p2, pw) :: rest)

/-- The column of control points of one profile point, nurbs_surface.rs 1216-1284. `cross` is the cross product
    with the axis. -/
noncomputable def revolveColumn (eps : ℝ) (center axis : V) (cross : V → V) (narcs : ℕ) (dtheta wm : ℝ) (p : V) (pw : ℝ) :
    Res (List (V × ℝ)) := do
  let s := ⟪p - center, axis⟫
  let o := center + s • axis
  let x := p - o
  let r := ‖x‖
  let y := cross x
  let (x, y) := if eps < r then ((1 / r) • x, (1 / r) • y) else (x, y)
  let rest ← revolveLoop eps o x y r dtheta wm pw narcs 0 p y
  pure ((p, pw) :: rest)

/-- The number of arcs of a surface of revolution, nurbs_surface.rs 1161-1189. -/
noncomputable def revolveArcs (theta : ℝ) : ℕ :=
  if theta ≤ Real.pi / 2 then 1
  else if theta ≤ Real.pi then 2
  else if theta ≤ 3 * Real.pi / 2 then 3
  else 4

/-- `NurbsSurface::try_revolve`, nurbs_surface.rs 1151-1302. The grid is built column by column (by profile point)
    and transposed; the scaling by weights (1286-1294) is applied at the end. -/
noncomputable def revolve (eps : ℝ) (profile : Curve ℝ (V × ℝ)) (center axis : V) (cross : V → V) (theta : ℝ) :
    Res (Surface ℝ (V × ℝ)) := do
  let pts ← profile.dehomogenizedCps
  let ws := profile.cps.map (·.2)
  let narcs := revolveArcs theta
  let dtheta := theta / narcs
  let wm := Real.cos (dtheta / 2)
  let cols ← (pts.zip ws).mapM fun q => revolveColumn eps center axis cross narcs dtheta wm q.1 q.2
  let rows := (List.range (2 * narcs + 1)).map fun i => cols.map fun col =>
    let q := col.getD i (0, 0)
    (q.2 • q.1, q.2)
  pure ⟨2, profile.degree, arcKnots narcs, profile.knots, rows⟩

/-- `NurbsSurface::try_sphere`, nurbs_surface.rs 1305-1313. -/
noncomputable def sphere (eps : ℝ) (center axis xAxis : V) (cross : V → V) (radius : ℝ) : Res (Surface ℝ (V × ℝ)) := do
  let a ← arc eps center (-axis) xAxis radius 0 Real.pi
  revolve eps a center axis cross (2 * Real.pi)

end Conic
end Curvo

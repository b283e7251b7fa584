/-
  Model of the containment queries: `/repo/src/contains/contains_curve.rs` and
  `/repo/src/contains/contains_compound_curve.rs`.

  Points of the plane are functions `Fin 2 → K`; `nrm` stands for `norm()`. The closest point searches
  (modelled in `Model/Closest.lean` and below) are parameters here.
-/
import Mathlib.Data.Fin.VecNotation
import Verif.Model.BBox
import Verif.Model.Compound

namespace Curvo.Contains

variable {K : Type} [Field K] [LinearOrder K]

/-- The fields of `CurveIntersectionSolverOptions` used here, curve_intersection_solver_options.rs 5-18. -/
structure Options (K : Type) where
  minDist : K
  division : ℕ
  maxIters : ℕ

/-- `Default for CurveIntersectionSolverOptions`, curve_intersection_solver_options.rs 20-30. -/
def Options.default : Options K := ⟨1 / 100000, 64, 200⟩

/-- The binary search, contains_curve.rs 104-123. -/
def bisect (eps : K) (c : Curve K ((Fin 2 → K) × K)) (y minDist : K) (forward : Bool) :
    ℕ → K → K → Res (Option ((Fin 2 → K) × K))
  | 0, _, _ => pure none
  | n + 1, mn, mx => do
    let t := (mn + mx) / 2
    let p ← c.pointAt eps t
    let dy := p 1 - y
    if |dy| < minDist then pure (some (p, t))
    else
      let over := decide (0 < dy)
      let over := if forward then over else !over
      if over then bisect eps c y minDist forward n mn t
      else bisect eps c y minDist forward n t mx

/-- The closure of `filter_map` for a piece of the curve, contains_curve.rs 86-126. -/
def pieceHit (eps : K) (o : Options K) (point : Fin 2 → K) (c : Curve K ((Fin 2 → K) × K)) :
    Res (Option ((Fin 2 → K) × K)) := do
  let dom ← c.knotsDomain
  let ps ← c.pointAt eps dom.1
  let pe ← c.pointAt eps dom.2
  if ps 0 < point 0 ∧ pe 0 < point 0 then pure none
  else match decide (point 1 < ps 1), decide (point 1 < pe 1) with
    | true, true => pure none
    | false, false => pure none
    | false, true => bisect eps c (point 1) o.minDist true o.maxIters dom.1 dom.2
    | true, false => bisect eps c (point 1) o.minDist false o.maxIters dom.1 dom.2

/-- itertools `coalesce` with the closure of contains_curve.rs 135-143: of a run of elements near the first
    one only the first is kept. -/
def coalesceGo {H : Type} (near : H → H → Bool) (cur : H) : List H → List H
  | [] => [cur]
  | h :: t => if near cur h then coalesceGo near cur t else cur :: coalesceGo near h t

/-- `coalesce`, contains_curve.rs 135-143, from the first element on. -/
def coalesce {H : Type} (near : H → H → Bool) : List H → List H
  | [] => []
  | h :: t => coalesceGo near h t

/-- `x_ray_intersection`, contains_curve.rs 65-148. `sort_by` is a stable sort. -/
def rayIntersection (eps big : K) (nrm : (Fin 2 → K) → K) (rnd : ℕ → K) (pos fuel : ℕ) (o : Options K)
    (c : Curve K ((Fin 2 → K) × K)) (point : Fin 2 → K) (rayLength : K) : Res (List (Fin 2 → K)) := do
  let ray ← Curve.polyline (fun p q => nrm (p - q)) [point, point + rayLength • ![1, 0]] true
  let dom ← c.knotsDomain
  let tol ← divR (dom.2 - dom.1) (o.division : K)
  let ta ← CurveTree.new c (some tol)
  let rdom ← ray.knotsDomain
  let tb ← CurveTree.new ray (some ((rdom.2 - rdom.1) / 1))
  let pairs ← traverse (CurveTree.tree eps big rnd) (CurveTree.tree eps big rnd) fuel [(ta, tb)] pos
  let found ← pairs.mapM fun e => pieceHit eps o point e.1.curve
  let hits := (found.filterMap id).filter fun h => decide (point 0 ≤ h.1 0)
  let sorted := hits.mergeSort (fun x y => decide (x.2 ≤ y.2))
  pure ((coalesce (fun x y => decide (nrm (x.1 - y.1) < o.minDist)) sorted).map (·.1))

/-- `on_boundary`, contains_curve.rs 37-49: a failed search counts as not on the boundary. -/
def onBoundary (nrm : (Fin 2 → K) → K) (opt : Option (Options K)) (point : Fin 2 → K) :
    Res (Fin 2 → K) → Res Bool
  | .ok q => pure (decide (nrm (q - point) < (opt.map (·.minDist)).getD (1 / 1000000)))
  | .error .err => pure false
  | .error e => .error e

/-- `Contains::contains` for `NurbsCurve`, contains_curve.rs 31-62. -/
def curveContains (eps big : K) (nrm : (Fin 2 → K) → K) (closest : (Fin 2 → K) → Res (Fin 2 → K)) (rnd : ℕ → K)
    (pos fuel : ℕ) (opt : Option (Options K)) (c : Curve K ((Fin 2 → K) × K)) (point : Fin 2 → K) : Res Bool := do
  let closed ← c.isClosed eps (fun p q => nrm (p - q))
  if ¬ closed then .error .err
  else
    let bb ← Box.ofCurve big c
    if ¬ bb.contains point then pure false
    else
      let on ← onBoundary nrm opt point (closest point)
      if on then pure true
      else
        let its ← rayIntersection eps big nrm rnd pos fuel (opt.getD .default) c point (bb.size 0 * 2)
        pure (decide (its.length % 2 = 1))

/-- `From<&CompoundCurve> for BoundingBox`, bounding_box/mod.rs 207-222. -/
def compoundBox (big : K) (spans : List (Curve K ((Fin 2 → K) × K))) : Res (Box K 2) := do
  let pts ← spans.mapM fun s => s.dehomogenizedCps
  pure (Box.ofPoints big pts.flatten)

/-- `Contains::contains` for `CompoundCurve`, contains_compound_curve.rs 33-68. The random streams of the
    spans are given per span. -/
def compoundContains (eps big : K) (nrm : (Fin 2 → K) → K) (closest : (Fin 2 → K) → Res (Fin 2 → K))
    (rnd : ℕ → ℕ → K) (pos fuel : ℕ) (opt : Option (Options K)) (spans : List (Curve K ((Fin 2 → K) × K)))
    (point : Fin 2 → K) : Res Bool := do
  let bb ← compoundBox big spans
  if ¬ bb.contains point then pure false
  else
    let on ← onBoundary nrm opt point (closest point)
    if on then pure true
    else
      let its ← spans.zipIdx.mapM fun s =>
        rayIntersection eps big nrm (rnd s.2) pos fuel (opt.getD .default) s.1 point (bb.size 0 * 2)
      pure (decide ((its.map List.length).sum % 2 = 1))

end Curvo.Contains

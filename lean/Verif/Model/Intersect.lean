/-
  Model of the intersection queries: `/repo/src/intersects/curve_curve/intersection_curve_curve.rs`,
  `/repo/src/intersects/surface_curve/intersection_surface_curve.rs` and
  `/repo/src/intersects/curve_curve/intersection_compound_curve.rs`.

  The quasi-Newton solver (argmin's `Executor` running a BFGS iteration) is the parameter `solve`: it gets
  the two pieces and returns the best parameters it found, or `none` where it fails. `norm` and `normSq`
  stand for `norm()` and `norm_squared()` of the difference of two points.
-/
import Verif.Model.BBox
import Verif.Model.Surface
import Verif.Model.Compound

namespace Curvo.Intersect

variable {K : Type} [Field K] [LinearOrder K]

/-- `Intersection`, intersects/intersection.rs 5-10: the point and parameter on either object. -/
structure Hit (P A B : Type) where
  a : P × A
  b : P × B
  deriving DecidableEq, Repr

/-- itertools `coalesce` as used in intersection_curve_curve.rs 174-192 (and
    intersection_surface_curve.rs 157-174): `cur` is the group being built; the next element joins it when
    it is `near` its last element. -/
def coalesce {H : Type} (near : H → H → Bool) (cur : List H) : List H → Res (List (List H))
  | [] => pure [cur]
  | h :: t => do
    let i ← subR cur.length 1
    let x0 ← getR cur i
    if near x0 h then coalesce near (cur ++ [h]) t
    else do
      let rest ← coalesce near [h] t
      pure (cur :: rest)

/-- The groups of a sorted list, intersection_curve_curve.rs 172-192. -/
def groups {H : Type} (near : H → H → Bool) : List H → Res (List (List H))
  | [] => pure []
  | h :: t => coalesce near [h] t

/-- The representative of a group, intersection_curve_curve.rs 201-218: its only element, or the first of
    those with the smallest residual. -/
def pick {H : Type} (residual : H → K) : List H → Option H
  | [] => none
  | [h] => some h
  | h :: t => some (Compound.minBy (residual h, h) (t.map fun x => (residual x, x))).2

/-- Sorting, grouping and choosing, intersection_curve_curve.rs 165-222: `sorted_by` is a stable sort. -/
def post {H : Type} (key residual : H → K) (near : H → H → Bool) (hits : List H) : Res (List H) := do
  let sorted := hits.mergeSort (fun x y => decide (key x ≤ key y))
  let gs ← groups near sorted
  pure (gs.filterMap (pick residual))

/-- `parameter_minimum_distance`, intersection_curve_curve.rs 173. -/
def paramTol : K := 1 / 1000

variable {W : Type}

/-- The closure of `coalesce` for two curves, intersection_curve_curve.rs 177-182. -/
def nearCurve (x y : Hit W K K) : Bool :=
  decide (|x.a.2 - y.a.2| < paramTol) || decide (|x.b.2 - y.b.2| < paramTol)

/-- The closure of `coalesce` for a surface and a curve, intersection_surface_curve.rs 160-164. -/
def nearSurface (x y : Hit W (K × K) K) : Bool := decide (|x.b.2 - y.b.2| < paramTol)

section curves
variable {d : ℕ}

/-- The candidate of a pair of pieces, intersection_curve_curve.rs 100-155: what the solver found, if it
    lies in the domains of the two whole curves. -/
def candidate (eps : K) (solve : Curve K ((Fin d → K) × K) → Curve K ((Fin d → K) × K) → Option (K × K))
    (a b : Curve K ((Fin d → K) × K)) (da db : K × K) (e : CurveTree K d × CurveTree K d) :
    Res (Option (Hit (Fin d → K) K K)) :=
  match solve e.1.curve e.2.curve with
  | none => pure none
  | some p =>
    if da.1 ≤ p.1 ∧ p.1 ≤ da.2 ∧ db.1 ≤ p.2 ∧ p.2 ≤ db.2 then do
      let p0 ← a.pointAt eps p.1
      let p1 ← b.pointAt eps p.2
      pure (some ⟨(p0, p.1), (p1, p.2)⟩)
    else pure none

/-- `NurbsCurve::find_intersections(&NurbsCurve)`, intersection_curve_curve.rs 74-223. -/
def curveCurve (eps big : K) (rnd : ℕ → K) (pos fuel : ℕ) (norm normSq : (Fin d → K) → K) (division : ℕ)
    (minDist : K) (solve : Curve K ((Fin d → K) × K) → Curve K ((Fin d → K) × K) → Option (K × K))
    (a b : Curve K ((Fin d → K) × K)) : Res (List (Hit (Fin d → K) K K)) := do
  let da ← a.knotsDomain
  let tolA ← divR (da.2 - da.1) (division : K)
  let ta ← CurveTree.new a (some tolA)
  let db ← b.knotsDomain
  let tolB ← divR (db.2 - db.1) (division : K)
  let tb ← CurveTree.new b (some tolB)
  let pairs ← traverse (CurveTree.tree eps big rnd) (CurveTree.tree eps big rnd) fuel [(ta, tb)] pos
  let cands ← pairs.mapM (candidate eps solve a b da db)
  let hits := (cands.filterMap id).filter fun h => decide (norm (h.a.1 - h.b.1) < minDist)
  post (fun h => h.a.2) (fun h => normSq (h.a.1 - h.b.1)) nearCurve hits

/-- The candidate of a pair of pieces, intersection_surface_curve.rs 81-140. The solver's parameters are the
    curve parameter and the surface parameters, in this order. -/
def candidateSurface (eps : K)
    (solve : Surface K ((Fin d → K) × K) → Curve K ((Fin d → K) × K) → Option (K × K × K))
    (S : Surface K ((Fin d → K) × K)) (c : Curve K ((Fin d → K) × K)) (du dv dc : K × K)
    (e : SurfTree K d × CurveTree K d) : Res (Option (Hit (Fin d → K) (K × K) K)) :=
  match solve e.1.surface e.2.curve with
  | none => pure none
  | some (x, y, z) =>
    if (du.1 ≤ y ∧ y ≤ du.2) ∧ (dv.1 ≤ z ∧ z ≤ dv.2) ∧ dc.1 ≤ x ∧ x ≤ dc.2 then do
      let p0 ← S.pointAt eps y z
      let p1 ← c.pointAt eps x
      pure (some ⟨(p0, (y, z)), (p1, x)⟩)
    else pure none

/-- `NurbsSurface::find_intersections(&NurbsCurve)`, intersection_surface_curve.rs 61-196. -/
def surfaceCurve (eps big : K) (rnd : ℕ → K) (pos fuel : ℕ) (norm normSq : (Fin d → K) → K) (division : ℕ)
    (minDist : K) (solve : Surface K ((Fin d → K) × K) → Curve K ((Fin d → K) × K) → Option (K × K × K))
    (S : Surface K ((Fin d → K) × K)) (c : Curve K ((Fin d → K) × K)) :
    Res (List (Hit (Fin d → K) (K × K) K)) := do
  let div ← divR 1 (division : K)
  let du ← S.uDomain
  let dv ← S.vDomain
  let dc ← c.knotsDomain
  let ta ← SurfTree.new S .u (some ((du.2 - du.1) * div, (dv.2 - dv.1) * div))
  let tb ← CurveTree.new c (some ((dc.2 - dc.1) * div))
  let pairs ← traverse (SurfTree.tree ℕ eps big) (CurveTree.tree eps big rnd) fuel [(ta, tb)] pos
  let cands ← pairs.mapM (candidateSurface eps solve S c du dv dc)
  let hits := (cands.filterMap id).filter fun h => decide (norm (h.a.1 - h.b.1) < minDist)
  post (fun h => h.b.2) (fun h => normSq (h.a.1 - h.b.1)) nearSurface hits

end curves

/-! ### Compound curves -/

/-- The tolerance of the culling, intersection_compound_curve.rs 47. -/
def cullTol : K := 1 / 100

/-- One step of the culling, intersection_compound_curve.rs 50-65: `res` are the hits per span, `ends` the
    parameter domains of the spans. -/
def cullStep {P B : Type} (ends : List (K × K)) (res : List (List (Hit P K B))) (w : ℕ × ℕ) :
    Res (List (List (Hit P K B))) :=
  if w.1 ≠ w.2 then do
    let ra ← getR res w.1
    let rb ← getR res w.2
    match ra.getLast?, rb.head? with
    | some ia, some ib => do
      let ea ← getR ends w.1
      let eb ← getR ends w.2
      if |ea.2 - ia.a.2| < cullTol ∧ |eb.1 - ib.a.2| < cullTol then setR res w.1 ra.dropLast
      else pure res
    | _, _ => pure res
  else pure res

/-- `(0..n).circular_tuple_windows::<(_, _)>()`, intersection_compound_curve.rs 49. -/
def windows (n : ℕ) : List (ℕ × ℕ) := (List.range n).map fun i => (i, if i + 1 = n then 0 else i + 1)

/-- The culling and flattening, intersection_compound_curve.rs 49-68. -/
def cull {P B : Type} (ends : List (K × K)) (res : List (List (Hit P K B))) : Res (List (Hit P K B)) := do
  let res ← (windows res.length).foldlM (cullStep ends) res
  pure res.flatten

/-- `CompoundCurve::find_intersections(&NurbsCurve)`, intersection_compound_curve.rs 27-69; `find` is the
    intersection of a span with the other curve. The references to the span and to the other curve in the
    returned records are left out. -/
def compoundCurve {V P B : Type} (find : Curve K V → Res (List (Hit P K B))) (spans : List (Curve K V)) :
    Res (List (Hit P K B)) := do
  let res ← spans.mapM find
  let ends ← spans.mapM fun s => s.knotsDomain
  cull ends res

/-- `CompoundCurve::find_intersections(&CompoundCurve)`, intersection_compound_curve.rs 84-96. -/
def compoundCompound {V P B : Type} (find : Curve K V → Curve K V → Res (List (Hit P K B)))
    (spans others : List (Curve K V)) : Res (List (Hit P K B)) := do
  let res ← others.mapM fun o => compoundCurve (fun s => find s o) spans
  pure res.flatten

end Curvo.Intersect

/-
  Entry points of the boolean operations on curves (boolean/boolean_curve.rs, boolean/boolean_compound_curve.rs) and the
  classification of intersections (boolean/degeneracies.rs).
-/
import Verif.Model.Boolean
import Verif.Model.Intersect
import Verif.Model.Compound
import Verif.Model.Deriv
import Verif.Model.Misc

namespace Curvo.Boolean

open Curvo Curvo.Intersect

variable {K : Type} [Field K] [LinearOrder K]

/-- A rational curve in the plane, `NurbsCurve<T, U3>` of clip.rs 88-106. -/
abbrev PCurve (K : Type) := Curve K ((Fin 2 → K) × K)

/-! ### degeneracies.rs -/

/-- `parameter_eps`, degeneracies.rs 22. -/
def paramStep : K := 1 / 10000

/-- `collinear_dot_threshold`, degeneracies.rs 23. -/
def collinearDot : K := 9975 / 10000

/-- A point as a pair, for `Misc.lineIntersects` (`Line::new`, degeneracies.rs 26-29). -/
def toPair (p : Fin 2 → K) : K × K := (p 0, p 1)

/-- `Degeneracy::new`, degeneracies.rs 17-45, for the curves and the parameters of an intersection. `norm` is the euclidean
    norm, `tol` the tolerance of the box test in `Line::intersects`. -/
def degeneracy (norm : (Fin 2 → K) → K) (eps tol : K) (a b : PCurve K) (s t : K) : Res (Degeneracy K) := do
  let a0 ← a.pointAt eps (s - paramStep)
  let a1 ← a.pointAt eps (s + paramStep)
  let b0 ← b.pointAt eps (t - paramStep)
  let b1 ← b.pointAt eps (t + paramStep)
  if Misc.lineIntersects tol (toPair a0) (toPair a1) (toPair b0) (toPair b1) then do
    let ta ← divV (a1 - a0) (norm (a1 - a0))
    let tb ← divV (b1 - b0) (norm (b1 - b0))
    let dot := |∑ i, ta i * tb i|
    pure (if dot < collinearDot then .none else .angle dot)
  else pure .lineIntersection

/-! ### The head of `clip` -/

/-- `clip` from a list of intersections, clip.rs 100-139 and on: every intersection is classified, some are selected, the
    rest works with the parameters of those (the selected ones are regular for `clip` of `Model/Boolean.lean`, whose
    selection then keeps all of them). -/
def clipHits {H S C : Type} (classify : H → Res (Degeneracy K)) (inter : H → Inter K) (clipContains subjectContains : Res Bool)
    (trim : Bool → K × K → Res (List S)) (compound : List S → Res C) (subject other : C) (op : Op) (hits : List H) :
    Res (List (Region C)) := do
  let ds ← hits.mapM fun h => do
    let d ← classify h
    pure (h, d)
  let sel ← select (fun x => x.2) ds
  clip (fun _ => .none) clipContains subjectContains trim compound subject other op (sel.map fun x => inter x.1)

/-! ### Entry points -/

/-- The queries used by the boolean operations, the trait bounds of clip.rs 88-106. -/
structure Env (K : Type) where
  norm : (Fin 2 → K) → K
  eps : K
  /-- `T::default_epsilon()` of the box test -/
  tol : K
  /-- the tolerance `1e-4` of `CompoundCurve::new` -/
  joinTol : K
  /-- the tolerance of `CompoundCurve::try_trim_range` -/
  trimTol : K
  /-- `NurbsCurve::find_intersections(&NurbsCurve)` -/
  find : PCurve K → PCurve K → Res (List (Hit (Fin 2 → K) K K))
  /-- `NurbsCurve::contains` -/
  contains : PCurve K → (Fin 2 → K) → Res Bool
  /-- `CompoundCurve::contains` -/
  containsC : List (PCurve K) → (Fin 2 → K) → Res Bool

/-- `CompoundCurve::new` in the plane, as called at clip.rs 348-395 (compound_curve.rs 31-90). -/
def Env.compound (E : Env K) (spans : List (PCurve K)) : Res (List (PCurve K)) :=
  Compound.new E.eps E.joinTol (fun p q => E.norm (p - q)) spans

/-- `CompoundCurveIntersection`, compound_curve_intersection.rs 19-27: the curves are kept with the points. -/
abbrev CHit (K : Type) := Hit (PCurve K × (Fin 2 → K)) K K

/-- `CompoundCurveIntersection::new` for every intersection of two curves, boolean_curve.rs 27-30 and
    intersection_compound_curve.rs 36-42. -/
def Env.findTagged (E : Env K) (a b : PCurve K) : Res (List (CHit K)) := do
  let hs ← E.find a b
  pure (hs.map fun h => ⟨((a, h.a.1), h.a.2), ((b, h.b.1), h.b.2)⟩)

/-- `Degeneracy::new(&it, it.a_curve(), it.b_curve())`, clip.rs 110. -/
def Env.classify (E : Env K) (h : CHit K) : Res (Degeneracy K) := degeneracy E.norm E.eps E.tol h.a.1.1 h.b.1.1 h.a.2 h.b.2

/-- The parameters of an intersection, has_parameter.rs and vertex.rs, as used by clip.rs 188-207. -/
def interOf (h : CHit K) : Inter K := ⟨h.a.2, h.b.2⟩

/-- `NurbsCurve::try_trim_range` or `CompoundCurve::try_trim_range` for the two operands, clip.rs 381-385. -/
def Env.trim (E : Env K) (subject other : PCurve K ⊕ List (PCurve K)) (s : Bool) (r : K × K) : Res (List (PCurve K)) :=
  match if s then subject else other with
  | .inl c => c.tryTrimRange E.eps r.1 r.2
  | .inr spans => Compound.tryTrimRange E.eps E.trimTol r.1 r.2 spans

/-- `first_point` of an operand, end_points.rs 25-28 and 43-46. -/
def Env.firstPoint (E : Env K) : PCurve K ⊕ List (PCurve K) → Res (Fin 2 → K)
  | .inl c => c.firstPoint E.eps
  | .inr spans => do
    let c ← getR spans 0
    c.firstPoint E.eps

/-- `contains` of an operand, clip.rs 141-142. -/
def Env.containsIn (E : Env K) : PCurve K ⊕ List (PCurve K) → (Fin 2 → K) → Res Bool
  | .inl c => E.contains c
  | .inr spans => E.containsC spans

/-- `Into<CompoundCurve>`, compound_curve.rs 246-255. -/
def Env.into (E : Env K) : PCurve K ⊕ List (PCurve K) → Res (List (PCurve K))
  | .inl c => E.compound [c]
  | .inr spans => pure spans

/-- `clip` for two operands, clip.rs 88-399. The conversions into compound curves are made here in advance; in the code
    they happen where needed. They only fail for an empty knot vector. -/
def Env.clip (E : Env K) (op : Op) (subject other : PCurve K ⊕ List (PCurve K)) (hits : List (CHit K)) :
    Res (List (Region (List (PCurve K)))) := do
  let s ← E.into subject
  let o ← E.into other
  clipHits E.classify interOf
    (do let p ← E.firstPoint subject; E.containsIn other p)
    (do let p ← E.firstPoint other; E.containsIn subject p)
    (E.trim subject other) E.compound s o op hits

/-- Two curves, boolean_curve.rs 16-33. -/
def Env.curveCurve (E : Env K) (op : Op) (a b : PCurve K) : Res (List (Region (List (PCurve K)))) := do
  let hits ← E.findTagged a b
  E.clip op (.inl a) (.inl b) hits

/-- A curve and a compound curve, boolean_curve.rs 36-57; the sort is stable. -/
def Env.curveCompound (E : Env K) (op : Op) (a : PCurve K) (b : List (PCurve K)) : Res (List (Region (List (PCurve K)))) := do
  let hits ← compoundCurve (fun s => E.findTagged s a) b
  let sorted := hits.insertionSort fun x y => x.b.2 ≤ y.b.2
  E.clip op (.inl a) (.inr b) (sorted.map fun h => ⟨h.b, h.a⟩)

/-- A compound curve and a curve, boolean_compound_curve.rs 14-28. -/
def Env.compoundCurve (E : Env K) (op : Op) (a : List (PCurve K)) (b : PCurve K) : Res (List (Region (List (PCurve K)))) := do
  let hits ← Intersect.compoundCurve (fun s => E.findTagged s b) a
  E.clip op (.inr a) (.inl b) hits

/-- Two compound curves, boolean_compound_curve.rs 31-46. -/
def Env.compoundCompound (E : Env K) (op : Op) (a b : List (PCurve K)) : Res (List (Region (List (PCurve K)))) := do
  let hits ← Intersect.compoundCompound (fun s o => E.findTagged s o) a b
  E.clip op (.inr a) (.inr b) hits

end Curvo.Boolean

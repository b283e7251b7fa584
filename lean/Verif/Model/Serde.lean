/-
  Model of the serialisation of curves, surfaces, compound curves, regions and trimmed surfaces (feature `serde`).

  A document is a tree of maps, sequences, null and leaves, the data model of self-describing formats.  The
  formats of scalars, points and numbers are parameters (`Codec`).  Simplified: a value that fails to decode is
  still consumed as a whole (`next_value` of a tree; a streaming parser may be left inside of the value, which
  only matters where the error is ignored, see `trimmedStep`).
-/
import Verif.Model.Boolean
import Verif.Model.Surface

namespace Curvo.Serde

/-- A document with leaves in `L`: the data model of the crate `serde`, as used by nurbs_curve.rs 2206-2336. -/
inductive Doc (L : Type) where
  | null
  | leaf (a : L)
  | seq (ds : List (Doc L))
  | map (es : List (String × Doc L))

/-- A format of the values of a type: its `Serialize` and `Deserialize`, bounds of nurbs_curve.rs 2206-2230. -/
structure Codec (L α : Type) where
  enc : α → Doc L
  dec : Doc L → Res α

/-- `Vec<T>` of the crate `serde`, the fields written at nurbs_curve.rs 2206-2216. -/
def Codec.list {L α : Type} (c : Codec L α) : Codec L (List α) where
  enc := fun xs => .seq (xs.map c.enc)
  dec := fun d => match d with
    | .seq ds => ds.mapM c.dec
    | _ => .error .err

/-- `Option<T>` of the crate `serde`, the exterior written at trimmed_surface.rs 201-215. -/
def encOption {L α : Type} (c : Codec L α) : Option α → Doc L
  | none => .null
  | some a => c.enc a

/-- `ok_or_else(|| missing_field(..))?`, nurbs_curve.rs 2320-2323. -/
def required {α : Type} : Option α → Res α
  | some a => .ok a
  | none => .error .err

/-- An arm of `visit_map`, nurbs_curve.rs 2300-2317: a field that was set before is an error, otherwise the value is decoded. -/
def setField {L α : Type} (c : Codec L α) (slot : Option α) (d : Doc L) : Res (Option α) :=
  if slot.isSome then .error .err
  else do
    let a ← c.dec d
    pure (some a)

section nurbs
variable {L K V : Type}

/-! ### Curves -/

/-- `Serialize for NurbsCurve`, nurbs_curve.rs 2206-2216; the knot vector is a newtype (knot_vector.rs 8-11). -/
def encCurve (ck : Codec L K) (cn : Codec L ℕ) (cv : Codec L V) (c : Curve K V) : Doc L :=
  .map [("control_points", cv.list.enc c.cps), ("degree", cn.enc c.degree), ("knots", ck.list.enc c.knots)]

/-- Body of the loop of `visit_map` with `visit_str` of the field, nurbs_curve.rs 2251-2264 and 2301-2321: state control
    points, degree, knots. -/
def curveStep (ck : Codec L K) (cn : Codec L ℕ) (cv : Codec L V) (st : Option (List V) × Option ℕ × Option (List K))
    (e : String × Doc L) : Res (Option (List V) × Option ℕ × Option (List K)) :=
  if e.1 = "control_points" then do
    let s ← setField cv.list st.1 e.2
    pure (s, st.2.1, st.2.2)
  else if e.1 = "degree" then do
    let s ← setField cn st.2.1 e.2
    pure (st.1, s, st.2.2)
  else if e.1 = "knots" then do
    let s ← setField ck.list st.2.2 e.2
    pure (st.1, st.2.1, s)
  else .error .err

/-- `Deserialize for NurbsCurve`, nurbs_curve.rs 2219-2336: the visitor only has `visit_map`. -/
def decCurve (ck : Codec L K) (cn : Codec L ℕ) (cv : Codec L V) : Doc L → Res (Curve K V)
  | .map es => do
    let st ← es.foldlM (curveStep ck cn cv) (none, none, none)
    let cps ← required st.1
    let degree ← required st.2.1
    let knots ← required st.2.2
    pure { degree := degree, cps := cps, knots := knots }
  | _ => .error .err

/-- The format of curves, nurbs_curve.rs 2206-2336. -/
def curveCodec (ck : Codec L K) (cn : Codec L ℕ) (cv : Codec L V) : Codec L (Curve K V) where
  enc := encCurve ck cn cv
  dec := decCurve ck cn cv

/-! ### Surfaces -/

/-- `Serialize for NurbsSurface`, nurbs_surface.rs 1510-1522. -/
def encSurface (ck : Codec L K) (cn : Codec L ℕ) (cv : Codec L V) (S : Surface K V) : Doc L :=
  .map [("control_points", cv.list.list.enc S.cps), ("u_degree", cn.enc S.uDegree), ("v_degree", cn.enc S.vDegree),
    ("u_knots", ck.list.enc S.uKnots), ("v_knots", ck.list.enc S.vKnots)]

/-- The state of `visit_map`, nurbs_surface.rs 1605-1609. -/
structure SurfaceSlots (K V : Type) where
  cps : Option (List (List V)) := none
  uDegree : Option ℕ := none
  vDegree : Option ℕ := none
  uKnots : Option (List K) := none
  vKnots : Option (List K) := none

/-- Body of the loop of `visit_map` with `visit_str` of the field, nurbs_surface.rs 1555-1574 and 1610-1643. -/
def surfaceStep (ck : Codec L K) (cn : Codec L ℕ) (cv : Codec L V) (st : SurfaceSlots K V) (e : String × Doc L) :
    Res (SurfaceSlots K V) :=
  if e.1 = "control_points" then do
    let s ← setField cv.list.list st.cps e.2
    pure { st with cps := s }
  else if e.1 = "u_degree" then do
    let s ← setField cn st.uDegree e.2
    pure { st with uDegree := s }
  else if e.1 = "v_degree" then do
    let s ← setField cn st.vDegree e.2
    pure { st with vDegree := s }
  else if e.1 = "u_knots" then do
    let s ← setField ck.list st.uKnots e.2
    pure { st with uKnots := s }
  else if e.1 = "v_knots" then do
    let s ← setField ck.list st.vKnots e.2
    pure { st with vKnots := s }
  else .error .err

/-- `Deserialize for NurbsSurface`, nurbs_surface.rs 1525-1670. -/
def decSurface (ck : Codec L K) (cn : Codec L ℕ) (cv : Codec L V) : Doc L → Res (Surface K V)
  | .map es => do
    let st ← es.foldlM (surfaceStep ck cn cv) {}
    let cps ← required st.cps
    let ud ← required st.uDegree
    let vd ← required st.vDegree
    let uk ← required st.uKnots
    let vk ← required st.vKnots
    pure { cps := cps, uDegree := ud, vDegree := vd, uKnots := uk, vKnots := vk }
  | _ => .error .err

/-- The format of surfaces, nurbs_surface.rs 1510-1670. -/
def surfaceCodec (ck : Codec L K) (cn : Codec L ℕ) (cv : Codec L V) : Codec L (Surface K V) where
  enc := encSurface ck cn cv
  dec := decSurface ck cn cv

end nurbs

/-! ### Compound curves, regions, trimmed surfaces -/

section compound
variable {L C S : Type}

/-- `Serialize` and `Deserialize for CompoundCurve`, region/compound_curve.rs 277-390; `C` is the type of the spans. -/
def compoundCodec (cc : Codec L C) : Codec L (List C) where
  enc := fun spans => .map [("spans", cc.list.enc spans)]
  dec := fun d => match d with
    | .map es => do
      let st ← es.foldlM (fun st e => if e.1 = "spans" then setField cc.list st e.2 else .error .err) none
      required st
    | _ => .error .err

/-- Body of the loop of the derived `visit_map` of `Region`, region/mod.rs 13: unknown fields are skipped. -/
def regionStep (cc : Codec L C) (st : Option C × Option (List C)) (e : String × Doc L) : Res (Option C × Option (List C)) :=
  if e.1 = "exterior" then do
    let s ← setField cc st.1 e.2
    pure (s, st.2)
  else if e.1 = "interiors" then do
    let s ← setField cc.list st.2 e.2
    pure (st.1, s)
  else pure st

/-- The derived `Serialize` and `Deserialize` of `Region`, region/mod.rs 12-17: maps and sequences of two values. -/
def regionCodec (cc : Codec L C) : Codec L (Boolean.Region C) where
  enc := fun r => .map [("exterior", cc.enc r.exterior), ("interiors", cc.list.enc r.interiors)]
  dec := fun d => match d with
    | .map es => do
      let st ← es.foldlM (regionStep cc) (none, none)
      let ext ← required st.1
      let int ← required st.2
      pure { exterior := ext, interiors := int }
    | .seq [a, b] => do
      let ext ← cc.dec a
      let int ← cc.list.dec b
      pure { exterior := ext, interiors := int }
    | _ => .error .err

/-- `TrimmedSurface`, trimmed_surface.rs 16-20, with the types of its surface and its curves as parameters. -/
structure Trimmed (S C : Type) where
  surface : S
  exterior : Option C
  interiors : List C

/-- `Result::ok`, trimmed_surface.rs 305. -/
def okOption {α : Type} : Res α → Option α
  | .ok a => some a
  | .error _ => none

/-- Body of the loop of `visit_map`, trimmed_surface.rs 256-267 and 289-311: an exterior that fails to decode is dropped
    (`map.next_value().ok()`). -/
def trimmedStep (cs : Codec L S) (cc : Codec L C) (st : Option S × Option C × Option (List C)) (e : String × Doc L) :
    Res (Option S × Option C × Option (List C)) :=
  if e.1 = "surface" then do
    let s ← setField cs st.1 e.2
    pure (s, st.2.1, st.2.2)
  else if e.1 = "exterior" then
    if st.2.1.isSome then .error .err else pure (st.1, okOption (cc.dec e.2), st.2.2)
  else if e.1 = "interiors" then do
    let s ← setField cc.list st.2.2 e.2
    pure (st.1, st.2.1, s)
  else .error .err

/-- `Serialize` and `Deserialize for TrimmedSurface`, trimmed_surface.rs 201-325. -/
def trimmedCodec (cs : Codec L S) (cc : Codec L C) : Codec L (Trimmed S C) where
  enc := fun t => .map [("surface", cs.enc t.surface), ("exterior", encOption cc t.exterior),
    ("interiors", cc.list.enc t.interiors)]
  dec := fun d => match d with
    | .map es => do
      let st ← es.foldlM (trimmedStep cs cc) (none, none, none)
      let s ← required st.1
      let int ← required st.2.2
      pure { surface := s, exterior := st.2.1, interiors := int }
    | _ => .error .err

end compound

end Curvo.Serde

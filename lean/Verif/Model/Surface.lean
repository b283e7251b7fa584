/-
  Model of `/repo/src/surface/nurbs_surface.rs` (construction, evaluation, flips, refinement, isocurves), the
  surface part of `/repo/src/split/mod.rs`, the surface part of `/repo/src/bounding_box/mod.rs` and
  `/repo/src/bounding_box/surface_bounding_box_tree.rs`.

  A homogeneous point is an element of a `K`-module `V` (`W × K` where the weight matters).
-/
import Verif.Model.BBox
import Verif.Model.Misc

namespace Curvo

/-- `NurbsSurface`, nurbs_surface.rs 30-41. -/
structure Surface (K V : Type) where
  uDegree : ℕ
  vDegree : ℕ
  uKnots : List K
  vKnots : List K
  cps : List (List V)

/-- `UVDirection`, surface/mod.rs 8-11. -/
inductive UV where
  | u
  | v
  deriving DecidableEq

/-- `FlipDirection`, surface/mod.rs 25-29. -/
inductive Flip where
  | u
  | v
  | uv
  deriving DecidableEq

/-- `UVDirection::opposite`, surface/mod.rs 14-20. -/
def UV.opposite : UV → UV
  | .u => .v
  | .v => .u

namespace Surface

variable {K : Type} [Field K] [LinearOrder K] {V W : Type}

/-- `NurbsSurface::new`, nurbs_surface.rs 54-68 (`KnotVector::new` keeps the list as it is). -/
def new (uDegree vDegree : ℕ) (uKnots vKnots : List K) (cps : List (List V)) : Surface K V :=
  { uDegree := uDegree, vDegree := vDegree, uKnots := uKnots, vKnots := vKnots, cps := cps }

/-- `u_knots_domain`, nurbs_surface.rs 87-89. -/
def uDomain (S : Surface K V) : Res (K × K) := Knots.domain S.uKnots S.uDegree

/-- `v_knots_domain`, nurbs_surface.rs 92-94. -/
def vDomain (S : Surface K V) : Res (K × K) := Knots.domain S.vKnots S.vDegree

/-- `knots_domain_at`, nurbs_surface.rs 96-101. -/
def domainAt (S : Surface K V) : UV → Res (K × K)
  | .u => S.uDomain
  | .v => S.vDomain

section eval
variable [AddCommGroup V] [Module K V]

/-- The inner loop `for k in 0..=u_degree`, nurbs_surface.rs 161-163 and 223-225. -/
def isoPoint (S : Surface K V) (bu : List K) (uind vind : ℕ) : Res V :=
  (List.range (S.uDegree + 1)).foldlM (fun acc k => do
    let row ← getR S.cps (uind + k)
    let p ← getR row vind
    let b ← getR bu k
    pure (acc + b • p)) 0

/-- `NurbsSurface::point`, nurbs_surface.rs 141-170. -/
def point (eps : K) (S : Surface K V) (u v : K) : Res V := do
  let n ← subR S.uKnots.length S.uDegree
  let n ← subR n 2
  let m ← subR S.vKnots.length S.vDegree
  let m ← subR m 2
  let su ← Knots.findKnotSpanIndex eps S.uKnots n S.uDegree u
  let sv ← Knots.findKnotSpanIndex eps S.vKnots m S.vDegree v
  let bu ← Knots.basisFunctions S.uKnots su u S.uDegree
  let bv ← Knots.basisFunctions S.vKnots sv v S.vDegree
  let uind ← subR su S.uDegree
  (List.range (S.vDegree + 1)).foldlM (fun acc l => do
    let v0 ← subR sv S.vDegree
    let temp ← S.isoPoint bu uind (v0 + l)
    let b ← getR bv l
    pure (acc + b • temp)) 0

/-- `point_given_bases_knot_spans`, nurbs_surface.rs 207-233 (`vind` after `l` increments is `v0 + l`). -/
def pointGivenBases (S : Surface K V) (su sv : ℕ) (bu bv : List K) : Res V := do
  let uind ← subR su S.uDegree
  let v0 ← subR sv S.vDegree
  (List.range (S.vDegree + 1)).foldlM (fun acc l => do
    let temp ← S.isoPoint bu uind (v0 + l)
    let b ← getR bv l
    pure (acc + b • temp)) 0

/-- `NurbsSurface::try_refine_knot`, nurbs_surface.rs 826-884. -/
def tryRefineKnot (eps : K) (S : Surface K V) (xs : List K) : UV → Res (Surface K V)
  | .u => do
    let rows ← Misc.transpose S.cps
    let refined ← rows.mapM fun row => do
      let c ← Curve.tryNew S.uDegree row S.uKnots
      c.tryRefineKnot eps xs
    match refined with
    | [] => .error .err
    | c :: _ => do
      let cps ← Misc.transpose (refined.map Curve.cps)
      pure { S with cps := cps, uKnots := c.knots }
  | .v => do
    let refined ← S.cps.mapM fun row => do
      let c ← Curve.tryNew S.vDegree row S.vKnots
      c.tryRefineKnot eps xs
    match refined with
    | [] => .error .err
    | c :: _ => pure { S with cps := refined.map Curve.cps, vKnots := c.knots }

/-- Control points and knots of the pieces in `try_split`, split/mod.rs 102-128: `s` is the span of the
    parameter, `curves` are the refined rows. -/
def splitRows (s degree : ℕ) (curves : List (Curve K V)) : Res ((List (List V) × List K) × List (List V) × List K) := do
  let pts0 ← curves.mapM fun c => sliceR c.cps 0 (s + 1)
  let pts1 ← curves.mapM fun c => sliceR c.cps (s + 1) c.cps.length
  match curves.getLast? with
  | none => .error .err
  | some c => do
    let k0 ← sliceR c.knots 0 (s + degree + 2)
    let k1 ← sliceR c.knots (s + 1) c.knots.length
    pure ((pts0, k0), pts1, k1)

/-- Refining all rows in `try_split`, split/mod.rs 102-114. -/
def splitCurves (eps : K) (rows : List (List V)) (knots : List K) (degree : ℕ) (t : K) : Res (List (Curve K V)) :=
  rows.mapM fun row => do
    let c ← Curve.tryNew degree row knots
    c.tryRefineKnot eps (List.replicate (degree + 1) t)

/-- Surface `Split::try_split`, split/mod.rs 89-162. The parameter is not clamped into the domain. -/
def trySplit (eps : K) (S : Surface K V) (t : K) (dir : UV) : Res (Surface K V × Surface K V) :=
  match dir with
  | .u => do
    let rows ← Misc.transpose S.cps
    let n ← subR S.uKnots.length S.uDegree
    let n ← subR n 2
    let s ← Knots.findKnotSpanIndex eps S.uKnots n S.uDegree t
    let curves ← splitCurves eps rows S.uKnots S.uDegree t
    let ((pts0, k0), pts1, k1) ← splitRows s S.uDegree curves
    let cps0 ← Misc.transpose pts0
    let cps1 ← Misc.transpose pts1
    pure (new S.uDegree S.vDegree k0 S.vKnots cps0, new S.uDegree S.vDegree k1 S.vKnots cps1)
  | .v => do
    let n ← subR S.vKnots.length S.vDegree
    let n ← subR n 2
    let s ← Knots.findKnotSpanIndex eps S.vKnots n S.vDegree t
    let curves ← splitCurves eps S.cps S.vKnots S.vDegree t
    let ((pts0, k0), pts1, k1) ← splitRows s S.vDegree curves
    pure (new S.uDegree S.vDegree S.uKnots k0 pts0, new S.uDegree S.vDegree S.uKnots k1 pts1)

/-- Number of copies to insert in `try_isocurve`, nurbs_surface.rs 755-774. -/
def isoCount (eps : K) (mult : List (K × ℕ)) (degree : ℕ) (t : K) : ℕ :=
  match mult.find? (fun m => decide (|t - m.1| < eps)) with
  | some m => if m.2 ≤ degree + 1 then degree + 1 - m.2 else degree + 1
  | none => degree + 1

/-- The span read in `try_isocurve`, nurbs_surface.rs 784-793; `last` is the last control point index in
    the refined direction. -/
def isoSpan (eps : K) (knots : List K) (degree last : ℕ) (t : K) : Res ℕ := do
  let k0 ← getR knots 0
  if |t - k0| < eps then pure 0
  else
    let i ← subR knots.length 1
    let k1 ← getR knots i
    if |t - k1| < eps then pure last
    else
      let n ← subR knots.length degree
      let n ← subR n 2
      Knots.findKnotSpanIndex eps knots n degree t

/-- `NurbsSurface::try_isocurve`, nurbs_surface.rs 749-811 (the index of the last control point is computed
    before it is known to be needed; on an empty net this panics like the refinement does). -/
def tryIsocurve (eps : K) (S : Surface K V) (t : K) (dir : UV) : Res (Curve K V) := do
  let (knots, degree) := match dir with
    | .u => (S.uKnots, S.uDegree)
    | .v => (S.vKnots, S.vDegree)
  let mult ← Knots.multiplicity eps knots
  let count := isoCount eps mult degree t
  let R ← if 0 < count then S.tryRefineKnot eps (List.replicate count t) dir else pure S
  match dir with
  | .u => do
    let last ← subR R.cps.length 1
    let s ← isoSpan eps knots degree last t
    let row ← getR R.cps s
    Curve.tryNew R.vDegree row R.vKnots
  | .v => do
    let row0 ← getR R.cps 0
    let last ← subR row0.length 1
    let s ← isoSpan eps knots degree last t
    let col ← R.cps.mapM fun row => getR row s
    Curve.tryNew R.uDegree col R.uKnots

/-- `NurbsSurface::try_boundary_curves`, nurbs_surface.rs 814-823. -/
def tryBoundaryCurves (eps : K) (S : Surface K V) : Res (List (Curve K V)) := do
  let (us, ue) ← S.uDomain
  let (vs, ve) ← S.vDomain
  let a ← S.tryIsocurve eps us .u
  let b ← S.tryIsocurve eps vs .v
  let c ← S.tryIsocurve eps ue .u
  let d ← S.tryIsocurve eps ve .v
  pure [a, b, c, d]

end eval

/-- `NurbsSurface::flip`, nurbs_surface.rs 505-531. -/
def flip (S : Surface K V) (dir : Flip) : Res (Surface K V) := do
  let S ← match dir with
    | .u | .uv => do
      let ks ← Knots.invert S.uKnots
      pure { S with cps := S.cps.reverse, uKnots := ks }
    | .v => pure S
  match dir with
  | .v | .uv => do
    let ks ← Knots.invert S.vKnots
    pure { S with cps := S.cps.map List.reverse, vKnots := ks }
  | .u => pure S

/-- `Invertible::invert`, nurbs_surface.rs 1493-1500. -/
def invert (S : Surface K V) : Res (Surface K V) := do
  let cps := S.cps.map List.reverse
  let cps := cps.reverse
  let uk ← Knots.invert S.uKnots
  let vk ← Knots.invert S.vKnots
  pure { S with cps := cps, uKnots := uk, vKnots := vk }

section rational
variable [AddCommGroup W] [Module K W]

/-- `NurbsSurface::point_at`, nurbs_surface.rs 135-138. -/
def pointAt (eps : K) (S : Surface K (W × K)) (u v : K) : Res W := do
  let p ← S.point eps u v
  unwrapR (Curve.dehomogenize p)

/-- `dehomogenized_control_points`, nurbs_surface.rs 123-132. -/
def dehomogenizedCps (S : Surface K (W × K)) : Res (List (List W)) :=
  S.cps.mapM fun row => row.mapM fun p => unwrapR (Curve.dehomogenize p)

/-- `regular_sample_points`, nurbs_surface.rs 174-204. -/
def regularSamplePoints (eps : K) (S : Surface K (W × K)) (divsU divsV : ℕ) : Res (List (List W)) := do
  let bu ← Knots.regularlySpacedBasisFunctions eps S.uKnots S.uDegree divsU
  let bv ← Knots.regularlySpacedBasisFunctions eps S.vKnots S.vDegree divsV
  (List.range (divsU + 1)).mapM fun i => (List.range (divsV + 1)).mapM fun j => do
    let x ← getR bu i
    let y ← getR bv j
    let p ← S.pointGivenBases x.1 y.1 x.2 y.2
    unwrapR (Curve.dehomogenize p)

/-- `NurbsSurface::plane`, nurbs_surface.rs 551-594. -/
def plane (center x y : W) : Surface K (W × K) where
  uDegree := 1
  vDegree := 1
  uKnots := [0, 0, 1, 1]
  vKnots := [0, 0, 1, 1]
  cps := [[Curve.homogenize (center - x - y), Curve.homogenize (center - x + y)],
          [Curve.homogenize (center + x - y), Curve.homogenize (center + x + y)]]

/-- `NurbsSurface::extrude`, nurbs_surface.rs 597-648. -/
def extrude (profile : Curve K (W × K)) (t : W) : Res (Surface K (W × K)) := do
  let pts ← profile.dehomogenizedCps
  let half := (1 / 2 : K) • t
  let cols ← (List.range pts.length).mapM fun i => do
    let p ← getR pts i
    let w ← getR profile.weights i
    pure (((w • (p + t), w) : W × K), ((w • (p + half), w) : W × K), ((w • p, w) : W × K))
  pure { uDegree := 2, vDegree := profile.degree, uKnots := [0, 0, 0, 1, 1, 1], vKnots := profile.knots,
         cps := [cols.map (fun c => c.1), cols.map (fun c => c.2.1), cols.map (fun c => c.2.2)] }

/-- `Transformable::transform`, nurbs_surface.rs 1453-1471. -/
def transform (m : Curve.Matrix4 K W) (S : Surface K (W × K)) : Res (Surface K (W × K)) := do
  let cps ← S.cps.mapM fun row => row.mapM (Curve.transformPoint m)
  pure { S with cps := cps }

end rational

/-- `From<&NurbsSurface> for BoundingBox`, bounding_box/mod.rs 223-235. -/
def boundingBox {d : ℕ} (big : K) (S : Surface K ((Fin d → K) × K)) : Res (Box K d) := do
  let pts ← S.dehomogenizedCps
  pure (Box.ofPoints big pts.flatten)

end Surface

/-- `SurfaceBoundingBoxTree`, surface_bounding_box_tree.rs 12-21. -/
structure SurfTree (K : Type) (d : ℕ) where
  surface : Surface K ((Fin d → K) × K)
  tolerance : K × K
  direction : UV

namespace SurfTree

variable {K : Type} [Field K] [LinearOrder K] {d : ℕ}

/-- `SurfaceBoundingBoxTree::new`, surface_bounding_box_tree.rs 31-46. -/
def new (S : Surface K ((Fin d → K) × K)) (direction : UV) (tolerance : Option (K × K)) : Res (SurfTree K d) :=
  match tolerance with
  | some tol => pure ⟨S, tol, direction⟩
  | none => do
    let u ← S.uDomain
    let v ← S.vDomain
    pure ⟨S, ((u.2 - u.1) / 64, (v.2 - v.1) / 64), direction⟩

/-- `is_dividable`, surface_bounding_box_tree.rs 64-68. -/
def isDividable (t : SurfTree K d) : Res Bool := do
  let u ← t.surface.uDomain
  let v ← t.surface.vDomain
  pure (decide (t.tolerance.1 < u.2 - u.1) || decide (t.tolerance.2 < v.2 - v.1))

/-- `try_divide`, surface_bounding_box_tree.rs 71-91 (no random numbers are used; the state is passed on). -/
def tryDivide {Rng : Type} (eps : K) (t : SurfTree K d) (rng : Rng) : Res ((SurfTree K d × SurfTree K d) × Rng) := do
  let dom ← t.surface.domainAt t.direction
  let (l, r) ← t.surface.trySplit eps ((dom.1 + dom.2) * (1 / 2)) t.direction
  pure ((⟨l, t.tolerance, t.direction.opposite⟩, ⟨r, t.tolerance, t.direction.opposite⟩), rng)

/-- `impl BoundingBoxTree for SurfaceBoundingBoxTree`, surface_bounding_box_tree.rs 57-98. -/
def tree (Rng : Type) (eps big : K) : BoxTree K d Rng (SurfTree K d) where
  isDividable := isDividable
  tryDivide := tryDivide eps
  boundingBox := fun t => t.surface.boundingBox big

end SurfTree

end Curvo

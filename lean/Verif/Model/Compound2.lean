/-
  Model of the remaining operations of compound curves: lengths, closest points and transformations in
  `/repo/src/region/compound_curve.rs`, tessellation in `/repo/src/tessellation/tessellation_compound_curve.rs`.
-/
import Verif.Model.Compound
import Verif.Model.Length
import Verif.Model.Closest
import Verif.Model.Tess

namespace Curvo.Compound

variable {K W : Type} [Field K] [LinearOrder K] [AddCommGroup W] [Module K W]

/-- `CompoundCurve::try_length`, compound_curve.rs 178-187. -/
def tryLength (nrm : W → K) (rule : ℕ → List (K × K)) (eps : K) (spans : List (Curve K (W × K))) : Res K := do
  let ls ← spans.mapM fun s => Length.tryLength nrm rule eps s
  pure (ls.foldl (fun a b => a + b) 0)

/-- `CompoundCurve::find_closest_point`, compound_curve.rs 205-232; `normSq` is `norm_squared()`. -/
def findClosestPoint (nrm normSq : W → K) (dot : W → W → K) (eps : K) (spans : List (Curve K (W × K))) (pt : W) :
    Res W := do
  let res ← spans.mapM fun s => Closest.findClosestPoint nrm dot eps s pt
  match res.map fun q => (normSq (q - pt), q) with
  | [] => .error .err
  | x :: xs => pure (minBy x xs).2

/-- `Transformable::transform` for `CompoundCurve`, compound_curve.rs 257-265. -/
def transform (m : Curve.Matrix4 K W) (spans : List (Curve K (W × K))) : Res (List (Curve K (W × K))) :=
  spans.mapM fun s => s.transform m

/-- `Tessellation::tessellate` for `CompoundCurve`, tessellation_compound_curve.rs 18-47. The random numbers are
    given per span, `ceps` is the tolerance of `is_closed`; `Vec::pop` removes the last entry, if there is one.
    `cycle().take(n + 1)` of `n` entries repeats the first one. -/
def tessellate (M : Tess.Metric K W) (eps ceps floor : K) (dist : W → W → K) (rnd : ℕ → ℕ → K) (fuel : ℕ)
    (spans : List (Curve K (W × K))) (tol : K) : Res (List W) := do
  let closed ← isClosed eps ceps dist spans
  if closed then do
    let parts ← spans.zipIdx.mapM fun s => do
      let t ← Tess.tessellateCurve M eps floor (rnd s.2) fuel s.1 tol
      pure t.1.dropLast
    let pts := parts.flatten
    pure (pts ++ pts.take 1)
  else do
    let parts ← spans.zipIdx.mapM fun s => do
      let t ← Tess.tessellateCurve M eps floor (rnd s.2) fuel s.1 tol
      let m ← subR spans.length 1
      pure (if s.2 ≠ m then t.1.dropLast else t.1)
    pure parts.flatten

end Curvo.Compound

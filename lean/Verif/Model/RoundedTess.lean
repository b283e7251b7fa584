/-
  Model of the adaptive tessellation of curves in floating point arithmetic: `Tess.adaptive` (`Model/Tess.lean`) with every
  arithmetic operation on scalars followed by a rounding `fl`.  The simplifications are those of `Model/Rounded.lean`.
-/
import Verif.Model.Rounded
import Verif.Model.Tess

namespace Curvo.Rounded

variable {K : Type} [Field K] [LinearOrder K] {d : ℕ}

/-- `v.dot(&v)`, tessellation_curve.rs 62, rounded: products are added from the first coordinate on. -/
def normSq (fl : K → K) (v : Fin d → K) : K :=
  (List.finRange d).foldl (fun acc i => fl (acc + fl (v i * v i))) 0

/-- `three_points_are_flat` in the plane, trigonometry.rs 12-15, rounded. -/
def flat2 (fl : K → K) (p1 p2 p3 : Fin 2 → K) (tolerance : K) : Bool :=
  let p21 : Fin 2 → K := fun i => fl (p2 i - p1 i)
  let p31 : Fin 2 → K := fun i => fl (p3 i - p1 i)
  decide (|fl (fl (p21 0 * p31 1) - fl (p21 1 * p31 0))| < tolerance)

/-- `three_points_are_flat` in space, trigonometry.rs 12-13 and 17-19, rounded. -/
def flat3 (fl : K → K) (p1 p2 p3 : Fin 3 → K) (tolerance : K) : Bool :=
  let p21 : Fin 3 → K := fun i => fl (p2 i - p1 i)
  let p31 : Fin 3 → K := fun i => fl (p3 i - p1 i)
  let norm : Fin 3 → K := ![fl (fl (p21 1 * p31 2) - fl (p21 2 * p31 1)), fl (fl (p21 2 * p31 0) - fl (p21 0 * p31 2)),
    fl (fl (p21 0 * p31 1) - fl (p21 1 * p31 0))]
  decide (normSq fl norm < tolerance)

/-- The random parameter of tessellation_curve.rs 57-58, rounded: `start + delta * (0.5 + 0.2 * x)`; the literal `0.2` is the
    rounded fifth, `0.5` is exact. -/
def probe (fl : K → K) (start delta x : K) : K :=
  fl (start + fl (delta * fl (1 / 2 + fl (fl (1 / 5) * x))))

/-- The parameter of tessellation_curve.rs 66, rounded: `start + (end - start) * 0.5`. -/
def exactMid (fl : K → K) (start stop : K) : K := fl (start + fl (fl (stop - start) * (1 / 2)))

/-- The test of tessellation_curve.rs 61-65, rounded: whether the piece is divided. -/
def divides (fl : K → K) (flat : (Fin d → K) → (Fin d → K) → (Fin d → K) → K → Bool) (tol : K) (p1 p2 p3 : Fin d → K) : Bool :=
  (decide (normSq fl (fun i => fl (p1 i - p3 i)) < tol) && decide (tol < normSq fl (fun i => fl (p1 i - p2 i)))) || !flat p1 p2 p3 tol

/-- `tessellate_adaptive`, tessellation_curve.rs 37-74, rounded (see `Tess.adaptive`).  `flat` is the test of three points in
    the dimension at hand (`flat2`, `flat3`). -/
def adaptive (fl : K → K) (flat : (Fin d → K) → (Fin d → K) → (Fin d → K) → K → Bool) (floor : K) (rnd : ℕ → K)
    (pointAt : K → Res (Fin d → K)) (tol : K) : ℕ → K → K → ℕ → Res (List (Fin d → K) × ℕ)
  | 0, _, _, _ => .error .diverge
  | fuel + 1, start, stop, pos => do
    let p1 ← pointAt start
    let delta := fl (stop - start)
    if delta < floor then pure ([p1], pos)
    else do
      let p3 ← pointAt stop
      let p2 ← pointAt (probe fl start delta (rnd pos))
      if divides fl flat tol p1 p2 p3 = true then do
        let (left, pos) ← adaptive fl flat floor rnd pointAt tol fuel start (exactMid fl start stop) (pos + 1)
        let (right, pos) ← adaptive fl flat floor rnd pointAt tol fuel (exactMid fl start stop) stop pos
        pure (left.dropLast ++ right, pos)
      else pure ([p1, p3], pos + 1)

/-- `Tessellation::tessellate` for curves, tessellation_curve.rs 23-32, rounded. -/
def tessellateCurve (fl : K → K) (flat : (Fin d → K) → (Fin d → K) → (Fin d → K) → K → Bool) (eps floor : K) (rnd : ℕ → K)
    (fuel : ℕ) (c : Curve K ((Fin d → K) × K)) (tol : K) : Res (List (Fin d → K) × ℕ) := do
  if c.degree = 1 then do
    let pts ← c.cps.mapM fun p => unwrapR (dehomogenize fl p)
    pure (pts, 0)
  else do
    let (start, stop) ← c.knotsDomain
    adaptive fl flat floor rnd (pointAt fl eps c) tol fuel start stop 0

end Curvo.Rounded

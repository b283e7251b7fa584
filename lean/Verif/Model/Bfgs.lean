/-
  Model of the quasi-Newton solver of the intersection queries:
  `/repo/src/intersects/curve_curve/curve_intersection_problem.rs`,
  `/repo/src/intersects/curve_curve/curve_intersection_bfgs.rs`,
  `/repo/src/intersects/surface_curve/surface_curve_intersection_problem.rs`,
  `/repo/src/intersects/surface_curve/surface_curve_intersection_bfgs.rs`.
  The two solvers differ in the number `n` of parameters only (2 and 3), so one model serves both. `nrm` is `norm()`.
-/
import Verif.Model.Deriv
import Verif.Model.Surface
import Mathlib.LinearAlgebra.Matrix.Notation

namespace Curvo.Bfgs

open Matrix

variable {K : Type} [Field K] [LinearOrder K] {n : ℕ}

/-- `CostFunction` and `Gradient`, curve_intersection_problem.rs 29-75 and
    surface_curve_intersection_problem.rs 31-80: the cost fails (`.err`) where a weight vanishes; the gradient is not finite
    (`.nonfinite`) there. -/
structure Problem (K : Type) (n : ℕ) where
  cost : (Fin n → K) → Res K
  gradient : (Fin n → K) → Res (Fin n → K)

/-- The fields of argmin's `IterState` that are used. `prevCost = none` is the infinite cost before the first one;
    `gradient`, `hessian` are `None` before the first iteration; `finite = false` when the gradient or the Hessian
    has an entry that is not finite (then they are not used again, curve_intersection_bfgs.rs 163-178). -/
structure State (K : Type) (n : ℕ) where
  param : Fin n → K
  cost : K
  prevCost : Option K
  gradient : Option (Fin n → K)
  hessian : Option (Matrix (Fin n) (Fin n) K)
  finite : Bool
  maxIters : ℕ
  iter : ℕ
  best : Fin n → K
  bestCost : K

/-- The line search, curve_intersection_bfgs.rs 105-135 (surface_curve_intersection_bfgs.rs 102-138), with `k` rounds
    left: `t`, the last candidate `x1` and its cost `f1` (`none`: it failed), the number `it` of rounds. -/
def lineSearch (cost : (Fin n → K) → Res K) (tol norm f0 df0 : K) (x0 step : Fin n → K) :
    ℕ → K → (Fin n → K) → Option K → ℕ → Res (K × (Fin n → K) × Option K × ℕ)
  | 0, t, x1, f1, it => pure (t, x1, f1, it)
  | k + 1, t, x1, f1, it =>
    if t * norm < tol then pure (t, x1, f1, it + 1)
    else
      let x1 := x0 + t • step
      match cost x1 with
      | .ok f =>
        if 1 / 10 * t * df0 ≤ f - f0 then lineSearch cost tol norm f0 df0 x0 step k (t * (1 / 2)) x1 (some f) (it + 1)
        else pure (t, x1, some f, it + 1)
      | .error .err => lineSearch cost tol norm f0 df0 x0 step k (t * (1 / 2)) x1 none (it + 1)
      | .error e => .error e

/-- The new inverse Hessian, curve_intersection_bfgs.rs 138-145; `none` if its entries are not finite, that is if `ys`
    is zero. -/
def update (h0 : Matrix (Fin n) (Fin n) K) (s y : Fin n → K) : Option (Matrix (Fin n) (Fin n) K) :=
  let ys := y ⬝ᵥ s
  let sT := vecMulVec s s
  let hy := h0 *ᵥ y
  if ys = 0 then none
  else some ((h0 + ((ys + y ⬝ᵥ hy) / (ys * ys)) • sT) - (1 / ys) • (vecMulVec hy s + vecMulVec s hy))

/-- The gradient at the current parameter: the one of the last iteration, or computed, curve_intersection_bfgs.rs 91-94. -/
def oldGradient (P : Problem K n) (st : State K n) : Res (Fin n → K) :=
  match st.gradient with
  | some g => pure g
  | none => P.gradient st.param

/-- `next_iter`, curve_intersection_bfgs.rs 76-156, followed by `increment_iter` and `update` of the executor. -/
def nextIter (P : Problem K n) (nrm : (Fin n → K) → K) (tol : K) (st : State K n) : Res (State K n) := do
  let x0 := st.param
  let f0 := st.cost
  let g0 ← oldGradient P st
  let h0 := st.hessian.getD 1
  let step := -(h0 *ᵥ g0)
  let (t, x1, f1, it) ← lineSearch P.cost tol (nrm step) f0 (g0 ⬝ᵥ step) x0 step st.maxIters 1 x0 (some f0) 0
  let f1 := f1.getD f0
  let left ← subR st.maxIters it
  let better := f1 < st.bestCost
  let st := { st with
    param := x1
    cost := f1
    prevCost := some st.cost
    maxIters := left
    iter := st.iter + 1
    best := if better then x1 else st.best
    bestCost := if better then f1 else st.bestCost }
  match P.gradient x1 with
  | .ok g1 =>
    match update h0 (t • step) (g1 - g0) with
    | some h1 => pure { st with gradient := some g1, hessian := some h1 }
    | none => pure { st with gradient := some g1, hessian := none, finite := false }
  | .error .nonfinite => pure { st with gradient := none, hessian := none, finite := false }
  | .error e => .error e

/-- `terminate`, curve_intersection_bfgs.rs 158-198, and the limit of the executor (`iter >= max_iters`). -/
def stops (nrm : (Fin n → K) → K) (stepTol costTol : K) (st : State K n) : Bool :=
  decide (st.maxIters < st.iter) || !st.finite ||
  (match st.gradient, st.hessian with
    | some g, some h => decide (nrm (h *ᵥ g) < stepTol)
    | _, _ => false) ||
  (st.prevCost.any fun p => decide (st.cost ≠ p) && decide (|st.cost - p| < costTol)) ||
  decide (st.maxIters ≤ st.iter)

/-- The loop of argmin's `Executor` (crate argmin, run at intersection_curve_curve.rs 126-134 and
    intersection_surface_curve.rs 107-115). -/
def loop (P : Problem K n) (nrm : (Fin n → K) → K) (stepTol costTol : K) : ℕ → State K n → Res (State K n)
  | 0, _ => .error .diverge
  | fuel + 1, st =>
    if stops nrm stepTol costTol st then pure st
    else do
      let st' ← nextIter P nrm stepTol st
      loop P nrm stepTol costTol fuel st'

/-- `Executor::run` from the initial parameter `x0` (`init`, curve_intersection_bfgs.rs 59-74); the result is the best
    parameter. -/
def run (P : Problem K n) (nrm : (Fin n → K) → K) (stepTol costTol : K) (maxIters fuel : ℕ) (x0 : Fin n → K) :
    Res (Fin n → K) := do
  let f0 ← P.cost x0
  let st ← loop P nrm stepTol costTol fuel
    { param := x0, cost := f0, prevCost := none, gradient := none, hessian := none, finite := true, maxIters := maxIters,
      iter := 0, best := x0, bestCost := f0 }
  pure st.best

variable {W : Type} [AddCommGroup W] [Module K W]

/-- `cost` of two homogeneous points, curve_intersection_problem.rs 55-74. -/
def pairCost (normSq : W → K) (p1 p2 : W × K) : Res K :=
  if p1.2 ≠ 0 ∧ p2.2 ≠ 0 then pure (normSq (p1.2⁻¹ • p1.1 - p2.2⁻¹ • p2.1)) else .error .err

/-- `CurveIntersectionProblem`, curve_intersection_problem.rs 29-75. -/
def curveProblem (dot : W → W → K) (eps : K) (a b : Curve K (W × K)) : Problem K 2 where
  cost x := do
    let p1 ← a.point eps (x 0)
    let p2 ← b.point eps (x 1)
    pairCost (fun v => dot v v) p1 p2
  gradient x := do
    let du ← a.rationalDerivatives eps (x 0) 1
    let dv ← b.rationalDerivatives eps (x 1) 1
    let du0 ← getR du 0
    let dv0 ← getR dv 0
    let r := du0 - dv0
    let du1 ← getR du 1
    let dv1 ← getR dv 1
    pure ((2 : K) • ![dot r du1, -dot r dv1])

/-- `SurfaceCurveIntersectionProblem`, surface_curve_intersection_problem.rs 32-79; the parameters are the one of the
    curve and the two of the surface. -/
def surfaceProblem (dot : W → W → K) (eps : K) (S : Surface K (W × K)) (c : Curve K (W × K)) : Problem K 3 where
  cost x := do
    let p1 ← S.point eps (x 1) (x 2)
    let p2 ← c.point eps (x 0)
    pairCost (fun v => dot v v) p1 p2
  gradient x := do
    let dc ← c.rationalDerivatives eps (x 0) 1
    let ds ← S.rationalDerivatives eps (x 1) (x 2) 1
    let p ← get2R ds 0 0
    let dc0 ← getR dc 0
    let r := p - dc0
    let drdu ← get2R ds 1 0
    let drdv ← get2R ds 0 1
    let dc1 ← getR dc 1
    pure ((2 : K) • ![dot (-dc1) r, dot drdu r, dot drdv r])

/-- The solver call for a pair of curve pieces, intersection_curve_curve.rs 103-133: started at the two starts of the
    domains; an error is no result. -/
def solveCurves (dot : W → W → K) (nrm : (Fin 2 → K) → K) (eps stepTol costTol : K) (maxIters : ℕ) (a b : Curve K (W × K)) :
    Option (K × K) :=
  match (do
    let da ← a.knotsDomain
    let db ← b.knotsDomain
    run (curveProblem dot eps a b) nrm stepTol costTol maxIters (maxIters + 1) ![da.1, db.1]) with
  | .ok x => some (x 0, x 1)
  | .error _ => none

/-- The solver call for a pair of pieces of a surface and a curve, intersection_surface_curve.rs 84-116: started at the
    middles of the domains. -/
def solveSurface (dot : W → W → K) (nrm : (Fin 3 → K) → K) (eps stepTol costTol : K) (maxIters : ℕ) (S : Surface K (W × K))
    (c : Curve K (W × K)) : Option (K × K × K) :=
  match (do
    let dc ← c.knotsDomain
    let du ← S.uDomain
    let dv ← S.vDomain
    run (surfaceProblem dot eps S c) nrm stepTol costTol maxIters (maxIters + 1)
      ![(dc.1 + dc.2) * (1 / 2), (du.1 + du.2) * (1 / 2), (dv.1 + dv.2) * (1 / 2)]) with
  | .ok x => some (x 0, x 1, x 2)
  | .error _ => none

end Curvo.Bfgs

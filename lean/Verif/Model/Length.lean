/-
  Model of arc lengths: `try_length`, `try_parameter_at_length`, `try_divide_by_length`,
  `try_divide_by_count` of src/curve/nurbs_curve.rs and the two helpers they use.

  Simplified: the Gauss–Legendre rule of the external crate is a parameter `rule` (its nodes and weights on
  [-1, 1] for each order), the Euclidean norm a parameter `nrm`; `while` loops take a fuel and fault with
  `diverge` when it runs out.
-/
import Verif.Model.Refine
import Verif.Model.Deriv

namespace Curvo.Length

variable {K W : Type} [Field K] [LinearOrder K] [AddCommGroup W] [Module K W]

/-- `GaussLegendre::integrate` of the crate `gauss-quad`, called at nurbs_curve.rs 1977: the nodes are moved to
    `[a, b]`, the weighted values added and scaled by half the width. -/
def integrate (rule : List (K × K)) (a b : K) (f : K → Res K) : Res K := do
  let ys ← rule.mapM fun xw => do
    let y ← f ((b - a) / 2 * xw.1 + (a + b) / 2)
    pure (y * xw.2)
  pure ((b - a) / 2 * ys.sum)

/-- The integrand, nurbs_curve.rs 1978-1981: the norm of the first derivative. -/
def speed (nrm : W → K) (eps : K) (s : Curve K (W × K)) (x : K) : Res K := do
  let ders ← s.rationalDerivatives eps x 1
  let v ← getR ders 1
  pure (nrm v)

/-- `compute_bezier_segment_length`, nurbs_curve.rs 1962-1987. -/
def segmentLength (nrm : W → K) (rule : List (K × K)) (eps : K) (s : Curve K (W × K)) (u : K) : Res K := do
  let d ← s.knotsDomain
  if d.1 + eps < u then
    integrate rule d.1 (min d.2 u) (speed nrm eps s)
  else pure 0

/-- The binary search of `compute_bezier_segment_parameter_at_length`, nurbs_curve.rs 1938-1957: a bracket
    consists of a parameter and the length up to it. -/
def bisect (len : K → Res K) (target tol : K) : ℕ → K × K → K × K → Res K
  | 0, _, _ => .error .diverge
  | n + 1, s, e =>
    if tol < e.2 - s.2 then do
      let m := (s.1 + e.1) / 2
      let l ← len m
      if target < l then bisect len target tol n s (m, l) else bisect len target tol n (m, l) e
    else pure ((s.1 + e.1) / 2)

/-- `compute_bezier_segment_parameter_at_length`, nurbs_curve.rs 1919-1958. -/
def segmentParameter (fuel : ℕ) (nrm : W → K) (rule : List (K × K)) (eps : K) (s : Curve K (W × K))
    (length tol total : K) : Res K := do
  let d ← s.knotsDomain
  if length ≤ 0 then pure d.1
  else if total ≤ length then pure d.2
  else bisect (segmentLength nrm rule eps s) length tol fuel (d.1, 0) (d.2, total)

/-- `try_length`, nurbs_curve.rs 448-485. -/
def tryLength (nrm : W → K) (rule : ℕ → List (K × K)) (eps : K) (c : Curve K (W × K)) : Res K := do
  let mult ← Knots.multiplicity eps c.knots
  let start ← unwrapR mult.head?
  let stop ← unwrapR mult.getLast?
  let segs ← c.tryDecomposeBezierSegments eps
  let req := c.degree + 1
  let i := req - start.2
  let j ← if stop.2 < req then subR segs.length (req - stop.2) else pure segs.length
  let segs ← sliceR segs i j
  let d ← c.knotsDomain
  if segs.length ≤ 1 then segmentLength nrm (rule (16 + c.degree)) eps c d.2
  else do
    let ls ← segs.mapM fun s => segmentLength nrm (rule (16 + c.degree)) eps s d.2
    match ls with
    | [] => .error .err
    | l :: ls => pure (ls.foldl (· + ·) l)

/-- The loop of `try_parameter_at_length` over the segments, nurbs_curve.rs 521-539. -/
def parameterGo (fuel : ℕ) (nrm : W → K) (rule : List (K × K)) (eps length tol : K) :
    List (Curve K (W × K)) → K → Res K
  | [], _ => .error .err
  | s :: ss, acc => do
    let d ← s.knotsDomain
    let sl ← segmentLength nrm rule eps s d.2
    if length ≤ acc + sl + eps then segmentParameter fuel nrm rule eps s (length - acc) tol sl
    else parameterGo fuel nrm rule eps length tol ss (acc + sl)

/-- `try_parameter_at_length`, nurbs_curve.rs 507-544. -/
def tryParameterAtLength (fuel : ℕ) (nrm : W → K) (rule : ℕ → List (K × K)) (eps : K) (c : Curve K (W × K))
    (length : K) (tol : Option K) : Res K := do
  if length < eps then
    let d ← c.knotsDomain
    pure d.1
  else
    let segs ← c.tryDecomposeBezierSegments eps
    parameterGo fuel nrm (rule (16 + c.degree)) eps length (tol.getD (1 / 10000)) segs 0

/-- The inner loop of `try_divide_by_length`, nurbs_curve.rs 603-613: the samples pushed while the next length
    is below `bound`, and the length it stops at. -/
def fill (par : K → Res K) (length bound : K) : ℕ → K → Res (List (K × K) × K)
  | 0, _ => .error .diverge
  | n + 1, lc =>
    if lc < bound then do
      let u ← par lc
      let r ← fill par length bound n (lc + length)
      pure ((u, lc) :: r.1, r.2)
    else pure ([], lc)

/-- The outer loop of `try_divide_by_length`, nurbs_curve.rs 599-617: the segments with their lengths, the
    length of the segments passed (`acc_prev`) and the next length. -/
def divideGo (fuel : ℕ) (nrm : W → K) (rule : List (K × K)) (eps length : K) :
    List (Curve K (W × K) × K) → K → K → Res (List (K × K))
  | [], _, _ => pure []
  | s :: ss, acc, lc => do
    let r ← fill (fun x => segmentParameter fuel nrm rule eps s.1 (x - acc) (1 / 400) s.2) length
      (acc + s.2 + 1 / 1000000) fuel lc
    let r' ← divideGo fuel nrm rule eps length ss (acc + s.2) r.2
    pure (r.1 ++ r')

/-- `try_divide_by_length`, nurbs_curve.rs 567-621. A sample is a parameter with its length. -/
def tryDivideByLength (fuel : ℕ) (nrm : W → K) (rule : ℕ → List (K × K)) (eps : K) (c : Curve K (W × K))
    (length : K) : Res (List (K × K)) :=
  if 0 < length then do
    let segs ← c.tryDecomposeBezierSegments eps
    let ls ← segs.mapM (tryLength nrm rule eps)
    if length < ls.foldl (· + ·) 0 then do
      let k0 ← Knots.first c.knots
      let r ← divideGo fuel nrm (rule (16 + c.degree)) eps length (segs.zip ls) 0 length
      pure ((k0, 0) :: r)
    else .error .err
  else .error .err

/-- `try_divide_by_count`, nurbs_curve.rs 624-635. (Zero segments: the quotient is infinite or not a number,
    which the checks of `try_divide_by_length` refuse; here the division itself faults.) -/
def tryDivideByCount (fuel : ℕ) (nrm : W → K) (rule : ℕ → List (K × K)) (eps : K) (c : Curve K (W × K))
    (segments : ℕ) : Res (List (K × K)) := do
  let length ← tryLength nrm rule eps c
  let u ← divR length (segments : K)
  tryDivideByLength fuel nrm rule eps c u

end Curvo.Length

/-
  Model of the search for the parameter at a length in floating point arithmetic: `Length.bisect` and `Length.segmentParameter`
  (`Model/Length.lean`) with every arithmetic operation on scalars followed by a rounding `fl`.  Simplified: the computed length of
  the segment up to a parameter is a function `len`, about which nothing is assumed (the quadrature inside of it may round as it likes).
-/
import Verif.Model.Length

namespace Curvo.Rounded

variable {K : Type} [Field K] [LinearOrder K]

/-- `(start.0 + end.0) * inv`, nurbs_curve.rs 1945 and 1957, rounded; `inv` is the exact half. -/
def halfway (fl : K → K) (s e : K) : K := fl (fl (s + e) * (1 / 2))

/-- The binary search of `compute_bezier_segment_parameter_at_length`, nurbs_curve.rs 1938-1957, rounded (see `Length.bisect`). -/
def bisect (fl : K → K) (len : K → Res K) (target tol : K) : ℕ → K × K → K × K → Res K
  | 0, _, _ => .error .diverge
  | n + 1, s, e =>
    if tol < fl (e.2 - s.2) then do
      let m := halfway fl s.1 e.1
      let l ← len m
      if target < l then bisect fl len target tol n s (m, l) else bisect fl len target tol n (m, l) e
    else pure (halfway fl s.1 e.1)

/-- `compute_bezier_segment_parameter_at_length`, nurbs_curve.rs 1919-1958, rounded; `(k0, k1)` is the domain of the segment. -/
def segmentParameter (fl : K → K) (len : K → Res K) (k0 k1 : K) (fuel : ℕ) (length tol total : K) : Res K :=
  if length ≤ 0 then pure k0
  else if total ≤ length then pure k1
  else bisect fl len length tol fuel (k0, 0) (k1, total)

end Curvo.Rounded

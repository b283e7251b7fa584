/-
  Model of the division of curves by the bounding box tree in floating point arithmetic: `CurveTree` (`Model/BBox.lean`) with every
  arithmetic operation on scalars followed by a rounding `fl`.
-/
import Verif.Model.BBox
import Verif.Model.RoundedOps
import Verif.Model.RoundedRefine

namespace Curvo.Rounded

variable {K : Type} [Field K] [LinearOrder K] {d : ℕ}

/-- `CurveBoundingBoxTree::is_dividable`, curve_bounding_box_tree.rs 54-72, rounded; the literal `1e-4` is a rounded number. -/
def isDividable (fl : K → K) (t : CurveTree K d) : Res Bool := do
  let dom ← t.curve.knotsDomain
  let interval := fl (dom.2 - dom.1)
  if t.tolerance < interval then pure true
  else if t.curve.degree = 1 then pure (decide (fl (1 / 10000) ≤ interval) && decide (3 ≤ t.curve.cps.length))
  else pure false

/-- The split parameter `mid + r`, curve_bounding_box_tree.rs 76-81, rounded; `x` is the random number. -/
def splitParam (fl : K → K) (mn mx x : K) : K :=
  fl (fl (fl (mn + mx) / 2) + fl (fl (mx - mn) * fl (fl (1 / 10) * fl (x - 1 / 2))))

/-- `CurveBoundingBoxTree::try_divide`, curve_bounding_box_tree.rs 75-95, rounded. -/
def tryDivide (fl : K → K) (eps : K) (rnd : ℕ → K) (t : CurveTree K d) (pos : ℕ) : Res ((CurveTree K d × CurveTree K d) × ℕ) := do
  let dom ← t.curve.knotsDomain
  let (head, tail) ← trySplit fl eps t.curve (splitParam fl dom.1 dom.2 (rnd pos))
  pure ((⟨head, t.tolerance⟩, ⟨tail, t.tolerance⟩), pos + 1)

/-- `CurveBoundingBoxTree::new`, curve_bounding_box_tree.rs 27-36, rounded. -/
def newTree (fl : K → K) (c : Curve K ((Fin d → K) × K)) (tolerance : Option K) : Res (CurveTree K d) :=
  match tolerance with
  | some tol => pure ⟨c, tol⟩
  | none => do
    let dom ← c.knotsDomain
    pure ⟨c, fl (fl (dom.2 - dom.1) / 64)⟩

/-- `impl BoundingBoxTree for CurveBoundingBoxTree`, curve_bounding_box_tree.rs 47-101, rounded. -/
def tree (fl : K → K) (eps big : K) (rnd : ℕ → K) : BoxTree K d ℕ (CurveTree K d) where
  isDividable := isDividable fl
  tryDivide := tryDivide fl eps rnd
  boundingBox := fun t => boxOfCurve fl big t.curve

end Curvo.Rounded

/-
  Model of `/repo/src/bounding_box/*`: axis aligned boxes, the box of a curve, the bounding box tree of a
  curve and the traversal of a pair of trees.

  Vectors of dimension `d` are functions `Fin d → K`; `big` stands for `T::max_value()`.
-/
import Mathlib.Algebra.Module.Pi
import Verif.Model.Refine

namespace Curvo

/-- `BoundingBox`, bounding_box/mod.rs 22-28. -/
structure Box (K : Type) (d : ℕ) where
  min : Fin d → K
  max : Fin d → K

namespace Box

variable {K : Type} [Field K] [LinearOrder K] {d : ℕ}

/-- `BoundingBox::new`, bounding_box/mod.rs 36-49. -/
def new (big : K) (mn mx : Fin d → K) : Box K d where
  min := fun i => Min.min (Min.min big (mn i)) (mx i)
  max := fun i => Max.max (Max.max (-big) (mx i)) (mn i)

/-- Loop body of `BoundingBox::new_with_points`, bounding_box/mod.rs 56-61. -/
def extend (b : Box K d) (p : Fin d → K) : Box K d where
  min := fun i => Min.min (b.min i) (p i)
  max := fun i => Max.max (b.max i) (p i)

/-- `BoundingBox::new_with_points`, bounding_box/mod.rs 52-64. -/
def ofPoints (big : K) (pts : List (Fin d → K)) : Box K d :=
  pts.foldl extend ⟨fun _ => big, fun _ => -big⟩

/-- `BoundingBox::center`, bounding_box/mod.rs 74-76. -/
def center (b : Box K d) : Fin d → K := fun i => (b.min i + b.max i) / 2

/-- `BoundingBox::size`, bounding_box/mod.rs 78-80. -/
def size (b : Box K d) : Fin d → K := fun i => b.max i - b.min i

/-- One iteration of the loop of `BoundingBox::intersects`, bounding_box/mod.rs 102-120: `true` when the
    test passes in this coordinate. -/
def overlap1 (tol min0 max0 min1 max1 : K) : Bool :=
  let a0 := min0 - tol
  let a1 := max0 + tol
  let b0 := min1 - tol
  let b1 := max1 + tol
  let d0 := b0 - a1
  let d1 := b1 - a0
  !decide (0 < d0 * d1)

/-- `BoundingBox::intersects`, bounding_box/mod.rs 99-124. -/
def intersects (tol : K) (a b : Box K d) : Bool :=
  (List.finRange d).all fun i => overlap1 tol (a.min i) (a.max i) (b.min i) (b.max i)

/-- `BoundingBox::contains`, bounding_box/mod.rs 136-138. -/
def contains (b : Box K d) (p : Fin d → K) : Bool :=
  (List.finRange d).all fun i => decide (b.min i ≤ p i) && decide (p i ≤ b.max i)

/-- `BoundingBox::corners`, bounding_box/mod.rs 152-167. -/
def corners (b : Box K d) : List (Fin d → K) :=
  (List.range (2 ^ d)).map fun i => fun j : Fin d => if i &&& (1 <<< (j : ℕ)) = 0 then b.min j else b.max j

/-- `BoundingBox::lines`, bounding_box/mod.rs 170-182. -/
def lines (b : Box K d) : Res (List ((Fin d → K) × (Fin d → K))) := do
  let ls ← (List.range d).mapM fun i => (List.range (2 ^ d)).mapM fun j => do
    let p ← getR b.corners j
    let q ← getR b.corners (j ^^^ (1 <<< i))
    pure (p, q)
  pure ls.flatten

/-- `From<&NurbsCurve> for BoundingBox`, bounding_box/mod.rs 194-205. -/
def ofCurve (big : K) (c : Curve K ((Fin d → K) × K)) : Res (Box K d) := do
  let pts ← c.dehomogenizedCps
  pure (ofPoints big pts)

end Box

/-- `BoundingBoxTree`, bounding_box_tree.rs 6-15. `Rng` is the state of the random generator used by
    `try_divide`. -/
structure BoxTree (K : Type) (d : ℕ) (Rng T : Type) where
  isDividable : T → Res Bool
  tryDivide : T → Rng → Res ((T × T) × Rng)
  boundingBox : T → Res (Box K d)

/-- `BoundingBoxTraversal::try_traverse`, bounding_box_traversal.rs 28-71: `fuel` bounds the number of
    iterations of the `while` loop; the head of `trees` is the end of the Rust vector; found pairs are
    returned in the order they are pushed. -/
def traverse {K : Type} [Field K] [LinearOrder K] {d : ℕ} {Rng A B : Type} (TA : BoxTree K d Rng A)
    (TB : BoxTree K d Rng B) : ℕ → List (A × B) → Rng → Res (List (A × B))
  | _, [], _ => pure []
  | 0, _ :: _, _ => .error .diverge
  | fuel + 1, (a, b) :: trees, rng => do
    let ba ← TA.boundingBox a
    let bb ← TB.boundingBox b
    if ¬ Box.intersects 0 ba bb then traverse TA TB fuel trees rng
    else
      let ai ← TA.isDividable a
      let bi ← TB.isDividable b
      match ai, bi with
      | false, false => do
        let rest ← traverse TA TB fuel trees rng
        pure ((a, b) :: rest)
      | true, false => do
        let ((a0, a1), rng) ← TA.tryDivide a rng
        traverse TA TB fuel ((a1, b) :: (a0, b) :: trees) rng
      | false, true => do
        let ((b0, b1), rng) ← TB.tryDivide b rng
        traverse TA TB fuel ((a, b1) :: (a, b0) :: trees) rng
      | true, true => do
        let ((a0, a1), rng) ← TA.tryDivide a rng
        let ((b0, b1), rng) ← TB.tryDivide b rng
        traverse TA TB fuel ((a1, b1) :: (a0, b1) :: (a1, b0) :: (a0, b0) :: trees) rng

/-- `CurveBoundingBoxTree`, curve_bounding_box_tree.rs 12-18. -/
structure CurveTree (K : Type) (d : ℕ) where
  curve : Curve K ((Fin d → K) × K)
  tolerance : K

namespace CurveTree

variable {K : Type} [Field K] [LinearOrder K] {d : ℕ}

/-- `CurveBoundingBoxTree::is_dividable`, curve_bounding_box_tree.rs 54-72. -/
def isDividable (t : CurveTree K d) : Res Bool := do
  let dom ← t.curve.knotsDomain
  let interval := dom.2 - dom.1
  if t.tolerance < interval then pure true
  else if t.curve.degree = 1 then pure (decide ((1 : K) / 10000 ≤ interval) && decide (3 ≤ t.curve.cps.length))
  else pure false

/-- The split parameter `mid + r` of curve_bounding_box_tree.rs 76-81; `x ∈ [0, 1)` is the random number. -/
def splitParam (mn mx x : K) : K := (mn + mx) / 2 + (mx - mn) * (1 / 10 * (x - 1 / 2))

/-- `CurveBoundingBoxTree::try_divide`, curve_bounding_box_tree.rs 75-95. The random generator is a stream
    of numbers, represented by a function and a position. -/
def tryDivide (eps : K) (rnd : ℕ → K) (t : CurveTree K d) (pos : ℕ) : Res ((CurveTree K d × CurveTree K d) × ℕ) := do
  let dom ← t.curve.knotsDomain
  let (head, tail) ← t.curve.trySplit eps (splitParam dom.1 dom.2 (rnd pos))
  pure ((⟨head, t.tolerance⟩, ⟨tail, t.tolerance⟩), pos + 1)

/-- `CurveBoundingBoxTree::bounding_box`, curve_bounding_box_tree.rs 98-100. -/
def boundingBox (big : K) (t : CurveTree K d) : Res (Box K d) := Box.ofCurve big t.curve

/-- `CurveBoundingBoxTree::new`, curve_bounding_box_tree.rs 27-36. -/
def new (c : Curve K ((Fin d → K) × K)) (tolerance : Option K) : Res (CurveTree K d) :=
  match tolerance with
  | some tol => pure ⟨c, tol⟩
  | none => do
    let dom ← c.knotsDomain
    pure ⟨c, (dom.2 - dom.1) / 64⟩

/-- `impl BoundingBoxTree for CurveBoundingBoxTree`, curve_bounding_box_tree.rs 47-101. -/
def tree (eps big : K) (rnd : ℕ → K) : BoxTree K d ℕ (CurveTree K d) where
  isDividable := isDividable
  tryDivide := tryDivide eps rnd
  boundingBox := boundingBox big

end CurveTree

end Curvo

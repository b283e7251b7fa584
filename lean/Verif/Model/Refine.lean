/-
  Model of `/repo/src/curve/nurbs_curve.rs`, part 2: knot insertion and what is built on it
  (`try_add_knot`, `try_refine_knot`, `try_clamp`, `try_decompose_bezier_segments`), the curve parts of
  `/repo/src/split/mod.rs` and `/repo/src/trim/mod.rs`.
-/
import Verif.Model.Curve

namespace Curvo

namespace Curve

variable {K : Type} [Field K] [LinearOrder K] {V W : Type}

/-- Mutable state of the loops of `try_refine_knot`, nurbs_curve.rs 1598-1618. -/
structure RefState (K V : Type) where
  /-- `control_points_post` -/
  cp : List V
  /-- `knots_post` -/
  kn : List K
  k : ℕ
  i : ℕ

/-- `dst[i + d] = src[i]`, the body of the copying loops nurbs_curve.rs 1605-1614. -/
def copyShift {α : Type} (src : List α) (d : ℕ) (dst : List α) (i : ℕ) : Res (List α) := do
  let v ← getR src i
  setR dst (i + d) v

/-- `for i in lo..=hi { dst[i + d] = src[i] }`, nurbs_curve.rs 1604-1613 -/
def copyRange {α : Type} (src : List α) (d lo hi : ℕ) (dst : List α) : Res (List α) :=
  (List.range' lo (hi + 1 - lo)).foldlM (copyShift src d) dst

/-- The `while` loop of `try_refine_knot`, nurbs_curve.rs 1620-1625 (`fuel` bounds the iterations). -/
def refineWhile (c : Curve K V) (a : ℕ) (x : K) : ℕ → RefState K V → Res (RefState K V)
  | 0, _ => .error .diverge
  | fuel + 1, s => do
    let ki ← getR c.knots s.i
    if x ≤ ki ∧ a < s.i then
      let src ← subR s.i c.degree
      let src ← subR src 1
      let p ← getR c.cps src
      let dst ← subR s.k c.degree
      let dst ← subR dst 1
      let cp ← setR s.cp dst p
      let kn ← setR s.kn s.k ki
      let k ← subR s.k 1
      let i ← subR s.i 1
      refineWhile c a x fuel { cp := cp, kn := kn, k := k, i := i }
    else pure s

section mod
variable [AddCommGroup V] [Module K V]

/-- `OPoint::lerp` of nalgebra, nurbs_curve.rs 1640. -/
def lerp (p q : V) (t : K) : V := (1 - t) • p + t • q

/-- Body of `for l in 1..=degree`, nurbs_curve.rs 1627-1649. -/
def refineAlpha (eps : K) (c : Curve K V) (x : K) (kn : List K) (k i : ℕ) (cp : List V) (l : ℕ) :
    Res (List V) := do
  let ind ← subR k c.degree
  let ind := ind + l
  if ind < cp.length then
    let kk ← getR kn (k + l)
    let alpha := kk - x
    let dst ← subR ind 1
    if |alpha| < eps then
      let q ← getR cp ind
      setR cp dst q
    else
      let o ← subR i c.degree
      let ko ← getR c.knots (o + l)
      let denom := kk - ko
      let weight := if denom ≠ 0 then alpha / denom else 0
      let p ← getR cp dst
      let q ← getR cp ind
      setR cp dst (lerp p q (1 - weight))
  else pure cp

/-- Body of `for j in (0..=r).rev()`, nurbs_curve.rs 1619-1652; `x` is `knots_to_insert[j]`. -/
def refineStep (eps : K) (c : Curve K V) (a : ℕ) (s : RefState K V) (x : K) : Res (RefState K V) := do
  let s ← refineWhile c a x (s.i + 1) s
  let d ← subR s.k c.degree
  let d1 ← subR d 1
  let p ← getR s.cp d
  let cp ← setR s.cp d1 p
  let cp ← (List.range' 1 c.degree).foldlM (refineAlpha eps c x s.kn s.k s.i) cp
  let kn ← setR s.kn s.k x
  let k ← subR s.k 1
  pure { cp := cp, kn := kn, k := k, i := s.i }

/-- `NurbsCurve::try_refine_knot`, nurbs_curve.rs 1579-1655. -/
def tryRefineKnot (eps : K) (c : Curve K V) (xs : List K) : Res (Curve K V) :=
  match xs with
  | [] => pure c
  | x0 :: rest => do
    let degree := c.degree
    let n ← subR c.cps.length 1
    let m := n + degree + 1
    let r := rest.length
    let xr ← getR xs r
    let a ← Knots.findKnotSpanIndex eps c.knots n degree x0
    let b ← Knots.findKnotSpanIndex eps c.knots n degree xr
    let b := b + 1
    let cp : List V := List.replicate (n + r + 2) 0
    let kn : List K := List.replicate (m + 1 + r + 1) 0
    let ad ← subR a degree
    let src ← sliceR c.cps 0 (ad + 1)
    let _ ← sliceR cp 0 (ad + 1)
    let cp := src ++ cp.drop (ad + 1)
    let cp ← copyRange c.cps (r + 1) (b - 1) n cp
    let kn ← copyRange c.knots 0 0 a kn
    let kn ← copyRange c.knots (r + 1) (b + degree) m kn
    let s ← xs.reverse.foldlM (refineStep eps c a)
      { cp := cp, kn := kn, i := b + degree - 1, k := b + degree + r }
    pure { degree := degree, knots := s.kn, cps := s.cp }

/-- Curve `Split::try_split`, split/mod.rs 43-59. -/
def trySplit (eps : K) (c : Curve K V) (u : K) : Res (Curve K V × Curve K V) := do
  let u ← Knots.clamp c.knots c.degree u
  let cl ← c.tryRefineKnot eps (List.replicate (c.degree + 1) u)
  let n ← c.lastIndex
  let s ← Knots.findKnotSpanIndex eps c.knots n c.degree u
  let knots0 ← sliceR cl.knots 0 (s + c.degree + 2)
  let knots1 ← sliceR cl.knots (s + 1) cl.knots.length
  let cps0 ← sliceR cl.cps 0 (s + 1)
  let cps1 ← sliceR cl.cps (s + 1) cl.cps.length
  let left ← tryNew c.degree cps0 knots0
  let right ← tryNew c.degree cps1 knots1
  pure (left, right)

/-- Curve `TrimRange::try_trim_range`, trim/mod.rs 18-35. -/
def tryTrimRange (eps : K) (c : Curve K V) (t0 t1 : K) : Res (List (Curve K V)) := do
  let mn := min t0 t1
  let mx := max t0 t1
  if t0 < t1 then
    let (_, tail) ← c.trySplit eps mn
    let (head, _) ← tail.trySplit eps mx
    pure [head]
  else
    let (head, tail) ← c.trySplit eps mn
    let (_, tail2) ← tail.trySplit eps mx
    pure [tail2, head]

end mod

section weighted
variable [AddCommGroup W] [Module K W]

/-- Body of the loop of `try_add_knot`, nurbs_curve.rs 1314-1332, for the control point `i0`. The
    weight component of the update is overwritten by zero (line 1330). The branch
    `i0 == control_points.len()` is dead code (`i0 < end <= len`) and would index out of range. -/
def addKnotStep (degree : ℕ) (knots : List K) (idx : ℕ) (cps : List (W × K)) (i0 : ℕ) :
    Res (List (W × K)) := do
  let kr ← getR knots (i0 + degree + 1)
  let kl ← getR knots i0
  let delta := kr - kl
  let inv := if delta ≠ 0 then 1 / delta else 0
  let kx ← getR knots idx
  let a := (kx - kl) * inv
  let q ← getR cps i0
  let d ← if i0 = 0 then pure q.1
    else do
      let q' ← getR cps (i0 - 1)
      pure (q.1 - q'.1)
  setR cps i0 (q.1 - (1 - a) • d, q.2)

/-- The duplicated control point and the loop's end, nurbs_curve.rs 1302-1310. -/
def addKnotDup (cps : List (W × K)) (idx : ℕ) : Res (List (W × K) × ℕ) :=
  if cps.length < idx then do
    let q ← unwrapR cps.getLast?
    pure (cps ++ [q], cps.length + 1)
  else do
    let i ← subR idx 1
    let q ← getR cps i
    pure (cps.insertIdx i q, idx)

/-- `NurbsCurve::try_add_knot`, nurbs_curve.rs 1285-1335. The loop runs over
    `i0 = end - 1, …, start`. -/
def tryAddKnot (c : Curve K (W × K)) (knot : K) : Res (Curve K (W × K)) := do
  let k0 ← getR c.knots 0
  if ¬ k0 ≤ knot then .error .err else
  let kl ← Knots.last c.knots
  if ¬ knot ≤ kl then .error .err else
  let (knots, idx) := Knots.add c.knots knot
  let start := idx - c.degree
  let (cps, stop) ← addKnotDup c.cps idx
  let cps ← (List.range' start (stop - start)).reverse.foldlM (addKnotStep c.degree knots idx) cps
  pure { degree := c.degree, cps := cps, knots := knots }

/-- `NurbsCurve::is_clamped`, nurbs_curve.rs 1518-1520. -/
def isClamped (eps : K) (c : Curve K V) : Res Bool := Knots.isClamped eps c.knots c.degree

/-- `for _ in count..=degree { self.try_add_knot(knot)? }`, nurbs_curve.rs 1737-1742. -/
def addCopies (knot : K) : ℕ → Curve K (W × K) → Res (Curve K (W × K))
  | 0, c => pure c
  | k + 1, c => do
    let c ← c.tryAddKnot knot
    addCopies knot k c

/-- `NurbsCurve::try_clamp`, nurbs_curve.rs 1720-1745. -/
def tryClamp (eps : K) (c : Curve K (W × K)) : Res (Curve K (W × K)) := do
  let start ← Knots.first c.knots
  let stop ← Knots.last c.knots
  let m ← Knots.multiplicity eps c.knots
  let ms ← match m.find? (fun x => decide (x.1 = start)) with
    | some x => pure x.2
    | none => .error .err
  let me ← match m.find? (fun x => decide (x.1 = stop)) with
    | some x => pure x.2
    | none => .error .err
  let c' ← addCopies start (c.degree + 1 - ms) c
  addCopies stop (c.degree + 1 - me) c'

/-- The refinement loop of `try_decompose_bezier_segments`, nurbs_curve.rs 1757-1762. -/
def decomposeRefine (eps : K) (req : ℕ) (c : Curve K (W × K)) (m : K × ℕ) : Res (Curve K (W × K)) :=
  if m.2 < req then c.tryRefineKnot eps (List.replicate (req - m.2) m.1) else pure c

/-- `NurbsCurve::try_decompose_bezier_segments`, nurbs_curve.rs 1748-1785. -/
def tryDecomposeBezierSegments (eps : K) (c : Curve K (W × K)) : Res (List (Curve K (W × K))) := do
  let clamped ← c.isClamped eps
  let cl ← if clamped then pure c else c.tryClamp eps
  let mults ← Knots.multiplicity eps cl.knots
  let req := cl.degree + 1
  let cl ← mults.foldlM (decomposeRefine eps req) cl
  let div ← subR (cl.knots.length / req) 1
  let segs ← (List.range div).mapM fun i => do
    let start := i * req
    let knots ← sliceR cl.knots start (start + req * 2)
    let cps ← sliceR cl.cps start (start + req)
    pure ({ degree := c.degree, cps := cps, knots := knots } : Curve K (W × K))
  if segs.length ≤ 1 then pure [cl] else pure segs

end weighted

end Curve

end Curvo

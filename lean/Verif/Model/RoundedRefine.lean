/-
  Model of knot refinement and splitting of curves in floating point arithmetic: the functions of `Model/Refine.lean` with every
  arithmetic operation on scalars followed by a rounding `fl`.  See `Model/Rounded.lean` for what the rounding leaves out.
-/
import Verif.Model.Refine
import Verif.Model.Rounded

namespace Curvo.Rounded

open Curvo.Curve

variable {K : Type} [Field K] [LinearOrder K] {d : ℕ}

/-- One coordinate of `lerp`, nurbs_curve.rs 1640: nalgebra computes `t * q + (1 - t) * p`. -/
def lerp1 (fl : K → K) (p q t : K) : K := fl (fl (t * q) + fl (fl (1 - t) * p))

/-- `OPoint::lerp` of nalgebra, nurbs_curve.rs 1640, rounded. -/
def lerp (fl : K → K) (p q : (Fin d → K) × K) (t : K) : (Fin d → K) × K :=
  (fun i => lerp1 fl (p.1 i) (q.1 i) t, lerp1 fl p.2 q.2 t)

/-- Body of `for l in 1..=degree`, nurbs_curve.rs 1627-1649, rounded. -/
def refineAlpha (fl : K → K) (eps : K) (c : Curve K ((Fin d → K) × K)) (x : K) (kn : List K) (k i : ℕ) (cp : List ((Fin d → K) × K))
    (l : ℕ) : Res (List ((Fin d → K) × K)) := do
  let ind ← subR k c.degree
  let ind := ind + l
  if ind < cp.length then
    let kk ← getR kn (k + l)
    let alpha := fl (kk - x)
    let dst ← subR ind 1
    if |alpha| < eps then
      let q ← getR cp ind
      setR cp dst q
    else
      let o ← subR i c.degree
      let ko ← getR c.knots (o + l)
      let denom := fl (kk - ko)
      let weight := if denom ≠ 0 then fl (alpha / denom) else 0
      let p ← getR cp dst
      let q ← getR cp ind
      setR cp dst (lerp fl p q (fl (1 - weight)))
  else pure cp

/-- Body of `for j in (0..=r).rev()`, nurbs_curve.rs 1619-1652, rounded. -/
def refineStep (fl : K → K) (eps : K) (c : Curve K ((Fin d → K) × K)) (a : ℕ) (s : RefState K ((Fin d → K) × K)) (x : K) :
    Res (RefState K ((Fin d → K) × K)) := do
  let s ← refineWhile c a x (s.i + 1) s
  let d' ← subR s.k c.degree
  let d1 ← subR d' 1
  let p ← getR s.cp d'
  let cp ← setR s.cp d1 p
  let cp ← (List.range' 1 c.degree).foldlM (refineAlpha fl eps c x s.kn s.k s.i) cp
  let kn ← setR s.kn s.k x
  let k ← subR s.k 1
  pure { cp := cp, kn := kn, k := k, i := s.i }

/-- `NurbsCurve::try_refine_knot`, nurbs_curve.rs 1579-1655, rounded. -/
def tryRefineKnot (fl : K → K) (eps : K) (c : Curve K ((Fin d → K) × K)) (xs : List K) : Res (Curve K ((Fin d → K) × K)) :=
  match xs with
  | [] => pure c
  | x0 :: rest => do
    let degree := c.degree
    let n ← subR c.cps.length 1
    let m := n + degree + 1
    let r := rest.length
    let xr ← getR xs r
    let a ← findKnotSpanIndex fl eps c.knots n degree x0
    let b ← findKnotSpanIndex fl eps c.knots n degree xr
    let b := b + 1
    let cp : List ((Fin d → K) × K) := List.replicate (n + r + 2) 0
    let kn : List K := List.replicate (m + 1 + r + 1) 0
    let ad ← subR a degree
    let src ← sliceR c.cps 0 (ad + 1)
    let _ ← sliceR cp 0 (ad + 1)
    let cp := src ++ cp.drop (ad + 1)
    let cp ← copyRange c.cps (r + 1) (b - 1) n cp
    let kn ← copyRange c.knots 0 0 a kn
    let kn ← copyRange c.knots (r + 1) (b + degree) m kn
    let s ← xs.reverse.foldlM (refineStep fl eps c a)
      { cp := cp, kn := kn, i := b + degree - 1, k := b + degree + r }
    pure { degree := degree, knots := s.kn, cps := s.cp }

/-- Curve `Split::try_split`, split/mod.rs 43-59, rounded. -/
def trySplit (fl : K → K) (eps : K) (c : Curve K ((Fin d → K) × K)) (u : K) :
    Res (Curve K ((Fin d → K) × K) × Curve K ((Fin d → K) × K)) := do
  let u ← Knots.clamp c.knots c.degree u
  let cl ← tryRefineKnot fl eps c (List.replicate (c.degree + 1) u)
  let n ← c.lastIndex
  let s ← findKnotSpanIndex fl eps c.knots n c.degree u
  let knots0 ← sliceR cl.knots 0 (s + c.degree + 2)
  let knots1 ← sliceR cl.knots (s + 1) cl.knots.length
  let cps0 ← sliceR cl.cps 0 (s + 1)
  let cps1 ← sliceR cl.cps (s + 1) cl.cps.length
  let left ← tryNew c.degree cps0 knots0
  let right ← tryNew c.degree cps1 knots1
  pure (left, right)

end Curvo.Rounded

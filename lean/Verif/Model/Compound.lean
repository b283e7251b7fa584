/-
  Model of compound curves: `/repo/src/region/compound_curve.rs`, `/repo/src/region/curve_direction.rs`
  and the compound part of `/repo/src/trim/mod.rs`.

  `CompoundCurve { spans }` is the list of its spans. `dist p q` stands for `(p - q).norm()`.
-/
import Verif.Model.Refine

namespace Curvo

/-- `CurveDirection`, curve_direction.rs 9-14. -/
inductive Dir where
  | forward | backward | facing | opposite
  deriving DecidableEq, Repr

namespace Compound

variable {K : Type} [Field K] [LinearOrder K] {V W : Type}

/-- `Iterator::min_by` with `partial_cmp` on the first component, curve_direction.rs 38-40: the first of the smallest
    entries, given the first entry. -/
def minBy {α : Type} (best : K × α) : List (K × α) → K × α
  | [] => best
  | x :: xs => minBy (if x.1 < best.1 then x else best) xs

section rational
variable [AddCommGroup W] [Module K W]

/-- `CurveDirection::new`, curve_direction.rs 17-42. -/
def direction (eps tol : K) (dist : W → W → K) (a b : Curve K (W × K)) : Res (Option Dir) := do
  let ad ← a.knotsDomain
  let bd ← b.knotsDomain
  let a0 ← a.pointAt eps ad.1
  let a1 ← a.pointAt eps ad.2
  let b0 ← b.pointAt eps bd.1
  let b1 ← b.pointAt eps bd.2
  let m := minBy (dist a1 b0, Dir.forward)
    [(dist a0 b1, Dir.backward), (dist a1 b1, Dir.facing), (dist a0 b0, Dir.opposite)]
  pure (if m.1 < tol then some m.2 else none)

/-- `curves.iter().enumerate().find_map(..)`, compound_curve.rs 45-47. -/
def findDir (eps tol : K) (dist : W → W → K) (last : Curve K (W × K)) :
    List (Curve K (W × K)) → Res (Option (ℕ × Dir))
  | [] => pure none
  | c :: cs => do
    let d ← direction eps tol dist last c
    match d with
    | some d => pure (some (0, d))
    | none => do
      let r ← findDir eps tol dist last cs
      pure (r.map fun x => (x.1 + 1, x.2))

/-- The match on the direction, compound_curve.rs 51-68. `Vec::insert(current, x)` puts `x` before
    the entry `current`. -/
def place (connected : List (Curve K (W × K))) (current : ℕ) (next : Curve K (W × K)) (d : Dir) :
    Res (List (Curve K (W × K))) :=
  match d with
  | .forward => pure (connected ++ [next])
  | .backward => pure (connected.take current ++ [next] ++ connected.drop current)
  | .facing => do
    let inv ← next.invert
    pure (connected ++ [inv])
  | .opposite => do
    if current = 0 then
      let inv ← next.invert
      pure (connected.take current ++ [inv] ++ connected.drop current)
    else pure connected

/-- The `while` loop of `CompoundCurve::new`, compound_curve.rs 42-75. Each turn removes a curve
    or breaks; the fuel is the number of curves left. -/
def connect (eps tol : K) (dist : W → W → K) :
    ℕ → List (Curve K (W × K)) → List (Curve K (W × K)) → Res (List (Curve K (W × K)))
  | _, connected, [] => pure connected
  | 0, _, _ :: _ => .error .diverge
  | fuel + 1, connected, c :: cs => do
    let curves := c :: cs
    let current ← subR connected.length 1
    let last ← getR connected current
    let found ← findDir eps tol dist last curves
    match found with
    | none => pure connected
    | some (i, d) => do
      let next ← getR curves i
      let connected ← place connected current next d
      connect eps tol dist fuel connected (curves.eraseIdx i)

/-- The alignment of the knot vectors, compound_curve.rs 79-86 (`knots().first()`/`last()` panic on
    an empty knot vector). -/
def align : K → List (Curve K V) → Res (List (Curve K V))
  | _, [] => pure []
  | off, c :: cs => do
    let start ← getR c.knots 0
    let ks := c.knots.map fun v => v - start + off
    let l ← subR ks.length 1
    let off' ← getR ks l
    let rest ← align off' cs
    pure ({ c with knots := ks } :: rest)

/-- `CompoundCurve::new`, compound_curve.rs 31-89; `tol` is the epsilon `1e-4`. -/
def new (eps tol : K) (dist : W → W → K) (spans : List (Curve K (W × K))) :
    Res (List (Curve K (W × K))) := do
  let first ← getR spans 0
  let connected ← connect eps tol dist (spans.length - 1) [first] spans.tail
  align 0 connected

/-- `CompoundCurve::point_at`, compound_curve.rs 118-128. -/
def pointAt (eps : K) (t : K) : List (Curve K (W × K)) → Res (Option W)
  | [] => pure none
  | c :: cs => do
    let d ← c.knotsDomain
    if d.1 ≤ t ∧ t ≤ d.2 then do
      let p ← c.pointAt eps t
      pure (some p)
    else pointAt eps t cs

/-- `CompoundCurve::is_closed`, compound_curve.rs 145-160; `ceps` is `default_epsilon() * 10`. -/
def isClosed (eps ceps : K) (dist : W → W → K) (spans : List (Curve K (W × K))) : Res Bool :=
  match spans.head?, spans.getLast? with
  | some s, some e => do
    let sd ← s.knotsDomain
    let p ← s.pointAt eps sd.1
    let ed ← e.knotsDomain
    let q ← e.pointAt eps ed.2
    pure (decide (dist p q < ceps))
  | _, _ => pure false

end rational

/-- `Invertible::invert` for `CompoundCurve`, compound_curve.rs 271-274. -/
def invert (spans : List (Curve K V)) : Res (List (Curve K V)) := do
  let inv ← spans.mapM fun c => c.invert
  pure inv.reverse

section trim
variable [AddCommGroup V] [Module K V]

/-- The closure of `TrimRange::try_trim_range` for one span of a compound curve,
    trim/mod.rs 56-101; `teps` is `default_epsilon()`. -/
def trimSpan (eps teps : K) (t0 t1 : K) (c : Curve K V) : Res (List (Curve K V)) := do
  let mn := min t0 t1
  let mx := max t0 t1
  let d ← c.knotsDomain
  if d.1 + teps ≤ mn ∧ mn ≤ d.2 - teps then
    if d.1 + teps ≤ mx ∧ mx ≤ d.2 - teps then
      if t0 < t1 then c.tryTrimRange eps mn mx
      else do
        let r ← c.trySplit eps mn
        let r2 ← r.2.trySplit eps mx
        pure [r.1, r2.2]
    else do
      let r ← c.trySplit eps mn
      pure (if t0 < t1 then [r.2] else [r.1])
  else
    if d.1 + teps ≤ mx ∧ mx ≤ d.2 - teps then do
      let r ← c.trySplit eps mx
      pure (if t0 < t1 then [r.1] else [r.2])
    else
      let contains := mn ≤ d.1 ∧ d.1 ≤ mx
      pure (if t0 < t1 then (if contains then [c] else []) else (if contains then [] else [c]))

/-- `TrimRange::try_trim_range` for a compound curve, trim/mod.rs 42-109. -/
def tryTrimRange (eps teps : K) (t0 t1 : K) (spans : List (Curve K V)) : Res (List (Curve K V)) := do
  let r ← spans.mapM (trimSpan eps teps t0 t1)
  pure r.flatten

end trim

end Compound
end Curvo

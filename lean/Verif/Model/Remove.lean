/-
  Model of knot removal, `NurbsCurve::try_remove_knot`, `/repo/src/curve/nurbs_curve.rs` 1362-1515.

  `norm` stands for `norm()` of a difference of homogeneous points. Division by zero, which gives
  infinite or undefined coordinates in the code, is the fault `nonfinite`.
-/
import Verif.Model.Refine
import Verif.Model.Deriv

namespace Curvo

namespace Curve

variable {K : Type} [Field K] [LinearOrder K] {V : Type}

/-- `for x in 0..cnt { xs[dst + x] = xs[src + x] }`: the shifting loops, nurbs_curve.rs 1483-1485 and
    1501-1504 (there the two indices are counted separately). -/
def moveDown {α : Type} (dst src cnt : ℕ) (xs : List α) : Res (List α) :=
  (List.range cnt).foldlM (fun xs x => do
    let v ← getR xs (src + x)
    setR xs (dst + x) v) xs

/-- Indices `i`, `j`, `ii`, `jj` of the inner loop and the array `temp`, nurbs_curve.rs 1397 and 1410-1413. -/
structure RemState (V : Type) where
  i : ℕ
  j : ℕ
  ii : ℕ
  jj : ℕ
  temp : List V

section mod
variable [AddCommGroup V] [Module K V]

/-- `(knot - u[i]) / (u[e] - u[i])`, nurbs_curve.rs 1417-1420 -/
def removeAlpha (U : List K) (knot : K) (i e : ℕ) : Res K := do
  let ui ← getR U i
  let ue ← getR U e
  divR (knot - ui) (ue - ui)

/-- The loop `while j >= i && (j - i) > t`, nurbs_curve.rs 1417-1444. -/
def removeWhile (U : List K) (P : List V) (knot : K) (ord t : ℕ) : ℕ → RemState V → Res (RemState V)
  | 0, _ => .error .diverge
  | fuel + 1, s =>
    if s.i ≤ s.j ∧ t < s.j - s.i then do
      let alfi ← removeAlpha U knot s.i (s.i + ord + t)
      let jt ← subR s.j t
      let alfj ← removeAlpha U knot jt (s.j + ord)
      let l ← subR s.ii 1
      let left ← getR s.temp l
      let right ← getR s.temp (s.jj + 1)
      let pi ← getR P s.i
      let a ← divV (pi - (1 - alfi) • left) alfi
      let pj ← getR P s.j
      let b ← divV (pj - alfj • right) (1 - alfj)
      let temp ← setR s.temp s.ii a
      let temp ← setR temp s.jj b
      let j ← subR s.j 1
      let jj ← subR s.jj 1
      removeWhile U P knot ord t fuel { i := s.i + 1, j := j, ii := s.ii + 1, jj := jj, temp := temp }
    else pure s

/-- "check if knot removable", nurbs_curve.rs 1447-1463. -/
def removable (norm : V → K) (U : List K) (P : List V) (knot tol : K) (ord t : ℕ) (s : RemState V) : Res Bool :=
  if s.i ≤ s.j ∧ s.j - s.i < t then do
    let l ← subR s.ii 1
    let left ← getR s.temp l
    let right ← getR s.temp (s.jj + 1)
    pure (decide (norm (left - right) ≤ tol))
  else do
    let alfi ← removeAlpha U knot s.i (s.i + ord + t)
    let pwi ← getR P s.i
    let l ← subR s.ii 1
    let lo ← getR s.temp l
    let hi ← getR s.temp (s.ii + t + 1)
    pure (decide (norm (pwi - (alfi • hi + (1 - alfi) • lo)) ≤ tol))

/-- The loop `while j2 >= i2 && (j2 - i2) > t`, nurbs_curve.rs 1471-1477. -/
def removeStore (temp : List V) (off t : ℕ) : ℕ → ℕ → ℕ → List V → Res (List V)
  | 0, _, _, _ => .error .diverge
  | fuel + 1, i2, j2, P =>
    if i2 ≤ j2 ∧ t < j2 - i2 then do
      let a ← subR i2 off
      let x ← getR temp a
      let P ← setR P i2 x
      let b ← subR j2 off
      let y ← getR temp b
      let P ← setR P j2 y
      let j' ← subR j2 1
      removeStore temp off t fuel (i2 + 1) j' P
    else pure P

/-- Body of `for _ in 0..s`, nurbs_curve.rs 1404-1483: `none` is `break`. The indices grow and shrink by
    one in each turn of the inner loops, so `last + 2` turns are enough. -/
def removeRound (norm : V → K) (U : List K) (knot tol : K) (ord first last t : ℕ) (temp P : List V) :
    Res (Option (List V × List V)) := do
  let off ← subR first 1
  let p0 ← getR P off
  let temp ← setR temp 0 p0
  let right ← subR (last + 1) off
  let p1 ← getR P (last + 1)
  let temp ← setR temp right p1
  let jj ← subR right 1
  let s ← removeWhile U P knot ord t (last + 2) { i := first, j := last, ii := 1, jj := jj, temp := temp }
  let ok ← removable norm U P knot tol ord t s
  if ok then do
    let P ← removeStore s.temp off t (last + 2) first last P
    pure (some (s.temp, P))
  else pure none

/-- `for _ in 0..s`, nurbs_curve.rs 1404-1483. -/
def removeRounds (norm : V → K) (U : List K) (knot tol : K) (ord : ℕ) :
    ℕ → ℕ → ℕ → ℕ → List V → List V → Res (ℕ × List V)
  | 0, _, _, t, _, P => pure (t, P)
  | rounds + 1, first, last, t, temp, P => do
    let r ← removeRound norm U knot tol ord first last t temp P
    match r with
    | none => pure (t, P)
    | some (temp, P) => do
      let first ← subR first 1
      removeRounds norm U knot tol ord rounds first (last + 1) (t + 1) temp P

/-- `for k in 1..t { if k % 2 == 1 { i += 1 } else { j = j.saturating_sub(1) } }`,
    nurbs_curve.rs 1494-1500; `k` is the next value and `cnt` the number of values left. -/
def removeOut : ℕ → ℕ → ℕ → ℕ → ℕ × ℕ
  | 0, _, i, j => (i, j)
  | cnt + 1, k, i, j => if k % 2 = 1 then removeOut cnt (k + 1) (i + 1) j else removeOut cnt (k + 1) i (j - 1)

/-- `NurbsCurve::try_remove_knot`, nurbs_curve.rs 1362-1515: the curve after the call and the number of
    removals. `eps` is the tolerance of `KnotVector::multiplicity`. -/
def tryRemoveKnot (eps : K) (norm : V → K) (c : Curve K V) (knot tol : K) : Res (Curve K V × ℕ) := do
  let n ← subR c.cps.length 1
  let m := n + c.degree + 1
  match c.knots.findIdx? (fun k => decide (k = knot)) with
  | none => .error .err
  | some r => do
    let mults ← Knots.multiplicity eps c.knots
    match mults.find? (fun x => decide (x.1 = knot)) with
    | none => .error .err
    | some (_, s) =>
      if r ≤ c.degree then .error .err
      else if r ≤ s then .error .err
      else do
        let (t, P) ← removeRounds norm c.knots knot tol (c.degree + 1) s (r - c.degree) (r - s) 0
          (List.replicate (2 * (m + 1)) 0) c.cps
        if 0 < t then do
          let dst ← subR (r + 1) t
          let U ← moveDown dst (r + 1) (m - r) c.knots
          let lu ← subR (m + 1) t
          let fout := (2 * r - s - c.degree) / 2
          let (i, j) := removeOut (t - 1) 1 fout fout
          let P ← moveDown j (i + 1) (n - i) P
          let lp ← subR (n + 1) t
          pure ({ c with knots := U.take lu, cps := P.take lp }, t)
        else pure (c, t)

end mod
end Curve
end Curvo

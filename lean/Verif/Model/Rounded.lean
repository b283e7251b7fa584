/-
  Model of the evaluation of curves and surfaces in floating point arithmetic: the functions of `Model/Knot.lean`,
  `Model/Curve.lean` and `Model/Surface.lean` used by `point_at`, with every arithmetic operation on scalars followed by a
  rounding `fl`, as IEEE 754 prescribes for `+ - * /`.  Comparisons are exact and are not rounded.

  Simplified: `fl` is a function from the scalars to the scalars, so overflow to infinity, NaN and the loss of relative
  precision below the smallest normal number are not modelled.  Points are vectors of coordinates; nalgebra's operations on
  vectors work coordinate by coordinate.
-/
import Verif.Model.Surface

namespace Curvo.Rounded

variable {K : Type} [Field K] [LinearOrder K] {d : ℕ}

/-- `KnotVector::find_knot_span_index`, knot_vector.rs 158-185, rounded. -/
def findKnotSpanIndex (fl : K → K) (eps : K) (ks : List K) (n degree : ℕ) (u : K) : Res ℕ := do
  let kn ← getR ks (n + 1)
  if fl (kn - eps) < u then pure n
  else
    let kd ← getR ks degree
    if u < fl (kd + eps) then pure degree
    else Knots.spanGo ks u (n + 2) degree (n + 1) ((degree + (n + 1)) / 2)

/-- `left[j] = u - self[knot_span_index + 1 - j]`, knot_vector.rs 197, rounded. -/
def leftAt (fl : K → K) (ks : List K) (span : ℕ) (u : K) (j : ℕ) : Res K := do
  let i ← subR (span + 1) j
  let k ← getR ks i
  pure (fl (u - k))

/-- `right[j] = self[knot_span_index + j] - u`, knot_vector.rs 198, rounded. -/
def rightAt (fl : K → K) (ks : List K) (span : ℕ) (u : K) (j : ℕ) : Res K := do
  let k ← getR ks (span + j)
  pure (fl (k - u))

/-- Inner loop of `basis_functions`, knot_vector.rs 201-207, rounded (see `Knots.basisInner`). -/
def basisInner (fl : K → K) (ks : List K) (span : ℕ) (u : K) (j : ℕ) : ℕ → K → List K → Res (List K)
  | _, saved, [] => pure [saved]
  | r, saved, b :: bs => do
    let rr ← rightAt fl ks span u (r + 1)
    let ll ← leftAt fl ks span u (j - r)
    let quot ← divR b (fl (rr + ll))
    let temp := fl quot
    let rest ← basisInner fl ks span u j (r + 1) (fl (ll * temp)) bs
    pure (fl (saved + fl (rr * temp)) :: rest)

/-- `KnotVector::basis_functions`, knot_vector.rs 189-211, rounded. -/
def basisFunctions (fl : K → K) (ks : List K) (span : ℕ) (u : K) : ℕ → Res (List K)
  | 0 => pure [1]
  | j + 1 => do
    let row ← basisFunctions fl ks span u j
    let _ ← leftAt fl ks span u (j + 1)
    let _ ← rightAt fl ks span u (j + 1)
    basisInner fl ks span u (j + 1) 0 0 row

/-- `position.coords += p.coords * b`, nurbs_curve.rs 256-257, rounded: every coordinate is multiplied and added. -/
def accumulate (fl : K → K) (acc : (Fin d → K) × K) (b : K) (p : (Fin d → K) × K) : (Fin d → K) × K :=
  (fun i => fl (acc.1 i + fl (p.1 i * b)), fl (acc.2 + fl (p.2 * b)))

/-- The accumulation loop of `NurbsCurve::point`, nurbs_curve.rs 255-258, rounded. -/
def sumPoints (fl : K → K) (cps : List ((Fin d → K) × K)) (basis : List K) (off degree : ℕ) : Res ((Fin d → K) × K) :=
  (List.range (degree + 1)).foldlM (fun acc i => do
    let c ← getR cps (off + i)
    let b ← getR basis i
    pure (accumulate fl acc b c)) 0

/-- `NurbsCurve::point`, nurbs_curve.rs 249-260, rounded. -/
def point (fl : K → K) (eps : K) (c : Curve K ((Fin d → K) × K)) (t : K) : Res ((Fin d → K) × K) := do
  let n ← c.lastIndex
  let s ← findKnotSpanIndex fl eps c.knots n c.degree t
  let basis ← basisFunctions fl c.knots s t c.degree
  let off ← subR s c.degree
  sumPoints fl c.cps basis off c.degree

/-- `dehomogenize`, nurbs_curve.rs 1990-2008, rounded. -/
def dehomogenize (fl : K → K) (p : (Fin d → K) × K) : Option (Fin d → K) :=
  if p.2 ≠ 0 then some (fun i => fl (p.1 i / p.2)) else none

/-- `NurbsCurve::point_at`, nurbs_curve.rs 196-203, rounded. -/
def pointAt (fl : K → K) (eps : K) (c : Curve K ((Fin d → K) × K)) (t : K) : Res (Fin d → K) := do
  let p ← point fl eps c t
  unwrapR (dehomogenize fl p)

/-- The inner loop `for k in 0..=u_degree`, nurbs_surface.rs 161-163, rounded. -/
def isoPoint (fl : K → K) (S : Surface K ((Fin d → K) × K)) (bu : List K) (uind vind : ℕ) : Res ((Fin d → K) × K) :=
  (List.range (S.uDegree + 1)).foldlM (fun acc k => do
    let row ← getR S.cps (uind + k)
    let p ← getR row vind
    let b ← getR bu k
    pure (accumulate fl acc b p)) 0

/-- `NurbsSurface::point`, nurbs_surface.rs 141-170, rounded. -/
def pointS (fl : K → K) (eps : K) (S : Surface K ((Fin d → K) × K)) (u v : K) : Res ((Fin d → K) × K) := do
  let n ← subR S.uKnots.length S.uDegree
  let n ← subR n 2
  let m ← subR S.vKnots.length S.vDegree
  let m ← subR m 2
  let su ← findKnotSpanIndex fl eps S.uKnots n S.uDegree u
  let sv ← findKnotSpanIndex fl eps S.vKnots m S.vDegree v
  let bu ← basisFunctions fl S.uKnots su u S.uDegree
  let bv ← basisFunctions fl S.vKnots sv v S.vDegree
  let uind ← subR su S.uDegree
  (List.range (S.vDegree + 1)).foldlM (fun acc l => do
    let v0 ← subR sv S.vDegree
    let temp ← isoPoint fl S bu uind (v0 + l)
    let b ← getR bv l
    pure (accumulate fl acc b temp)) 0

/-- `NurbsSurface::point_at`, nurbs_surface.rs 135-138, rounded. -/
def pointAtS (fl : K → K) (eps : K) (S : Surface K ((Fin d → K) × K)) (u v : K) : Res (Fin d → K) := do
  let p ← pointS fl eps S u v
  unwrapR (dehomogenize fl p)

end Curvo.Rounded

/-
  Model of the derivative part of `/repo/src/knot/knot_vector.rs`, `/repo/src/curve/nurbs_curve.rs` and
  `/repo/src/surface/nurbs_surface.rs`, and of the regular tessellation built on it.

  Matrices are lists of rows with checked access, `isize` is `ℤ` (no overflow); the cast of a negative `isize`
  to `usize` gives an index that is out of range of every list, so it is a panic here.  A call
  `binom.get(n, k)` on the memo table of binomial.rs is the value that the table returns from empty; C51
  (`C51_memoised`) is that this does not depend on earlier queries.
-/
import Verif.Model.Surface
import Verif.Model.Misc

namespace Curvo

/-- `m[i][j]`, as in knot_vector.rs 235-300. -/
def get2R {α : Type} (m : List (List α)) (i j : ℕ) : Res α := do
  let row ← getR m i
  getR row j

/-- `m[i][j] = a`, as in knot_vector.rs 235-300. -/
def set2R {α : Type} (m : List (List α)) (i j : ℕ) (a : α) : Res (List (List α)) := do
  let row ← getR m i
  let row ← setR row j a
  setR m i row

/-- `x as usize` used as an index, as in knot_vector.rs 270-300. -/
def asUsize (x : ℤ) : Res ℕ := if 0 ≤ x then .ok x.toNat else .error .panic

/-- `a..=b` on `isize`, as in knot_vector.rs 258-300. -/
def intRange (a b : ℤ) : List ℤ := (List.range (b + 1 - a).toNat).map fun t : ℕ => a + t

namespace Knots

variable {K : Type} [Field K] [LinearOrder K]

/-- Body of the loop over `r`, knot_vector.rs 235-243: state `(ndu, saved)`. -/
def nduInner (left right : List K) (j : ℕ) (st : List (List K) × K) (r : ℕ) : Res (List (List K) × K) := do
  let a ← getR right (r + 1)
  let i ← subR j r
  let b ← getR left i
  let ndu ← set2R st.1 j r (a + b)
  let j' ← subR j 1
  let x ← get2R ndu r j'
  let y ← get2R ndu j r
  let temp ← divR x y
  let ndu ← set2R ndu r j (st.2 + a * temp)
  pure (ndu, b * temp)

/-- Body of the loop over `j`, knot_vector.rs 230-245: state `(ndu, left, right)`. -/
def nduOuter (ks : List K) (span : ℕ) (u : K) (st : List (List K) × List K × List K) (j : ℕ) :
    Res (List (List K) × List K × List K) := do
  let i ← subR (span + 1) j
  let kl ← getR ks i
  let left ← setR st.2.1 j (u - kl)
  let kr ← getR ks (span + j)
  let right ← setR st.2.2 j (kr - u)
  let (ndu, saved) ← (List.range j).foldlM (nduInner left right j) (st.1, 0)
  let ndu ← set2R ndu j j saved
  pure (ndu, left, right)

/-- The table `ndu`, knot_vector.rs 222-246. -/
def nduTable (ks : List K) (span : ℕ) (u : K) (degree : ℕ) : Res (List (List K)) := do
  let ndu ← set2R (List.replicate (degree + 1) (List.replicate (degree + 1) (0 : K))) 0 0 1
  let (ndu, _, _) ← ((List.range degree).map (· + 1)).foldlM (nduOuter ks span u)
    (ndu, List.replicate (degree + 1) 0, List.replicate (degree + 1) 0)
  pure ndu

/-- Body of the loop over `j`, knot_vector.rs 279-283: state `(a, d)`. -/
def derInner (ndu : List (List K)) (s1 s2 : ℕ) (pk rk : ℤ) (st : List (List K) × K) (j : ℤ) :
    Res (List (List K) × K) := do
  let uj ← asUsize j
  let uj1 ← subR uj 1
  let x ← get2R st.1 s1 uj
  let y ← get2R st.1 s1 uj1
  let ip ← asUsize (pk + 1)
  let ir ← asUsize (rk + j)
  let z ← get2R ndu ip ir
  let q ← divR (x - y) z
  let a ← set2R st.1 s2 uj q
  let v ← get2R a s2 uj
  let ipk ← asUsize pk
  let w ← get2R ndu ir ipk
  pure (a, st.2 + v * w)

/-- The state of the loop over `k`, knot_vector.rs 258-296. -/
structure DerSt (K : Type) where
  ders : List (List K)
  a : List (List K)
  s1 : ℕ
  s2 : ℕ

/-- Lines 269-272 of knot_vector.rs: the term of `j = 0`. -/
def derFirst (ndu : List (List K)) (r k : ℤ) (pk rk : ℤ) (s1 s2 : ℕ) (a : List (List K)) :
    Res (List (List K) × K) :=
  if k ≤ r then do
    let x ← get2R a s1 0
    let ip ← asUsize (pk + 1)
    let ir ← asUsize rk
    let z ← get2R ndu ip ir
    let q ← divR x z
    let a ← set2R a s2 0 q
    let v ← get2R a s2 0
    let ipk ← asUsize pk
    let w ← get2R ndu ir ipk
    pure (a, v * w)
  else pure (a, 0)

/-- Lines 283-288 of knot_vector.rs: the term of `j = k`. -/
def derLast (ndu : List (List K)) (r k : ℤ) (pk : ℤ) (s1 s2 : ℕ) (a : List (List K)) (d : K) :
    Res (List (List K) × K) :=
  if r ≤ pk then do
    let uk ← asUsize k
    let ur ← asUsize r
    let k1 ← asUsize (k - 1)
    let x ← get2R a s1 k1
    let ip ← asUsize (pk + 1)
    let z ← get2R ndu ip ur
    let q ← divR (-x) z
    let a ← set2R a s2 uk q
    let v ← get2R a s2 uk
    let ipk ← asUsize pk
    let w ← get2R ndu ur ipk
    pure (a, d + v * w)
  else pure (a, d)

/-- Body of the loop over `k`, knot_vector.rs 266-296. -/
def derStep (ndu : List (List K)) (degree : ℕ) (r : ℤ) (st : DerSt K) (k : ℤ) : Res (DerSt K) := do
  let rk := r - k
  let pk := (degree : ℤ) - k
  let (a, d) ← derFirst ndu r k pk rk st.s1 st.s2 st.a
  let j1 := if -1 ≤ rk then 1 else -rk
  let j2 := if r - 1 ≤ pk then k - 1 else (degree : ℤ) - r
  let (a, d) ← (intRange j1 j2).foldlM (derInner ndu st.s1 st.s2 pk rk) (a, d)
  let (a, d) ← derLast ndu r k pk st.s1 st.s2 a d
  let uk ← asUsize k
  let ur ← asUsize r
  let ders ← set2R st.ders uk ur d
  pure { ders := ders, a := a, s1 := st.s2, s2 := st.s1 }

/-- Body of the loop over `r`, knot_vector.rs 259-297: state `(ders, a)`. -/
def derColumn (ndu : List (List K)) (degree n : ℕ) (st : List (List K) × List (List K)) (r : ℤ) :
    Res (List (List K) × List (List K)) := do
  let a ← set2R st.2 0 0 1
  let st ← (intRange 1 n).foldlM (derStep ndu degree r) { ders := st.1, a := a, s1 := 0, s2 := 1 }
  pure (st.ders, st.a)

/-- Body of the scaling loop, knot_vector.rs 300-305: state `(ders, acc)`. -/
def derScale (degree : ℕ) (st : List (List K) × ℤ) (k : ℕ) : Res (List (List K) × ℤ) := do
  let ders ← (List.range (degree + 1)).foldlM (fun ders j => do
    let x ← get2R ders k j
    set2R ders k j (x * (st.2 : K))) st.1
  pure (ders, st.2 * ((degree : ℤ) - k))

/-- `KnotVector::derivative_basis_functions`, knot_vector.rs 215-305. -/
def derivativeBasisFunctions (ks : List K) (span : ℕ) (u : K) (degree n : ℕ) : Res (List (List K)) := do
  let ndu ← nduTable ks span u degree
  let ders := List.replicate (n + 1) (List.replicate (degree + 1) (0 : K))
  let ders ← (List.range (degree + 1)).foldlM (fun ders j => do
    let x ← get2R ndu j degree
    set2R ders 0 j x) ders
  let (ders, _) ← (intRange 0 degree).foldlM (derColumn ndu degree n)
    (ders, List.replicate 2 (List.replicate (degree + 1) (0 : K)))
  let (ders, _) ← ((List.range n).map (· + 1)).foldlM (derScale degree) (ders, (degree : ℤ))
  pure ders

/-- `for _i in 0..=divs` of `regularly_spaced_derivative_basis_functions`, knot_vector.rs 349-356. -/
def regularDerGo (ks : List K) (degree n : ℕ) (span : K) : ℕ → K → ℕ → Res (List (ℕ × List (List K)))
  | 0, _, _ => pure []
  | todo + 1, u, idx => do
    let idx ← advanceGo ks n u (n + 2) idx
    let b ← derivativeBasisFunctions ks idx u degree n
    let rest ← regularDerGo ks degree n span todo (u + span) idx
    pure ((idx, b) :: rest)

/-- `KnotVector::regularly_spaced_derivative_basis_functions`, knot_vector.rs 336-359 (pairs of span and table
    instead of a pair of lists). -/
def regularlySpacedDerivativeBasisFunctions (eps : K) (ks : List K) (degree divs : ℕ) :
    Res (List (ℕ × List (List K))) := do
  let (start, _, span, n) ← regularlySpacedSpan ks degree divs
  let idx ← findKnotSpanIndex eps ks n degree start
  regularDerGo ks degree n span (divs + 1) start idx

end Knots

/-- `v / w` of a vector by a float (nurbs_curve.rs 332, nurbs_surface.rs 1014-1075): a zero divisor yields non finite coordinates. -/
def divV {K W : Type} [Field K] [LinearOrder K] [AddCommGroup W] [Module K W] (v : W) (w : K) : Res W :=
  if w = 0 then .error .nonfinite else .ok (w⁻¹ • v)

/-- `binom.get(n, k)`, binomial.rs 41-57 (see the header). -/
def binomGet {K : Type} [Field K] (n k : ℕ) : K := (Misc.Memo.get n k (Misc.Memo.empty : Misc.Memo K)).1

namespace Curve

variable {K V W : Type} [Field K] [LinearOrder K]

/-- `NurbsCurve::derivatives`, nurbs_curve.rs 339-364. -/
def derivatives [AddCommGroup V] [Module K V] (eps : K) (c : Curve K V) (u : K) (derivs : ℕ) : Res (List V) := do
  let n ← c.lastIndex
  let du := if derivs < c.degree then derivs else c.degree
  let s ← Knots.findKnotSpanIndex eps c.knots n c.degree u
  let nders ← Knots.derivativeBasisFunctions c.knots s u c.degree du
  (List.range (du + 1)).foldlM (fun ders k =>
    (List.range (c.degree + 1)).foldlM (fun ders j => do
      let off ← subR s c.degree
      let p ← getR c.cps (off + j)
      let b ← get2R nders k j
      let col ← getR ders k
      setR ders k (col + b • p)) ders) (List.replicate (derivs + 1) 0)

/-- The loop over `k` of `NurbsCurve::rational_derivatives`, nurbs_curve.rs 322-335, on the derivatives of the
    numerator and of the weight. -/
def rationalGo [AddCommGroup W] [Module K W] (aDers : List W) (wDers : List K) (derivs : ℕ) : Res (List W) :=
  (List.range (derivs + 1)).foldlM (fun ck k => do
    let v ← getR aDers k
    let v ← ((List.range k).map (· + 1)).foldlM (fun v i => do
      let w ← getR wDers i
      let o ← subR k i
      let x ← getR ck o
      pure (v - (binomGet k i * w) • x)) v
    let w0 ← getR wDers 0
    let d ← divV v w0
    pure (ck ++ [d])) []

variable [AddCommGroup W] [Module K W]

/-- `NurbsCurve::rational_derivatives`, nurbs_curve.rs 300-336. -/
def rationalDerivatives (eps : K) (c : Curve K (W × K)) (u : K) (derivs : ℕ) : Res (List W) := do
  let ders ← c.derivatives eps u derivs
  rationalGo (ders.map Prod.fst) (ders.map Prod.snd) derivs

/-- `NurbsCurve::tangent_at`, nurbs_curve.rs 262-270. -/
def tangentAt (eps : K) (c : Curve K (W × K)) (u : K) : Res W := do
  let d ← c.rationalDerivatives eps u 1
  getR d 1

/-- `NurbsCurve::second_derivative_at`, nurbs_curve.rs 272-280. -/
def secondDerivativeAt (eps : K) (c : Curve K (W × K)) (u : K) : Res W := do
  let d ← c.rationalDerivatives eps u 2
  getR d 2

/-- `NurbsCurve::point_tangent_at`, nurbs_curve.rs 282-297. -/
def pointTangentAt (eps : K) (c : Curve K (W × K)) (u : K) : Res (W × W) := do
  let d ← c.rationalDerivatives eps u 1
  let p ← getR d 0
  let t ← getR d 1
  pure (p, t)

end Curve

namespace Surface

variable {K V W : Type} [Field K] [LinearOrder K]

section homogeneous
variable [AddCommGroup V] [Module K V]

/-- The column sums `temp` of order `k` in u, nurbs_surface.rs 450-460 and 336-346; `ind` are the offsets of the
    active control points. -/
def derColumns (S : Surface K V) (uders : List (List K)) (su sv k : ℕ) : Res (List V) :=
  (List.range (S.vDegree + 1)).mapM fun s =>
    (List.range (S.uDegree + 1)).foldlM (fun acc r => do
      let ou ← subR su S.uDegree
      let row ← getR S.cps (ou + r)
      let ov ← subR sv S.vDegree
      let p ← getR row (ov + s)
      let b ← get2R uders k r
      pure (acc + b • p)) 0

/-- `NurbsSurface::derivatives`, nurbs_surface.rs 425-479. -/
def derivatives (eps : K) (S : Surface K V) (u v : K) (derivs : ℕ) : Res (List (List V)) := do
  let n ← subR S.uKnots.length S.uDegree
  let n ← subR n 2
  let m ← subR S.vKnots.length S.vDegree
  let m ← subR m 2
  let du := if derivs < S.uDegree then derivs else S.uDegree
  let dv := if derivs < S.vDegree then derivs else S.vDegree
  let su ← Knots.findKnotSpanIndex eps S.uKnots n S.uDegree u
  let sv ← Knots.findKnotSpanIndex eps S.vKnots m S.vDegree v
  let uders ← Knots.derivativeBasisFunctions S.uKnots su u S.uDegree n
  let vders ← Knots.derivativeBasisFunctions S.vKnots sv v S.vDegree m
  (List.range (du + 1)).foldlM (fun skl k => do
    let temp ← S.derColumns uders su sv k
    let nk ← subR derivs k
    let dd := if nk < dv then nk else dv
    (List.range (dd + 1)).foldlM (fun skl l =>
      (List.range (S.vDegree + 1)).foldlM (fun skl s => do
        let item ← getR temp s
        let b ← get2R vders l s
        let col ← get2R skl k l
        set2R skl k l (col + b • item)) skl) skl)
    (List.replicate (derivs + 1) (List.replicate (derivs + 1) 0))

/-- `derivatives_given_bases_knot_spans`, nurbs_surface.rs 315-361.  The table has `dv + 1` rows of `du + 1`
    entries, but its first index counts the derivatives in u. -/
def derivativesGivenBases (S : Surface K V) (su sv : ℕ) (bu bv : List (List K)) (derivs : ℕ) :
    Res (List (List V)) := do
  let du := if derivs < S.uDegree then derivs else S.uDegree
  let dv := if derivs < S.vDegree then derivs else S.vDegree
  (List.range (du + 1)).foldlM (fun skl k => do
    let temp ← S.derColumns bu su sv k
    let nk ← subR derivs k
    let dd := if nk < dv then nk else dv
    (List.range (dd + 1)).foldlM (fun skl l => do
      let v ← (List.range (S.vDegree + 1)).foldlM (fun acc s => do
        let item ← getR temp s
        let b ← get2R bv l s
        pure (acc + b • item)) 0
      set2R skl k l v) skl)
    (List.replicate (dv + 1) (List.replicate (du + 1) 0))

/-- `regular_sample_derivatives`, nurbs_surface.rs 279-312. -/
def regularSampleDerivatives (eps : K) (S : Surface K V) (divsU divsV derivs : ℕ) :
    Res (List (List (List (List V)))) := do
  let bu ← Knots.regularlySpacedDerivativeBasisFunctions eps S.uKnots S.uDegree divsU
  let bv ← Knots.regularlySpacedDerivativeBasisFunctions eps S.vKnots S.vDegree divsV
  (List.range (divsU + 1)).mapM fun i => (List.range (divsV + 1)).mapM fun j => do
    let x ← getR bu i
    let y ← getR bv j
    S.derivativesGivenBases x.1 y.1 x.2 y.2 derivs

end homogeneous

section rational
variable [AddCommGroup W] [Module K W]

/-- One entry of the rational table, nurbs_surface.rs 1048-1066: `skl` are the finished rows, `row` the entries
    of row `k` that are already known. -/
def rationalEntry (a : List (List W)) (w : List (List K)) (skl : List (List W)) (row : List W) (k l : ℕ) : Res W := do
  let v ← get2R a k l
  let v ← ((List.range l).map (· + 1)).foldlM (fun v j => do
    let wj ← get2R w 0 j
    let o ← subR l j
    let x ← getR row o
    pure (v - (binomGet l j * wj) • x)) v
  let v ← ((List.range k).map (· + 1)).foldlM (fun v i => do
    let wi ← get2R w i 0
    let o ← subR k i
    let x ← get2R skl o l
    let v := v - (binomGet k i * wi) • x
    let v2 ← ((List.range l).map (· + 1)).foldlM (fun v2 j => do
      let o ← subR k i
      let o' ← subR l j
      let x ← get2R skl o o'
      let wij ← get2R w i j
      pure (v2 + wij • ((binomGet l j : K) • x))) 0
    pure (v - (binomGet k i : K) • v2)) v
  let w00 ← get2R w 0 0
  divV v w00

/-- The free function `rational_derivatives`, nurbs_surface.rs 1014-1075. -/
def rationalTable (ders : List (List (W × K))) (derivs : ℕ) : Res (List (List W)) :=
  (List.range (derivs + 1)).foldlM (fun skl k => do
    let m ← subR derivs k
    let row ← (List.range (m + 1)).foldlM (fun row l => do
      let v ← rationalEntry (ders.map (·.map Prod.fst)) (ders.map (·.map Prod.snd)) skl row k l
      pure (row ++ [v])) []
    pure (skl ++ [row])) []

/-- `NurbsSurface::rational_derivatives`, nurbs_surface.rs 414-422. -/
def rationalDerivatives (eps : K) (S : Surface K (W × K)) (u v : K) (derivs : ℕ) : Res (List (List W)) := do
  let ders ← S.derivatives eps u v derivs
  rationalTable ders derivs

/-- `NurbsSurface::normal_at`, nurbs_surface.rs 406-411; the cross product is a parameter. -/
def normalAt (cross : W → W → W) (eps : K) (S : Surface K (W × K)) (u v : K) : Res W := do
  let d ← S.rationalDerivatives eps u v 1
  let v0 ← get2R d 1 0
  let v1 ← get2R d 0 1
  pure (cross v0 v1)

/-- `regular_sample_rational_derivatives`, nurbs_surface.rs 256-276. -/
def regularSampleRationalDerivatives (eps : K) (S : Surface K (W × K)) (divsU divsV derivs : ℕ) :
    Res (List (List (List (List W)))) := do
  let ders ← S.regularSampleDerivatives eps divsU divsV derivs
  (List.range (divsU + 1)).mapM fun i => (List.range (divsV + 1)).mapM fun j => do
    let d ← get2R ders i j
    rationalTable d derivs

/-- `regular_sample_normals`, nurbs_surface.rs 236-253; `cross` and `normalize` are parameters. -/
def regularSampleNormals (cross : W → W → W) (normalize : W → W) (eps : K) (S : Surface K (W × K))
    (divsU divsV : ℕ) : Res (List (List W)) := do
  let ders ← S.regularSampleRationalDerivatives eps divsU divsV 1
  ders.mapM fun row => row.mapM fun der => do
    let v0 ← get2R der 1 0
    let v1 ← get2R der 0 1
    pure (normalize (cross v0 v1))

end rational

/-- `SurfaceTessellation`, surface_tessellation.rs 15-28. -/
structure Tessellation (K W : Type) where
  points : List W
  normals : List W
  faces : List (ℕ × ℕ × ℕ)
  uvs : List (K × K)

/-- The faces of the regular grid, nurbs_surface.rs 374-385. -/
def gridFaces (divsU divsV : ℕ) : List (ℕ × ℕ × ℕ) :=
  (List.range divsU).flatMap fun iu =>
    let ioff := iu * (divsV + 1)
    (List.range divsV).flatMap fun iv =>
      [(ioff + iv, ioff + iv + divsV + 2, ioff + iv + 1), (ioff + iv, ioff + iv + divsV + 1, ioff + iv + divsV + 2)]

/-- `NurbsSurface::regular_tessellate`, nurbs_surface.rs 366-403. -/
def regularTessellate [AddCommGroup W] [Module K W] (cross : W → W → W) (normalize : W → W) (eps : K)
    (S : Surface K (W × K)) (divsU divsV : ℕ) : Res (Tessellation K W) := do
  let points ← S.regularSamplePoints eps divsU divsV
  let ders ← S.regularSampleNormals cross normalize eps divsU divsV
  let us ← Knots.regularlySpacedSpan S.uKnots S.uDegree divsU
  let vs ← Knots.regularlySpacedSpan S.vKnots S.vDegree divsV
  pure {
    points := points.flatten
    normals := ders.flatten
    faces := gridFaces divsU divsV
    uvs := (List.range (divsU + 1)).flatMap fun iu : ℕ =>
      let u := us.1 + us.2.2.1 * (iu : K)
      (List.range (divsV + 1)).map fun iv : ℕ => (u, vs.1 + vs.2.2.1 * (iv : K)) }

end Surface

end Curvo

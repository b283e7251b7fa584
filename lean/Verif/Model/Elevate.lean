/-
  Model of degree elevation and of the unification of knot vectors.

  Simplifications: floating point numbers are elements of an ordered field; `floor` of a half is a natural number division
  (the arguments are integers); `binom.get` is the value of the memo table as in `Model/Deriv`.
-/
import Verif.Model.Refine
import Verif.Model.Deriv

namespace Curvo.Curve

variable {K : Type} [Field K] [LinearOrder K] {V : Type} [AddCommGroup V] [Module K V]

/-- The variables of the main loop of `try_elevate_degree`, nurbs_curve.rs 1119-1156. -/
structure Elev (K V : Type) where
  bpts : List V
  ebpts : List V
  nbpts : List V
  qw : List V
  uh : List K
  kind : ℕ
  cind : ℕ
  a : ℕ
  b : ℕ
  r : ℤ
  ua : K

/-- `x.lerp(&y, 1 - t)` of nalgebra, nurbs_curve.rs 1202, 1230, 1235 and 1238: `x * (1 - (1 - t)) + y * (1 - t)`. -/
def lerp1 (x y : V) (t : K) : V := (1 - (1 - t)) • x + (1 - t) • y

/-- The coefficients `bezalfs`, nurbs_curve.rs 1113 and 1129-1147. -/
def elevCoeffs (p inc : ℕ) : Res (List (List K)) := do
  let ph := p + inc
  let z : List (List K) := List.replicate (p + inc + 1) (List.replicate (p + 1) 0)
  let z ← set2R z 0 0 1
  let z ← set2R z ph p 1
  let z ← ((List.range (ph / 2)).map (· + 1)).foldlM (fun z i => do
    let inv ← divR 1 (binomGet ph i)
    let lo ← subR i inc
    (List.range (min p i + 1 - lo)).foldlM (fun z d => do
      let j := lo + d
      let ij ← subR i j
      set2R z i j (inv * binomGet p j * binomGet inc ij)) z) z
  (List.range (ph - (ph / 2 + 1))).foldlM (fun z d => do
    let i := ph / 2 + 1 + d
    let lo ← subR i inc
    (List.range (min p i + 1 - lo)).foldlM (fun z d => do
      let j := lo + d
      let x ← get2R z (ph - i) (p - j)
      set2R z i j x) z) z

/-- Skipping equal knots, nurbs_curve.rs 1160-1162. -/
def elevSkip (knots : List K) (m : ℕ) : ℕ → ℕ → Res ℕ
  | 0, _ => .error .diverge
  | fuel + 1, b =>
    if b < m then do
      let x ← getR knots b
      let y ← getR knots (b + 1)
      if x = y then elevSkip knots m fuel (b + 1) else pure b
    else pure b

/-- Inserting the knot `ub` into the Bezier segment, nurbs_curve.rs 1186-1203. -/
def elevInsert (c : Curve K V) (ub : K) (mul r : ℕ) (s : Elev K V) : Res (Elev K V) := do
  let p := c.degree
  let numer := ub - s.ua
  let alfs : List K := List.replicate p 0
  let alfs ← ((List.range (p - mul)).map fun d => p - d).foldlM (fun alfs k => do
    let u ← getR c.knots (s.a + k)
    let q ← divR numer (u - s.ua)
    setR alfs (k - mul - 1) q) alfs
  let (bpts, nbpts) ← ((List.range r).map (· + 1)).foldlM (fun (st : List V × List V) j => do
    let sm := mul + j
    let bpts ← ((List.range (p + 1 - sm)).map fun d => p - d).foldlM (fun bpts k => do
      let x ← getR bpts k
      let y ← getR bpts (k - 1)
      let al ← getR alfs (k - sm)
      setR bpts k (lerp1 x y al)) st.1
    let last ← getR bpts p
    let nbpts ← setR st.2 (r - j) last
    pure (bpts, nbpts)) (s.bpts, s.nbpts)
  pure { s with bpts := bpts, nbpts := nbpts }

/-- Elevating the Bezier segment, nurbs_curve.rs 1205-1211. -/
def elevSegment (p inc : ℕ) (bez : List (List K)) (lbz : ℕ) (bpts ebpts : List V) : Res (List V) :=
  (List.range (p + inc + 1 - lbz)).foldlM (fun ebpts d => do
    let i := lbz + d
    let ebpts ← setR ebpts i 0
    let lo ← subR i inc
    (List.range (min p i + 1 - lo)).foldlM (fun ebpts d => do
      let j := lo + d
      let e ← getR ebpts i
      let x ← getR bpts j
      let w ← get2R bez i j
      setR ebpts i (e + w • x)) ebpts) ebpts

/-- The inner loop of the knot removal, nurbs_curve.rs 1223-1239. -/
def elevRemoveInner (ph lbz : ℕ) (oldr tr : ℤ) (ub den bet : K) (s : Elev K V) :
    ℕ → ℕ → ℕ → ℕ → List V → List V → Res (List V × List V)
  | 0, _, _, _, _, _ => .error .diverge
  | fuel + 1, i, j, kj, qw, ebpts =>
    if tr < (j : ℤ) - (i : ℤ) then do
      let qw ← (if i < s.cind then do
          let u ← getR s.uh i
          let alf ← divR (ub - u) (s.ua - u)
          let i1 ← subR i 1
          let x ← getR qw i
          let y ← getR qw i1
          setR qw i (lerp1 x y alf)
        else pure qw)
      let ebpts ← (if lbz ≤ j then
          if (j : ℤ) - tr ≤ (s.kind : ℤ) - (ph : ℤ) + oldr then do
            let jt ← subR j tr.toNat
            let u ← getR s.uh jt
            let gam ← divR (ub - u) den
            let x ← getR ebpts kj
            let y ← getR ebpts (kj + 1)
            setR ebpts kj (lerp1 x y gam)
          else pure ebpts
        else do
          let x ← getR ebpts kj
          let y ← getR ebpts (kj + 1)
          setR ebpts kj (lerp1 x y bet))
      let j ← subR j 1
      let kj ← subR kj 1
      elevRemoveInner ph lbz oldr tr ub den bet s fuel (i + 1) j kj qw ebpts
    else pure (qw, ebpts)

/-- Removing the knot `ua`, nurbs_curve.rs 1213-1243. -/
def elevRemove (ph lbz : ℕ) (oldr : ℤ) (ub : K) (s : Elev K V) : Res (Elev K V) := do
  let first ← subR s.kind 2
  let den := ub - s.ua
  let k1 ← subR s.kind 1
  let u ← getR s.uh k1
  let bet ← divR (ub - u) den
  let st ← ((List.range (oldr.toNat - 1)).map (· + 1)).foldlM (fun (st : ℕ × ℕ × List V × List V) tr => do
    let (first, last, qw, ebpts) := st
    let kj ← subR last s.kind
    let (qw, ebpts) ← elevRemoveInner ph lbz oldr (tr : ℤ) ub den bet s (last + 1) first last (kj + 1) qw ebpts
    let first ← subR first 1
    pure (first, last + 1, qw, ebpts)) (first, s.kind, s.qw, s.ebpts)
  pure { s with qw := st.2.2.1, ebpts := st.2.2.2 }

/-- Writing the knot `ua`, nurbs_curve.rs 1245-1250. -/
def elevKnots (p ph : ℕ) (oldr : ℤ) (s : Elev K V) : Res (Elev K V) :=
  if s.a ≠ p then do
    let st ← (List.range ((ph : ℤ) - oldr).toNat).foldlM (fun (st : List K × ℕ) _ => do
      let uh ← setR st.1 st.2 s.ua
      pure (uh, st.2 + 1)) (s.uh, s.kind)
    pure { s with uh := st.1, kind := st.2 }
  else pure s

/-- One iteration of the main loop, nurbs_curve.rs 1158-1274. -/
def elevStep (c : Curve K V) (inc m : ℕ) (bez : List (List K)) (s : Elev K V) : Res (Elev K V) := do
  let p := c.degree
  let ph := p + inc
  let b ← elevSkip c.knots m (m + 1) s.b
  let mul := b - s.b + 1
  let ub ← getR c.knots b
  let oldr := s.r
  let r : ℤ := (p : ℤ) - (mul : ℤ)
  let lbz := if 0 < oldr then ((oldr + 2) / 2).toNat else 1
  let rbz := if 0 < r then ((2 * (ph : ℤ) - (r + 1)) / 2).toNat else ph
  let s := { s with b := b, r := r }
  let s ← (if 0 < r then elevInsert c ub mul r.toNat s else pure s)
  let ebpts ← elevSegment p inc bez lbz s.bpts s.ebpts
  let s := { s with ebpts := ebpts }
  let s ← (if 1 < oldr then elevRemove ph lbz oldr ub s else pure s)
  let s ← elevKnots p ph oldr s
  let (qw, cind) ← (List.range (rbz + 1 - lbz)).foldlM (fun (st : List V × ℕ) d => do
    let x ← getR s.ebpts (lbz + d)
    let qw ← setR st.1 st.2 x
    pure (qw, st.2 + 1)) (s.qw, s.cind)
  let s := { s with qw := qw, cind := cind }
  if b < m then do
    let ur ← asUsize r
    let src ← sliceR s.nbpts 0 ur
    let _ ← sliceR s.bpts 0 ur
    let bpts := src ++ s.bpts.drop ur
    let bp ← subR b p
    let bpts ← (List.range (p + 1 - ur)).foldlM (fun bpts d => do
      let x ← getR c.cps (bp + (ur + d))
      setR bpts (ur + d) x) bpts
    pure { s with bpts := bpts, a := b, b := b + 1, ua := ub }
  else do
    let uh ← (List.range (ph + 1)).foldlM (fun uh i => setR uh (s.kind + i) ub) s.uh
    pure { s with uh := uh }

/-- The main loop, nurbs_curve.rs 1158. -/
def elevLoop (c : Curve K V) (inc m : ℕ) (bez : List (List K)) : ℕ → Elev K V → Res (Elev K V)
  | 0, _ => .error .diverge
  | fuel + 1, s => if s.b < m then do
      let s ← elevStep c inc m bez s
      elevLoop c inc m bez fuel s
    else pure s

/-- `NurbsCurve::try_elevate_degree`, nurbs_curve.rs 1100-1282. -/
def tryElevateDegree (c : Curve K V) (target : ℕ) : Res (Curve K V) :=
  if target ≤ c.degree then pure c
  else do
    let p := c.degree
    let n ← subR c.knots.length (p + 2)
    let inc := target - p
    let count := c.cps.length + inc + 3
    let m := n + p + 1
    let bez ← elevCoeffs p inc
    let ua ← getR c.knots 0
    let p0 ← getR c.cps 0
    let qw ← setR (List.replicate count (0 : V)) 0 p0
    let uh ← (List.range (target + 1)).foldlM (fun uh i => setR uh i ua) (List.replicate (count + target + 1) (0 : K))
    let src ← sliceR c.cps 0 (p + 1)
    let _ ← sliceR (List.replicate count (0 : V)) 0 (p + 1)
    let bpts := src ++ (List.replicate count (0 : V)).drop (p + 1)
    let s ← elevLoop c inc m bez (m + 1)
      { bpts := bpts, ebpts := List.replicate count 0, nbpts := List.replicate count 0, qw := qw, uh := uh,
        kind := target + 1, cind := 1, a := p, b := p + 1, r := -1, ua := ua }
    pure { degree := target, knots := s.uh, cps := s.qw }

/-! ### Unification of knot vectors -/

/-- `sorted_set_union`, nurbs_surface.rs 1385-1422.  The indices into the lists are replaced by the remaining lists; `fuel`
    is the number of remaining elements. -/
def setUnionGo (eps : K) : ℕ → List K → List K → List K
  | 0, _, _ => []
  | _, [], bs => bs
  | _, as, [] => as
  | fuel + 1, a :: as, b :: bs =>
    if |a - b| < eps then a :: setUnionGo eps fuel as bs
    else if 0 < a - b then b :: setUnionGo eps fuel (a :: as) bs
    else a :: setUnionGo eps fuel as (b :: bs)

/-- `sorted_set_union`, nurbs_surface.rs 1385-1422, with enough fuel. -/
def setUnion (eps : K) (as bs : List K) : List K := setUnionGo eps (as.length + bs.length) as bs

/-- `sorted_set_sub`, nurbs_surface.rs 1424-1447. -/
def setSub (eps : K) : List K → List K → List K
  | [], _ => []
  | as, [] => as
  | a :: as, b :: bs => if |a - b| < eps then setSub eps as bs else a :: setSub eps as (b :: bs)

/-- `try_unify_curve_knot_vectors`, nurbs_surface.rs 1318-1383. -/
def tryUnify (eps : K) (cs : List (Curve K V)) : Res (List (Curve K V)) := do
  let maxDegree := cs.foldl (fun d c => max d c.degree) 0
  let cs ← cs.mapM fun c => if c.degree < maxDegree then c.tryElevateDegree maxDegree else pure c
  let ivs ← cs.mapM fun c => do
    let a ← getR c.knots 0
    let l ← subR c.knots.length 1
    let b ← getR c.knots l
    pure (a, b)
  let maxSpan := (ivs.map fun iv => iv.2 - iv.1).foldl (fun x a => max a x) 0
  let cs ← (cs.zip ivs).mapM fun ci => do
    let scale ← divR maxSpan (ci.2.2 - ci.2.1)
    pure { ci.1 with knots := (ci.1.knots.map (· - ci.2.1)).map (· * scale) }
  let merged := cs.foldl (fun a c => setUnion eps c.knots a) []
  cs.mapM fun c =>
    let rem := setSub eps merged c.knots
    if rem.isEmpty then pure c else c.tryRefineKnot eps rem

end Curvo.Curve

/-
  Model of `/repo/src/knot/knot_vector.rs` (KnotVector and its operations).

  A knot vector is the list of its knots; scalars are an arbitrary linearly ordered field.
-/
import Mathlib.Algebra.Order.Field.Basic
import Verif.Basic

namespace Curvo

variable {K : Type} [Field K] [LinearOrder K]

/-- `Iterator::rposition`, knot_vector.rs 81: index of the last element satisfying `p`. -/
def rposition {α : Type} (p : α → Bool) : List α → Option ℕ
  | [] => none
  | a :: l =>
    match rposition p l with
    | some i => some (i + 1)
    | none => if p a then some 0 else none

namespace Knots

/-- `KnotVector::uniform`, knot_vector.rs 26-35. `n - 1` underflows for `n = 0` (panic). -/
def uniform (n degree : ℕ) : Res (List K) := do
  let last ← subR n 1
  pure (List.replicate degree (0 : K) ++ (List.range n).map (fun i : ℕ => (i : K)) ++
    List.replicate degree (last : K))

/-- `KnotVector::first`, knot_vector.rs 49-51. -/
def first (ks : List K) : Res K := getR ks 0

/-- `KnotVector::last`, knot_vector.rs 53-55. -/
def last (ks : List K) : Res K := do
  let i ← subR ks.length 1
  getR ks i

/-- `KnotVector::domain`, knot_vector.rs 70-72. -/
def domain (ks : List K) (degree : ℕ) : Res (K × K) := do
  let a ← getR ks degree
  let i ← subR ks.length 1
  let i ← subR i degree
  let b ← getR ks i
  pure (a, b)

/-- `KnotVector::clamp`, knot_vector.rs 74-77 (`RealField::clamp`, which makes no assertion about the bounds). -/
def clamp (ks : List K) (degree : ℕ) (u : K) : Res K := do
  let (mn, mx) ← domain ks degree
  pure (if u < mn then mn else if mx < u then mx else u)

/-- `KnotVector::floor`, knot_vector.rs 80-82. -/
def floor (ks : List K) (knot : K) : Option ℕ := rposition (fun t => decide (t ≤ knot)) ks

/-- `KnotVector::add`, knot_vector.rs 85-96: new knots and index of the added knot. -/
def add (ks : List K) (knot : K) : List K × ℕ :=
  match floor ks knot with
  | some idx => (ks.insertIdx (idx + 1) knot, idx + 1)
  | none => (ks.insertIdx 0 knot, 0)

/-- Loop body of `KnotVector::multiplicity`, knot_vector.rs 113-119: `cur` is the current
    `(knot, multiplicity)`, the result lists what is pushed including the final `current`. -/
def multGo (eps : K) (cur : K × ℕ) : List K → List (K × ℕ)
  | [] => [cur]
  | knot :: ks =>
    if eps < |knot - cur.1| then cur :: multGo eps (knot, 1) ks
    else multGo eps (cur.1, cur.2 + 1) ks

/-- `KnotVector::multiplicity`, knot_vector.rs 109-123 (`self.0[0]` panics when empty). -/
def multiplicity (eps : K) (ks : List K) : Res (List (K × ℕ)) := do
  let k0 ← getR ks 0
  pure (multGo eps (k0, 0) ks)

/-- `KnotVector::is_clamped`, knot_vector.rs 128-138. -/
def isClamped (eps : K) (ks : List K) (degree : ℕ) : Res Bool := do
  let m ← multiplicity eps ks
  match m.head?, m.getLast? with
  | some s, some e => pure (decide (degree < s.2) && decide (degree < e.2))
  | _, _ => pure false

/-- `while` loop of `find_knot_span_linear`, knot_vector.rs 143-145 (`fuel` bounds the iterations). -/
def spanLinearGo (ks : List K) (n : ℕ) (u : K) : ℕ → ℕ → Res ℕ
  | 0, _ => .error .diverge
  | fuel + 1, span =>
    if span < n then do
      let k ← getR ks span
      if k ≤ u then spanLinearGo ks n u fuel (span + 1) else pure span
    else pure span

/-- `KnotVector::find_knot_span_linear`, knot_vector.rs 141-147. -/
def findKnotSpanLinear (ks : List K) (n degree : ℕ) (u : K) : Res ℕ := do
  let span ← spanLinearGo ks n u (n + 1) (degree + 1)
  subR span 1

/-- `while` loop of `find_knot_span_index`, knot_vector.rs 171-182. -/
def spanGo (ks : List K) (u : K) : ℕ → ℕ → ℕ → ℕ → Res ℕ
  | 0, _, _, _ => .error .diverge
  | fuel + 1, low, high, mid => do
    let km ← getR ks mid
    if u < km then
      -- `high = mid`
      let next := (low + mid) / 2
      if mid = next then pure mid else spanGo ks u fuel low mid next
    else
      let km1 ← getR ks (mid + 1)
      if km1 ≤ u then
        -- `low = mid`
        let next := (mid + high) / 2
        if mid = next then pure mid else spanGo ks u fuel mid high next
      else pure mid

/-- `KnotVector::find_knot_span_index`, knot_vector.rs 158-185. The midpoint
    `((low + high) as f64 / 2.).floor() as usize` is the natural number division. -/
def findKnotSpanIndex (eps : K) (ks : List K) (n degree : ℕ) (u : K) : Res ℕ := do
  let kn ← getR ks (n + 1)
  if kn - eps < u then pure n
  else
    let kd ← getR ks degree
    if u < kd + eps then pure degree
    else spanGo ks u (n + 2) degree (n + 1) ((degree + (n + 1)) / 2)

/-- `left[j] = u - self[knot_span_index + 1 - j]`, knot_vector.rs 197 / 229. -/
def leftAt (ks : List K) (span : ℕ) (u : K) (j : ℕ) : Res K := do
  let i ← subR (span + 1) j
  let k ← getR ks i
  pure (u - k)

/-- `right[j] = self[knot_span_index + j] - u`, knot_vector.rs 198 / 230. -/
def rightAt (ks : List K) (span : ℕ) (u : K) (j : ℕ) : Res K := do
  let k ← getR ks (span + j)
  pure (k - u)

/-- Inner loop of `basis_functions`, knot_vector.rs 201-207, as a scan: the third argument is the
    not yet overwritten tail `basis_functions[r..j]` of the previous row, the result the
    overwritten row from `r` on, ending with `basis_functions[j] = saved`.
    (`left[..]`/`right[..]` are recomputed instead of being read back from the scratch arrays.) -/
def basisInner (ks : List K) (span : ℕ) (u : K) (j : ℕ) : ℕ → K → List K → Res (List K)
  | _, saved, [] => pure [saved]
  | r, saved, b :: bs => do
    let rr ← rightAt ks span u (r + 1)
    let ll ← leftAt ks span u (j - r)
    let temp ← divR b (rr + ll)
    let rest ← basisInner ks span u j (r + 1) (ll * temp) bs
    pure ((saved + rr * temp) :: rest)

/-- `KnotVector::basis_functions`, knot_vector.rs 189-211: the state after the outer loop
    iteration `j = degree` (the first `degree + 1` entries of the scratch array). -/
def basisFunctions (ks : List K) (span : ℕ) (u : K) : ℕ → Res (List K)
  | 0 => pure [1]
  | j + 1 => do
    let row ← basisFunctions ks span u j
    let _ ← leftAt ks span u (j + 1)
    let _ ← rightAt ks span u (j + 1)
    basisInner ks span u (j + 1) 0 0 row

/-- Loop of `KnotVector::invert`, knot_vector.rs 411-415: `prev = next[i-1]`, and the remaining
    list holds the old knots read from the back, `self[len - i] :: self[len - i - 1] :: …`. -/
def invertGo (prev : K) : List K → List K
  | a :: b :: rest => (prev + (a - b)) :: invertGo (prev + (a - b)) (b :: rest)
  | _ => []

/-- `KnotVector::invert`, knot_vector.rs 408-418 (`first().unwrap()` panics when empty). -/
def invert (ks : List K) : Res (List K) := do
  let mn ← getR ks 0
  pure (mn :: invertGo mn ks.reverse)

/-- `KnotVector::regularly_spaced_span`, knot_vector.rs 362-367: `(start, end, span, n)`. -/
def regularlySpacedSpan (ks : List K) (degree divs : ℕ) : Res (K × K × K × ℕ) := do
  let n ← subR ks.length degree
  let n ← subR n 2
  let (s, e) ← domain ks degree
  let span ← divR (e - s) (divs : K)
  pure (s, e, span, n)

/-- `while u >= self[knot_index + 1] && knot_index < n`, knot_vector.rs 323-325. -/
def advanceGo (ks : List K) (n : ℕ) (u : K) : ℕ → ℕ → Res ℕ
  | 0, _ => .error .diverge
  | fuel + 1, idx => do
    let k ← getR ks (idx + 1)
    if k ≤ u ∧ idx < n then advanceGo ks n u fuel (idx + 1) else pure idx

/-- `for _i in 0..=divs` of `regulary_spaced_basis_functions`, knot_vector.rs 322-329. -/
def regularGo (ks : List K) (degree n : ℕ) (span : K) : ℕ → K → ℕ → Res (List (ℕ × List K))
  | 0, _, _ => pure []
  | todo + 1, u, idx => do
    let idx ← advanceGo ks n u (n + 2) idx
    let b ← basisFunctions ks idx u degree
    let rest ← regularGo ks degree n span todo (u + span) idx
    pure ((idx, b) :: rest)

/-- `KnotVector::regulary_spaced_basis_functions`, knot_vector.rs 309-332 (pairs of span and basis
    instead of a pair of lists). -/
def regularlySpacedBasisFunctions (eps : K) (ks : List K) (degree divs : ℕ) :
    Res (List (ℕ × List K)) := do
  let (start, _, span, n) ← regularlySpacedSpan ks degree divs
  let idx ← findKnotSpanIndex eps ks n degree start
  regularGo ks degree n span (divs + 1) start idx

end Knots

end Curvo

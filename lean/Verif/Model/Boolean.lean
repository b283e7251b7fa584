/-
  Model of the boolean operations on closed curves, `/repo/src/boolean/clip.rs`, and on regions,
  `/repo/src/boolean/boolean_region.rs`.

  Curves and points are abstract: `C` compound curves, `S` trimmed spans. Containment tests, trimming,
  construction of compound curves and the classification of degenerate intersections are parameters.
  Nodes of the two linked lists are named by `(subject, position)`.
-/
import Mathlib.Data.List.Sort
import Verif.Model.Curve

namespace Curvo

namespace Boolean

/-- `BooleanOperation`, `/repo/src/boolean/operation.rs` 3-8. -/
inductive Op where
  | union | inter | diff
  deriving DecidableEq

/-- `Status`, `/repo/src/boolean/status.rs` 1-6. The code starts with `None` and sets every node before
    the walk. -/
inductive Status where
  | none | enter | exit
  deriving DecidableEq

/-- `Status::invert`, status.rs 9-15. -/
def Status.invert : Status → Status
  | .enter => .exit
  | .exit => .enter
  | .none => .none

/-- `Degeneracy`, `/repo/src/boolean/degeneracies.rs` 9-14. -/
inductive Degeneracy (K : Type) where
  | angle (x : K) | lineIntersection | none

/-- The parameters of an intersection on both curves, boolean/has_parameter.rs 2-4. Curves and positions only serve the degeneracy
    test and debug output. -/
structure Inter (K : Type) where
  a : K
  b : K

/-- `Region`, `/repo/src/region/mod.rs` 14-17. -/
structure Region (C : Type) where
  exterior : C
  interiors : List C

variable {K : Type} [LinearOrder K]

/-- `matches!(deg, Degeneracy::None)`, clip.rs 117 -/
def Degeneracy.isNone : Degeneracy K → Bool
  | .none => true
  | _ => false

/-- The comparison of `max_by`, clip.rs 123-128: `Greater` or not. -/
def Degeneracy.gt : Degeneracy K → Degeneracy K → Bool
  | .angle x, .angle y => decide (y < x)
  | _, _ => false

/-- `Iterator::max_by`, called at clip.rs 123: the later one of two equal elements stays. -/
def maxDeg {I : Type} : List (I × Degeneracy K) → Option (I × Degeneracy K)
  | [] => none
  | x :: xs => some (xs.foldl (fun m y => if m.2.gt y.2 then m else y) x)

/-- Selection of the intersections, clip.rs 107-139. -/
def select {I : Type} (deg : I → Degeneracy K) (its : List I) : Res (List I) :=
  let all := its.map fun it => (it, deg it)
  let regular := (all.filter fun x => x.2.isNone).map (·.1)
  let rest := all.filter fun x => !x.2.isNone
  let chosen :=
    if regular.length % 2 = 0 then regular
    else match maxDeg rest with
      | some (m, _) => regular ++ [m]
      | none => regular
  if chosen.length % 2 = 0 then pure chosen else .error .err

/-- The answer if there are no intersections, clip.rs 147-186. -/
def containmentTable {C : Type} (op : Op) (subject clip : C) (subjectContainsClip clipContainsSubject : Bool) :
    Res (List (Region C)) :=
  match subjectContainsClip, clipContainsSubject with
  | true, false => match op with
    | .union => pure [⟨subject, []⟩]
    | .inter => pure [⟨clip, []⟩]
    | .diff => pure [⟨subject, [clip]⟩]
  | false, true => match op with
    | .union => pure [⟨clip, []⟩]
    | .inter => pure [⟨subject, []⟩]
    | .diff => pure []
  | false, false => match op with
    | .union => pure [⟨subject, []⟩, ⟨clip, []⟩]
    | .inter => pure []
    | .diff => pure [⟨subject, []⟩]
  | true, true => .error .err

/-! ### The linked lists -/

/-- Name of a node, `Rc<RefCell<Node>>` of node.rs 9-17: which list (`true` for the subject), and its position. -/
abbrev NodeId := Bool × ℕ

/-- `enumerate` and `sorted_by` a parameter, clip.rs 145, 188-207; both sorts are stable. -/
def order (key : Inter K → K) (its : List (Inter K)) : List (ℕ × K) :=
  ((its.zipIdx.map fun x => (x.2, key x.1))).insertionSort fun x y => x.2 ≤ y.2

/-- The statuses given along a list, clip.rs 240-253. -/
def statuses : ℕ → Bool → List Status
  | 0, _ => []
  | n + 1, flag => (if flag then Status.enter else Status.exit) :: statuses n (!flag)

/-- The two linked lists, clip.rs 188-223 with node.rs 9-17: original index and parameter of every node, and the statuses. -/
structure Nodes (K : Type) where
  a : List (ℕ × K)
  b : List (ℕ × K)
  sa : List Status
  sb : List Status

/-- Building the lists, clip.rs 188-270. -/
def build (op : Op) (its : List (Inter K)) (subjectContainsClip clipContainsSubject : Bool) : Nodes K :=
  let a := order Inter.a its
  let b := order Inter.b its
  let sa := statuses a.length (!clipContainsSubject)
  let sb := statuses b.length (!subjectContainsClip)
  { a := a, b := b,
    sa := match op with
      | .union | .diff => sa.map Status.invert
      | .inter => sa
    sb := if op = .union then sb.map Status.invert else sb }

namespace Nodes

/-- The list `a` or `b` of clip.rs 188-207. -/
def list (ns : Nodes K) (s : Bool) : List (ℕ × K) := if s then ns.a else ns.b
/-- The statuses of the nodes of a list, `Node::status` (node.rs 9-17). -/
def stats (ns : Nodes K) (s : Bool) : List Status := if s then ns.sa else ns.sb

/-- `Node::next` after "connect cyclically", clip.rs 225-236. -/
def next (ns : Nodes K) (x : NodeId) : NodeId := (x.1, (x.2 + 1) % (ns.list x.1).length)

/-- `Node::prev` after "connect cyclically", clip.rs 225-236. -/
def prev (ns : Nodes K) (x : NodeId) : NodeId := (x.1, (x.2 + (ns.list x.1).length - 1) % (ns.list x.1).length)

/-- `Node::neighbor` after "connect neighbors", clip.rs 209-219: the node of the other list with the same
    original index. -/
def neighbor (ns : Nodes K) (x : NodeId) : Option NodeId := do
  let p ← (ns.list x.1)[x.2]?
  let j ← (ns.list (!x.1)).findIdx? fun q => decide (q.1 = p.1)
  pure (!x.1, j)

/-- The node to go to from a node, clip.rs 329-333; `todo!()` panics. -/
def step (ns : Nodes K) (x : NodeId) : Res NodeId := do
  let st ← getR (ns.stats x.1) x.2
  match st with
  | .enter => pure (ns.next x)
  | .exit => pure (ns.prev x)
  | .none => .error .panic

/-- The walk along the current loop, clip.rs 318-346: visited nodes and the nodes pushed (in reverse). Every
    turn visits a new node, the fuel given below suffices. -/
def walk (ns : Nodes K) : ℕ → List NodeId → List NodeId → NodeId → Res (List NodeId × List NodeId)
  | 0, _, _, _ => .error .diverge
  | fuel + 1, visited, nodes, current =>
    if current ∈ visited then pure (visited, nodes)
    else do
      let nx ← ns.step current
      match ns.neighbor nx with
      | some nb => walk ns fuel (nx :: current :: visited) (nx :: current :: nodes) nb
      | none => pure (nx :: current :: visited, nx :: current :: nodes)

/-- `non_visited`, the loop of clip.rs 279-286 and the test after it. -/
def nonVisitedGo (visited : List NodeId) (ns : Nodes K) (head : NodeId) : ℕ → NodeId → Res (Option NodeId)
  | 0, _ => .error .diverge
  | fuel + 1, x =>
    let y := ns.next x
    if y = head ∨ y ∉ visited then pure (if y ∈ visited then none else some y)
    else nonVisitedGo visited ns head fuel y

/-- `non_visited(subject_head_node)`, clip.rs 274-294. -/
def nonVisited (visited : List NodeId) (ns : Nodes K) : Res (Option NodeId) :=
  let head : NodeId := (true, 0)
  if head ∈ visited then nonVisitedGo visited ns head (ns.a.length + 1) head
  else pure (some head)

/-- `nodes.chunks(2)` up to the first short chunk, clip.rs 349-352. -/
def chunks : List NodeId → List (NodeId × NodeId)
  | x :: y :: xs => (x, y) :: chunks xs
  | _ => []

/-- The trimmed pieces of one chunk, clip.rs 353-387. -/
def chunkSpans {S : Type} (trim : Bool → K × K → Res (List S)) (ns : Nodes K) (c : NodeId × NodeId) : Res (List S) := do
  let s0 ← getR (ns.stats c.1.1) c.1.2
  let s1 ← getR (ns.stats c.2.1) c.2.2
  let p0 ← getR (ns.list c.1.1) c.1.2
  let p1 ← getR (ns.list c.2.1) c.2.2
  let params ← match s0, s1 with
    | .enter, .exit => pure (p0.2, p1.2)
    | .exit, .enter => pure (p1.2, p0.2)
    | _, _ => .error .err
  if c.1.1 = c.2.1 then trim c.1.1 params else .error .err

/-- One loop turned into a region, clip.rs 348-395. -/
def loopRegion {S C : Type} (trim : Bool → K × K → Res (List S)) (compound : List S → Res C) (ns : Nodes K)
    (nodes : List NodeId) : Res (Option (Region C)) := do
  let spans ← (chunks nodes).mapM (ns.chunkSpans trim)
  if spans.flatten.isEmpty then pure none
  else do
    let c ← compound spans.flatten
    pure (some ⟨c, []⟩)

/-- `while let Some(start) = non_visited(..)`, clip.rs 317-396. Each turn visits a new subject node. -/
def loops {S C : Type} (trim : Bool → K × K → Res (List S)) (compound : List S → Res C) (ns : Nodes K) :
    ℕ → List NodeId → List (Region C) → Res (List (Region C))
  | 0, _, _ => .error .diverge
  | fuel + 1, visited, regions => do
    let s ← nonVisited visited ns
    match s with
    | none => pure regions
    | some start => do
      let (visited, nodes) ← ns.walk (ns.a.length + ns.b.length + 1) visited [] start
      let r ← ns.loopRegion trim compound nodes.reverse
      loops trim compound ns fuel visited (regions ++ r.toList)

end Nodes

/-- `clip`, clip.rs 88-399. `clipContains` and `subjectContains` are the answers of the two containment
    tests. -/
def clip {S C : Type} (deg : Inter K → Degeneracy K) (clipContains subjectContains : Res Bool)
    (trim : Bool → K × K → Res (List S)) (compound : List S → Res C) (subject clip : C) (op : Op)
    (its : List (Inter K)) : Res (List (Region C)) := do
  let its ← select deg its
  let ccs ← clipContains
  let scc ← subjectContains
  if its.isEmpty then containmentTable op subject clip scc ccs
  else
    let ns := build op its scc ccs
    ns.loops trim compound (ns.a.length + 1) [] []

/-! ### Regions -/

section region
variable {C P : Type}

/-- The inner loop of `distribute_interiors_to_regions`, boolean_region.rs 187-200: `i` more interiors to look
    at, from the back. -/
def distributeTo (contains : C → P → Res Bool) (first : C → P) : ℕ → Region C → List C → Res (Region C × List C)
  | 0, r, its => pure (r, its)
  | i + 1, r, its => do
    let it ← getR its i
    let b ← contains r.exterior (first it)
    if b then distributeTo contains first i { r with interiors := r.interiors ++ [it] } (its.eraseIdx i)
    else distributeTo contains first i r its

/-- `distribute_interiors_to_regions`, boolean_region.rs 181-203: the regions and what is left. -/
def distribute (contains : C → P → Res Bool) (first : C → P) : List (Region C) → List C → Res (List (Region C) × List C)
  | [], its => pure ([], its)
  | r :: rs, its => do
    let (r, its) ← distributeTo contains first its.length r its
    let (rs, its) ← distribute contains first rs its
    pure (r :: rs, its)

/-- `into_regions().into_iter().map(into_exterior)`, boolean_region.rs 66-70. -/
def exteriors (rs : List (Region C)) : List C := rs.map (·.exterior)

variable (contains : C → P → Res Bool) (first : C → P) (bool : Op → C → C → Res (List (Region C)))

/-- Region and curve, union, boolean_region.rs 44-77; `bool` is the operation on compound curves. -/
def regionUnion (r : Region C) (other : C) : Res (List (Region C)) := do
  let ext ← bool .union r.exterior other
  match ext with
  | [] => .error .err
  | e :: _ => do
    let ints ← r.interiors.mapM fun i => bool .diff i other
    pure [⟨e.exterior, (ints.map exteriors).flatten⟩]

/-- The loop over the interiors in the difference, boolean_region.rs 122-134. -/
def mergeHoles : List C → C → List C → Res (C × List C)
  | [], cur, ints => pure (cur, ints)
  | i :: is, cur, ints => do
    let u ← bool .union cur i
    match u with
    | [] => mergeHoles is cur ints
    | h :: rest => mergeHoles is h.exterior (ints ++ exteriors rest)

/-- Region and curve, difference, boolean_region.rs 120-144. -/
def regionDiff (r : Region C) (other : C) : Res (List (Region C)) := do
  let (cur, ints) ← mergeHoles bool r.interiors other []
  let rs ← bool .diff r.exterior cur
  let (rs, _) ← distribute contains first rs ints
  pure rs

/-- "difference other and interiors", boolean_region.rs 79-95. -/
def cutHoles : List C → List (Region C) → Res (List (Region C))
  | [], clips => pure clips
  | i :: is, clips => do
    let next ← clips.mapM fun c => do
      let rs ← regionDiff contains first bool c i
      let (rs, _) ← distribute contains first rs c.interiors
      pure rs
    cutHoles is next.flatten

/-- Region and curve, intersection, boolean_region.rs 78-119. -/
def regionInter (r : Region C) (other : C) : Res (List (Region C)) := do
  let clips ← cutHoles contains first bool r.interiors [⟨other, []⟩]
  let rs ← clips.mapM fun c => do
    let rs ← bool .inter r.exterior c.exterior
    let (rs, _) ← distribute contains first rs c.interiors
    pure rs
  pure rs.flatten

/-- Region and curve, boolean_region.rs 37-146. -/
def regionCurve (op : Op) (r : Region C) (other : C) : Res (List (Region C)) :=
  match op with
  | .union => regionUnion bool r other
  | .inter => regionInter contains first bool r other
  | .diff => regionDiff contains first bool r other

/-- The loop over the other region's interiors, boolean_region.rs 163-174. -/
def cutOther (op : Op) : List C → List (Region C) → Res (List (Region C))
  | [], rs => pure rs
  | i :: is, rs =>
    match op with
    | .union | .inter => do
      let next ← rs.mapM fun r => regionCurve contains first bool .diff r i
      cutOther op is next.flatten
    | .diff => cutOther op is rs

/-- Region and region, boolean_region.rs 154-178. -/
def regionRegion (op : Op) (r other : Region C) : Res (List (Region C)) := do
  let rs ← regionCurve contains first bool op r other.exterior
  cutOther contains first bool op other.interiors rs

end region
end Boolean
end Curvo

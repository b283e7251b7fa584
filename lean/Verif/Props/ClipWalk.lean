/-
  C39: crossing boundaries. The walk of `clip` ends, visits every intersection of both curves exactly once,
  and cuts exactly the arcs out of both curves that belong to the boundary of the result.
-/
import Mathlib.Data.List.Perm.Basic
import Mathlib.Tactic.Tauto
import Verif.Lemmas.ClipWalk
import Verif.Props.ClipSets

set_option linter.unusedSectionVars false

namespace Curvo.Props

open Curvo.Boolean

variable {K : Type} [LinearOrder K]

/-! ### The lists are as the walk needs them -/

def pick (b : Bool) : Status := if b then .enter else .exit

theorem pick_invert (b : Bool) : (pick b).invert = pick (!b) := by cases b <;> rfl

def odd (i : ℕ) : Bool := decide (i % 2 = 1)

theorem odd_succ (i : ℕ) : odd (i + 1) = !odd i := by
  unfold odd
  rcases Nat.mod_two_eq_zero_or_one i with h | h
  · have : (i + 1) % 2 = 1 := by omega
    simp [h, this]
  · have : (i + 1) % 2 = 0 := by omega
    simp [h, this]

theorem statuses_length : ∀ (n : ℕ) (fl : Bool), (statuses n fl).length = n
  | 0, _ => rfl
  | n + 1, fl => by rw [statuses, List.length_cons, statuses_length n]

theorem statuses_get : ∀ {n : ℕ} {fl : Bool} {i : ℕ}, i < n → (statuses n fl)[i]? = some (pick (fl ^^ odd i))
  | 0, _, i, h => by omega
  | n + 1, fl, 0, _ => by cases fl <;> rfl
  | n + 1, fl, i + 1, h => by
    rw [statuses, List.getElem?_cons_succ, statuses_get (by omega), odd_succ]
    cases fl <;> cases odd i <;> rfl

theorem order_perm (key : Boolean.Inter K → K) (its : List (Boolean.Inter K)) :
    (order key its).Perm (its.zipIdx.map fun x => (x.2, key x.1)) := List.perm_insertionSort ..

theorem order_length (key : Boolean.Inter K → K) (its : List (Boolean.Inter K)) : (order key its).length = its.length := by
  rw [(order_perm key its).length_eq]; simp

theorem order_index (key : Boolean.Inter K → K) (its : List (Boolean.Inter K)) :
    ((order key its).map (·.1)).Perm (List.range its.length) := by
  refine ((order_perm key its).map _).trans ?_
  rw [List.map_map]
  have : (its.zipIdx.map ((fun x : ℕ × K => x.1) ∘ fun x : Boolean.Inter K × ℕ => (x.2, key x.1))) = List.range its.length := by
    have e : ((fun x : ℕ × K => x.1) ∘ fun x : Boolean.Inter K × ℕ => (x.2, key x.1)) = Prod.snd := rfl
    rw [e, List.zipIdx_map_snd, List.range_eq_range']
  rw [this]

theorem order_keys (key : Boolean.Inter K → K) (its : List (Boolean.Inter K)) :
    ((order key its).map (·.2)).Perm (its.map key) := by
  refine ((order_perm key its).map _).trans ?_
  rw [List.map_map]
  have : (its.zipIdx.map ((fun x : ℕ × K => x.2) ∘ fun x : Boolean.Inter K × ℕ => (x.2, key x.1))) = its.map key := by
    have e : ((fun x : ℕ × K => x.2) ∘ fun x : Boolean.Inter K × ℕ => (x.2, key x.1)) = key ∘ Prod.fst := rfl
    rw [e, ← List.map_map, List.zipIdx_map_fst]
  rw [this]

theorem order_sorted (key : Boolean.Inter K → K) (its : List (Boolean.Inter K)) :
    (order key its).Pairwise fun x y => x.2 ≤ y.2 := by
  have : Std.Total (fun x y : ℕ × K => x.2 ≤ y.2) := ⟨fun x y => le_total x.2 y.2⟩
  have : IsTrans (ℕ × K) (fun x y : ℕ × K => x.2 ≤ y.2) := ⟨fun x y z => le_trans⟩
  exact List.pairwise_insertionSort _ _

/-- Whether the nodes with even position of a list (`true`: the subject's) are entries. -/
def startFlag (op : Op) (scc ccs : Bool) (s : Bool) : Bool :=
  if s then (match op with | .inter => !ccs | _ => ccs) else (match op with | .union => scc | _ => !scc)

theorem build_list (op : Op) (its : List (Boolean.Inter K)) (scc ccs s : Bool) :
    (build op its scc ccs).list s = order (if s then Boolean.Inter.a else Boolean.Inter.b) its := by
  cases s <;> rfl

theorem build_stats (op : Op) (its : List (Boolean.Inter K)) (scc ccs s : Bool) {i : ℕ} (hi : i < its.length) :
    ((build op its scc ccs).stats s)[i]? = some (pick (startFlag op scc ccs s ^^ odd i)) := by
  have ha : (order Boolean.Inter.a its).length = its.length := order_length _ _
  have hb : (order Boolean.Inter.b its).length = its.length := order_length _ _
  cases s
  · cases op
    · show ((statuses (order Boolean.Inter.b its).length (!scc)).map Status.invert)[i]? = _
      rw [hb, List.getElem?_map, statuses_get hi, Option.map_some, pick_invert]
      congr 2
      show (!(!scc ^^ odd i)) = (scc ^^ odd i)
      cases scc <;> cases odd i <;> rfl
    · show (statuses (order Boolean.Inter.b its).length (!scc))[i]? = _
      rw [hb, statuses_get hi]; rfl
    · show (statuses (order Boolean.Inter.b its).length (!scc))[i]? = _
      rw [hb, statuses_get hi]; rfl
  · cases op
    · show ((statuses (order Boolean.Inter.a its).length (!ccs)).map Status.invert)[i]? = _
      rw [ha, List.getElem?_map, statuses_get hi, Option.map_some, pick_invert]
      congr 2
      show (!(!ccs ^^ odd i)) = (ccs ^^ odd i)
      cases ccs <;> cases odd i <;> rfl
    · show (statuses (order Boolean.Inter.a its).length (!ccs))[i]? = _
      rw [ha, statuses_get hi]; rfl
    · show ((statuses (order Boolean.Inter.a its).length (!ccs)).map Status.invert)[i]? = _
      rw [ha, List.getElem?_map, statuses_get hi, Option.map_some, pick_invert]
      congr 2
      show (!(!ccs ^^ odd i)) = (ccs ^^ odd i)
      cases ccs <;> cases odd i <;> rfl

/-- From an entry forward, from an exit backward, on a cycle of `n`. -/
def along (n : ℕ) (fl : Bool → Bool) (x : NodeId) : NodeId :=
  (x.1, if fl x.1 ^^ odd x.2 then (x.2 + 1) % n else (x.2 + n - 1) % n)

theorem along_cases {n : ℕ} (fl : Bool → Bool) (hn : 0 < n) (he : n % 2 = 0) {x : NodeId} (hx : x.2 < n) :
    ((fl x.1 ^^ odd x.2) = true ∧ (fl x.1 ^^ odd (along n fl x).2) = false ∧
      ((x.2 + 1 < n ∧ (along n fl x).2 = x.2 + 1) ∨ (x.2 + 1 = n ∧ (along n fl x).2 = 0))) ∨
    ((fl x.1 ^^ odd x.2) = false ∧ (fl x.1 ^^ odd (along n fl x).2) = true ∧
      ((0 < x.2 ∧ (along n fl x).2 = x.2 - 1) ∨ (x.2 = 0 ∧ (along n fl x).2 = n - 1))) := by
  have hflip : ∀ a b : ℕ, (a + b) % 2 = 1 → ∀ f : Bool, (f ^^ odd b) = !(f ^^ odd a) := by
    intro a b h f
    rcases Nat.mod_two_eq_zero_or_one a with h1 | h1
    · have h2 : b % 2 = 1 := by omega
      simp [odd, h1, h2]
    · have h2 : b % 2 = 0 := by omega
      simp [odd, h1, h2]
  by_cases hf : (fl x.1 ^^ odd x.2) = true
  · refine Or.inl ⟨hf, ?_⟩
    have e : (along n fl x).2 = (x.2 + 1) % n := by rw [along]; simp [hf]
    by_cases h1 : x.2 + 1 = n
    · have e2 : (along n fl x).2 = 0 := by rw [e, h1, Nat.mod_self]
      rw [e2, hflip x.2 0 (by omega), hf]
      exact ⟨rfl, Or.inr ⟨h1, rfl⟩⟩
    · have e2 : (along n fl x).2 = x.2 + 1 := by rw [e, Nat.mod_eq_of_lt (by omega)]
      rw [e2, hflip x.2 (x.2 + 1) (by omega), hf]
      exact ⟨rfl, Or.inl ⟨by omega, rfl⟩⟩
  · have hf : (fl x.1 ^^ odd x.2) = false := by simpa using hf
    refine Or.inr ⟨hf, ?_⟩
    have e : (along n fl x).2 = (x.2 + n - 1) % n := by rw [along]; simp [hf]
    by_cases h1 : x.2 = 0
    · have e2 : (along n fl x).2 = n - 1 := by rw [e, h1, Nat.zero_add, Nat.mod_eq_of_lt (by omega)]
      rw [e2, hflip x.2 (n - 1) (by omega), hf]
      exact ⟨rfl, Or.inr ⟨h1, rfl⟩⟩
    · have e2 : (along n fl x).2 = x.2 - 1 := by
        rw [e, show x.2 + n - 1 = (x.2 - 1) + n by omega, Nat.add_mod_right, Nat.mod_eq_of_lt (by omega)]
      rw [e2, hflip x.2 (x.2 - 1) (by omega), hf]
      exact ⟨rfl, Or.inl ⟨by omega, rfl⟩⟩

theorem along_lt {n : ℕ} (fl : Bool → Bool) (hn : 0 < n) (he : n % 2 = 0) {x : NodeId} (hx : x.2 < n) : (along n fl x).2 < n := by
  rcases along_cases fl hn he hx with ⟨-, -, h | h⟩ | ⟨-, -, h | h⟩ <;> omega

theorem along_along {n : ℕ} (fl : Bool → Bool) (hn : 0 < n) (he : n % 2 = 0) {x : NodeId} (hx : x.2 < n) :
    along n fl (along n fl x) = x := by
  have h1 : (along n fl x).1 = x.1 := rfl
  refine Prod.ext rfl ?_
  rcases along_cases fl hn he hx with ⟨ha, hb, h⟩ | ⟨ha, hb, h⟩ <;>
    rcases along_cases fl hn he (along_lt fl hn he hx) with ⟨hc, hd, h'⟩ | ⟨hc, hd, h'⟩
  · rw [h1, hb] at hc; cases hc
  · omega
  · omega
  · rw [h1, hb] at hc; cases hc

theorem find_index {L : List (ℕ × K)} {n v : ℕ} (hp : (L.map (·.1)).Perm (List.range n)) (hv : v < n) :
    ∃ j, L.findIdx? (fun q => decide (q.1 = v)) = some j ∧ j < n ∧ ∃ p, L[j]? = some p ∧ p.1 = v := by
  have hlen : L.length = n := by simpa using hp.length_eq
  have hmem : v ∈ L.map (·.1) := hp.mem_iff.2 (by simpa using hv)
  obtain ⟨q, hq, hqv⟩ := List.mem_map.1 hmem
  cases hf : L.findIdx? (fun q => decide (q.1 = v)) with
  | none =>
    rw [List.findIdx?_eq_none_iff] at hf
    have := hf q hq
    simp [hqv] at this
  | some j =>
    obtain ⟨hj, hjv, -⟩ := List.findIdx?_eq_some_iff_getElem.1 hf
    exact ⟨j, rfl, by omega, L[j], List.getElem?_eq_getElem hj, by simpa using hjv⟩

theorem index_inj {L : List (ℕ × K)} {n i j : ℕ} {p q : ℕ × K} (hp : (L.map (·.1)).Perm (List.range n))
    (hi : L[i]? = some p) (hj : L[j]? = some q) (e : p.1 = q.1) : i = j := by
  have hnd : (L.map (·.1)).Nodup := hp.nodup_iff.2 List.nodup_range
  have h1 : (L.map (·.1))[i]? = some p.1 := by rw [List.getElem?_map, hi]; rfl
  have h2 : (L.map (·.1))[j]? = some p.1 := by rw [List.getElem?_map, hj, e]; rfl
  have hl : i < (L.map (·.1)).length := by
    by_contra h
    rw [List.getElem?_eq_none (by omega)] at h1
    cases h1
  exact (List.getElem?_inj hl hnd).1 (h1.trans h2.symm)

theorem build_graph (op : Op) {its : List (Boolean.Inter K)} (scc ccs : Bool) (hn : its ≠ []) (he : its.length % 2 = 0) :
    Graph (build op its scc ccs) its.length (along its.length (startFlag op scc ccs))
      (fun x => ((build op its scc ccs).neighbor x).getD x) := by
  have hpos : 0 < its.length := List.length_pos_iff.2 hn
  have hlen : ∀ s, ((build op its scc ccs).list s).length = its.length := by
    intro s; rw [build_list, order_length]
  have hidx : ∀ s, (((build op its scc ccs).list s).map (·.1)).Perm (List.range its.length) := by
    intro s; rw [build_list]; exact order_index _ _
  have hget : ∀ s i, i < its.length → ∃ p, ((build op its scc ccs).list s)[i]? = some p ∧ p.1 < its.length := by
    intro s i hi
    have hi' : i < ((build op its scc ccs).list s).length := by rw [hlen]; exact hi
    refine ⟨_, List.getElem?_eq_getElem hi', ?_⟩
    have : ((build op its scc ccs).list s)[i].1 ∈ (((build op its scc ccs).list s).map (·.1)) :=
      List.mem_map_of_mem (List.getElem_mem _)
    simpa using (hidx s).mem_iff.1 this
  have hnb : ∀ x : NodeId, x.2 < its.length → ∃ j, (build op its scc ccs).neighbor x = some (!x.1, j) ∧ j < its.length ∧
      (build op its scc ccs).neighbor (!x.1, j) = some x := by
    intro x hx
    obtain ⟨p, hp, hpv⟩ := hget x.1 x.2 hx
    obtain ⟨j, hj, hjn, q, hq, hqv⟩ := find_index (hidx (!x.1)) hpv
    refine ⟨j, ?_, hjn, ?_⟩
    · rw [Nodes.neighbor, hp]
      simp only [bind, Option.bind]
      rw [hj]; rfl
    · obtain ⟨k, hk, hkn, r, hr, hrv⟩ := find_index (hidx x.1) (hqv ▸ hpv : q.1 < its.length)
      rw [Nodes.neighbor, hq]
      simp only [bind, Option.bind, Bool.not_not]
      rw [hk]
      have : k = x.2 := index_inj (hidx x.1) hr hp (by rw [hrv, hqv])
      rw [this]; rfl
  have hnb' : ∀ x : NodeId, x.2 < its.length → ∃ j, ((build op its scc ccs).neighbor x).getD x = (!x.1, j) ∧ j < its.length ∧
      ((build op its scc ccs).neighbor (!x.1, j)).getD (!x.1, j) = x := by
    intro x hx
    obtain ⟨j, h1, h2, h3⟩ := hnb x hx
    exact ⟨j, by rw [h1]; rfl, h2, by rw [h3]; rfl⟩
  refine ⟨hpos, hlen true, hlen false, ?_, ?_, fun x hx => along_lt _ hpos he hx, ?_, fun x hx => along_along _ hpos he hx, ?_,
    fun x hx => rfl, ?_, ?_⟩
  · intro x hx
    rw [Nodes.step, getR_ok_iff.2 (build_stats op its scc ccs x.1 hx), ok_bind]
    cases hf : startFlag op scc ccs x.1 ^^ odd x.2 <;> simp [pick, along, hf, Nodes.next, Nodes.prev, hlen] <;> rfl
  · intro x hx
    obtain ⟨j, h1, h2, h3⟩ := hnb x hx
    rw [h1]; rfl
  · intro x hx
    obtain ⟨j, h1, h2, h3⟩ := hnb' x hx
    simp only [h1]; exact h2
  · intro x hx
    obtain ⟨j, h1, h2, h3⟩ := hnb' x hx
    simp only [h1]; exact h3
  · intro x hx
    obtain ⟨j, h1, h2, h3⟩ := hnb' x hx
    simp only [h1]
  · intro x hx e
    have := along_cases (startFlag op scc ccs) hpos he hx
    rw [e] at this
    rcases this with ⟨h1, h2, h⟩ | ⟨h1, h2, h⟩ <;> rw [h1] at h2 <;> cases h2

/-! ### What the loops mean -/

/-- A piece of a loop: on which curve (`true`: the subject), from and to which intersection, whether in the
    direction of the curve, and the parameters of the piece in the direction of the curve. -/
structure Piece (K : Type) where
  curve : Bool
  src : ℕ
  dst : ℕ
  forward : Bool
  params : K × K

/-- The parameter of an intersection on a curve. -/
def keyOf (s : Bool) : Boolean.Inter K → K := if s then Boolean.Inter.a else Boolean.Inter.b

/-- The parameters of a piece are those of its intersections. -/
def Piece.Fits (its : List (Boolean.Inter K)) (p : Piece K) : Prop :=
  ∃ u v, its[p.src]? = some u ∧ its[p.dst]? = some v ∧
    p.params = if p.forward then (keyOf p.curve u, keyOf p.curve v) else (keyOf p.curve v, keyOf p.curve u)

/-- Every piece ends at the intersection where the next one starts on the other curve, cyclically. -/
def Linked (ps : List (Piece K)) : Prop :=
  ∀ i p q, ps[i]? = some p → ps[(i + 1) % ps.length]? = some q → p.dst = q.src ∧ q.curve = !p.curve

/-- The region made of a loop of pieces. -/
def pieceRegion {S C : Type} (trim : Bool → K × K → Res (List S)) (compound : List S → Res C) (ps : List (Piece K)) :
    Res (Option (Region C)) := do
  let spans ← ps.mapM fun p => trim p.curve p.params
  if spans.flatten.isEmpty then pure none
  else do
    let c ← compound spans.flatten
    pure (some ⟨c, []⟩)

/-- The number of crossings before a parameter. -/
def crossed (ts : List K) (t : K) : ℕ := (ts.filter fun x => decide (x < t)).length

/-- Whether a curve is inside the other one at a parameter: at the start it is or is not, then this changes
    at each crossing. -/
def insideAt (start : Bool) (ts : List K) (t : K) : Bool := start ^^ odd (crossed ts t)

/-- Whether the parts of a curve inside the other one belong to the boundary of the result; otherwise those
    outside do. -/
def wantsInside : Op → Bool → Bool
  | .inter, _ => true
  | .union, _ => false
  | .diff, s => !s

/-- The parameters of a trimmed piece: an interval, or the rest of the closed curve (`try_trim_range`). -/
def covers (r : K × K) (t : K) : Bool := if r.1 < r.2 then decide (r.1 < t ∧ t < r.2) else decide (r.1 < t ∨ t < r.2)

/-! ### Arcs of one curve -/

theorem crossed_spec {ts : List K} (hs : ts.Pairwise (· ≤ ·)) {t : K} {i : ℕ} {x : K} (hi : ts[i]? = some x) :
    x < t ↔ i < crossed ts t := by
  induction ts generalizing i with
  | nil => simp at hi
  | cons y ys ih =>
    rw [List.pairwise_cons] at hs
    by_cases hy : y < t
    · have e : crossed (y :: ys) t = crossed ys t + 1 := by simp [crossed, hy]
      cases i with
      | zero =>
        obtain rfl := Option.some.inj hi
        rw [e]; simp [hy]
      | succ i =>
        rw [List.getElem?_cons_succ] at hi
        rw [ih hs.2 hi, e]; omega
    · have e : crossed (y :: ys) t = 0 := by
        have : ∀ z ∈ y :: ys, ¬ z < t := by
          intro z hz
          rcases List.mem_cons.1 hz with rfl | hz
          · exact hy
          · exact fun h => hy ((hs.1 z hz).trans_lt h)
        rw [crossed, List.length_eq_zero_iff, List.filter_eq_nil_iff]
        intro z hz
        simpa using this z hz
      have hmem : x ∈ y :: ys := List.mem_of_getElem? hi
      have : ¬ x < t := by
        rcases List.mem_cons.1 hmem with rfl | hz
        · exact hy
        · exact fun h => hy ((hs.1 x hz).trans_lt h)
      rw [e]
      simpa using this

theorem crossed_le (ts : List K) (t : K) : crossed ts t ≤ ts.length := List.length_filter_le _ _

theorem covers_iff {ts : List K} (hs : ts.Pairwise (· < ·)) (h2 : 2 ≤ ts.length) {t : K} (ht : t ∉ ts) {i : ℕ} {x y : K}
    (hi : ts[i]? = some x) (hy : ts[(i + 1) % ts.length]? = some y) :
    covers (x, y) t = true ↔ i = (crossed ts t + ts.length - 1) % ts.length := by
  have hs' : ts.Pairwise (· ≤ ·) := hs.imp le_of_lt
  have hil : i < ts.length := by
    by_contra h
    rw [List.getElem?_eq_none (by omega)] at hi
    cases hi
  have hxt := crossed_spec hs' (t := t) hi
  have hyt := crossed_spec hs' (t := t) hy
  have hty : t < y ↔ ¬ y < t := by
    have : y ≠ t := fun e => ht (e ▸ List.mem_of_getElem? hy)
    rw [not_lt]
    exact ⟨le_of_lt, fun h => lt_of_le_of_ne h this.symm⟩
  have hcl := crossed_le ts t
  have hmono : ∀ {a b : ℕ} {u v : K}, ts[a]? = some u → ts[b]? = some v → a < b → u < v := by
    intro a b u v ha hb hab
    obtain ⟨ha', rfl⟩ := List.getElem?_eq_some_iff.1 ha
    obtain ⟨hb', rfl⟩ := List.getElem?_eq_some_iff.1 hb
    exact List.pairwise_iff_getElem.1 hs a b ha' hb' hab
  have hidx : (crossed ts t + ts.length - 1) % ts.length = if crossed ts t = 0 then ts.length - 1 else crossed ts t - 1 := by
    by_cases h0 : crossed ts t = 0
    · rw [if_pos h0, h0, Nat.zero_add, Nat.mod_eq_of_lt (by omega)]
    · rw [if_neg h0, show crossed ts t + ts.length - 1 = (crossed ts t - 1) + ts.length by omega, Nat.add_mod_right,
        Nat.mod_eq_of_lt (by omega)]
  rw [hidx]
  by_cases hlast : i + 1 = ts.length
  · have e0 : (i + 1) % ts.length = 0 := by rw [hlast, Nat.mod_self]
    rw [e0] at hy hyt
    have hyx : y < x := hmono hy hi (by omega)
    rw [covers, if_neg (by simpa using hyx.le), decide_eq_true_eq, hty]
    show x < t ∨ _ ↔ _
    rw [hxt, hyt]
    split <;> omega
  · have e0 : (i + 1) % ts.length = i + 1 := Nat.mod_eq_of_lt (by omega)
    rw [e0] at hy hyt
    have hxy : x < y := hmono hi hy (by omega)
    rw [covers, if_pos hxy, decide_eq_true_eq, hty]
    show x < t ∧ _ ↔ _
    rw [hxt, hyt]
    split <;> omega

/-- Of the arcs between neighbouring crossings that start at an entry, exactly those wanted cover a
    parameter. -/
theorem arcs_count {ts : List K} (hs : ts.Pairwise (· < ·)) (h2 : 2 ≤ ts.length) (he : ts.length % 2 = 0) {t : K}
    (ht : t ∉ ts) (op : Op) (scc ccs s : Bool) (d : K) :
    ((List.range ts.length).filter fun i => (startFlag op scc ccs s ^^ odd i) &&
        covers (ts.getD i d, ts.getD ((i + 1) % ts.length) d) t).length =
      if insideAt (if s then ccs else scc) ts t = wantsInside op s then 1 else 0 := by
  have hc := crossed_le ts t
  generalize hj : (crossed ts t + ts.length - 1) % ts.length = j
  have hjl : j < ts.length := by rw [← hj]; exact Nat.mod_lt _ (by omega)
  have hpar : odd j = !odd (crossed ts t) := by
    have : j % 2 = (crossed ts t + 1) % 2 := by
      by_cases h0 : crossed ts t = 0
      · rw [h0, Nat.zero_add, Nat.mod_eq_of_lt (by omega)] at hj
        omega
      · rw [show crossed ts t + ts.length - 1 = (crossed ts t - 1) + ts.length by omega, Nat.add_mod_right,
          Nat.mod_eq_of_lt (by omega)] at hj
        omega
    rw [← odd_succ, odd, odd, this]
  have hcov : ∀ i < ts.length, covers (ts.getD i d, ts.getD ((i + 1) % ts.length) d) t = decide (i = j) := by
    intro i hi
    have hm : (i + 1) % ts.length < ts.length := Nat.mod_lt _ (by omega)
    have h := covers_iff hs h2 ht (i := i) (List.getElem?_eq_getElem hi) (List.getElem?_eq_getElem hm)
    rw [List.getD_eq_getElem?_getD, List.getD_eq_getElem?_getD, List.getElem?_eq_getElem hi, List.getElem?_eq_getElem hm,
      Option.getD_some, Option.getD_some, Bool.eq_iff_iff, h, hj, decide_eq_true_eq]
  have hfil : ((List.range ts.length).filter fun i => (startFlag op scc ccs s ^^ odd i) &&
        covers (ts.getD i d, ts.getD ((i + 1) % ts.length) d) t) =
      (List.range ts.length).filter fun i => (startFlag op scc ccs s ^^ odd j) && decide (i = j) := by
    apply List.filter_congr
    intro i hi
    rw [hcov i (by simpa using hi)]
    by_cases h : i = j
    · rw [h]
    · simp [h]
  rw [hfil]
  have hw : (startFlag op scc ccs s ^^ odd j) = decide (insideAt (if s then ccs else scc) ts t = wantsInside op s) := by
    rw [hpar, insideAt]
    cases op <;> cases s <;> cases scc <;> cases ccs <;> cases odd (crossed ts t) <;> rfl
  rw [hw]
  by_cases h : insideAt (if s then ccs else scc) ts t = wantsInside op s
  · rw [if_pos h]
    simp only [h, decide_true, Bool.true_and]
    have : ((List.range ts.length).filter fun i => decide (i = j)) = [j] := by
      have hnd : ((List.range ts.length).filter fun i => decide (i = j)).Nodup := List.nodup_range.filter _
      apply List.perm_singleton.1
      rw [List.perm_ext_iff_of_nodup hnd (by simp)]
      intro a
      simp only [List.mem_filter, List.mem_range, decide_eq_true_eq, List.mem_singleton]
      constructor
      · exact fun h => h.2
      · rintro rfl; exact ⟨hjl, rfl⟩
    rw [this]; rfl
  · rw [if_neg h]
    simp [h]

/-! ### From nodes to pieces -/

theorem order_mem {key : Boolean.Inter K → K} {its : List (Boolean.Inter K)} {p : ℕ × K} (h : p ∈ order key its) :
    ∃ u, its[p.1]? = some u ∧ key u = p.2 := by
  have := (order_perm key its).mem_iff.1 h
  obtain ⟨⟨u, i⟩, hu, rfl⟩ := List.mem_map.1 this
  exact ⟨u, by simpa using (List.mem_zipIdx_iff_getElem?.1 hu), rfl⟩

/-- The entry of a node. -/
def entryOf (ns : Nodes K) (d : K) (x : NodeId) : ℕ × K := (ns.list x.1).getD x.2 (0, d)

/-- The piece from a node. -/
def pieceOf (ns : Nodes K) (n : ℕ) (fl : Bool → Bool) (d : K) (x : NodeId) : Piece K :=
  let p := entryOf ns d x
  let q := entryOf ns d (along n fl x)
  let fw := fl x.1 ^^ odd x.2
  ⟨x.1, p.1, q.1, fw, if fw then (p.2, q.2) else (q.2, p.2)⟩

/-- The nodes from which the turns start. -/
def firsts (σ ν : NodeId → NodeId) (m : ℕ) (x : NodeId) : List NodeId := (List.range m).map fun i => (turn σ ν)^[i] x

theorem trail_firsts (σ ν : NodeId → NodeId) (x : NodeId) : ∀ m, trail σ ν m x = (firsts σ ν m x).flatMap fun y => [y, σ y]
  | 0 => rfl
  | m + 1 => by
    rw [trail, trail_firsts σ ν x m, firsts, firsts, List.range_succ, List.map_append, List.flatMap_append]
    rfl

theorem chunks_pairs (σ : NodeId → NodeId) : ∀ ys : List NodeId,
    Nodes.chunks (ys.flatMap fun y => [y, σ y]) = ys.map fun y => (y, σ y)
  | [] => rfl
  | y :: ys => by
    rw [List.flatMap_cons, List.map_cons, ← chunks_pairs σ ys]
    rfl

theorem mapM_congr_mem {α β γ : Type} {f : α → Res γ} {h : β → Res γ} {k : α → β} : ∀ {xs : List α},
    (∀ x ∈ xs, f x = h (k x)) → xs.mapM f = (xs.map k).mapM h
  | [], _ => rfl
  | x :: xs, hx => by
    rw [List.map_cons, List.mapM_cons, List.mapM_cons, hx x (by simp), mapM_congr_mem fun y hy => hx y (by simp [hy])]

section pieces
variable {op : Op} {its : List (Boolean.Inter K)} {scc ccs : Bool} (hn : its ≠ []) (he : its.length % 2 = 0) (d : K)

theorem entry_get {x : NodeId} (hx : x.2 < its.length) :
    ((build op its scc ccs).list x.1)[x.2]? = some (entryOf (build op its scc ccs) d x) := by
  have : x.2 < ((build op its scc ccs).list x.1).length := by rw [build_list, order_length]; exact hx
  rw [entryOf, List.getD_eq_getElem?_getD, List.getElem?_eq_getElem this]; rfl

include hn he

theorem chunk_trim {S : Type} (trim : Bool → K × K → Res (List S)) {x : NodeId} (hx : x.2 < its.length) :
    (build op its scc ccs).chunkSpans trim (x, along its.length (startFlag op scc ccs) x) =
      trim (pieceOf (build op its scc ccs) its.length (startFlag op scc ccs) d x).curve
        (pieceOf (build op its scc ccs) its.length (startFlag op scc ccs) d x).params := by
  have hpos : 0 < its.length := List.length_pos_iff.2 hn
  have hx' := along_lt (startFlag op scc ccs) hpos he hx
  have h1 : (along its.length (startFlag op scc ccs) x).1 = x.1 := rfl
  rw [Nodes.chunkSpans]
  simp only
  rw [getR_ok_iff.2 (build_stats op its scc ccs x.1 hx), ok_bind,
    getR_ok_iff.2 (build_stats op its scc ccs (along its.length (startFlag op scc ccs) x).1 hx'), ok_bind,
    getR_ok_iff.2 (entry_get d hx), ok_bind, getR_ok_iff.2 (entry_get d hx'), ok_bind, h1]
  rcases along_cases (startFlag op scc ccs) hpos he hx with ⟨ha, hb, -⟩ | ⟨ha, hb, -⟩
  · rw [ha, hb]; simp [pick, pieceOf, ha]
  · rw [ha, hb]; simp [pick, pieceOf, ha]

theorem piece_fits {x : NodeId} (hx : x.2 < its.length) :
    (pieceOf (build op its scc ccs) its.length (startFlag op scc ccs) d x).Fits its := by
  have hpos : 0 < its.length := List.length_pos_iff.2 hn
  have hx' := along_lt (startFlag op scc ccs) hpos he hx
  have key : ∀ y : NodeId, y.2 < its.length → ∃ u, its[(entryOf (build op its scc ccs) d y).1]? = some u ∧
      keyOf y.1 u = (entryOf (build op its scc ccs) d y).2 := by
    intro y hy
    have := List.mem_of_getElem? (entry_get (op := op) (scc := scc) (ccs := ccs) d hy)
    rw [build_list] at this
    exact order_mem this
  obtain ⟨u, hu, hu'⟩ := key x hx
  obtain ⟨v, hv, hv'⟩ := key _ hx'
  refine ⟨u, v, hu, hv, ?_⟩
  have h1 : keyOf x.1 v = _ := hv'
  simp only [pieceOf]
  rw [hu', h1]
  rfl

theorem neighbor_entry {x y : NodeId} (h : (build op its scc ccs).neighbor x = some y) (hx : x.2 < its.length)
    (hy : y.2 < its.length) : (entryOf (build op its scc ccs) d y).1 = (entryOf (build op its scc ccs) d x).1 ∧ y.1 = !x.1 := by
  rw [Nodes.neighbor, entry_get d hx] at h
  simp only [bind, Option.bind] at h
  split at h
  · cases h
  · rename_i j hj
    obtain rfl := Option.some.inj h
    obtain ⟨hj1, hj2, -⟩ := List.findIdx?_eq_some_iff_getElem.1 hj
    refine ⟨?_, rfl⟩
    have := entry_get (op := op) (scc := scc) (ccs := ccs) d hy
    simp only at this
    rw [List.getElem?_eq_getElem hj1] at this
    rw [← Option.some.inj this]
    simpa using hj2

end pieces

theorem choose_list {α β : Type} {f : β → α} {P : β → Prop} : ∀ {xs : List α}, (∀ x ∈ xs, ∃ y, x = f y ∧ P y) →
    ∃ ys : List β, xs = ys.map f ∧ ∀ y ∈ ys, P y
  | [], _ => ⟨[], rfl, by simp⟩
  | x :: xs, h => by
    obtain ⟨y, e, hy⟩ := h x (by simp)
    obtain ⟨ys, e', hys⟩ := choose_list (f := f) (P := P) fun z hz => h z (List.mem_cons_of_mem _ hz)
    refine ⟨y :: ys, by rw [List.map_cons, e, e'], ?_⟩
    intro z hz
    rcases List.mem_cons.1 hz with rfl | hz
    · exact hy
    · exact hys z hz

theorem flatten_flatMap {α : Type} (g : α → List α) : ∀ yss : List (List α),
    (yss.map fun ys => ys.flatMap g).flatten = yss.flatten.flatMap g
  | [] => rfl
  | ys :: yss => by rw [List.map_cons, List.flatten_cons, flatten_flatMap g yss, List.flatten_cons, List.flatMap_append]

/-- Of a node and its partner, the entry. -/
def enterOf (n : ℕ) (fl : Bool → Bool) (x : NodeId) : NodeId := if fl x.1 ^^ odd x.2 then x else along n fl x

theorem filter_pairs {n : ℕ} {fl : Bool → Bool} (hn : 0 < n) (he : n % 2 = 0) : ∀ {ys : List NodeId}, (∀ y ∈ ys, y.2 < n) →
    ((ys.flatMap fun y => [y, along n fl y]).filter fun x => fl x.1 ^^ odd x.2) = ys.map (enterOf n fl)
  | [], _ => rfl
  | y :: ys, h => by
    rw [List.flatMap_cons, List.filter_append, filter_pairs hn he fun z hz => h z (List.mem_cons_of_mem _ hz), List.map_cons]
    have h1 : (along n fl y).1 = y.1 := rfl
    rcases along_cases fl hn he (h y (by simp)) with ⟨ha, hb, -⟩ | ⟨ha, hb, -⟩
    · simp [enterOf, ha, hb, h1]
    · simp [enterOf, ha, hb, h1]

theorem along_enter {n : ℕ} {fl : Bool → Bool} (hn : 0 < n) (he : n % 2 = 0) {x : NodeId} (hx : x.2 < n) :
    (along n fl (enterOf n fl x)).2 = ((enterOf n fl x).2 + 1) % n := by
  have h1 : (along n fl x).1 = x.1 := rfl
  rcases along_cases fl hn he hx with ⟨ha, hb, -⟩ | ⟨ha, hb, -⟩
  · simp [enterOf, ha, along]
  · rw [enterOf]
    simp only [ha, Bool.false_eq_true, if_false]
    rw [along]
    simp only [h1, hb, if_true]

theorem piece_params {op : Op} {its : List (Boolean.Inter K)} {scc ccs : Bool} (hn : its ≠ []) (he : its.length % 2 = 0) (d : K)
    {x : NodeId} (hx : x.2 < its.length) :
    (pieceOf (build op its scc ccs) its.length (startFlag op scc ccs) d x).params =
      ((((build op its scc ccs).list x.1).map (·.2)).getD (enterOf its.length (startFlag op scc ccs) x).2 d,
       (((build op its scc ccs).list x.1).map (·.2)).getD (((enterOf its.length (startFlag op scc ccs) x).2 + 1) % its.length) d) := by
  have hpos : 0 < its.length := List.length_pos_iff.2 hn
  have hent : ∀ y : NodeId, y.2 < its.length → (((build op its scc ccs).list y.1).map (·.2)).getD y.2 d =
      (entryOf (build op its scc ccs) d y).2 := by
    intro y hy
    rw [List.getD_eq_getElem?_getD, List.getElem?_map, entry_get d hy]; rfl
  have hx' := along_lt (startFlag op scc ccs) hpos he hx
  rw [← along_enter hpos he hx]
  rcases along_cases (startFlag op scc ccs) hpos he hx with ⟨ha, hb, -⟩ | ⟨ha, hb, -⟩
  · have e : enterOf its.length (startFlag op scc ccs) x = x := by simp [enterOf, ha]
    rw [e, hent x hx]
    have := hent _ hx'
    rw [show (along its.length (startFlag op scc ccs) x).1 = x.1 from rfl] at this
    rw [this]
    simp [pieceOf, ha]
  · have e : enterOf its.length (startFlag op scc ccs) x = along its.length (startFlag op scc ccs) x := by simp [enterOf, ha]
    rw [e, along_along _ hpos he hx, hent x hx]
    have := hent _ hx'
    rw [show (along its.length (startFlag op scc ccs) x).1 = x.1 from rfl] at this
    rw [this]
    simp [pieceOf, ha]

/-- Crossing boundaries: `clip` ends without a panic; its loops are closed chains of pieces that change the
    curve at each intersection; every intersection is the end of exactly one piece of each curve; and a
    parameter of one of the curves is covered by exactly one piece if it belongs to the boundary of the result,
    otherwise by none. -/
theorem C39_walk {S C : Type} {deg : Boolean.Inter K → Degeneracy K} {ccs scc : Bool}
    (trim : Bool → K × K → Res (List S)) (compound : List S → Res C) (subject other : C) (op : Op)
    {its0 its : List (Boolean.Inter K)} (hsel : select deg its0 = .ok its) (hn : its ≠ []) :
    ∃ lps : List (List (Piece K)),
      (clip deg (.ok ccs) (.ok scc) trim compound subject other op its0 =
        (lps.mapM (pieceRegion trim compound)).bind fun rs => .ok (rs.map Option.toList).flatten) ∧
      (∀ lp ∈ lps, lp ≠ [] ∧ Linked lp ∧ ∀ p ∈ lp, p.Fits its) ∧
      (lps.flatten.flatMap fun p => [(p.curve, p.src), (p.curve, p.dst)]).Perm (allNodes its.length) ∧
      (∀ (s : Bool) (t : K), (its.map (keyOf s)).Nodup → t ∉ its.map (keyOf s) →
        (lps.flatten.filter fun p => (p.curve == s) && covers p.params t).length =
          if insideAt (if s then ccs else scc) (its.map (keyOf s)) t = wantsInside op s then 1 else 0) := by
  have he : its.length % 2 = 0 := (C38_select hsel).1
  have hpos : 0 < its.length := List.length_pos_iff.2 hn
  obtain ⟨d⟩ : Nonempty K := by
    cases its with
    | nil => exact absurd rfl hn
    | cons i _ => exact ⟨i.a⟩
  have g := build_graph op scc ccs hn he
  have hclip : clip deg (.ok ccs) (.ok scc) trim compound subject other op its0 =
      (build op its scc ccs).loops trim compound ((build op its scc ccs).a.length + 1) [] [] := by
    rw [clip, hsel, ok_bind, ok_bind, ok_bind, if_neg (by simpa using hn)]
  obtain ⟨lps0, h1, h2, h3, h4, h5, h6⟩ := g.all_loops trim compound ((build op its scc ccs).a.length + 1) []
    (by intro x _ h; cases h) (by
      rw [g.lena]
      exact Nat.lt_succ_of_le ((List.length_filter_le _ _).trans (by simp)))
  generalize hσ : along its.length (startFlag op scc ccs) = σ at g h1 h5
  generalize hν : (fun x => ((build op its scc ccs).neighbor x).getD x) = ν at g h1 h5
  obtain ⟨yss, e, hy⟩ := choose_list (f := fun ys : List NodeId => ys.flatMap fun y => [y, σ y])
    (P := fun ys => ∃ m x, 0 < m ∧ x.2 < its.length ∧ ys = firsts σ ν m x ∧ (turn σ ν)^[m] x = x) (xs := lps0) (by
      intro lp hlp
      obtain ⟨m, x, hm, -, hx, rfl, hr⟩ := (h1 lp hlp).ex
      exact ⟨firsts σ ν m x, trail_firsts σ ν x m, m, x, hm, hx, rfl, hr⟩)
  have hval : ∀ ys ∈ yss, ∀ y ∈ ys, y.2 < its.length := by
    intro ys hys y hyy
    obtain ⟨m, x, -, hx, rfl, -⟩ := hy ys hys
    obtain ⟨i, -, rfl⟩ := List.mem_map.1 hyy
    exact g.iter_v hx i
  have hval' : ∀ y ∈ yss.flatten, y.2 < its.length := by
    intro y hyy
    obtain ⟨ys, hys, hyy⟩ := List.mem_flatten.1 hyy
    exact hval ys hys y hyy
  have hnodes : lps0.flatten = yss.flatten.flatMap fun y => [y, σ y] := by rw [e]; exact flatten_flatMap _ _
  have hperm : lps0.flatten.Perm (allNodes its.length) := by
    rw [List.perm_ext_iff_of_nodup h2 (allNodes_nodup _)]
    intro y
    rw [mem_allNodes]
    refine ⟨fun h => (h3 y h).2, fun h => ?_⟩
    obtain ⟨s, i⟩ := y
    cases s
    · have hv := g.νv (false, i) h
      have h1' := g.ν1 (false, i) h
      have hin : ν (false, i) ∈ lps0.flatten := by
        rcases h4 _ hv with h' | h'
        · cases h'
        · have : ν (false, i) = (true, (ν (false, i)).2) := Prod.ext (by simpa using h1') rfl
          rw [this]; exact h'
      have := (h5 _ hv (by simpa using hin)).2
      rw [g.νν _ h] at this
      simpa using this
    · rcases h4 i h with h' | h'
      · cases h'
      · exact h'
  refine ⟨yss.map fun ys => ys.map (pieceOf (build op its scc ccs) its.length (startFlag op scc ccs) d), ?_, ?_, ?_, ?_⟩
  · rw [hclip, h6, e]
    congr 1
    have hreg : ∀ ys ∈ yss, (build op its scc ccs).loopRegion trim compound (ys.flatMap fun y => [y, σ y]) =
        pieceRegion trim compound (ys.map (pieceOf (build op its scc ccs) its.length (startFlag op scc ccs) d)) := by
      intro ys hys
      rw [Nodes.loopRegion, pieceRegion, chunks_pairs]
      congr 1
      rw [← mapM_congr_mem (f := fun y => (build op its scc ccs).chunkSpans trim (y, σ y)) (k := fun y => (y, σ y))
        (h := (build op its scc ccs).chunkSpans trim) (fun _ _ => rfl)]
      apply mapM_congr_mem
      intro y hyy
      rw [← hσ]
      exact chunk_trim hn he d trim (hval ys hys y hyy)
    rw [← mapM_congr_mem (f := fun ys : List NodeId => (build op its scc ccs).loopRegion trim compound (ys.flatMap fun y => [y, σ y]))
      (k := fun ys : List NodeId => ys.flatMap fun y => [y, σ y]) (h := (build op its scc ccs).loopRegion trim compound) (fun _ _ => rfl)]
    exact mapM_congr_mem hreg
  · intro lp hlp
    obtain ⟨ys, hys, rfl⟩ := List.mem_map.1 hlp
    have hv := hval ys hys
    obtain ⟨m, x, hm, hx, rfl, hr⟩ := hy ys hys
    refine ⟨?_, ?_, ?_⟩
    · intro h
      have := congrArg List.length h
      simp [firsts] at this
      omega
    · have hget : ∀ {i p}, ((firsts σ ν m x).map (pieceOf (build op its scc ccs) its.length (startFlag op scc ccs) d))[i]? = some p →
          i < m ∧ p = pieceOf (build op its scc ccs) its.length (startFlag op scc ccs) d ((turn σ ν)^[i] x) := by
        intro i p hp
        rw [List.getElem?_map, firsts, List.getElem?_map] at hp
        by_cases hi : i < m
        · rw [List.getElem?_range hi] at hp
          exact ⟨hi, (Option.some.inj hp).symm⟩
        · rw [List.getElem?_eq_none (by simpa using hi)] at hp
          cases hp
      intro i p q hp hq
      have hlen : ((firsts σ ν m x).map (pieceOf (build op its scc ccs) its.length (startFlag op scc ccs) d)).length = m := by
        simp [firsts]
      rw [hlen] at hq
      obtain ⟨hi, rfl⟩ := hget hp
      obtain ⟨hj, rfl⟩ := hget hq
      have enext : (turn σ ν)^[(i + 1) % m] x = ν (σ ((turn σ ν)^[i] x)) := by
        have : (turn σ ν)^[i + 1] x = ν (σ ((turn σ ν)^[i] x)) := by rw [Function.iterate_succ_apply', turn]
        by_cases hl : i + 1 = m
        · rw [hl, Nat.mod_self, ← this, hl, hr]; rfl
        · rw [Nat.mod_eq_of_lt (by omega), this]
      rw [enext]
      have hxi := g.iter_v hx i
      have hs := g.σv _ hxi
      have := neighbor_entry hn he d (g.nb _ hs) hs (g.νv _ hs)
      refine ⟨?_, ?_⟩
      · show (entryOf (build op its scc ccs) d (along its.length (startFlag op scc ccs) ((turn σ ν)^[i] x))).1 = _
        rw [hσ]
        exact this.1.symm
      · show (ν (σ ((turn σ ν)^[i] x))).1 = !((turn σ ν)^[i] x).1
        rw [this.2, g.σ1 _ hxi]
    · intro p hp
      obtain ⟨y, hyy, rfl⟩ := List.mem_map.1 hp
      exact piece_fits hn he d (hv y hyy)
  · have e1 : (yss.map fun ys => ys.map (pieceOf (build op its scc ccs) its.length (startFlag op scc ccs) d)).flatten =
        yss.flatten.map (pieceOf (build op its scc ccs) its.length (startFlag op scc ccs) d) := by
      rw [List.map_flatten]
    have e2 : ((yss.flatten.map (pieceOf (build op its scc ccs) its.length (startFlag op scc ccs) d)).flatMap
        fun p => [(p.curve, p.src), (p.curve, p.dst)]) =
        (yss.flatten.flatMap fun y => [y, σ y]).map fun x => (x.1, (entryOf (build op its scc ccs) d x).1) := by
      rw [List.flatMap_map, List.map_flatMap]
      apply List.flatMap_congr
      intro y _
      rw [← hσ]; rfl
    rw [e1, e2, ← hnodes]
    refine (hperm.map _).trans ?_
    have key : ∀ s : Bool, ((List.range its.length).map fun i => (s, (entryOf (build op its scc ccs) d (s, i)).1)).Perm
        ((List.range its.length).map fun i => (s, i)) := by
      intro s
      have h1 : ((build op its scc ccs).list s).map (·.1) = (List.range its.length).map fun i => (entryOf (build op its scc ccs) d (s, i)).1 := by
        apply List.ext_getElem?
        intro i
        by_cases hi : i < its.length
        · rw [List.getElem?_map, entry_get (x := (s, i)) d hi, List.getElem?_map, List.getElem?_range hi]; rfl
        · rw [List.getElem?_eq_none (by rw [List.length_map, build_list, order_length]; omega),
            List.getElem?_eq_none (by simpa using hi)]
      have h2 : (((build op its scc ccs).list s).map (·.1)).Perm (List.range its.length) := by
        rw [build_list]; exact order_index _ _
      rw [h1] at h2
      have := h2.map fun i => (s, i)
      rwa [List.map_map] at this
    rw [allNodes, List.map_append, List.map_map, List.map_map]
    exact (key true).append (key false)
  · intro s t hnd ht
    have hkeys : (((build op its scc ccs).list s).map (·.2)).Perm (its.map (keyOf s)) := by
      rw [build_list]; exact order_keys _ _
    have hlen : (((build op its scc ccs).list s).map (·.2)).length = its.length := by simpa using hkeys.length_eq
    have hsort : (((build op its scc ccs).list s).map (·.2)).Pairwise (· < ·) := by
      have h1 : (((build op its scc ccs).list s).map (·.2)).Pairwise (· ≤ ·) := by
        rw [build_list, List.pairwise_map]; exact order_sorted _ _
      have h2 : (((build op its scc ccs).list s).map (·.2)).Nodup := hkeys.nodup_iff.2 hnd
      exact (h1.and h2).imp fun h => lt_of_le_of_ne h.1 h.2
    have hcr : crossed (its.map (keyOf s)) t = crossed (((build op its scc ccs).list s).map (·.2)) t :=
      ((hkeys.filter _).length_eq).symm
    have harcs := arcs_count hsort (by omega) (by omega) (t := t) (fun h => ht (hkeys.mem_iff.1 h)) op scc ccs s d
    rw [hlen] at harcs
    rw [insideAt, hcr]
    rw [insideAt] at harcs
    rw [← harcs, ← List.countP_eq_length_filter, ← List.countP_eq_length_filter]
    generalize hts : ((build op its scc ccs).list s).map (·.2) = ts
    have e1 : (yss.map fun ys => ys.map (pieceOf (build op its scc ccs) its.length (startFlag op scc ccs) d)).flatten =
        yss.flatten.map (pieceOf (build op its scc ccs) its.length (startFlag op scc ccs) d) := by
      rw [List.map_flatten]
    rw [e1, List.countP_map]
    have e2 : yss.flatten.countP ((fun p => p.curve == s && covers p.params t) ∘
          pieceOf (build op its scc ccs) its.length (startFlag op scc ccs) d) =
        (yss.flatten.map (enterOf its.length (startFlag op scc ccs))).countP
          fun x => (x.1 == s) && covers (ts.getD x.2 d, ts.getD ((x.2 + 1) % its.length) d) t := by
      rw [List.countP_map]
      apply List.countP_congr
      intro y hyy
      have hc : (enterOf its.length (startFlag op scc ccs) y).1 = y.1 := by
        rw [enterOf]; split <;> rfl
      simp only [Function.comp, hc]
      rw [piece_params hn he d (hval' y hyy)]
      show ((y.1 == s) && _) = true ↔ _
      by_cases hs : y.1 = s
      · rw [hs, hts]
      · simp [hs]
    rw [e2, ← filter_pairs hpos he hval', hσ, ← hnodes, ((hperm.filter _).countP_eq _)]
    rw [List.countP_filter, allNodes, List.countP_append, List.countP_map, List.countP_map]
    cases s
    · have z : (List.range its.length).countP ((fun a : NodeId => (a.1 == false && covers (ts.getD a.2 d, ts.getD ((a.2 + 1) % its.length) d) t) &&
          (startFlag op scc ccs a.1 ^^ odd a.2)) ∘ fun i => (true, i)) = 0 := by
        rw [List.countP_eq_zero]; intro i _; simp
      rw [z, Nat.zero_add]
      apply List.countP_congr
      intro i _
      simp [and_comm]
    · have z : (List.range its.length).countP ((fun a : NodeId => (a.1 == true && covers (ts.getD a.2 d, ts.getD ((a.2 + 1) % its.length) d) t) &&
          (startFlag op scc ccs a.1 ^^ odd a.2)) ∘ fun i => (false, i)) = 0 := by
        rw [List.countP_eq_zero]; intro i _; simp
      rw [z, Nat.add_zero]
      apply List.countP_congr
      intro i _
      simp [and_comm]

/-- Errors come from trimming and from the construction of curves only. -/
theorem C39_succeeds {S C : Type} {deg : Boolean.Inter K → Degeneracy K} {ccs scc : Bool}
    {trim : Bool → K × K → Res (List S)} {compound : List S → Res C} (subject other : C) (op : Op)
    {its0 its : List (Boolean.Inter K)} (hsel : select deg its0 = .ok its) (hn : its ≠ [])
    (ht : ∀ s r, ∃ xs, trim s r = .ok xs) (hc : ∀ xs, ∃ c, compound xs = .ok c) :
    ∃ rs, clip deg (.ok ccs) (.ok scc) trim compound subject other op its0 = .ok rs := by
  obtain ⟨lps, h, -⟩ := C39_walk (ccs := ccs) (scc := scc) trim compound subject other op hsel hn
  have hreg : ∀ lp ∈ lps, ∃ r, pieceRegion trim compound lp = .ok r := by
    intro lp hlp
    clear hlp
    obtain ⟨spans, hs⟩ : ∃ spans, (lp.mapM fun p => trim p.curve p.params) = .ok spans := by
      induction lp with
      | nil => exact ⟨_, rfl⟩
      | cons p ps ih =>
        obtain ⟨x, hx⟩ := ht p.curve p.params
        obtain ⟨xs, hxs⟩ := ih
        exact ⟨x :: xs, by rw [List.mapM_cons, hx, ok_bind, hxs]; rfl⟩
    rw [pieceRegion, hs, ok_bind]
    split
    · exact ⟨_, rfl⟩
    · obtain ⟨c, hc⟩ := hc spans.flatten
      exact ⟨_, by rw [hc]; rfl⟩
  have : ∃ rs, lps.mapM (pieceRegion trim compound) = .ok rs := by
    clear h
    induction lps with
    | nil => exact ⟨_, rfl⟩
    | cons p ps ih =>
      obtain ⟨x, hx⟩ := hreg p (by simp)
      obtain ⟨xs, hxs⟩ := ih fun q hq => hreg q (List.mem_cons_of_mem _ hq)
      exact ⟨x :: xs, by rw [List.mapM_cons, hx, ok_bind, hxs]; rfl⟩
  obtain ⟨rs, hrs⟩ := this
  exact ⟨_, by rw [h, hrs]; rfl⟩

/-- The regions of crossing boundaries never have holes; a pocket enclosed by the union of two curves is
    returned as a region of its own. -/
theorem C39_no_holes {S C : Type} {deg : Boolean.Inter K → Degeneracy K} {ccs scc : Bool}
    {trim : Bool → K × K → Res (List S)} {compound : List S → Res C} {subject other : C} {op : Op}
    {its0 its : List (Boolean.Inter K)} (hsel : select deg its0 = .ok its) (hn : its ≠ []) {rs : List (Region C)}
    (h : clip deg (.ok ccs) (.ok scc) trim compound subject other op its0 = .ok rs) : ∀ r ∈ rs, r.interiors = [] := by
  obtain ⟨lps, h', -⟩ := C39_walk (ccs := ccs) (scc := scc) trim compound subject other op hsel hn
  rw [h'] at h
  cases hm : lps.mapM (pieceRegion trim compound) with
  | error e => rw [hm] at h; cases h
  | ok os =>
    rw [hm] at h
    obtain rfl := Except.ok.inj h
    intro r hr
    obtain ⟨l, hl, hrl⟩ := List.mem_flatten.1 hr
    obtain ⟨o, ho, rfl⟩ := List.mem_map.1 hl
    have hf := mapM_ok_inv hm
    obtain ⟨lp, -, hlp⟩ : ∃ lp ∈ lps, pieceRegion trim compound lp = .ok o := by
      clear hm h' h hr hl
      induction hf with
      | nil => cases ho
      | cons h1 h2 ih =>
        rcases List.mem_cons.1 ho with rfl | ho
        · exact ⟨_, by simp, h1⟩
        · obtain ⟨lp, h3, h4⟩ := ih ho
          exact ⟨lp, by simp [h3], h4⟩
    rw [pieceRegion] at hlp
    obtain ⟨spans, -, hlp⟩ := bind_eq_ok.1 hlp
    split at hlp
    · obtain rfl := Except.ok.inj hlp
      simp at hrl
    · obtain ⟨c, -, hlp⟩ := bind_eq_ok.1 hlp
      obtain rfl := Except.ok.inj hlp
      obtain rfl : r = ⟨c, []⟩ := by simpa using hrl
      rfl

/-! ### Cases -/

/-- A run that records the trimmed pieces. -/
def traceClip (op : Op) (scc ccs : Bool) (its : List (ℕ × ℕ)) : Res (List (List (Bool × (ℕ × ℕ)))) := do
  let rs ← clip (K := ℕ) (C := List (Bool × (ℕ × ℕ))) (fun _ => .none) (.ok ccs) (.ok scc) (fun s r => .ok [(s, r)]) (fun xs => .ok xs)
    [] [] op (its.map fun x => ⟨x.1, x.2⟩)
  pure (rs.map (·.exterior))

/-- Two squares that overlap at a corner; the walk goes backwards on the second one for the difference. -/
example : traceClip .inter false false [(3, 8), (5, 6)] = .ok [[(true, (3, 5)), (false, (6, 8))]] := by decide +kernel
example : traceClip .union false false [(3, 8), (5, 6)] = .ok [[(true, (5, 3)), (false, (8, 6))]] := by decide +kernel
example : traceClip .diff false false [(3, 8), (5, 6)] = .ok [[(true, (5, 3)), (false, (6, 8))]] := by decide +kernel

/-- Two bars that cross: four intersections, two pieces left. -/
example : traceClip .diff false false [(1, 1), (2, 6), (6, 5), (7, 2)] =
    .ok [[(true, (7, 1)), (false, (1, 2))], [(true, (2, 6)), (false, (5, 6))]] := by decide +kernel

example : ∃ rs, clip (K := ℕ) (fun _ => .none) (.ok false) (.ok false) (fun s r => .ok [(s, r)])
    (fun xs => (.ok xs : Res (List (Bool × (ℕ × ℕ))))) [] [] .diff [⟨1, 1⟩, ⟨2, 6⟩, ⟨6, 5⟩, ⟨7, 2⟩] = .ok rs :=
  C39_succeeds _ _ _ (its := [⟨1, 1⟩, ⟨2, 6⟩, ⟨6, 5⟩, ⟨7, 2⟩]) rfl (by simp) (fun _ _ => ⟨_, rfl⟩) (fun _ => ⟨_, rfl⟩)

/-- Two intersections with the same parameter on the subject (a vertex of the other curve on it, reported
    twice): the piece between them has equal ends, and trimming takes the whole closed curve. -/
theorem C39_equal_parameters :
    traceClip .inter false false [(3, 8), (3, 6)] = .ok [[(true, (3, 3)), (false, (6, 8))]] ∧
      ∀ t : ℕ, t ≠ 3 → covers (3, 3) t = true := by
  refine ⟨by decide +kernel, fun t ht => ?_⟩
  simp only [covers, lt_irrefl, if_false, decide_eq_true_eq]
  omega

end Curvo.Props

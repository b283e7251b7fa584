/-
  The walk of `clip` on an abstract graph: two involutions without fixed points, `σ` along a curve and `ν`
  from one curve to the other.
-/
import Mathlib.Data.List.Perm.Subperm
import Mathlib.Data.List.Nodup
import Mathlib.Logic.Function.Iterate
import Mathlib.Data.List.Range
import Mathlib.Tactic.Tauto
import Verif.Lemmas.Res
import Verif.Model.Boolean

set_option linter.unusedSectionVars false

namespace Curvo

namespace Boolean

variable {K : Type} [LinearOrder K]

/-- The nodes of two lists of length `n`. -/
def allNodes (n : ℕ) : List NodeId := (List.range n).map (fun i => (true, i)) ++ (List.range n).map (fun i => (false, i))

theorem mem_allNodes {n : ℕ} {x : NodeId} : x ∈ allNodes n ↔ x.2 < n := by
  obtain ⟨s, i⟩ := x
  cases s <;> simp [allNodes]

theorem allNodes_length (n : ℕ) : (allNodes n).length = 2 * n := by simp [allNodes]; omega

theorem allNodes_nodup (n : ℕ) : (allNodes n).Nodup := by
  rw [allNodes, List.nodup_append]
  refine ⟨List.Nodup.map (fun a b h => (Prod.mk.inj h).2) List.nodup_range,
    List.Nodup.map (fun a b h => (Prod.mk.inj h).2) List.nodup_range, ?_⟩
  intro a ha b hb e
  subst e
  obtain ⟨i, -, rfl⟩ := List.mem_map.1 ha
  obtain ⟨j, -, h⟩ := List.mem_map.1 hb
  cases h

/-- What the walk needs of the lists. -/
structure Graph (ns : Nodes K) (n : ℕ) (σ ν : NodeId → NodeId) : Prop where
  pos : 0 < n
  lena : ns.a.length = n
  lenb : ns.b.length = n
  step : ∀ x : NodeId, x.2 < n → ns.step x = .ok (σ x)
  nb : ∀ x : NodeId, x.2 < n → ns.neighbor x = some (ν x)
  σv : ∀ x : NodeId, x.2 < n → (σ x).2 < n
  νv : ∀ x : NodeId, x.2 < n → (ν x).2 < n
  σσ : ∀ x : NodeId, x.2 < n → σ (σ x) = x
  νν : ∀ x : NodeId, x.2 < n → ν (ν x) = x
  σ1 : ∀ x : NodeId, x.2 < n → (σ x).1 = x.1
  ν1 : ∀ x : NodeId, x.2 < n → (ν x).1 = !x.1
  σne : ∀ x : NodeId, x.2 < n → σ x ≠ x

/-- Along the curve, then over to the other one. -/
def turn (σ ν : NodeId → NodeId) (x : NodeId) : NodeId := ν (σ x)

/-- The nodes of the first `m` turns from `x`. -/
def trail (σ ν : NodeId → NodeId) : ℕ → NodeId → List NodeId
  | 0, _ => []
  | m + 1, x => trail σ ν m x ++ [(turn σ ν)^[m] x, σ ((turn σ ν)^[m] x)]

section graph
variable {ns : Nodes K} {n : ℕ} {σ ν : NodeId → NodeId} (g : Graph ns n σ ν)
include g

theorem Graph.turn_v {x : NodeId} (hx : x.2 < n) : (turn σ ν x).2 < n := g.νv _ (g.σv _ hx)

theorem Graph.iter_v {x : NodeId} (hx : x.2 < n) : ∀ m, ((turn σ ν)^[m] x).2 < n
  | 0 => hx
  | m + 1 => by rw [Function.iterate_succ_apply']; exact g.turn_v (Graph.iter_v hx m)

theorem mem_trail {x y : NodeId} : ∀ {m : ℕ}, y ∈ trail σ ν m x ↔ ∃ i < m, y = (turn σ ν)^[i] x ∨ y = σ ((turn σ ν)^[i] x)
  | 0 => by simp [trail]
  | m + 1 => by
    rw [trail, List.mem_append, mem_trail]
    constructor
    · rintro (⟨i, hi, h⟩ | h)
      · exact ⟨i, by omega, h⟩
      · exact ⟨m, by omega, by simpa using h⟩
    · rintro ⟨i, hi, h⟩
      by_cases hm : i = m
      · subst hm; exact Or.inr (by simpa using h)
      · exact Or.inl ⟨i, by omega, h⟩

theorem trail_length {x : NodeId} : ∀ m, (trail σ ν m x).length = 2 * m
  | 0 => rfl
  | m + 1 => by rw [trail, List.length_append, trail_length m]; simp; omega

theorem Graph.trail_v {x : NodeId} (hx : x.2 < n) {m : ℕ} {y : NodeId} (hy : y ∈ trail σ ν m x) : y.2 < n := by
  obtain ⟨i, -, rfl | rfl⟩ := (mem_trail g).1 hy
  · exact g.iter_v hx i
  · exact g.σv _ (g.iter_v hx i)

theorem Graph.trail_σ {x : NodeId} (hx : x.2 < n) {m : ℕ} {y : NodeId} (hy : y.2 < n) :
    σ y ∈ trail σ ν m x ↔ y ∈ trail σ ν m x := by
  have key : ∀ y : NodeId, y.2 < n → y ∈ trail σ ν m x → σ y ∈ trail σ ν m x := by
    intro y hy h
    obtain ⟨i, hi, rfl | rfl⟩ := (mem_trail g).1 h
    · exact (mem_trail g).2 ⟨i, hi, Or.inr rfl⟩
    · rw [g.σσ _ (g.iter_v hx i)]; exact (mem_trail g).2 ⟨i, hi, Or.inl rfl⟩
  refine ⟨fun h => ?_, key y hy⟩
  have := key _ (g.σv _ hy) h
  rwa [g.σσ _ hy] at this

theorem Graph.trail_nodup_succ {x : NodeId} (hx : x.2 < n) {m : ℕ} (h : (trail σ ν m x).Nodup)
    (hn : (turn σ ν)^[m] x ∉ trail σ ν m x) : (trail σ ν (m + 1) x).Nodup := by
  rw [trail, List.nodup_append]
  refine ⟨h, by simpa using fun e => g.σne _ (g.iter_v hx m) e.symm, ?_⟩
  intro a ha b hb e
  subst e
  rcases (by simpa using hb : a = _ ∨ a = _) with rfl | rfl
  · exact hn ha
  · exact hn ((g.trail_σ hx (g.iter_v hx m)).1 ha)

theorem Graph.trail_index {x : NodeId} {m i j : ℕ} (h : (trail σ ν m x).Nodup) (hi : i < m) (hj : j < m)
    (e : (turn σ ν)^[i] x = (turn σ ν)^[j] x) : i = j := by
  induction m generalizing i j with
  | zero => omega
  | succ m ih =>
    rw [trail, List.nodup_append] at h
    obtain ⟨h1, -, h3⟩ := h
    by_cases hi' : i = m
    · by_cases hj' : j = m
      · omega
      · exact absurd e.symm (h3 _ ((mem_trail g).2 ⟨j, by omega, Or.inl rfl⟩) _ (by simp [hi']))
    · by_cases hj' : j = m
      · exact absurd e (h3 _ ((mem_trail g).2 ⟨i, by omega, Or.inl rfl⟩) _ (by simp [hj']))
      · exact ih h1 (by omega) (by omega) e

theorem Graph.trail_apart {x : NodeId} {m i j : ℕ} (hx : x.2 < n) (h : (trail σ ν m x).Nodup) (hi : i < m) (hj : j < m) :
    (turn σ ν)^[i] x ≠ σ ((turn σ ν)^[j] x) := by
  induction m generalizing i j with
  | zero => omega
  | succ m ih =>
    intro e
    rw [trail, List.nodup_append] at h
    obtain ⟨h1, h2, h3⟩ := h
    by_cases hi' : i = m
    · by_cases hj' : j = m
      · subst hi'; subst hj'
        exact g.σne _ (g.iter_v hx _) e.symm
      · exact h3 _ ((mem_trail g).2 ⟨j, by omega, Or.inr rfl⟩) _ (by simp [hi']) e.symm
    · by_cases hj' : j = m
      · exact h3 _ ((mem_trail g).2 ⟨i, by omega, Or.inl rfl⟩) _ (by simp [hj']) e
      · exact ih h1 (by omega) (by omega) e

/-- The first node met again is the start. -/
theorem Graph.returns {x : NodeId} (hx : x.2 < n) {m : ℕ} (h : (trail σ ν m x).Nodup)
    (hm : (turn σ ν)^[m] x ∈ trail σ ν m x) : (turn σ ν)^[m] x = x := by
  obtain ⟨i, hi, e⟩ := (mem_trail g).1 hm
  obtain ⟨k, rfl⟩ : ∃ k, m = k + 1 := ⟨m - 1, by omega⟩
  have hk := g.iter_v hx k
  have hi' := g.iter_v hx i
  rw [Function.iterate_succ_apply'] at e ⊢
  rcases e with e | e
  · cases i with
    | zero => exact e
    | succ i =>
      rw [Function.iterate_succ_apply'] at e
      have e1 : σ ((turn σ ν)^[k] x) = σ ((turn σ ν)^[i] x) := by
        have := congrArg ν e
        rwa [turn, turn, g.νν _ (g.σv _ hk), g.νν _ (g.σv _ (g.iter_v hx i))] at this
      have e2 : (turn σ ν)^[k] x = (turn σ ν)^[i] x := by
        have := congrArg σ e1
        rwa [g.σσ _ hk, g.σσ _ (g.iter_v hx i)] at this
      have := g.trail_index h (by omega) (by omega) e2
      omega
  · have e1 : (turn σ ν)^[i + 1] x = σ ((turn σ ν)^[k] x) := by
      rw [Function.iterate_succ_apply', turn, ← e, turn, g.νν _ (g.σv _ hk)]
    by_cases hik : i = k
    · subst hik
      rw [Function.iterate_succ_apply', turn] at e1
      have := g.ν1 _ (g.σv _ hk)
      rw [e1] at this
      simp at this
    · exact absurd e1 (g.trail_apart hx h (by omega) (by omega))

/-- `vis` is a union of loops. -/
def Closed (n : ℕ) (σ ν : NodeId → NodeId) (vis : List NodeId) : Prop :=
  ∀ x : NodeId, x.2 < n → x ∈ vis → σ x ∈ vis ∧ ν x ∈ vis

theorem Graph.outside {vis : List NodeId} (hc : Closed n σ ν vis) {x : NodeId} (hx : x.2 < n) (hn : x ∉ vis) (m : ℕ) :
    (turn σ ν)^[m] x ∉ vis ∧ σ ((turn σ ν)^[m] x) ∉ vis := by
  have key : ∀ y : NodeId, y.2 < n → y ∉ vis → σ y ∉ vis := by
    intro y hy h h'
    have := (hc _ (g.σv _ hy) h').1
    rw [g.σσ _ hy] at this
    exact h this
  have key' : ∀ y : NodeId, y.2 < n → y ∉ vis → ν y ∉ vis := by
    intro y hy h h'
    have := (hc _ (g.νv _ hy) h').2
    rw [g.νν _ hy] at this
    exact h this
  have : (turn σ ν)^[m] x ∉ vis := by
    induction m with
    | zero => exact hn
    | succ m ih =>
      rw [Function.iterate_succ_apply']
      exact key' _ (g.σv _ (g.iter_v hx m)) (key _ (g.iter_v hx m) ih)
  exact ⟨this, key _ (g.iter_v hx m) this⟩

theorem Graph.trail_le {x : NodeId} (hx : x.2 < n) {m : ℕ} (h : (trail σ ν m x).Nodup) : m ≤ n := by
  have := (h.subperm (l₂ := allNodes n) (fun y hy => mem_allNodes.2 (g.trail_v hx hy))).length_le
  rw [trail_length g, allNodes_length] at this
  omega

/-- The walk from a node that is not visited goes once around its loop. -/
theorem Graph.walk_from {vis nodes : List NodeId} (hc : Closed n σ ν vis) {x : NodeId} (hx : x.2 < n) (hn : x ∉ vis) :
    ∀ (fuel k : ℕ), (trail σ ν k x).Nodup → n + 1 ≤ fuel + k → (k = 0 ∨ (turn σ ν)^[0] x ∈ trail σ ν k x) →
      ∃ m, 0 < m ∧ ns.walk fuel ((trail σ ν k x).reverse ++ vis) ((trail σ ν k x).reverse ++ nodes) ((turn σ ν)^[k] x) =
        .ok ((trail σ ν m x).reverse ++ vis, (trail σ ν m x).reverse ++ nodes) ∧ (trail σ ν m x).Nodup ∧
        (turn σ ν)^[m] x = x
  | 0, k, hnd, hf, _ => by
    have := g.trail_le hx hnd
    omega
  | fuel + 1, k, hnd, hf, hk0 => by
    rw [Nodes.walk]
    by_cases hmem : (turn σ ν)^[k] x ∈ trail σ ν k x
    · rw [if_pos (by simp [hmem])]
      refine ⟨k, ?_, rfl, hnd, g.returns hx hnd hmem⟩
      rcases Nat.eq_zero_or_pos k with rfl | h
      · simp [trail] at hmem
      · exact h
    · rw [if_neg (by
        rw [List.mem_append, List.mem_reverse, not_or]
        exact ⟨hmem, (g.outside hc hx hn k).1⟩), g.step _ (g.iter_v hx k), ok_bind, g.nb _ (g.σv _ (g.iter_v hx k))]
      have hnd' := g.trail_nodup_succ hx hnd hmem
      obtain ⟨m, hm, hw, h1, h2⟩ := Graph.walk_from (nodes := nodes) hc hx hn fuel (k + 1) hnd' (by omega)
        (Or.inr ((mem_trail g).2 ⟨0, by omega, Or.inl rfl⟩))
      refine ⟨m, hm, ?_, h1, h2⟩
      rw [← hw, Function.iterate_succ_apply']
      simp [trail, turn]

/-- The loop of `m` turns from `x`. -/
structure IsLoop (n : ℕ) (σ ν : NodeId → NodeId) (lp : List NodeId) : Prop where
  ex : ∃ m x, 0 < m ∧ x.1 = true ∧ x.2 < n ∧ lp = trail σ ν m x ∧ (turn σ ν)^[m] x = x
  nodup : lp.Nodup

theorem Graph.walk {vis : List NodeId} (hc : Closed n σ ν vis) {x : NodeId} (hx : x.2 < n) (h1 : x.1 = true) (hn : x ∉ vis) :
    ∃ lp, ns.walk (ns.a.length + ns.b.length + 1) vis [] x = .ok (lp.reverse ++ vis, lp.reverse) ∧ IsLoop n σ ν lp ∧
      x ∈ lp ∧ (∀ y ∈ lp, y ∉ vis ∧ y.2 < n) ∧ Closed n σ ν (lp.reverse ++ vis) := by
  obtain ⟨m, hm, hw, hnd, hr⟩ := g.walk_from (nodes := []) hc hx hn (ns.a.length + ns.b.length + 1) 0 (by simp [trail])
    (by rw [g.lena, g.lenb]; omega) (Or.inl rfl)
  refine ⟨trail σ ν m x, by simpa [trail] using hw, ⟨⟨m, x, hm, h1, hx, rfl, hr⟩, hnd⟩, (mem_trail g).2 ⟨0, hm, Or.inl rfl⟩, ?_, ?_⟩
  · intro y hy
    refine ⟨?_, g.trail_v hx hy⟩
    obtain ⟨i, -, rfl | rfl⟩ := (mem_trail g).1 hy
    · exact (g.outside hc hx hn i).1
    · exact (g.outside hc hx hn i).2
  · intro y hy hmem
    simp only [List.mem_append, List.mem_reverse] at hmem ⊢
    rcases hmem with h | h
    · refine ⟨Or.inl ((g.trail_σ hx hy).2 h), Or.inl ?_⟩
      obtain ⟨i, hi, rfl | rfl⟩ := (mem_trail g).1 h
      · cases i with
        | zero =>
          obtain ⟨k, rfl⟩ : ∃ k, m = k + 1 := ⟨m - 1, by omega⟩
          refine (mem_trail g).2 ⟨k, by omega, Or.inr ?_⟩
          rw [Function.iterate_succ_apply', turn] at hr
          show ν x = _
          rw [← hr, g.νν _ (g.σv _ (g.iter_v hx k))]
          rw [hr]
        | succ i =>
          refine (mem_trail g).2 ⟨i, by omega, Or.inr ?_⟩
          rw [Function.iterate_succ_apply', turn, g.νν _ (g.σv _ (g.iter_v hx i))]
      · by_cases hi' : i + 1 < m
        · exact (mem_trail g).2 ⟨i + 1, hi', Or.inl (by rw [Function.iterate_succ_apply', turn])⟩
        · obtain rfl : m = i + 1 := by omega
          refine (mem_trail g).2 ⟨0, by omega, Or.inl ?_⟩
          rw [Function.iterate_succ_apply', turn] at hr
          exact hr
    · exact ⟨Or.inr (hc y hy h).1, Or.inr (hc y hy h).2⟩

/-! ### The search for a start -/

theorem Graph.search_go {vis : List NodeId} : ∀ (fuel p : ℕ), p < n → n + 1 ≤ fuel + p → (∀ i ≤ p, (true, i) ∈ vis) →
    ∃ o, Nodes.nonVisitedGo vis ns (true, 0) fuel (true, p) = .ok o ∧
      ((o = none ∧ ∀ i < n, (true, i) ∈ vis) ∨ ∃ i < n, o = some (true, i) ∧ (true, i) ∉ vis)
  | 0, p, hp, hf, _ => by omega
  | fuel + 1, p, hp, hf, hv => by
    rw [Nodes.nonVisitedGo]
    have hnext : ns.next (true, p) = (true, (p + 1) % n) := by
      rw [Nodes.next]; simp [Nodes.list, g.lena]
    rw [hnext]
    by_cases hlast : p + 1 = n
    · have : (p + 1) % n = 0 := by rw [hlast]; exact Nat.mod_self n
      rw [this]
      refine ⟨none, ?_, Or.inl ⟨rfl, fun i hi => hv i (by omega)⟩⟩
      simp [hv 0 (by omega)]
    · have hmod : (p + 1) % n = p + 1 := Nat.mod_eq_of_lt (by omega)
      rw [hmod]
      by_cases hin : ((true, p + 1) : NodeId) ∈ vis
      · simp only [hin, not_true, or_false, Prod.mk.injEq, true_and]
        rw [if_neg (by omega)]
        exact Graph.search_go fuel (p + 1) (by omega) (by omega) (fun i hi => by
          by_cases h : i = p + 1
          · subst h; exact hin
          · exact hv i (by omega))
      · refine ⟨some (true, p + 1), ?_, Or.inr ⟨p + 1, by omega, rfl, hin⟩⟩
        simp [hin]

theorem Graph.search (vis : List NodeId) : ∃ o, Nodes.nonVisited vis ns = .ok o ∧
    ((o = none ∧ ∀ i < n, (true, i) ∈ vis) ∨ ∃ i < n, o = some (true, i) ∧ (true, i) ∉ vis) := by
  rw [Nodes.nonVisited]
  by_cases h : ((true, 0) : NodeId) ∈ vis
  · simp only [h, if_true]
    exact g.search_go _ 0 g.pos (by rw [g.lena]) (fun i hi => by
      obtain rfl : i = 0 := by omega
      exact h)
  · simp only [h, if_false]
    exact ⟨_, rfl, Or.inr ⟨0, g.pos, rfl, h⟩⟩

/-! ### All loops -/

theorem Graph.all_loops {S C : Type} (trim : Bool → K × K → Res (List S)) (compound : List S → Res C) :
    ∀ (fuel : ℕ) (vis : List NodeId), Closed n σ ν vis →
      ((List.range n).filter fun i => decide ((true, i) ∉ vis)).length < fuel →
      ∃ lps : List (List NodeId), (∀ lp ∈ lps, IsLoop n σ ν lp) ∧ lps.flatten.Nodup ∧
        (∀ y ∈ lps.flatten, y ∉ vis ∧ y.2 < n) ∧ (∀ i < n, (true, i) ∈ vis ∨ (true, i) ∈ lps.flatten) ∧
        Closed n σ ν (lps.flatten ++ vis) ∧
        ∀ regions : List (Region C), ns.loops trim compound fuel vis regions =
          (lps.mapM (ns.loopRegion trim compound)).bind fun rs => .ok (regions ++ (rs.map Option.toList).flatten)
  | 0, vis, _, hf => by omega
  | fuel + 1, vis, hc, hf => by
    obtain ⟨o, ho, h⟩ := g.search vis
    rcases h with ⟨rfl, hall⟩ | ⟨i, hi, rfl, hin⟩
    · exact ⟨[], by simp, by simp, by simp, fun i hi => Or.inl (hall i hi), by simpa using hc, fun regions => by
        rw [Nodes.loops, ho, ok_bind]; simp [pure, Except.pure, Except.bind]⟩
    · obtain ⟨lp, hw, hloop, hmem, hout, hc'⟩ := g.walk hc (x := (true, i)) hi rfl hin
      obtain ⟨lps, h1, h2, h3, h4, h5, h6⟩ := Graph.all_loops trim compound fuel (lp.reverse ++ vis) hc' (by
        have hlt : ((List.range n).filter fun j => decide ((true, j) ∉ lp.reverse ++ vis)).length <
            ((List.range n).filter fun j => decide ((true, j) ∉ vis)).length := by
          have hsub : ((List.range n).filter fun j => decide ((true, j) ∉ lp.reverse ++ vis)).Sublist
              ((List.range n).filter fun j => decide ((true, j) ∉ vis)) := by
            apply List.monotone_filter_right
            intro j hj
            simp only [List.mem_append, List.mem_reverse, not_or, decide_eq_true_eq] at hj ⊢
            exact hj.2
          refine lt_of_le_of_ne hsub.length_le (fun e => ?_)
          have := hsub.eq_of_length e
          have hi' : i ∈ (List.range n).filter fun j => decide ((true, j) ∉ vis) := by
            simpa using ⟨hi, hin⟩
          rw [← this] at hi'
          simp [hmem] at hi'
        omega)
      refine ⟨lp :: lps, ?_, ?_, ?_, ?_, ?_, ?_⟩
      · intro l hl
        rcases List.mem_cons.1 hl with rfl | hl
        · exact hloop
        · exact h1 l hl
      · rw [List.flatten_cons, List.nodup_append]
        refine ⟨hloop.nodup, h2, ?_⟩
        intro a ha b hb e
        subst e
        exact (h3 a hb).1 (by simp [ha])
      · intro y hy
        rw [List.flatten_cons, List.mem_append] at hy
        rcases hy with hy | hy
        · exact hout y hy
        · have := h3 y hy
          exact ⟨fun h => this.1 (by simp [h]), this.2⟩
      · intro j hj
        rcases h4 j hj with h | h
        · rw [List.mem_append, List.mem_reverse] at h
          rcases h with h | h
          · exact Or.inr (by simp [h])
          · exact Or.inl h
        · exact Or.inr (by rw [List.flatten_cons, List.mem_append]; exact Or.inr h)
      · intro y hy hmem
        have hiff : ∀ z, z ∈ (lp :: lps).flatten ++ vis ↔ z ∈ lps.flatten ++ (lp.reverse ++ vis) := by
          intro z
          simp only [List.flatten_cons, List.mem_append, List.mem_reverse]
          rw [or_assoc, or_left_comm]
        rw [hiff] at hmem ⊢
        rw [hiff]
        exact h5 y hy hmem
      · intro regions
        rw [Nodes.loops, ho, ok_bind]
        simp only [hw, ok_bind, List.reverse_reverse, List.mapM_cons]
        cases hr : ns.loopRegion trim compound lp with
        | error e => rfl
        | ok r =>
          rw [ok_bind, h6, ok_bind]
          cases hm : lps.mapM (ns.loopRegion trim compound) with
          | error e => rfl
          | ok rs => simp [Except.bind, bind, pure, Except.pure]

end graph
end Boolean
end Curvo

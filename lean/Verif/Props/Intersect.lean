/-
  Property theorems about the reported intersections: C62.
-/
import Mathlib.Data.List.Chain
import Mathlib.Logic.Relation
import Mathlib.Data.List.Sort
import Verif.Model.Intersect
import Verif.Props.TraverseParams

set_option linter.unusedSectionVars false

namespace Curvo.Props

open Curvo Curvo.Curve Curvo.Spec Curvo.Intersect

variable {K : Type} [Field K] [LinearOrder K] [IsStrictOrderedRing K] {d : ℕ} {H : Type}

/-! ### Specification -/

/-- Two elements joined by a chain of elements satisfying `P`, neighbours being `near` each other. -/
def ChainTo (near : H → H → Prop) (P : H → Prop) (x y : H) : Prop :=
  Relation.ReflTransGen (fun x y => P x ∧ P y ∧ (near x y ∨ near y x)) x y

/-- What the grouping promises: `hits` are cut into runs of consecutive (by key) elements, every element of
    a run being near the one before it, the last element of a run not near the first of the next one, and
    `out` has exactly one element for each run, one of those with the smallest residual. -/
structure Grouped (key residual : H → K) (near : H → H → Bool) (hits out : List H) (runs : List (List H)) : Prop where
  perm : runs.flatten.Perm hits
  sorted : runs.flatten.Pairwise (fun x y => key x ≤ key y)
  chain : ∀ r ∈ runs, r ≠ [] ∧ r.IsChain (fun x y => near x y = true)
  breaks : runs.IsChain (fun r s => ∀ x ∈ r.getLast?, ∀ y ∈ s.head?, near x y = false)
  chosen : List.Forall₂ (fun r h => h ∈ r ∧ ∀ x ∈ r, residual h ≤ residual x) runs out

/-! ### Lemmas -/

theorem coalesce_spec (near : H → H → Bool) : ∀ (t cur : List H), cur ≠ [] →
    cur.IsChain (fun x y => near x y = true) → ∃ gs, coalesce near cur t = .ok gs ∧ gs.flatten = cur ++ t ∧
      (∀ g ∈ gs, g ≠ [] ∧ g.IsChain (fun x y => near x y = true)) ∧
      gs.IsChain (fun r s => ∀ x ∈ r.getLast?, ∀ y ∈ s.head?, near x y = false) ∧
      (∃ g rest, gs = g :: rest ∧ cur <+: g)
  | [], cur, hne, hc => ⟨[cur], rfl, by simp, by simpa using ⟨hne, hc⟩, by simp, cur, [], rfl, List.prefix_rfl⟩
  | h :: t, cur, hne, hc => by
    have hl : cur.length ≠ 0 := by simpa using hne
    have e1 : subR cur.length 1 = .ok (cur.length - 1) := by rw [subR, if_pos (by omega)]
    have e2 : getR cur (cur.length - 1) = .ok (cur.getLast hne) := by
      rw [getR_ok_iff, List.getLast_eq_getElem]
      exact List.getElem?_eq_getElem _
    by_cases hn : near (cur.getLast hne) h = true
    · obtain ⟨gs, e, h1, h2, h3, g, rest, h4, h5⟩ := coalesce_spec near t (cur ++ [h]) (by simp) (by
        rw [List.isChain_append]
        refine ⟨hc, by simp, ?_⟩
        intro x hx y hy
        rw [List.getLast?_eq_getLast_of_ne_nil hne] at hx
        simp at hx hy
        subst hx; subst hy
        exact hn)
      refine ⟨gs, ?_, by simpa using h1, h2, h3, g, rest, h4, (List.prefix_append _ _).trans h5⟩
      rw [coalesce, e1, ok_bind, e2, ok_bind, if_pos hn]
      exact e
    · obtain ⟨gs, e, h1, h2, h3, g, rest, h4, h5⟩ := coalesce_spec near t [h] (by simp) (by simp)
      refine ⟨cur :: gs, ?_, by simpa using h1, ?_, ?_, cur, gs, rfl, List.prefix_rfl⟩
      · rw [coalesce, e1, ok_bind, e2, ok_bind, if_neg hn]
        show (coalesce near [h] t >>= _) = _
        rw [e]; rfl
      · intro g hg
        rcases List.mem_cons.1 hg with rfl | hg
        · exact ⟨hne, hc⟩
        · exact h2 g hg
      · subst h4
        rw [List.isChain_cons_cons]
        refine ⟨?_, h3⟩
        intro x hx y hy
        rw [List.getLast?_eq_getLast_of_ne_nil hne] at hx
        obtain ⟨k, hk⟩ := h5
        subst hk
        simp at hx hy
        subst hx; subst hy
        simpa using hn

theorem groups_spec (near : H → H → Bool) (l : List H) : ∃ gs, groups near l = .ok gs ∧ gs.flatten = l ∧
    (∀ g ∈ gs, g ≠ [] ∧ g.IsChain (fun x y => near x y = true)) ∧
    gs.IsChain (fun r s => ∀ x ∈ r.getLast?, ∀ y ∈ s.head?, near x y = false) := by
  cases l with
  | nil => exact ⟨[], rfl, rfl, by simp, by simp⟩
  | cons h t =>
    obtain ⟨gs, e, h1, h2, h3, _⟩ := coalesce_spec near t [h] (by simp) (by simp)
    exact ⟨gs, e, by simpa using h1, h2, h3⟩

theorem minBy_least {α : Type} : ∀ (l : List (K × α)) (best : K × α),
    (Compound.minBy best l = best ∨ Compound.minBy best l ∈ l) ∧ (Compound.minBy best l).1 ≤ best.1 ∧
      ∀ x ∈ l, (Compound.minBy best l).1 ≤ x.1
  | [], best => ⟨Or.inl rfl, le_rfl, by simp⟩
  | x :: l, best => by
    obtain ⟨h1, h2, h3⟩ := minBy_least l (if x.1 < best.1 then x else best)
    rw [Compound.minBy]
    by_cases hx : x.1 < best.1
    · rw [if_pos hx] at h1 h2 h3 ⊢
      refine ⟨Or.inr ?_, h2.trans hx.le, ?_⟩
      · rcases h1 with h1 | h1
        · rw [h1]; simp
        · exact List.mem_cons_of_mem _ h1
      · intro y hy
        rcases List.mem_cons.1 hy with rfl | hy
        · exact h2
        · exact h3 y hy
    · rw [if_neg hx] at h1 h2 h3 ⊢
      refine ⟨h1.imp_right (List.mem_cons_of_mem _), h2, ?_⟩
      intro y hy
      rcases List.mem_cons.1 hy with rfl | hy
      · exact h2.trans (not_lt.1 hx)
      · exact h3 y hy

theorem pick_spec (residual : H → K) {l : List H} (hne : l ≠ []) :
    ∃ h, pick residual l = some h ∧ h ∈ l ∧ ∀ x ∈ l, residual h ≤ residual x := by
  match l, hne with
  | [h], _ => exact ⟨h, rfl, by simp, by simp⟩
  | h :: k :: t, _ =>
    obtain ⟨h1, h2, h3⟩ := minBy_least ((k :: t).map fun x => (residual x, x)) (residual h, h)
    have hres : (Compound.minBy (residual h, h) ((k :: t).map fun x => (residual x, x))).1 =
        residual (Compound.minBy (residual h, h) ((k :: t).map fun x => (residual x, x))).2 := by
      rcases h1 with h1 | h1
      · rw [h1]
      · obtain ⟨x, _, hx⟩ := List.mem_map.1 h1
        rw [← hx]
    refine ⟨_, rfl, ?_, ?_⟩
    · rcases h1 with h1 | h1
      · rw [h1]; simp
      · obtain ⟨x, hx, he⟩ := List.mem_map.1 h1
        rw [← he]; exact List.mem_cons_of_mem _ hx
    · intro x hx
      rw [← hres]
      rcases List.mem_cons.1 hx with rfl | hx
      · exact h2
      · exact h3 _ (List.mem_map_of_mem hx)

theorem filterMap_pick (residual : H → K) : ∀ (gs : List (List H)), (∀ g ∈ gs, g ≠ []) →
    List.Forall₂ (fun r h => h ∈ r ∧ ∀ x ∈ r, residual h ≤ residual x) gs (gs.filterMap (pick residual))
  | [], _ => List.Forall₂.nil
  | g :: gs, h => by
    obtain ⟨p, e, h1, h2⟩ := pick_spec residual (h g (by simp))
    rw [List.filterMap_cons_some e]
    exact .cons ⟨h1, h2⟩ (filterMap_pick residual gs fun g hg => h g (List.mem_cons_of_mem _ hg))

/-- Sorting, grouping and choosing never fail and do what `Grouped` says. -/
theorem C62_grouped (key residual : H → K) (near : H → H → Bool) (hits : List H) :
    ∃ out runs, post key residual near hits = .ok out ∧ Grouped key residual near hits out runs := by
  obtain ⟨gs, e, h1, h2, h3⟩ := groups_spec near (hits.mergeSort (fun x y => decide (key x ≤ key y)))
  refine ⟨gs.filterMap (pick residual), gs, ?_, ?_, ?_, h2, h3, filterMap_pick residual gs fun g hg => (h2 g hg).1⟩
  · rw [post, e]; rfl
  · rw [h1]; exact List.mergeSort_perm _ _
  · rw [h1]
    refine (List.pairwise_mergeSort ?_ ?_ hits).imp ?_
    · intro x y z; simp only [decide_eq_true_eq]; exact le_trans
    · intro x y; simp only [Bool.or_eq_true, decide_eq_true_eq]; exact le_total _ _
    · intro x y h; simpa using h

/-! ### What follows for the user -/

section grouped
variable {key residual : H → K} {near : H → H → Bool} {hits out : List H} {runs : List (List H)}

theorem Grouped.mem (g : Grouped key residual near hits out runs) {h : H} (hh : h ∈ out) : h ∈ hits := by
  have : ∀ (runs : List (List H)) (out : List H),
      List.Forall₂ (fun r h => h ∈ r ∧ ∀ x ∈ r, residual h ≤ residual x) runs out → ∀ h ∈ out, h ∈ runs.flatten := by
    intro runs out hf
    induction hf with
    | nil => simp
    | cons hr _ ih =>
      intro h hm
      rcases List.mem_cons.1 hm with rfl | hm
      · simp [hr.1]
      · simp only [List.flatten_cons, List.mem_append]; exact Or.inr (ih h hm)
  exact g.perm.mem_iff.1 (this _ _ g.chosen h hh)

theorem Grouped.count (g : Grouped key residual near hits out runs) : out.length = runs.length :=
  g.chosen.length_eq.symm

theorem Grouped.nonempty (g : Grouped key residual near hits out runs) : out = [] ↔ hits = [] := by
  constructor
  · intro h
    have hr : runs = [] := by
      have := g.count
      rw [h] at this
      exact List.eq_nil_of_length_eq_zero this.symm
    have := g.perm
    rw [hr] at this
    exact List.Perm.nil_eq this |>.symm
  · intro h
    have hp := g.perm
    rw [h] at hp
    have hr : runs = [] := by
      cases hc : runs with
      | nil => rfl
      | cons r rs =>
        exfalso
        have h1 := (g.chain r (by simp [hc])).1
        rw [hc, List.flatten_cons] at hp
        have := hp.length_eq
        simp at this
        exact h1 this.1
    have := g.count
    rw [hr] at this
    exact List.eq_nil_of_length_eq_zero this

theorem joined_of_chain {near : H → H → Bool} {hits : List H} : ∀ (r : List H),
    r.IsChain (fun x y => near x y = true) → (∀ x ∈ r, x ∈ hits) →
    ∀ x ∈ r, ∀ y ∈ r, ChainTo (fun x y => near x y = true) (· ∈ hits) x y := by
  have sym : ∀ {x y : H}, ChainTo (fun x y => near x y = true) (· ∈ hits) x y → ChainTo (fun x y => near x y = true) (· ∈ hits) y x := by
    intro x y h
    induction h with
    | refl => exact .refl
    | tail _ hs ih => exact Relation.ReflTransGen.head ⟨hs.2.1, hs.1, hs.2.2.symm⟩ ih
  intro r
  induction r with
  | nil => simp
  | cons a r ih =>
    intro hc hm
    have hx : ∀ x ∈ r, ChainTo (fun x y => near x y = true) (· ∈ hits) a x := by
      intro x hx
      cases r with
      | nil => simp at hx
      | cons b r =>
        rw [List.isChain_cons_cons] at hc
        exact Relation.ReflTransGen.head ⟨hm a (by simp), hm b (by simp), Or.inl hc.1⟩
          (ih hc.2 (fun x hx => hm x (List.mem_cons_of_mem _ hx)) b (by simp) x hx)
    intro x hx' y hy
    rcases List.mem_cons.1 hx' with rfl | hxr
    · rcases List.mem_cons.1 hy with rfl | hyr
      · exact .refl
      · exact hx y hyr
    · rcases List.mem_cons.1 hy with rfl | hyr
      · exact sym (hx x hxr)
      · exact ih hc.tail (fun x hx => hm x (List.mem_cons_of_mem _ hx)) x hxr y hyr

/-- Every accepted candidate is represented by a reported one that is at least as close. -/
theorem Grouped.represented (g : Grouped key residual near hits out runs) {x : H} (hx : x ∈ hits) :
    ∃ h ∈ out, ChainTo (fun x y => near x y = true) (· ∈ hits) x h ∧ residual h ≤ residual x := by
  have hm : x ∈ runs.flatten := g.perm.mem_iff.2 hx
  obtain ⟨r, hr, hxr⟩ := List.mem_flatten.1 hm
  obtain ⟨h, hh, h1, h2⟩ : ∃ h ∈ out, h ∈ r ∧ ∀ x ∈ r, residual h ≤ residual x := by
    obtain ⟨i, hi, rfl⟩ := List.getElem_of_mem hr
    have hi' : i < out.length := by rw [g.count]; exact hi
    exact ⟨out[i], List.getElem_mem _, (List.forall₂_iff_get.1 g.chosen).2 i hi hi'⟩
  refine ⟨h, hh, ?_, h2 x hxr⟩
  exact joined_of_chain r (g.chain r hr).2 (fun y hy => g.perm.mem_iff.1 (List.mem_flatten.2 ⟨r, hr, hy⟩)) x hxr h h1

/-- The reported ones are sorted by key, and any two of them are as far apart in key as two elements that
    are not near. -/
theorem Grouped.separated (g : Grouped key residual near hits out runs) {δ : K}
    (hn : ∀ x y, near x y = false → δ ≤ |key x - key y|) : out.Pairwise (fun x y => key x + δ ≤ key y) := by
  obtain ⟨hperm, hs, hc, hb, hch⟩ := g
  clear hperm
  induction hch with
  | nil => simp
  | @cons r h runs out hp hf ih =>
    rw [List.flatten_cons, List.pairwise_append] at hs
    refine List.pairwise_cons.2 ⟨?_, ih hs.2.1 (fun r hr => hc r (List.mem_cons_of_mem _ hr)) hb.tail⟩
    intro y hy
    have hout : ∀ (runs : List (List H)) (out : List H),
        List.Forall₂ (fun r h => h ∈ r ∧ ∀ x ∈ r, residual h ≤ residual x) runs out → ∀ h ∈ out, h ∈ runs.flatten := by
      intro runs out hf
      induction hf with
      | nil => simp
      | cons hr _ ih =>
        intro h hm
        rcases List.mem_cons.1 hm with rfl | hm
        · simp [hr.1]
        · simp only [List.flatten_cons, List.mem_append]; exact Or.inr (ih h hm)
    have hy := hout _ _ hf y hy
    obtain ⟨hrne, _⟩ := hc r (by simp)
    cases runs with
    | nil => simp at hy
    | cons s rest =>
      obtain ⟨hsne, _⟩ := hc s (by simp)
      obtain ⟨y0, s', rfl⟩ := List.exists_cons_of_ne_nil hsne
      have hb0 := (List.isChain_cons_cons.1 hb).1 (r.getLast hrne) (by rw [List.getLast?_eq_getLast_of_ne_nil hrne]; rfl)
        y0 (by simp)
      have k1 := hn _ _ hb0
      have k2 : key (r.getLast hrne) ≤ key y0 := hs.2.2 _ (List.getLast_mem _) _ (by simp)
      have k3 : key y0 ≤ key y := by
        have h2 := hs.2.1
        simp only [List.flatten_cons, List.cons_append, List.mem_cons] at hy h2
        rcases hy with rfl | hy
        · exact le_rfl
        · exact (List.pairwise_cons.1 h2).1 y hy
      have k4 : key h ≤ key (r.getLast hrne) := by
        have h1 := hs.1
        rw [← List.dropLast_append_getLast hrne] at h1
        have hm := hp.1
        rw [← List.dropLast_append_getLast hrne] at hm
        rcases List.mem_append.1 hm with hm | hm
        · exact (List.pairwise_append.1 h1).2.2 h hm _ (by simp)
        · rw [List.mem_singleton.1 hm]
      rw [abs_sub_comm, abs_of_nonneg (by linarith)] at k1
      linarith

/-- An accepted candidate that no other one is near to is reported. -/
theorem Grouped.isolated (g : Grouped key residual near hits out runs) {x : H} (hx : x ∈ hits)
    (hi : ∀ y ∈ hits, near x y = true ∨ near y x = true → y = x) : x ∈ out := by
  obtain ⟨h, hh, hl, hle⟩ := g.represented hx
  have : h = x := by
    clear hh hle
    induction hl with
    | refl => rfl
    | tail _ hs ih => subst ih; exact hi _ hs.2.1 hs.2.2
  exact this ▸ hh

end grouped

/-- What is promised about the reported intersections `out`, given which candidates were accepted (`Acc`), the
    parameter they are sorted by, which candidates are close, and the residual. -/
structure Report (key : H → K) (Close : H → H → Prop) (residual : H → K) (Acc : H → Prop) (out : List H) : Prop where
  /-- only accepted candidates are reported -/
  sound : ∀ h ∈ out, Acc h
  /-- in increasing order of the parameter, any two differing by at least a thousandth -/
  sorted : out.Pairwise fun x y => key x + 1 / 1000 ≤ key y
  /-- every accepted candidate is joined, by accepted candidates close to each other, to a reported one that is
      at least as good -/
  complete : ∀ h, Acc h → ∃ r ∈ out, ChainTo Close Acc h r ∧ residual r ≤ residual h
  /-- a candidate that is close to no other one is reported itself -/
  isolated : ∀ h, Acc h → (∀ x, Acc x → Close h x → x = h) → h ∈ out
  /-- nothing is reported only if nothing was accepted -/
  nonempty : out = [] ↔ ∀ h, ¬ Acc h
  /-- of candidates that are all close to each other only one is reported -/
  merged : (∀ x y, Acc x → Acc y → Close x y) → out.length ≤ 1

theorem report_post {key residual : H → K} {near : H → H → Bool} {Close : H → H → Prop} {Acc : H → Prop} {hits : List H}
    (hm : ∀ h, h ∈ hits ↔ Acc h) (hn : ∀ x y, near x y = true ↔ Close x y) (hsym : ∀ x y, Close x y → Close y x)
    (hkey : ∀ x y, |key x - key y| < 1 / 1000 → Close x y) :
    ∃ out, post key residual near hits = .ok out ∧ Report key Close residual Acc out := by
  obtain ⟨out, runs, e, g⟩ := C62_grouped key residual near hits
  refine ⟨out, e, fun h hh => (hm h).1 (g.mem hh), ?_, ?_, ?_, ?_, ?_⟩
  · refine g.separated ?_
    intro x y hf
    have : ¬ Close x y := by rw [← hn, hf]; simp
    exact not_lt.1 fun hlt => this (hkey x y hlt)
  · intro h hh
    obtain ⟨r, hr, hl, hle⟩ := g.represented ((hm h).2 hh)
    refine ⟨r, hr, ?_, hle⟩
    refine Relation.ReflTransGen.mono ?_ _ _ hl
    rintro x y ⟨h1, h2, h3⟩
    exact ⟨(hm x).1 h1, (hm y).1 h2, by simpa only [hn] using h3⟩
  · intro h hh hi
    refine g.isolated ((hm h).2 hh) ?_
    intro y hy hc
    refine hi y ((hm y).1 hy) ?_
    rcases hc with hc | hc
    · exact (hn _ _).1 hc
    · exact hsym _ _ ((hn _ _).1 hc)
  · rw [g.nonempty]
    constructor
    · rintro rfl h hh
      have := (hm h).2 hh
      simp at this
    · intro h
      exact List.eq_nil_iff_forall_not_mem.2 fun x hx => h x ((hm x).1 hx)
  · intro hall
    rw [g.count]
    have hb := g.breaks
    have hp := g.perm
    have hc := g.chain
    match runs, hb, hp, hc with
    | [], _, _, _ => simp
    | [r], _, _, _ => simp
    | r :: s :: rest, hb, hp, hc =>
      exfalso
      obtain ⟨hr, _⟩ := hc r (by simp)
      obtain ⟨hs, _⟩ := hc s (by simp)
      have hb0 := (List.isChain_cons_cons.1 hb).1 (r.getLast hr) (by rw [List.getLast?_eq_getLast_of_ne_nil hr]; rfl)
        (s.head hs) (by rw [List.head?_eq_some_head hs]; rfl)
      have m1 : r.getLast hr ∈ hits := hp.mem_iff.1 (by simp)
      have m2 : s.head hs ∈ hits := hp.mem_iff.1 (by simp)
      have := (hn _ _).2 (hall _ _ ((hm _).1 m1) ((hm _).1 m2))
      rw [hb0] at this
      cases this

/-! ### Two curves -/

section curves
variable {eps big minDist : K} {rnd : ℕ → K} {norm normSq : (Fin d → K) → K} {division : ℕ}

/-- A candidate found by the solver on one of the `pairs` of pieces and accepted: its parameters lie in the
    domains of the two curves, its points are the points of the curves there, and these are closer than the
    minimum distance. -/
def Accepted (eps minDist : K) (norm : (Fin d → K) → K)
    (solve : Curve K ((Fin d → K) × K) → Curve K ((Fin d → K) × K) → Option (K × K))
    (a b : Curve K ((Fin d → K) × K)) (pairs : List (CurveTree K d × CurveTree K d)) (h : Hit (Fin d → K) K K) : Prop :=
  (∃ e ∈ pairs, solve e.1.curve e.2.curve = some (h.a.2, h.b.2)) ∧
    (a.lo ≤ h.a.2 ∧ h.a.2 ≤ a.hi ∧ b.lo ≤ h.b.2 ∧ h.b.2 ≤ b.hi) ∧
    a.pointAt eps h.a.2 = .ok h.a.1 ∧ b.pointAt eps h.b.2 = .ok h.b.1 ∧ norm (h.a.1 - h.b.1) < minDist

/-- Close in one of the two parameters. -/
def CloseParams (x y : Hit (Fin d → K) K K) : Prop :=
  |x.a.2 - y.a.2| < 1 / 1000 ∨ |x.b.2 - y.b.2| < 1 / 1000

theorem nearCurve_iff (x y : Hit (Fin d → K) K K) : nearCurve x y = true ↔ CloseParams x y := by
  simp [nearCurve, CloseParams, paramTol]

theorem pointAt_total {c : Curve K ((Fin d → K) × K)} (h : c.Good eps) (hw : ∀ p ∈ c.cps, 0 < p.2) {u : K}
    (h1 : c.lo ≤ u) (h2 : u ≤ c.hi) : ∃ p, c.pointAt eps u = .ok p := by
  obtain ⟨_, q, _, e, _⟩ := C10_in_bounding_box (big := 0) h hw h1 h2
  exact ⟨q, e⟩

theorem candidates_spec {solve : Curve K ((Fin d → K) × K) → Curve K ((Fin d → K) × K) → Option (K × K)}
    {a b : Curve K ((Fin d → K) × K)} (ha : a.Good eps) (hb : b.Good eps) (wa : ∀ p ∈ a.cps, 0 < p.2)
    (wb : ∀ p ∈ b.cps, 0 < p.2) (pairs : List (CurveTree K d × CurveTree K d)) :
    ∃ cands, pairs.mapM (candidate eps solve a b (a.lo, a.hi) (b.lo, b.hi)) = .ok cands ∧
      ∀ h, (h ∈ (cands.filterMap id).filter fun h => decide (norm (h.a.1 - h.b.1) < minDist)) ↔
        Accepted eps minDist norm solve a b pairs h := by
  have one : ∀ e : CurveTree K d × CurveTree K d, ∃ c, candidate eps solve a b (a.lo, a.hi) (b.lo, b.hi) e = .ok c ∧
      ∀ h, c = some h ↔ solve e.1.curve e.2.curve = some (h.a.2, h.b.2) ∧
        (a.lo ≤ h.a.2 ∧ h.a.2 ≤ a.hi ∧ b.lo ≤ h.b.2 ∧ h.b.2 ≤ b.hi) ∧
        a.pointAt eps h.a.2 = .ok h.a.1 ∧ b.pointAt eps h.b.2 = .ok h.b.1 := by
    intro e
    rw [candidate]
    cases hs : solve e.1.curve e.2.curve with
    | none => exact ⟨none, rfl, by simp⟩
    | some p =>
      obtain ⟨x, y⟩ := p
      by_cases hd : a.lo ≤ x ∧ x ≤ a.hi ∧ b.lo ≤ y ∧ y ≤ b.hi
      · obtain ⟨p0, e0⟩ := pointAt_total ha wa hd.1 hd.2.1
        obtain ⟨p1, e1⟩ := pointAt_total hb wb hd.2.2.1 hd.2.2.2
        refine ⟨some ⟨(p0, x), (p1, y)⟩, ?_, ?_⟩
        · simp only [if_pos hd, e0, e1, ok_bind]; rfl
        · rintro ⟨⟨q0, x'⟩, ⟨q1, y'⟩⟩
          simp only [Option.some.injEq, Hit.mk.injEq, Prod.mk.injEq]
          constructor
          · rintro ⟨⟨rfl, rfl⟩, rfl, rfl⟩
            exact ⟨⟨rfl, rfl⟩, hd, e0, e1⟩
          · rintro ⟨⟨rfl, rfl⟩, _, e0', e1'⟩
            rw [e0] at e0'
            rw [e1] at e1'
            cases e0'; cases e1'
            exact ⟨⟨rfl, rfl⟩, rfl, rfl⟩
      · refine ⟨none, by simp only [if_neg hd]; rfl, ?_⟩
        rintro ⟨⟨q0, x'⟩, ⟨q1, y'⟩⟩
        simp only [Option.some.injEq, Prod.mk.injEq, reduceCtorEq, false_iff]
        rintro ⟨⟨rfl, rfl⟩, hd', _⟩
        exact hd hd'
  choose f hf hfs using one
  refine ⟨pairs.map f, mapM_ok fun e _ => hf e, ?_⟩
  intro h
  simp only [List.mem_filter, List.mem_filterMap, List.mem_map, id_eq, decide_eq_true_eq]
  constructor
  · rintro ⟨⟨c, ⟨e, he, rfl⟩, hc⟩, hn⟩
    obtain ⟨h1, h2, h3, h4⟩ := (hfs e h).1 hc
    exact ⟨⟨e, he, h1⟩, h2, h3, h4, hn⟩
  · rintro ⟨⟨e, he, h1⟩, h2, h3, h4, hn⟩
    exact ⟨⟨_, ⟨e, he, rfl⟩, (hfs e h).2 ⟨h1, h2, h3, h4⟩⟩, hn⟩

variable [Archimedean K]

/-- The tree the intersection starts from. -/
def rootTree (division : ℕ) (c : Curve K ((Fin d → K) × K)) : CurveTree K d := ⟨c, (c.hi - c.lo) / division⟩

/-- Intersecting two well formed curves of positive weights: the call succeeds whatever the solver and the
    random numbers do, and reports the accepted candidates as promised by `Report`. -/
theorem C62_curve_curve {solve : Curve K ((Fin d → K) × K) → Curve K ((Fin d → K) × K) → Option (K × K)}
    {a b : Curve K ((Fin d → K) × K)} (ha : a.Good eps) (hb : b.Good eps) (wa : ∀ p ∈ a.cps, 0 < p.2)
    (wb : ∀ p ∈ b.cps, 0 < p.2) (hdiv : 0 < division) (hr : ∀ n, 0 ≤ rnd n ∧ rnd n ≤ 1)
    (ga : Generic eps big rnd (rootTree division a)) (gb : Generic eps big rnd (rootTree division b)) (pos : ℕ) :
    ∃ fuel pairs out,
      traverse (CurveTree.tree eps big rnd) (CurveTree.tree eps big rnd) fuel
        [(rootTree division a, rootTree division b)] pos = .ok pairs ∧
      curveCurve eps big rnd pos fuel norm normSq division minDist solve a b = .ok out ∧
      Report (fun h => h.a.2) CloseParams (fun h => normSq (h.a.1 - h.b.1))
        (Accepted eps minDist norm solve a b pairs) out := by
  have hdv : (0 : K) < division := by exact_mod_cast hdiv
  have hda := ha.pre.dom
  have hdb := hb.pre.dom
  obtain ⟨pairs, hp, _⟩ := C37_curve_curve_params (a := rootTree division a) (b := rootTree division b) ha hb wa wb
    (div_pos (sub_pos.2 hda) hdv) (div_pos (sub_pos.2 hdb) hdv) hr ga gb pos
  obtain ⟨cands, hc, hm⟩ := candidates_spec (norm := norm) (minDist := minDist) (solve := solve) ha hb wa wb pairs
  obtain ⟨out, e, hrep⟩ := report_post (key := fun h : Hit (Fin d → K) K K => h.a.2)
    (residual := fun h => normSq (h.a.1 - h.b.1)) hm nearCurve_iff
    (fun x y h => by unfold CloseParams at h ⊢; rwa [abs_sub_comm y.a.2, abs_sub_comm y.b.2]) (fun x y h => Or.inl h)
  refine ⟨_, pairs, out, hp, ?_, hrep⟩
  rw [curveCurve, knotsDomain_eq ha, ok_bind]
  simp only
  rw [divR_eq_ok hdv.ne', ok_bind, CurveTree.new]
  simp only [pure_bind]
  rw [knotsDomain_eq hb, ok_bind]
  simp only
  rw [divR_eq_ok hdv.ne', ok_bind, CurveTree.new]
  simp only [pure_bind]
  rw [show (⟨a, (a.hi - a.lo) / (division : K)⟩ : CurveTree K d) = rootTree division a from rfl,
    show (⟨b, (b.hi - b.lo) / (division : K)⟩ : CurveTree K d) = rootTree division b from rfl, hp, ok_bind, hc, ok_bind]
  exact e

/-- If the solver succeeds on every pair of pieces that meet (it returns parameters on the pieces whose points
    are closer than the minimum distance), then no intersection is lost: near the parameters of every common
    point a candidate is accepted, and a reported one is joined to it. -/
theorem C62_no_miss {solve : Curve K ((Fin d → K) × K) → Curve K ((Fin d → K) × K) → Option (K × K)}
    {a b : Curve K ((Fin d → K) × K)} (ha : a.Good eps) (hb : b.Good eps) (wa : ∀ p ∈ a.cps, 0 < p.2)
    (wb : ∀ p ∈ b.cps, 0 < p.2) (hdiv : 0 < division) (hr : ∀ n, 0 ≤ rnd n ∧ rnd n ≤ 1)
    (ga : Generic eps big rnd (rootTree division a)) (gb : Generic eps big rnd (rootTree division b)) (pos : ℕ)
    (hsolve : ∀ a' b' : Curve K ((Fin d → K) × K), SubCurve eps ((a.hi - a.lo) / division) a a' →
      SubCurve eps ((b.hi - b.lo) / division) b b' → ∀ u v p,
      a'.lo ≤ u → u ≤ a'.hi → b'.lo ≤ v → v ≤ b'.hi → a'.pointAt eps u = .ok p → b'.pointAt eps v = .ok p →
      ∃ x y q r, solve a' b' = some (x, y) ∧ a'.lo ≤ x ∧ x ≤ a'.hi ∧ b'.lo ≤ y ∧ y ≤ b'.hi ∧
        a'.pointAt eps x = .ok q ∧ b'.pointAt eps y = .ok r ∧ norm (q - r) < minDist) :
    ∃ fuel pairs out,
      curveCurve eps big rnd pos fuel norm normSq division minDist solve a b = .ok out ∧
      Report (fun h => h.a.2) CloseParams (fun h => normSq (h.a.1 - h.b.1))
        (Accepted eps minDist norm solve a b pairs) out ∧
      ∀ u v p, a.lo ≤ u → u ≤ a.hi → b.lo ≤ v → v ≤ b.hi → a.pointAt eps u = .ok p → b.pointAt eps v = .ok p →
        ∃ h, Accepted eps minDist norm solve a b pairs h ∧ |h.a.2 - u| ≤ (a.hi - a.lo) / division ∧
          |h.b.2 - v| ≤ (b.hi - b.lo) / division ∧
          ∃ r ∈ out, ChainTo CloseParams (Accepted eps minDist norm solve a b pairs) h r := by
  obtain ⟨fuel, pairs, out, hp, e, hrep⟩ := C62_curve_curve (norm := norm) (normSq := normSq) (minDist := minDist)
    (solve := solve) ha hb wa wb hdiv hr ga gb pos
  have ia : CurveInv eps big rnd (rootTree division a) (rootTree division a) := ⟨.root, ha, wa, rfl⟩
  have ib : CurveInv eps big rnd (rootTree division b) (rootTree division b) := ⟨.root, hb, wb, rfl⟩
  refine ⟨fuel, pairs, out, e, hrep, ?_⟩
  intro u v p h1 h2 h3 h4 e1 e2
  obtain ⟨⟨x, y⟩, he, ⟨k1, k2, k3⟩, k4, k5, k6⟩ := C37_no_miss (curveAt_covers ga hr u) (curveAt_covers gb hr v)
    ia ib hp ⟨h1, h2, e1⟩ ⟨h3, h4, e2⟩
  obtain ⟨r1, r2, d1, d2, _⟩ := C37_sound hp _ he
  obtain ⟨x1, x2, x3⟩ := reach_piece ga hr ia r1
  obtain ⟨y1, y2, y3⟩ := reach_piece gb hr ib r2
  have sx := short_of_undividable (reach_inv ga hr ia r1) d1
  have sy := short_of_undividable (reach_inv gb hr ib r2) d2
  simp only at k1 k2 k3 k4 k5 k6 x1 x2 x3 y1 y2 y3 sx sy
  obtain ⟨s, t, q, r, es, m1, m2, m3, m4, m5, m6, m7⟩ := hsolve x.curve y.curve ⟨x1, x2, sx, x3⟩ ⟨y1, y2, sy, y3⟩ u v p k1 k2 k4 k5 k3 k6
  have hacc : Accepted eps minDist norm solve a b pairs ⟨(q, s), (r, t)⟩ :=
    ⟨⟨_, he, es⟩, ⟨le_trans x1 m1, le_trans m2 x2, le_trans y1 m3, le_trans m4 y2⟩,
      by rw [← m5]; exact (x3 s m1 m2).symm, by rw [← m6]; exact (y3 t m3 m4).symm, m7⟩
  refine ⟨_, hacc, ?_, ?_, ?_⟩
  · exact le_trans (abs_sub_le_iff.2 ⟨by simp only; linarith, by simp only; linarith⟩) sx
  · exact le_trans (abs_sub_le_iff.2 ⟨by simp only; linarith, by simp only; linarith⟩) sy
  · obtain ⟨r, hr, hl, _⟩ := hrep.complete _ hacc
    exact ⟨r, hr, hl⟩

end curves

/-! ### A surface and a curve -/

section surface
variable {eps big minDist : K} {rnd : ℕ → K} {norm normSq : (Fin d → K) → K} {division : ℕ}

/-- As `Accepted`, for a surface and a curve. -/
def AcceptedS (eps minDist : K) (norm : (Fin d → K) → K)
    (solve : Surface K ((Fin d → K) × K) → Curve K ((Fin d → K) × K) → Option (K × K × K))
    (S : Surface K ((Fin d → K) × K)) (c : Curve K ((Fin d → K) × K)) (pairs : List (SurfTree K d × CurveTree K d))
    (h : Hit (Fin d → K) (K × K) K) : Prop :=
  (∃ e ∈ pairs, solve e.1.surface e.2.curve = some (h.b.2, h.a.2.1, h.a.2.2)) ∧
    ((S.ulo ≤ h.a.2.1 ∧ h.a.2.1 ≤ S.uhi) ∧ (S.vlo ≤ h.a.2.2 ∧ h.a.2.2 ≤ S.vhi) ∧ c.lo ≤ h.b.2 ∧ h.b.2 ≤ c.hi) ∧
    S.pointAt eps h.a.2.1 h.a.2.2 = .ok h.a.1 ∧ c.pointAt eps h.b.2 = .ok h.b.1 ∧ norm (h.a.1 - h.b.1) < minDist

/-- Close in the parameter of the curve. -/
def CloseCurveParam (x y : Hit (Fin d → K) (K × K) K) : Prop := |x.b.2 - y.b.2| < 1 / 1000

theorem candidatesS_spec {solve : Surface K ((Fin d → K) × K) → Curve K ((Fin d → K) × K) → Option (K × K × K)}
    {S : Surface K ((Fin d → K) × K)} {c : Curve K ((Fin d → K) × K)} (hS : S.Good eps) (hc : c.Good eps)
    (wS : ∀ row ∈ S.cps, ∀ p ∈ row, 0 < p.2) (wc : ∀ p ∈ c.cps, 0 < p.2) (pairs : List (SurfTree K d × CurveTree K d)) :
    ∃ cands, pairs.mapM (candidateSurface eps solve S c (S.ulo, S.uhi) (S.vlo, S.vhi) (c.lo, c.hi)) = .ok cands ∧
      ∀ h, (h ∈ (cands.filterMap id).filter fun h => decide (norm (h.a.1 - h.b.1) < minDist)) ↔
        AcceptedS eps minDist norm solve S c pairs h := by
  have one : ∀ e : SurfTree K d × CurveTree K d, ∃ k,
      candidateSurface eps solve S c (S.ulo, S.uhi) (S.vlo, S.vhi) (c.lo, c.hi) e = .ok k ∧
      ∀ h, k = some h ↔ solve e.1.surface e.2.curve = some (h.b.2, h.a.2.1, h.a.2.2) ∧
        ((S.ulo ≤ h.a.2.1 ∧ h.a.2.1 ≤ S.uhi) ∧ (S.vlo ≤ h.a.2.2 ∧ h.a.2.2 ≤ S.vhi) ∧ c.lo ≤ h.b.2 ∧ h.b.2 ≤ c.hi) ∧
        S.pointAt eps h.a.2.1 h.a.2.2 = .ok h.a.1 ∧ c.pointAt eps h.b.2 = .ok h.b.1 := by
    intro e
    rw [candidateSurface]
    cases hs : solve e.1.surface e.2.curve with
    | none => exact ⟨none, rfl, by simp⟩
    | some p =>
      obtain ⟨x, y, z⟩ := p
      by_cases hd : (S.ulo ≤ y ∧ y ≤ S.uhi) ∧ (S.vlo ≤ z ∧ z ≤ S.vhi) ∧ c.lo ≤ x ∧ x ≤ c.hi
      · obtain ⟨_, p0, _, e0, _⟩ := C10_surface_in_bounding_box (big := 0) hS wS hd.1.1 hd.1.2 hd.2.1.1 hd.2.1.2
        obtain ⟨p1, e1⟩ := pointAt_total hc wc hd.2.2.1 hd.2.2.2
        refine ⟨some ⟨(p0, (y, z)), (p1, x)⟩, ?_, ?_⟩
        · simp only [if_pos hd, e0, e1, ok_bind]; rfl
        · rintro ⟨⟨q0, y', z'⟩, ⟨q1, x'⟩⟩
          simp only [Option.some.injEq, Hit.mk.injEq, Prod.mk.injEq]
          constructor
          · rintro ⟨⟨rfl, rfl, rfl⟩, rfl, rfl⟩
            exact ⟨⟨rfl, rfl, rfl⟩, hd, e0, e1⟩
          · rintro ⟨⟨rfl, rfl, rfl⟩, _, e0', e1'⟩
            rw [e0] at e0'
            rw [e1] at e1'
            cases e0'; cases e1'
            exact ⟨⟨rfl, rfl, rfl⟩, rfl, rfl⟩
      · refine ⟨none, by simp only [if_neg hd]; rfl, ?_⟩
        rintro ⟨⟨q0, y', z'⟩, ⟨q1, x'⟩⟩
        simp only [Option.some.injEq, Prod.mk.injEq, reduceCtorEq, false_iff]
        rintro ⟨⟨rfl, rfl, rfl⟩, hd', _⟩
        exact hd hd'
  choose f hf hfs using one
  refine ⟨pairs.map f, mapM_ok fun e _ => hf e, ?_⟩
  intro h
  simp only [List.mem_filter, List.mem_filterMap, List.mem_map, id_eq, decide_eq_true_eq]
  constructor
  · rintro ⟨⟨k, ⟨e, he, rfl⟩, hk⟩, hn⟩
    obtain ⟨h1, h2, h3, h4⟩ := (hfs e h).1 hk
    exact ⟨⟨e, he, h1⟩, h2, h3, h4, hn⟩
  · rintro ⟨⟨e, he, h1⟩, h2, h3, h4, hn⟩
    exact ⟨⟨_, ⟨e, he, rfl⟩, (hfs e h).2 ⟨h1, h2, h3, h4⟩⟩, hn⟩

variable [Archimedean K]

/-- The tree of the surface the intersection starts from. -/
def rootSurf (division : ℕ) (S : Surface K ((Fin d → K) × K)) : SurfTree K d :=
  ⟨S, ((S.uhi - S.ulo) * (1 / division), (S.vhi - S.vlo) * (1 / division)), .u⟩

/-- The tree of the curve. -/
def rootCurve (division : ℕ) (c : Curve K ((Fin d → K) × K)) : CurveTree K d := ⟨c, (c.hi - c.lo) * (1 / division)⟩

/-- Intersecting a surface with a curve. -/
theorem C62_surface_curve
    {solve : Surface K ((Fin d → K) × K) → Curve K ((Fin d → K) × K) → Option (K × K × K)}
    {S : Surface K ((Fin d → K) × K)} {c : Curve K ((Fin d → K) × K)} (hS : S.Good eps) (hc : c.Good eps)
    (wS : ∀ row ∈ S.cps, ∀ p ∈ row, 0 < p.2) (wc : ∀ p ∈ c.cps, 0 < p.2) (hdiv : 0 < division)
    (hr : ∀ n, 0 ≤ rnd n ∧ rnd n ≤ 1) (gS : SurfGeneric ℕ eps big (rootSurf division S))
    (gc : Generic eps big rnd (rootCurve division c)) (pos : ℕ) :
    ∃ fuel pairs out,
      traverse (SurfTree.tree ℕ eps big) (CurveTree.tree eps big rnd) fuel
        [(rootSurf division S, rootCurve division c)] pos = .ok pairs ∧
      surfaceCurve eps big rnd pos fuel norm normSq division minDist solve S c = .ok out ∧
      Report (fun h => h.b.2) CloseCurveParam (fun h => normSq (h.a.1 - h.b.1))
        (AcceptedS eps minDist norm solve S c pairs) out ∧
      ((∀ S' c', SubSurface eps (rootSurf division S).tolerance S S' → SubCurve eps (rootCurve division c).tolerance c c' →
          ∀ u v w p, S'.ulo ≤ u → u ≤ S'.uhi → S'.vlo ≤ v → v ≤ S'.vhi → c'.lo ≤ w → w ≤ c'.hi →
          S'.pointAt eps u v = .ok p → c'.pointAt eps w = .ok p →
          ∃ x y z q r, solve S' c' = some (z, x, y) ∧ S'.ulo ≤ x ∧ x ≤ S'.uhi ∧ S'.vlo ≤ y ∧ y ≤ S'.vhi ∧
            c'.lo ≤ z ∧ z ≤ c'.hi ∧ S'.pointAt eps x y = .ok q ∧ c'.pointAt eps z = .ok r ∧ norm (q - r) < minDist) →
        ∀ u v w p, S.ulo ≤ u → u ≤ S.uhi → S.vlo ≤ v → v ≤ S.vhi → c.lo ≤ w → w ≤ c.hi →
          S.pointAt eps u v = .ok p → c.pointAt eps w = .ok p →
          ∃ h, AcceptedS eps minDist norm solve S c pairs h ∧ |h.a.2.1 - u| ≤ (S.uhi - S.ulo) * (1 / division) ∧
            |h.a.2.2 - v| ≤ (S.vhi - S.vlo) * (1 / division) ∧ |h.b.2 - w| ≤ (c.hi - c.lo) * (1 / division) ∧
            ∃ r ∈ out, ChainTo CloseCurveParam (AcceptedS eps minDist norm solve S c pairs) h r) := by
  have hdv : (0 : K) < division := by exact_mod_cast hdiv
  obtain ⟨hdu, hdw⟩ := surf_dom_lt hS
  have hdc := hc.pre.dom
  have h1d : (0 : K) < 1 / division := div_pos one_pos hdv
  obtain ⟨pairs, hp, hpieces, hcov⟩ := C37_surface_curve (a := rootSurf division S) (b := rootCurve division c) hS hc wS wc
    (mul_pos (sub_pos.2 hdu) h1d) (mul_pos (sub_pos.2 hdw) h1d) (mul_pos (sub_pos.2 hdc) h1d) hr gS gc pos
  obtain ⟨cands, hcd, hm⟩ := candidatesS_spec (norm := norm) (minDist := minDist) (solve := solve) hS hc wS wc pairs
  obtain ⟨out, e, hrep⟩ := report_post (key := fun h : Hit (Fin d → K) (K × K) K => h.b.2)
    (residual := fun h => normSq (h.a.1 - h.b.1)) (near := nearSurface) (Close := CloseCurveParam) hm
    (fun x y => by simp [nearSurface, CloseCurveParam, paramTol])
    (fun x y h => by unfold CloseCurveParam at h ⊢; rwa [abs_sub_comm y.b.2]) (fun x y h => h)
  refine ⟨_, pairs, out, hp, ?_, hrep, ?_⟩
  · rw [surfaceCurve, divR_eq_ok hdv.ne', ok_bind, (surf_domains hS).1, ok_bind, (surf_domains hS).2, ok_bind,
      knotsDomain_eq hc, ok_bind]
    simp only [CurveTree.new, SurfTree.new, pure_bind]
    rw [show (⟨S, ((S.uhi - S.ulo) * (1 / (division : K)), (S.vhi - S.vlo) * (1 / (division : K))), .u⟩ : SurfTree K d)
      = rootSurf division S from rfl,
      show (⟨c, (c.hi - c.lo) * (1 / (division : K))⟩ : CurveTree K d) = rootCurve division c from rfl, hp, ok_bind,
      hcd, ok_bind]
    exact e
  · intro hsolve u v w p h1 h2 h3 h4 h5 h6 e1 e2
    obtain ⟨x, he, ⟨k1, k2⟩, ⟨k3, k4⟩, k5, k6⟩ := hcov u v w p h1 h2 h3 h4 h5 h6 e1 e2
    obtain ⟨pS, pc⟩ := hpieces x he
    obtain ⟨s, t, z, q, r, es, m1, m2, m3, m4, m5, m6, m7, m8, m9⟩ := hsolve _ _ pS pc u v w p k1 k2 k3 k4 k5 k6
      (by rw [pS.same u v k1 k2 k3 k4]; exact e1) (by rw [pc.same w k5 k6]; exact e2)
    obtain ⟨i1, i2, i3, i4⟩ := pS.inside
    obtain ⟨s1, s2⟩ := pS.short
    have s3 := pc.short
    have j1 := pc.lo
    have j2 := pc.hi
    simp only [rootSurf, rootCurve] at i1 i2 i3 i4 s1 s2 s3 j1 j2
    have hacc : AcceptedS eps minDist norm solve S c pairs ⟨(q, (s, t)), (r, z)⟩ :=
      ⟨⟨x, he, es⟩, ⟨⟨i1.trans m1, m2.trans i2⟩, ⟨i3.trans m3, m4.trans i4⟩, j1.trans m5, m6.trans j2⟩,
        by rw [← m7]; exact (pS.same s t m1 m2 m3 m4).symm, by rw [← m8]; exact (pc.same z m5 m6).symm, m9⟩
    refine ⟨_, hacc, ?_, ?_, ?_, ?_⟩
    · exact le_trans (abs_sub_le_iff.2 ⟨by simp only; linarith, by simp only; linarith⟩) s1
    · exact le_trans (abs_sub_le_iff.2 ⟨by simp only; linarith, by simp only; linarith⟩) s2
    · exact le_trans (abs_sub_le_iff.2 ⟨by simp only; linarith, by simp only; linarith⟩) s3
    · obtain ⟨r, hr, hl, _⟩ := hrep.complete _ hacc
      exact ⟨r, hr, hl⟩

end surface

/-! ### Witnesses, and what the grouping loses -/

/-- Witness: two Bezier curves, any solver and any random numbers. -/
example (rnd : ℕ → ℚ) (hr : ∀ n, 0 ≤ rnd n ∧ rnd n ≤ 1) (pos : ℕ) (norm normSq : (Fin 2 → ℚ) → ℚ)
    (solve : Curve ℚ ((Fin 2 → ℚ) × ℚ) → Curve ℚ ((Fin 2 → ℚ) × ℚ) → Option (ℚ × ℚ)) :
    ∃ fuel pairs out, curveCurve (1/1000000) 1000 rnd pos fuel norm normSq 64 (1/100000) solve exBezA exBezB = .ok out ∧
      Report (fun h => h.a.2) CloseParams (fun h => normSq (h.a.1 - h.b.1))
        (Accepted (1/1000000) (1/100000) norm solve exBezA exBezB pairs) out := by
  obtain ⟨fuel, pairs, out, _, e, h⟩ := C62_curve_curve (norm := norm) (normSq := normSq) (minDist := 1/100000)
    (big := 1000) (division := 64) (solve := solve) exBezA_good exBezB_good (by decide) (by decide) (by norm_num) hr
    (generic_of_ends hr exBezA_good (by decide) (by decide +kernel) (by decide +kernel) (by norm_num))
    (generic_of_ends hr exBezB_good (by decide) (by decide +kernel) (by decide +kernel) (by norm_num)) pos
  exact ⟨fuel, pairs, out, e, h⟩

/-- A cubic with a double point: `(s² - 1/4, s³ - s/4)` with `s = 2 t - 1`. -/
def exLoop : Curve ℚ ((Fin 2 → ℚ) × ℚ) where
  degree := 3
  cps := [(![3/4, -3/4], 1), (![-7/12, 13/12], 1), (![-7/12, -13/12], 1), (![3/4, 3/4], 1)]
  knots := [0, 0, 0, 0, 1, 1, 1, 1]

/-- A line through the double point. -/
def exChord : Curve ℚ ((Fin 2 → ℚ) × ℚ) where
  degree := 1
  cps := [(![-1, -2], 1), (![1, 2], 1)]
  knots := [0, 0, 1, 1]

theorem exLoop_good : exLoop.Good (1/1000000) where
  cps_pos := by decide
  knots_len := by decide
  good := by
    refine ⟨by norm_num, by decide, ?_, ?_, ?_, ?_, ?_⟩
    · intro i j hij hj
      exact (by decide +kernel : ∀ i ≤ 7, ∀ j ≤ 7, i ≤ j → kf exLoop.knots i ≤ kf exLoop.knots j)
        i (by have : j ≤ 7 := hj; omega) j hj hij
    all_goals simp [exLoop, kf]; try norm_num

theorem exChord_good : exChord.Good (1/1000000) where
  cps_pos := by decide
  knots_len := by decide
  good := by
    refine ⟨by norm_num, by decide, ?_, ?_, ?_, ?_, ?_⟩
    · intro i j hij hj
      exact (by decide +kernel : ∀ i ≤ 3, ∀ j ≤ 3, i ≤ j → kf exChord.knots i ≤ kf exChord.knots j)
        i (by have : j ≤ 3 := hj; omega) j hj hij
    all_goals simp [exChord, kf]; try norm_num

/-- The grouping by closeness in either parameter loses intersections: a curve that passes twice through the
    same point of the other curve meets it at two well separated parameters, but only one of them can ever be
    reported, even by a perfect solver. -/
theorem C62_double_point_lost :
    (exLoop.pointAt (1/1000000) (1/4) = .ok ![0, 0] ∧ exLoop.pointAt (1/1000000) (3/4) = .ok ![0, 0] ∧
      exChord.pointAt (1/1000000) (1/2) = .ok ![0, 0]) ∧
    ∀ (rnd : ℕ → ℚ) (_ : ∀ n, 0 ≤ rnd n ∧ rnd n ≤ 1) (pos : ℕ) (norm normSq : (Fin 2 → ℚ) → ℚ)
      (solve : Curve ℚ ((Fin 2 → ℚ) × ℚ) → Curve ℚ ((Fin 2 → ℚ) × ℚ) → Option (ℚ × ℚ))
      (_ : ∀ a b x y, solve a b = some (x, y) → (x = 1/4 ∨ x = 3/4) ∧ y = 1/2),
      ∃ fuel out, curveCurve (1/1000000) 1000 rnd pos fuel norm normSq 64 (1/100000) solve exLoop exChord = .ok out ∧
        out.length ≤ 1 := by
  refine ⟨⟨res_eq_of_ofFn (by decide +kernel), res_eq_of_ofFn (by decide +kernel), res_eq_of_ofFn (by decide +kernel)⟩, ?_⟩
  intro rnd hr pos norm normSq solve hs
  obtain ⟨fuel, pairs, out, _, e, h⟩ := C62_curve_curve (norm := norm) (normSq := normSq) (minDist := 1/100000)
    (big := 1000) (division := 64) (solve := solve) exLoop_good exChord_good (by decide) (by decide) (by norm_num) hr
    (generic_of_ends hr exLoop_good (by decide) (by decide +kernel) (by decide +kernel) (by norm_num))
    (generic_of_ends hr exChord_good (by decide) (by decide +kernel) (by decide +kernel) (by norm_num)) pos
  refine ⟨fuel, out, e, h.merged ?_⟩
  intro x y hx hy
  obtain ⟨⟨e1, _, h1⟩, _⟩ := hx
  obtain ⟨⟨e2, _, h2⟩, _⟩ := hy
  right
  rw [(hs _ _ _ _ h1).2, (hs _ _ _ _ h2).2]
  norm_num

/-- Witness: a solver that finds the intersections exists. -/
example (rnd : ℕ → ℚ) (hr : ∀ n, 0 ≤ rnd n ∧ rnd n ≤ 1) (pos : ℕ) :
    ∃ solve fuel pairs out,
      curveCurve (1/1000000) 1000 rnd pos fuel (fun p => |p 0|) (fun p => p 0 * p 0) 64 (1/100000) solve exLoop exChord = .ok out ∧
      Report (fun h => h.a.2) CloseParams (fun h => (h.a.1 - h.b.1) 0 * (h.a.1 - h.b.1) 0)
        (Accepted (1/1000000) (1/100000) (fun p => |p 0|) solve exLoop exChord pairs) out ∧ out.length ≠ 0 := by
  classical
  let solve : Curve ℚ ((Fin 2 → ℚ) × ℚ) → Curve ℚ ((Fin 2 → ℚ) × ℚ) → Option (ℚ × ℚ) := fun a b =>
    if h : ∃ x : ℚ × ℚ, a.lo ≤ x.1 ∧ x.1 ≤ a.hi ∧ b.lo ≤ x.2 ∧ x.2 ≤ b.hi ∧ ∃ p,
      a.pointAt (1/1000000) x.1 = .ok p ∧ b.pointAt (1/1000000) x.2 = .ok p then some (Classical.choose h) else none
  obtain ⟨fuel, pairs, out, e, h, hno⟩ := C62_no_miss (norm := fun p : Fin 2 → ℚ => |p 0|)
    (normSq := fun p => p 0 * p 0) (minDist := 1/100000)
    (big := 1000) (division := 64) (solve := solve) exLoop_good exChord_good (by decide) (by decide) (by norm_num) hr
    (generic_of_ends hr exLoop_good (by decide) (by decide +kernel) (by decide +kernel) (by norm_num))
    (generic_of_ends hr exChord_good (by decide) (by decide +kernel) (by decide +kernel) (by norm_num)) pos (by
      intro a' b' _ _ u v p h1 h2 h3 h4 e1 e2
      have hex : ∃ x : ℚ × ℚ, a'.lo ≤ x.1 ∧ x.1 ≤ a'.hi ∧ b'.lo ≤ x.2 ∧ x.2 ≤ b'.hi ∧ ∃ p,
          a'.pointAt (1/1000000) x.1 = .ok p ∧ b'.pointAt (1/1000000) x.2 = .ok p :=
        ⟨(u, v), h1, h2, h3, h4, p, e1, e2⟩
      obtain ⟨k1, k2, k3, k4, q, k5, k6⟩ := Classical.choose_spec hex
      refine ⟨_, _, q, q, by simp only [solve, dif_pos hex], k1, k2, k3, k4, k5, k6, ?_⟩
      simp)
  refine ⟨solve, fuel, pairs, out, e, h, ?_⟩
  obtain ⟨_, _, _, _, r, hr, _⟩ := hno (1/4) (1/2) ![0, 0] (by decide +kernel) (by decide +kernel) (by decide +kernel)
    (by decide +kernel) C62_double_point_lost.1.1 C62_double_point_lost.1.2.2
  exact List.length_pos_iff_exists_mem.2 ⟨r, hr⟩ |>.ne'

/-- Witness for the surface: the saddle and the line through it. -/
example (rnd : ℕ → ℚ) (hr : ∀ n, 0 ≤ rnd n ∧ rnd n ≤ 1) (pos : ℕ) (norm normSq : (Fin 3 → ℚ) → ℚ)
    (solve : Surface ℚ ((Fin 3 → ℚ) × ℚ) → Curve ℚ ((Fin 3 → ℚ) × ℚ) → Option (ℚ × ℚ × ℚ)) :
    ∃ fuel pairs out,
      surfaceCurve (1/1000000) 1000 rnd pos fuel norm normSq 64 (1/100000) solve exSaddle exNeedle = .ok out ∧
      Report (fun h => h.b.2) CloseCurveParam (fun h => normSq (h.a.1 - h.b.1))
        (AcceptedS (1/1000000) (1/100000) norm solve exSaddle exNeedle pairs) out := by
  obtain ⟨fuel, pairs, out, _, e, h, _⟩ := C62_surface_curve (norm := norm) (normSq := normSq) (minDist := 1/100000)
    (big := 1000) (division := 64) (solve := solve) exSaddle_good exNeedle_good (by decide) (by decide) (by norm_num) hr
    (surf_generic_of_ends (δ := 1/64) exSaddle_good (by decide) rfl (by decide +kernel) (by decide +kernel)
      (by decide +kernel) (by decide +kernel) (by decide +kernel) (by decide +kernel))
    (generic_of_ends hr exNeedle_good (by decide) (by decide +kernel) (by decide +kernel) (by norm_num)) pos
  exact ⟨fuel, pairs, out, e, h⟩

end Curvo.Props

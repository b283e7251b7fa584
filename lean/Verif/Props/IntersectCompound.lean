/-
  Property theorems about the intersections of compound curves: C74.
-/
import Verif.Props.Intersect
import Verif.Lemmas.Mat
import Verif.Props.Compound

set_option linter.unusedSectionVars false

namespace Curvo.Props

open Curvo Curvo.Spec Curvo.Intersect

variable {K : Type} [Field K] [LinearOrder K] [IsStrictOrderedRing K] {P B V : Type}

/-! ### Specification -/

/-- The hit is within a hundredth of the end (start) of the span with domain `dom`. -/
def AtEnd (dom : K × K) (h : Hit P K B) : Prop := |dom.2 - h.a.2| < 1 / 100
def AtStart (dom : K × K) (h : Hit P K B) : Prop := |dom.1 - h.a.2| < 1 / 100

/-- The span after span `i` of `n`, going round. -/
def nextSpan (n i : ℕ) : ℕ := (i + 1) % n

/-- What culling does to the hits `res` per span: it keeps each list, except that it removes the last hit of a
    span if this is at the end of the span and the next span has its first hit at its start. For the last span
    the next one is the first, and counts with what is left of it. -/
structure Culled (ends : List (K × K)) (res kept : List (List (Hit P K B))) : Prop where
  length : kept.length = res.length
  keep : ∀ i, i < res.length → kept.getD i [] = res.getD i [] ∨
    (kept.getD i [] = (res.getD i []).dropLast ∧ 1 < res.length ∧
      (∃ x ∈ (res.getD i []).getLast?, AtEnd (ends.getD i (0, 0)) x) ∧
      ∃ y ∈ (res.getD (nextSpan res.length i) []).head?, AtStart (ends.getD (nextSpan res.length i) (0, 0)) y)
  drop : ∀ i, i + 1 < res.length → (∃ x ∈ (res.getD i []).getLast?, AtEnd (ends.getD i (0, 0)) x) →
    (∃ y ∈ (res.getD (i + 1) []).head?, AtStart (ends.getD (i + 1) (0, 0)) y) →
    kept.getD i [] = (res.getD i []).dropLast

/-! ### The loop -/

theorem windows_next {n i : ℕ} (h : i < n) : (if i + 1 = n then 0 else i + 1) = nextSpan n i := by
  unfold nextSpan
  split
  · next e => rw [e, Nat.mod_self]
  · next e => rw [Nat.mod_eq_of_lt (by omega)]

theorem head?_dropLast {l : List (Hit P K B)} {y : Hit P K B} (h : l.dropLast.head? = some y) : l.head? = some y := by
  cases l with
  | nil => simp at h
  | cons a t =>
    cases t with
    | nil => simp at h
    | cons b t => simpa using h

/-- The state after the windows `0, …, k - 1`. -/
structure After (ends : List (K × K)) (res : List (List (Hit P K B))) (k : ℕ) (cur : List (List (Hit P K B))) : Prop where
  length : cur.length = res.length
  todo : ∀ i, k ≤ i → cur.getD i [] = res.getD i []
  keep : ∀ i, i < k → cur.getD i [] = res.getD i [] ∨
    (cur.getD i [] = (res.getD i []).dropLast ∧ 1 < res.length ∧
      (∃ x ∈ (res.getD i []).getLast?, AtEnd (ends.getD i (0, 0)) x) ∧
      ∃ y ∈ (res.getD (nextSpan res.length i) []).head?, AtStart (ends.getD (nextSpan res.length i) (0, 0)) y)
  drop : ∀ i, i < k → i + 1 < res.length → (∃ x ∈ (res.getD i []).getLast?, AtEnd (ends.getD i (0, 0)) x) →
    (∃ y ∈ (res.getD (i + 1) []).head?, AtStart (ends.getD (i + 1) (0, 0)) y) →
    cur.getD i [] = (res.getD i []).dropLast

theorem getR_getD {α : Type} {l : List α} {i : ℕ} (d : α) (h : i < l.length) : getR l i = .ok (l.getD i d) := by
  rw [getR_ok_iff, List.getD_eq_getElem?_getD, List.getElem?_eq_getElem h]; rfl

theorem getD_set {α : Type} {l : List α} {i j : ℕ} {a d : α} (h : i < l.length) :
    (l.set i a).getD j d = if i = j then a else l.getD j d := by
  simp only [List.getD_eq_getElem?_getD, List.getElem?_set]
  split
  · simp [h]
  · rfl

theorem step_spec {ends : List (K × K)} {res cur : List (List (Hit P K B))} (he : ends.length = res.length) {k : ℕ}
    (hk : k < res.length) (h : After ends res k cur) :
    ∃ cur', cullStep ends cur (k, if k + 1 = res.length then 0 else k + 1) = .ok cur' ∧ After ends res (k + 1) cur' := by
  rw [windows_next hk]
  set n := res.length with hn
  have hj : nextSpan n k < n := Nat.mod_lt _ (by omega)
  -- leaving the state as it is
  have same : (∀ x ∈ (res.getD k []).getLast?, ∀ y ∈ (res.getD (k + 1) []).head?, k + 1 < n →
      AtEnd (ends.getD k (0, 0)) x → AtStart (ends.getD (k + 1) (0, 0)) y → False) → After ends res (k + 1) cur := by
    intro hno
    refine ⟨h.length, fun i hi => h.todo i (by omega), fun i hi => ?_, fun i hi hi' hx hy => ?_⟩
    · rcases Nat.lt_or_ge i k with hik | hik
      · exact h.keep i hik
      · exact Or.inl (h.todo i hik)
    · rcases Nat.lt_or_ge i k with hik | hik
      · exact h.drop i hik hi' hx hy
      · obtain rfl : i = k := by omega
        obtain ⟨x, hx, ax⟩ := hx
        obtain ⟨y, hy, ay⟩ := hy
        exact (hno x hx y hy hi' ax ay).elim
  rw [cullStep]
  by_cases hne : k = nextSpan n k
  · rw [if_neg (by simpa using hne)]
    refine ⟨cur, rfl, same ?_⟩
    intro x _ y _ hk' _ _
    rw [nextSpan, Nat.mod_eq_of_lt hk'] at hne
    omega
  · rw [if_pos (by simpa using hne)]
    have h1n : 1 < n := by
      by_contra hc
      have : n = 1 := by omega
      apply hne
      rw [nextSpan, this]
      omega
    simp only
    rw [getR_getD [] (by rw [h.length]; exact hk), ok_bind, getR_getD [] (by rw [h.length]; exact hj), ok_bind, h.todo k le_rfl]
    -- the next list has the same head as the original one, if any
    have hhead : ∀ y, (cur.getD (nextSpan n k) []).head? = some y → (res.getD (nextSpan n k) []).head? = some y := by
      intro y hy
      rcases Nat.lt_or_ge (nextSpan n k) k with hlt | hge
      · rcases h.keep _ hlt with e | ⟨e, _⟩
        · rw [← e]; exact hy
        · rw [e] at hy; exact head?_dropLast hy
      · rw [h.todo _ hge] at hy; exact hy
    have hnext : k + 1 < n → cur.getD (nextSpan n k) [] = res.getD (k + 1) [] := by
      intro hk'
      rw [nextSpan, Nat.mod_eq_of_lt hk']
      exact h.todo _ (by omega)
    cases hl : (res.getD k []).getLast? with
    | none =>
      refine ⟨cur, by rfl, same ?_⟩
      intro x hx
      rw [hl] at hx
      cases hx
    | some x =>
      cases hh : (cur.getD (nextSpan n k) []).head? with
      | none =>
        refine ⟨cur, by rfl, same ?_⟩
        intro _ _ y hy hk'
        rw [hnext hk'] at hh
        rw [hh] at hy
        cases hy
      | some y =>
        simp only
        rw [getR_getD (0, 0) (by omega), ok_bind, getR_getD (0, 0) (by omega), ok_bind]
        by_cases hc : |(ends.getD k (0, 0)).2 - x.a.2| < cullTol ∧
            |(ends.getD (nextSpan n k) (0, 0)).1 - y.a.2| < cullTol
        · rw [if_pos hc, setR_eq_ok (by rw [h.length]; exact hk)]
          refine ⟨_, rfl, by rw [List.length_set]; exact h.length, ?_, ?_, ?_⟩
          · intro i hi
            rw [getD_set (by rw [h.length]; exact hk), if_neg (by omega)]
            exact h.todo i (by omega)
          · intro i hi
            rw [getD_set (by rw [h.length]; exact hk)]
            by_cases hki : k = i
            · subst hki
              rw [if_pos rfl]
              refine Or.inr ⟨rfl, h1n, ⟨x, by rw [hl]; rfl, hc.1⟩, y, hhead y hh, hc.2⟩
            · rw [if_neg hki]
              exact h.keep i (by omega)
          · intro i hi hi' hx hy
            rw [getD_set (by rw [h.length]; exact hk)]
            by_cases hki : k = i
            · subst hki
              rw [if_pos rfl]
            · rw [if_neg hki]
              exact h.drop i (by omega) hi' hx hy
        · rw [if_neg hc]
          refine ⟨cur, rfl, same ?_⟩
          intro x' hx' y' hy' hk' ax ay
          rw [hl] at hx'
          rw [hnext hk'] at hh
          rw [hh] at hy'
          cases hx'; cases hy'
          rw [nextSpan, Nat.mod_eq_of_lt hk'] at hc
          exact hc ⟨ax, ay⟩

/-- Culling never fails and does what `Culled` says. -/
theorem C74_cull (ends : List (K × K)) (res : List (List (Hit P K B))) (he : ends.length = res.length) :
    ∃ kept, cull ends res = .ok kept.flatten ∧ Culled ends res kept := by
  obtain ⟨kept, e, h⟩ := foldlM_inv (f := cullStep ends) (g := fun i => (i, if i + 1 = res.length then 0 else i + 1))
    (P := After ends res) (n := res.length) (s := res)
    ⟨rfl, fun _ _ => rfl, fun i hi => absurd hi (by omega), fun i hi => absurd hi (by omega)⟩
    (fun t ht s hs => step_spec he ht hs)
  refine ⟨kept, ?_, h.length, h.keep, fun i hi => h.drop i (by omega) hi⟩
  rw [cull, windows, e]
  rfl

/-! ### What follows for the user -/

theorem Culled.sub {ends : List (K × K)} {res kept : List (List (Hit P K B))} (h : Culled ends res kept) {i : ℕ}
    (hi : i < res.length) {x : Hit P K B} (hx : x ∈ kept.getD i []) : x ∈ res.getD i [] := by
  rcases h.keep i hi with e | ⟨e, _⟩
  · rw [← e]; exact hx
  · rw [e] at hx; exact List.mem_of_mem_dropLast hx

theorem Culled.lost {ends : List (K × K)} {res kept : List (List (Hit P K B))} (h : Culled ends res kept) {i : ℕ}
    (hi : i < res.length) {x : Hit P K B} (hx : x ∈ res.getD i []) : x ∈ kept.getD i [] ∨
      ((res.getD i []).getLast? = some x ∧ 1 < res.length ∧ AtEnd (ends.getD i (0, 0)) x ∧
        ∃ y, (res.getD (nextSpan res.length i) []).head? = some y ∧
          AtStart (ends.getD (nextSpan res.length i) (0, 0)) y) := by
  rcases h.keep i hi with e | ⟨e, h1, ⟨z, hz, az⟩, y, hy, ay⟩
  · left; rw [e]; exact hx
  · have hne : res.getD i [] ≠ [] := by intro hc; rw [hc] at hx; cases hx
    have hz' : (res.getD i []).getLast hne = z := by
      have hz : (res.getD i []).getLast? = some z := hz
      rw [List.getLast?_eq_getLast_of_ne_nil hne] at hz
      exact Option.some.inj hz
    rw [← List.dropLast_append_getLast hne] at hx
    rcases List.mem_append.1 hx with hx | hx
    · left; rw [e]; exact hx
    · right
      rw [List.mem_singleton] at hx
      subst hx
      rw [hz']
      exact ⟨hz, h1, az, y, hy, ay⟩

/-- Intersecting a compound curve with a curve. `find` intersects one span; its results lie in the domain of
    the span. Then only hits of spans are reported; a hit is left out only if it is at the end of its span and
    the next span (going round) has a hit at its start; and if no span is shorter than a fiftieth, this other
    hit is reported. -/
theorem C74_compound {find : Curve K V → Res (List (Hit P K B))} {spans : List (Curve K V)}
    {hits : Curve K V → List (Hit P K B)} {dom : Curve K V → K × K}
    (hf : ∀ s ∈ spans, find s = .ok (hits s)) (hd : ∀ s ∈ spans, s.knotsDomain = .ok (dom s)) :
    ∃ out, compoundCurve find spans = .ok out ∧
      (∀ h ∈ out, ∃ s ∈ spans, h ∈ hits s) ∧
      (∀ i (hi : i < spans.length), ∀ h ∈ hits spans[i], h ∈ out ∨
        (1 < spans.length ∧ AtEnd (dom spans[i]) h ∧
          ∃ s, spans[nextSpan spans.length i]? = some s ∧ ∃ y ∈ hits s, AtStart (dom s) y)) ∧
      ((∀ s ∈ spans, (dom s).1 + 1 / 50 ≤ (dom s).2) →
        ∀ i (hi : i < spans.length), ∀ h ∈ hits spans[i], h ∈ out ∨
          (1 < spans.length ∧ AtEnd (dom spans[i]) h ∧
            ∃ s, spans[nextSpan spans.length i]? = some s ∧ ∃ y ∈ hits s, AtStart (dom s) y ∧ y ∈ out)) := by
  obtain ⟨kept, e, hc⟩ := C74_cull (spans.map dom) (spans.map hits) (by simp)
  have hlen : (spans.map hits).length = spans.length := by simp
  have gh : ∀ i (hi : i < spans.length), (spans.map hits).getD i [] = hits spans[i] := by
    intro i hi
    simp [List.getD_eq_getElem?_getD, hi]
  have gd : ∀ i (hi : i < spans.length), (spans.map dom).getD i (0, 0) = dom spans[i] := by
    intro i hi
    simp [List.getD_eq_getElem?_getD, hi]
  have hmem : ∀ x i, i < spans.length → x ∈ kept.getD i [] → x ∈ kept.flatten := by
    intro x i hi hx
    have hk : i < kept.length := by rw [hc.length, hlen]; exact hi
    rw [List.getD_eq_getElem?_getD, List.getElem?_eq_getElem hk] at hx
    exact List.mem_flatten.2 ⟨_, List.getElem_mem hk, hx⟩
  refine ⟨kept.flatten, ?_, ?_, ?_, ?_⟩
  · rw [compoundCurve, mapM_ok hf, ok_bind, mapM_ok hd, ok_bind]
    exact e
  · intro h hh
    obtain ⟨l, hl, hh⟩ := List.mem_flatten.1 hh
    obtain ⟨i, hi, rfl⟩ := List.getElem_of_mem hl
    have hi' : i < spans.length := by rw [hc.length, hlen] at hi; exact hi
    have := hc.sub (i := i) (by rw [hlen]; exact hi') (x := h)
      (by rw [List.getD_eq_getElem?_getD, List.getElem?_eq_getElem hi]; exact hh)
    rw [gh i hi'] at this
    exact ⟨_, List.getElem_mem hi', this⟩
  · intro i hi h hh
    have hn : nextSpan spans.length i < spans.length := Nat.mod_lt _ (by omega)
    rcases hc.lost (i := i) (by rw [hlen]; exact hi) (x := h) (by rw [gh i hi]; exact hh) with hk | ⟨_, h1, h2, y, hy, h3⟩
    · exact Or.inl (hmem h i hi hk)
    · rw [hlen] at h1 hy h3
      rw [gd i hi] at h2
      rw [gh _ hn] at hy
      rw [gd _ hn] at h3
      exact Or.inr ⟨h1, h2, _, List.getElem?_eq_getElem hn, y, List.mem_of_mem_head? hy, h3⟩
  · intro hlong i hi h hh
    have hn : nextSpan spans.length i < spans.length := Nat.mod_lt _ (by omega)
    rcases hc.lost (i := i) (by rw [hlen]; exact hi) (x := h) (by rw [gh i hi]; exact hh) with hk | ⟨_, h1, h2, y, hy, h3⟩
    · exact Or.inl (hmem h i hi hk)
    · rw [hlen] at h1 hy h3
      have hym := List.mem_of_mem_head? hy
      have hkeep : y ∈ kept.getD (nextSpan spans.length i) [] := by
        rcases hc.lost (i := nextSpan spans.length i) (by rw [hlen]; exact hn) (x := y) hym with hk | ⟨_, _, h4, _⟩
        · exact hk
        · exfalso
          rw [gd _ hn] at h3 h4
          have hl := hlong _ (List.getElem_mem hn)
          unfold AtStart at h3
          unfold AtEnd at h4
          have k1 := (abs_lt.1 h3).1
          have k2 := (abs_lt.1 h4).2
          linarith
      rw [gd i hi] at h2
      rw [gh _ hn] at hym
      rw [gd _ hn] at h3
      exact Or.inr ⟨h1, h2, _, List.getElem?_eq_getElem hn, y, hym, h3, hmem y _ hn hkeep⟩

/-- Two compound curves: what is reported is what the first one reports with each span of the second, in
    order. -/
theorem C74_compound_compound {find : Curve K V → Curve K V → Res (List (Hit P K B))} {spans others : List (Curve K V)}
    {outs : Curve K V → List (Hit P K B)} (h : ∀ o ∈ others, compoundCurve (fun s => find s o) spans = .ok (outs o)) :
    compoundCompound find spans others = .ok (others.flatMap outs) := by
  rw [compoundCompound, mapM_ok h, ok_bind, List.flatMap_def]
  rfl

/-! ### Witness, and what the culling loses -/

/-- Two spans: from `(0, 0)` to `(1, 0)` and on to `(1, 1)`. -/
def exLeg : Curve ℚ ((ℚ × ℚ) × ℚ) := ⟨1, [((0, 0), 1), ((1, 0), 1)], [0, 0, 1, 1]⟩
def exLeg' : Curve ℚ ((ℚ × ℚ) × ℚ) := ⟨1, [((1, 0), 1), ((1, 1), 1)], [1, 1, 2, 2]⟩

/-- The straight line from `(0, 0)` to `(1, 1)`. -/
def exCut : Curve ℚ ((ℚ × ℚ) × ℚ) := ⟨1, [((0, 0), 1), ((1, 1), 1)], [0, 0, 1, 1]⟩

/-- An open compound curve loses an intersection: the line meets it at its start and at its end, the two spans
    report these two hits, but the one at the end is culled as if it were a copy of the one at the start. -/
theorem C74_open_end_lost :
    (exLeg.pointAt (1/1000) 0 = .ok (0, 0) ∧ exCut.pointAt (1/1000) 0 = .ok (0, 0)) ∧
    (exLeg'.pointAt (1/1000) 2 = .ok (1, 1) ∧ exCut.pointAt (1/1000) 1 = .ok (1, 1)) ∧
    exLeg.pointAt (1/1000) 1 = exLeg'.pointAt (1/1000) 1 ∧
    ∀ find : Curve ℚ ((ℚ × ℚ) × ℚ) → Res (List (Hit (ℚ × ℚ) ℚ ℚ)),
      find exLeg = .ok [⟨((0, 0), 0), ((0, 0), 0)⟩] → find exLeg' = .ok [⟨((1, 1), 2), ((1, 1), 1)⟩] →
      compoundCurve find [exLeg, exLeg'] = .ok [⟨((0, 0), 0), ((0, 0), 0)⟩] := by
  refine ⟨⟨by decide +kernel, by decide +kernel⟩, ⟨by decide +kernel, by decide +kernel⟩, by decide +kernel, ?_⟩
  intro find h1 h2
  rw [compoundCurve]
  simp only [List.mapM_cons, List.mapM_nil, h1, h2, ok_bind, pure_bind]
  decide +kernel

/-- Witness: a hit at the common point of two spans, found on both, is reported once. -/
example : ∀ find : Curve ℚ ((ℚ × ℚ) × ℚ) → Res (List (Hit (ℚ × ℚ) ℚ ℚ)),
    find exLeg = .ok [⟨((1, 0), 1), ((1, 0), 0)⟩] → find exLeg' = .ok [⟨((1, 0), 1), ((1, 0), 0)⟩] →
    compoundCurve find [exLeg, exLeg'] = .ok [⟨((1, 0), 1), ((1, 0), 0)⟩] := by
  intro find h1 h2
  rw [compoundCurve]
  simp only [List.mapM_cons, List.mapM_nil, h1, h2, ok_bind, pure_bind]
  decide +kernel

end Curvo.Props

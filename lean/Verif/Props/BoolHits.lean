/-
  Property theorems about the intersections handed over by the entry points of the boolean operations: C98.
-/
import Verif.Props.BoolBoundary
import Verif.Props.IntersectCompound

set_option linter.unusedSectionVars false
set_option linter.unusedSimpArgs false

namespace Curvo.Props

open Curvo Curvo.Spec Curvo.Curve Curvo.Boolean Curvo.Intersect

variable {K : Type} [Field K] [LinearOrder K] [IsStrictOrderedRing K]

/-! ### Specification -/

/-- The boolean operation that the types of the operands select, boolean_curve.rs and boolean_compound_curve.rs. -/
def booleanOf (E : Env K) (op : Op) : PCurve K ⊕ List (PCurve K) → PCurve K ⊕ List (PCurve K) → Res (List (Region (List (PCurve K))))
  | .inl a, .inl b => E.curveCurve op a b
  | .inl a, .inr b => E.curveCompound op a b
  | .inr a, .inl b => E.compoundCurve op a b
  | .inr a, .inr b => E.compoundCompound op a b

/-- `X c d s t`: curve `c` at `s` meets curve `d` at `t`. The search of two curves finds these, and gives the points. -/
structure Finds (E : Env K) (X : PCurve K → PCurve K → K → K → Prop) (c d : PCurve K) (hs : List (Hit (Fin 2 → K) K K)) : Prop where
  found : E.find c d = .ok hs
  exact : ∀ s t, (∃ h ∈ hs, h.a.2 = s ∧ h.b.2 = t) ↔ X c d s t
  points : ∀ h ∈ hs, c.pointAt E.eps h.a.2 = .ok h.a.1 ∧ d.pointAt E.eps h.b.2 = .ok h.b.1

/-- The span `c` meets `d` within a hundredth of its end, and the span that follows it meets `d` within a hundredth of its
    start. -/
def AtJoint (X : PCurve K → PCurve K → K → K → Prop) (spans : List (PCurve K)) (c d : PCurve K) (s : K) : Prop :=
  1 < spans.length ∧ |c.hi - s| < 1 / 100 ∧ ∃ i c', spans[i]? = some c ∧ spans[(i + 1) % spans.length]? = some c' ∧
    ∃ s' t', X c' d s' t' ∧ |c'.lo - s'| < 1 / 100

/-- The meetings that may be left out: those at the joints of a compound subject, or else of a compound clip. -/
def LeftOut (X : PCurve K → PCurve K → K → K → Prop) : PCurve K ⊕ List (PCurve K) → PCurve K ⊕ List (PCurve K) →
    PCurve K → PCurve K → K → K → Prop
  | .inl _, .inl _, _, _, _, _ => False
  | .inl _, .inr spans, c, d, _, t => AtJoint X spans d c t
  | .inr spans, _, c, d, s, _ => AtJoint X spans c d s

/-- A hit names a span of the subject and one of the clip, which meet at its parameters, in its points. -/
structure Names (E : Env K) (X : PCurve K → PCurve K → K → K → Prop) (as bs : List (PCurve K)) (h : CHit K) : Prop where
  a : h.a.1.1 ∈ as
  b : h.b.1.1 ∈ bs
  meet : X h.a.1.1 h.b.1.1 h.a.2 h.b.2
  pa : h.a.1.1.pointAt E.eps h.a.2 = .ok h.a.1.2
  pb : h.b.1.1.pointAt E.eps h.b.2 = .ok h.b.1.2

/-! ### Proofs -/

def tagged (c d : PCurve K) (hs : List (Hit (Fin 2 → K) K K)) : List (CHit K) :=
  hs.map fun h => ⟨((c, h.a.1), h.a.2), ((d, h.b.1), h.b.2)⟩

variable {E : Env K} {X : PCurve K → PCurve K → K → K → Prop}

theorem tagged_names {c d : PCurve K} {hs : List (Hit (Fin 2 → K) K K)} (h : Finds E X c d hs) {as bs : List (PCurve K)}
    (ha : c ∈ as) (hb : d ∈ bs) : ∀ x ∈ tagged c d hs, Names E X as bs x := by
  intro x hx
  obtain ⟨y, hy, rfl⟩ := List.mem_map.1 hx
  exact ⟨ha, hb, (h.exact _ _).1 ⟨y, hy, rfl, rfl⟩, (h.points y hy).1, (h.points y hy).2⟩

theorem tagged_has {c d : PCurve K} {hs : List (Hit (Fin 2 → K) K K)} (h : Finds E X c d hs) {s t : K} (hx : X c d s t) :
    ∃ x ∈ tagged c d hs, x.a.1.1 = c ∧ x.a.2 = s ∧ x.b.1.1 = d ∧ x.b.2 = t := by
  obtain ⟨y, hy, e1, e2⟩ := (h.exact s t).2 hx
  exact ⟨_, List.mem_map.2 ⟨y, hy, rfl⟩, rfl, e1, rfl, e2⟩

theorem findTagged_ok {c d : PCurve K} {hs : List (Hit (Fin 2 → K) K K)} (h : Finds E X c d hs) :
    E.findTagged c d = .ok (tagged c d hs) := by
  rw [Env.findTagged, h.found]
  rfl

/-- The intersections of the spans with one curve. -/
theorem spans_hits {spans : List (PCurve K)} {d : PCurve K} (hg : ∀ c ∈ spans, c.Good E.eps)
    (hf : ∀ c ∈ spans, ∃ hs, Finds E X c d hs) :
    ∃ out, Intersect.compoundCurve (fun s => E.findTagged s d) spans = .ok out ∧
      (∀ x ∈ out, Names E X spans [d] x) ∧
      ∀ c ∈ spans, ∀ s t, X c d s t →
        (∃ x ∈ out, x.a.1.1 = c ∧ x.a.2 = s ∧ x.b.1.1 = d ∧ x.b.2 = t) ∨ AtJoint X spans c d s := by
  classical
  choose! hs hhs using hf
  obtain ⟨out, e, h1, h2, -⟩ := C74_compound (find := fun s => E.findTagged s d) (spans := spans)
    (hits := fun c => tagged c d (hs c)) (dom := fun c => (c.lo, c.hi))
    (fun c hc => findTagged_ok (hhs c hc)) (fun c hc => knotsDomain_eq (hg c hc))
  refine ⟨out, e, ?_, ?_⟩
  · intro x hx
    obtain ⟨c, hc, hx⟩ := h1 x hx
    exact tagged_names (hhs c hc) hc (List.mem_singleton.2 rfl) x hx
  · intro c hc s t hX
    obtain ⟨i, hi, rfl⟩ := List.getElem_of_mem hc
    obtain ⟨x, hx, e1, e2, e3, e4⟩ := tagged_has (hhs _ hc) hX
    rcases h2 i hi x hx with h | ⟨g1, g2, c', g3, y, g4, g5⟩
    · exact .inl ⟨x, h, e1, e2, e3, e4⟩
    · refine .inr ⟨g1, ?_, i, c', List.getElem?_eq_getElem hi, g3, y.a.2, y.b.2, ?_, g5⟩
      · rw [← e2]; exact g2
      · have hc' : c' ∈ spans := List.mem_of_getElem? g3
        have hn := tagged_names (hhs c' hc') (as := [c']) (bs := [d]) (by simp) (by simp) y g4
        have a := List.mem_singleton.1 hn.a
        have b := List.mem_singleton.1 hn.b
        have := hn.meet
        rwa [a, b] at this

/-- Every boolean operation clips with intersections that name a span of the subject on the first side and a span of the clip
    on the second side, with the parameters and the points where they meet; all meetings of the spans are there, except some
    at the joints of compound curves. A curve clipped by a compound curve gets them in the order of its own parameter. -/
theorem C98_handed_over (op : Op) {subject other : PCurve K ⊕ List (PCurve K)}
    (hs : ∀ c ∈ spansOf subject, c.Good E.eps) (ho : ∀ c ∈ spansOf other, c.Good E.eps)
    (hsym : ∀ c d s t, X c d s t ↔ X d c t s)
    (hf : ∀ c ∈ spansOf subject, ∀ d ∈ spansOf other, (∃ l, Finds E X c d l) ∧ ∃ l, Finds E X d c l) :
    ∃ hits, booleanOf E op subject other = E.clip op subject other hits ∧
      (∀ h ∈ hits, Names E X (spansOf subject) (spansOf other) h) ∧
      (∀ c ∈ spansOf subject, ∀ d ∈ spansOf other, ∀ s t, X c d s t →
        (∃ h ∈ hits, h.a.1.1 = c ∧ h.a.2 = s ∧ h.b.1.1 = d ∧ h.b.2 = t) ∨ LeftOut X subject other c d s t) ∧
      (∀ a b, subject = .inl a → other = .inr b → hits.Pairwise fun x y => x.a.2 ≤ y.a.2) := by
  classical
  cases subject with
  | inl a =>
    cases other with
    | inl b =>
      obtain ⟨l, hl⟩ := (hf a (by simp [spansOf]) b (by simp [spansOf])).1
      refine ⟨tagged a b l, ?_, tagged_names hl (by simp [spansOf]) (by simp [spansOf]), ?_, ?_⟩
      · show E.curveCurve op a b = _
        rw [Env.curveCurve, findTagged_ok hl, ok_bind]
      · intro c hc d hd s t hX
        obtain rfl := List.mem_singleton.1 hc
        obtain rfl := List.mem_singleton.1 hd
        exact .inl (tagged_has hl hX)
      · intro _ _ _ h
        cases h
    | inr spans =>
      obtain ⟨out, e, h1, h2⟩ := spans_hits (X := X) (d := a) (spans := spans) ho
        (fun c hc => (hf a (by simp [spansOf]) c hc).2)
      refine ⟨(out.insertionSort fun x y => x.b.2 ≤ y.b.2).map fun h => ⟨h.b, h.a⟩, ?_, ?_, ?_, ?_⟩
      · show E.curveCompound op a spans = _
        rw [Env.curveCompound, e, ok_bind]
      · intro h hh
        obtain ⟨x, hx, rfl⟩ := List.mem_map.1 hh
        rw [List.mem_insertionSort] at hx
        obtain ⟨n1, n2, n3, n4, n5⟩ := h1 x hx
        exact ⟨n2, n1, (hsym _ _ _ _).1 n3, n5, n4⟩
      · intro c hc d hd s t hX
        obtain rfl := List.mem_singleton.1 hc
        refine (h2 d hd t s ((hsym _ _ _ _).1 hX)).imp ?_ id
        rintro ⟨x, hx, e1, e2, e3, e4⟩
        exact ⟨⟨x.b, x.a⟩, List.mem_map.2 ⟨x, (List.mem_insertionSort _).2 hx, rfl⟩, e3, e4, e1, e2⟩
      · intro _ _ _ _
        rw [List.pairwise_map]
        have : Std.Total fun x y : CHit K => x.b.2 ≤ y.b.2 := ⟨fun x y => le_total _ _⟩
        have : IsTrans (CHit K) fun x y => x.b.2 ≤ y.b.2 := ⟨fun x y z => le_trans⟩
        exact List.pairwise_insertionSort _ _
  | inr spans =>
    cases other with
    | inl b =>
      obtain ⟨out, e, h1, h2⟩ := spans_hits (X := X) (d := b) (spans := spans) hs
        (fun c hc => (hf c hc b (by simp [spansOf])).1)
      refine ⟨out, ?_, h1, ?_, ?_⟩
      · show E.compoundCurve op spans b = _
        rw [Env.compoundCurve, e, ok_bind]
      · intro c hc d hd s t hX
        obtain rfl := List.mem_singleton.1 hd
        exact h2 c hc s t hX
      · intro _ _ h
        cases h
    | inr others =>
      have : ∀ d ∈ others, ∃ out, Intersect.compoundCurve (fun s => E.findTagged s d) spans = .ok out ∧
          (∀ x ∈ out, Names E X spans [d] x) ∧
          ∀ c ∈ spans, ∀ s t, X c d s t →
            (∃ x ∈ out, x.a.1.1 = c ∧ x.a.2 = s ∧ x.b.1.1 = d ∧ x.b.2 = t) ∨ AtJoint X spans c d s :=
        fun d hd => spans_hits (X := X) (d := d) (spans := spans) hs (fun c hc => (hf c hc d hd).1)
      choose! outs o1 o2 o3 using this
      refine ⟨others.flatMap outs, ?_, ?_, ?_, ?_⟩
      · show E.compoundCompound op spans others = _
        rw [Env.compoundCompound, C74_compound_compound (outs := outs) o1, ok_bind]
      · intro h hh
        obtain ⟨d, hd, hh⟩ := List.mem_flatMap.1 hh
        obtain ⟨n1, n2, n3, n4, n5⟩ := o2 d hd h hh
        exact ⟨n1, by rw [List.mem_singleton.1 n2]; exact hd, n3, n4, n5⟩
      · intro c hc d hd s t hX
        refine (o3 d hd c hc s t hX).imp ?_ id
        rintro ⟨x, hx, g⟩
        exact ⟨x, List.mem_flatMap.2 ⟨d, hd, hx⟩, g⟩
      · intro _ _ h
        cases h

/-! ### Witness -/

/-- The squares of `exYardEnv` with a search that finds their two crossings, whichever of them comes first. -/
def exSearch : Env ℚ where
  norm := exYardEnv.norm
  eps := exYardEnv.eps
  tol := exYardEnv.tol
  joinTol := exYardEnv.joinTol
  trimTol := exYardEnv.trimTol
  contains := exYardEnv.contains
  containsC := exYardEnv.containsC
  find c d :=
    if c.knots = exYardA.knots ∧ d.knots = exField.knots then .ok [⟨(![4, 2], 1 / 2), (![4, 2], 3 / 2)⟩]
    else if c.knots = exYardB.knots ∧ d.knots = exField.knots then .ok [⟨(![2, 4], 7 / 2), (![2, 4], 5 / 2)⟩]
    else if d.knots = exYardA.knots ∧ c.knots = exField.knots then .ok [⟨(![4, 2], 3 / 2), (![4, 2], 1 / 2)⟩]
    else if d.knots = exYardB.knots ∧ c.knots = exField.knots then .ok [⟨(![2, 4], 5 / 2), (![2, 4], 7 / 2)⟩]
    else .ok []

/-- Where the boundaries of the squares meet. -/
def exMeets (c d : PCurve ℚ) (s t : ℚ) : Prop :=
  (c = exYardA ∧ d = exField ∧ s = 1 / 2 ∧ t = 3 / 2) ∨ (c = exYardB ∧ d = exField ∧ s = 7 / 2 ∧ t = 5 / 2) ∨
  (d = exYardA ∧ c = exField ∧ t = 1 / 2 ∧ s = 3 / 2) ∨ (d = exYardB ∧ c = exField ∧ t = 7 / 2 ∧ s = 5 / 2)

theorem exKnots_ne : exYardA.knots ≠ exField.knots ∧ exYardB.knots ≠ exField.knots ∧ exYardA.knots ≠ exYardB.knots := by
  decide +kernel

theorem exCurves_ne : exYardA ≠ exField ∧ exYardB ≠ exField ∧ exYardA ≠ exYardB :=
  ⟨fun h => exKnots_ne.1 (by rw [h]), fun h => exKnots_ne.2.1 (by rw [h]), fun h => exKnots_ne.2.2 (by rw [h])⟩

theorem exSearch_finds : ∀ c ∈ spansOf exField', ∀ d ∈ spansOf exYard',
    (∃ l, Finds exSearch exMeets c d l) ∧ ∃ l, Finds exSearch exMeets d c l := by
  obtain ⟨k1, k2, k3⟩ := exKnots_ne
  obtain ⟨c1, c2, c3⟩ := exCurves_ne
  intro c hc d hd
  obtain rfl : c = exField := by simpa [spansOf, exField'] using hc
  have hd : d = exYardA ∨ d = exYardB := by simpa [spansOf, exYard'] using hd
  rcases hd with rfl | rfl
  · refine ⟨⟨[⟨(![4, 2], 3 / 2), (![4, 2], 1 / 2)⟩], ?_, ?_, ?_⟩, ⟨[⟨(![4, 2], 1 / 2), (![4, 2], 3 / 2)⟩], ?_, ?_, ?_⟩⟩
    · simp [exSearch, k1, k1.symm, k2.symm]
    · intro s t; simp [exMeets, c1, c1.symm, c2.symm, c3]; constructor <;> rintro ⟨rfl, rfl⟩ <;> exact ⟨rfl, rfl⟩
    · intro h hh
      obtain rfl := List.mem_singleton.1 hh
      exact ⟨res_eq_of_ofFn (by decide +kernel), res_eq_of_ofFn (by decide +kernel)⟩
    · simp [exSearch]
    · intro s t; simp [exMeets, c1, c1.symm, c2.symm, c3]; constructor <;> rintro ⟨rfl, rfl⟩ <;> exact ⟨rfl, rfl⟩
    · intro h hh
      obtain rfl := List.mem_singleton.1 hh
      exact ⟨res_eq_of_ofFn (by decide +kernel), res_eq_of_ofFn (by decide +kernel)⟩
  · refine ⟨⟨[⟨(![2, 4], 5 / 2), (![2, 4], 7 / 2)⟩], ?_, ?_, ?_⟩, ⟨[⟨(![2, 4], 7 / 2), (![2, 4], 5 / 2)⟩], ?_, ?_, ?_⟩⟩
    · simp [exSearch, k1, k1.symm, k2, k2.symm, k3.symm]
    · intro s t; simp [exMeets, c1, c1.symm, c2, c2.symm, c3.symm]; constructor <;> rintro ⟨rfl, rfl⟩ <;> exact ⟨rfl, rfl⟩
    · intro h hh
      obtain rfl := List.mem_singleton.1 hh
      exact ⟨res_eq_of_ofFn (by decide +kernel), res_eq_of_ofFn (by decide +kernel)⟩
    · simp [exSearch, k3.symm]
    · intro s t; simp [exMeets, c1, c1.symm, c2, c2.symm, c3.symm]; constructor <;> rintro ⟨rfl, rfl⟩ <;> exact ⟨rfl, rfl⟩
    · intro h hh
      obtain rfl := List.mem_singleton.1 hh
      exact ⟨res_eq_of_ofFn (by decide +kernel), res_eq_of_ofFn (by decide +kernel)⟩

theorem exMeets_symm (c d : PCurve ℚ) (s t : ℚ) : exMeets c d s t ↔ exMeets d c t s := by
  unfold exMeets
  constructor
  · rintro (h | h | h | h)
    · exact .inr (.inr (.inl h))
    · exact .inr (.inr (.inr h))
    · exact .inl h
    · exact .inr (.inl h)
  · rintro (h | h | h | h)
    · exact .inr (.inr (.inl h))
    · exact .inr (.inr (.inr h))
    · exact .inl h
    · exact .inr (.inl h)

/-- Witness: a curve clipped by a compound curve, and the other way round. -/
example (op : Op) : ∃ hits, booleanOf exSearch op exField' exYard' = exSearch.clip op exField' exYard' hits ∧
    (∀ h ∈ hits, Names exSearch exMeets (spansOf exField') (spansOf exYard') h) := by
  obtain ⟨hits, h1, h2, -⟩ := C98_handed_over (E := exSearch) (X := exMeets) op (subject := exField') (other := exYard')
    (by
      intro c hc
      obtain rfl : c = exField := by simpa [spansOf, exField'] using hc
      exact exField_whole.fine.good)
    (by
      intro c hc
      have hd : c = exYardA ∨ c = exYardB := by simpa [spansOf, exYard'] using hc
      rcases hd with rfl | rfl
      · exact exYardA_whole.fine.good
      · exact exYardB_whole.fine.good)
    exMeets_symm exSearch_finds
  exact ⟨hits, h1, h2⟩

/-- The whole operation on the curve and the compound curve: the search, the order of the sides and the clipping. -/
theorem C98_squares (op : Op) : ∃ rs, exSearch.curveCompound op exField [exYardA, exYardB] = .ok rs ∧
    (∀ r ∈ rs, r.interiors = [] ∧ ClosedLoop exSearch.joinTol (fun p q => exSearch.norm (p - q)) r.exterior) ∧
    ∀ Q, Trace exSearch.eps (rs.flatMap fun r => r.exterior) Q ↔
      ∃ s : Bool, ∃ c ∈ spansOf (if s then exField' else exYard'), ∃ t, c.lo ≤ t ∧ t ≤ c.hi ∧ c.pointAt exSearch.eps t = .ok Q ∧
        (t ∈ (exCorners.map fun x => keyOf s (interOf x)) ∨ exInside s t = wantsInside op s) := by
  obtain ⟨k1, k2, k3⟩ := exKnots_ne
  have f1 : exSearch.findTagged exYardA exField = .ok [⟨((exYardA, ![4, 2]), 1 / 2), ((exField, ![4, 2]), 3 / 2)⟩] := by
    simp [Env.findTagged, exSearch, bind, Except.bind, pure, Except.pure]
  have f2 : exSearch.findTagged exYardB exField = .ok [⟨((exYardB, ![2, 4]), 7 / 2), ((exField, ![2, 4]), 5 / 2)⟩] := by
    simp [Env.findTagged, exSearch, bind, Except.bind, pure, Except.pure, k3.symm]
  have d1 : exYardA.knotsDomain = .ok (0, 2) := by decide +kernel
  have d2 : exYardB.knotsDomain = .ok (2, 4) := by decide +kernel
  have h : Intersect.compoundCurve (fun s => exSearch.findTagged s exField) [exYardA, exYardB] =
      .ok [⟨((exYardA, ![4, 2]), 1 / 2), ((exField, ![4, 2]), 3 / 2)⟩, ⟨((exYardB, ![2, 4]), 7 / 2), ((exField, ![2, 4]), 5 / 2)⟩] := by
    rw [Intersect.compoundCurve]
    simp only [List.mapM_cons, List.mapM_nil, f1, f2, d1, d2, ok_bind, pure_bind]
    norm_num [cull, windows, cullStep, getR, setR, cullTol, List.range_succ, bind, Except.bind, pure, Except.pure]
  have e : exSearch.curveCompound op exField [exYardA, exYardB] = exYardEnv.clip op exField' exYard' exCorners := by
    rw [Env.curveCompound, h, ok_bind]
    have : (([⟨((exYardA, ![4, 2]), 1 / 2), ((exField, ![4, 2]), 3 / 2)⟩, ⟨((exYardB, ![2, 4]), 7 / 2), ((exField, ![2, 4]), 5 / 2)⟩] :
        List (CHit ℚ)).insertionSort fun x y => x.b.2 ≤ y.b.2).map (fun h => (⟨h.b, h.a⟩ : CHit ℚ)) = exCorners := by
      norm_num [List.insertionSort, List.orderedInsert, exCorners]
    simp only [this]
    rfl
  rw [e]
  obtain ⟨rs, r1, r2, r3⟩ := C87_boundary exYard_metric le_rfl (by norm_num [exYardEnv]) (by norm_num [exYardEnv])
    (by norm_num [exYardEnv]) op exCorners_regular (by rfl) (by simp [exCorners]) exYard_crossing exInside_flips
    (by decide +kernel) (by decide +kernel)
  exact ⟨rs, r1, r2, r3⟩

end Curvo.Props

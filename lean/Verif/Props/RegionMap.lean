/-
  Property theorems: boolean operations of regions on moved curves, C116.
-/
import Verif.Props.MovedBool

set_option linter.unusedSectionVars false
set_option linter.unusedSimpArgs false

namespace Curvo.Props

open Curvo Curvo.Boolean

section regions
variable {C C' P P' : Type} {f : C → C'} {g : P → P'} {contains : C → P → Res Bool} {contains' : C' → P' → Res Bool}
    {first : C → P} {first' : C' → P'} {bool : Op → C → C → Res (List (Region C))} {bool' : Op → C' → C' → Res (List (Region C'))}

theorem eraseIdx_map' {α β : Type} (f : α → β) : ∀ (l : List α) (i : ℕ), (l.map f).eraseIdx i = (l.eraseIdx i).map f
  | [], _ => rfl
  | _ :: _, 0 => rfl
  | a :: l, i + 1 => by simp [eraseIdx_map' f l i]

theorem distributeTo_map (hc : ∀ c p, contains' (f c) (g p) = contains c p) (hf : ∀ c, first' (f c) = g (first c)) :
    ∀ (i : ℕ) (r : Region C) (its : List C), distributeTo contains' first' i (Bool2.mapRegion f r) (its.map f) =
      Except.map (Prod.map (Bool2.mapRegion f) (List.map f)) (distributeTo contains first i r its)
  | 0, _, _ => rfl
  | i + 1, r, its => by
    rw [distributeTo, distributeTo, getR_map, bind_map', map_bind']
    refine bind_congr fun it => ?_
    have e : contains' (Bool2.mapRegion f r).exterior (first' (f it)) = contains r.exterior (first it) := by
      rw [hf]; exact hc _ _
    rw [e, map_bind']
    refine bind_congr fun b => ?_
    rw [map_ite', eraseIdx_map', ← distributeTo_map hc hf i r its, ← distributeTo_map hc hf i { r with interiors := r.interiors ++ [it] }]
    simp [Bool2.mapRegion]

theorem distribute_map (hc : ∀ c p, contains' (f c) (g p) = contains c p) (hf : ∀ c, first' (f c) = g (first c)) :
    ∀ (rs : List (Region C)) (its : List C), distribute contains' first' (rs.map (Bool2.mapRegion f)) (its.map f) =
      Except.map (Prod.map (List.map (Bool2.mapRegion f)) (List.map f)) (distribute contains first rs its)
  | [], _ => rfl
  | r :: rs, its => by
    rw [List.map_cons, distribute, distribute, List.length_map, distributeTo_map hc hf, bind_map', map_bind']
    refine bind_congr fun x => ?_
    obtain ⟨r', its'⟩ := x
    simp only [Prod.map]
    rw [distribute_map hc hf rs its', bind_map', map_bind']
    rfl

theorem exteriors_map (rs : List (Region C)) : exteriors (rs.map (Bool2.mapRegion f)) = (exteriors rs).map f := by
  simp [exteriors, Bool2.mapRegion]

theorem regionUnion_map (hb : ∀ op a b, bool' op (f a) (f b) = Except.map (List.map (Bool2.mapRegion f)) (bool op a b)) (r : Region C) (o : C) :
    regionUnion bool' (Bool2.mapRegion f r) (f o) = Except.map (List.map (Bool2.mapRegion f)) (regionUnion bool r o) := by
  rw [regionUnion, regionUnion]
  have e0 : bool' .union (Bool2.mapRegion f r).exterior (f o) = Except.map (List.map (Bool2.mapRegion f)) (bool .union r.exterior o) := hb _ _ _
  rw [e0, bind_map', map_bind']
  refine bind_congr fun ext => ?_
  cases ext with
  | nil => rfl
  | cons e ext =>
    simp only [List.map_cons]
    have e1 : (Bool2.mapRegion f r).interiors.mapM (fun i => bool' .diff i (f o)) =
        Except.map (List.map (List.map (Bool2.mapRegion f))) (r.interiors.mapM fun i => bool .diff i o) :=
      mapM_map' (f := fun i => bool .diff i o) (f' := fun i => bool' .diff i (f o)) (g := f) _ (fun x => hb _ _ _) _
    rw [e1, bind_map', map_bind']
    refine bind_congr fun ints => ?_
    have e2 : ((ints.map (List.map (Bool2.mapRegion f))).map exteriors).flatten = ((ints.map exteriors).flatten).map f := by
      rw [List.map_flatten, List.map_map, List.map_map]
      congr 1
      exact List.map_congr_left fun x _ => exteriors_map x
    rw [e2]
    rfl

theorem mergeHoles_map (hb : ∀ op a b, bool' op (f a) (f b) = Except.map (List.map (Bool2.mapRegion f)) (bool op a b)) :
    ∀ (is : List C) (cur : C) (ints : List C), mergeHoles bool' (is.map f) (f cur) (ints.map f) =
      Except.map (Prod.map f (List.map f)) (mergeHoles bool is cur ints)
  | [], _, _ => rfl
  | i :: is, cur, ints => by
    rw [List.map_cons, mergeHoles, mergeHoles, hb, bind_map', map_bind']
    refine bind_congr fun u => ?_
    cases u with
    | nil => exact mergeHoles_map hb is cur ints
    | cons h rest =>
      simp only [List.map_cons]
      rw [exteriors_map, ← List.map_append]
      exact mergeHoles_map hb is h.exterior (ints ++ exteriors rest)

theorem regionDiff_map (hc : ∀ c p, contains' (f c) (g p) = contains c p) (hf : ∀ c, first' (f c) = g (first c))
    (hb : ∀ op a b, bool' op (f a) (f b) = Except.map (List.map (Bool2.mapRegion f)) (bool op a b)) (r : Region C) (o : C) :
    regionDiff contains' first' bool' (Bool2.mapRegion f r) (f o) =
      Except.map (List.map (Bool2.mapRegion f)) (regionDiff contains first bool r o) := by
  rw [regionDiff, regionDiff]
  have e0 := mergeHoles_map hb r.interiors o []
  have e1 : (Bool2.mapRegion f r).interiors = r.interiors.map f := rfl
  rw [List.map_nil] at e0
  rw [e1, e0, bind_map', map_bind']
  refine bind_congr fun x => ?_
  obtain ⟨cur, ints⟩ := x
  simp only [Prod.map]
  have e2 : bool' .diff (Bool2.mapRegion f r).exterior (f cur) = Except.map (List.map (Bool2.mapRegion f)) (bool .diff r.exterior cur) := hb _ _ _
  rw [e2, bind_map', map_bind']
  refine bind_congr fun rs => ?_
  rw [distribute_map hc hf, bind_map', map_bind']
  rfl

theorem cutHoles_map (hc : ∀ c p, contains' (f c) (g p) = contains c p) (hf : ∀ c, first' (f c) = g (first c))
    (hb : ∀ op a b, bool' op (f a) (f b) = Except.map (List.map (Bool2.mapRegion f)) (bool op a b)) :
    ∀ (is : List C) (clips : List (Region C)), cutHoles contains' first' bool' (is.map f) (clips.map (Bool2.mapRegion f)) =
      Except.map (List.map (Bool2.mapRegion f)) (cutHoles contains first bool is clips)
  | [], _ => rfl
  | i :: is, clips => by
    rw [List.map_cons, cutHoles, cutHoles]
    have e := mapM_map' (g := Bool2.mapRegion f) (List.map (Bool2.mapRegion f))
      (f := fun c => regionDiff contains first bool c i >>= fun rs => distribute contains first rs c.interiors >>= fun x => pure x.1)
      (f' := fun c => regionDiff contains' first' bool' c (f i) >>= fun rs => distribute contains' first' rs c.interiors >>= fun x => pure x.1)
      (fun c => by
        rw [regionDiff_map hc hf hb, bind_map', map_bind']
        refine bind_congr fun rs => ?_
        have e1 : (Bool2.mapRegion f c).interiors = c.interiors.map f := rfl
        rw [e1, distribute_map hc hf, bind_map', map_bind']
        rfl) clips
    refine (congrArg (fun x => x >>= fun next => cutHoles contains' first' bool' (is.map f) next.flatten) e).trans ?_
    rw [bind_map', map_bind']
    refine bind_congr fun next => ?_
    rw [← List.map_flatten]
    exact cutHoles_map hc hf hb is next.flatten

theorem regionInter_map (hc : ∀ c p, contains' (f c) (g p) = contains c p) (hf : ∀ c, first' (f c) = g (first c))
    (hb : ∀ op a b, bool' op (f a) (f b) = Except.map (List.map (Bool2.mapRegion f)) (bool op a b)) (r : Region C) (o : C) :
    regionInter contains' first' bool' (Bool2.mapRegion f r) (f o) =
      Except.map (List.map (Bool2.mapRegion f)) (regionInter contains first bool r o) := by
  rw [regionInter, regionInter]
  have e0 := cutHoles_map hc hf hb r.interiors [⟨o, []⟩]
  have e1 : (Bool2.mapRegion f r).interiors = r.interiors.map f := rfl
  have e2 : [(⟨f o, []⟩ : Region C')] = [(⟨o, []⟩ : Region C)].map (Bool2.mapRegion f) := rfl
  rw [e1, e2, e0, bind_map', map_bind']
  refine bind_congr fun clips => ?_
  have e := mapM_map' (g := Bool2.mapRegion f) (List.map (Bool2.mapRegion f))
      (f := fun c => bool .inter r.exterior c.exterior >>= fun rs => distribute contains first rs c.interiors >>= fun x => pure x.1)
      (f' := fun c => bool' .inter (Bool2.mapRegion f r).exterior c.exterior >>= fun rs =>
        distribute contains' first' rs c.interiors >>= fun x => pure x.1)
      (fun c => by
        have e3 : bool' .inter (Bool2.mapRegion f r).exterior (Bool2.mapRegion f c).exterior =
          Except.map (List.map (Bool2.mapRegion f)) (bool .inter r.exterior c.exterior) := hb _ _ _
        rw [e3, bind_map', map_bind']
        refine bind_congr fun rs => ?_
        have e1 : (Bool2.mapRegion f c).interiors = c.interiors.map f := rfl
        rw [e1, distribute_map hc hf, bind_map', map_bind']
        rfl) clips
  refine (congrArg (fun x => x >>= fun rs => pure rs.flatten) e).trans ?_
  rw [bind_map', map_bind']
  refine bind_congr fun rs => ?_
  rw [← List.map_flatten]
  rfl

theorem regionCurve_map (hc : ∀ c p, contains' (f c) (g p) = contains c p) (hf : ∀ c, first' (f c) = g (first c))
    (hb : ∀ op a b, bool' op (f a) (f b) = Except.map (List.map (Bool2.mapRegion f)) (bool op a b)) (op : Op) (r : Region C) (o : C) :
    regionCurve contains' first' bool' op (Bool2.mapRegion f r) (f o) =
      Except.map (List.map (Bool2.mapRegion f)) (regionCurve contains first bool op r o) := by
  cases op with
  | union => exact regionUnion_map hb r o
  | inter => exact regionInter_map hc hf hb r o
  | diff => exact regionDiff_map hc hf hb r o

theorem cutOther_map (hc : ∀ c p, contains' (f c) (g p) = contains c p) (hf : ∀ c, first' (f c) = g (first c))
    (hb : ∀ op a b, bool' op (f a) (f b) = Except.map (List.map (Bool2.mapRegion f)) (bool op a b)) (op : Op) :
    ∀ (is : List C) (rs : List (Region C)), cutOther contains' first' bool' op (is.map f) (rs.map (Bool2.mapRegion f)) =
      Except.map (List.map (Bool2.mapRegion f)) (cutOther contains first bool op is rs)
  | [], _ => by cases op <;> rfl
  | i :: is, rs => by
    have e := mapM_map' (g := Bool2.mapRegion f) (List.map (Bool2.mapRegion f))
      (f := fun r => regionCurve contains first bool .diff r i) (f' := fun r => regionCurve contains' first' bool' .diff r (f i))
      (fun r => regionCurve_map hc hf hb .diff r i) rs
    have ih := cutOther_map hc hf hb op is
    rw [List.map_cons]
    cases op with
    | diff => exact ih rs
    | union =>
      rw [cutOther, cutOther, e, bind_map', map_bind']
      refine bind_congr fun next => ?_
      rw [← List.map_flatten]
      exact ih next.flatten
    | inter =>
      rw [cutOther, cutOther, e, bind_map', map_bind']
      refine bind_congr fun next => ?_
      rw [← List.map_flatten]
      exact ih next.flatten

theorem regionRegion_map (hc : ∀ c p, contains' (f c) (g p) = contains c p) (hf : ∀ c, first' (f c) = g (first c))
    (hb : ∀ op a b, bool' op (f a) (f b) = Except.map (List.map (Bool2.mapRegion f)) (bool op a b)) (op : Op) (r o : Region C) :
    regionRegion contains' first' bool' op (Bool2.mapRegion f r) (Bool2.mapRegion f o) =
      Except.map (List.map (Bool2.mapRegion f)) (regionRegion contains first bool op r o) := by
  rw [regionRegion, regionRegion]
  have e0 : regionCurve contains' first' bool' op (Bool2.mapRegion f r) (Bool2.mapRegion f o).exterior = _ :=
    regionCurve_map hc hf hb op r o.exterior
  rw [e0, bind_map', map_bind']
  exact bind_congr fun rs => cutOther_map hc hf hb op o.interiors rs

end regions

/-! ### A class of curves closed under the operations -/

section closed
variable {C C' P P' : Type} {f : C → C'} {g : P → P'} {contains : C → P → Res Bool} {contains' : C' → P' → Res Bool}
    {first : C → P} {first' : C' → P'} {bool : Op → C → C → Res (List (Region C))} {bool' : Op → C' → C' → Res (List (Region C'))}
    {Q : C → Prop}

/-- Every boundary of a region is in the class. -/
def RegionIn (Q : C → Prop) (r : Region C) : Prop := Q r.exterior ∧ ∀ i ∈ r.interiors, Q i

theorem region_lift {r : Region C} (h : RegionIn Q r) : ∃ r' : Region {c // Q c}, Bool2.mapRegion Subtype.val r' = r := by
  refine ⟨⟨⟨r.exterior, h.1⟩, r.interiors.attach.map fun i => ⟨i.1, h.2 i.1 i.2⟩⟩, ?_⟩
  simp [Bool2.mapRegion, List.map_map, Function.comp_def]

theorem regions_lift : ∀ {rs : List (Region C)}, (∀ r ∈ rs, RegionIn Q r) →
    ∃ rs' : List (Region {c // Q c}), rs'.map (Bool2.mapRegion Subtype.val) = rs
  | [], _ => ⟨[], rfl⟩
  | r :: rs, h => by
    obtain ⟨r', hr⟩ := region_lift (h r (by simp))
    obtain ⟨rs', hrs⟩ := regions_lift (rs := rs) fun x hx => h x (by simp [hx])
    exact ⟨r' :: rs', by simp [hr, hrs]⟩

theorem bool_lift (hQ : ∀ op a b, Q a → Q b → ∀ rs, bool op a b = .ok rs → ∀ r ∈ rs, RegionIn Q r) :
    ∃ bool₁ : Op → {c // Q c} → {c // Q c} → Res (List (Region {c // Q c})),
      ∀ op a b, bool op a.1 b.1 = Except.map (List.map (Bool2.mapRegion Subtype.val)) (bool₁ op a b) := by
  have key : ∀ (op : Op) (a b : {c // Q c}), ∃ x : Res (List (Region {c // Q c})),
      bool op a.1 b.1 = Except.map (List.map (Bool2.mapRegion Subtype.val)) x := by
    intro op a b
    cases h : bool op a.1 b.1 with
    | error e => exact ⟨.error e, rfl⟩
    | ok rs =>
      obtain ⟨rs', e⟩ := regions_lift (hQ op a.1 b.1 a.2 b.2 rs h)
      exact ⟨.ok rs', by rw [← e]; rfl⟩
  choose b₁ hb using key
  exact ⟨b₁, hb⟩

theorem except_map_map {α β γ : Type} (g : β → γ) (f : α → β) (x : Res α) : Except.map g (Except.map f x) = Except.map (fun a => g (f a)) x := by
  cases x <;> rfl

theorem mapRegion_comp {A B D : Type} (g : B → D) (f : A → B) : (fun r => Bool2.mapRegion g (Bool2.mapRegion f r)) = Bool2.mapRegion (fun a => g (f a)) := by
  funext r
  simp [Bool2.mapRegion, List.map_map, Function.comp_def]

/-- **Boolean operations of regions commute with every map of the curves with which the operations on two curves and the containment
    tests commute**, as long as the curves stay in a class closed under these operations: region and curve. -/
theorem C116_region_curve (hQ : ∀ op a b, Q a → Q b → ∀ rs, bool op a b = .ok rs → ∀ r ∈ rs, RegionIn Q r)
    (hc : ∀ c p, Q c → contains' (f c) (g p) = contains c p) (hf : ∀ c, Q c → first' (f c) = g (first c))
    (hb : ∀ op a b, Q a → Q b → bool' op (f a) (f b) = Except.map (List.map (Bool2.mapRegion f)) (bool op a b))
    (op : Op) {r : Region C} {o : C} (hr : RegionIn Q r) (ho : Q o) :
    regionCurve contains' first' bool' op (Bool2.mapRegion f r) (f o) =
      Except.map (List.map (Bool2.mapRegion f)) (regionCurve contains first bool op r o) := by
  obtain ⟨b₁, h₁⟩ := bool_lift hQ
  obtain ⟨r', rfl⟩ := region_lift hr
  have e1 := regionCurve_map (f := (Subtype.val : {c // Q c} → C)) (g := (id : P → P)) (contains := fun c p => contains c.1 p) (contains' := contains)
    (first := fun c => first c.1) (first' := first) (bool := b₁) (bool' := bool) (fun _ _ => rfl) (fun _ => rfl) h₁ op r' ⟨o, ho⟩
  have e2 := regionCurve_map (f := fun c : {c // Q c} => f c.1) (g := g) (contains := fun c p => contains c.1 p) (contains' := contains')
    (first := fun c => first c.1) (first' := first') (bool := b₁) (bool' := bool') (fun c p => hc c.1 p c.2) (fun c => hf c.1 c.2)
    (fun op a b => by
      rw [hb op a.1 b.1 a.2 b.2, h₁ op a b, except_map_map]
      congr 1
      funext l
      rw [List.map_map]
      congr 1
      exact mapRegion_comp f Subtype.val) op r' ⟨o, ho⟩
  rw [show Bool2.mapRegion f (Bool2.mapRegion Subtype.val r') = Bool2.mapRegion (fun c : {c // Q c} => f c.1) r' from
    congrFun (mapRegion_comp f Subtype.val) r', e1, except_map_map]
  refine e2.trans ?_
  congr 1
  funext l
  rw [List.map_map]
  congr 1
  exact (mapRegion_comp f Subtype.val).symm

/-- The same for two regions. -/
theorem C116_region_region (hQ : ∀ op a b, Q a → Q b → ∀ rs, bool op a b = .ok rs → ∀ r ∈ rs, RegionIn Q r)
    (hc : ∀ c p, Q c → contains' (f c) (g p) = contains c p) (hf : ∀ c, Q c → first' (f c) = g (first c))
    (hb : ∀ op a b, Q a → Q b → bool' op (f a) (f b) = Except.map (List.map (Bool2.mapRegion f)) (bool op a b))
    (op : Op) {r o : Region C} (hr : RegionIn Q r) (ho : RegionIn Q o) :
    regionRegion contains' first' bool' op (Bool2.mapRegion f r) (Bool2.mapRegion f o) =
      Except.map (List.map (Bool2.mapRegion f)) (regionRegion contains first bool op r o) := by
  obtain ⟨b₁, h₁⟩ := bool_lift hQ
  obtain ⟨r', rfl⟩ := region_lift hr
  obtain ⟨o', rfl⟩ := region_lift ho
  have e1 := regionRegion_map (f := (Subtype.val : {c // Q c} → C)) (g := (id : P → P)) (contains := fun c p => contains c.1 p) (contains' := contains)
    (first := fun c => first c.1) (first' := first) (bool := b₁) (bool' := bool) (fun _ _ => rfl) (fun _ => rfl) h₁ op r' o'
  have e2 := regionRegion_map (f := fun c : {c // Q c} => f c.1) (g := g) (contains := fun c p => contains c.1 p) (contains' := contains')
    (first := fun c => first c.1) (first' := first') (bool := b₁) (bool' := bool') (fun c p => hc c.1 p c.2) (fun c => hf c.1 c.2)
    (fun op a b => by
      rw [hb op a.1 b.1 a.2 b.2, h₁ op a b, except_map_map]
      congr 1
      funext l
      rw [List.map_map]
      congr 1
      exact mapRegion_comp f Subtype.val) op r' o'
  rw [show Bool2.mapRegion f (Bool2.mapRegion Subtype.val r') = Bool2.mapRegion (fun c : {c // Q c} => f c.1) r' from
    congrFun (mapRegion_comp f Subtype.val) r', show Bool2.mapRegion f (Bool2.mapRegion Subtype.val o') =
    Bool2.mapRegion (fun c : {c // Q c} => f c.1) o' from congrFun (mapRegion_comp f Subtype.val) o', e1, except_map_map]
  refine e2.trans ?_
  congr 1
  funext l
  rw [List.map_map]
  congr 1
  exact (mapRegion_comp f Subtype.val).symm

end closed

/-! ### Regions of rational curves -/

section library
variable {K : Type} [Field K] [LinearOrder K] [IsStrictOrderedRing K] {E : Env K} {t : Fin 2 → K}

/-- The two operands of an operation on regions, with the queries of `E`: `CompoundCurve::first_point` and `CompoundCurve::contains` as
    called at boolean_region.rs 187-191. -/
def Env.regionRegion (E : Env K) (op : Op) (r o : Region (List (PCurve K))) : Res (List (Region (List (PCurve K)))) :=
  Boolean.regionRegion (P := Res (Fin 2 → K)) (fun c p => p >>= E.containsIn (.inr c)) (fun c => E.firstPoint (.inr c)) E.compoundCompound op r o

/-- **Boolean operations of regions do not depend on where the regions are.** -/
theorem C116_regions {Q : List (PCurve K) → Prop}
    (hQ : ∀ op a b, Q a → Q b → ∀ rs, E.compoundCompound op a b = .ok rs → ∀ r ∈ rs, RegionIn Q r)
    (hI : ∀ a b, Q a → Q b → ShiftInvariant E t (.inr a) (.inr b)) (op : Op) {r o : Region (List (PCurve K))} (hr : RegionIn Q r)
    (ho : RegionIn Q o) :
    Env.regionRegion E op (Bool2.mapRegion (List.map (shiftedCurve t)) r) (Bool2.mapRegion (List.map (shiftedCurve t)) o) =
      Except.map (List.map (Bool2.mapRegion (List.map (shiftedCurve t)))) (Env.regionRegion E op r o) := by
  refine C116_region_region (Q := Q) (g := Except.map (· + t)) hQ (fun c p hc => ?_) (fun c _ => ?_) (fun op a b ha hb => ?_) op hr ho
  · rw [bind_map']
    exact bind_congr fun x => (hI c c hc hc).inX x
  · exact firstPoint_shifted (.inr c)
  · exact C116_compounds (hI a b ha hb) op

/-- Curves that never meet: the queries find nothing. Every class of curves is closed under the operations then. -/
example (op : Op) (r o : Region (List (PCurve ℚ))) (t : Fin 2 → ℚ) :=
  C116_regions (E := ⟨fun x => |x 0| + |x 1|, 1/1000000, 1/1000000, 1/10000, 1/1000000, fun _ _ => .ok [], fun _ _ => .ok false,
      fun _ _ => .ok false⟩) (t := t) (Q := fun _ => True) (fun _ _ _ _ _ _ _ _ _ => ⟨trivial, fun _ _ => trivial⟩)
    (fun _ _ _ _ => ⟨fun _ _ _ _ => rfl, fun _ => rfl, fun _ => rfl⟩) op (r := r) (o := o) ⟨trivial, fun _ _ => trivial⟩
    ⟨trivial, fun _ _ => trivial⟩

end library

end Curvo.Props

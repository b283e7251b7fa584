/-
  C38, C41: what the boolean operations mean for point sets.
-/
import Mathlib.Data.Set.Lattice
import Mathlib.Tactic.Tauto
import Verif.Props.Clip

set_option linter.unusedSectionVars false

namespace Curvo.Props

open Curvo.Boolean

variable {C P X : Type}

/-- Points of a region: inside the exterior and outside all interiors. -/
def regionSet (In : C → Set X) (r : Region C) : Set X := {x | x ∈ In r.exterior ∧ ∀ h ∈ r.interiors, x ∉ In h}

/-- Points of a list of regions. -/
def regionsSet (In : C → Set X) (rs : List (Region C)) : Set X := {x | ∃ r ∈ rs, x ∈ regionSet In r}

/-- Points of a list of curves. -/
def curvesSet (In : C → Set X) (cs : List C) : Set X := {x | ∃ c ∈ cs, x ∈ In c}

/-- The set operations. -/
def opSet (op : Op) (A B : Set X) : Set X := match op with
  | .union => A ∪ B
  | .inter => A ∩ B
  | .diff => A \ B

/-! ### C38 -/

section table
variable {K S : Type} [LinearOrder K]

/-- Boundaries that do not cross: if the containment tests tell the truth about which curve lies in which,
    the answer of `clip` is the set operation. -/
theorem C38_no_crossing {In : C → Set X} {deg : Boolean.Inter K → Degeneracy K} {ccs scc : Bool}
    {trim : Bool → K × K → Res (List S)} {compound : List S → Res C} {subject other : C} {op : Op} {its : List (Boolean.Inter K)}
    (hsel : select deg its = .ok []) (h1 : scc = true → In other ⊆ In subject) (h2 : ccs = true → In subject ⊆ In other)
    (h3 : scc = false → ccs = false → Disjoint (In subject) (In other)) (hne : ¬ (scc = true ∧ ccs = true)) :
    ∃ rs, clip deg (.ok ccs) (.ok scc) trim compound subject other op its = .ok rs ∧
      regionsSet In rs = opSet op (In subject) (In other) ∧ rs.length ≤ 2 ∧
      ∀ r ∈ rs, (r.exterior = subject ∨ r.exterior = other) ∧ ∀ h ∈ r.interiors, h = other := by
  rw [clip, hsel, ok_bind, ok_bind, ok_bind, if_pos (show ([] : List (Boolean.Inter K)).isEmpty = true from rfl)]
  have hd : ∀ {A B : Set X}, Disjoint A B → ∀ x, x ∈ A → x ∉ B := fun h x hx hx' => Set.disjoint_left.1 h hx hx'
  cases scc <;> cases ccs
  · have h3 := hd (h3 rfl rfl)
    cases op
    · refine ⟨_, rfl, ?_, by simp, by simp⟩
      ext x; simp [regionsSet, regionSet, opSet]
    · refine ⟨_, rfl, ?_, by simp, by simp⟩
      ext x; simp [regionsSet, opSet]; exact h3 x
    · refine ⟨_, rfl, ?_, by simp, by simp⟩
      ext x; simp [regionsSet, regionSet, opSet]; exact h3 x
  · have h2 := h2 rfl
    cases op
    · refine ⟨_, rfl, ?_, by simp, by simp⟩
      ext x; simp [regionsSet, regionSet, opSet]; exact fun h => h2 h
    · refine ⟨_, rfl, ?_, by simp, by simp⟩
      ext x; simp [regionsSet, regionSet, opSet]; exact fun h => h2 h
    · refine ⟨_, rfl, ?_, by simp, by simp⟩
      ext x; simp [regionsSet, opSet]; exact fun h => h2 h
  · have h1 := h1 rfl
    cases op
    · refine ⟨_, rfl, ?_, by simp, by simp⟩
      ext x; simp [regionsSet, regionSet, opSet]; exact fun h => h1 h
    · refine ⟨_, rfl, ?_, by simp, by simp⟩
      ext x; simp [regionsSet, regionSet, opSet]; exact fun h => h1 h
    · refine ⟨_, rfl, ?_, by simp, by simp⟩
      ext x; simp [regionsSet, regionSet, opSet]
  · exact absurd ⟨rfl, rfl⟩ hne

/-- Both tests positive, as for a curve and itself (points of the boundary count as inside and coinciding
    pieces give no regular intersection): an error, although the operation makes sense. -/
theorem C38_both_contained_errors {deg : Boolean.Inter K → Degeneracy K} {trim : Bool → K × K → Res (List S)}
    {compound : List S → Res C} {subject other : C} {op : Op} {its : List (Boolean.Inter K)} (hsel : select deg its = .ok []) :
    clip deg (.ok true) (.ok true) trim compound subject other op its = .error .err := by
  rw [clip, hsel, ok_bind, ok_bind, ok_bind, if_pos (show ([] : List (Boolean.Inter K)).isEmpty = true from rfl)]; rfl

theorem maxDeg_mem {I : Type} (xs : List (I × Degeneracy K)) (m : I × Degeneracy K) (hm : maxDeg xs = some m) : m ∈ xs := by
  cases xs with
  | nil => cases hm
  | cons x xs =>
    obtain rfl := Option.some.inj hm
    clear hm
    have : ∀ (ys : List (I × Degeneracy K)) (m : I × Degeneracy K), (ys.foldl (fun m y => if m.2.gt y.2 then m else y) m) ∈ m :: ys := by
      intro ys
      induction ys with
      | nil => intro m; simp
      | cons y ys ih =>
        intro m
        rw [List.foldl_cons]
        split
        · rcases List.mem_cons.1 (ih m) with h | h
          · rw [h]; simp
          · exact List.mem_cons_of_mem _ (List.mem_cons_of_mem _ h)
        · exact List.mem_cons_of_mem _ (ih y)
    exact this xs x

/-- Selection: the regular intersections are kept in their order, at most one degenerate one is added, only
    if the number of regular ones is odd, and it makes the largest angle among degenerate ones if these all
    are angles. An odd total is an error. -/
theorem C38_select {I : Type} {deg : I → Degeneracy K} {its out : List I} (h : select deg its = .ok out) :
    out.length % 2 = 0 ∧
    ∃ extra, out = (its.filter fun i => (deg i).isNone) ++ extra ∧ (∀ i ∈ extra, i ∈ its ∧ (deg i).isNone = false) ∧
      ((its.filter fun i => (deg i).isNone).length % 2 = 0 → extra = []) ∧ extra.length ≤ 1 := by
  have hmax := @maxDeg_mem K _ I
  have hreg : ∀ its : List I, ((its.map fun it => (it, deg it)).filter fun x => x.2.isNone).map (·.1) =
      its.filter fun i => (deg i).isNone := by
    intro its
    induction its with
    | nil => rfl
    | cons i is ih =>
      by_cases hi : (deg i).isNone = true
      · simp [hi, ih]
      · simp [hi, ih]
  have hsel : select deg its = if (if (its.filter fun i => (deg i).isNone).length % 2 = 0 then its.filter fun i => (deg i).isNone
      else match maxDeg ((its.map fun it => (it, deg it)).filter fun x => !x.2.isNone) with
        | some (m, _) => (its.filter fun i => (deg i).isNone) ++ [m]
        | none => its.filter fun i => (deg i).isNone).length % 2 = 0 then
      pure (if (its.filter fun i => (deg i).isNone).length % 2 = 0 then its.filter fun i => (deg i).isNone
      else match maxDeg ((its.map fun it => (it, deg it)).filter fun x => !x.2.isNone) with
        | some (m, _) => (its.filter fun i => (deg i).isNone) ++ [m]
        | none => its.filter fun i => (deg i).isNone) else .error .err := by
    rw [select]
    simp only [hreg its]
    rfl
  rw [hsel] at h
  by_cases hev : (if (its.filter fun i => (deg i).isNone).length % 2 = 0 then its.filter fun i => (deg i).isNone
      else match maxDeg ((its.map fun it => (it, deg it)).filter fun x => !x.2.isNone) with
        | some (m, _) => (its.filter fun i => (deg i).isNone) ++ [m]
        | none => its.filter fun i => (deg i).isNone).length % 2 = 0
  · rw [if_pos hev] at h
    obtain rfl := Except.ok.inj h
    refine ⟨hev, ?_⟩
    clear hev h hsel
    by_cases hpar : (its.filter fun i => (deg i).isNone).length % 2 = 0
    · rw [if_pos hpar]
      exact ⟨[], by simp, by simp, fun _ => rfl, by simp⟩
    · rw [if_neg hpar]
      cases hm : maxDeg ((its.map fun it => (it, deg it)).filter fun x => !x.2.isNone) with
      | some md =>
        obtain ⟨m, d⟩ := md
        have := hmax _ _ hm
        rw [List.mem_filter] at this
        obtain ⟨hmem, hd⟩ := this
        obtain ⟨i, hi, e⟩ := List.mem_map.1 hmem
        obtain ⟨rfl, rfl⟩ := Prod.mk.inj e
        exact ⟨[i], rfl, by simpa using ⟨hi, by simpa using hd⟩, fun h => absurd h hpar, by simp⟩
      | none => exact ⟨[], by simp, by simp, fun _ => rfl, by simp⟩
  · rw [if_neg hev] at h
    cases h

/-- The degenerate intersection added has the largest angle, if all degenerate ones are angles. -/
theorem C38_largest_angle {I : Type} {deg : I → Degeneracy K} {its out : List I} (h : select deg its = .ok out) {i : I}
    {x : K} (hi : i ∈ out) (hx : deg i = .angle x) (hall : ∀ j ∈ its, (deg j).isNone = false → ∃ y, deg j = .angle y)
    {j : I} {y : K} (hj : j ∈ its) (hy : deg j = .angle y) : y ≤ x := by
  have hle : ∀ (ys : List (I × Degeneracy K)) (m : I × Degeneracy K) (a : K), m.2 = .angle a →
      (∀ q ∈ ys, ∃ b, q.2 = .angle b) → ∃ c, (ys.foldl (fun m y => if m.2.gt y.2 then m else y) m).2 = .angle c ∧ a ≤ c ∧
        ∀ q ∈ ys, ∀ b, q.2 = .angle b → b ≤ c := by
    intro ys
    induction ys with
    | nil => intro m a hm _; exact ⟨a, hm, le_refl _, by simp⟩
    | cons q ys ih =>
      intro m a hm hq
      obtain ⟨b, hb⟩ := hq q (by simp)
      have hgt : m.2.gt q.2 = decide (b < a) := by rw [hm, hb]; rfl
      rw [List.foldl_cons, hgt]
      by_cases hlt : b < a
      · obtain ⟨c, h1, h2, h3⟩ := ih m a hm (fun q hq' => hq q (List.mem_cons_of_mem _ hq'))
        rw [if_pos (by simpa using hlt)]
        refine ⟨c, h1, h2, fun q' hq' b' hb' => ?_⟩
        rcases List.mem_cons.1 hq' with rfl | hq'
        · rw [hb] at hb'
          obtain rfl := Degeneracy.angle.inj hb'
          exact hlt.le.trans h2
        · exact h3 q' hq' b' hb'
      · obtain ⟨c, h1, h2, h3⟩ := ih q b hb (fun q hq' => hq q (List.mem_cons_of_mem _ hq'))
        rw [if_neg (by simpa using hlt)]
        refine ⟨c, h1, (not_lt.1 hlt).trans h2, fun q' hq' b' hb' => ?_⟩
        rcases List.mem_cons.1 hq' with rfl | hq'
        · rw [hb] at hb'
          obtain rfl := Degeneracy.angle.inj hb'
          exact h2
        · exact h3 q' hq' b' hb'
  have hreg : ∀ its : List I, ((its.map fun it => (it, deg it)).filter fun x => x.2.isNone).map (·.1) =
      its.filter fun i => (deg i).isNone := by
    intro its
    induction its with
    | nil => rfl
    | cons i is ih =>
      by_cases hi : (deg i).isNone = true
      · simp [hi, ih]
      · simp [hi, ih]
  have hni : i ∉ its.filter fun i => (deg i).isNone := by
    intro h
    have := (List.mem_filter.1 h).2
    rw [hx] at this
    cases this
  have hmem : (j, deg j) ∈ (its.map fun it => (it, deg it)).filter fun x => !x.2.isNone := by
    refine List.mem_filter.2 ⟨List.mem_map.2 ⟨j, hj, rfl⟩, ?_⟩
    rw [hy]; rfl
  have hang : ∀ q ∈ (its.map fun it => (it, deg it)).filter fun x => !x.2.isNone, q.2 = deg q.1 ∧ ∃ b, q.2 = .angle b := by
    intro q hq
    obtain ⟨h1, h2⟩ := List.mem_filter.1 hq
    obtain ⟨k, hk, rfl⟩ := List.mem_map.1 h1
    exact ⟨rfl, hall k hk (by simpa using h2)⟩
  rw [select] at h
  simp only [hreg its] at h
  generalize (its.map fun it => (it, deg it)).filter (fun x => !x.2.isNone) = rest at h hmem hang
  by_cases hpar : (its.filter fun i => (deg i).isNone).length % 2 = 0
  · rw [if_pos hpar, if_pos hpar] at h
    obtain rfl := Except.ok.inj h
    exact absurd hi hni
  · cases rest with
    | nil => cases hmem
    | cons q qs =>
      obtain ⟨a, ha⟩ := (hang q (by simp)).2
      obtain ⟨c, h1, h2, h3⟩ := hle qs q a ha (fun q' hq' => (hang q' (List.mem_cons_of_mem _ hq')).2)
      have hin : qs.foldl (fun m y => if m.2.gt y.2 then m else y) q ∈ q :: qs := maxDeg_mem _ _ rfl
      have hm1 := (hang _ hin).1
      simp only [if_neg hpar, maxDeg] at h
      split at h
      · obtain rfl := Except.ok.inj h
        rcases List.mem_append.1 hi with hi | hi
        · exact absurd hi hni
        · rw [List.mem_singleton] at hi
          subst hi
          rw [← hm1, h1] at hx
          obtain rfl := Degeneracy.angle.inj hx
          rcases List.mem_cons.1 hmem with e | e
          · have : a = y := by
              rw [← e] at ha
              exact (Degeneracy.angle.inj (ha.symm.trans hy))
            exact this ▸ h2
          · exact h3 _ e y hy
      · cases h

end table

/-! ### C41: holes -/

/-- The containment tests decide between containment and disjointness. -/
def Decisive (In : C → Set X) (contains : C → P → Res Bool) (first : C → P) (rs : List (Region C)) (its : List C) : Prop :=
  ∀ r ∈ rs, ∀ h ∈ its, (answer (contains r.exterior (first h)) = true → In h ⊆ In r.exterior) ∧
    (answer (contains r.exterior (first h)) = false → Disjoint (In h) (In r.exterior))

/-- Distribution takes the points of all holes away: none of the holes is forgotten. -/
theorem C41_distribute_sets {In : C → Set X} {contains : C → P → Res Bool} {first : C → P} {rs rs' : List (Region C)}
    {its left : List C} (h : distribute contains first rs its = .ok (rs', left))
    (hdis : rs.Pairwise fun r r' => Disjoint (In r.exterior) (In r'.exterior))
    (hdec : Decisive In contains first rs its) :
    regionsSet In rs' = regionsSet In rs \ curvesSet In its := by
  have key : ∀ {rs its rs' left}, Dealt (fun r h => answer (contains r.exterior (first h))) rs its rs' left →
      rs.Pairwise (fun r r' => Disjoint (In r.exterior) (In r'.exterior)) → Decisive In contains first rs its →
      regionsSet In rs' = regionsSet In rs \ curvesSet In its := by
    intro rs its rs' left hd
    induction hd with
    | nil its => intro _ _; ext x; simp [regionsSet]
    | @cons r rs its rs' left hd ih =>
      intro hp hdec
      rw [List.pairwise_cons] at hp
      have ih := ih hp.2 (fun r' hr' h hh => hdec r' (List.mem_cons_of_mem _ hr') h (List.mem_of_mem_filter hh))
      ext x
      have ihx := Set.ext_iff.1 ih x
      simp only [regionsSet, Set.mem_ofPred_eq, curvesSet, Set.mem_sdiff, List.mem_filter, not_exists, not_and, and_imp] at ihx ⊢
      constructor
      · rintro ⟨q, hq, hx⟩
        rcases List.mem_cons.1 hq with rfl | hq
        · obtain ⟨hx1, hx2⟩ := hx
          simp only [List.mem_append, List.mem_reverse, List.mem_filter] at hx2
          refine ⟨⟨r, by simp, hx1, fun h hh => hx2 h (Or.inl hh)⟩, fun h hh hxh => ?_⟩
          by_cases ha : answer (contains r.exterior (first h)) = true
          · exact hx2 h (Or.inr ⟨hh, ha⟩) hxh
          · exact Set.disjoint_left.1 ((hdec r (by simp) h hh).2 (by simpa using ha)) hxh hx1
        · obtain ⟨⟨r', hr', hx'⟩, hno⟩ := ihx.1 ⟨q, hq, hx⟩
          refine ⟨⟨r', List.mem_cons_of_mem _ hr', hx'⟩, fun h hh hxh => ?_⟩
          by_cases ha : answer (contains r.exterior (first h)) = true
          · exact Set.disjoint_left.1 (hp.1 r' hr') ((hdec r (by simp) h hh).1 ha hxh) hx'.1
          · exact hno h hh (by simpa using ha) hxh
      · rintro ⟨⟨r', hr', hx1, hx2⟩, hno⟩
        rcases List.mem_cons.1 hr' with rfl | hr'
        · refine ⟨_, List.mem_cons_self .., hx1, fun h hh => ?_⟩
          simp only [List.mem_append, List.mem_reverse, List.mem_filter] at hh
          rcases hh with hh | hh
          · exact hx2 h hh
          · exact hno h hh.1
        · obtain ⟨q, hq, hxq⟩ := ihx.2 ⟨⟨r', hr', hx1, hx2⟩, fun h hh _ => hno h hh⟩
          exact ⟨q, List.mem_cons_of_mem _ hq, hxq⟩
  exact key (C40_dealt h) hdis hdec

/-- The operation on curves is right for sets, and unions have no holes of their own. -/
structure BoolSound (In : C → Set X) (bool : Op → C → C → Res (List (Region C))) : Prop where
  sets : ∀ op a b rs, bool op a b = .ok rs → regionsSet In rs = opSet op (In a) (In b)
  flat : ∀ a b rs, bool .union a b = .ok rs → ∀ r ∈ rs, r.interiors = []

theorem regionsSet_flat {In : C → Set X} {rs : List (Region C)} (h : ∀ r ∈ rs, r.interiors = []) :
    regionsSet In rs = curvesSet In (exteriors rs) := by
  ext x
  simp only [regionsSet, regionSet, curvesSet, exteriors, Set.mem_ofPred_eq, List.mem_map]
  constructor
  · rintro ⟨r, hr, hx, -⟩; exact ⟨_, ⟨r, hr, rfl⟩, hx⟩
  · rintro ⟨c, ⟨r, hr, rfl⟩, hx⟩; exact ⟨r, hr, hx, by rw [h r hr]; simp⟩

theorem mergeHoles_sets {In : C → Set X} {bool : Op → C → C → Res (List (Region C))} (hb : BoolSound In bool) :
    ∀ {is : List C} {cur cur' : C} {ints ints' : List C}, mergeHoles bool is cur ints = .ok (cur', ints') →
      In cur' ∪ curvesSet In ints' = In cur ∪ curvesSet In ints ∪ curvesSet In is
  | [], cur, cur', ints, ints', h => by
    obtain ⟨rfl, rfl⟩ := Prod.mk.inj (Except.ok.inj h)
    ext x; simp [curvesSet]
  | i :: is, cur, cur', ints, ints', h => by
    rw [mergeHoles] at h
    obtain ⟨u, hu, h⟩ := bind_eq_ok.1 h
    have hs := hb.sets _ _ _ _ hu
    rw [regionsSet_flat (hb.flat _ _ _ hu)] at hs
    cases u with
    | nil =>
      have := mergeHoles_sets hb h
      rw [this]
      ext x
      have hx : x ∈ curvesSet In (exteriors ([] : List (Region C))) ↔ x ∈ In cur ∪ In i := by rw [hs]; rfl
      have hn : x ∉ In i := by
        intro hi
        obtain ⟨c, hc, -⟩ := hx.2 (Or.inr hi)
        cases hc
      simp only [curvesSet, Set.mem_ofPred_eq, Set.mem_union, List.mem_cons, exists_eq_or_imp, hn, false_or]
    | cons hd rest =>
      have := mergeHoles_sets hb h
      rw [this]
      ext x
      have hx : x ∈ curvesSet In (exteriors (hd :: rest)) ↔ x ∈ In cur ∪ In i := by rw [hs]; rfl
      simp only [curvesSet, exteriors, List.map_cons, List.mem_cons, List.mem_append, Set.mem_ofPred_eq, Set.mem_union,
        exists_eq_or_imp] at hx ⊢
      constructor
      · rintro ((h1 | ⟨c, hc | hc, hxc⟩) | h3)
        · rcases hx.1 (Or.inl h1) with h | h <;> tauto
        · exact Or.inl (Or.inr ⟨c, hc, hxc⟩)
        · rcases hx.1 (Or.inr ⟨c, hc, hxc⟩) with h | h <;> tauto
        · exact Or.inr (Or.inr h3)
      · rintro ((h1 | ⟨c, hc, hxc⟩) | h2 | h3)
        · rcases hx.2 (Or.inl h1) with h | ⟨c, hc, hxc⟩
          · exact Or.inl (Or.inl h)
          · exact Or.inl (Or.inr ⟨c, Or.inr hc, hxc⟩)
        · exact Or.inl (Or.inr ⟨c, Or.inl hc, hxc⟩)
        · rcases hx.2 (Or.inr h2) with h | ⟨c, hc, hxc⟩
          · exact Or.inl (Or.inl h)
          · exact Or.inl (Or.inr ⟨c, Or.inr hc, hxc⟩)
        · exact Or.inr h3

/-- Region minus curve is the set difference, if the pieces of the exterior are disjoint and the remaining
    holes do not cross them. -/
theorem C41_region_minus_curve {In : C → Set X} {contains : C → P → Res Bool} {first : C → P}
    {bool : Op → C → C → Res (List (Region C))} (hb : BoolSound In bool) {r : Region C} {other : C} {out : List (Region C)}
    (h : regionDiff contains first bool r other = .ok out)
    (hsep : ∀ cur ints rs, mergeHoles bool r.interiors other [] = .ok (cur, ints) → bool .diff r.exterior cur = .ok rs →
      rs.Pairwise (fun r r' => Disjoint (In r.exterior) (In r'.exterior)) ∧ Decisive In contains first rs ints) :
    regionsSet In out = regionSet In r \ In other := by
  rw [regionDiff] at h
  obtain ⟨⟨cur, ints⟩, h1, h⟩ := bind_eq_ok.1 h
  obtain ⟨rs, h2, h⟩ := bind_eq_ok.1 h
  obtain ⟨⟨rs', left⟩, h3, h⟩ := bind_eq_ok.1 h
  obtain rfl := Except.ok.inj h
  obtain ⟨hp, hd⟩ := hsep _ _ _ h1 h2
  have e1 := C41_distribute_sets h3 hp hd
  have e2 := hb.sets _ _ _ _ h2
  have e3 := mergeHoles_sets hb h1
  show regionsSet In rs' = _
  rw [e1, e2]
  ext x
  have hx := Set.ext_iff.1 e3 x
  simp only [opSet, Set.mem_sdiff, regionSet, Set.mem_ofPred_eq, Set.mem_union, curvesSet, List.not_mem_nil, false_and,
    exists_false, or_false] at hx ⊢
  constructor
  · rintro ⟨⟨a, b⟩, c⟩
    refine ⟨⟨a, fun h hh hxh => ?_⟩, fun ho => ?_⟩
    · rcases hx.2 (Or.inr ⟨h, hh, hxh⟩) with h | h
      · exact b h
      · exact c h
    · rcases hx.2 (Or.inl ho) with h | h
      · exact b h
      · exact c h
  · rintro ⟨⟨a, b⟩, c⟩
    have hno : ¬ (x ∈ In other ∨ ∃ c ∈ r.interiors, x ∈ In c) := by
      rintro (h | ⟨h, hh, hxh⟩)
      · exact c h
      · exact b h hh hxh
    refine ⟨⟨a, fun h => hno (hx.1 (Or.inl h))⟩, fun h => hno (hx.1 (Or.inr h))⟩

theorem holes_minus {In : C → Set X} {bool : Op → C → C → Res (List (Region C))} (hb : BoolSound In bool) {other : C}
    {is : List C} (hflat : ∀ i ∈ is, ∀ rs, bool .diff i other = .ok rs → ∀ q ∈ rs, q.interiors = []) (x : X)
    {ints : List (List (Region C))} (hf : List.Forall₂ (fun i rs => bool .diff i other = .ok rs) is ints) :
    x ∈ curvesSet In (ints.map exteriors).flatten ↔ x ∈ curvesSet In is ∧ x ∉ In other := by
  induction hf with
  | nil => simp [curvesSet]
  | @cons i rs is' rss hi hrest ih =>
    have ih := ih (fun j hj => hflat j (List.mem_cons_of_mem _ hj))
    have es := hb.sets _ _ _ _ hi
    rw [regionsSet_flat (hflat i (by simp) rs hi)] at es
    have hx : x ∈ curvesSet In (exteriors rs) ↔ x ∈ In i ∧ x ∉ In other := by rw [es]; rfl
    simp only [curvesSet, Set.mem_ofPred_eq] at ih hx ⊢
    simp only [List.map_cons, List.flatten_cons, List.mem_append, List.mem_cons, or_and_right, exists_or, exists_eq_left]
    rw [ih, hx]

/-- Region and curve, union: right if the exterior and the curve merge into one region, and no difference
    of a hole and the curve has an island. -/
theorem C41_region_union_curve {In : C → Set X} {bool : Op → C → C → Res (List (Region C))} (hb : BoolSound In bool)
    {r : Region C} {other : C} {out : List (Region C)} (h : regionUnion bool r other = .ok out)
    (hone : ∀ rs, bool .union r.exterior other = .ok rs → rs.length ≤ 1)
    (hflat : ∀ i ∈ r.interiors, ∀ rs, bool .diff i other = .ok rs → ∀ q ∈ rs, q.interiors = []) :
    regionsSet In out = regionSet In r ∪ In other := by
  rw [regionUnion] at h
  obtain ⟨ext, h1, h⟩ := bind_eq_ok.1 h
  cases ext with
  | nil => cases h
  | cons e rest =>
    have hr : rest = [] := by
      have := hone _ h1
      simp at this; exact this
    subst hr
    obtain ⟨ints, h2, h⟩ := bind_eq_ok.1 h
    obtain rfl := Except.ok.inj h
    have e1 := hb.sets _ _ _ _ h1
    rw [regionsSet_flat (hb.flat _ _ _ h1)] at e1
    have hf := mapM_ok_inv h2
    have hints := fun x => holes_minus hb hflat x hf
    ext x
    have hx : x ∈ curvesSet In (exteriors [e]) ↔ x ∈ In r.exterior ∨ x ∈ In other := by rw [e1]; rfl
    have hi := hints x
    simp only [curvesSet, exteriors, List.map_cons, List.map_nil, List.mem_singleton, Set.mem_ofPred_eq, exists_eq_left] at hx hi
    simp only [regionsSet, regionSet, List.mem_singleton, exists_eq_left, Set.mem_ofPred_eq, Set.mem_union]
    have hq : (∀ h ∈ (ints.map exteriors).flatten, x ∉ In h) ↔ ¬ (∃ c ∈ (ints.map exteriors).flatten, x ∈ In c) := by
      simp only [not_exists, not_and]
    have hq' : (∀ h ∈ r.interiors, x ∉ In h) ↔ ¬ (∃ c ∈ r.interiors, x ∈ In c) := by
      simp only [not_exists, not_and]
    have hi' : (∃ c ∈ (ints.map exteriors).flatten, x ∈ In c) ↔ (∃ c ∈ r.interiors, x ∈ In c) ∧ x ∉ In other := hi
    rw [hx, hq, hi', hq']
    clear hx hi hi' hq hq' hints hf e1 h1 h2 hflat hone hb
    generalize (∃ c ∈ r.interiors, x ∈ In c) = A
    generalize (x ∈ In other) = B
    generalize (x ∈ In r.exterior) = D
    clear h
    tauto

/-! ### C41: two regions -/

theorem cutOther_sets {In : C → Set X} {contains : C → P → Res Bool} {first : C → P}
    {bool : Op → C → C → Res (List (Region C))}
    (hdiff : ∀ (r : Region C) (c : C) rs, regionCurve contains first bool .diff r c = .ok rs →
      regionsSet In rs = regionSet In r \ In c) {op : Op} (hop : op ≠ .diff) :
    ∀ {is : List C} {rs out : List (Region C)}, cutOther contains first bool op is rs = .ok out →
      regionsSet In out = regionsSet In rs \ curvesSet In is
  | [], rs, out, h => by
    obtain rfl := Except.ok.inj h
    ext x; simp [curvesSet]
  | i :: is, rs, out, h => by
    have h' : (do
        let next ← rs.mapM fun r => regionCurve contains first bool .diff r i
        cutOther contains first bool op is next.flatten) = .ok out := by
      cases op with
      | union => exact h
      | inter => exact h
      | diff => exact absurd rfl hop
    obtain ⟨next, h1, h2⟩ := bind_eq_ok.1 h'
    rw [cutOther_sets hdiff hop h2]
    have hf := mapM_ok_inv h1
    have hn : ∀ x, x ∈ regionsSet In next.flatten ↔ x ∈ regionsSet In rs ∧ x ∉ In i := by
      intro x
      clear h h' h1 h2
      induction hf with
      | nil => simp [regionsSet]
      | @cons r q rs' qs hr hrest ih =>
        have es : x ∈ regionsSet In q ↔ x ∈ regionSet In r ∧ x ∉ In i := by rw [hdiff _ _ _ hr]; rfl
        simp only [regionsSet, Set.mem_ofPred_eq] at ih es ⊢
        simp only [List.flatten_cons, List.mem_append, or_and_right, exists_or, List.mem_cons, exists_eq_left]
        rw [ih, es]
    ext x
    have := hn x
    simp only [Set.mem_sdiff, curvesSet, Set.mem_ofPred_eq, List.mem_cons, not_exists, not_and, forall_eq_or_imp]
    rw [this]
    tauto

/-- What operations on two regions compute, if those of a region and a curve are right: the intersection is
    right; the union loses what the first region has inside the holes of the second one; the difference
    treats the second region as if it had no holes. -/
theorem C41_region_region {In : C → Set X} {contains : C → P → Res Bool} {first : C → P}
    {bool : Op → C → C → Res (List (Region C))}
    (hc : ∀ op (r : Region C) (c : C) rs, regionCurve contains first bool op r c = .ok rs →
      regionsSet In rs = opSet op (regionSet In r) (In c)) {op : Op} {r other : Region C} {out : List (Region C)}
    (h : regionRegion contains first bool op r other = .ok out) :
    regionsSet In out = match op with
      | .inter => regionSet In r ∩ regionSet In other
      | .union => (regionSet In r \ curvesSet In other.interiors) ∪ regionSet In other
      | .diff => regionSet In r \ In other.exterior := by
  rw [regionRegion] at h
  obtain ⟨rs, h1, h⟩ := bind_eq_ok.1 h
  have e1 := hc _ _ _ _ h1
  have hx0 : ∀ x, (∀ h ∈ other.interiors, x ∉ In h) ↔ x ∉ curvesSet In other.interiors := by
    intro x; simp [curvesSet]
  cases op with
  | inter =>
    rw [cutOther_sets (hc .diff) (by decide) h, e1]
    ext x
    simp only [opSet, Set.mem_sdiff, Set.mem_inter_iff, regionSet, Set.mem_ofPred_eq, hx0]
    tauto
  | union =>
    rw [cutOther_sets (hc .diff) (by decide) h, e1]
    ext x
    simp only [opSet, Set.mem_sdiff, Set.mem_union, regionSet, Set.mem_ofPred_eq, hx0]
    tauto
  | diff =>
    have : ∀ (is : List C) rs, cutOther contains first bool .diff is rs = .ok rs := by
      intro is
      induction is with
      | nil => intro rs; rfl
      | cons i is ih => intro rs; exact ih rs
    rw [this] at h
    obtain rfl := Except.ok.inj h
    exact e1

/-- So union and difference are right exactly if the first region has no points in the holes of the second
    (inside its exterior, as holes are). -/
theorem C41_right_iff {In : C → Set X} {contains : C → P → Res Bool} {first : C → P}
    {bool : Op → C → C → Res (List (Region C))}
    (hc : ∀ op (r : Region C) (c : C) rs, regionCurve contains first bool op r c = .ok rs →
      regionsSet In rs = opSet op (regionSet In r) (In c)) {op : Op} (hop : op ≠ .inter) {r other : Region C}
    {out : List (Region C)} (hin : ∀ h ∈ other.interiors, In h ⊆ In other.exterior)
    (h : regionRegion contains first bool op r other = .ok out) :
    regionsSet In out = opSet op (regionSet In r) (regionSet In other) ↔
      Disjoint (regionSet In r) (curvesSet In other.interiors) := by
  rw [C41_region_region hc h, Set.disjoint_left]
  have hx0 : ∀ x, (x ∈ regionSet In other) ↔ x ∈ In other.exterior ∧ x ∉ curvesSet In other.interiors := by
    intro x; simp [regionSet, curvesSet]
  have hx1 : ∀ x, x ∈ curvesSet In other.interiors → x ∈ In other.exterior := by
    rintro x ⟨h, hh, hx⟩; exact hin h hh hx
  cases op with
  | inter => exact absurd rfl hop
  | union =>
    simp only [opSet, Set.ext_iff, Set.mem_union, Set.mem_sdiff, hx0]
    constructor
    · intro h x hx hx'
      have := (h x).2 (Or.inl hx)
      tauto
    · intro h x
      have := h (a := x)
      tauto
  | diff =>
    simp only [opSet, Set.ext_iff, Set.mem_sdiff, hx0]
    constructor
    · intro h x hx hx'
      have := (h x).2 ⟨hx, by tauto⟩
      exact this.2 (hx1 x hx')
    · intro h x
      have := h (a := x)
      have := hx1 x
      tauto

/-! ### Cases: intervals that do not cross, with the operation of `clip` -/

/-- Intervals as closed curves of the line; the operation is `clip` without intersections. -/
def ivIn (c : ℕ × ℕ) : Set ℕ := {x | c.1 ≤ x ∧ x ≤ c.2}

def ivHas (c : ℕ × ℕ) (p : ℕ) : Res Bool := .ok (decide (c.1 ≤ p ∧ p ≤ c.2))

def ivBool (op : Op) (a b : ℕ × ℕ) : Res (List (Region (ℕ × ℕ))) :=
  clip (K := ℕ) (S := ℕ) (fun _ => .none) (ivHas b a.1) (ivHas a b.1) (fun _ _ => .ok []) (fun _ => .error .err) a b op []

example : ∃ rs, ivBool .diff (0, 9) (3, 5) = .ok rs ∧ regionsSet ivIn rs = ivIn (0, 9) \ ivIn (3, 5) :=
  (C38_no_crossing (In := ivIn) (scc := true) (ccs := false) rfl (by rintro - x ⟨h1, h2⟩; exact ⟨by omega, by omega⟩)
    (by simp) (by simp) (by simp)).imp fun _ h => ⟨h.1, h.2.1⟩

/-- The difference ignores the hole of the second region: [0, 9] minus ([0, 9] without [3, 5], seen as
    [1, 8] with the hole [3, 5]) should contain 4 and does not. -/
theorem C41_difference_ignores_holes :
    regionRegion ivHas (·.1) ivBool .diff ⟨(0, 9), []⟩ ⟨(1, 8), [(3, 5)]⟩ = .ok [⟨(0, 9), [(1, 8)]⟩] ∧
      (4 : ℕ) ∉ regionsSet ivIn [⟨(0, 9), [(1, 8)]⟩] ∧
      (4 : ℕ) ∈ opSet .diff (regionSet ivIn ⟨(0, 9), []⟩) (regionSet ivIn ⟨(1, 8), [(3, 5)]⟩) := by
  refine ⟨rfl, ?_, ?_⟩ <;> simp [regionsSet, regionSet, ivIn, opSet]

/-- The union cuts the hole of the second region out of the first one. -/
theorem C41_union_cuts_first :
    regionRegion ivHas (·.1) ivBool .union ⟨(0, 9), []⟩ ⟨(1, 8), [(3, 5)]⟩ = .ok [⟨(0, 9), [(3, 5)]⟩] ∧
      (4 : ℕ) ∉ regionsSet ivIn [⟨(0, 9), [(3, 5)]⟩] ∧
      (4 : ℕ) ∈ opSet .union (regionSet ivIn ⟨(0, 9), []⟩) (regionSet ivIn ⟨(1, 8), [(3, 5)]⟩) := by
  refine ⟨rfl, ?_, ?_⟩ <;> simp [regionsSet, regionSet, ivIn, opSet]

/-- The union of a region with a curve outside of it loses the curve. -/
theorem C41_union_drops_disjoint :
    regionCurve ivHas (·.1) ivBool .union ⟨(0, 9), []⟩ (20, 30) = .ok [⟨(0, 9), []⟩] ∧
      (25 : ℕ) ∉ regionsSet ivIn [⟨(0, 9), []⟩] ∧
      (25 : ℕ) ∈ opSet .union (regionSet ivIn ⟨(0, 9), []⟩) (ivIn (20, 30)) := by
  refine ⟨rfl, ?_, ?_⟩ <;> simp [regionsSet, regionSet, ivIn, opSet]

/-- The union of a region with a curve inside one of its holes loses the curve. -/
theorem C41_union_drops_island :
    regionCurve ivHas (·.1) ivBool .union ⟨(0, 9), [(2, 7)]⟩ (4, 5) = .ok [⟨(0, 9), [(2, 7)]⟩] ∧
      (4 : ℕ) ∉ regionsSet ivIn [⟨(0, 9), [(2, 7)]⟩] ∧
      (4 : ℕ) ∈ opSet .union (regionSet ivIn ⟨(0, 9), [(2, 7)]⟩) (ivIn (4, 5)) := by
  refine ⟨rfl, ?_, ?_⟩ <;> simp [regionsSet, regionSet, ivIn, opSet]

/-! ### An ideal operation on curves: sets themselves -/

/-- Every operation gives one region without holes. -/
def idealBool (op : Op) (a b : Set X) : Res (List (Region (Set X))) := .ok [⟨opSet op a b, []⟩]

theorem ideal_sound : BoolSound (id : Set X → Set X) idealBool where
  sets := by
    intro op a b rs h
    obtain rfl := Except.ok.inj h
    ext x; simp [regionsSet, regionSet]
  flat := by
    intro a b rs h
    obtain rfl := Except.ok.inj h
    simp

theorem ideal_merge : ∀ (is : List (Set X)) (cur : Set X), ∃ cur', mergeHoles idealBool is cur [] = .ok (cur', [])
  | [], cur => ⟨cur, rfl⟩
  | i :: is, cur => by
    obtain ⟨cur', h⟩ := ideal_merge is (cur ∪ i)
    exact ⟨cur', h⟩

/-- The hypothesis of the theorems about two regions holds for the ideal operation. -/
theorem ideal_regionCurve {contains : Set X → P → Res Bool} {first : Set X → P} (op : Op) (r : Region (Set X)) (c : Set X)
    (rs) (h : regionCurve contains first idealBool op r c = .ok rs) :
    regionsSet id rs = opSet op (regionSet id r) (id c) := by
  have hdiff : ∀ (r : Region (Set X)) (c : Set X), ∃ d, regionDiff contains first idealBool r c = .ok [⟨d, []⟩] ∧
      d = regionSet id r \ c := by
    intro r c
    obtain ⟨cur', hm⟩ := ideal_merge r.interiors c
    have e : regionDiff contains first idealBool r c = .ok [⟨r.exterior \ cur', []⟩] := by
      rw [regionDiff, hm]; rfl
    refine ⟨_, e, ?_⟩
    have := C41_region_minus_curve ideal_sound e (by
      intro cur ints rs h1 h2
      rw [hm] at h1
      obtain ⟨rfl, rfl⟩ := Prod.mk.inj (Except.ok.inj h1)
      obtain rfl := Except.ok.inj h2
      exact ⟨by simp, by intro r _ h hh; simp at hh⟩)
    rw [← show regionSet id r \ id c = regionSet id r \ c from rfl, ← this]
    ext x; simp [regionsSet, regionSet]
  cases op with
  | union =>
    refine C41_region_union_curve ideal_sound h (fun rs h => ?_) (fun i _ rs h => ?_)
    · obtain rfl := Except.ok.inj h; simp
    · obtain rfl := Except.ok.inj h; simp
  | diff =>
    obtain ⟨d, e, rfl⟩ := hdiff r c
    obtain rfl := Except.ok.inj (e.symm.trans h)
    ext x; simp [regionsSet, regionSet, opSet]
  | inter =>
    have hcut : ∀ (is : List (Set X)) (a : Set X), cutHoles contains first idealBool is [⟨a, []⟩] =
        .ok [⟨a \ curvesSet id is, []⟩] := by
      intro is
      induction is with
      | nil => intro a; rw [cutHoles]; simp [curvesSet]
      | cons i is ih =>
        intro a
        obtain ⟨d, e, hd⟩ := hdiff ⟨a, []⟩ i
        rw [cutHoles, List.mapM_cons, e]
        show cutHoles contains first idealBool is [⟨d, []⟩] = _
        rw [ih, hd]
        have : (regionSet id ⟨a, []⟩ \ i) \ curvesSet id is = a \ curvesSet id (i :: is) := by
          ext x; simp [regionSet, curvesSet]; tauto
        rw [this]
    have h' : regionInter contains first idealBool r c = .ok rs := h
    rw [regionInter, hcut, ok_bind, List.mapM_cons] at h'
    obtain rfl := Except.ok.inj h'
    ext x; simp [regionsSet, regionSet, opSet, curvesSet]; tauto

example (r other : Region (Set ℕ)) (out) (h : regionRegion (P := ℕ) (fun _ _ => .ok true) (fun _ => 0) idealBool .inter r other = .ok out) :
    regionsSet id out = regionSet id r ∩ regionSet id other :=
  C41_region_region ideal_regionCurve h

end Curvo.Props

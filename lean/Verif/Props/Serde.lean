/-
  Property theorems about serialisation: C56.
-/
import Verif.Model.Serde
import Verif.Lemmas.Res
import Verif.Props.Curve2
import Mathlib.Data.List.Perm.Basic
import Mathlib.Data.List.Count

set_option linter.unusedSectionVars false

namespace Curvo.Props

open Curvo.Serde

/-! ### Specification -/

/-- Among the entries of a document the key `n` occurs exactly once, with the value `d`. -/
def Once {L : Type} (es : List (String × Doc L)) (n : String) (d : Doc L) : Prop :=
  (n, d) ∈ es ∧ (es.map Prod.fst).count n = 1

/-- The field `n` occurs exactly once and its value is a document of `x`. -/
def FieldIs {L α : Type} (es : List (String × Doc L)) (n : String) (c : Codec L α) (x : α) : Prop :=
  ∃ d, Once es n d ∧ c.dec d = .ok x

/-- Reading what was written gives the value written. -/
def Lawful {L α : Type} (c : Codec L α) : Prop := ∀ a, c.dec (c.enc a) = .ok a

/-! ### Reading one field -/

variable {L α : Type}

/-- the values of the key `n` -/
def valuesOf (es : List (String × Doc L)) (n : String) : List (Doc L) :=
  (es.filter fun e => e.1 = n).map Prod.snd

/-- reading the field `n` alone -/
def readField (c : Codec L α) (n : String) (s : Option α) (es : List (String × Doc L)) : Res (Option α) :=
  (valuesOf es n).foldlM (setField c) s

theorem valuesOf_cons (e : String × Doc L) (es : List (String × Doc L)) (n : String) :
    valuesOf (e :: es) n = if e.1 = n then e.2 :: valuesOf es n else valuesOf es n := by
  unfold valuesOf
  by_cases h : e.1 = n <;> simp [h]

theorem readField_cons (c : Codec L α) (n : String) (s : Option α) (e : String × Doc L) (es : List (String × Doc L)) :
    readField c n s (e :: es) =
      if e.1 = n then (do let s' ← setField c s e.2; readField c n s' es) else readField c n s es := by
  unfold readField
  rw [valuesOf_cons]
  split_ifs <;> simp [List.foldlM_cons]

theorem setField_eq_ok {c : Codec L α} {s s' : Option α} {d : Doc L} :
    setField c s d = .ok s' ↔ s = none ∧ ∃ x, c.dec d = .ok x ∧ s' = some x := by
  unfold setField
  cases s with
  | some a => simp
  | none =>
    cases h : c.dec d with
    | error e => simp [Bind.bind, Except.bind]
    | ok x => simp [Bind.bind, Except.bind, pure, Except.pure, eq_comm]

theorem fold_some {c : Codec L α} {x : α} {s : Option α} : ∀ {ds : List (Doc L)},
    ds.foldlM (setField c) (some x) = .ok s ↔ ds = [] ∧ s = some x
  | [] => by simp [pure, Except.pure, eq_comm]
  | d :: ds => by
    rw [List.foldlM_cons]
    simp [setField, Bind.bind, Except.bind]

theorem fold_none {c : Codec L α} {x : α} {ds : List (Doc L)} :
    ds.foldlM (setField c) none = .ok (some x) ↔ ∃ d, ds = [d] ∧ c.dec d = .ok x := by
  cases ds with
  | nil => simp [pure, Except.pure]
  | cons d ds =>
    rw [List.foldlM_cons, bind_eq_ok]
    constructor
    · rintro ⟨s', h1, h2⟩
      obtain ⟨-, y, hy, rfl⟩ := setField_eq_ok.1 h1
      obtain ⟨rfl, h⟩ := fold_some.1 h2
      cases h
      exact ⟨d, rfl, hy⟩
    · rintro ⟨d', h, hx⟩
      cases h
      exact ⟨some x, setField_eq_ok.2 ⟨rfl, x, hx, rfl⟩, rfl⟩

theorem once_iff {es : List (String × Doc L)} {n : String} {d : Doc L} : Once es n d ↔ valuesOf es n = [d] := by
  have key : ∀ es : List (String × Doc L), (es.map Prod.fst).count n = (valuesOf es n).length := by
    intro es
    induction es with
    | nil => rfl
    | cons e es ih =>
      rw [List.map_cons, valuesOf_cons, List.count_cons, ih]
      by_cases h : e.1 = n <;> simp [h]
  have mem : (n, d) ∈ es ↔ d ∈ valuesOf es n := by
    unfold valuesOf
    simp only [List.mem_map, List.mem_filter, decide_eq_true_eq]
    constructor
    · intro h
      exact ⟨(n, d), ⟨h, rfl⟩, rfl⟩
    · rintro ⟨e, ⟨h, h1⟩, h2⟩
      rw [← h1, ← h2]; exact h
  unfold Once
  rw [mem, key]
  constructor
  · rintro ⟨h, h1⟩
    obtain ⟨a, ha⟩ := List.length_eq_one_iff.1 h1
    rw [ha] at h
    rw [ha, List.mem_singleton.1 h]
  · intro h
    rw [h]; simp

theorem readField_iff {c : Codec L α} {n : String} {x : α} {es : List (String × Doc L)} :
    readField c n none es = .ok (some x) ↔ FieldIs es n c x := by
  unfold readField FieldIs
  rw [fold_none]
  simp only [once_iff]

theorem required_eq_ok {s : Option α} {x : α} : required s = .ok x ↔ s = some x := by
  cases s <;> simp [required]

theorem FieldIs.perm {c : Codec L α} {n : String} {x : α} {es es' : List (String × Doc L)} (hp : es.Perm es')
    (h : FieldIs es n c x) : FieldIs es' n c x := by
  obtain ⟨d, ⟨h1, h2⟩, h3⟩ := h
  exact ⟨d, ⟨hp.mem_iff.1 h1, by rw [← (hp.map Prod.fst).count_eq]; exact h2⟩, h3⟩

theorem lawful_list {c : Codec L α} (h : Lawful c) : Lawful c.list := by
  intro as
  change (as.map c.enc).mapM c.dec = .ok as
  induction as with
  | nil => rfl
  | cons a as ih => rw [List.map_cons, List.mapM_cons, h a, ih]; rfl

/-- The elements of a list are decoded one by one, in order; nothing else is a list. -/
theorem list_dec_iff {c : Codec L α} {d : Doc L} {xs : List α} :
    c.list.dec d = .ok xs ↔ ∃ ds, d = .seq ds ∧ List.Forall₂ (fun d x => c.dec d = .ok x) ds xs := by
  cases d with
  | seq ds =>
    simp only [Codec.list, Doc.seq.injEq, exists_eq_left']
    constructor
    · exact mapM_ok_inv
    · intro h
      induction h with
      | nil => rfl
      | cons h _ ih => rw [List.mapM_cons, h, ih]; rfl
  | null => simp [Codec.list]
  | leaf a => simp [Codec.list]
  | map es => simp [Codec.list]

/-! ### Curves -/

section curves
variable {K V : Type} {ck : Codec L K} {cn : Codec L ℕ} {cv : Codec L V}

theorem curve_fold : ∀ {es : List (String × Doc L)} {a a' : Option (List V)} {b b' : Option ℕ} {c c' : Option (List K)},
    es.foldlM (curveStep ck cn cv) (a, b, c) = .ok (a', b', c') ↔
      (∀ e ∈ es, e.1 ∈ ["control_points", "degree", "knots"]) ∧ readField cv.list "control_points" a es = .ok a' ∧
        readField cn "degree" b es = .ok b' ∧ readField ck.list "knots" c es = .ok c'
  | [], a, a', b, b', c, c' => by simp [readField, valuesOf, pure, Except.pure]
  | e :: es, a, a', b, b', c, c' => by
    rw [List.foldlM_cons, readField_cons, readField_cons, readField_cons, List.forall_mem_cons]
    simp only [curveStep]
    by_cases h1 : e.1 = "control_points"
    · have hk : e.1 ∈ ["control_points", "degree", "knots"] := by simp [h1]
      simp only [hk, true_and]
      simp only [h1, String.reduceEq, if_true, if_false]
      cases setField cv.list a e.2 with
      | error x => simp [Bind.bind, Except.bind]
      | ok s => simp only [ok_bind, pure_eq_ok]; exact curve_fold
    by_cases h2 : e.1 = "degree"
    · have hk : e.1 ∈ ["control_points", "degree", "knots"] := by simp [h2]
      simp only [hk, true_and]
      simp only [h2, String.reduceEq, if_true, if_false]
      cases setField cn b e.2 with
      | error x => simp [Bind.bind, Except.bind]
      | ok s => simp only [ok_bind, pure_eq_ok]; exact curve_fold
    by_cases h3 : e.1 = "knots"
    · have hk : e.1 ∈ ["control_points", "degree", "knots"] := by simp [h3]
      simp only [hk, true_and]
      simp only [h3, String.reduceEq, if_true, if_false]
      cases setField ck.list c e.2 with
      | error x => simp [Bind.bind, Except.bind]
      | ok s => simp only [ok_bind, pure_eq_ok]; exact curve_fold
    simp [h1, h2, h3, Bind.bind, Except.bind]

/-- **C56** A document is read as a curve exactly when it is a map without unknown keys in which each of the three fields
    occurs exactly once with a value of its type; nothing else is checked. -/
theorem C56_curve_accepts {d : Doc L} {c : Curve K V} :
    decCurve ck cn cv d = .ok c ↔ ∃ es, d = .map es ∧ (∀ e ∈ es, e.1 ∈ ["control_points", "degree", "knots"]) ∧
      FieldIs es "control_points" cv.list c.cps ∧ FieldIs es "degree" cn c.degree ∧
      FieldIs es "knots" ck.list c.knots := by
  cases d with
  | null => simp [decCurve]
  | leaf a => simp [decCurve]
  | seq ds => simp [decCurve]
  | map es =>
    simp only [decCurve, Doc.map.injEq, exists_eq_left']
    rw [bind_eq_ok]
    constructor
    · rintro ⟨⟨a, b, e⟩, h, h1⟩
      obtain ⟨x, hx, h2⟩ := bind_eq_ok.1 h1
      obtain ⟨y, hy, h3⟩ := bind_eq_ok.1 h2
      obtain ⟨z, hz, h4⟩ := bind_eq_ok.1 h3
      rw [pure_eq_ok] at h4
      cases h4
      rw [required_eq_ok] at hx hy hz
      simp only at hx hy hz
      subst hx hy hz
      obtain ⟨g1, g2, g3, g4⟩ := curve_fold.1 h
      exact ⟨g1, readField_iff.1 g2, readField_iff.1 g3, readField_iff.1 g4⟩
    · rintro ⟨g1, g2, g3, g4⟩
      exact ⟨_, curve_fold.2 ⟨g1, readField_iff.2 g2, readField_iff.2 g3, readField_iff.2 g4⟩, rfl⟩

/-- **C56** What is read does not depend on the order of the entries. -/
theorem C56_curve_order {es es' : List (String × Doc L)} (hp : es.Perm es') (c : Curve K V) :
    decCurve ck cn cv (.map es) = .ok c ↔ decCurve ck cn cv (.map es') = .ok c := by
  rw [C56_curve_accepts, C56_curve_accepts]
  simp only [Doc.map.injEq, exists_eq_left']
  constructor
  · rintro ⟨h, h1, h2, h3⟩
    exact ⟨fun e he => h e (hp.mem_iff.2 he), h1.perm hp, h2.perm hp, h3.perm hp⟩
  · rintro ⟨h, h1, h2, h3⟩
    exact ⟨fun e he => h e (hp.mem_iff.1 he), h1.perm hp.symm, h2.perm hp.symm, h3.perm hp.symm⟩

/-- **C56** Reading a written curve, with its fields in any order, gives the curve. -/
theorem C56_curve_round_trip (hk : Lawful ck) (hn : Lawful cn) (hv : Lawful cv) (c : Curve K V)
    {es : List (String × Doc L)}
    (hp : es.Perm [("control_points", .seq (c.cps.map cv.enc)), ("degree", cn.enc c.degree),
      ("knots", .seq (c.knots.map ck.enc))]) :
    encCurve ck cn cv c = .map [("control_points", .seq (c.cps.map cv.enc)), ("degree", cn.enc c.degree),
      ("knots", .seq (c.knots.map ck.enc))] ∧ decCurve ck cn cv (.map es) = .ok c := by
  refine ⟨rfl, (C56_curve_order hp c).2 (C56_curve_accepts.2 ⟨_, rfl, by simp, ?_, ?_, ?_⟩)⟩
  · exact ⟨_, once_iff.2 (by simp [valuesOf, Codec.list]), lawful_list hv _⟩
  · exact ⟨_, once_iff.2 (by simp [valuesOf]), hn _⟩
  · exact ⟨_, once_iff.2 (by simp [valuesOf, Codec.list]), lawful_list hk _⟩

theorem lawful_curve (hk : Lawful ck) (hn : Lawful cn) (hv : Lawful cv) : Lawful (curveCodec ck cn cv) := fun c =>
  (C56_curve_round_trip hk hn hv c (List.Perm.refl _)).2

/-- **C56** A missing, a repeated or an unknown key, and anything that is not a map, is an error. -/
theorem C56_curve_rejects {es : List (String × Doc L)}
    (h : (∃ n ∈ ["control_points", "degree", "knots"], (es.map Prod.fst).count n ≠ 1) ∨
      ∃ e ∈ es, e.1 ∉ ["control_points", "degree", "knots"]) (c : Curve K V) : decCurve ck cn cv (.map es) ≠ .ok c := by
  intro hc
  obtain ⟨es', he, h0, ⟨_, ⟨_, h1⟩, _⟩, ⟨_, ⟨_, h2⟩, _⟩, ⟨_, ⟨_, h3⟩, _⟩⟩ := C56_curve_accepts.1 hc
  cases he
  rcases h with ⟨n, hn, h⟩ | ⟨e, he, h⟩
  · simp only [List.mem_cons, List.not_mem_nil, or_false] at hn
    rcases hn with rfl | rfl | rfl
    · exact h h1
    · exact h h2
    · exact h h3
  · exact h (h0 e he)

/-- **C56** (limit of the claim) A format that writes the fields of a struct as a sequence cannot be read back: the
    visitor has no `visit_seq`. -/
theorem C56_positional_rejected (ds : List (Doc L)) (c : Curve K V) : decCurve ck cn cv (.seq ds) ≠ .ok c := by
  simp [decCurve]

end curves

/-! ### Surfaces -/

section surfaces
variable {K V : Type} {ck : Codec L K} {cn : Codec L ℕ} {cv : Codec L V}

theorem surface_fold : ∀ {es : List (String × Doc L)} {st st' : SurfaceSlots K V},
    es.foldlM (surfaceStep ck cn cv) st = .ok st' ↔
      (∀ e ∈ es, e.1 ∈ ["control_points", "u_degree", "v_degree", "u_knots", "v_knots"]) ∧
        readField cv.list.list "control_points" st.cps es = .ok st'.cps ∧
        readField cn "u_degree" st.uDegree es = .ok st'.uDegree ∧
        readField cn "v_degree" st.vDegree es = .ok st'.vDegree ∧
        readField ck.list "u_knots" st.uKnots es = .ok st'.uKnots ∧
        readField ck.list "v_knots" st.vKnots es = .ok st'.vKnots
  | [], st, st' => by
    simp only [readField, valuesOf, List.filter_nil, List.map_nil, List.foldlM_nil, pure_eq_ok, Except.ok.injEq]
    cases st; cases st'; simp
  | e :: es, st, st' => by
    rw [List.foldlM_cons, readField_cons, readField_cons, readField_cons, readField_cons, readField_cons, List.forall_mem_cons]
    simp only [surfaceStep]
    by_cases h1 : e.1 = "control_points"
    · have hk : e.1 ∈ ["control_points", "u_degree", "v_degree", "u_knots", "v_knots"] := by simp [h1]
      simp only [hk, true_and]
      simp only [h1, String.reduceEq, if_true, if_false]
      cases setField cv.list.list st.cps e.2 with
      | error x => simp [Bind.bind, Except.bind]
      | ok s => simp only [ok_bind, pure_eq_ok]; exact surface_fold
    by_cases h2 : e.1 = "u_degree"
    · have hk : e.1 ∈ ["control_points", "u_degree", "v_degree", "u_knots", "v_knots"] := by simp [h2]
      simp only [hk, true_and]
      simp only [h2, String.reduceEq, if_true, if_false]
      cases setField cn st.uDegree e.2 with
      | error x => simp [Bind.bind, Except.bind]
      | ok s => simp only [ok_bind, pure_eq_ok]; exact surface_fold
    by_cases h3 : e.1 = "v_degree"
    · have hk : e.1 ∈ ["control_points", "u_degree", "v_degree", "u_knots", "v_knots"] := by simp [h3]
      simp only [hk, true_and]
      simp only [h3, String.reduceEq, if_true, if_false]
      cases setField cn st.vDegree e.2 with
      | error x => simp [Bind.bind, Except.bind]
      | ok s => simp only [ok_bind, pure_eq_ok]; exact surface_fold
    by_cases h4 : e.1 = "u_knots"
    · have hk : e.1 ∈ ["control_points", "u_degree", "v_degree", "u_knots", "v_knots"] := by simp [h4]
      simp only [hk, true_and]
      simp only [h4, String.reduceEq, if_true, if_false]
      cases setField ck.list st.uKnots e.2 with
      | error x => simp [Bind.bind, Except.bind]
      | ok s => simp only [ok_bind, pure_eq_ok]; exact surface_fold
    by_cases h5 : e.1 = "v_knots"
    · have hk : e.1 ∈ ["control_points", "u_degree", "v_degree", "u_knots", "v_knots"] := by simp [h5]
      simp only [hk, true_and]
      simp only [h5, String.reduceEq, if_true, if_false]
      cases setField ck.list st.vKnots e.2 with
      | error x => simp [Bind.bind, Except.bind]
      | ok s => simp only [ok_bind, pure_eq_ok]; exact surface_fold
    simp [h1, h2, h3, h4, h5, Bind.bind, Except.bind]

/-- **C56** A document is read as a surface exactly when it is a map without unknown keys in which each of the five fields
    occurs exactly once with a value of its type; nothing else is checked. -/
theorem C56_surface_accepts {d : Doc L} {S : Surface K V} :
    decSurface ck cn cv d = .ok S ↔ ∃ es, d = .map es ∧
      (∀ e ∈ es, e.1 ∈ ["control_points", "u_degree", "v_degree", "u_knots", "v_knots"]) ∧
      FieldIs es "control_points" cv.list.list S.cps ∧ FieldIs es "u_degree" cn S.uDegree ∧
      FieldIs es "v_degree" cn S.vDegree ∧ FieldIs es "u_knots" ck.list S.uKnots ∧
      FieldIs es "v_knots" ck.list S.vKnots := by
  cases d with
  | null => simp [decSurface]
  | leaf a => simp [decSurface]
  | seq ds => simp [decSurface]
  | map es =>
    simp only [decSurface, Doc.map.injEq, exists_eq_left']
    rw [bind_eq_ok]
    constructor
    · rintro ⟨⟨a, b, c, d, e⟩, h, h1⟩
      obtain ⟨x, hx, h2⟩ := bind_eq_ok.1 h1
      obtain ⟨y, hy, h3⟩ := bind_eq_ok.1 h2
      obtain ⟨z, hz, h4⟩ := bind_eq_ok.1 h3
      obtain ⟨w, hw, h5⟩ := bind_eq_ok.1 h4
      obtain ⟨v, hv, h6⟩ := bind_eq_ok.1 h5
      rw [pure_eq_ok] at h6
      cases h6
      rw [required_eq_ok] at hx hy hz hw hv
      simp only at hx hy hz hw hv
      subst hx hy hz hw hv
      obtain ⟨g1, g2, g3, g4, g5, g6⟩ := surface_fold.1 h
      exact ⟨g1, readField_iff.1 g2, readField_iff.1 g3, readField_iff.1 g4, readField_iff.1 g5, readField_iff.1 g6⟩
    · rintro ⟨g1, g2, g3, g4, g5, g6⟩
      exact ⟨⟨some S.cps, some S.uDegree, some S.vDegree, some S.uKnots, some S.vKnots⟩,
        surface_fold.2 ⟨g1, readField_iff.2 g2, readField_iff.2 g3, readField_iff.2 g4, readField_iff.2 g5,
          readField_iff.2 g6⟩, rfl⟩

/-- **C56** What is read does not depend on the order of the entries. -/
theorem C56_surface_order {es es' : List (String × Doc L)} (hp : es.Perm es') (S : Surface K V) :
    decSurface ck cn cv (.map es) = .ok S ↔ decSurface ck cn cv (.map es') = .ok S := by
  rw [C56_surface_accepts, C56_surface_accepts]
  simp only [Doc.map.injEq, exists_eq_left']
  constructor
  · rintro ⟨h, h1, h2, h3, h4, h5⟩
    exact ⟨fun e he => h e (hp.mem_iff.2 he), h1.perm hp, h2.perm hp, h3.perm hp, h4.perm hp, h5.perm hp⟩
  · rintro ⟨h, h1, h2, h3, h4, h5⟩
    exact ⟨fun e he => h e (hp.mem_iff.1 he), h1.perm hp.symm, h2.perm hp.symm, h3.perm hp.symm, h4.perm hp.symm,
      h5.perm hp.symm⟩

/-- **C56** Reading a written surface, with its fields in any order, gives the surface. -/
theorem C56_surface_round_trip (hk : Lawful ck) (hn : Lawful cn) (hv : Lawful cv) (S : Surface K V)
    {es : List (String × Doc L)}
    (hp : es.Perm [("control_points", .seq (S.cps.map fun row => .seq (row.map cv.enc))), ("u_degree", cn.enc S.uDegree),
      ("v_degree", cn.enc S.vDegree), ("u_knots", .seq (S.uKnots.map ck.enc)),
      ("v_knots", .seq (S.vKnots.map ck.enc))]) :
    encSurface ck cn cv S = .map [("control_points", .seq (S.cps.map fun row => .seq (row.map cv.enc))),
      ("u_degree", cn.enc S.uDegree), ("v_degree", cn.enc S.vDegree), ("u_knots", .seq (S.uKnots.map ck.enc)),
      ("v_knots", .seq (S.vKnots.map ck.enc))] ∧ decSurface ck cn cv (.map es) = .ok S := by
  refine ⟨rfl, (C56_surface_order hp S).2 (C56_surface_accepts.2 ⟨_, rfl, by simp, ?_, ?_, ?_, ?_, ?_⟩)⟩
  · exact ⟨_, once_iff.2 (by simp [valuesOf, Codec.list]), lawful_list (lawful_list hv) _⟩
  · exact ⟨_, once_iff.2 (by simp [valuesOf]), hn _⟩
  · exact ⟨_, once_iff.2 (by simp [valuesOf]), hn _⟩
  · exact ⟨_, once_iff.2 (by simp [valuesOf, Codec.list]), lawful_list hk _⟩
  · exact ⟨_, once_iff.2 (by simp [valuesOf, Codec.list]), lawful_list hk _⟩

theorem lawful_surface (hk : Lawful ck) (hn : Lawful cn) (hv : Lawful cv) : Lawful (surfaceCodec ck cn cv) := fun S =>
  (C56_surface_round_trip hk hn hv S (List.Perm.refl _)).2

end surfaces

/-! ### Compound curves and regions -/

section compound
variable {C S : Type} {cc : Codec L C} {cs : Codec L S}

theorem compound_fold : ∀ {es : List (String × Doc L)} {a a' : Option (List C)},
    es.foldlM (fun st (e : String × Doc L) => if e.1 = "spans" then setField cc.list st e.2 else .error .err) a = .ok a' ↔
      (∀ e ∈ es, e.1 ∈ ["spans"]) ∧ readField cc.list "spans" a es = .ok a'
  | [], a, a' => by simp [readField, valuesOf, pure, Except.pure]
  | e :: es, a, a' => by
    rw [List.foldlM_cons, readField_cons, List.forall_mem_cons]
    by_cases h1 : e.1 = "spans"
    · have hk : e.1 ∈ ["spans"] := by simp [h1]
      simp only [hk, true_and]
      simp only [h1, if_true]
      cases setField cc.list a e.2 with
      | error x => simp [Bind.bind, Except.bind]
      | ok s => simp only [ok_bind]; exact compound_fold
    · simp [h1, Bind.bind, Except.bind]

/-- **C56** A document is read as a compound curve exactly when it is a map whose only entry is the list of the spans;
    neither that there are spans nor that they are connected is checked. -/
theorem C56_compound_accepts {d : Doc L} {spans : List C} :
    (compoundCodec cc).dec d = .ok spans ↔ ∃ v, d = .map [("spans", v)] ∧ cc.list.dec v = .ok spans := by
  cases d with
  | null => simp [compoundCodec]
  | leaf a => simp [compoundCodec]
  | seq ds => simp [compoundCodec]
  | map es =>
    simp only [compoundCodec, Doc.map.injEq]
    rw [bind_eq_ok]
    constructor
    · rintro ⟨a, h, h1⟩
      rw [required_eq_ok] at h1
      subst h1
      obtain ⟨g1, g2⟩ := compound_fold.1 h
      obtain ⟨d, ho, hd⟩ := readField_iff.1 g2
      refine ⟨d, ?_, hd⟩
      have hl : es.length = 1 := by
        have := ho.2
        rw [List.count_eq_length.2 ?_, List.length_map] at this
        · exact this
        · intro b hb
          obtain ⟨e, he, rfl⟩ := List.mem_map.1 hb
          simpa [eq_comm] using g1 e he
      obtain ⟨e, rfl⟩ := List.length_eq_one_iff.1 hl
      rw [← List.mem_singleton.1 ho.1]
    · rintro ⟨v, rfl, hv⟩
      exact ⟨_, compound_fold.2 ⟨by simp, readField_iff.2 ⟨v, once_iff.2 (by simp [valuesOf]), hv⟩⟩, rfl⟩

/-- **C56** Reading a written compound curve gives the compound curve. -/
theorem C56_compound_round_trip (h : Lawful cc) : Lawful (compoundCodec cc) := fun _ =>
  C56_compound_accepts.2 ⟨_, rfl, lawful_list h _⟩

theorem region_fold : ∀ {es : List (String × Doc L)} {a a' : Option C} {b b' : Option (List C)},
    es.foldlM (regionStep cc) (a, b) = .ok (a', b') ↔
      readField cc "exterior" a es = .ok a' ∧ readField cc.list "interiors" b es = .ok b'
  | [], a, a', b, b' => by simp [readField, valuesOf, pure, Except.pure]
  | e :: es, a, a', b, b' => by
    rw [List.foldlM_cons, readField_cons, readField_cons]
    simp only [regionStep]
    by_cases h1 : e.1 = "exterior"
    · simp only [h1, String.reduceEq, if_true, if_false]
      cases setField cc a e.2 with
      | error x => simp [Bind.bind, Except.bind]
      | ok s => simp only [ok_bind, pure_eq_ok]; exact region_fold
    by_cases h2 : e.1 = "interiors"
    · simp only [h2, String.reduceEq, if_true, if_false]
      cases setField cc.list b e.2 with
      | error x => simp [Bind.bind, Except.bind]
      | ok s => simp only [ok_bind, pure_eq_ok]; exact region_fold
    simp only [h1, h2, if_false, ok_bind, pure_eq_ok]
    exact region_fold

/-- **C56** A map is read as a region exactly when the two fields occur exactly once with values of their types; here
    other keys are ignored. -/
theorem C56_region_accepts {es : List (String × Doc L)} {r : Boolean.Region C} :
    (regionCodec cc).dec (.map es) = .ok r ↔
      FieldIs es "exterior" cc r.exterior ∧ FieldIs es "interiors" cc.list r.interiors := by
  simp only [regionCodec]
  rw [bind_eq_ok]
  constructor
  · rintro ⟨⟨a, b⟩, h, h1⟩
    obtain ⟨x, hx, h2⟩ := bind_eq_ok.1 h1
    obtain ⟨y, hy, h3⟩ := bind_eq_ok.1 h2
    rw [pure_eq_ok] at h3
    cases h3
    rw [required_eq_ok] at hx hy
    simp only at hx hy
    subst hx hy
    obtain ⟨g1, g2⟩ := region_fold.1 h
    exact ⟨readField_iff.1 g1, readField_iff.1 g2⟩
  · rintro ⟨g1, g2⟩
    exact ⟨(some r.exterior, some r.interiors), region_fold.2 ⟨readField_iff.2 g1, readField_iff.2 g2⟩, rfl⟩

/-- **C56** Reading a written region gives the region. -/
theorem C56_region_round_trip (h : Lawful cc) : Lawful (regionCodec cc) := fun r =>
  C56_region_accepts.2 ⟨⟨_, once_iff.2 (by simp [valuesOf]), h _⟩, ⟨_, once_iff.2 (by simp [valuesOf, Codec.list]), lawful_list h _⟩⟩

/-! ### Trimmed surfaces -/

/-- The values of the key of the exterior give `x`: none of them, or a last one that gives `x` if it can be read, and
    all before it cannot be read. -/
def ExteriorIs (es : List (String × Doc L)) (cc : Codec L C) (x : Option C) : Prop :=
  ((∀ e ∈ es, e.1 ≠ "exterior") ∧ x = none) ∨
    ∃ init d, (es.filter fun e => e.1 = "exterior").map Prod.snd = init ++ [d] ∧
      (∀ b ∈ init, ∀ y, cc.dec b ≠ .ok y) ∧ ((∃ y, cc.dec d = .ok y ∧ x = some y) ∨ ((∀ y, cc.dec d ≠ .ok y) ∧ x = none))

/-- reading the exterior alone -/
def readExterior (cc : Codec L C) (s : Option C) (ds : List (Doc L)) : Res (Option C) :=
  ds.foldlM (fun s d => if s.isSome then .error .err else pure (okOption (cc.dec d))) s

theorem readExterior_some {y : C} {x : Option C} {ds : List (Doc L)} :
    readExterior cc (some y) ds = .ok x ↔ ds = [] ∧ x = some y := by
  cases ds with
  | nil =>
    change Except.ok (some y) = Except.ok x ↔ _
    simp [eq_comm]
  | cons d ds => simp [readExterior, Bind.bind, Except.bind]

theorem readExterior_none : ∀ {ds : List (Doc L)} {x : Option C}, readExterior cc none ds = .ok x ↔
    (ds = [] ∧ x = none) ∨ ∃ init d, ds = init ++ [d] ∧ (∀ b ∈ init, ∀ y, cc.dec b ≠ .ok y) ∧
      ((∃ y, cc.dec d = .ok y ∧ x = some y) ∨ ((∀ y, cc.dec d ≠ .ok y) ∧ x = none))
  | [], x => by
    change Except.ok none = Except.ok x ↔ _
    rw [Except.ok.injEq, @eq_comm _ none x]
    simp
  | d :: ds, x => by
    have hstep : readExterior cc none (d :: ds) = readExterior cc (okOption (cc.dec d)) ds := rfl
    rw [hstep]
    cases h : cc.dec d with
    | ok y =>
      simp only [okOption]
      rw [readExterior_some]
      constructor
      · rintro ⟨rfl, rfl⟩
        exact Or.inr ⟨[], d, rfl, by simp, Or.inl ⟨y, h, rfl⟩⟩
      · rintro (⟨h1, -⟩ | ⟨init, d', h1, h2, h3⟩)
        · cases h1
        · cases init with
          | nil =>
            simp only [List.nil_append, List.cons.injEq] at h1
            obtain ⟨rfl, rfl⟩ := h1
            rcases h3 with ⟨z, hz, rfl⟩ | ⟨h3, -⟩
            · rw [h] at hz; cases hz; exact ⟨rfl, rfl⟩
            · exact absurd h (h3 y)
          | cons b init =>
            simp only [List.cons_append, List.cons.injEq] at h1
            rw [← h1.1] at h2
            exact absurd h (h2 d (by simp) y)
    | error f =>
      simp only [okOption]
      rw [readExterior_none]
      constructor
      · rintro (⟨rfl, rfl⟩ | ⟨init, d', rfl, h2, h3⟩)
        · exact Or.inr ⟨[], d, rfl, by simp, Or.inr ⟨fun y hy => absurd (h.symm.trans hy) (by simp), rfl⟩⟩
        · refine Or.inr ⟨d :: init, d', rfl, ?_, h3⟩
          intro b hb
          rcases List.mem_cons.1 hb with rfl | hb
          · intro y hy; rw [h] at hy; cases hy
          · exact h2 b hb
      · rintro (⟨h1, -⟩ | ⟨init, d', h1, h2, h3⟩)
        · cases h1
        · cases init with
          | nil =>
            simp only [List.nil_append, List.cons.injEq] at h1
            obtain ⟨rfl, rfl⟩ := h1
            rcases h3 with ⟨z, hz, -⟩ | ⟨-, rfl⟩
            · rw [h] at hz; cases hz
            · exact Or.inl ⟨rfl, rfl⟩
          | cons b init =>
            simp only [List.cons_append, List.cons.injEq] at h1
            exact Or.inr ⟨init, d', h1.2, fun b' hb' => h2 b' (by simp [hb']), h3⟩

theorem trimmed_fold : ∀ {es : List (String × Doc L)} {a a' : Option S} {b b' : Option C} {c c' : Option (List C)},
    es.foldlM (trimmedStep cs cc) (a, b, c) = .ok (a', b', c') ↔
      (∀ e ∈ es, e.1 ∈ ["surface", "exterior", "interiors"]) ∧ readField cs "surface" a es = .ok a' ∧
        readExterior cc b (valuesOf es "exterior") = .ok b' ∧ readField cc.list "interiors" c es = .ok c'
  | [], a, a', b, b', c, c' => by simp [readField, readExterior, valuesOf, pure, Except.pure]
  | e :: es, a, a', b, b', c, c' => by
    rw [List.foldlM_cons, readField_cons, readField_cons, valuesOf_cons, List.forall_mem_cons]
    simp only [trimmedStep]
    by_cases h1 : e.1 = "surface"
    · have hk : e.1 ∈ ["surface", "exterior", "interiors"] := by simp [h1]
      simp only [hk, true_and]
      simp only [h1, String.reduceEq, if_true, if_false]
      cases setField cs a e.2 with
      | error x => simp [Bind.bind, Except.bind]
      | ok s => simp only [ok_bind, pure_eq_ok]; exact trimmed_fold
    by_cases h2 : e.1 = "exterior"
    · have hk : e.1 ∈ ["surface", "exterior", "interiors"] := by simp [h2]
      simp only [hk, true_and]
      simp only [h2, String.reduceEq, if_true, if_false]
      cases b with
      | some y => simp [Bind.bind, Except.bind, readExterior_some]
      | none =>
        have hstep : readExterior cc none (e.2 :: valuesOf es "exterior") =
            readExterior cc (okOption (cc.dec e.2)) (valuesOf es "exterior") := rfl
        rw [hstep]
        simp only [Option.isSome_none, Bool.false_eq_true, if_false, ok_bind, pure_eq_ok]
        exact trimmed_fold
    by_cases h3 : e.1 = "interiors"
    · have hk : e.1 ∈ ["surface", "exterior", "interiors"] := by simp [h3]
      simp only [hk, true_and]
      simp only [h3, String.reduceEq, if_true, if_false]
      cases setField cc.list c e.2 with
      | error x => simp [Bind.bind, Except.bind]
      | ok s => simp only [ok_bind, pure_eq_ok]; exact trimmed_fold
    simp [h1, h2, h3, Bind.bind, Except.bind]

theorem valuesOf_eq_nil {es : List (String × Doc L)} {n : String} : valuesOf es n = [] ↔ ∀ e ∈ es, e.1 ≠ n := by
  simp [valuesOf]

/-- **C56** A document is read as a trimmed surface exactly when it is a map without unknown keys, surface and interiors
    occur exactly once with values of their types, and all values of the exterior but the last cannot be read. -/
theorem C56_trimmed_accepts {d : Doc L} {t : Trimmed S C} :
    (trimmedCodec cs cc).dec d = .ok t ↔ ∃ es, d = .map es ∧
      (∀ e ∈ es, e.1 ∈ ["surface", "exterior", "interiors"]) ∧ FieldIs es "surface" cs t.surface ∧
      ExteriorIs es cc t.exterior ∧ FieldIs es "interiors" cc.list t.interiors := by
  cases d with
  | null => simp [trimmedCodec]
  | leaf a => simp [trimmedCodec]
  | seq ds => simp [trimmedCodec]
  | map es =>
    simp only [trimmedCodec, Doc.map.injEq, exists_eq_left']
    rw [bind_eq_ok]
    have hext : ∀ x : Option C, readExterior cc none (valuesOf es "exterior") = .ok x ↔ ExteriorIs es cc x := by
      intro x
      rw [readExterior_none, valuesOf_eq_nil]; rfl
    constructor
    · rintro ⟨⟨a, b, e⟩, h, h1⟩
      obtain ⟨x, hx, h2⟩ := bind_eq_ok.1 h1
      obtain ⟨y, hy, h3⟩ := bind_eq_ok.1 h2
      rw [pure_eq_ok] at h3
      cases h3
      rw [required_eq_ok] at hx hy
      simp only at hx hy
      subst hx hy
      obtain ⟨g1, g2, g3, g4⟩ := trimmed_fold.1 h
      exact ⟨g1, readField_iff.1 g2, (hext _).1 g3, readField_iff.1 g4⟩
    · rintro ⟨g1, g2, g3, g4⟩
      exact ⟨(some t.surface, t.exterior, some t.interiors),
        trimmed_fold.2 ⟨g1, readField_iff.2 g2, (hext _).2 g3, readField_iff.2 g4⟩, rfl⟩

/-- **C56** Reading a written trimmed surface gives the trimmed surface, with or without an exterior. -/
theorem C56_trimmed_round_trip (hs : Lawful cs) (hc : Lawful cc) (hnull : ∀ y, cc.dec .null ≠ .ok y) :
    Lawful (trimmedCodec cs cc) := by
  intro t
  refine C56_trimmed_accepts.2 ⟨_, rfl, by simp, ⟨_, once_iff.2 (by simp [valuesOf]), hs _⟩, ?_,
    ⟨_, once_iff.2 (by simp [valuesOf, Codec.list]), lawful_list hc _⟩⟩
  refine Or.inr ⟨[], encOption cc t.exterior, by simp, by simp, ?_⟩
  cases t.exterior with
  | none => exact Or.inr ⟨hnull, rfl⟩
  | some y => exact Or.inl ⟨y, hc y, rfl⟩

/-- **C56** (defect) An exterior that cannot be read is not an error: the trimmed surface is read as untrimmed, whatever
    stands there. -/
theorem C56_trimmed_drops_exterior (hs : Lawful cs) (hc : Lawful cc) (t : Trimmed S C) {bad : Doc L}
    (hbad : ∀ y, cc.dec bad ≠ .ok y) :
    (trimmedCodec cs cc).dec (.map [("surface", cs.enc t.surface), ("exterior", bad),
      ("interiors", cc.list.enc t.interiors)]) = .ok { t with exterior := none } :=
  C56_trimmed_accepts.2 ⟨_, rfl, by simp, ⟨_, once_iff.2 (by simp [valuesOf]), hs _⟩,
    Or.inr ⟨[], bad, by simp, by simp, Or.inr ⟨hbad, rfl⟩⟩, ⟨_, once_iff.2 (by simp [valuesOf, Codec.list]), lawful_list hc _⟩⟩

/-- **C56** (defect) The exterior may be missing. -/
theorem C56_trimmed_missing_exterior (hs : Lawful cs) (hc : Lawful cc) (t : Trimmed S C) :
    (trimmedCodec cs cc).dec (.map [("surface", cs.enc t.surface), ("interiors", cc.list.enc t.interiors)]) =
      .ok { t with exterior := none } :=
  C56_trimmed_accepts.2 ⟨_, rfl, by simp, ⟨_, once_iff.2 (by simp [valuesOf]), hs _⟩,
    Or.inl ⟨by simp, rfl⟩, ⟨_, once_iff.2 (by simp [valuesOf, Codec.list]), lawful_list hc _⟩⟩

end compound

/-! ### Witnesses, and what is not checked -/

/-- unsigned numbers as leaves -/
def sizeCodec : Codec ℤ ℕ where
  enc := fun n => .leaf n
  dec := fun d => match d with
    | .leaf a => if 0 ≤ a then .ok a.toNat else .error .err
    | _ => .error .err

/-- rational scalars as a sequence of numerator and denominator -/
def ratCodec : Codec ℤ ℚ where
  enc := fun q => .seq [.leaf q.num, .leaf q.den]
  dec := fun d => match d with
    | .seq [.leaf a, .leaf b] => .ok (a / b)
    | _ => .error .err

theorem sizeCodec_lawful : Lawful sizeCodec := by
  intro n
  simp [sizeCodec]

theorem ratCodec_lawful : Lawful ratCodec := by
  intro q
  simp [ratCodec, Rat.num_div_den]

/-- **C56** (defect) Documents are read without the checks of the constructor: a curve without control points or with
    the wrong number of knots is returned. -/
theorem C56_no_validation : ¬ ∀ (d : Doc ℤ) (c : Curve ℚ ℚ), decCurve ratCodec sizeCodec ratCodec d = .ok c →
    ∃ c', Curve.tryNew c.degree c.cps c.knots = .ok c' := by
  intro h
  obtain ⟨c', hc⟩ := h _ _ (C56_curve_round_trip ratCodec_lawful sizeCodec_lawful ratCodec_lawful
    { degree := 3, cps := [1], knots := [5, 2] } (List.Perm.refl _)).2
  simp [Curve.tryNew] at hc

/-- Witness of the round trip: the fields of a linear curve in another order. -/
example : decCurve ratCodec sizeCodec ratCodec (.map [("knots", .seq ([0, 0, 1, 1].map ratCodec.enc)),
    ("control_points", .seq ([2, 1 / 3].map ratCodec.enc)), ("degree", .leaf 1)]) =
    .ok { degree := 1, cps := [2, 1 / 3], knots := [0, 0, 1, 1] } :=
  (C56_curve_round_trip ratCodec_lawful sizeCodec_lawful ratCodec_lawful
    { degree := 1, cps := [2, 1 / 3], knots := [0, 0, 1, 1] }
    ((List.perm_append_comm (l₁ := [("knots", Doc.seq ([0, 0, 1, 1].map ratCodec.enc))])
      (l₂ := [("control_points", Doc.seq ([2, 1 / 3].map ratCodec.enc)), ("degree", Doc.leaf 1)])))).2

/-- Witness of the rejections: a repeated key, even with the same value. -/
example (c : Curve ℚ ℚ) : decCurve ratCodec sizeCodec ratCodec (.map [("degree", .leaf 1), ("degree", .leaf 1)]) ≠ .ok c :=
  C56_curve_rejects (Or.inl ⟨"degree", by simp, by simp⟩) c

/-- Witness of trimmed surfaces: the formats of the surface and of the curves of this crate, and an exterior with an
    unknown key that is dropped. -/
example (t : Trimmed (Surface ℚ ℚ) (Curve ℚ ℚ)) :
    (trimmedCodec (surfaceCodec ratCodec sizeCodec ratCodec) (curveCodec ratCodec sizeCodec ratCodec)).dec
      ((trimmedCodec (surfaceCodec ratCodec sizeCodec ratCodec) (curveCodec ratCodec sizeCodec ratCodec)).enc t) = .ok t ∧
    (trimmedCodec (surfaceCodec ratCodec sizeCodec ratCodec) (curveCodec ratCodec sizeCodec ratCodec)).dec
      (.map [("surface", encSurface ratCodec sizeCodec ratCodec t.surface), ("exterior", .map [("color", .leaf 1)]),
        ("interiors", (curveCodec ratCodec sizeCodec ratCodec).list.enc t.interiors)]) =
      .ok { t with exterior := none } := by
  have hs := lawful_surface ratCodec_lawful sizeCodec_lawful ratCodec_lawful
  have hc := lawful_curve ratCodec_lawful sizeCodec_lawful ratCodec_lawful
  refine ⟨C56_trimmed_round_trip hs hc (fun y => by simp [curveCodec, decCurve]) t,
    C56_trimmed_drops_exterior hs hc t fun y => ?_⟩
  exact C56_curve_rejects (Or.inr ⟨("color", .leaf 1), by simp, by simp⟩) y

/-- Witness of regions: compound curves of this crate. -/
example : Lawful (regionCodec (compoundCodec (curveCodec ratCodec sizeCodec ratCodec))) :=
  C56_region_round_trip (C56_compound_round_trip
    (lawful_curve ratCodec_lawful sizeCodec_lawful ratCodec_lawful))

end Curvo.Props

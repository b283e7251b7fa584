/-
  C72: trimming of compound curves.
-/
import Verif.Props.CompoundEval

set_option linter.unusedSectionVars false

namespace Curvo.Props

open Curvo.Knots Curvo.Spec Curvo.Curve Curvo.Compound

variable {K : Type} [Field K] [LinearOrder K] [IsStrictOrderedRing K]
variable {V : Type} [AddCommGroup V] [Module K V]

/-! ### Specification -/

/-- `p` is the piece of `x.1` over the interval `[x.2.1, x.2.2]`. -/
structure IsPiece (eps : K) (x : Curve K V × K × K) (p : Curve K V) : Prop where
  good : p.Good eps
  lo : p.lo = x.2.1
  hi : p.hi = x.2.2
  same : ∀ u, x.2.1 ≤ u → u ≤ x.2.2 → p.point eps u = x.1.point eps u

/-- The parts of the spans inside `[a, b]`. -/
def insideParts (a b : K) (spans : List (Curve K V)) : List (Curve K V × K × K) :=
  spans.flatMap fun c => if a < c.hi ∧ c.lo < b then [(c, max c.lo a, min c.hi b)] else []

/-- The parts of the spans outside of `[a, b]`. -/
def outsideParts (a b : K) (spans : List (Curve K V)) : List (Curve K V × K × K) :=
  spans.flatMap fun c => (if c.lo < a then [(c, c.lo, min c.hi a)] else []) ++
    (if b < c.hi then [(c, max c.lo b, c.hi)] else [])

/-- `t` cuts the span well inside of its domain and off its knots. -/
def CutsWell (eps teps : K) (c : Curve K V) (t : K) : Prop :=
  c.lo + teps ≤ t ∧ t ≤ c.hi - teps ∧ ∀ y ∈ c.knots, eps ≤ |y - t|

theorem CutsWell.sep {eps teps : K} (heps : 0 < eps) {c : Curve K V} {t : K} (h : CutsWell eps teps c t) :
    (∀ y ∈ c.knots, |y - t| < eps → y = t) ∧ t ∉ c.knots := by
  refine ⟨fun y hy hlt => absurd hlt (not_lt.2 (h.2.2 y hy)), fun hm => ?_⟩
  have := h.2.2 t hm
  rw [sub_self, abs_zero] at this
  exact absurd heps (not_lt.2 this)

theorem good_lo_lt_hi {eps : K} {c : Curve K V} (h : c.Good eps) : c.lo < c.hi := by
  have := h.good.first
  refine lt_of_lt_of_le this (h.good.mono _ _ ?_ ?_)
  · have := h.cps_pos; have := h.good.le; omega
  · have := h.cps_pos; have := h.good.le; omega

theorem IsPiece.self {eps : K} {c : Curve K V} (h : c.Good eps) : IsPiece eps (c, c.lo, c.hi) c :=
  ⟨h, rfl, rfl, fun _ _ _ => rfl⟩

/-! ### One span -/

theorem trimSpan_inside {eps teps a b : K} (heps : 0 < eps) (hteps : 0 < teps) (hab : a < b) (hgap : a + eps ≤ b) {c : Curve K V}
    (h : c.Good eps) (ha : a ≤ c.lo ∨ CutsWell eps teps c a ∨ c.hi ≤ a) (hb : b < c.lo ∨ CutsWell eps teps c b ∨ c.hi ≤ b) :
    ∃ r, trimSpan eps teps a b c = .ok r ∧ List.Forall₂ (IsPiece eps) (insideParts a b [c]) r := by
  have hlt := good_lo_lt_hi h
  have hin : insideParts a b [c] = if a < c.hi ∧ c.lo < b then [(c, max c.lo a, min c.hi b)] else [] := by
    simp [insideParts]
  rw [trimSpan, min_eq_left hab.le, max_eq_right hab.le, knotsDomain_eq h, ok_bind, hin]
  simp only [if_pos hab]
  have hout : ∀ t, t ≤ c.lo ∨ c.hi ≤ t → ¬ (c.lo + teps ≤ t ∧ t ≤ c.hi - teps) := by
    rintro t (h1 | h1) ⟨h2, h3⟩ <;> linarith
  rcases ha with ha | ha | ha
  · rw [if_neg (hout a (.inl ha)), max_eq_left ha]
    rcases hb with hb | hb | hb
    · rw [if_neg (hout b (.inl hb.le)), if_neg (fun h => absurd h.2 (not_le.2 hb)), if_neg (fun h => absurd h.2 (not_lt.2 hb.le))]
      exact ⟨_, rfl, .nil⟩
    · rw [if_pos ⟨hb.1, hb.2.1⟩, if_pos ⟨lt_of_le_of_lt ha hlt, by linarith [hb.1]⟩, min_eq_right (by linarith [hb.2.1])]
      obtain ⟨l, r, e, hg, h1, h2, h3⟩ := C21_left_piece h (u := b) (by linarith [hb.1]) (by linarith [hb.2.1]) (hb.sep heps).1
        (fun hm => absurd hm (hb.sep heps).2)
      rw [e]
      exact ⟨[l], rfl, .cons ⟨hg, h1, h2, h3⟩ .nil⟩
    · rw [if_neg (hout b (.inr hb)), if_pos ⟨ha, by linarith⟩, if_pos ⟨lt_of_le_of_lt ha hlt, by linarith⟩, min_eq_left hb]
      exact ⟨[c], rfl, .cons (IsPiece.self h) .nil⟩
  · rw [if_pos ⟨ha.1, ha.2.1⟩, max_eq_right (by linarith [ha.1])]
    rcases hb with hb | hb | hb
    · exfalso; linarith [ha.1]
    · rw [if_pos ⟨hb.1, hb.2.1⟩, if_pos ⟨by linarith [ha.2.1], by linarith [hb.1]⟩, min_eq_right (by linarith [hb.2.1])]
      obtain ⟨d, e, hg, -, h1, h2, h3⟩ := C22_trim_inside h (p0 := a) (p1 := b) (by linarith [ha.1]) hgap hab
        (by linarith [hb.2.1]) (ha.sep heps).1 (hb.sep heps).1 (fun hm => absurd hm (hb.sep heps).2)
      exact ⟨[d], e, .cons ⟨hg, h1, h2, h3⟩ .nil⟩
    · rw [if_neg (hout b (.inr hb)), if_pos ⟨by linarith [ha.2.1], by linarith⟩, min_eq_left hb]
      obtain ⟨l, r, e, hg, h1, h2, h3⟩ := C21_right_piece h (u := a) (by linarith [ha.1]) (by linarith [ha.2.1]) (ha.sep heps).1
      rw [e]
      exact ⟨[r], rfl, .cons ⟨hg, h1, h2, h3⟩ .nil⟩
  · have hb' : c.hi ≤ b := le_trans ha hab.le
    rw [if_neg (hout a (.inr ha)), if_neg (hout b (.inr hb')), if_neg (fun h => absurd h.1 (not_le.2 (lt_of_lt_of_le hlt ha))),
      if_neg (fun h => absurd h.1 (not_lt.2 ha))]
    exact ⟨_, rfl, .nil⟩

theorem trimSpan_outside {eps teps a b : K} (heps : 0 < eps) (hteps : 0 < teps) (hab : a < b) (hgap : a + eps ≤ b) {c : Curve K V}
    (h : c.Good eps) (ha : a ≤ c.lo ∨ CutsWell eps teps c a ∨ c.hi ≤ a) (hb : b < c.lo ∨ CutsWell eps teps c b ∨ c.hi ≤ b) :
    ∃ r, trimSpan eps teps b a c = .ok r ∧ List.Forall₂ (IsPiece eps) (outsideParts a b [c]) r := by
  have hlt := good_lo_lt_hi h
  have hin : outsideParts a b [c] = (if c.lo < a then [(c, c.lo, min c.hi a)] else []) ++
      (if b < c.hi then [(c, max c.lo b, c.hi)] else []) := by
    simp [outsideParts]
  rw [trimSpan, min_eq_right hab.le, max_eq_left hab.le, knotsDomain_eq h, ok_bind, hin]
  simp only [if_neg (not_lt.2 hab.le)]
  have hout : ∀ t, t ≤ c.lo ∨ c.hi ≤ t → ¬ (c.lo + teps ≤ t ∧ t ≤ c.hi - teps) := by
    rintro t (h1 | h1) ⟨h2, h3⟩ <;> linarith
  rcases ha with ha | ha | ha
  · rw [if_neg (hout a (.inl ha)), if_neg (not_lt.2 ha), List.nil_append]
    rcases hb with hb | hb | hb
    · rw [if_neg (hout b (.inl hb.le)), if_neg (fun h => absurd h.2 (not_le.2 hb)), if_pos (show b < c.hi by linarith), max_eq_left hb.le]
      exact ⟨[c], rfl, .cons (IsPiece.self h) .nil⟩
    · rw [if_pos ⟨hb.1, hb.2.1⟩, if_pos (show b < c.hi by linarith [hb.2.1]), max_eq_right (by linarith [hb.1])]
      obtain ⟨l, r, e, hg, h1, h2, h3⟩ := C21_right_piece h (u := b) (by linarith [hb.1]) (by linarith [hb.2.1]) (hb.sep heps).1
      rw [e]
      exact ⟨[r], rfl, .cons ⟨hg, h1, h2, h3⟩ .nil⟩
    · rw [if_neg (hout b (.inr hb)), if_pos ⟨ha, by linarith⟩, if_neg (not_lt.2 hb)]
      exact ⟨_, rfl, .nil⟩
  · rw [if_pos ⟨ha.1, ha.2.1⟩, if_pos (show c.lo < a by linarith [ha.1]), min_eq_right (by linarith [ha.2.1])]
    rcases hb with hb | hb | hb
    · exfalso; linarith [ha.1]
    · rw [if_pos ⟨hb.1, hb.2.1⟩, if_pos (show b < c.hi by linarith [hb.2.1]), max_eq_right (by linarith [hb.1])]
      obtain ⟨d1, d2, e, hg1, hg2, h1, h2, h3, h4, h5, h6⟩ := C22_trim_outside h (p0 := b) (p1 := a) (by linarith [ha.1]) hgap hab
        (by linarith [hb.2.1]) (hb.sep heps).1 (ha.sep heps).1 (ha.sep heps).2
      rw [Curve.tryTrimRange, min_eq_right hab.le, max_eq_left hab.le] at e
      simp only [if_neg (not_lt.2 hab.le)] at e
      obtain ⟨r, er, e⟩ := bind_eq_ok.1 e
      obtain ⟨r2, er2, e⟩ := bind_eq_ok.1 e
      have e' := Except.ok.inj e
      simp only [List.cons.injEq, and_true] at e'
      rw [er, ok_bind, er2, ok_bind]
      refine ⟨[r.1, r2.2], rfl, ?_⟩
      rw [e'.1, e'.2]
      exact .cons ⟨hg2, h3, h4, h6⟩ (.cons ⟨hg1, h1, h2, h5⟩ .nil)
    · rw [if_neg (hout b (.inr hb)), if_neg (not_lt.2 hb), List.append_nil]
      obtain ⟨l, r, e, hg, h1, h2, h3⟩ := C21_left_piece h (u := a) (by linarith [ha.1]) (by linarith [ha.2.1]) (ha.sep heps).1
        (fun hm => absurd hm (ha.sep heps).2)
      rw [e]
      exact ⟨[l], rfl, .cons ⟨hg, h1, h2, h3⟩ .nil⟩
  · have hb' : c.hi ≤ b := le_trans ha hab.le
    rw [if_neg (hout a (.inr ha)), if_neg (hout b (.inr hb')), if_neg (fun h => absurd h.1 (not_le.2 (lt_of_lt_of_le hlt ha))),
      if_pos (lt_of_lt_of_le hlt ha), if_neg (not_lt.2 hb'), List.append_nil, min_eq_left ha]
    exact ⟨[c], rfl, .cons (IsPiece.self h) .nil⟩

/-! ### C72 -/

theorem trim_all {eps teps a b : K} {parts : List (Curve K V) → List (Curve K V × K × K)}
    (hnil : parts [] = []) (hcons : ∀ c l, parts (c :: l) = parts [c] ++ parts l) :
    ∀ {spans : List (Curve K V)},
    (∀ c ∈ spans, ∃ r, trimSpan eps teps a b c = .ok r ∧ List.Forall₂ (IsPiece eps) (parts [c]) r) →
    ∃ out, Compound.tryTrimRange eps teps a b spans = .ok out ∧ List.Forall₂ (IsPiece eps) (parts spans) out
  | [], _ => ⟨[], rfl, by rw [hnil]; exact .nil⟩
  | c :: l, h => by
    obtain ⟨r, hr, hp⟩ := h c (by simp)
    obtain ⟨out, ho, hq⟩ := trim_all hnil hcons (spans := l) (fun x hx => h x (List.mem_cons_of_mem _ hx))
    rw [Compound.tryTrimRange] at ho
    obtain ⟨rs, hrs, ho⟩ := bind_eq_ok.1 ho
    obtain rfl := Except.ok.inj ho
    refine ⟨r ++ rs.flatten, ?_, by rw [hcons]; exact List.rel_append hp hq⟩
    rw [Compound.tryTrimRange, List.mapM_cons, hr, ok_bind, hrs, ok_bind]
    rfl

/-- Trimming to `a < b` returns, span by span, exactly the parts of the spans inside `[a, b]`, with
    unchanged parametrisation. The parameter `a` may be a joint, `b` may not be the start of a span. -/
theorem C72_trim_inside {eps teps a b : K} (heps : 0 < eps) (hteps : 0 < teps) (hab : a < b) (hgap : a + eps ≤ b)
    {spans : List (Curve K V)} (h : ∀ c ∈ spans, c.Good eps)
    (ha : ∀ c ∈ spans, a ≤ c.lo ∨ CutsWell eps teps c a ∨ c.hi ≤ a)
    (hb : ∀ c ∈ spans, b < c.lo ∨ CutsWell eps teps c b ∨ c.hi ≤ b) :
    ∃ out, Compound.tryTrimRange eps teps a b spans = .ok out ∧ List.Forall₂ (IsPiece eps) (insideParts a b spans) out :=
  trim_all (by simp [insideParts]) (by intros; simp [insideParts])
    fun c hc => trimSpan_inside heps hteps hab hgap (h c hc) (ha c hc) (hb c hc)

/-- Trimming with the parameters exchanged returns the parts outside of `[a, b]`, in the order of the
    parameter. -/
theorem C72_trim_outside {eps teps a b : K} (heps : 0 < eps) (hteps : 0 < teps) (hab : a < b) (hgap : a + eps ≤ b)
    {spans : List (Curve K V)} (h : ∀ c ∈ spans, c.Good eps)
    (ha : ∀ c ∈ spans, a ≤ c.lo ∨ CutsWell eps teps c a ∨ c.hi ≤ a)
    (hb : ∀ c ∈ spans, b < c.lo ∨ CutsWell eps teps c b ∨ c.hi ≤ b) :
    ∃ out, Compound.tryTrimRange eps teps b a spans = .ok out ∧ List.Forall₂ (IsPiece eps) (outsideParts a b spans) out :=
  trim_all (by simp [outsideParts]) (by intros; simp [outsideParts])
    fun c hc => trimSpan_outside heps hteps hab hgap (h c hc) (ha c hc) (hb c hc)

/-- For consecutive domains the inside parts tile `[a, b]`: every parameter between `a` and `b` lies in a
    part, and the parts are consecutive. -/
theorem C72_parts_tile {a b : K} (hab : a < b) : ∀ {spans : List (Curve K V)}, (∀ c ∈ spans, c.lo < c.hi) →
    spans.IsChain (fun c d => d.lo = c.hi) → (∀ c ∈ spans.head?, c.lo ≤ a) → (∀ c ∈ spans.getLast?, b ≤ c.hi) →
    spans ≠ [] →
    (∀ x ∈ (insideParts a b spans).head?, x.2.1 = a) ∧ (∀ x ∈ (insideParts a b spans).getLast?, x.2.2 = b) ∧
      insideParts a b spans ≠ [] ∧ (insideParts a b spans).IsChain (fun x y => y.2.1 = x.2.2)
  | [], _, _, _, _, h => absurd rfl h
  | c :: l, hlt, hc, hh, hl, _ => by
    have hcons : insideParts a b (c :: l) = (if a < c.hi ∧ c.lo < b then [(c, max c.lo a, min c.hi b)] else []) ++
        insideParts a b l := by simp [insideParts]
    have hca : c.lo ≤ a := hh c rfl
    have hcb : c.lo < b := lt_of_le_of_lt hca hab
    obtain ⟨h3, h4⟩ := List.isChain_cons.1 hc
    -- the parts after the end are empty
    have hempty : ∀ m : List (Curve K V), (∀ d ∈ m, d.lo < d.hi) → m.IsChain (fun c d => d.lo = c.hi) →
        (∀ d ∈ m.head?, b ≤ d.lo) → insideParts a b m = [] := by
      intro m
      induction m with
      | nil => intros; simp [insideParts]
      | cons d m ih =>
        intro g1 g2 g3
        have e : insideParts a b (d :: m) = (if a < d.hi ∧ d.lo < b then [(d, max d.lo a, min d.hi b)] else []) ++
          insideParts a b m := by simp [insideParts]
        obtain ⟨g4, g5⟩ := List.isChain_cons.1 g2
        rw [e, if_neg (fun g => absurd g.2 (not_lt.2 (g3 d rfl))), List.nil_append]
        refine ih (fun x hx => g1 x (List.mem_cons_of_mem _ hx)) g5 ?_
        intro x hx
        rw [g4 x hx]
        exact le_trans (g3 d rfl) (g1 d (by simp)).le
    by_cases h1 : a < c.hi
    · rw [hcons, if_pos ⟨h1, hcb⟩, max_eq_right hca]
      by_cases h2 : b ≤ c.hi
      · rw [min_eq_right h2, hempty l (fun x hx => hlt x (List.mem_cons_of_mem _ hx)) h4 (fun d hd => by rw [h3 d hd]; exact h2),
          List.append_nil]
        refine ⟨?_, ?_, by simp, by simp⟩
        · intro x hx; obtain rfl := Option.some.inj hx; rfl
        · intro x hx; obtain rfl := Option.some.inj hx; rfl
      · rw [min_eq_left (not_le.1 h2).le]
        cases l with
        | nil => exact absurd (hl c rfl) h2
        | cons d l =>
          have hd := h3 d rfl
          -- the rest starts at the end of this span
          have hrest := C72_parts_tile (a := c.hi) (not_le.1 h2) (fun x hx => hlt x (List.mem_cons_of_mem _ hx)) h4
            (fun x hx => by obtain rfl := Option.some.inj hx; exact hd.le) (fun x hx => hl x (by simpa using hx)) (by simp)
          have hsame : insideParts c.hi b (d :: l) = insideParts a b (d :: l) := by
            have : ∀ m : List (Curve K V), (∀ x ∈ m, x.lo < x.hi) → m.IsChain (fun c d => d.lo = c.hi) →
                (∀ x ∈ m.head?, c.hi ≤ x.lo) → insideParts c.hi b m = insideParts a b m := by
              intro m
              induction m with
              | nil => intros; simp [insideParts]
              | cons y m ih =>
                intro g1 g2 g3
                obtain ⟨g4, g5⟩ := List.isChain_cons.1 g2
                have e : ∀ z, insideParts z b (y :: m) = (if z < y.hi ∧ y.lo < b then [(y, max y.lo z, min y.hi b)] else []) ++
                  insideParts z b m := by intro z; simp [insideParts]
                have g6 := g3 y rfl
                have g7 := g1 y (by simp)
                rw [e, e, ih (fun x hx => g1 x (List.mem_cons_of_mem _ hx)) g5 (fun x hx => by
                  rw [g4 x hx]; exact le_trans g6 g7.le), max_eq_left g6, max_eq_left (le_trans h1.le g6)]
                have i1 : c.hi < y.hi := lt_of_le_of_lt g6 g7
                have i2 : a < y.hi := lt_trans h1 i1
                simp only [i1, i2, true_and]
            exact this _ (fun x hx => hlt x (List.mem_cons_of_mem _ hx)) h4
              (fun x hx => by obtain rfl := Option.some.inj hx; exact hd.ge)
          rw [hsame] at hrest
          obtain ⟨r1, r2, r3, r4⟩ := hrest
          refine ⟨?_, ?_, by simp, ?_⟩
          · intro x hx; obtain rfl := Option.some.inj hx; rfl
          · intro x hx
            refine r2 x ?_
            cases hI : insideParts a b (d :: l) with
            | nil => exact absurd hI r3
            | cons y ys =>
              rw [hI] at hx
              simpa using hx
          · rw [List.singleton_append, List.isChain_cons]
            exact ⟨fun y hy => r1 y hy, r4⟩
    · rw [hcons, if_neg (fun h => h1 h.1), List.nil_append]
      cases l with
      | nil => exact absurd (lt_of_lt_of_le hab (hl c rfl)) h1
      | cons d l =>
        exact C72_parts_tile hab (fun x hx => hlt x (List.mem_cons_of_mem _ hx)) h4
          (fun x hx => by
            obtain rfl := Option.some.inj hx
            rw [h3 d rfl]; exact not_lt.1 h1) (fun x hx => hl x (by simpa using hx)) (by simp)

/-- The angle can be trimmed to `[1/2, 3/2]`. -/
example : ∀ c ∈ exAngle, ((1/2 : ℚ) ≤ c.lo ∨ CutsWell (1/1000) (1/10000) c (1/2) ∨ c.hi ≤ 1/2) ∧
    ((3/2 : ℚ) < c.lo ∨ CutsWell (1/1000) (1/10000) c (3/2) ∨ c.hi ≤ 3/2) := by
  intro c hc
  simp only [exAngle, List.mem_cons, List.not_mem_nil, or_false] at hc
  have e : ∀ x : ℚ, 1/1000 ≤ |x| ↔ 1/1000 ≤ x ∨ x ≤ -(1/1000) := fun x => by rw [le_abs]; constructor <;> rintro (h | h) <;> [left; right; left; right] <;> linarith
  rcases hc with rfl | rfl
  · refine ⟨.inr (.inl ⟨by norm_num [Curve.lo, kf], by norm_num [Curve.hi, kf], ?_⟩), .inr (.inr (by norm_num [Curve.hi, kf]))⟩
    intro y hy
    rw [e]
    simp at hy
    rcases hy with rfl | rfl <;> norm_num
  · refine ⟨.inl (by norm_num [Curve.lo, kf]), .inr (.inl ⟨by norm_num [Curve.lo, kf], by norm_num [Curve.hi, kf], ?_⟩)⟩
    intro y hy
    rw [e]
    simp at hy
    rcases hy with rfl | rfl <;> norm_num

/-- Trimming up to a joint keeps the whole span that starts there, and the complement loses it. -/
theorem C72_joint_end_wrong {eps teps a : K} (hteps : 0 < teps) {spans : List (Curve K V)} {c : Curve K V}
    (hc : c ∈ spans) (h : c.Good eps) (ha : a < c.lo) :
    (∀ out, Compound.tryTrimRange eps teps a c.lo spans = .ok out → c ∈ out) ∧
      trimSpan eps teps c.lo a c = .ok [] := by
  have hlt := good_lo_lt_hi h
  have n1 : ¬ (c.lo + teps ≤ a ∧ a ≤ c.hi - teps) := by rintro ⟨h1, h2⟩; linarith
  have n2 : ¬ (c.lo + teps ≤ c.lo ∧ c.lo ≤ c.hi - teps) := by rintro ⟨h1, h2⟩; linarith
  constructor
  · intro out ho
    have hs : trimSpan eps teps a c.lo c = .ok [c] := by
      rw [trimSpan, min_eq_left ha.le, max_eq_right ha.le, knotsDomain_eq h, ok_bind]
      simp only [if_pos ha, if_neg n1, if_neg n2, if_pos (⟨ha.le, le_refl _⟩ : a ≤ c.lo ∧ c.lo ≤ c.lo)]
      rfl
    rw [Compound.tryTrimRange] at ho
    obtain ⟨rs, hrs, ho⟩ := bind_eq_ok.1 ho
    obtain rfl := Except.ok.inj ho
    obtain ⟨i, hi, rfl⟩ := List.getElem_of_mem hc
    have hf := mapM_ok_inv hrs
    have hl := hf.length_eq
    have := (List.forall₂_iff_get.1 hf).2 i hi (by omega)
    simp only [List.get_eq_getElem] at this
    rw [hs] at this
    refine List.mem_flatten.2 ⟨rs[i], List.getElem_mem _, ?_⟩
    rw [← Except.ok.inj this]
    simp
  · rw [trimSpan, min_eq_right ha.le, max_eq_left ha.le, knotsDomain_eq h, ok_bind]
    simp only [if_neg (not_lt.2 ha.le), if_neg n1, if_neg n2, if_pos (⟨ha.le, le_refl _⟩ : a ≤ c.lo ∧ c.lo ≤ c.lo)]
    rfl

/-- The angle trimmed to its first side `[0, 1]` is the whole angle. -/
example : (Compound.tryTrimRange (1/1000) (1/10000) 0 1 exAngle).map (fun l => l.map fun c => (c.cps.map (·.1), c.knots)) =
    .ok [([(0, 0), (1, 0)], [0, 0, 1, 1]), ([(1, 0), (1, 1)], [1, 1, 2, 2])] := by
  decide +kernel

end Curvo.Props

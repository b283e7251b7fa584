/-
  C87: the arcs that boolean operations cut out of closed curves.
-/
import Verif.Props.BoolLoop
import Verif.Props.CompoundTrim
import Verif.Props.Contains

set_option linter.unusedSectionVars false

namespace Curvo.Props

open Curvo.Knots Curvo.Spec Curvo.Curve Curvo.Compound

variable {K : Type} [Field K] [LinearOrder K] [IsStrictOrderedRing K]
variable {W : Type} [AddCommGroup W] [Module K W]

/-! ### Pieces are whole curves -/

/-- A parameter inside of the domain and off the knots. -/
def Clear (eps : K) {V : Type} (c : Curve K V) (u : K) : Prop := c.lo < u ∧ u < c.hi ∧ ∀ y ∈ c.knots, eps ≤ |y - u|

theorem split_whole {eps : K} (heps : 0 < eps) {c : Curve K (W × K)} (h : Whole eps c) {u : K} (hu : Clear eps c u) :
    ∃ l r, c.trySplit eps u = .ok (l, r) ∧ Whole eps l ∧ Whole eps r ∧ l.lo = c.lo ∧ l.hi = u ∧ r.lo = u ∧ r.hi = c.hi ∧
      (∀ y ∈ l.knots, y = u ∨ y ∈ c.knots) ∧ (∀ y ∈ r.knots, y = u ∨ y ∈ c.knots) := by
  obtain ⟨h1, h2, h3⟩ := hu
  have hsep : ∀ y ∈ c.knots, |y - u| < eps → y = u := fun y hy hlt => absurd hlt (not_lt.2 (h3 y hy))
  have hg := h.fine.good
  obtain ⟨s, c', l, r, e, hs⟩ := split_pieces hg h1.le h2.le hsep
  have hks : kf c.knots s < u := by
    have hin := hs.inSpan
    rw [InSpan, if_neg h2.ne] at hin
    refine lt_of_le_of_ne hin.1 fun he => ?_
    have hsn := hs.sn
    have hkl := hg.knots_len
    have := h3 (kf c.knots s) (by rw [kf_eq (by omega)]; exact List.getElem_mem _)
    rw [he, sub_self, abs_zero] at this
    exact absurd heps (not_lt.2 this)
  have hpos : ∀ (p q : W × K) (t : K), 0 ≤ t → t ≤ 1 → 0 < p.2 → 0 < q.2 → 0 < (t • p + (1 - t) • q).2 := by
    intro p q t ht0 ht1 hp hq
    have e1 : (t • p + (1 - t) • q).2 = t * p.2 + (1 - t) * q.2 := rfl
    rw [e1]
    rcases lt_or_eq_of_le ht0 with h' | h'
    · exact add_pos_of_pos_of_nonneg (mul_pos h' hp) (mul_nonneg (by linarith) hq.le)
    · rw [← h']; simpa using hq
  have hll := hs.l_len hg
  have hrl := hs.r_len hg
  have hsn := hs.sn
  have hps := hs.ps
  have hkl := hg.knots_len
  refine ⟨l, r, e, ⟨⟨hs.lgood hg hks hsep, hs.lhull _ hpos h.fine.pos⟩, ?_, ?_, ?_⟩,
    ⟨⟨hs.rgood hg h2 hsep, hs.rhull _ hpos h.fine.pos⟩, ?_, ?_, ?_⟩, hs.llo hg, hs.lhi hg, hs.rlo, hs.rhi, ?_, ?_⟩
  · rw [hs.ll, hs.ld, Nat.add_sub_cancel]
    intro i hi1 hi2
    rw [hs.lkf hg i (by omega), hs.lkf hg (i + c.degree) hi2]
    exact h.cont i hi1 (by omega)
  · rw [hs.lkf hg 0 (by omega), hs.llo hg]
    exact h.full.1
  · rw [hs.lhi hg, hll, hs.ll, hs.ld]
    exact hs.lku hg _ (by omega) (by omega)
  · rw [hs.rl, hs.rd]
    intro i hi1 hi2
    obtain ⟨j, rfl⟩ : ∃ j, i = c.degree + 1 + j := ⟨i - (c.degree + 1), by omega⟩
    rw [hs.rkf, show c.degree + 1 + j + c.degree = c.degree + 1 + (j + c.degree) by omega, hs.rkf,
      show s + 1 + (j + c.degree) = s + 1 + j + c.degree by omega]
    exact h.cont _ (by omega) (by omega)
  · rw [hs.rlo]
    exact hs.rku 0 (by omega)
  · rw [hs.rhi, hrl, hs.rl, hs.rd, show c.cps.length + c.degree - s + c.degree + 1 - 1 =
      c.degree + 1 + (c.cps.length + c.degree - s - 1) by omega, hs.rkf, ← h.full.2, hkl]
    congr 1
    omega
  · intro y hy
    rw [hs.lk] at hy
    rcases List.mem_append.1 hy with hy | hy
    · exact .inr (List.mem_of_mem_take hy)
    · exact .inl (List.eq_of_mem_replicate hy)
  · intro y hy
    rw [hs.rk] at hy
    rcases List.mem_append.1 hy with hy | hy
    · exact .inl (List.eq_of_mem_replicate hy)
    · exact .inr (List.mem_of_mem_drop hy)

/-- Both splits of a trim. -/
theorem split_twice {eps : K} (heps : 0 < eps) {c : Curve K (W × K)} (h : Whole eps c) {a b : K} (ha : Clear eps c a)
    (hb : Clear eps c b) (hab : a + eps ≤ b) :
    ∃ l r m q, c.trySplit eps a = .ok (l, r) ∧ r.trySplit eps b = .ok (m, q) ∧ Whole eps l ∧ Whole eps m ∧ Whole eps q := by
  obtain ⟨l, r, e, hl, hr, -, -, hlo, hhi, -, hk⟩ := split_whole heps h ha
  obtain ⟨m, q, e', hm, hq, -⟩ := split_whole heps hr (u := b) ⟨by rw [hlo]; linarith, by rw [hhi]; exact hb.2.1, by
    intro y hy
    rcases hk y hy with rfl | hy
    · rw [abs_sub_comm, abs_of_nonneg (by linarith)]; linarith
    · exact hb.2.2 y hy⟩
  exact ⟨l, r, m, q, e, e', hl, hm, hq⟩

/-- The results of trimming a curve are whole curves. -/
theorem trim_whole {eps : K} (heps : 0 < eps) {c : Curve K (W × K)} (h : Whole eps c) {a b : K} (ha : Clear eps c a)
    (hb : Clear eps c b) (hab : a + eps ≤ b ∨ b + eps ≤ a) {ds : List (Curve K (W × K))} (hd : c.tryTrimRange eps a b = .ok ds) :
    ∀ d ∈ ds, Whole eps d := by
  rw [Curve.tryTrimRange] at hd
  rcases hab with hab | hab
  · have hlt : a < b := by linarith
    rw [min_eq_left hlt.le, max_eq_right hlt.le] at hd
    obtain ⟨l, r, m, q, e1, e2, -, hm, -⟩ := split_twice heps h ha hb hab
    simp only [if_pos hlt, e1, ok_bind, e2] at hd
    obtain rfl := Except.ok.inj hd
    simpa using hm
  · have hlt : b < a := by linarith
    rw [min_eq_right hlt.le, max_eq_left hlt.le] at hd
    obtain ⟨l, r, m, q, e1, e2, hl, -, hq⟩ := split_twice heps h hb ha hab
    simp only [if_neg (not_lt.2 hlt.le), e1, ok_bind, e2] at hd
    obtain rfl := Except.ok.inj hd
    intro d hd
    rcases List.mem_cons.1 hd with rfl | hd
    · exact hq
    · rw [List.mem_singleton.1 hd]; exact hl

theorem CutsWell.clear {eps teps : K} (hteps : 0 < teps) {c : Curve K (W × K)} {t : K} (h : CutsWell eps teps c t) : Clear eps c t :=
  ⟨by linarith [h.1], by linarith [h.2.1], h.2.2⟩

/-- The results of trimming a span of a compound curve are whole curves. -/
theorem trimSpan_whole {eps teps : K} (heps : 0 < eps) (hteps : 0 < teps) {c : Curve K (W × K)} (h : Whole eps c) {a b : K}
    (ha : a ≤ c.lo ∨ CutsWell eps teps c a ∨ c.hi ≤ a) (hb : b ≤ c.lo ∨ CutsWell eps teps c b ∨ c.hi ≤ b)
    (hab : a + eps ≤ b ∨ b + eps ≤ a) {ds : List (Curve K (W × K))} (hd : trimSpan eps teps a b c = .ok ds) :
    ∀ d ∈ ds, Whole eps d := by
  have hcl : ∀ t, (t ≤ c.lo ∨ CutsWell eps teps c t ∨ c.hi ≤ t) → c.lo + teps ≤ t ∧ t ≤ c.hi - teps → Clear eps c t := by
    rintro t (h' | h' | h') ⟨h1, h2⟩
    · linarith
    · exact h'.clear hteps
    · linarith
  have hmn : min a b ≤ c.lo ∨ CutsWell eps teps c (min a b) ∨ c.hi ≤ min a b := by
    rcases min_choice a b with e | e <;> rw [e] <;> assumption
  have hmx : max a b ≤ c.lo ∨ CutsWell eps teps c (max a b) ∨ c.hi ≤ max a b := by
    rcases max_choice a b with e | e <;> rw [e] <;> assumption
  have hgap : min a b + eps ≤ max a b := by
    rcases hab with h' | h'
    · rw [min_eq_left (by linarith), max_eq_right (by linarith)]; exact h'
    · rw [min_eq_right (by linarith), max_eq_left (by linarith)]; exact h'
  rw [trimSpan, knotsDomain_eq h.fine.good, ok_bind] at hd
  simp only at hd
  by_cases c1 : c.lo + teps ≤ min a b ∧ min a b ≤ c.hi - teps
  · by_cases c2 : c.lo + teps ≤ max a b ∧ max a b ≤ c.hi - teps
    · rw [if_pos c1, if_pos c2] at hd
      by_cases hlt : a < b
      · rw [if_pos hlt] at hd
        exact trim_whole heps h (hcl _ hmn c1) (hcl _ hmx c2) (.inl hgap) hd
      · rw [if_neg hlt] at hd
        obtain ⟨l, r, m, q, e1, e2, hl, -, hq⟩ := split_twice heps h (hcl _ hmn c1) (hcl _ hmx c2) hgap
        rw [e1, ok_bind] at hd
        simp only [e2, ok_bind] at hd
        obtain rfl := Except.ok.inj hd
        intro d hd
        rcases List.mem_cons.1 hd with rfl | hd
        · exact hl
        · rw [List.mem_singleton.1 hd]; exact hq
    · rw [if_pos c1, if_neg c2] at hd
      obtain ⟨l, r, e, hl, hr, -⟩ := split_whole heps h (hcl _ hmn c1)
      rw [e, ok_bind] at hd
      obtain rfl := Except.ok.inj hd
      intro d hd
      split at hd
      · rw [List.mem_singleton.1 hd]; exact hr
      · rw [List.mem_singleton.1 hd]; exact hl
  · by_cases c2 : c.lo + teps ≤ max a b ∧ max a b ≤ c.hi - teps
    · rw [if_neg c1, if_pos c2] at hd
      obtain ⟨l, r, e, hl, hr, -⟩ := split_whole heps h (hcl _ hmx c2)
      rw [e, ok_bind] at hd
      obtain rfl := Except.ok.inj hd
      intro d hd
      split at hd
      · rw [List.mem_singleton.1 hd]; exact hl
      · rw [List.mem_singleton.1 hd]; exact hr
    · rw [if_neg c1, if_neg c2] at hd
      obtain rfl := Except.ok.inj hd
      intro d hd
      split at hd <;> split at hd
      · rw [List.mem_singleton.1 hd]; exact h
      · cases hd
      · cases hd
      · rw [List.mem_singleton.1 hd]; exact h

/-! ### Closed curves -/

/-- A closed curve made of consecutive spans, with gaps of at most `δ` at the joints. -/
structure Circuit (eps δ : K) (dist : W → W → K) (X : List (Curve K (W × K))) : Prop where
  ne : X ≠ []
  whole : ∀ c ∈ X, Whole eps c
  chain : X.IsChain fun c d => d.lo = c.hi
  joined : X.IsChain fun c d => dist (stopPt c) (startPt d) ≤ δ
  closed : ∀ c ∈ X.getLast?, ∀ d ∈ X.head?, dist (stopPt c) (startPt d) ≤ δ

/-- The ends of the domain. -/
def loOf (X : List (Curve K (W × K))) : K := match X.head? with | some c => c.lo | none => 0
def hiOf (X : List (Curve K (W × K))) : K := match X.getLast? with | some c => c.hi | none => 0

/-- A parameter well inside of one of the spans. -/
def Inner (eps teps : K) (X : List (Curve K (W × K))) (t : K) : Prop := ∃ c ∈ X, CutsWell eps teps c t

/-- A piece of the arc between two parameters, which is a whole curve. -/
def Cut (eps : K) (x : Curve K (W × K) × K × K) (d : Curve K (W × K)) : Prop := IsPiece eps x d ∧ Whole eps d

/-- The parts of the arc from `t0` to `t1`, in the order of the walk; beyond the end of the domain it goes on at the start. -/
def arcParts (X : List (Curve K (W × K))) (t0 t1 : K) : List (Curve K (W × K) × K × K) :=
  if t0 < t1 then insideParts t0 t1 X else insideParts t0 (hiOf X) X ++ insideParts (loOf X) t1 X

theorem chain_lo_le {X : List (Curve K (W × K))} (hlt : ∀ c ∈ X, c.lo < c.hi) (hc : X.IsChain fun c d => d.lo = c.hi) :
    ∀ c ∈ X, loOf X ≤ c.lo ∧ c.hi ≤ hiOf X := by
  induction X with
  | nil => simp
  | cons a l ih =>
    cases l with
    | nil => intro c h; rw [List.mem_singleton.1 h]; exact ⟨le_rfl, le_rfl⟩
    | cons b l =>
      rw [List.isChain_cons_cons] at hc
      have ih := ih (fun c h => hlt c (List.mem_cons_of_mem _ h)) hc.2
      have e : hiOf (a :: b :: l) = hiOf (b :: l) := by simp [hiOf, List.getLast?_cons_cons]
      have hb := ih b (by simp)
      have ha := hlt a (by simp)
      have hbb := hlt b (by simp)
      intro c h
      rcases List.mem_cons.1 h with rfl | h
      · refine ⟨le_rfl, ?_⟩
        rw [e, ← hc.1]
        exact hbb.le.trans hb.2
      · obtain ⟨h1, h2⟩ := ih c h
        refine ⟨?_, by rw [e]; exact h2⟩
        have : loOf (b :: l) = b.lo := rfl
        rw [this, hc.1] at h1
        exact ha.le.trans h1

/-- A parameter well inside of a span is outside of the other spans. -/
theorem inner_cases {eps teps : K} (hteps : 0 < teps) {X : List (Curve K (W × K))} (hlt : ∀ c ∈ X, c.lo < c.hi)
    (hc : X.IsChain fun c d => d.lo = c.hi) {t : K} (ht : Inner eps teps X t) :
    ∀ c ∈ X, t < c.lo ∨ CutsWell eps teps c t ∨ c.hi ≤ t := by
  obtain ⟨d, hd, hw⟩ := ht
  have hpair : X.Pairwise fun c d => c.hi ≤ d.lo := by
    have : ∀ l : List (Curve K (W × K)), (∀ c ∈ l, c.lo < c.hi) → l.IsChain (fun c d => d.lo = c.hi) →
        l.Pairwise fun c d => c.hi ≤ d.lo := by
      intro l
      induction l with
      | nil => intros; exact .nil
      | cons a l ih =>
        intro h1 h2
        have h3 := List.isChain_cons.1 h2
        rw [List.pairwise_cons]
        refine ⟨?_, ih (fun c hc => h1 c (List.mem_cons_of_mem _ hc)) h3.2⟩
        intro c hc
        have hl := (chain_lo_le (fun c hc => h1 c (List.mem_cons_of_mem _ hc)) h3.2 c hc).1
        cases l with
        | nil => cases hc
        | cons b l =>
          have : b.lo = a.hi := h3.1 b rfl
          rw [← this]
          exact hl
    exact this X hlt hc
  intro c hcm
  by_cases heq : c = d
  · rw [heq]; exact .inr (.inl hw)
  · have hs : c.hi ≤ d.lo ∨ d.hi ≤ c.lo := by
      obtain ⟨i, hi, rfl⟩ := List.getElem_of_mem hcm
      obtain ⟨j, hj, rfl⟩ := List.getElem_of_mem hd
      rw [List.pairwise_iff_getElem] at hpair
      rcases lt_trichotomy i j with h | h | h
      · exact .inl (hpair i j hi hj h)
      · subst h; exact absurd rfl heq
      · exact .inr (hpair j i hj hi h)
    rcases hs with h | h
    · exact .inr (.inr (by linarith [hw.1]))
    · exact .inl (by linarith [hw.2.1])

theorem Circuit.lt {eps δ : K} {dist : W → W → K} {X : List (Curve K (W × K))} (h : Circuit eps δ dist X) :
    ∀ c ∈ X, c.lo < c.hi := fun c hc => good_lo_lt_hi (h.whole c hc).fine.good

theorem Circuit.inner_mem {eps teps δ : K} {dist : W → W → K} {X : List (Curve K (W × K))} (h : Circuit eps δ dist X)
    (hteps : 0 < teps) {t : K} (ht : Inner eps teps X t) : loOf X < t ∧ t < hiOf X := by
  obtain ⟨c, hc, hw⟩ := ht
  obtain ⟨h1, h2⟩ := chain_lo_le h.lt h.chain c hc
  exact ⟨by linarith [hw.1], by linarith [hw.2.1]⟩

/-- The parts outside of `[a, b]` are those from `b` to the end and those from the start to `a`. -/
theorem outside_perm {X : List (Curve K (W × K))} (hlt : ∀ c ∈ X, c.lo < c.hi) (hc : X.IsChain fun c d => d.lo = c.hi)
    {a b : K} : (outsideParts a b X).Perm (insideParts b (hiOf X) X ++ insideParts (loOf X) a X) := by
  have hb := chain_lo_le hlt hc
  have h1 : insideParts (loOf X) a X = X.flatMap fun c => if c.lo < a then [(c, c.lo, min c.hi a)] else [] := by
    unfold insideParts
    refine List.flatMap_congr fun c hcm => ?_
    have : loOf X < c.hi := lt_of_le_of_lt (hb c hcm).1 (hlt c hcm)
    simp only [this, true_and, max_eq_left (hb c hcm).1]
  have h2 : insideParts b (hiOf X) X = X.flatMap fun c => if b < c.hi then [(c, max c.lo b, c.hi)] else [] := by
    unfold insideParts
    refine List.flatMap_congr fun c hcm => ?_
    have : c.lo < hiOf X := lt_of_lt_of_le (hlt c hcm) (hb c hcm).2
    simp only [this, and_true, min_eq_left (hb c hcm).2]
  rw [h1, h2]
  exact (List.flatMap_append_perm _ _ _).symm.trans List.perm_append_comm

/-- Forall₂ along a permutation. -/
theorem forall₂_perm {α β : Type} {R : α → β → Prop} {l l' : List α} {m : List β} (h : List.Forall₂ R l m) (hp : l.Perm l') :
    ∃ m', m.Perm m' ∧ List.Forall₂ R l' m' := by
  obtain ⟨m', h1, h2⟩ := List.perm_comp_forall₂ hp.symm h
  exact ⟨m', h2.symm, h1⟩

theorem forall₂_and_right {α β : Type} {R : α → β → Prop} {P : β → Prop} {l : List α} {m : List β} (h : List.Forall₂ R l m)
    (hp : ∀ b ∈ m, P b) : List.Forall₂ (fun a b => R a b ∧ P b) l m := by
  induction h with
  | nil => exact .nil
  | cons h _ ih => exact .cons ⟨h, hp _ (by simp)⟩ (ih fun b hb => hp b (List.mem_cons_of_mem _ hb))

/-- Trimming a closed compound curve between two parameters returns the parts of the arc between them, in some order. -/
theorem arc_compound {eps teps δ : K} {dist : W → W → K} (heps : 0 < eps) (hteps : 0 < teps) {X : List (Curve K (W × K))}
    (h : Circuit eps δ dist X) {t0 t1 : K} (h0 : Inner eps teps X t0) (h1 : Inner eps teps X t1)
    (hgap : t0 + eps ≤ t1 ∨ t1 + eps ≤ t0) :
    ∃ ds ds', Compound.tryTrimRange eps teps t0 t1 X = .ok ds ∧ ds.Perm ds' ∧ List.Forall₂ (Cut eps) (arcParts X t0 t1) ds' := by
  have c0 := inner_cases hteps h.lt h.chain h0
  have c1 := inner_cases hteps h.lt h.chain h1
  have weak : ∀ {t : K} {c : Curve K (W × K)}, (t < c.lo ∨ CutsWell eps teps c t ∨ c.hi ≤ t) →
      (t ≤ c.lo ∨ CutsWell eps teps c t ∨ c.hi ≤ t) := fun h => h.imp_left le_of_lt
  have hwhole : ∀ ds, Compound.tryTrimRange eps teps t0 t1 X = .ok ds → ∀ d ∈ ds, Whole eps d := by
    intro ds hd d hdm
    rw [Compound.tryTrimRange] at hd
    obtain ⟨rs, hrs, hd⟩ := bind_eq_ok.1 hd
    obtain rfl := Except.ok.inj hd
    obtain ⟨r, hr, hdr⟩ := List.mem_flatten.1 hdm
    obtain ⟨c, hc, hcr⟩ := forall₂_mem_right (mapM_ok_inv hrs) hr
    exact trimSpan_whole heps hteps (h.whole c hc) (weak (c0 c hc)) (weak (c1 c hc)) hgap hcr d hdr
  rcases hgap with hgap | hgap
  · have hlt : t0 < t1 := by linarith
    obtain ⟨ds, hd, hf⟩ := C72_trim_inside heps hteps hlt hgap (fun c hc => (h.whole c hc).fine.good)
      (fun c hc => weak (c0 c hc)) c1
    refine ⟨ds, ds, hd, .refl _, ?_⟩
    rw [arcParts, if_pos hlt]
    exact forall₂_and_right hf (hwhole ds hd)
  · have hlt : t1 < t0 := by linarith
    obtain ⟨ds, hd, hf⟩ := C72_trim_outside heps hteps hlt hgap (fun c hc => (h.whole c hc).fine.good)
      (fun c hc => weak (c1 c hc)) c0
    obtain ⟨ds', hp, hf'⟩ := forall₂_perm (forall₂_and_right hf (hwhole ds hd)) (outside_perm h.lt h.chain)
    refine ⟨ds, ds', hd, hp, ?_⟩
    rw [arcParts, if_neg (not_lt.2 hlt.le)]
    exact hf'

/-- The same for a closed curve. -/
theorem arc_curve {eps teps δ : K} {dist : W → W → K} (heps : 0 < eps) (hteps : 0 < teps) {c : Curve K (W × K)}
    (h : Circuit eps δ dist [c]) {t0 t1 : K} (h0 : Inner eps teps [c] t0) (h1 : Inner eps teps [c] t1)
    (hgap : t0 + eps ≤ t1 ∨ t1 + eps ≤ t0) :
    ∃ ds ds', c.tryTrimRange eps t0 t1 = .ok ds ∧ ds.Perm ds' ∧ List.Forall₂ (Cut eps) (arcParts [c] t0 t1) ds' := by
  obtain ⟨c0, hc0, w0⟩ := h0
  obtain ⟨c1, hc1, w1⟩ := h1
  obtain rfl := List.mem_singleton.1 hc0
  obtain rfl := List.mem_singleton.1 hc1
  have hw := h.whole c1 (by simp)
  have k0 := w0.clear hteps
  have k1 := w1.clear hteps
  have hwhole := fun ds hd => trim_whole heps hw k0 k1 hgap (ds := ds) hd
  have elo : loOf [c1] = c1.lo := rfl
  have ehi : hiOf [c1] = c1.hi := rfl
  rcases hgap with hgap | hgap
  · have hlt : t0 < t1 := by linarith
    obtain ⟨d, hd, hg, -, e1, e2, e3⟩ := C22_trim_inside hw.fine.good k0.1.le hgap hlt k1.2.1.le (w0.sep heps).1 (w1.sep heps).1
      (fun hm => absurd hm (w1.sep heps).2)
    refine ⟨[d], [d], hd, .refl _, ?_⟩
    rw [arcParts, if_pos hlt]
    simp only [insideParts, List.flatMap_cons, List.flatMap_nil, List.append_nil]
    rw [if_pos ⟨k0.2.1, k1.1⟩, max_eq_right k0.1.le, min_eq_right k1.2.1.le]
    exact .cons ⟨⟨hg, e1, e2, e3⟩, hwhole _ hd d (by simp)⟩ .nil
  · have hlt : t1 < t0 := by linarith
    obtain ⟨d1, d2, hd, hg1, hg2, e1, e2, e3, e4, e5, e6⟩ := C22_trim_outside hw.fine.good k1.1.le hgap hlt k0.2.1
      (w0.sep heps).1 (w1.sep heps).1 (w1.sep heps).2
    refine ⟨[d1, d2], [d1, d2], hd, .refl _, ?_⟩
    rw [arcParts, if_neg (not_lt.2 hlt.le), elo, ehi]
    simp only [insideParts, List.flatMap_cons, List.flatMap_nil, List.append_nil]
    have hb := h.lt c1 (by simp)
    rw [if_pos ⟨k0.2.1, hb⟩, if_pos ⟨hb, k1.1⟩, max_eq_right k0.1.le, min_eq_left le_rfl, max_eq_left le_rfl,
      min_eq_right k1.2.1.le]
    exact .cons ⟨⟨hg1, e1, e2, e5⟩, hwhole _ hd d1 (by simp)⟩ (.cons ⟨⟨hg2, e3, e4, e6⟩, hwhole _ hd d2 (by simp)⟩ .nil)

end Curvo.Props

/-
  C87: the spans of the boundary of a boolean operation and the places where they meet.
-/
import Verif.Props.BoolTrim
import Verif.Props.ClipWalk

set_option linter.unusedSectionVars false

namespace Curvo.Props

open Curvo.Knots Curvo.Spec Curvo.Curve Curvo.Compound Curvo.Boolean

variable {K : Type} [Field K] [LinearOrder K] [IsStrictOrderedRing K]
variable {W : Type} [AddCommGroup W] [Module K W]

/-- The point of a curve at a parameter. -/
def spotAt (c : Curve K (W × K)) (x : K) : W := proj (c.eval x)

/-! ### The parts of an arc -/

theorem inside_mem {X : List (Curve K (W × K))} {a b : K} {x : Curve K (W × K) × K × K} (h : x ∈ insideParts a b X) :
    x.1 ∈ X ∧ x.2.1 = max x.1.lo a ∧ x.2.2 = min x.1.hi b ∧ a < x.1.hi ∧ x.1.lo < b := by
  obtain ⟨c, hc, hx⟩ := List.mem_flatMap.1 h
  split at hx
  · rename_i h'
    obtain rfl := List.mem_singleton.1 hx
    exact ⟨hc, rfl, rfl, h'.1, h'.2⟩
  · cases hx

theorem mem_inside {X : List (Curve K (W × K))} {a b : K} {c : Curve K (W × K)} (hc : c ∈ X) (h1 : a < c.hi) (h2 : c.lo < b) :
    (c, max c.lo a, min c.hi b) ∈ insideParts a b X :=
  List.mem_flatMap.2 ⟨c, hc, by rw [if_pos ⟨h1, h2⟩]; simp⟩

theorem chain_pairwise {X : List (Curve K (W × K))} (h1 : ∀ c ∈ X, c.lo < c.hi) (h2 : X.IsChain fun c d => d.lo = c.hi) :
    X.Pairwise fun c d => c.hi ≤ d.lo := by
  induction X with
  | nil => exact .nil
  | cons a l ih =>
    have h3 := List.isChain_cons.1 h2
    rw [List.pairwise_cons]
    refine ⟨?_, ih (fun c hc => h1 c (List.mem_cons_of_mem _ hc)) h3.2⟩
    intro c hc
    have hl := (chain_lo_le (fun c hc => h1 c (List.mem_cons_of_mem _ hc)) h3.2 c hc).1
    cases l with
    | nil => cases hc
    | cons b l =>
      have : b.lo = a.hi := h3.1 b rfl
      rw [← this]
      exact hl

theorem lo_inj {X : List (Curve K (W × K))} (h1 : ∀ c ∈ X, c.lo < c.hi) (h2 : X.IsChain fun c d => d.lo = c.hi)
    {c d : Curve K (W × K)} (hc : c ∈ X) (hd : d ∈ X) (h : c.lo = d.lo) : c = d := by
  have hp := chain_pairwise h1 h2
  obtain ⟨i, hi, rfl⟩ := List.getElem_of_mem hc
  obtain ⟨j, hj, rfl⟩ := List.getElem_of_mem hd
  rw [List.pairwise_iff_getElem] at hp
  rcases lt_trichotomy i j with h' | h' | h'
  · have := hp i j hi hj h'
    have := h1 _ hc
    linarith
  · subst h'; rfl
  · have := hp j i hj hi h'
    have := h1 _ hd
    linarith

theorem inside_increasing {X : List (Curve K (W × K))} (h1 : ∀ c ∈ X, c.lo < c.hi) (h2 : X.IsChain fun c d => d.lo = c.hi)
    {a b : K} : (insideParts a b X).Pairwise fun p q => p.2.1 < q.2.1 := by
  unfold insideParts
  rw [List.pairwise_flatMap]
  refine ⟨fun c _ => by split <;> simp, (chain_pairwise h1 h2).imp_of_mem ?_⟩
  intro c d hc hd hcd x hx y hy
  split at hx
  · rename_i h
    split at hy
    · obtain rfl := List.mem_singleton.1 hx
      obtain rfl := List.mem_singleton.1 hy
      exact lt_of_lt_of_le (max_lt (h1 c hc) h.1) (hcd.trans (le_max_left _ _))
    · cases hy
  · cases hx

/-- Between two consecutive parts of an arc. -/
def Follows (X : List (Curve K (W × K))) (p q : Curve K (W × K) × K × K) : Prop :=
  q.2.1 = p.2.2 ∨ (p.2.2 = hiOf X ∧ q.2.1 = loOf X)

variable {eps teps δ : K} {dist : W → W → K} {X : List (Curve K (W × K))}

theorem Circuit.tile (h : Circuit eps δ dist X) {a b : K} (hab : a < b) (ha : loOf X ≤ a) (hb : b ≤ hiOf X) :
    (∀ x ∈ (insideParts a b X).head?, x.2.1 = a) ∧ (∀ x ∈ (insideParts a b X).getLast?, x.2.2 = b) ∧
      insideParts a b X ≠ [] ∧ (insideParts a b X).IsChain (fun x y => y.2.1 = x.2.2) := by
  refine C72_parts_tile hab h.lt h.chain ?_ ?_ h.ne
  · intro c hc
    rw [Option.mem_def] at hc
    rw [loOf, hc] at ha
    exact ha
  · intro c hc
    rw [Option.mem_def] at hc
    rw [hiOf, hc] at hb
    exact hb

theorem arc_facts (h : Circuit eps δ dist X) {t0 t1 : K} (h0 : loOf X < t0 ∧ t0 < hiOf X) (h1 : loOf X < t1 ∧ t1 < hiOf X)
    (hne : t0 ≠ t1) :
    (∀ x ∈ (arcParts X t0 t1).head?, x.2.1 = t0) ∧ (∀ x ∈ (arcParts X t0 t1).getLast?, x.2.2 = t1) ∧ arcParts X t0 t1 ≠ [] ∧
      (arcParts X t0 t1).IsChain (Follows X) ∧ ((arcParts X t0 t1).map fun p => p.2.1).Nodup ∧
      ∀ p ∈ arcParts X t0 t1, p.1 ∈ X ∧ p.1.lo ≤ p.2.1 ∧ p.2.1 ≤ p.2.2 ∧ p.2.2 ≤ p.1.hi ∧
        (p.2.1 = t0 ∨ p.2.1 = p.1.lo ∧ covers (t0, t1) p.2.1 = true) ∧ (p.2.2 = t1 ∨ p.2.2 = p.1.hi) ∧
        ∀ t, p.2.1 ≤ t → t ≤ p.2.2 → t = t0 ∨ t = t1 ∨ covers (t0, t1) t = true := by
  have hbnd := chain_lo_le h.lt h.chain
  by_cases hlt : t0 < t1
  · have e : arcParts X t0 t1 = insideParts t0 t1 X := by rw [arcParts, if_pos hlt]
    have hcov : ∀ t, covers (t0, t1) t = true ↔ t0 < t ∧ t < t1 := by
      intro t; rw [covers]; simp [hlt]
    rw [e]
    obtain ⟨f1, f2, f3, f4⟩ := h.tile hlt h0.1.le h1.2.le
    refine ⟨f1, f2, f3, f4.imp fun _ _ => Or.inl, ?_, ?_⟩
    · rw [List.Nodup, List.pairwise_map]
      exact (inside_increasing h.lt h.chain).imp fun h => h.ne
    · intro p hp
      obtain ⟨hm, hx, hy, ha, hb⟩ := inside_mem hp
      have hl := h.lt _ hm
      refine ⟨hm, ?_, ?_, ?_, ?_, ?_, ?_⟩
      · rw [hx]; exact le_max_left _ _
      · rw [hx, hy]; exact max_le (le_min hl.le hb.le) (le_min ha.le hlt.le)
      · rw [hy]; exact min_le_left _ _
      · rcases le_or_gt p.1.lo t0 with h' | h'
        · left; rw [hx, max_eq_right h']
        · right; rw [hx, max_eq_left h'.le, hcov]; exact ⟨rfl, h', hb⟩
      · rcases le_total p.1.hi t1 with h' | h'
        · right; rw [hy, min_eq_left h']
        · left; rw [hy, min_eq_right h']
      · intro t g1 g2
        rw [hx] at g1
        rw [hy] at g2
        have g1 := (le_max_right _ _).trans g1
        have g2 := g2.trans (min_le_right _ _)
        rw [hcov]
        rcases g1.eq_or_lt with g | g
        · exact .inl g.symm
        rcases g2.eq_or_lt with g' | g'
        · exact .inr (.inl g')
        · exact .inr (.inr ⟨g, g'⟩)
  · have hlt' : t1 < t0 := lt_of_le_of_ne (not_lt.1 hlt) hne.symm
    have e : arcParts X t0 t1 = insideParts t0 (hiOf X) X ++ insideParts (loOf X) t1 X := by rw [arcParts, if_neg hlt]
    have hcov : ∀ t, covers (t0, t1) t = true ↔ t0 < t ∨ t < t1 := by
      intro t; rw [covers]; simp [hlt]
    rw [e]
    obtain ⟨f1, f2, f3, f4⟩ := h.tile h0.2 h0.1.le le_rfl
    obtain ⟨g1, g2, g3, g4⟩ := h.tile h1.1 le_rfl h1.2.le
    have hP : ∀ p ∈ insideParts t0 (hiOf X) X, p.1 ∈ X ∧ p.1.lo ≤ p.2.1 ∧ p.2.1 ≤ p.2.2 ∧ p.2.2 ≤ p.1.hi ∧
        (p.2.1 = t0 ∨ p.2.1 = p.1.lo ∧ covers (t0, t1) p.2.1 = true) ∧ p.2.2 = p.1.hi ∧ t0 ≤ p.2.1 := by
      intro p hp
      obtain ⟨hm, hx, hy, ha, hb⟩ := inside_mem hp
      have hl := h.lt _ hm
      rw [min_eq_left (hbnd _ hm).2] at hy
      refine ⟨hm, ?_, ?_, hy.le, ?_, hy, ?_⟩
      · rw [hx]; exact le_max_left _ _
      · rw [hx, hy]; exact max_le hl.le ha.le
      · rcases le_or_gt p.1.lo t0 with h' | h'
        · left; rw [hx, max_eq_right h']
        · right; rw [hx, max_eq_left h'.le, hcov]; exact ⟨rfl, .inl h'⟩
      · rw [hx]; exact le_max_right _ _
    have hQ : ∀ p ∈ insideParts (loOf X) t1 X, p.1 ∈ X ∧ p.1.lo = p.2.1 ∧ p.2.1 ≤ p.2.2 ∧ p.2.2 ≤ p.1.hi ∧ p.2.1 < t1 ∧ p.2.2 ≤ t1 ∧
        (p.2.2 = t1 ∨ p.2.2 = p.1.hi) := by
      intro p hp
      obtain ⟨hm, hx, hy, ha, hb⟩ := inside_mem hp
      have hl := h.lt _ hm
      rw [max_eq_left (hbnd _ hm).1] at hx
      refine ⟨hm, hx.symm, ?_, ?_, ?_, ?_, ?_⟩
      · rw [hx, hy]; exact le_min hl.le hb.le
      · rw [hy]; exact min_le_left _ _
      · rw [hx]; exact hb
      · rw [hy]; exact min_le_right _ _
      · rcases le_total p.1.hi t1 with h' | h'
        · right; rw [hy, min_eq_left h']
        · left; rw [hy, min_eq_right h']
    refine ⟨?_, ?_, by simp [f3], ?_, ?_, ?_⟩
    · intro x hx
      rw [List.head?_append_of_ne_nil _ f3] at hx
      exact f1 x hx
    · intro x hx
      rw [List.getLast?_append_of_ne_nil _ g3] at hx
      exact g2 x hx
    · rw [List.isChain_append]
      refine ⟨f4.imp fun _ _ => Or.inl, g4.imp fun _ _ => Or.inl, ?_⟩
      intro p hp q hq
      exact .inr ⟨f2 p hp, g1 q hq⟩
    · rw [List.Nodup, List.pairwise_map, List.pairwise_append]
      refine ⟨(inside_increasing h.lt h.chain).imp fun h => h.ne, (inside_increasing h.lt h.chain).imp fun h => h.ne, ?_⟩
      intro p hp q hq
      have h1 := (hP p hp).2.2.2.2.2.2
      have h2 := (hQ q hq).2.2.2.2.1
      exact (by linarith : q.2.1 < p.2.1).ne'
    · intro p hp
      rcases List.mem_append.1 hp with hp | hp
      · obtain ⟨a1, a2, a3, a4, a5, a6, a7⟩ := hP p hp
        refine ⟨a1, a2, a3, a4, a5, .inr a6, ?_⟩
        intro t g1 g2
        rw [hcov]
        rcases (a7.trans g1).eq_or_lt with g | g
        · exact .inl g.symm
        · exact .inr (.inr (.inl g))
      · obtain ⟨a1, a2, a3, a4, a5, a6, a7⟩ := hQ p hp
        refine ⟨a1, a2.le, a3, a4, .inr ⟨a2.symm, ?_⟩, a7, ?_⟩
        · rw [hcov]; exact .inr a5
        · intro t g1 g2
          rw [hcov]
          rcases (g2.trans a6).eq_or_lt with g | g
          · exact .inr (.inl g)
          · exact .inr (.inr (.inr g))

/-- Every parameter of an arc lies in one of its parts. -/
theorem arc_covered (h : Circuit eps δ dist X) (hteps : 0 < teps) {t0 t1 : K} (h0 : Inner eps teps X t0) (h1 : Inner eps teps X t1)
    (hne : t0 ≠ t1) {c : Curve K (W × K)} (hc : c ∈ X) {t : K} (l : c.lo ≤ t) (u : t ≤ c.hi)
    (ht : t = t0 ∨ t = t1 ∨ covers (t0, t1) t = true) : ∃ p ∈ arcParts X t0 t1, p.1 = c ∧ p.2.1 ≤ t ∧ t ≤ p.2.2 := by
  have hbnd := chain_lo_le h.lt h.chain c hc
  have hclt := h.lt c hc
  have strict : ∀ x, Inner eps teps X x → c.lo ≤ x → x ≤ c.hi → c.lo < x ∧ x < c.hi ∨ x = c.hi := by
    intro x hx g1 g2
    rcases inner_cases hteps h.lt h.chain hx c hc with g | g | g
    · exact absurd g1 (not_le.2 g)
    · exact .inl ⟨by linarith [g.1], by linarith [g.2.1]⟩
    · exact .inr (le_antisymm g2 g)
  have noend : ∀ x, Inner eps teps X x → x ≠ c.hi := by
    rintro x hx rfl
    obtain ⟨d, hd, hw⟩ := hx
    have hp := chain_pairwise h.lt h.chain
    obtain ⟨i, hi, rfl⟩ := List.getElem_of_mem hc
    obtain ⟨j, hj, rfl⟩ := List.getElem_of_mem hd
    rw [List.pairwise_iff_getElem] at hp
    rcases lt_trichotomy i j with h' | h' | h'
    · have := hp i j hi hj h'
      linarith [hw.1]
    · subst h'; linarith [hw.2.1]
    · have := hp j i hj hi h'
      linarith [hw.2.1]
  by_cases hlt : t0 < t1
  · have e : arcParts X t0 t1 = insideParts t0 t1 X := by rw [arcParts, if_pos hlt]
    have hcov : covers (t0, t1) t = true ↔ t0 < t ∧ t < t1 := by rw [covers]; simp [hlt]
    rw [e]
    rw [hcov] at ht
    have hr : t0 ≤ t ∧ t ≤ t1 := by
      rcases ht with rfl | rfl | ht
      · exact ⟨le_rfl, hlt.le⟩
      · exact ⟨hlt.le, le_rfl⟩
      · exact ⟨ht.1.le, ht.2.le⟩
    refine ⟨_, mem_inside hc (a := t0) (b := t1) ?_ ?_, rfl, max_le l hr.1, le_min u hr.2⟩
    · rcases ht with rfl | rfl | ht
      · exact lt_of_le_of_ne u (noend _ h0)
      · exact lt_of_lt_of_le hlt u
      · exact lt_of_lt_of_le ht.1 u
    · rcases ht with rfl | rfl | ht
      · exact lt_of_le_of_lt l hlt
      · rcases strict _ h1 l u with g | g
        · exact g.1
        · exact absurd g (noend _ h1)
      · exact lt_of_le_of_lt l ht.2
  · have hlt' : t1 < t0 := lt_of_le_of_ne (not_lt.1 hlt) hne.symm
    have e : arcParts X t0 t1 = insideParts t0 (hiOf X) X ++ insideParts (loOf X) t1 X := by rw [arcParts, if_neg hlt]
    have hcov : covers (t0, t1) t = true ↔ t0 < t ∨ t < t1 := by rw [covers]; simp [hlt]
    rw [e]
    rw [hcov] at ht
    have first : t0 ≤ t → t0 < c.hi → ∃ p ∈ insideParts t0 (hiOf X) X ++ insideParts (loOf X) t1 X, p.1 = c ∧ p.2.1 ≤ t ∧ t ≤ p.2.2 := by
      intro g1 g2
      exact ⟨_, List.mem_append_left _ (mem_inside hc g2 (lt_of_lt_of_le hclt hbnd.2)), rfl, max_le l g1, le_min u (u.trans hbnd.2)⟩
    have second : t ≤ t1 → c.lo < t1 → ∃ p ∈ insideParts t0 (hiOf X) X ++ insideParts (loOf X) t1 X, p.1 = c ∧ p.2.1 ≤ t ∧ t ≤ p.2.2 := by
      intro g1 g2
      exact ⟨_, List.mem_append_right _ (mem_inside hc (lt_of_le_of_lt hbnd.1 hclt) g2), rfl, max_le l (hbnd.1.trans l), le_min u g1⟩
    rcases ht with rfl | rfl | ht | ht
    · exact first le_rfl (lt_of_le_of_ne u (noend _ h0))
    · refine second le_rfl ?_
      rcases strict _ h1 l u with g | g
      · exact g.1
      · exact absurd g (noend _ h1)
    · exact first ht.le (lt_of_lt_of_le ht u)
    · exact second ht.le (lt_of_le_of_lt l ht)

/-! ### Ends of the pieces -/

theorem Cut.ends {x : Curve K (W × K) × K × K} {d : Curve K (W × K)} (hd : Cut eps x d) (hg : x.1.Good eps) (h1 : x.1.lo ≤ x.2.1)
    (h2 : x.2.1 ≤ x.2.2) (h3 : x.2.2 ≤ x.1.hi) : startPt d = spotAt x.1 x.2.1 ∧ stopPt d = spotAt x.1 x.2.2 := by
  obtain ⟨⟨g, lo, hi, same⟩, -⟩ := hd
  have key : ∀ u, x.2.1 ≤ u → u ≤ x.2.2 → d.eval u = x.1.eval u := by
    intro u a b
    have := same u a b
    rw [point_eq_eval g (by rw [lo]; exact a) (by rw [hi]; exact b), point_eq_eval hg (h1.trans a) (b.trans h3)] at this
    exact Except.ok.inj this
  constructor
  · rw [startPt, lo, key _ le_rfl h2]; rfl
  · rw [stopPt, hi, key _ h2 le_rfl]; rfl

/-- The joint at a parameter. -/
def jointAt (X : List (Curve K (W × K))) (x : K) : W :=
  match X.find? fun c => decide (c.lo = x) with
  | some c => startPt c
  | none => 0

theorem Circuit.jointAt_lo (h : Circuit eps δ dist X) {c : Curve K (W × K)} (hc : c ∈ X) : jointAt X c.lo = startPt c := by
  rw [jointAt]
  cases hf : X.find? fun d => decide (d.lo = c.lo) with
  | none =>
    have := List.find?_eq_none.1 hf c hc
    simp at this
  | some d =>
    have h1 := List.mem_of_find?_eq_some hf
    have h2 := List.find?_some hf
    rw [decide_eq_true_eq] at h2
    rw [lo_inj h.lt h.chain h1 hc h2]

/-- After the end of a span comes the start of a span, or the start of the curve. -/
theorem Circuit.next (h : Circuit eps δ dist X) {c : Curve K (W × K)} (hc : c ∈ X) :
    ∃ d ∈ X, d.lo = (if c.hi = hiOf X then loOf X else c.hi) ∧ dist (stopPt c) (startPt d) ≤ δ := by
  obtain ⟨l, m, e⟩ := List.append_of_mem hc
  cases m with
  | nil =>
    have hlast : X.getLast? = some c := by rw [e]; simp
    have ehi : hiOf X = c.hi := by rw [hiOf, hlast]
    obtain ⟨d, hd⟩ : ∃ d, X.head? = some d := by
      cases hX : X with
      | nil => exact absurd hX h.ne
      | cons d _ => exact ⟨d, rfl⟩
    refine ⟨d, List.mem_of_head? hd, ?_, h.closed c hlast d hd⟩
    rw [if_pos ehi.symm, loOf, hd]
  | cons d m =>
    have h1 := h.chain
    have h2 := h.joined
    rw [e, List.isChain_append] at h1 h2
    have h3 := (List.isChain_cons_cons.1 h1.2.1).1
    have h4 := (List.isChain_cons_cons.1 h2.2.1).1
    have hd : d ∈ X := by rw [e]; simp
    refine ⟨d, hd, ?_, h4⟩
    have := (chain_lo_le h.lt h.chain d hd).2
    have := h.lt d hd
    rw [if_neg (by rw [← h3]; linarith)]
    exact h3

end Curvo.Props

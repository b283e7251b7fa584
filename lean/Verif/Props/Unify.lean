/-
  C49: unification of knot vectors.
-/
import Verif.Lemmas.Unify
import Verif.Props.Curve2

set_option linter.unusedSectionVars false

namespace Curvo.Props

open Curvo Curvo.Spec Curvo.Curve

variable {K : Type} [Field K] [LinearOrder K] [IsStrictOrderedRing K] {V : Type} [AddCommGroup V] [Module K V]

/-- The union of two sorted lists (whose values are equal or at least `eps` apart) is sorted and has every value with the
    larger multiplicity. -/
theorem C49_union {eps : K} (he : 0 < eps) {as bs : List K} (ha : as.Pairwise (· ≤ ·)) (hb : bs.Pairwise (· ≤ ·))
    (hsep : ∀ a ∈ as, ∀ b ∈ bs, |a - b| < eps → a = b) :
    (setUnion eps as bs).Pairwise (· ≤ ·) ∧ ∀ x, (setUnion eps as bs).count x = max (as.count x) (bs.count x) :=
  setUnion_spec he ha hb hsep

/-- Removing a contained list leaves exactly the missing values, in order; together with the removed list they are the
    original. -/
theorem C49_difference {eps : K} (he : 0 < eps) {as bs : List K} (ha : as.Pairwise (· ≤ ·)) (hb : bs.Pairwise (· ≤ ·))
    (hsep : ∀ a ∈ as, ∀ b ∈ bs, |a - b| < eps → a = b) (hsub : ∀ x, bs.count x ≤ as.count x) :
    (setSub eps as bs).Pairwise (· ≤ ·) ∧ (setSub eps as bs ++ bs).Perm as := by
  obtain ⟨h1, h2⟩ := setSub_spec he as bs ha hb hsep hsub
  refine ⟨ha.sublist h1, List.perm_iff_count.2 fun x => ?_⟩
  rw [List.count_append]
  exact h2 x

/-- Without containment the difference is not the difference: a value of the second list that does not occur in the first
    blocks all later comparisons. -/
theorem C49_difference_not_contained :
    setSub (1/1000 : ℚ) [0, 1, 2, 3] [0, 1/2, 1, 2] = [1, 2, 3] := by decide +kernel

/-- Witness: two knot vectors of different multiplicities. -/
example : setUnion (1/1000 : ℚ) [0, 0, 0, 1/2, 1, 1, 1] [0, 0, 1/4, 1/2, 1/2, 1, 1] =
    [0, 0, 0, 1/4, 1/2, 1/2, 1, 1, 1] ∧
    setSub (1/1000 : ℚ) [0, 0, 0, 1/4, 1/2, 1/2, 1, 1, 1] [0, 0, 0, 1/2, 1, 1, 1] = [1/4, 1/2] := by
  decide +kernel

/-- The parameter of the unified curve that corresponds to a parameter of the original: the domain of the original is mapped
    affinely to `[0, S]`. -/
def unifiedParam (S : K) (c : Curve K V) (x : K) : K := (x - c.lo) * (S / (c.hi - c.lo))

theorem foldl_max_eq {ls : List K} {S : K} (h : ∀ x ∈ ls, x ≤ S) (h' : S ∈ ls) (h0 : 0 ≤ S) :
    ls.foldl (fun x a => max a x) 0 = S := by
  have gen : ∀ (ls : List K) (acc : K), acc ≤ S → (∀ x ∈ ls, x ≤ S) → (S ∈ ls ∨ acc = S) →
      ls.foldl (fun x a => max a x) acc = S := by
    intro ls
    induction ls with
    | nil => intro acc _ _ h; simpa using h
    | cons a ls ih =>
      intro acc ha hl hm
      rw [List.foldl_cons]
      refine ih _ (max_le (hl a (by simp)) ha) (fun x hx => hl x (List.mem_cons_of_mem _ hx)) ?_
      rcases hm with hm | rfl
      · rcases List.mem_cons.1 hm with rfl | hm
        · right; exact max_eq_left ha
        · left; exact hm
      · right; exact max_eq_right (hl a (by simp))
  exact gen ls 0 h0 h (.inl h')

theorem foldl_max_degree {cs : List (Curve K V)} {p : ℕ} (hne : cs ≠ []) (h : ∀ c ∈ cs, c.degree = p) :
    cs.foldl (fun d c => max d c.degree) 0 = p := by
  have gen : ∀ (ls : List (Curve K V)) (acc : ℕ), acc ≤ p → (∀ x ∈ ls, x.degree = p) → (ls ≠ [] ∨ acc = p) →
      ls.foldl (fun d c => max d c.degree) acc = p := by
    intro ls
    induction ls with
    | nil => intro acc _ _ h; simpa using h
    | cons a ls ih =>
      intro acc ha hl _
      rw [List.foldl_cons]
      have := hl a (by simp)
      exact ih _ (by omega) (fun x hx => hl x (List.mem_cons_of_mem _ hx)) (.inr (by omega))
  exact gen cs 0 (Nat.zero_le _) h (.inl hne)

theorem forall₂_map_left' {α β γ : Type} {f : α → γ} {P : γ → β → Prop} :
    ∀ {l : List α} {r : List β}, List.Forall₂ P (l.map f) r → List.Forall₂ (fun a b => P (f a) b) l r
  | [], _, h => by cases h; exact .nil
  | a :: l, _, h => by
    cases h with
    | cons h1 h2 => exact .cons h1 (forall₂_map_left' h2)

theorem forall₂_with_mem {α β : Type} {P : α → β → Prop} :
    ∀ {l : List α} {r : List β}, List.Forall₂ P l r → List.Forall₂ (fun a b => a ∈ l ∧ P a b) l r
  | [], _, h => by cases h; exact .nil
  | a :: l, _, h => by
    cases h with
    | cons h1 h2 =>
      exact .cons ⟨by simp, h1⟩ ((forall₂_with_mem h2).imp fun x y hxy => ⟨List.mem_cons_of_mem _ hxy.1, hxy.2⟩)

/-- **Unification.** Curves of one degree, each starting and ending its knots at the ends of its domain, are mapped to a
    common domain `[0, S]` (`S` the longest of their domains) and all get the same knot vector: the sorted list that has
    every (transformed) knot with the largest multiplicity in any of the curves. Every curve keeps its points. -/
theorem C49_unify {eps S : K} (he : 0 < eps) {cs : List (Curve K V)} {p : ℕ} (hdeg : ∀ c ∈ cs, c.degree = p)
    (hg : ∀ c ∈ cs, c.Good eps)
    (hends : ∀ c ∈ cs, c.knots.head? = some c.lo ∧ c.knots.getLast? = some c.hi)
    (hS : ∀ c ∈ cs, c.hi - c.lo ≤ S) (hS' : ∃ c ∈ cs, c.hi - c.lo = S)
    (hsep : ∀ c ∈ cs, ∀ d ∈ cs, ∀ x ∈ c.knots, ∀ y ∈ d.knots,
      |unifiedParam S c x - unifiedParam S d y| < eps → unifiedParam S c x = unifiedParam S d y) :
    ∃ cs' merged, tryUnify eps cs = .ok cs' ∧ merged.Pairwise (· ≤ ·) ∧
      (∀ x, (∀ c ∈ cs, (c.knots.map (unifiedParam S c)).count x ≤ merged.count x) ∧
        ∃ c ∈ cs, (c.knots.map (unifiedParam S c)).count x = merged.count x) ∧
      List.Forall₂ (fun c c' => c'.Good eps ∧ c'.degree = p ∧ c'.knots = merged ∧ c'.lo = 0 ∧ c'.hi = S ∧
        ∀ u, c.lo ≤ u → u ≤ c.hi → c'.point eps (unifiedParam S c u) = c.point eps u) cs cs' := by
  obtain ⟨c0, hc0, hS0⟩ := hS'
  have hne : cs ≠ [] := List.ne_nil_of_mem hc0
  have hpos : ∀ c ∈ cs, 0 < c.hi - c.lo := fun c hc => sub_pos.2 (hg c hc).pre.dom
  have hSpos : 0 < S := hS0 ▸ hpos c0 hc0
  set f : Curve K V → Curve K V := fun c => { c with knots := c.knots.map (unifiedParam S c) } with hf
  have haff : ∀ c ∈ cs, ∃ α β, 1 ≤ α ∧ (∀ x, unifiedParam S c x = α * x + β) ∧ α * c.lo + β = 0 ∧ α * c.hi + β = S := by
    intro c hc
    have hp := hpos c hc
    refine ⟨S / (c.hi - c.lo), - c.lo * (S / (c.hi - c.lo)), (one_le_div hp).2 (hS c hc), fun x => ?_, by ring, ?_⟩
    · rw [unifiedParam]; ring
    · field_simp; ring
  have hgood : ∀ c ∈ cs, (f c).Good eps ∧ (f c).lo = 0 ∧ (f c).hi = S ∧
      (∀ u, c.lo ≤ u → u ≤ c.hi → (f c).eval (unifiedParam S c u) = c.eval u) ∧
      (∀ u, c.lo ≤ u → u ≤ c.hi → 0 ≤ unifiedParam S c u ∧ unifiedParam S c u ≤ S) := by
    intro c hc
    obtain ⟨α, β, h1, h2, h3, h4⟩ := haff c hc
    have hfc : f c = { c with knots := c.knots.map fun x => α * x + β } := by
      simp only [hf]; rw [show unifiedParam S c = fun x => α * x + β from funext h2]
    obtain ⟨g1, g2, g3, g4⟩ := affine_good (hg c hc) (β := β) h1
    rw [hfc]
    refine ⟨g1, by rw [g2, h3], by rw [g3, h4], fun u hu1 hu2 => by rw [h2]; exact g4 u hu1 hu2, fun u hu1 hu2 => ?_⟩
    have hα0 : 0 ≤ α := zero_le_one.trans h1
    rw [h2, ← h4]
    refine ⟨?_, ?_⟩
    · rw [← h3]; linarith [mul_le_mul_of_nonneg_left hu1 hα0]
    · linarith [mul_le_mul_of_nonneg_left hu2 hα0]
  have hin : ∀ c ∈ cs, ∀ x ∈ c.knots, c.lo ≤ x ∧ x ≤ c.hi := by
    intro c hc x hx
    obtain ⟨e1, e2⟩ := hends c hc
    have hs := (hg c hc).pre.sorted
    obtain ⟨i, hi, rfl⟩ := List.mem_iff_getElem.1 hx
    have hl0 : c.knots[0]'(by omega) = c.lo := by
      rw [List.head?_eq_getElem?, List.getElem?_eq_getElem (by omega)] at e1
      exact Option.some.inj e1
    have hl1 : c.knots[c.knots.length - 1]'(by omega) = c.hi := by
      rw [List.getLast?_eq_getElem?, List.getElem?_eq_getElem (by omega)] at e2
      exact Option.some.inj e2
    refine ⟨?_, ?_⟩
    · rw [← hl0]
      rcases Nat.eq_zero_or_pos i with rfl | hi0
      · exact le_refl _
      · exact List.pairwise_iff_getElem.1 hs 0 i (by omega) hi hi0
    · rw [← hl1]
      rcases Nat.lt_or_eq_of_le (show i ≤ c.knots.length - 1 by omega) with h | h
      · exact List.pairwise_iff_getElem.1 hs i _ hi (by omega) h
      · simp only [h, le_refl]
  have e1 : cs.mapM (fun c => if c.degree < p then c.tryElevateDegree p else pure c) = .ok cs := by
    rw [mapM_ok (g := id) (fun c hc => by rw [if_neg (by have := hdeg c hc; omega)]; rfl), List.map_id]
  have e2 : cs.mapM (fun c => do
      let a ← getR c.knots 0
      let l ← subR c.knots.length 1
      let b ← getR c.knots l
      pure (a, b)) = (.ok (cs.map fun c => (c.lo, c.hi)) : Res (List (K × K))) := by
    refine mapM_ok fun c hc => ?_
    obtain ⟨e1, e2⟩ := hends c hc
    have hl : 0 < c.knots.length := by have := (hg c hc).knots_len; omega
    rw [List.head?_eq_getElem?] at e1
    rw [List.getLast?_eq_getElem?] at e2
    rw [getR_eq_ok hl, ok_bind, subR_eq_ok (by omega), ok_bind, getR_eq_ok (by omega), ok_bind]
    rw [List.getElem?_eq_getElem (by omega)] at e1 e2
    rw [Option.some.inj e1, Option.some.inj e2]
    rfl
  have e3 : ((cs.map fun c => (c.lo, c.hi)).map fun iv : K × K => iv.2 - iv.1).foldl (fun x a => max a x) 0 = S := by
    rw [List.map_map]
    refine foldl_max_eq ?_ ?_ hSpos.le
    · intro x hx
      obtain ⟨c, hc, rfl⟩ := List.mem_map.1 hx
      exact hS c hc
    · exact List.mem_map.2 ⟨c0, hc0, hS0⟩
  have e4 : (cs.zip (cs.map fun c => (c.lo, c.hi))).mapM (fun ci : Curve K V × K × K => do
      let scale ← divR S (ci.2.2 - ci.2.1)
      pure { ci.1 with knots := (ci.1.knots.map (· - ci.2.1)).map (· * scale) }) =
        (.ok (cs.map f) : Res (List (Curve K V))) := by
    have hz : cs.zip (cs.map fun c => (c.lo, c.hi)) = cs.map fun c => (c, c.lo, c.hi) := by
      clear * -
      induction cs with
      | nil => rfl
      | cons c cs ih => simp only [List.map_cons, List.zip_cons_cons, ih]
    have hg : ∀ ci ∈ cs.map fun c => (c, c.lo, c.hi),
        (do let scale ← divR S (ci.2.2 - ci.2.1)
            pure { ci.1 with knots := (ci.1.knots.map (· - ci.2.1)).map (· * scale) } : Res (Curve K V)) =
          .ok (f ci.1) := by
      intro ci hci
      obtain ⟨c, hc, rfl⟩ := List.mem_map.1 hci
      rw [divR_eq_ok (hpos c hc).ne', ok_bind]
      simp only [hf, List.map_map]
      rfl
    rw [hz, mapM_ok (g := fun ci => f ci.1) hg, List.map_map]
    rfl
  set merged := (cs.map f).foldl (fun a c => setUnion eps c.knots a) [] with hmerged
  have hmem : merged = ((cs.map f).map fun c => c.knots).foldl (fun a l => setUnion eps l a) [] := by
    rw [hmerged, List.foldl_map (f := fun c : Curve K V => c.knots)]
  have hkn : ∀ l ∈ (cs.map f).map fun c => c.knots, ∃ c ∈ cs, l = (f c).knots := by
    intro l hl
    rw [List.map_map] at hl
    obtain ⟨c, hc, rfl⟩ := List.mem_map.1 hl
    exact ⟨c, hc, rfl⟩
  obtain ⟨m1, m2, m3⟩ := fold_union_spec he ((cs.map f).map fun c => c.knots) []
    (fun l hl => by
      obtain ⟨c, hc, rfl⟩ := hkn l hl
      exact (hgood c hc).1.pre.sorted) List.Pairwise.nil
    (by
      intro l hl l' hl' a ha b hb hab
      rcases List.mem_cons.1 hl with rfl | hl
      · simp at ha
      rcases List.mem_cons.1 hl' with rfl | hl'
      · simp at hb
      obtain ⟨c, hc, rfl⟩ := hkn l hl
      obtain ⟨d, hd, rfl⟩ := hkn l' hl'
      obtain ⟨x, hx, rfl⟩ := List.mem_map.1 ha
      obtain ⟨y, hy, rfl⟩ := List.mem_map.1 hb
      exact hsep c hc d hd x hx y hy hab)
  rw [← hmem] at m1 m2 m3
  have m2' : ∀ x, ∀ c ∈ cs, (f c).knots.count x ≤ merged.count x := fun x c hc =>
    m2 x _ (List.mem_cons_of_mem _ (by rw [List.map_map]; exact List.mem_map.2 ⟨c, hc, rfl⟩))
  have m3' : ∀ x, ∃ c ∈ cs, (f c).knots.count x = merged.count x := by
    intro x
    obtain ⟨l, hl, e⟩ := m3 x
    rcases List.mem_cons.1 hl with rfl | hl
    · refine ⟨c0, hc0, ?_⟩
      have := m2' x c0 hc0
      rw [← e] at this ⊢
      simpa using this
    · obtain ⟨c, hc, rfl⟩ := hkn l hl
      exact ⟨c, hc, e⟩
  have hfrom : ∀ x ∈ merged, ∃ c ∈ cs, ∃ y ∈ c.knots, x = unifiedParam S c y := by
    intro x hx
    obtain ⟨c, hc, e⟩ := m3' x
    have : x ∈ (f c).knots := List.count_pos_iff.1 (by rw [e]; exact List.count_pos_iff.2 hx)
    obtain ⟨y, hy, rfl⟩ := List.mem_map.1 this
    exact ⟨c, hc, y, hy, rfl⟩
  have hmsep : ∀ a ∈ merged, ∀ b ∈ merged, |a - b| < eps → a = b := by
    intro a ha b hb hab
    obtain ⟨c, hc, x, hx, rfl⟩ := hfrom a ha
    obtain ⟨d, hd, y, hy, rfl⟩ := hfrom b hb
    exact hsep c hc d hd x hx y hy hab
  have hmdom : ∀ x ∈ merged, 0 ≤ x ∧ x ≤ S := by
    intro x hx
    obtain ⟨c, hc, y, hy, rfl⟩ := hfrom x hx
    exact (hgood c hc).2.2.2.2 y (hin c hc y hy).1 (hin c hc y hy).2
  obtain ⟨cs', e5, h5⟩ := mapM_exists (l := cs.map f)
    (f := fun c => if (setSub eps merged c.knots).isEmpty then pure c else c.tryRefineKnot eps (setSub eps merged c.knots))
    (P := fun c c' => c'.Pre ∧ c'.degree = c.degree ∧ c'.knots = merged ∧ c'.lo = c.lo ∧ c'.hi = c.hi ∧
      ∀ u, c.lo ≤ u → u ≤ c.hi → c'.eval u = c.eval u)
    (by
      intro d hd
      obtain ⟨c, hc, rfl⟩ := List.mem_map.1 hd
      obtain ⟨g1, g2, g3, _, _⟩ := hgood c hc
      refine refine_to he g1 m1 ?_ (fun x => m2' x c hc) (fun x hx => by rw [g2, g3]; exact hmdom x hx)
      intro a ha b hb hab
      obtain ⟨c', hc', x, hx, rfl⟩ := hfrom a ha
      rcases List.mem_append.1 hb with hb | hb
      · exact hmsep _ ha b hb hab
      · obtain ⟨y, hy, rfl⟩ := List.mem_map.1 hb
        exact hsep c' hc' c hc x hx y hy hab)
  refine ⟨cs', merged, ?_, m1, fun x => ⟨fun c hc => m2' x c hc, m3' x⟩, ?_⟩
  · rw [tryUnify]
    simp only [foldl_max_degree hne hdeg]
    rw [e1, ok_bind, e2, ok_bind]
    simp only [e3]
    rw [e4, ok_bind]
    exact e5
  · refine (forall₂_with_mem (forall₂_map_left' h5)).imp ?_
    rintro c c' ⟨hc, q1, q2, q3, q4, q5, q6⟩
    obtain ⟨g1, g2, g3, g4, g5⟩ := hgood c hc
    have hg' : c'.Good eps := by
      refine q1.good_of_sep he ?_ ?_ ?_ ?_
      · rw [q3, q4, q5, g2, g3]; exact hmdom
      · rw [q3]; exact hmsep
      · obtain ⟨d, hd, e⟩ := m3' c'.lo
        have := (hgood d hd).1.count_ends.1
        rw [(hgood d hd).2.1, ← g2, ← q4] at this
        rw [q3, ← e, q2]
        exact this.trans (by simp only [hf, hdeg c hc, hdeg d hd, le_refl])
      · obtain ⟨d, hd, e⟩ := m3' c'.hi
        have := (hgood d hd).1.count_ends.2
        rw [(hgood d hd).2.2.1, ← g3, ← q5] at this
        rw [q3, ← e, q2]
        exact this.trans (by simp only [hf, hdeg c hc, hdeg d hd, le_refl])
    refine ⟨hg', ?_, q3, by rw [q4, g2], by rw [q5, g3], fun u hu1 hu2 => ?_⟩
    · rw [q2]; exact hdeg c hc
    · obtain ⟨b1, b2⟩ := g5 u hu1 hu2
      rw [point_eq_eval (hg c hc) hu1 hu2, point_eq_eval hg' (by rw [q4, g2]; exact b1) (by rw [q5, g3]; exact b2),
        q6 _ (by rw [g2]; exact b1) (by rw [g3]; exact b2), g4 u hu1 hu2]

/-- Two quadratics on different domains, the first with an interior knot, the second with a double one. -/
def exUnify : List (Curve ℚ (ℚ × ℚ)) :=
  [⟨2, [(0, 1), (2, 1), (3, 1), (1, 1)], [0, 0, 0, 1, 4, 4, 4]⟩,
   ⟨2, [(5, 1), (4, 1), (7, 1), (1, 1), (0, 1)], [2, 2, 2, 3, 3, 4, 4, 4]⟩]

/-- Witness: both get the knots 0, 0, 0, 1, 2, 2, 4, 4, 4. -/
example : (tryUnify (1/1000) exUnify).map (fun cs => cs.map fun c => c.knots) =
    .ok [[0, 0, 0, 1, 2, 2, 4, 4, 4], [0, 0, 0, 1, 2, 2, 4, 4, 4]] := by decide +kernel

example : ∃ cs' merged, tryUnify (1/1000) exUnify = .ok cs' ∧ merged.Pairwise (· ≤ ·) ∧
      (∀ x, (∀ c ∈ exUnify, (c.knots.map (unifiedParam 4 c)).count x ≤ merged.count x) ∧
        ∃ c ∈ exUnify, (c.knots.map (unifiedParam 4 c)).count x = merged.count x) ∧
      List.Forall₂ (fun c c' => c'.Good (1/1000) ∧ c'.degree = 2 ∧ c'.knots = merged ∧ c'.lo = 0 ∧ c'.hi = 4 ∧
        ∀ u, c.lo ≤ u → u ≤ c.hi → c'.point (1/1000) (unifiedParam 4 c u) = c.point (1/1000) u) exUnify cs' := by
  refine C49_unify (by norm_num) ?_ ?_ ?_ ?_ ?_ ?_
  · decide +kernel
  · intro c hc
    have hgap : ∀ c ∈ exUnify, (0 < c.cps.length ∧ c.knots.length = c.cps.length + c.degree + 1 ∧
        c.degree ≤ c.cps.length - 1 ∧ c.knots.Pairwise (· ≤ ·)) ∧
        kf c.knots c.degree + 1/1000 ≤ kf c.knots (c.degree + 1) ∧
        kf c.knots (c.cps.length - 1) + 1/1000 ≤ kf c.knots (c.cps.length - 1 + 1) := by decide +kernel
    obtain ⟨⟨h1, h2, h3, h4⟩, h5, h6⟩ := hgap c hc
    exact ⟨h1, h2, by norm_num, h3, mono_of_sorted h4 (by omega), by linarith, by linarith, h5, h6⟩
  · decide +kernel
  · decide +kernel
  · decide +kernel
  · decide +kernel

/-- Curves of different degree go through degree elevation, which leaves zeros at the end of the knots: for a line and a
    parabola the span of the knots is then 0 and the scale not finite. -/
theorem C49_unify_degrees :
    (tryUnify (1/1000 : ℚ)
      [(⟨1, [(0, 1), (2, 1)], [0, 0, 1, 1]⟩ : Curve ℚ (ℚ × ℚ)), ⟨2, [(0, 1), (2, 1), (1, 1)], [0, 0, 0, 1, 1, 1]⟩]).map
      (fun cs => cs.map fun c => c.knots) = .error .nonfinite := by
  decide +kernel

end Curvo.Props

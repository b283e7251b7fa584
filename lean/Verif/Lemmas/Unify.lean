/-
  Lemmas for the unification of knot vectors: unions and differences of sorted lists, affine reparametrisation.
-/
import Verif.Model.Elevate
import Verif.Lemmas.Refine
import Verif.Lemmas.Sorted
import Verif.Lemmas.Net
import Verif.Lemmas.BSpline2

set_option linter.unusedSectionVars false

namespace Curvo.Curve

open Curvo Curvo.Spec

variable {K : Type} [Field K] [LinearOrder K] [IsStrictOrderedRing K] {V : Type} [AddCommGroup V] [Module K V]

theorem near_iff {eps a b : K} (he : 0 < eps) (h : |a - b| < eps → a = b) : |a - b| < eps ↔ a = b :=
  ⟨h, fun e => by subst e; simpa using he⟩

theorem mem_of_count {l : List K} {as bs : List K} (h : ∀ x, l.count x = max (as.count x) (bs.count x)) {x : K}
    (hx : x ∈ l) : x ∈ as ∨ x ∈ bs := by
  have := List.count_pos_iff.2 hx
  rw [h] at this
  rcases lt_max_iff.1 this with h' | h'
  · exact .inl (List.count_pos_iff.1 h')
  · exact .inr (List.count_pos_iff.1 h')

theorem count_zero_of_lt {l : List K} {x b : K} (h : ∀ y ∈ l, b ≤ y) (hx : x < b) : l.count x = 0 :=
  List.count_eq_zero.2 fun hm => absurd (h x hm) (not_le.2 hx)

theorem setUnionGo_spec {eps : K} (he : 0 < eps) : ∀ fuel (as bs : List K), as.length + bs.length ≤ fuel →
    as.Pairwise (· ≤ ·) → bs.Pairwise (· ≤ ·) → (∀ a ∈ as, ∀ b ∈ bs, |a - b| < eps → a = b) →
    (setUnionGo eps fuel as bs).Pairwise (· ≤ ·) ∧
      ∀ x, (setUnionGo eps fuel as bs).count x = max (as.count x) (bs.count x) := by
  intro fuel
  induction fuel with
  | zero =>
    intro as bs hl _ _ _
    have h1 : as = [] := List.eq_nil_of_length_eq_zero (by omega)
    have h2 : bs = [] := List.eq_nil_of_length_eq_zero (by omega)
    subst h1 h2
    simp [setUnionGo]
  | succ fuel ih =>
    intro as bs hl ha hb hsep
    match as, bs with
    | [], bs => simpa [setUnionGo] using hb
    | a :: as, [] => simpa [setUnionGo] using ha
    | a :: as, b :: bs =>
      have ha' := List.pairwise_cons.1 ha
      have hb' := List.pairwise_cons.1 hb
      have hge : ∀ y ∈ a :: as, a ≤ y := fun y hy => by
        rcases List.mem_cons.1 hy with rfl | hy
        · exact le_refl _
        · exact ha'.1 y hy
      have hgeb : ∀ y ∈ b :: bs, b ≤ y := fun y hy => by
        rcases List.mem_cons.1 hy with rfl | hy
        · exact le_refl _
        · exact hb'.1 y hy
      simp only [List.length_cons] at hl
      rw [setUnionGo]
      by_cases h1 : |a - b| < eps
      · obtain rfl := hsep a (by simp) b (by simp) h1
        rw [if_pos h1]
        obtain ⟨i1, i2⟩ := ih as bs (by omega) ha'.2 hb'.2
          (fun x hx y hy => hsep x (List.mem_cons_of_mem _ hx) y (List.mem_cons_of_mem _ hy))
        refine ⟨List.pairwise_cons.2 ⟨fun y hy => ?_, i1⟩, fun x => ?_⟩
        · rcases mem_of_count i2 hy with h | h
          · exact ha'.1 y h
          · exact hb'.1 y h
        · rw [List.count_cons, List.count_cons, List.count_cons, i2]
          omega
      · rw [if_neg h1]
        have hne : a ≠ b := fun e => h1 ((near_iff he (hsep a (by simp) b (by simp))).2 e)
        by_cases h2 : 0 < a - b
        · rw [if_pos h2]
          have hlt : b < a := sub_pos.1 h2
          obtain ⟨i1, i2⟩ := ih (a :: as) bs (by simp; omega) ha hb'.2
            (fun x hx y hy => hsep x hx y (List.mem_cons_of_mem _ hy))
          refine ⟨List.pairwise_cons.2 ⟨fun y hy => ?_, i1⟩, fun x => ?_⟩
          · rcases mem_of_count i2 hy with h | h
            · exact hlt.le.trans (hge y h)
            · exact hb'.1 y h
          · rw [List.count_cons, i2, List.count_cons (l := bs)]
            by_cases hx : b = x
            · subst hx
              rw [count_zero_of_lt hge hlt]
              simp
            · simp [hx]
        · rw [if_neg h2]
          have hlt : a < b := lt_of_le_of_ne (not_lt.1 fun h => h2 (sub_pos.2 h)) hne
          obtain ⟨i1, i2⟩ := ih as (b :: bs) (by simp; omega) ha'.2 hb
            (fun x hx y hy => hsep x (List.mem_cons_of_mem _ hx) y hy)
          refine ⟨List.pairwise_cons.2 ⟨fun y hy => ?_, i1⟩, fun x => ?_⟩
          · rcases mem_of_count i2 hy with h | h
            · exact ha'.1 y h
            · exact hlt.le.trans (hgeb y h)
          · rw [List.count_cons, i2, List.count_cons (l := as)]
            by_cases hx : a = x
            · subst hx
              rw [count_zero_of_lt hgeb hlt]
              simp
            · simp [hx]

/-- The union is sorted and has every value with the larger multiplicity. -/
theorem setUnion_spec {eps : K} (he : 0 < eps) {as bs : List K} (ha : as.Pairwise (· ≤ ·)) (hb : bs.Pairwise (· ≤ ·))
    (hsep : ∀ a ∈ as, ∀ b ∈ bs, |a - b| < eps → a = b) :
    (setUnion eps as bs).Pairwise (· ≤ ·) ∧ ∀ x, (setUnion eps as bs).count x = max (as.count x) (bs.count x) :=
  setUnionGo_spec he _ as bs le_rfl ha hb hsep

/-- The difference has every value as often as it is missing. -/
theorem setSub_spec {eps : K} (he : 0 < eps) : ∀ (as bs : List K), as.Pairwise (· ≤ ·) → bs.Pairwise (· ≤ ·) →
    (∀ a ∈ as, ∀ b ∈ bs, |a - b| < eps → a = b) → (∀ x, bs.count x ≤ as.count x) →
    (setSub eps as bs).Sublist as ∧ ∀ x, (setSub eps as bs).count x + bs.count x = as.count x := by
  intro as
  induction as with
  | nil =>
    intro bs _ _ _ hc
    refine ⟨by simp [setSub], fun x => ?_⟩
    have := hc x
    simp only [List.count_nil, nonpos_iff_eq_zero] at this
    simp [setSub, this]
  | cons a as ih =>
    intro bs ha hb hsep hc
    match bs with
    | [] => simp [setSub]
    | b :: bs =>
      have ha' := List.pairwise_cons.1 ha
      have hb' := List.pairwise_cons.1 hb
      rw [setSub]
      by_cases h1 : |a - b| < eps
      · obtain rfl := hsep a (by simp) b (by simp) h1
        rw [if_pos h1]
        obtain ⟨i1, i2⟩ := ih bs ha'.2 hb'.2
          (fun x hx y hy => hsep x (List.mem_cons_of_mem _ hx) y (List.mem_cons_of_mem _ hy))
          (fun x => by have := hc x; rw [List.count_cons, List.count_cons] at this; omega)
        refine ⟨i1.trans (List.sublist_cons_self _ _), fun x => ?_⟩
        rw [List.count_cons, List.count_cons, ← i2]; omega
      · rw [if_neg h1]
        have hne : a ≠ b := fun e => h1 ((near_iff he (hsep a (by simp) b (by simp))).2 e)
        have hbm : b ∈ a :: as := List.count_pos_iff.1 (lt_of_lt_of_le (by simp) (hc b))
        have hlt : a < b := by
          rcases List.mem_cons.1 hbm with e | e
          · exact absurd e.symm hne
          · exact lt_of_le_of_ne (ha'.1 b e) hne
        have hz : (b :: bs).count a = 0 := by
          refine count_zero_of_lt (b := b) (fun y hy => ?_) hlt
          rcases List.mem_cons.1 hy with rfl | hy
          · exact le_refl _
          · exact hb'.1 y hy
        obtain ⟨i1, i2⟩ := ih (b :: bs) ha'.2 hb (fun x hx y hy => hsep x (List.mem_cons_of_mem _ hx) y hy)
          (fun x => by
            by_cases hx : a = x
            · subst hx; rw [hz]; exact Nat.zero_le _
            · have := hc x
              rw [List.count_cons_of_ne hx] at this
              exact this)
        refine ⟨i1.cons_cons _, fun x => ?_⟩
        rw [List.count_cons, List.count_cons (l := as), ← i2]; omega

/-- The union of a family, folded from the left. -/
theorem fold_union_spec {eps : K} (he : 0 < eps) : ∀ (ls : List (List K)) (acc : List K),
    (∀ l ∈ ls, l.Pairwise (· ≤ ·)) → acc.Pairwise (· ≤ ·) →
    (∀ l ∈ acc :: ls, ∀ l' ∈ acc :: ls, ∀ a ∈ l, ∀ b ∈ l', |a - b| < eps → a = b) →
    (ls.foldl (fun a l => setUnion eps l a) acc).Pairwise (· ≤ ·) ∧
      (∀ x, ∀ l ∈ acc :: ls, l.count x ≤ (ls.foldl (fun a l => setUnion eps l a) acc).count x) ∧
      (∀ x, ∃ l ∈ acc :: ls, l.count x = (ls.foldl (fun a l => setUnion eps l a) acc).count x) := by
  intro ls
  induction ls with
  | nil => intro acc _ h _; simpa using h
  | cons l ls ih =>
    intro acc hs ha hsep
    obtain ⟨u1, u2⟩ := setUnion_spec he (hs l (by simp)) ha (fun a ha' b hb => hsep l (by simp) acc (by simp) a ha' b hb)
    have lift : ∀ m ∈ setUnion eps l acc :: ls, ∀ a ∈ m, ∃ m' ∈ acc :: l :: ls, a ∈ m' := by
      intro m hm a ha'
      rcases List.mem_cons.1 hm with rfl | hm
      · rcases mem_of_count u2 ha' with h | h
        · exact ⟨l, by simp, h⟩
        · exact ⟨acc, by simp, h⟩
      · exact ⟨m, by simp [hm], ha'⟩
    obtain ⟨i1, i2, i3⟩ := ih (setUnion eps l acc) (fun m hm => hs m (List.mem_cons_of_mem _ hm)) u1
      (by
        intro m hm m' hm' a ha' b hb'
        obtain ⟨n, hn, han⟩ := lift m hm a ha'
        obtain ⟨n', hn', hbn⟩ := lift m' hm' b hb'
        exact hsep n hn n' hn' a han b hbn)
    refine ⟨i1, fun x m hm => ?_, fun x => ?_⟩
    · have hu := i2 x (setUnion eps l acc) (by simp)
      rw [u2] at hu
      rcases List.mem_cons.1 hm with rfl | hm
      · exact (le_max_right _ _).trans hu
      · rcases List.mem_cons.1 hm with rfl | hm
        · exact (le_max_left _ _).trans hu
        · exact i2 x m (by simp [hm])
    · obtain ⟨m, hm, e⟩ := i3 x
      rcases List.mem_cons.1 hm with rfl | hm
      · rw [u2] at e
        rcases max_choice (l.count x) (acc.count x) with h | h
        · exact ⟨l, by simp, by rw [← h, e]; rfl⟩
        · exact ⟨acc, by simp, by rw [← h, e]; rfl⟩
      · exact ⟨m, by simp [hm], e⟩

/-! ### Affine reparametrisation -/

theorem kf_map' {ks : List K} (f : K → K) {j : ℕ} (hj : j < ks.length) : kf (ks.map f) j = f (kf ks j) := by
  rw [kf_eq (by simpa using hj), kf_eq hj]; simp

/-- Scaling up and shifting the knots gives the same curve at the transformed parameters. -/
theorem affine_good {eps : K} {c : Curve K V} (h : c.Good eps) {α β : K} (hα : 1 ≤ α) :
    ({ c with knots := c.knots.map fun x => α * x + β } : Curve K V).Good eps ∧
      ({ c with knots := c.knots.map fun x => α * x + β } : Curve K V).lo = α * c.lo + β ∧
      ({ c with knots := c.knots.map fun x => α * x + β } : Curve K V).hi = α * c.hi + β ∧
      ∀ u, c.lo ≤ u → u ≤ c.hi →
        ({ c with knots := c.knots.map fun x => α * x + β } : Curve K V).eval (α * u + β) = c.eval u := by
  have hpos := h.cps_pos
  have hkl := h.knots_len
  have hle := h.good.le
  have hα0 : 0 < α := lt_of_lt_of_le one_pos hα
  set f : K → K := fun x => α * x + β with hf
  have hfm : ∀ x y, x ≤ y → f x ≤ f y := fun x y hxy => by
    simp only [f]; linarith [mul_le_mul_of_nonneg_left hxy hα0.le]
  have hfs : ∀ x y, x < y → f x < f y := fun x y hxy => by
    simp only [f]; linarith [mul_lt_mul_of_pos_left hxy hα0]
  have hfg : ∀ x y, x + eps ≤ y → f x + eps ≤ f y := fun x y hxy => by
    have h0 := h.good.eps_nonneg
    simp only [f]
    nlinarith
  obtain ⟨c', hc'⟩ : ∃ c', c' = ({ c with knots := c.knots.map f } : Curve K V) := ⟨_, rfl⟩
  rw [← hc']
  have hk : ∀ j, j < c.knots.length → kf c'.knots j = f (kf c.knots j) := by
    intro j hj; rw [hc']; exact kf_map' f hj
  have hd : c'.degree = c.degree := by rw [hc']
  have hcp : c'.cps = c.cps := by rw [hc']
  have hlo : c'.lo = f c.lo := by rw [lo, hd, hk _ (by omega)]; rfl
  have hhi : c'.hi = f c.hi := by rw [hi, hcp, hk _ (by omega)]; rfl
  have hg : c'.Good eps := by
    refine ⟨by rw [hcp]; exact hpos, by rw [hcp, hd, hc']; simpa using hkl, ?_⟩
    rw [hcp, hd]
    refine ⟨h.good.eps_nonneg, hle, ?_, ?_, ?_, ?_, ?_⟩
    · intro i j hij hj
      rw [hk _ (by omega), hk _ (by omega)]
      exact hfm _ _ (h.good.mono i j hij hj)
    · rw [hk _ (by omega), hk _ (by omega)]; exact hfs _ _ h.good.first
    · rw [hk _ (by omega), hk _ (by omega)]; exact hfs _ _ h.good.last
    · rw [hk _ (by omega), hk _ (by omega)]; exact hfg _ _ h.good.first_gap
    · rw [hk _ (by omega), hk _ (by omega)]; exact hfg _ _ h.good.last_gap
  refine ⟨hg, hlo, hhi, fun u h1 h2 => ?_⟩
  obtain ⟨s, _, hps, hsn, hin⟩ := h.exists_span h1 h2
  have hin' : InSpan (kf c'.knots) c'.hi (f u) s := by
    unfold InSpan at hin ⊢
    rw [hk _ (by omega), hk _ (by omega), hhi]
    by_cases hu : u = c.hi
    · rw [if_pos hu] at hin
      rw [if_pos (by rw [hu])]
      exact ⟨hfs _ _ hin.1, hfm _ _ hin.2⟩
    · rw [if_neg hu] at hin
      rw [if_neg (hfs _ _ (lt_of_le_of_ne h2 hu)).ne]
      exact ⟨hfm _ _ hin.1, hfs _ _ hin.2⟩
  rw [eval_eq_NS h hsn hin, show α * u + β = f u from rfl,
    eval_eq_NS hg (s := s) (by rw [hcp]; exact hsn) hin', hcp, hd]
  apply Finset.sum_congr rfl
  intro i hi
  have := Finset.mem_range.1 hi
  rw [NS_congr (k := kf c'.knots) (k' := fun j => α * kf c.knots j + β) _ _
    (fun j _ hj => by rw [hk _ (by omega)]), show f u = α * u + β from rfl, NS_affine hα0.ne']

/-- Refining a curve by the knots it lacks gives it the merged knots. -/
theorem refine_to {eps : K} (he : 0 < eps) {c : Curve K V} (h : c.Good eps) {merged : List K}
    (hm : merged.Pairwise (· ≤ ·)) (hsep : ∀ a ∈ merged, ∀ b ∈ merged ++ c.knots, |a - b| < eps → a = b)
    (hcount : ∀ x, c.knots.count x ≤ merged.count x) (hdom : ∀ x ∈ merged, c.lo ≤ x ∧ x ≤ c.hi) :
    ∃ c', (if (setSub eps merged c.knots).isEmpty then pure c else c.tryRefineKnot eps (setSub eps merged c.knots)) =
        (Except.ok c' : Res (Curve K V)) ∧
      c'.Pre ∧ c'.degree = c.degree ∧ c'.knots = merged ∧ c'.lo = c.lo ∧ c'.hi = c.hi ∧
      ∀ u, c.lo ≤ u → u ≤ c.hi → c'.eval u = c.eval u := by
  have hpre := h.pre
  obtain ⟨s1, s2⟩ := setSub_spec he merged c.knots hm hpre.sorted
    (fun a ha b hb => hsep a ha b (List.mem_append_right _ hb)) hcount
  obtain ⟨c', e, r⟩ := tryRefineKnot_refines (xs := setSub eps merged c.knots) h (hm.sublist s1)
    (fun x hx => hdom x (s1.subset hx))
    (fun x hx y hy hxy => by
      refine (hsep x (s1.subset hx) y ?_ (by rw [abs_sub_comm]; exact hxy)).symm
      rcases List.mem_append.1 hy with hy | hy
      · exact List.mem_append_left _ (s1.subset hy)
      · exact List.mem_append_right _ hy)
  refine ⟨c', ?_, r.pre, r.degree, ?_, r.lo, r.hi, fun u h1 h2 => r.eval hpre h1 h2⟩
  · split
    · rename_i hem
      rw [List.isEmpty_iff.1 hem] at e
      exact e
    · exact e
  · refine List.Perm.eq_of_pairwise' r.pre.sorted hm (r.knots.trans ?_)
    rw [List.perm_iff_count]
    intro x
    rw [List.count_append]
    exact s2 x

end Curvo.Curve

namespace Curvo.Curve

open Curvo Curvo.Spec

variable {K : Type} [Field K] [LinearOrder K] [IsStrictOrderedRing K] {V : Type} [AddCommGroup V] [Module K V]

theorem getElem_kf {ks : List K} {i : ℕ} (h : i < ks.length) : ks[i] = kf ks i := (kf_eq h).symm

/-- The ends of the domain have at most `degree + 1` knots. -/
theorem Good.count_ends {eps : K} {c : Curve K V} (h : c.Good eps) :
    c.knots.count c.lo ≤ c.degree + 1 ∧ c.knots.count c.hi ≤ c.degree + 1 := by
  have hkl := h.knots_len
  have hpos := h.cps_pos
  have hle := h.good.le
  have hmono := h.good.mono
  constructor
  · rw [← List.take_append_drop (c.degree + 1) c.knots, List.count_append]
    have : (c.knots.drop (c.degree + 1)).count c.lo = 0 := by
      refine count_zero_of_lt (b := kf c.knots (c.degree + 1)) (fun y hy => ?_) h.good.first
      obtain ⟨i, hi, rfl⟩ := List.mem_iff_getElem.1 hy
      rw [List.length_drop] at hi
      rw [List.getElem_drop, getElem_kf]
      exact hmono _ _ (by omega) (by omega)
    have h2 := List.count_le_length (a := c.lo) (l := c.knots.take (c.degree + 1))
    rw [List.length_take] at h2
    omega
  · rw [← List.take_append_drop c.cps.length c.knots, List.count_append]
    have : (c.knots.take c.cps.length).count c.hi = 0 := by
      rw [List.count_eq_zero]
      intro hm
      obtain ⟨i, hi, e⟩ := List.mem_iff_getElem.1 hm
      rw [List.length_take] at hi
      rw [List.getElem_take, getElem_kf] at e
      have h1 := hmono i (c.cps.length - 1) (by omega) (by omega)
      have h2 := h.good.last
      rw [hi_eq h] at h2
      rw [e] at h1
      exact absurd h1 (not_le.2 h2)
    have h2 := List.count_le_length (a := c.hi) (l := c.knots.drop c.cps.length)
    rw [List.length_drop] at h2
    omega

/-- A well formed curve whose distinct knots are apart, with the ends of the knots at the ends of the domain and not too many
    of them, is good. -/
theorem Pre.good_of_sep {eps : K} (he : 0 < eps) {c : Curve K V} (h : c.Pre)
    (hdom : ∀ x ∈ c.knots, c.lo ≤ x ∧ x ≤ c.hi)
    (hsep : ∀ a ∈ c.knots, ∀ b ∈ c.knots, |a - b| < eps → a = b)
    (hlo : c.knots.count c.lo ≤ c.degree + 1) (hhi : c.knots.count c.hi ≤ c.degree + 1) : c.Good eps := by
  have hkl := h.knots_len
  have hd := h.deg_lt
  have hmono := h.mono
  have hmem : ∀ i, i < c.knots.length → kf c.knots i ∈ c.knots := fun i hi => by
    rw [kf_eq hi]; exact List.getElem_mem hi
  have gap : ∀ i j, i < c.knots.length → j < c.knots.length → kf c.knots i < kf c.knots j →
      kf c.knots i + eps ≤ kf c.knots j := by
    intro i j hi hj hlt
    by_contra hc
    refine hlt.ne' (hsep _ (hmem j hj) _ (hmem i hi) ?_)
    rw [abs_of_pos (sub_pos.2 hlt)]
    linarith [not_le.1 hc]
  have first : kf c.knots c.degree < kf c.knots (c.degree + 1) := by
    refine lt_of_le_of_ne (hmono _ _ (by omega) (by omega)) fun e => ?_
    have hall : ∀ y ∈ c.knots.take (c.degree + 2), c.lo = y := by
      intro y hy
      obtain ⟨i, hi, rfl⟩ := List.mem_iff_getElem.1 hy
      rw [List.length_take] at hi
      rw [List.getElem_take, getElem_kf]
      refine le_antisymm (hdom _ (hmem i (by omega))).1 ?_
      rw [lo, e]
      exact hmono _ _ (by omega) (by omega)
    have h1 := List.count_eq_length.2 hall
    have h2 := (List.take_sublist (c.degree + 2) c.knots).count_le c.lo
    rw [h1, List.length_take] at h2
    omega
  have last : kf c.knots (c.cps.length - 1) < kf c.knots (c.cps.length - 1 + 1) := by
    have hs : c.cps.length - 1 + 1 = c.cps.length := by omega
    refine lt_of_le_of_ne (hmono _ _ (by omega) (by omega)) fun e => ?_
    rw [hs] at e
    have hall : ∀ y ∈ c.knots.drop (c.cps.length - 1), c.hi = y := by
      intro y hy
      obtain ⟨i, hi, rfl⟩ := List.mem_iff_getElem.1 hy
      rw [List.length_drop] at hi
      rw [List.getElem_drop, getElem_kf]
      refine le_antisymm ?_ (hdom _ (hmem _ (by omega))).2
      rw [Curve.hi, ← e]
      exact hmono _ _ (by omega) (by omega)
    have h1 := List.count_eq_length.2 hall
    have h2 := (List.drop_sublist (c.cps.length - 1) c.knots).count_le c.hi
    rw [h1, List.length_drop] at h2
    omega
  exact ⟨by omega, hkl, he.le, by omega, hmono, first, last, gap _ _ (by omega) (by omega) first,
    gap _ _ (by omega) (by omega) last⟩

end Curvo.Curve

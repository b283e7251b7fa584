/-
  C125: clamping a curve (`try_clamp`).
-/
import Verif.Props.AddKnot

set_option linter.unusedSectionVars false
set_option linter.unusedSimpArgs false

namespace Curvo.Props

open Curvo Curvo.Spec Curvo.Knots Curvo.Curve

variable {K : Type} [Field K] [LinearOrder K] [IsStrictOrderedRing K] {W : Type} [AddCommGroup W] [Module K W]

/-! ### Sorted lists -/

theorem kf_of_count_start {ks : List K} {x : K} {p : ℕ} (hs : ks.Pairwise (· ≤ ·)) (h0 : ∀ y ∈ ks, x ≤ y) (hc : p + 1 ≤ ks.count x) :
    kf ks p = x := by
  have hp : p < ks.length := by have := List.count_le_length (a := x) (l := ks); omega
  refine le_antisymm ?_ (by rw [kf_eq hp]; exact h0 _ (List.getElem_mem _))
  by_contra hlt
  push Not at hlt
  have h2 : (ks.drop p).count x = 0 := by
    refine List.count_eq_zero.2 fun hm => ?_
    obtain ⟨j, hj, e⟩ := List.mem_drop_iff_getElem.1 hm
    have := mono_of_sorted hs (m := ks.length - 1) (by omega) p (p + j) (by omega) (by omega)
    rw [kf_eq (show p + j < ks.length by omega), e] at this
    exact absurd hlt (not_lt.2 this)
  have h1 : (ks.take p).count x ≤ p := List.count_le_length.trans (by simp)
  have := List.count_append (a := x) (l₁ := ks.take p) (l₂ := ks.drop p)
  rw [List.take_append_drop] at this
  omega

theorem kf_of_count_stop {ks : List K} {x : K} {p n : ℕ} (hs : ks.Pairwise (· ≤ ·)) (h0 : ∀ y ∈ ks, y ≤ x) (hn : ks.length = n + p + 1)
    (hc : p + 1 ≤ ks.count x) : kf ks n = x := by
  refine le_antisymm (by rw [kf_eq (by omega)]; exact h0 _ (List.getElem_mem _)) ?_
  by_contra hlt
  push Not at hlt
  have h2 : (ks.take (n + 1)).count x = 0 := by
    refine List.count_eq_zero.2 fun hm => ?_
    obtain ⟨j, hj, e⟩ := List.mem_take_iff_getElem.1 hm
    have := mono_of_sorted hs (m := ks.length - 1) (by omega) j n (by omega) (by omega)
    rw [kf_eq (show j < ks.length by omega), e] at this
    exact absurd hlt (not_lt.2 this)
  have h1 : (ks.drop (n + 1)).count x ≤ p := List.count_le_length.trans (by simp; omega)
  have := List.count_append (a := x) (l₁ := ks.take (n + 1)) (l₂ := ks.drop (n + 1))
  rw [List.take_append_drop] at this
  omega

theorem floor_count {ks : List K} {x : K} {i : ℕ} (hs : ks.Pairwise (· ≤ ·)) (h0 : ∀ y ∈ ks, x ≤ y) (hi : floor ks x = some i) :
    ks.count x = i + 1 := by
  obtain ⟨t1, t2⟩ := take_knot_le hs hi
  obtain ⟨hil, -, -⟩ := rposition_some hi
  have h1 : (ks.take (i + 1)).count x = i + 1 := by
    rw [List.count_eq_length.2]
    · simp; omega
    · intro y hy; exact le_antisymm (h0 y (List.mem_of_mem_take hy)) (t1 y hy)
  have h2 : (ks.drop (i + 1)).count x = 0 := List.count_eq_zero.2 fun hm => absurd (t2 x hm) (lt_irrefl _)
  have := List.count_append (a := x) (l₁ := ks.take (i + 1)) (l₂ := ks.drop (i + 1))
  rw [List.take_append_drop] at this
  omega

/-! ### The first control point -/

/-- What adding a knot does to the first control point. -/
theorem tryAddKnot_first {c c' : Curve K (W × K)} {x : K} {i : ℕ} (hd : c.degree < c.cps.length)
    (hlen : c.knots.length = c.cps.length + c.degree + 1) (hi : floor c.knots x = some i) (e : c.tryAddKnot x = .ok c') :
    (c.degree ≤ i → c'.cps.getD 0 0 = c.cps.getD 0 0) ∧
    (i < c.degree → x = kf c.knots 0 → (c'.cps.getD 0 0).1 = 0) := by
  obtain ⟨hil, -, -⟩ := rposition_some hi
  have hadd : add c.knots x = (c.knots.take (i + 1) ++ x :: c.knots.drop (i + 1), i + 1) := by
    unfold add; rw [hi]
    simp only
    rw [insertIdx_take_drop x c.knots (i + 1) (by omega)]
  have hkf : kf (c.knots.take (i + 1) ++ x :: c.knots.drop (i + 1)) = insKnot (kf c.knots) i x := kf_insert hil
  unfold tryAddKnot at e
  obtain ⟨k0, -, e⟩ := bind_eq_ok.1 e
  split at e
  · cases e
  obtain ⟨kl, -, e⟩ := bind_eq_ok.1 e
  split at e
  · cases e
  rw [hadd] at e
  simp only at e
  obtain ⟨⟨cps0, stop⟩, hdup, e⟩ := bind_eq_ok.1 e
  simp only at e
  obtain ⟨cps', hf, e⟩ := bind_eq_ok.1 e
  obtain rfl := Except.ok.inj e
  have h0 : cps0.getD 0 0 = c.cps.getD 0 0 ∧ cps0.length = c.cps.length + 1 ∧ stop ≤ i + 1 ∧ 0 < stop ∧ stop ≤ c.cps.length + 1 := by
    unfold addKnotDup at hdup
    split at hdup
    · obtain ⟨q, -, hdup⟩ := bind_eq_ok.1 hdup
      obtain ⟨rfl, rfl⟩ := Prod.mk.inj (Except.ok.inj hdup)
      exact ⟨by rw [getD_append_left (by omega)], by simp, by omega, by omega, by omega⟩
    · rw [subR_eq_ok (by omega)] at hdup
      simp only [ok_bind, Nat.add_sub_cancel] at hdup
      rw [getR_eq_getD 0 (by omega : i < c.cps.length)] at hdup
      simp only [ok_bind] at hdup
      obtain ⟨rfl, rfl⟩ := Prod.mk.inj (Except.ok.inj hdup)
      rw [insertIdx_take_drop _ c.cps i (by omega)]
      refine ⟨?_, by simp; omega, by omega, by omega, by omega⟩
      rcases Nat.eq_zero_or_pos i with rfl | hpos
      · simp
      · rw [getD_append_left (by simp; omega), getD_take hpos]
  obtain ⟨z1, z2, z3, z4, z5⟩ := h0
  obtain ⟨cps'', f1, f2, f3, f4⟩ := addKnot_fold (degree := c.degree) (idx := i + 1)
    (kn := c.knots.take (i + 1) ++ x :: c.knots.drop (i + 1)) (start := i + 1 - c.degree) (stop - (i + 1 - c.degree)) cps0 (by omega)
    (by intro t ht; simp; omega) (by simp; omega)
  rw [f1] at hf
  obtain rfl := Except.ok.inj hf
  constructor
  · intro hpi
    show cps''.getD 0 0 = _
    rw [f3 0 (by omega), z1]
  · intro hpi hx
    show (cps''.getD 0 0).1 = 0
    rw [f4 0 (by omega) (by omega), addVal, hkf, insKnot_mid, insKnot_le (Nat.zero_le i), hx, sub_self, zero_mul, if_pos rfl, sub_zero,
      one_smul, sub_self]

/-! ### Adding several copies -/

/-- What adding knots anywhere in the knot range keeps. -/
structure Grown (c c' : Curve K (W × K)) (xs : List K) : Prop where
  degree : c'.degree = c.degree
  pre : c'.Pre
  knots : c'.knots.Perm (xs ++ c.knots)
  cps : c'.cps.length = c.cps.length + xs.length
  lo : c'.lo ≤ c.lo
  hi : c.hi ≤ c'.hi
  eval : ∀ u, c.lo ≤ u → u < c.hi → c'.eval u = c.eval u

theorem Grown.refl {c : Curve K (W × K)} (h : c.Pre) : Grown c c [] :=
  ⟨rfl, h, List.Perm.refl _, rfl, le_rfl, le_rfl, fun _ _ _ => rfl⟩

theorem Grown.trans {c c' c'' : Curve K (W × K)} {xs ys : List K} (h : Grown c c' xs) (h' : Grown c' c'' ys) : Grown c c'' (ys ++ xs) where
  degree := h'.degree.trans h.degree
  pre := h'.pre
  knots := h'.knots.trans (by rw [List.append_assoc]; exact List.Perm.append_left _ h.knots)
  cps := by rw [h'.cps, h.cps, List.length_append]; omega
  lo := h'.lo.trans h.lo
  hi := h.hi.trans h'.hi
  eval u h1 h2 := by
    rw [h'.eval u (h.lo.trans h1) (h2.trans_le h.hi), h.eval u h1 h2]

theorem add_grown {c : Curve K (W × K)} {x w : K} (h : c.Pre) (hw : ∀ q ∈ c.cps, q.2 = w)
    (h1 : kf c.knots 0 ≤ x) (h2 : x ≤ kf c.knots (c.knots.length - 1)) :
    ∃ c', c.tryAddKnot x = .ok c' ∧ Grown c c' [x] ∧ (∀ q ∈ c'.cps, q.2 = w) := by
  obtain ⟨i, c', hi, e, e1, e2, e3, e4, -, -⟩ := tryAddKnot_spec h.deg_lt h.knots_len h.sorted hw h1 h2
  obtain ⟨c'', e', d1, d2, d3, d4, d5, d6, d7⟩ := C20_add_knot h hw h1 h2
  rw [e] at e'
  obtain rfl := Except.ok.inj e'
  obtain ⟨hil, -, -⟩ := rposition_some hi
  obtain ⟨t1, t2⟩ := take_knot_le h.sorted hi
  have hl := h.knots_len
  have hd := h.deg_lt
  have hk : kf c'.knots = insKnot (kf c.knots) i x := by rw [e2]; exact kf_insert hil
  have hti : ∀ j, j ≤ i → kf c.knots j ≤ x := by
    intro j hj
    refine t1 _ ?_
    rw [kf_eq (by omega)]
    exact List.mem_take_iff_getElem.2 ⟨j, by omega, rfl⟩
  have htd : ∀ j, i < j → j < c.knots.length → x < kf c.knots j := by
    intro j hj hj'
    refine t2 _ ?_
    rw [kf_eq hj']
    exact List.mem_drop_iff_getElem.2 ⟨j - (i + 1), by omega, by congr 1; omega⟩
  have hlo : c'.lo ≤ c.lo := by
    show kf c'.knots c'.degree ≤ kf c.knots c.degree
    rw [hk, e1]
    rcases lt_trichotomy c.degree (i + 1) with hc | hc | hc
    · rw [insKnot_le (by omega)]
    · rw [hc, insKnot_mid]; exact (htd _ (by omega) (by omega)).le
    · obtain ⟨j, hj⟩ : ∃ j, c.degree = j + 1 := ⟨c.degree - 1, by omega⟩
      rw [hj, insKnot_gt (by omega)]
      exact h.mono _ _ (by omega) (by omega)
  have hhi : c.hi ≤ c'.hi := by
    show kf c.knots c.cps.length ≤ kf c'.knots c'.cps.length
    rw [hk, e3]
    rcases lt_trichotomy c.cps.length i with hc | hc | hc
    · rw [insKnot_le (by omega)]; exact h.mono _ _ (by omega) (by omega)
    · rw [hc, insKnot_mid]; exact hti _ le_rfl
    · rw [insKnot_gt hc]
  exact ⟨c', e, ⟨d1, ⟨by omega, d5, d2, hlo.trans_lt (h.dom.trans_le hhi)⟩, d3, e3, hlo, hhi, d7⟩, d6⟩

theorem perm_bounds {c c' : Curve K (W × K)} {xs : List K} (h : c.Pre) (hg : Grown c c' xs)
    (hx : ∀ x ∈ xs, kf c.knots 0 ≤ x ∧ x ≤ kf c.knots (c.knots.length - 1)) :
    kf c'.knots 0 = kf c.knots 0 ∧ kf c'.knots (c'.knots.length - 1) = kf c.knots (c.knots.length - 1) := by
  have hl := h.knots_len
  have hl' := hg.pre.knots_len
  have hall : ∀ y ∈ xs ++ c.knots, kf c.knots 0 ≤ y ∧ y ≤ kf c.knots (c.knots.length - 1) := by
    intro y hy
    rcases List.mem_append.1 hy with hy | hy
    · exact hx y hy
    · obtain ⟨j, hj, rfl⟩ := List.mem_iff_getElem.1 hy
      rw [← kf_eq hj]
      exact ⟨h.mono _ _ (by omega) (by omega), h.mono _ _ (by omega) (by omega)⟩
  have hall' : ∀ y ∈ c'.knots, kf c'.knots 0 ≤ y ∧ y ≤ kf c'.knots (c'.knots.length - 1) := by
    intro y hy
    obtain ⟨j, hj, rfl⟩ := List.mem_iff_getElem.1 hy
    rw [← kf_eq hj]
    exact ⟨hg.pre.mono _ _ (by omega) (by omega), hg.pre.mono _ _ (by omega) (by omega)⟩
  have hm : ∀ j, j < c.knots.length → kf c.knots j ∈ c'.knots := by
    intro j hj
    rw [kf_eq hj]
    exact hg.knots.mem_iff.2 (List.mem_append.2 (Or.inr (List.getElem_mem _)))
  have hm' : ∀ j, j < c'.knots.length → kf c'.knots j ∈ xs ++ c.knots := by
    intro j hj
    rw [kf_eq hj]
    exact hg.knots.mem_iff.1 (List.getElem_mem _)
  exact ⟨le_antisymm (hall' _ (hm 0 (by omega))).1 (hall _ (hm' 0 (by omega))).1,
    le_antisymm (hall _ (hm' _ (by omega))).2 (hall' _ (hm _ (by omega))).2⟩

theorem copies_grown {x w : K} : ∀ (k : ℕ) (c : Curve K (W × K)), c.Pre → (∀ q ∈ c.cps, q.2 = w) →
    kf c.knots 0 ≤ x → x ≤ kf c.knots (c.knots.length - 1) →
    ∃ c', addCopies x k c = .ok c' ∧ Grown c c' (List.replicate k x) ∧ (∀ q ∈ c'.cps, q.2 = w) ∧
      (c.lo ≤ x → c'.cps.getD 0 0 = c.cps.getD 0 0) ∧
      (x = kf c.knots 0 → 0 < k → c.knots.count x + k ≤ c.degree + 1 → (c'.cps.getD 0 0).1 = 0)
  | 0, c, h, hw, _, _ => ⟨c, rfl, Grown.refl h, hw, fun _ => rfl, fun _ hk => absurd hk (lt_irrefl _)⟩
  | k + 1, c, h, hw, h1, h2 => by
    obtain ⟨c1, e1, g1, w1⟩ := add_grown h hw h1 h2
    obtain ⟨b1, b2⟩ := perm_bounds h g1 (by intro y hy; rw [List.mem_singleton.1 hy]; exact ⟨h1, h2⟩)
    obtain ⟨c2, e2, g2, w2, p2, q2⟩ := copies_grown (x := x) k c1 g1.pre w1 (by rw [b1]; exact h1) (by rw [b2]; exact h2)
    obtain ⟨i, _, hi, _⟩ := tryAddKnot_spec h.deg_lt h.knots_len h.sorted hw h1 h2
    obtain ⟨f1, f2⟩ := tryAddKnot_first h.deg_lt h.knots_len hi e1
    have hl := h.knots_len
    have hd := h.deg_lt
    refine ⟨c2, by rw [addCopies, e1, ok_bind, e2], ?_, w2, ?_, ?_⟩
    · have := g1.trans g2
      rwa [show List.replicate k x ++ [x] = List.replicate (k + 1) x from List.replicate_succ'.symm] at this
    · intro hx
      rw [p2 (g1.lo.trans hx)]
      refine f1 ?_
      by_contra hc
      obtain ⟨-, t2⟩ := take_knot_le h.sorted hi
      have : kf c.knots c.degree ∈ c.knots.drop (i + 1) := by
        rw [kf_eq (by omega)]
        exact List.mem_drop_iff_getElem.2 ⟨c.degree - (i + 1), by omega, by congr 1; omega⟩
      exact absurd (t2 _ this) (not_lt.2 hx)
    · intro hx _ hc
      have hmin : ∀ y ∈ c.knots, x ≤ y := by
        intro y hy
        obtain ⟨j, hj, rfl⟩ := List.mem_iff_getElem.1 hy
        rw [← kf_eq hj, hx]
        exact h.mono _ _ (by omega) (by omega)
      rcases Nat.eq_zero_or_pos k with rfl | hk
      · obtain rfl := Except.ok.inj e2
        exact f2 (by have := floor_count h.sorted hmin hi; omega) hx
      · refine q2 (by rw [b1]; exact hx) hk ?_
        rw [g1.knots.count_eq, List.count_append, List.count_singleton_self, g1.degree]
        omega

/-! ### Clamping -/

theorem find_mult {m : List (K × ℕ)} {ks : List K} {x : K} (hm : ∀ x c, (x, c) ∈ m ↔ x ∈ ks ∧ c = ks.count x) (hx : x ∈ ks) :
    m.find? (fun y => decide (y.1 = x)) = some (x, ks.count x) := by
  have hex : (m.find? (fun y => decide (y.1 = x))).isSome := by
    rw [List.find?_isSome]
    exact ⟨(x, ks.count x), (hm _ _).2 ⟨hx, rfl⟩, by simp⟩
  obtain ⟨y, hy⟩ := Option.isSome_iff_exists.1 hex
  have h1 := List.find?_some hy
  have h2 := List.mem_of_find?_eq_some hy
  rw [hy]
  obtain ⟨y1, y2⟩ := y
  simp only [decide_eq_true_eq] at h1
  subst h1
  rw [((hm _ _).1 h2).2]

theorem tryClamp_eq {eps : K} {c : Curve K (W × K)} (heps : 0 ≤ eps) (h : c.Pre)
    (hd : ∀ x ∈ c.knots, ∀ y ∈ c.knots, x ≠ y → eps < |x - y|) :
    c.tryClamp eps = (addCopies (kf c.knots 0) (c.degree + 1 - c.knots.count (kf c.knots 0)) c >>= fun c' =>
      addCopies (kf c.knots (c.knots.length - 1)) (c.degree + 1 - c.knots.count (kf c.knots (c.knots.length - 1))) c') := by
  have hl := h.knots_len
  have hlt := h.deg_lt
  have hne : c.knots ≠ [] := List.ne_nil_of_length_pos (by omega)
  obtain ⟨m, e, hm⟩ := C06_multiplicity_counts heps hne h.sorted hd
  have hmem : ∀ j, j < c.knots.length → kf c.knots j ∈ c.knots := fun j hj => by rw [kf_eq hj]; exact List.getElem_mem _
  have hlast : Knots.last c.knots = .ok (kf c.knots (c.knots.length - 1)) := by
    unfold Knots.last
    rw [subR_eq_ok (by omega)]; simp only [ok_bind]; rw [getR_eq_getD 0 (by omega)]; rfl
  rw [tryClamp, Knots.first, getR_eq_getD 0 (by omega : 0 < c.knots.length), ok_bind, hlast, ok_bind, e, ok_bind]
  have f0 := find_mult hm (hmem 0 (by omega))
  have f1 := find_mult hm (hmem (c.knots.length - 1) (by omega))
  change m.find? (fun y => decide (y.1 = c.knots.getD 0 0)) = _ at f0
  rw [f0, f1]
  rfl

/-- **Clamping**: for a curve whose control points have equal weights, and whose different knots are further apart than the tolerance,
    clamping succeeds.  The first and the last knot are repeated `degree + 1` times (or as often as before, when that is more), the other
    knots stay, the result counts as clamped, its domain is the whole range of the knots, and it runs through the same points on the old
    domain. -/
theorem C125_clamp {eps w : K} {c : Curve K (W × K)} (heps : 0 ≤ eps) (h : c.Pre) (hw : ∀ q ∈ c.cps, q.2 = w)
    (hd : ∀ x ∈ c.knots, ∀ y ∈ c.knots, x ≠ y → eps < |x - y|) {a b : K} (ha : c.knots.head? = some a) (hb : c.knots.getLast? = some b) :
    ∃ c', c.tryClamp eps = .ok c' ∧ c'.degree = c.degree ∧
      c'.knots = List.replicate (c.degree + 1 - c.knots.count a) a ++ c.knots ++ List.replicate (c.degree + 1 - c.knots.count b) b ∧
      c'.knots.length = c'.cps.length + c'.degree + 1 ∧ c'.isClamped eps = .ok true ∧ c'.knotsDomain = .ok (a, b) ∧
      (∀ q ∈ c'.cps, q.2 = w) ∧ (∀ u, c.lo ≤ u → u < c.hi → c'.eval u = c.eval u) ∧
      (c.knots.count a ≤ c.degree → (c'.cps.getD 0 0).1 = 0) := by
  have hl := h.knots_len
  have hlt := h.deg_lt
  have hne : c.knots ≠ [] := List.ne_nil_of_length_pos (by omega)
  have ea : a = kf c.knots 0 := by
    rw [List.head?_eq_getElem?, List.getElem?_eq_getElem (by omega)] at ha
    rw [kf_eq (by omega)]; exact (Option.some.inj ha).symm
  have eb : b = kf c.knots (c.knots.length - 1) := by
    rw [List.getLast?_eq_getElem?, List.getElem?_eq_getElem (by omega)] at hb
    rw [kf_eq (by omega)]; exact (Option.some.inj hb).symm
  have hab : a < b := by
    rw [ea, eb]
    exact (h.mono 0 c.degree (by omega) (by omega)).trans_lt (h.dom.trans_le (h.mono c.cps.length _ (by omega) (by omega)))
  have hmin : ∀ y ∈ c.knots, a ≤ y ∧ y ≤ b := by
    intro y hy
    obtain ⟨j, hj, rfl⟩ := List.mem_iff_getElem.1 hy
    rw [← kf_eq hj, ea, eb]
    exact ⟨h.mono _ _ (by omega) (by omega), h.mono _ _ (by omega) (by omega)⟩
  have hma : a ∈ c.knots := List.mem_of_mem_head? ha
  have hmb : b ∈ c.knots := List.mem_of_mem_getLast? hb
  obtain ⟨c1, e1, g1, w1, -, q1⟩ := copies_grown (x := a) (c.degree + 1 - c.knots.count a) c h hw (by rw [ea]) (by rw [← eb]; exact hab.le)
  obtain ⟨b1, b2⟩ := perm_bounds h g1 (by intro y hy; rw [List.eq_of_mem_replicate hy, ← ea, ← eb]; exact ⟨le_rfl, hab.le⟩)
  obtain ⟨c2, e2, g2, w2, p2, -⟩ := copies_grown (x := b) (c.degree + 1 - c.knots.count b) c1 g1.pre w1
    (by rw [b1, ← ea]; exact hab.le) (by rw [b2, ← eb])
  have g := g1.trans g2
  have hsorted : (List.replicate (c.degree + 1 - c.knots.count a) a ++ c.knots ++ List.replicate (c.degree + 1 - c.knots.count b) b).Pairwise (· ≤ ·) := by
    rw [List.pairwise_append, List.pairwise_append]
    refine ⟨⟨List.pairwise_replicate.2 (Or.inr le_rfl), h.sorted, ?_⟩, List.pairwise_replicate.2 (Or.inr le_rfl), ?_⟩
    · intro x hx y hy; rw [List.eq_of_mem_replicate hx]; exact (hmin y hy).1
    · intro x hx y hy
      rw [List.eq_of_mem_replicate hy]
      rcases List.mem_append.1 hx with hx | hx
      · rw [List.eq_of_mem_replicate hx]; exact hab.le
      · exact (hmin x hx).2
  have hkn : c2.knots = List.replicate (c.degree + 1 - c.knots.count a) a ++ c.knots ++ List.replicate (c.degree + 1 - c.knots.count b) b := by
    refine List.Perm.eq_of_pairwise (fun _ _ _ _ => le_antisymm) g.pre.sorted hsorted (g.knots.trans ?_)
    rw [List.append_assoc]
    exact List.perm_append_comm
  have hmem : ∀ y ∈ c2.knots, y ∈ c.knots := by
    intro y hy
    rcases List.mem_append.1 (g.knots.mem_iff.1 hy) with hy | hy
    · rcases List.mem_append.1 hy with hy | hy
      · rw [List.eq_of_mem_replicate hy]; exact hmb
      · rw [List.eq_of_mem_replicate hy]; exact hma
    · exact hy
  have ca : c2.degree + 1 ≤ c2.knots.count a := by
    rw [hkn, List.count_append, List.count_append, List.count_replicate_self, g.degree]; omega
  have cb : c2.degree + 1 ≤ c2.knots.count b := by
    rw [hkn, List.count_append, List.count_append, List.count_replicate_self, g.degree]; omega
  have hl2 := g.pre.knots_len
  have hlo : kf c2.knots c2.degree = a := kf_of_count_start g.pre.sorted (fun y hy => (hmin y (hmem y hy)).1) ca
  have hhi : kf c2.knots c2.cps.length = b := kf_of_count_stop g.pre.sorted (fun y hy => (hmin y (hmem y hy)).2) hl2 cb
  have hne2 : c2.knots ≠ [] := List.ne_nil_of_length_pos (by omega)
  refine ⟨c2, ?_, g.degree, hkn, hl2, ?_, ?_, w2, g.eval, ?_⟩
  · rw [tryClamp_eq heps h hd, ← ea, ← eb, e1, ok_bind, e2]
  · obtain ⟨r, er, hr⟩ := C06_is_clamped heps hne2 g.pre.sorted (fun x hx y hy => hd x (hmem x hx) y (hmem y hy)) c2.degree
    rw [Curve.isClamped, er]
    congr 1
    refine hr.2 ⟨?_, ?_⟩
    · have : c2.knots.head hne2 = a := by
        have := b1
        rw [← kf_of_count_start (p := 0) g.pre.sorted (fun y hy => (hmin y (hmem y hy)).1) (by omega), kf_eq (by omega)]
        exact List.head_eq_getElem _
      rw [this]; exact ca
    · have : c2.knots.getLast hne2 = b := by
        rw [← kf_of_count_stop (p := 0) (n := c2.knots.length - 1) g.pre.sorted (fun y hy => (hmin y (hmem y hy)).2) (by omega) (by omega),
          kf_eq (by omega)]
        exact List.getLast_eq_getElem _
      rw [this]; exact cb
  · rw [knotsDomain, Knots.domain, getR_eq_getD 0 (by omega : c2.degree < c2.knots.length), ok_bind, subR_eq_ok (by omega), ok_bind,
      subR_eq_ok (by omega), ok_bind, show c2.knots.length - 1 - c2.degree = c2.cps.length by omega,
      getR_eq_getD 0 (by omega : c2.cps.length < c2.knots.length), ok_bind]
    show Except.ok (kf c2.knots c2.degree, kf c2.knots c2.cps.length) = _
    rw [hlo, hhi]
  · intro hc
    rw [p2 (by
      have h1 : c1.lo ≤ c.lo := g1.lo
      have h2 : c.lo < c.hi := h.dom
      have h3 : c.hi ≤ b := by rw [eb]; exact h.mono _ _ (by omega) (by omega)
      exact h1.trans (h2.le.trans h3))]
    exact q1 ea (by omega) (by omega)

/-- A curve that is clamped already stays as it is, whatever its weights. -/
theorem C125_clamped_already {eps : K} {c : Curve K (W × K)} (heps : 0 ≤ eps) (h : c.Pre)
    (hd : ∀ x ∈ c.knots, ∀ y ∈ c.knots, x ≠ y → eps < |x - y|) (hc : c.isClamped eps = .ok true) : c.tryClamp eps = .ok c := by
  have hl := h.knots_len
  have hlt := h.deg_lt
  have hne : c.knots ≠ [] := List.ne_nil_of_length_pos (by omega)
  obtain ⟨r, er, hr⟩ := C06_is_clamped heps hne h.sorted hd c.degree
  rw [Curve.isClamped, er] at hc
  obtain rfl := Except.ok.inj hc
  obtain ⟨k1, k2⟩ := hr.1 rfl
  rw [List.head_eq_getElem, ← kf_eq] at k1
  rw [List.getLast_eq_getElem, ← kf_eq (by omega)] at k2
  rw [tryClamp_eq heps h hd, Nat.sub_eq_zero_of_le k1, Nat.sub_eq_zero_of_le k2]
  rfl

/-- A curve with the knots of a clamped one is well formed. -/
theorem clamped_good {eps : K} {c c' : Curve K (W × K)} (heps : 0 ≤ eps) (h : c.Pre)
    (hd : ∀ x ∈ c.knots, ∀ y ∈ c.knots, x ≠ y → eps < |x - y|) {a b : K} (ha : c.knots.head? = some a) (hb : c.knots.getLast? = some b)
    (ca : c.knots.count a ≤ c.degree + 1) (cb : c.knots.count b ≤ c.degree + 1) (e1 : c'.degree = c.degree)
    (e2 : c'.knots = List.replicate (c.degree + 1 - c.knots.count a) a ++ c.knots ++ List.replicate (c.degree + 1 - c.knots.count b) b)
    (e3 : c'.knots.length = c'.cps.length + c'.degree + 1) : c'.Good eps ∧ kf c'.knots 0 = a ∧ c'.lo = a ∧ c'.hi = b := by
  have hl := h.knots_len
  have hlt := h.deg_lt
  have ea : a = kf c.knots 0 := by
    rw [List.head?_eq_getElem?, List.getElem?_eq_getElem (by omega)] at ha
    rw [kf_eq (by omega)]; exact (Option.some.inj ha).symm
  have eb : b = kf c.knots (c.knots.length - 1) := by
    rw [List.getLast?_eq_getElem?, List.getElem?_eq_getElem (by omega)] at hb
    rw [kf_eq (by omega)]; exact (Option.some.inj hb).symm
  have hmin : ∀ y ∈ c.knots, a ≤ y ∧ y ≤ b := by
    intro y hy
    obtain ⟨j, hj, rfl⟩ := List.mem_iff_getElem.1 hy
    rw [← kf_eq hj, ea, eb]
    exact ⟨h.mono _ _ (by omega) (by omega), h.mono _ _ (by omega) (by omega)⟩
  have hab : a < b := by
    rw [ea, eb]
    exact (h.mono 0 c.degree (by omega) (by omega)).trans_lt (h.dom.trans_le (h.mono c.cps.length _ (by omega) (by omega)))
  have hmem : ∀ y ∈ c'.knots, y ∈ c.knots := by
    intro y hy
    rw [e2] at hy
    rcases List.mem_append.1 hy with hy | hy
    · rcases List.mem_append.1 hy with hy | hy
      · rw [List.eq_of_mem_replicate hy]; exact List.mem_of_mem_head? ha
      · exact hy
    · rw [List.eq_of_mem_replicate hy]; exact List.mem_of_mem_getLast? hb
  have hcl : c'.cps.length + c.degree + 1 = (c.degree + 1 - c.knots.count a) + c.knots.length + (c.degree + 1 - c.knots.count b) := by
    have := congrArg List.length e2
    rw [List.length_append, List.length_append, List.length_replicate, List.length_replicate] at this
    omega
  have hsorted : c'.knots.Pairwise (· ≤ ·) := by
    rw [e2, List.pairwise_append, List.pairwise_append]
    refine ⟨⟨List.pairwise_replicate.2 (Or.inr le_rfl), h.sorted, ?_⟩, List.pairwise_replicate.2 (Or.inr le_rfl), ?_⟩
    · intro x hx y hy; rw [List.eq_of_mem_replicate hx]; exact (hmin y hy).1
    · intro x hx y hy
      rw [List.eq_of_mem_replicate hy]
      rcases List.mem_append.1 hx with hx | hx
      · rw [List.eq_of_mem_replicate hx]; exact hab.le
      · exact (hmin x hx).2
  have hca : c'.knots.count a = c.degree + 1 := by
    rw [e2, List.count_append, List.count_append, List.count_replicate_self, List.count_replicate, if_neg (by simpa using hab.ne')]; omega
  have hcb : c'.knots.count b = c.degree + 1 := by
    rw [e2, List.count_append, List.count_append, List.count_replicate_self, List.count_replicate, if_neg (by simpa using hab.ne)]; omega
  have klo : kf c'.knots c.degree = a := kf_of_count_start hsorted (fun y hy => (hmin y (hmem y hy)).1) hca.ge
  have k0 : kf c'.knots 0 = a := kf_of_count_start hsorted (fun y hy => (hmin y (hmem y hy)).1) (by omega)
  have khi : kf c'.knots c'.cps.length = b :=
    kf_of_count_stop (p := c.degree) hsorted (fun y hy => (hmin y (hmem y hy)).2) (by rw [e3, e1]) hcb.ge
  have hmono := mono_of_sorted hsorted (m := c'.knots.length - 1) (by omega)
  have hin : ∀ j, j < c'.knots.length → kf c'.knots j ∈ c'.knots := fun j hj => by rw [kf_eq hj]; exact List.getElem_mem _
  have gap : ∀ x ∈ c'.knots, ∀ y ∈ c'.knots, x ≤ y → x ≠ y → x < y ∧ x + eps ≤ y := by
    intro x hx y hy hxy hne
    have hlt := lt_of_le_of_ne hxy hne
    have := hd x (hmem x hx) y (hmem y hy) hne
    rw [abs_sub_comm, abs_of_pos (sub_pos.2 hlt)] at this
    exact ⟨hlt, by linarith⟩
  have hpos : c.degree + 1 < c'.knots.length := by omega
  have h1 := gap _ (hin c.degree (by omega)) _ (hin (c.degree + 1) hpos) (hmono _ _ (by omega) (by omega)) (by
    intro heq
    have : (c'.knots.take (c.degree + 2)).count a = c.degree + 2 := by
      rw [List.count_eq_length.2]
      · simp; omega
      · intro y hy
        obtain ⟨j, hj, rfl⟩ := List.mem_take_iff_getElem.1 hy
        refine le_antisymm (hmin _ (hmem _ (List.getElem_mem _))).1 ?_
        rw [← klo, heq, ← kf_eq]
        exact hmono _ _ (by omega) (by omega)
    have h2 := (List.take_sublist (c.degree + 2) c'.knots).count_le a
    omega)
  have h2 := gap _ (hin (c'.cps.length - 1) (by omega)) _ (hin c'.cps.length (by omega)) (hmono _ _ (by omega) (by omega)) (by
    intro heq
    have : (c'.knots.drop (c'.cps.length - 1)).count b = c.degree + 2 := by
      rw [List.count_eq_length.2]
      · simp; omega
      · intro y hy
        obtain ⟨j, hj, rfl⟩ := List.mem_drop_iff_getElem.1 hy
        refine le_antisymm ?_ (hmin _ (hmem _ (List.getElem_mem _))).2
        rw [← khi, ← heq, ← kf_eq]
        exact hmono _ _ (by omega) (by omega)
    have h2 := (List.drop_sublist (c'.cps.length - 1) c'.knots).count_le b
    omega)
  have hgood : c'.Good eps := by
    refine ⟨by omega, e3, heps, ?_, ?_, ?_, ?_, ?_, ?_⟩
    · omega
    · rw [show c'.cps.length - 1 + c'.degree + 1 = c'.knots.length - 1 by omega]; exact hmono
    · rw [e1]; exact h1.1
    · rw [show c'.cps.length - 1 + 1 = c'.cps.length by omega]; exact h2.1
    · rw [e1]; exact h1.2
    · rw [show c'.cps.length - 1 + 1 = c'.cps.length by omega]; exact h2.2
  exact ⟨hgood, k0, by show kf c'.knots c'.degree = a; rw [e1, klo], khi⟩

/-- The clamped curve is well formed. -/
theorem clamp_good {eps w : K} {c : Curve K (W × K)} (heps : 0 ≤ eps) (h : c.Pre) (hw : ∀ q ∈ c.cps, q.2 = w)
    (hd : ∀ x ∈ c.knots, ∀ y ∈ c.knots, x ≠ y → eps < |x - y|) {a b : K} (ha : c.knots.head? = some a) (hb : c.knots.getLast? = some b)
    (ca : c.knots.count a ≤ c.degree + 1) (cb : c.knots.count b ≤ c.degree + 1) :
    ∃ c', c.tryClamp eps = .ok c' ∧ c'.Good eps ∧ kf c'.knots 0 = a ∧ c'.lo = a ∧ c'.hi = b := by
  obtain ⟨c', e, e1, e2, e3, -⟩ := C125_clamp heps h hw hd ha hb
  exact ⟨c', e, clamped_good heps h hd ha hb ca cb e1 e2 e3⟩

/-- A curve with the knots of a clamped one counts as clamped. -/
theorem clamped_shape {eps : K} {c c2 : Curve K (W × K)} (heps : 0 ≤ eps) (h : c.Pre)
    (hd : ∀ x ∈ c.knots, ∀ y ∈ c.knots, x ≠ y → eps < |x - y|) {a b : K} (ha : c.knots.head? = some a) (hb : c.knots.getLast? = some b)
    (e1 : c2.degree = c.degree)
    (hkn : c2.knots = List.replicate (c.degree + 1 - c.knots.count a) a ++ c.knots ++ List.replicate (c.degree + 1 - c.knots.count b) b)
    (hl2 : c2.knots.length = c2.cps.length + c2.degree + 1) : c2.isClamped eps = .ok true ∧ c2.knotsDomain = .ok (a, b) := by
  have hl := h.knots_len
  have hlt := h.deg_lt
  have ea : a = kf c.knots 0 := by
    rw [List.head?_eq_getElem?, List.getElem?_eq_getElem (by omega)] at ha
    rw [kf_eq (by omega)]; exact (Option.some.inj ha).symm
  have eb : b = kf c.knots (c.knots.length - 1) := by
    rw [List.getLast?_eq_getElem?, List.getElem?_eq_getElem (by omega)] at hb
    rw [kf_eq (by omega)]; exact (Option.some.inj hb).symm
  have hmin : ∀ y ∈ c.knots, a ≤ y ∧ y ≤ b := by
    intro y hy
    obtain ⟨j, hj, rfl⟩ := List.mem_iff_getElem.1 hy
    rw [← kf_eq hj, ea, eb]
    exact ⟨h.mono _ _ (by omega) (by omega), h.mono _ _ (by omega) (by omega)⟩
  have hma : a ∈ c.knots := List.mem_of_mem_head? ha
  have hmb : b ∈ c.knots := List.mem_of_mem_getLast? hb
  have hsorted : c2.knots.Pairwise (· ≤ ·) := by
    rw [hkn, List.pairwise_append, List.pairwise_append]
    refine ⟨⟨List.pairwise_replicate.2 (Or.inr le_rfl), h.sorted, ?_⟩, List.pairwise_replicate.2 (Or.inr le_rfl), ?_⟩
    · intro x hx y hy; rw [List.eq_of_mem_replicate hx]; exact (hmin y hy).1
    · intro x hx y hy
      rw [List.eq_of_mem_replicate hy]
      rcases List.mem_append.1 hx with hx | hx
      · rw [List.eq_of_mem_replicate hx]; exact (hmin a hma).2
      · exact (hmin x hx).2
  have hmem : ∀ y ∈ c2.knots, y ∈ c.knots := by
    intro y hy
    rw [hkn] at hy
    rcases List.mem_append.1 hy with hy | hy
    · rcases List.mem_append.1 hy with hy | hy
      · rw [List.eq_of_mem_replicate hy]; exact hma
      · exact hy
    · rw [List.eq_of_mem_replicate hy]; exact hmb
  have ca : c2.degree + 1 ≤ c2.knots.count a := by
    rw [hkn, List.count_append, List.count_append, List.count_replicate_self, e1]; omega
  have cb : c2.degree + 1 ≤ c2.knots.count b := by
    rw [hkn, List.count_append, List.count_append, List.count_replicate_self, e1]; omega
  have hlo : kf c2.knots c2.degree = a := kf_of_count_start hsorted (fun y hy => (hmin y (hmem y hy)).1) ca
  have hhi : kf c2.knots c2.cps.length = b := kf_of_count_stop hsorted (fun y hy => (hmin y (hmem y hy)).2) hl2 cb
  have hne2 : c2.knots ≠ [] := List.ne_nil_of_length_pos (by omega)
  constructor
  · obtain ⟨r, er, hr⟩ := C06_is_clamped heps hne2 hsorted (fun x hx y hy => hd x (hmem x hx) y (hmem y hy)) c2.degree
    rw [Curve.isClamped, er]
    congr 1
    refine hr.2 ⟨?_, ?_⟩
    · have : c2.knots.head hne2 = a := by
        rw [← kf_of_count_start (p := 0) hsorted (fun y hy => (hmin y (hmem y hy)).1) (by omega), kf_eq (by omega)]
        exact List.head_eq_getElem _
      rw [this]; exact ca
    · have : c2.knots.getLast hne2 = b := by
        rw [← kf_of_count_stop (p := 0) (n := c2.knots.length - 1) hsorted (fun y hy => (hmin y (hmem y hy)).2) (by omega) (by omega),
          kf_eq (by omega)]
        exact List.getLast_eq_getElem _
      rw [this]; exact cb
  · rw [knotsDomain, Knots.domain, getR_eq_getD 0 (by omega : c2.degree < c2.knots.length), ok_bind, subR_eq_ok (by omega), ok_bind,
      subR_eq_ok (by omega), ok_bind, show c2.knots.length - 1 - c2.degree = c2.cps.length by omega,
      getR_eq_getD 0 (by omega : c2.cps.length < c2.knots.length), ok_bind]
    show Except.ok (kf c2.knots c2.degree, kf c2.knots c2.cps.length) = _
    rw [hlo, hhi]

/-- **Clamping moves the start of the curve to the origin**: a curve (with equal weights) that is not clamped at its start gets a longer
    domain, and wherever its control points are, the clamped curve starts at the origin. -/
theorem C125_origin {eps w : K} {c : Curve K (W × K)} (heps : 0 ≤ eps) (h : c.Pre) (hw : ∀ q ∈ c.cps, q.2 = w) (hw0 : w ≠ 0)
    (hd : ∀ x ∈ c.knots, ∀ y ∈ c.knots, x ≠ y → eps < |x - y|) {a b : K} (ha : c.knots.head? = some a) (hb : c.knots.getLast? = some b)
    (ca : c.knots.count a ≤ c.degree) (cb : c.knots.count b ≤ c.degree + 1) :
    ∃ c', c.tryClamp eps = .ok c' ∧ c'.Good eps ∧ a < c.lo ∧ c'.knotsDomain = .ok (a, b) ∧ c'.pointAt eps a = .ok 0 := by
  obtain ⟨c', e, e1, e2, e3, e4, e5, e6, e7, e8⟩ := C125_clamp heps h hw hd ha hb
  have hl := h.knots_len
  have hlt := h.deg_lt
  have ea : a = kf c.knots 0 := by
    rw [List.head?_eq_getElem?, List.getElem?_eq_getElem (by omega)] at ha
    rw [kf_eq (by omega)]; exact (Option.some.inj ha).symm
  have eb : b = kf c.knots (c.knots.length - 1) := by
    rw [List.getLast?_eq_getElem?, List.getElem?_eq_getElem (by omega)] at hb
    rw [kf_eq (by omega)]; exact (Option.some.inj hb).symm
  have hmin : ∀ y ∈ c.knots, a ≤ y ∧ y ≤ b := by
    intro y hy
    obtain ⟨j, hj, rfl⟩ := List.mem_iff_getElem.1 hy
    rw [← kf_eq hj, ea, eb]
    exact ⟨h.mono _ _ (by omega) (by omega), h.mono _ _ (by omega) (by omega)⟩
  have hlo : a < c.lo := by
    rcases lt_or_eq_of_le (hmin c.lo (by show kf _ _ ∈ _; rw [kf_eq (by omega)]; exact List.getElem_mem _)).1 with hc | hc
    · exact hc
    · exfalso
      have : (c.knots.take (c.degree + 1)).count a = c.degree + 1 := by
        rw [List.count_eq_length.2]
        · simp; omega
        · intro y hy
          obtain ⟨j, hj, rfl⟩ := List.mem_take_iff_getElem.1 hy
          refine le_antisymm (hmin _ (List.getElem_mem _)).1 ?_
          rw [hc, ← kf_eq]
          exact h.mono _ _ (by omega) (by omega)
      have h2 := (List.take_sublist (c.degree + 1) c.knots).count_le a
      omega
  obtain ⟨c'', f, hgood, k0, klo, -⟩ := clamp_good heps h hw hd ha hb (by omega) cb
  rw [e] at f
  obtain rfl := Except.ok.inj f
  refine ⟨c', e, hgood, hlo, e5, ?_⟩
  have hst := C11_clamped_start hgood (by rw [k0]; exact klo.symm)
  rw [klo] at hst
  have hpos := hgood.cps_pos
  have hq : (c'.cps.getD 0 0).2 = w := e6 _ (by rw [List.getD_eq_getElem?_getD, List.getElem?_eq_getElem (by omega), Option.getD_some]; exact List.getElem_mem _)
  rw [Curve.pointAt, hst, ok_bind, dehomogenize, hq, if_pos hw0, e8 ca, smul_zero]
  rfl

/-! ### Rational curves -/

theorem rposition_all_false {α : Type} {q : α → Bool} : ∀ {l : List α}, (∀ x ∈ l, q x = false) → rposition q l = none
  | [], _ => rfl
  | a :: l, h => by
    rw [rposition, rposition_all_false (fun x hx => h x (List.mem_cons_of_mem _ hx))]
    simp [h a (List.mem_cons_self ..)]

theorem floor_replicate {a : K} {ks : List K} (h : ∀ x ∈ ks, a < x) : ∀ j, floor (List.replicate (j + 1) a ++ ks) a = some j
  | 0 => by
    rw [floor, List.replicate_one, List.singleton_append, rposition,
      rposition_all_false (fun x hx => by simpa using h x hx)]
    simp
  | j + 1 => by
    have := floor_replicate h j
    rw [floor] at this ⊢
    rw [List.replicate_succ, List.cons_append, rposition, this]

theorem floor_concat {b : K} : ∀ ks : List K, floor (ks ++ [b]) b = some ks.length
  | [] => by simp [floor, rposition]
  | a :: ks => by
    have := floor_concat (b := b) ks
    rw [floor] at this ⊢
    rw [List.cons_append, rposition, this]
    rfl

/-- Adding the first knot, repeated up to degree times, when all control points before the first one kept are the origin with
    the same weight. -/
theorem add_first {p j : ℕ} {a w : K} {ks : List K} {q : W × K} {rest : List (W × K)} (ha : ∀ x ∈ ks, a < x) (hj : j + 1 ≤ p)
    (hq : q.2 = w) (hlen : j + 1 + ks.length = j + (rest.length + 1) + p + 1) (hp : p < j + (rest.length + 1)) :
    Curve.tryAddKnot ⟨p, List.replicate j (0, w) ++ q :: rest, List.replicate (j + 1) a ++ ks⟩ a =
      .ok ⟨p, List.replicate (j + 1) (0, w) ++ q :: rest, List.replicate (j + 2) a ++ ks⟩ := by
  have hcl : (List.replicate j ((0 : W), w) ++ q :: rest).length = j + (rest.length + 1) := by simp
  have hkl : (List.replicate (j + 1) a ++ ks).length = j + 1 + ks.length := by simp
  have hadd : Knots.add (List.replicate (j + 1) a ++ ks) a = (List.replicate (j + 2) a ++ ks, j + 1) := by
    unfold Knots.add
    rw [floor_replicate ha j]
    simp only [Prod.mk.injEq, and_true]
    rw [insertIdx_take_drop a _ (j + 1) (by omega), List.take_left' (by simp), List.drop_left' (by simp),
      show List.replicate (j + 2) a = List.replicate (j + 1) a ++ [a] from List.replicate_succ', List.append_assoc]
    rfl
  have hlast : ∃ kl, Knots.last (List.replicate (j + 1) a ++ ks) = .ok kl ∧ a ≤ kl := by
    unfold Knots.last
    rw [subR_eq_ok (by omega)]; simp only [ok_bind]; rw [getR_eq_getD 0 (by omega)]
    refine ⟨_, rfl, ?_⟩
    rw [List.getD_eq_getElem?_getD, List.getElem?_eq_getElem (by omega), Option.getD_some]
    rcases List.mem_append.1 (List.getElem_mem (l := List.replicate (j + 1) a ++ ks)
      (n := (List.replicate (j + 1) a ++ ks).length - 1) (by omega)) with h | h
    · exact (List.eq_of_mem_replicate h).ge
    · exact (ha _ h).le
  obtain ⟨kl, el, hkl'⟩ := hlast
  have h0 : getR (List.replicate (j + 1) a ++ ks) 0 = .ok a := by
    rw [List.replicate_succ, List.cons_append]; rfl
  have hdup : addKnotDup (List.replicate j ((0 : W), w) ++ q :: rest) (j + 1) =
      .ok (List.replicate j ((0 : W), w) ++ q :: q :: rest, j + 1) := by
    unfold addKnotDup
    rw [if_neg (by omega), subR_eq_ok (by omega)]
    simp only [ok_bind, Nat.add_sub_cancel]
    have hg : (List.replicate j ((0 : W), w) ++ q :: rest).getD j 0 = q := by
      rw [List.getD_eq_getElem?_getD, List.getElem?_append_right (by simp)]
      simp
    rw [getR_eq_getD 0 (by omega), hg, ok_bind, insertIdx_take_drop _ _ j (by omega), List.take_left' (by simp),
      List.drop_left' (by simp)]
    rfl
  unfold Curve.tryAddKnot
  simp only
  rw [h0, ok_bind, if_neg (not_not.2 le_rfl), el, ok_bind, if_neg (not_not.2 hkl'), hadd]
  simp only
  rw [hdup, ok_bind]
  simp only
  rw [show j + 1 - p = 0 by omega]
  have hcl0 : (List.replicate j ((0 : W), w) ++ q :: q :: rest).length = j + (rest.length + 2) := by simp
  obtain ⟨cps', f1, f2, f3, f4⟩ := addKnot_fold (degree := p) (idx := j + 1) (kn := List.replicate (j + 2) a ++ ks) (start := 0)
    (j + 1 - 0) (List.replicate j ((0 : W), w) ++ q :: q :: rest) (by omega) (by intro t ht; simp; omega) (by simp; omega)
  rw [f1, ok_bind]
  have hk : ∀ t, t ≤ j + 1 → kf (List.replicate (j + 2) a ++ ks) t = a := by
    intro t ht
    rw [kf_eq (by simp; omega), List.getElem_append_left (by simp; omega), List.getElem_replicate]
  have hz : ∀ t, t < j → (List.replicate j ((0 : W), w) ++ q :: q :: rest).getD t 0 = (0, w) := by
    intro t ht
    rw [getD_append_left (by simpa using ht), List.getD_eq_getElem?_getD, List.getElem?_replicate, if_pos ht, Option.getD_some]
  have hqj : (List.replicate j ((0 : W), w) ++ q :: q :: rest).getD j 0 = q := by
    rw [List.getD_eq_getElem?_getD, List.getElem?_append_right (by simp)]
    simp
  have : cps' = List.replicate (j + 1) ((0 : W), w) ++ q :: rest := by
    refine List.ext_getElem (by rw [f2, hcl0]; simp; omega) fun t h1 h2 => ?_
    have g1 : cps'[t] = cps'.getD t 0 := by rw [List.getD_eq_getElem?_getD, List.getElem?_eq_getElem h1, Option.getD_some]
    rw [g1]
    rcases Nat.lt_or_ge t (j + 1) with ht | ht
    · rw [f4 t (by omega) (by omega), addVal, hk _ le_rfl, hk t (by omega), sub_self, zero_mul, sub_zero, one_smul,
        List.getElem_append_left (by simpa using ht), List.getElem_replicate]
      have hw2 : ((List.replicate j ((0 : W), w) ++ q :: q :: rest).getD t 0).2 = w := by
        rcases Nat.lt_or_ge t j with h | h
        · rw [hz t h]
        · rw [show t = j by omega, hqj, hq]
      rw [hw2]
      refine Prod.ext ?_ rfl
      split
      · exact sub_self _
      · rw [sub_sub_cancel, hz _ (by omega)]
    · rw [f3 t (Or.inr (by omega)), List.getElem_append_right (by simpa using ht), List.getD_eq_getElem?_getD,
        List.getElem?_append_right (by simp; omega)]
      simp only [List.length_replicate]
      obtain ⟨s, rfl⟩ : ∃ s, t = j + 1 + s := ⟨t - (j + 1), by omega⟩
      have e1 : j + 1 + s - j = s + 1 := by omega
      have e2 : j + 1 + s - (j + 1) = s := by omega
      simp only [e1, e2, List.getElem?_cons_succ]
      rw [List.getElem?_eq_getElem (by simp at h2 ⊢; omega), Option.getD_some]
  rw [this]
  rfl

theorem copies_first {p : ℕ} {a w : K} {ks : List K} {q : W × K} {rest : List (W × K)} (ha : ∀ x ∈ ks, a < x) (hq : q.2 = w)
    (hlen : ks.length = rest.length + 1 + p) (hp : p < rest.length + 1) : ∀ (k j : ℕ), j + k ≤ p →
    addCopies a k ⟨p, List.replicate j (0, w) ++ q :: rest, List.replicate (j + 1) a ++ ks⟩ =
      .ok ⟨p, List.replicate (j + k) (0, w) ++ q :: rest, List.replicate (j + k + 1) a ++ ks⟩
  | 0, j, _ => rfl
  | k + 1, j, h => by
    rw [addCopies, add_first ha (by omega) hq (by omega) (by omega), ok_bind, copies_first ha hq hlen hp k (j + 1) (by omega),
      show j + 1 + k = j + (k + 1) by omega]

/-- Adding the last knot repeats the last control point. -/
theorem add_last {p : ℕ} {b : K} {ks : List K} {q : W × K} {cps : List (W × K)} (hb : ∀ x ∈ ks, x ≤ b)
    (hlen : ks.length = cps.length + 1 + p) :
    Curve.tryAddKnot ⟨p, cps ++ [q], ks ++ [b]⟩ b = .ok ⟨p, cps ++ [q] ++ [q], ks ++ [b] ++ [b]⟩ := by
  have h0 : ∃ k0, getR (ks ++ [b]) 0 = .ok k0 ∧ k0 ≤ b := by
    rw [getR_eq_getD 0 (by simp)]
    refine ⟨_, rfl, ?_⟩
    rw [getD_append_left (by omega), List.getD_eq_getElem?_getD, List.getElem?_eq_getElem (by omega), Option.getD_some]
    exact hb _ (List.getElem_mem _)
  obtain ⟨k0, e0, hk0⟩ := h0
  have el : Knots.last (ks ++ [b]) = .ok b := by
    unfold Knots.last
    rw [subR_eq_ok (by simp)]
    simp only [ok_bind]
    rw [getR_eq_getD 0 (by simp), List.getD_eq_getElem?_getD]
    simp
  have hadd : Knots.add (ks ++ [b]) b = (ks ++ [b] ++ [b], ks.length + 1) := by
    unfold Knots.add
    rw [floor_concat]
    simp only [Prod.mk.injEq, and_true]
    rw [insertIdx_take_drop b _ _ (by simp), List.take_of_length_le (by simp), List.drop_of_length_le (by simp)]
  have hdup : addKnotDup (cps ++ [q]) (ks.length + 1) = .ok (cps ++ [q] ++ [q], cps.length + 2) := by
    unfold addKnotDup
    rw [if_pos (by simp; omega)]
    simp [unwrapR]
  unfold Curve.tryAddKnot
  simp only
  rw [e0, ok_bind, if_neg (not_not.2 hk0), el, ok_bind, if_neg (not_not.2 le_rfl), hadd]
  simp only
  rw [hdup, ok_bind]
  simp only
  rw [show cps.length + 2 - (ks.length + 1 - p) = 0 by omega]
  rfl

theorem copies_last {p : ℕ} {b : K} {q : W × K} : ∀ (k : ℕ) (ks : List K) (cps : List (W × K)), (∀ x ∈ ks, x ≤ b) →
    ks.length = cps.length + 1 + p →
    addCopies b k ⟨p, cps ++ [q], ks ++ [b]⟩ = .ok ⟨p, cps ++ [q] ++ List.replicate k q, ks ++ [b] ++ List.replicate k b⟩
  | 0, ks, cps, _, _ => by simp [addCopies]
  | k + 1, ks, cps, hb, hlen => by
    rw [addCopies, add_last hb hlen, ok_bind, copies_last k (ks ++ [b]) (cps ++ [q])
      (by intro x hx
          rcases List.mem_append.1 hx with hx | hx
          · exact hb x hx
          · exact (List.mem_singleton.1 hx).le) (by simp; omega)]
    simp [List.replicate_succ]

/-- Whatever the weights are, if the first knot is simple or repeated more than degree times, clamping puts
    copies of the origin (with the weight of the first control point) before the control points and copies of the last one after them,
    and the curve keeps its points on the old domain. -/
theorem clamp_rational {eps : K} {c : Curve K (W × K)} (heps : 0 ≤ eps) (h : c.Pre)
    (hd : ∀ x ∈ c.knots, ∀ y ∈ c.knots, x ≠ y → eps < |x - y|) {a b : K} (ha : c.knots.head? = some a) (hb : c.knots.getLast? = some b)
    {q r : W × K} (hq : c.cps.head? = some q) (hr : c.cps.getLast? = some r) (hc : c.knots.count a = 1 ∨ c.degree < c.knots.count a) :
    ∃ c', c.tryClamp eps = .ok c' ∧ c'.degree = c.degree ∧
      c'.knots = List.replicate (c.degree + 1 - c.knots.count a) a ++ c.knots ++ List.replicate (c.degree + 1 - c.knots.count b) b ∧
      c'.cps = List.replicate (c.degree + 1 - c.knots.count a) (0, q.2) ++ c.cps ++ List.replicate (c.degree + 1 - c.knots.count b) r ∧
      ∀ u, c.lo ≤ u → u < c.hi → c'.eval u = c.eval u := by
  have hl := h.knots_len
  have hlt := h.deg_lt
  have ea : a = kf c.knots 0 := by
    rw [List.head?_eq_getElem?, List.getElem?_eq_getElem (by omega)] at ha
    rw [kf_eq (by omega)]; exact (Option.some.inj ha).symm
  have eb : b = kf c.knots (c.knots.length - 1) := by
    rw [List.getLast?_eq_getElem?, List.getElem?_eq_getElem (by omega)] at hb
    rw [kf_eq (by omega)]; exact (Option.some.inj hb).symm
  have hall : ∀ y ∈ c.knots, a ≤ y ∧ y ≤ b := by
    intro y hy
    obtain ⟨j, hj, rfl⟩ := List.mem_iff_getElem.1 hy
    rw [← kf_eq hj, ea, eb]
    exact ⟨h.mono _ _ (by omega) (by omega), h.mono _ _ (by omega) (by omega)⟩
  obtain ⟨p, cps, knots⟩ := c
  simp only at hl hlt ha hb hq hr hc hall hd ⊢
  have first : addCopies a (p + 1 - knots.count a) ⟨p, cps, knots⟩ =
      .ok ⟨p, List.replicate (p + 1 - knots.count a) (0, q.2) ++ cps, List.replicate (p + 1 - knots.count a) a ++ knots⟩ := by
    rcases hc with hc | hc
    · rw [hc, Nat.add_sub_cancel]
      obtain ⟨ks, rfl⟩ : ∃ ks, knots = a :: ks := by
        cases knots with
        | nil => simp at ha
        | cons x ks => exact ⟨ks, by simp at ha; rw [ha]⟩
      obtain ⟨rest, rfl⟩ : ∃ rest, cps = q :: rest := by
        cases cps with
        | nil => simp at hq
        | cons x ks => exact ⟨ks, by simp at hq; rw [hq]⟩
      have hgt : ∀ x ∈ ks, a < x := by
        intro x hx
        refine lt_of_le_of_ne (hall x (List.mem_cons_of_mem _ hx)).1 ?_
        rintro rfl
        rw [List.count_cons_self] at hc
        have := List.count_pos_iff.2 hx
        omega
      simp only [List.length_cons] at hl hlt
      have := copies_first (p := p) (q := q) (rest := rest) hgt rfl (by omega) (by omega) p 0 (by omega)
      simp only [List.replicate_zero, List.nil_append, Nat.zero_add, List.replicate_one, List.singleton_append] at this
      rw [this, show List.replicate (p + 1) a = List.replicate p a ++ [a] from List.replicate_succ', List.append_assoc]
      rfl
    · rw [show p + 1 - knots.count a = 0 by omega]
      rfl
  have hkn : knots = knots.dropLast ++ [b] := by
    obtain ⟨ys, rfl⟩ := List.getLast?_eq_some_iff.1 hb
    simp
  have hcn : cps = cps.dropLast ++ [r] := by
    obtain ⟨ys, rfl⟩ := List.getLast?_eq_some_iff.1 hr
    simp
  set m := p + 1 - knots.count a with hm
  set m' := p + 1 - knots.count b with hm'
  have last : addCopies b m' ⟨p, List.replicate m (0, q.2) ++ cps, List.replicate m a ++ knots⟩ =
      .ok ⟨p, List.replicate m (0, q.2) ++ cps ++ List.replicate m' r, List.replicate m a ++ knots ++ List.replicate m' b⟩ := by
    have := copies_last (p := p) (b := b) (q := r) m' (List.replicate m a ++ knots.dropLast) (List.replicate m ((0 : W), q.2) ++ cps.dropLast)
      (by
        intro x hx
        rcases List.mem_append.1 hx with hx | hx
        · rw [List.eq_of_mem_replicate hx]
          exact (hall a (List.mem_of_mem_head? ha)).2
        · exact (hall x (List.mem_of_mem_dropLast hx)).2)
      (by simp; omega)
    rw [List.append_assoc, List.append_assoc (List.replicate m a), ← hkn, ← hcn] at this
    exact this
  refine ⟨⟨p, List.replicate m (0, q.2) ++ cps ++ List.replicate m' r, List.replicate m a ++ knots ++ List.replicate m' b⟩, ?_, rfl, rfl, rfl, ?_⟩
  · rw [tryClamp_eq heps h hd]
    simp only
    simp only at ea eb
    rw [← ea, ← eb, ← hm, ← hm', first, ok_bind, last]
  intro u h1 h2
  set c : Curve K (W × K) := ⟨p, cps, knots⟩ with hcdef
  set c' : Curve K (W × K) := ⟨p, List.replicate m (0, q.2) ++ cps ++ List.replicate m' r, List.replicate m a ++ knots ++ List.replicate m' b⟩ with hc'
  have hsub : Sub c' c m := by
    refine ⟨rfl, ?_, ?_, ?_⟩
    · intro j hj
      change kf knots j = kf (List.replicate m a ++ knots ++ List.replicate m' b) (j + m)
      have hj' : j ≤ cps.length + p := hj
      rw [kf_eq (by omega), kf_eq (by simp; omega), List.getElem_append_left (by simp; omega), List.getElem_append_right (by simp)]
      simp
    · intro j hj
      have hj' : j < cps.length := hj
      change cps.getD j 0 = (List.replicate m ((0 : W), q.2) ++ cps ++ List.replicate m' r).getD (j + m) 0
      rw [getD_append_left (by simp; omega), List.getD_eq_getElem?_getD, List.getD_eq_getElem?_getD, List.getElem?_append_right (by simp)]
      simp
    · change cps.length + m ≤ (List.replicate m ((0 : W), q.2) ++ cps ++ List.replicate m' r).length
      simp
      omega
  have hlc' : c'.cps.length = m + cps.length + m' := by simp [hc']; omega
  have hlk' : c'.knots.length = m + knots.length + m' := by simp [hc']; omega
  have hsort : c'.knots.Pairwise (· ≤ ·) := by
    have hs : knots.Pairwise (· ≤ ·) := h.sorted
    change (List.replicate m a ++ knots ++ List.replicate m' b).Pairwise (· ≤ ·)
    refine List.pairwise_append.2 ⟨List.pairwise_append.2 ⟨List.pairwise_replicate.2 (Or.inr le_rfl), hs, ?_⟩,
      List.pairwise_replicate.2 (Or.inr le_rfl), ?_⟩
    · intro x hx y hy
      rw [List.eq_of_mem_replicate hx]
      exact (hall y hy).1
    · intro x hx y hy
      rw [List.eq_of_mem_replicate hy]
      rcases List.mem_append.1 hx with hx | hx
      · rw [List.eq_of_mem_replicate hx]
        exact (hall a (List.mem_of_mem_head? ha)).2
      · exact (hall x hx).2
  have hmono : MonoUpTo (kf c'.knots) (c'.cps.length - 1 + c'.degree + 1) := mono_of_sorted hsort (by
    rw [hlc', hlk']
    change m + cps.length + m' - 1 + p + 1 < m + knots.length + m'
    omega)
  obtain ⟨s, hs1, hs2, hs3⟩ := h.exists_span h1 h2.le
  have hhi : c.hi ≤ c'.hi := by
    change kf knots cps.length ≤ kf c'.knots c'.cps.length
    have e1 : kf knots cps.length = kf c'.knots (cps.length + m) := hsub.knots _ (Nat.le_add_right _ _)
    rw [e1]
    refine hmono _ _ (by omega) ?_
    omega
  obtain ⟨-, e2⟩ := hsub.evalB hmono hs1 hs2 hs3
  have hspan : InSpan (kf c'.knots) c'.hi u (s + m) :=
    inSpan_congr (b := c.hi) (by constructor <;> intro e <;> [exact absurd e h2.ne; exact absurd e (h2.trans_le hhi).ne])
      (hsub.evalB hmono hs1 hs2 hs3).1
  have hs2' : s < cps.length := hs2
  rw [eval_eq_evalB (by omega), eval_eq_evalB (by change 0 < cps.length; omega), e2]
  exact evalB_congr hmono (by omega) hspan (hsub.evalB hmono hs1 hs2 hs3).1

/-- **C125**, rational curves: whatever the weights are, if the first knot is simple or repeated more than degree times, clamping puts
    copies of the origin (with the weight of the first control point) before the control points and copies of the last one after them.
    The curve is clamped then, keeps its points on the old domain, and if its first knot was simple it starts at the origin. -/
theorem C125_rational {eps : K} {c : Curve K (W × K)} (heps : 0 ≤ eps) (h : c.Pre)
    (hd : ∀ x ∈ c.knots, ∀ y ∈ c.knots, x ≠ y → eps < |x - y|) {a b : K} (ha : c.knots.head? = some a) (hb : c.knots.getLast? = some b)
    {q r : W × K} (hq : c.cps.head? = some q) (hr : c.cps.getLast? = some r) (hc : c.knots.count a = 1 ∨ c.degree < c.knots.count a) :
    ∃ c', c.tryClamp eps = .ok c' ∧ c'.degree = c.degree ∧
      c'.knots = List.replicate (c.degree + 1 - c.knots.count a) a ++ c.knots ++ List.replicate (c.degree + 1 - c.knots.count b) b ∧
      c'.cps = List.replicate (c.degree + 1 - c.knots.count a) (0, q.2) ++ c.cps ++ List.replicate (c.degree + 1 - c.knots.count b) r ∧
      c'.isClamped eps = .ok true ∧ c'.knotsDomain = .ok (a, b) ∧
      (∀ u, c.lo ≤ u → u < c.hi → c'.eval u = c.eval u) ∧
      (c.knots.count a ≤ c.degree → c.knots.count b ≤ c.degree + 1 → q.2 ≠ 0 → c'.pointAt eps a = .ok 0) := by
  obtain ⟨c', e, e1, e2, e3, e4⟩ := clamp_rational heps h hd ha hb hq hr hc
  have hlen : c'.knots.length = c'.cps.length + c'.degree + 1 := by
    have := h.knots_len
    rw [e2, e3, e1]
    simp only [List.length_append, List.length_replicate]
    omega
  obtain ⟨s1, s2⟩ := clamped_shape heps h hd ha hb e1 e2 hlen
  refine ⟨c', e, e1, e2, e3, s1, s2, e4, fun ca cb hw => ?_⟩
  obtain ⟨hgood, k0, klo, -⟩ := clamped_good heps h hd ha hb (by omega) cb e1 e2 hlen
  have hst := C11_clamped_start hgood (by rw [k0]; exact klo.symm)
  rw [klo] at hst
  have h0 : c'.cps.getD 0 0 = (0, q.2) := by
    rw [e3, List.append_assoc, List.getD_eq_getElem?_getD, List.getElem?_append_left (by simp; omega), List.getElem?_replicate, if_pos (by omega),
      Option.getD_some]
  rw [Curve.pointAt, hst, ok_bind, h0, dehomogenize, if_pos hw, smul_zero]
  rfl

/-! ### Cases -/

/-- An unclamped parabola away from the origin. -/
def exLoose : Curve ℚ ((ℚ × ℚ) × ℚ) where
  degree := 2
  cps := [((5, 5), 1), ((6, 7), 1), ((8, 7), 1), ((9, 5), 1)]
  knots := [0, 1, 2, 3, 4, 5, 6]

/-- A rational curve whose first knot is double, one short of being clamped. -/
def exLooseHeavy : Curve ℚ ((ℚ × ℚ) × ℚ) where
  degree := 2
  cps := [((5, 5), 1), ((12, 14), 2), ((8, 7), 1), ((9, 5), 1)]
  knots := [0, 0, 1, 2, 3, 3, 3]

theorem exLoose_pre : exLoose.Pre := ⟨by decide, by decide, by decide +kernel, by decide +kernel⟩

theorem exLoose_apart : ∀ x ∈ exLoose.knots, ∀ y ∈ exLoose.knots, x ≠ y → (1 / 1000 : ℚ) < |x - y| := by decide +kernel

/-- `exLoose` runs over `[2, 4]`; clamped it runs over `[0, 6]`, keeps its points on `[2, 4)`, and starts at the origin. -/
example : ∃ c', exLoose.tryClamp (1 / 1000) = .ok c' ∧ exLoose.knotsDomain = .ok (2, 4) ∧ c'.knotsDomain = .ok (0, 6) ∧
    c'.pointAt (1 / 1000) 0 = .ok 0 ∧ ∀ u, (2 : ℚ) ≤ u → u < 4 → c'.eval u = exLoose.eval u := by
  obtain ⟨c', e, -, -, e1, e2⟩ := C125_origin (a := 0) (b := 6) (w := 1) (by norm_num) exLoose_pre (by decide +kernel) one_ne_zero exLoose_apart rfl rfl
    (by decide +kernel) (by decide +kernel)
  obtain ⟨c'', f, -, -, -, -, -, -, f7, -⟩ := C125_clamp (w := 1) (by norm_num) exLoose_pre (by decide +kernel) exLoose_apart
    (a := 0) (b := 6) rfl rfl
  rw [e] at f
  obtain rfl := Except.ok.inj f
  exact ⟨c', e, by decide +kernel, e1, e2, f7⟩

/-- The clamped curve computed. -/
example : (do
    let c' ← exLoose.tryClamp (1 / 1000)
    pure (c'.knots, c'.cps.head?) : Res _) = .ok ([0, 0, 0, 1, 2, 3, 4, 5, 6, 6, 6], some ((0, 0), 1)) := by decide +kernel

/-- With different weights clamping moves the curve inside its domain as well. -/
theorem C125_rational_moves :
    ∃ c' p q, exLooseHeavy.tryClamp (1 / 1000) = .ok c' ∧ exLooseHeavy.point (1 / 1000) (3 / 2) = .ok p ∧
      c'.point (1 / 1000) (3 / 2) = .ok q ∧ proj p ≠ proj q := by
  have key : (do
      let c' ← exLooseHeavy.tryClamp (1 / 1000)
      let p ← exLooseHeavy.point (1 / 1000) (3 / 2)
      let q ← c'.point (1 / 1000) (3 / 2)
      pure (decide (proj p = proj q)) : Res Bool) = .ok false := by decide +kernel
  obtain ⟨c', e1, key⟩ := bind_eq_ok.1 key
  obtain ⟨p, e2, key⟩ := bind_eq_ok.1 key
  obtain ⟨q, e3, key⟩ := bind_eq_ok.1 key
  exact ⟨c', p, q, e1, e2, e3, of_decide_eq_false (Except.ok.inj key)⟩

/-- A clamped rational curve for `C125_clamped_already`. -/
example : exCurve.tryClamp (1 / 1000) = .ok exCurve :=
  C125_clamped_already (by norm_num) ⟨by decide, by decide, by decide +kernel, by decide +kernel⟩ (by decide +kernel) (by decide +kernel)

/-- An unclamped rational curve with simple knots. -/
def exLooseRational : Curve ℚ ((ℚ × ℚ) × ℚ) where
  degree := 2
  cps := [((15, 15), 3), ((12, 14), 2), ((8, 7), 1), ((18, 10), 2)]
  knots := [0, 1, 2, 3, 4, 5, 6]

example : ∃ c', exLooseRational.tryClamp (1 / 1000) = .ok c' ∧
    c'.cps = [((0, 0), 3), ((0, 0), 3)] ++ exLooseRational.cps ++ [((18, 10), 2), ((18, 10), 2)] ∧
    (∀ u, (2 : ℚ) ≤ u → u < 4 → c'.eval u = exLooseRational.eval u) ∧ c'.pointAt (1 / 1000) 0 = .ok 0 := by
  obtain ⟨c', e, -, -, e1, -, -, e2, e3⟩ := C125_rational (a := 0) (b := 6) (eps := 1 / 1000) (by norm_num)
    (show exLooseRational.Pre from ⟨by decide, by decide, by decide +kernel, by decide +kernel⟩) (by decide +kernel) rfl rfl rfl rfl
    (Or.inl (by decide +kernel))
  exact ⟨c', e, e1, e2, e3 (by decide +kernel) (by decide +kernel) (by decide +kernel)⟩

/-- Clamped at its end but not at its start. -/
def exOneEnd : Curve ℚ ((ℚ × ℚ) × ℚ) where
  degree := 2
  cps := [((5, 5), 1), ((6, 7), 1), ((8, 7), 1), ((9, 5), 1)]
  knots := [0, 1, 2, 3, 4, 4, 4]

/-- Different multiplicities at the ends: only the start gets new knots. -/
example : ∃ c', exOneEnd.tryClamp (1 / 1000) = .ok c' ∧ c'.knots = [0, 0, 0, 1, 2, 3, 4, 4, 4] ∧ c'.isClamped (1 / 1000) = .ok true := by
  obtain ⟨c', e, -, e2, -, e4, -⟩ := C125_clamp (a := 0) (b := 4) (w := 1) (eps := 1 / 1000) (by norm_num)
    (show exOneEnd.Pre from ⟨by decide, by decide, by decide +kernel, by decide +kernel⟩) (by decide +kernel) (by decide +kernel) rfl rfl
  exact ⟨c', e, e2, e4⟩

/-- The same computed. -/
example : (do
    let c' ← exOneEnd.tryClamp (1 / 1000)
    pure c'.knots : Res _) = .ok [0, 0, 0, 1, 2, 3, 4, 4, 4] := by decide +kernel

end Curvo.Props

/-
  A curve determines its control points: C107.
-/
import Verif.Lemmas.Whitney
import Verif.Props.Refine
import Verif.Props.AddKnot
import Verif.Props.Surface3
import Mathlib.LinearAlgebra.Dual.Lemmas

set_option linter.unusedSectionVars false
set_option linter.unusedSimpArgs false

namespace Curvo.Props

open Curvo Curvo.Knots Curvo.Spec Curvo.Curve

variable {K : Type} [Field K] [LinearOrder K] [IsStrictOrderedRing K]
variable {V : Type} [AddCommGroup V] [Module K V]
variable {W : Type} [AddCommGroup W] [Module K W]

/-- Every control point has an influence on some interval inside the domain: the support `[k_i, k_{i+p+1}]` of
    its basis function meets the domain in more than a point. -/
def AllMatter (c : Curve K V) : Prop :=
  ∀ i, i < c.cps.length → kf c.knots i < kf c.knots (i + c.degree + 1) ∧ kf c.knots i < c.hi ∧ c.lo < kf c.knots (i + c.degree + 1)

theorem exists_step {v : ℕ → K} {a b : ℕ} (hab : a ≤ b) (h : v a < v b) : ∃ s, a ≤ s ∧ s < b ∧ v s < v (s + 1) := by
  induction b, hab using Nat.le_induction with
  | base => exact absurd h (lt_irrefl _)
  | succ b hab ih =>
    by_cases hb : v a < v b
    · obtain ⟨s, h1, h2, h3⟩ := ih hb
      exact ⟨s, h1, by omega, h3⟩
    · exact ⟨b, hab, by omega, lt_of_le_of_lt (not_lt.1 hb) h⟩

theorem AllMatter.span {c : Curve K V} (hc : c.Pre) (h : AllMatter c) {i : ℕ} (hi : i < c.cps.length) :
    ∃ s, c.degree ≤ s ∧ s < c.cps.length ∧ i ≤ s ∧ s ≤ i + c.degree ∧ kf c.knots s < kf c.knots (s + 1) := by
  obtain ⟨h1, h2, h3⟩ := h i hi
  have hd := hc.deg_lt
  have hlt : kf c.knots (max i c.degree) < kf c.knots (min (i + c.degree + 1) c.cps.length) := by
    rcases max_cases i c.degree with ⟨e, _⟩ | ⟨e, _⟩ <;> rcases min_cases (i + c.degree + 1) c.cps.length with ⟨e', _⟩ | ⟨e', _⟩ <;>
      rw [e, e']
    · exact h1
    · exact h2
    · exact h3
    · exact hc.dom
  obtain ⟨s, g1, g2, g3⟩ := exists_step (by omega) hlt
  exact ⟨s, by omega, by omega, by omega, by omega, g3⟩

/-- **C107**: two curves with the same degree and knots, every control point of which matters, that agree inside the domain are equal. -/
theorem C107_determined {c d : Curve K V} (hc : c.Pre) (hd : d.Pre) (hm : AllMatter c) (hdeg : d.degree = c.degree)
    (hk : d.knots = c.knots) (he : ∀ u, c.lo < u → u < c.hi → d.eval u = c.eval u) : d = c := by
  have hl := hc.knots_len
  have hl' := hd.knots_len
  have hdl := hc.deg_lt
  have hlen : d.cps.length = c.cps.length := by rw [hk, hdeg] at hl'; omega
  have hkn : Knots (kf c.knots) c.lo c.hi c.degree (c.cps.length - 1) := by
    refine ⟨by omega, hc.mono, rfl, ?_, hc.dom⟩
    rw [show c.cps.length - 1 + 1 = c.cps.length by omega]; rfl
  have hcps : d.cps = c.cps := by
    apply List.ext_getElem hlen
    intro i h1 h2
    by_contra hne
    obtain ⟨s, g1, g2, g3, g4, g5⟩ := hm.span hc h2
    have hsub : d.cps.getD i 0 - c.cps.getD i 0 ≠ 0 := by
      rw [getD_eq_getElem h1, getD_eq_getElem h2]
      exact sub_ne_zero.2 hne
    obtain ⟨φ, hφ⟩ : ∃ φ : Module.Dual K V, φ (d.cps.getD i 0 - c.cps.getD i 0) ≠ 0 := by
      by_contra hno
      push Not at hno
      exact hsub ((Module.forall_dual_apply_eq_zero_iff K _).1 hno)
    obtain ⟨u, hu1, hu2, hu⟩ := exists_ne_zero (P := fun j => φ (d.cps.getD j 0 - c.cps.getD j 0)) hkn g1 (by omega) g3 g4 hφ g5
      le_rfl le_rfl
    apply hu
    have e := he u (lt_of_le_of_lt (hc.mono c.degree s (by omega) (by omega)) hu1)
      (lt_of_lt_of_le hu2 (hc.mono (s + 1) c.cps.length (by omega) (by omega)))
    have e' : φ (d.eval u - c.eval u) = 0 := by rw [e, sub_self, map_zero]
    rw [← e']
    simp only [Curve.eval, Spec.curve, hk, hdeg, hlen, spl]
    rw [← Finset.sum_sub_distrib, map_sum]
    apply Finset.sum_congr rfl
    intro j _
    rw [← smul_sub, map_smul, smul_eq_mul, show c.cps.length - 1 + 1 = c.cps.length by omega]
    rfl
  obtain ⟨d1, d2, d3⟩ := d
  obtain ⟨c1, c2, c3⟩ := c
  simp only at hdeg hcps hk
  subst hdeg hcps hk
  rfl

theorem count_of_equal {l : List K} {m i : ℕ} (hs : l.Pairwise (· ≤ ·)) (hi : i + m < l.length) (he : kf l i = kf l (i + m)) :
    m + 1 ≤ l.count (kf l i) := by
  have hsub : ((l.drop i).take (m + 1)).Sublist l := (List.take_sublist _ _).trans (List.drop_sublist _ _)
  refine le_trans ?_ (hsub.count_le _)
  have : (l.drop i).take (m + 1) = List.replicate (m + 1) (kf l i) := by
    apply List.ext_getElem
    · simp; omega
    · intro j h1 h2
      simp only [List.getElem_take, List.getElem_drop, List.getElem_replicate]
      have hj : j < m + 1 := by simpa using h2
      have a1 : kf l i ≤ kf l (i + j) := mono_of_sorted hs (m := l.length - 1) (by omega) _ _ (by omega) (by omega)
      have a2 : kf l (i + j) ≤ kf l (i + m) := mono_of_sorted hs (m := l.length - 1) (by omega) _ _ (by omega) (by omega)
      rw [← kf_eq (by omega)]
      exact le_antisymm (a2.trans he.ge) a1
  rw [this, List.count_replicate_self]

/-- With knots inside the domain and none repeated more than `degree + 1` times every control point matters. -/
theorem allMatter_of_count {c : Curve K V} (hc : c.Pre) (hin : ∀ x ∈ c.knots, c.lo ≤ x ∧ x ≤ c.hi)
    (hcount : ∀ x ∈ c.knots, c.knots.count x ≤ c.degree + 1) : AllMatter c := by
  intro i hi
  have hl := hc.knots_len
  have hm : ∀ j, j < c.knots.length → kf c.knots j ∈ c.knots := fun j hj => by rw [kf_eq hj]; exact List.getElem_mem _
  have h1 : kf c.knots i < kf c.knots (i + c.degree + 1) := by
    refine lt_of_le_of_ne (hc.mono _ _ (by omega) (by omega)) fun he => ?_
    have := count_of_equal (m := c.degree + 1) hc.sorted (by omega) he
    have := hcount _ (hm i (by omega))
    omega
  exact ⟨h1, lt_of_lt_of_le h1 (hin _ (hm _ (by omega))).2, lt_of_le_of_lt (hin _ (hm i (by omega))).1 h1⟩

/-! ### Refining in any order -/

theorem Refines.unique {c d e : Curve K V} {xs ys : List K} (hc : c.Pre) (hd : Refines c d xs) (he : Refines c e ys)
    (hp : xs.Perm ys) (hin : ∀ x ∈ c.knots, c.lo ≤ x ∧ x ≤ c.hi) (hx : ∀ x ∈ xs, c.lo ≤ x ∧ x ≤ c.hi)
    (hcount : ∀ x, (xs ++ c.knots).count x ≤ c.degree + 1) : e = d := by
  have hk : e.knots = d.knots := by
    refine List.Perm.eq_of_pairwise (fun a b _ _ h1 h2 => le_antisymm h1 h2) he.pre.sorted hd.pre.sorted ?_
    exact he.knots.trans ((hp.symm.append_right _).trans hd.knots.symm)
  refine C107_determined hd.pre he.pre (allMatter_of_count hd.pre ?_ ?_) (he.degree.trans hd.degree.symm) hk ?_
  · intro x hx'
    rw [hd.lo, hd.hi]
    rcases List.mem_append.1 (hd.knots.mem_iff.1 hx') with h | h
    · exact hx x h
    · exact hin x h
  · intro x _
    rw [hd.knots.count_eq, hd.degree]
    exact hcount x
  · intro u h1 h2
    rw [hd.lo] at h1; rw [hd.hi] at h2
    rw [he.eval hc h1.le h2.le, hd.eval hc h1.le h2.le]

theorem refine_steps {eps : K} : ∀ (xss : List (List K)) {c : Curve K V}, c.Good eps → (∀ xs ∈ xss, xs.Pairwise (· ≤ ·)) →
    (∀ xs ∈ xss, ∀ x ∈ xs, c.lo < x ∧ x < c.hi) →
    (∀ x ∈ xss.flatten, ∀ y ∈ xss.flatten ++ c.knots, |y - x| < eps → y = x) →
    ∃ d, xss.foldlM (fun c xs => c.tryRefineKnot eps xs) c = .ok d ∧ Refines c d xss.flatten := by
  intro xss
  induction xss with
  | nil => intro c h _ _ _; exact ⟨c, rfl, Refines.refl h.pre⟩
  | cons xs xss ih =>
    intro c h hs hd hsep
    have hx := hd xs (by simp)
    have hsep0 : ∀ x ∈ xs, ∀ y ∈ xs ++ c.knots, |y - x| < eps → y = x := by
      intro x hx y hy
      apply hsep x (by simp [hx])
      rcases List.mem_append.1 hy with hy | hy
      · simp [hy]
      · simp [hy]
    obtain ⟨c1, e1, r1⟩ := tryRefineKnot_refines h (hs xs (by simp)) (fun x hx' => ⟨(hx x hx').1.le, (hx x hx').2.le⟩) hsep0
    have g1 := r1.good h hx (fun x hx y hy => hsep0 x hx y (List.mem_append_right _ hy))
    obtain ⟨d, e2, r2⟩ := ih g1 (fun ys hy => hs ys (by simp [hy])) (fun ys hy => by rw [r1.lo, r1.hi]; exact hd ys (by simp [hy])) (by
      intro x hx y hy
      apply hsep x (by simp at hx ⊢; exact Or.inr hx)
      rcases List.mem_append.1 hy with hy | hy
      · simp at hy ⊢; exact Or.inr (Or.inl hy)
      · rcases List.mem_append.1 (r1.knots.mem_iff.1 hy) with hy | hy
        · simp [hy]
        · simp [hy])
    refine ⟨d, ?_, r1.trans r2⟩
    rw [List.foldlM_cons, e1]
    exact e2

/-- **C107**: refining step by step, in whatever order and however the new knots are grouped, gives the same curve
    (control points included) as refining with all of them at once. -/
theorem C107_refine_any_order {eps : K} {c : Curve K V} {xss yss : List (List K)} (h : c.Good eps)
    (hsx : ∀ xs ∈ xss, xs.Pairwise (· ≤ ·)) (hsy : ∀ ys ∈ yss, ys.Pairwise (· ≤ ·)) (hperm : xss.flatten.Perm yss.flatten)
    (hin : ∀ x ∈ c.knots, c.lo ≤ x ∧ x ≤ c.hi) (hx : ∀ x ∈ xss.flatten, c.lo < x ∧ x < c.hi)
    (hsep : ∀ x ∈ xss.flatten, ∀ y ∈ xss.flatten ++ c.knots, |y - x| < eps → y = x)
    (hcount : ∀ x, (xss.flatten ++ c.knots).count x ≤ c.degree + 1) :
    ∃ d, xss.foldlM (fun c xs => c.tryRefineKnot eps xs) c = .ok d ∧ yss.foldlM (fun c xs => c.tryRefineKnot eps xs) c = .ok d := by
  obtain ⟨d, e1, r1⟩ := refine_steps xss h hsx (fun xs h' x h'' => hx x (List.mem_flatten_of_mem h' h'')) hsep
  obtain ⟨e, e2, r2⟩ := refine_steps yss h hsy (fun xs h' x h'' => hx x (hperm.mem_iff.2 (List.mem_flatten_of_mem h' h''))) (by
    intro x hx y hy
    apply hsep x (hperm.mem_iff.2 hx)
    rcases List.mem_append.1 hy with hy | hy
    · exact List.mem_append_left _ (hperm.mem_iff.2 hy)
    · exact List.mem_append_right _ hy)
  have := Refines.unique h.pre r1 r2 hperm hin (fun x h' => ⟨(hx x h').1.le, (hx x h').2.le⟩) hcount
  exact ⟨d, e1, by rw [e2, this]⟩

/-- **C107**: adding a single knot to a curve of constant weight gives exactly what the refinement with it gives. -/
theorem C107_add_knot_is_refinement {eps : K} {c : Curve K (W × K)} {x w : K} (h : c.Good eps) (hw : ∀ q ∈ c.cps, q.2 = w)
    (h1 : c.lo ≤ x) (h2 : x ≤ c.hi) (hin : ∀ x ∈ c.knots, c.lo ≤ x ∧ x ≤ c.hi) (hsep : ∀ y ∈ c.knots, |y - x| < eps → y = x)
    (hcount : ∀ y, (x :: c.knots).count y ≤ c.degree + 1) :
    ∃ d, c.tryAddKnot x = .ok d ∧ c.tryRefineKnot eps [x] = .ok d := by
  obtain ⟨d, e1, -, -, -, -, -, -, r1⟩ := C20_add_knot_in_domain h.pre hw h1 h2
  obtain ⟨e, e2, r2⟩ := tryRefineKnot_refines h (xs := [x]) (by simp) (by simpa using ⟨h1, h2⟩) (by
    intro z hz y hy
    rw [List.mem_singleton] at hz; subst hz
    rcases List.mem_append.1 hy with hy | hy
    · intro _; exact List.mem_singleton.1 hy
    · exact hsep y hy)
  have := Refines.unique h.pre r1 r2 (List.Perm.refl _) hin (by simpa using ⟨h1, h2⟩) (by simpa using hcount)
  exact ⟨d, e1, by rw [e2, this]⟩

/-! ### Splitting in any order -/

/-- Good curves with the knots inside the domain, none more than `degree + 1` times. -/
structure Tame (eps : K) (c : Curve K V) : Prop where
  good : c.Good eps
  inside : ∀ x ∈ c.knots, c.lo ≤ x ∧ x ≤ c.hi
  count : ∀ x, c.knots.count x ≤ c.degree + 1

theorem Tame.matter {eps : K} {c : Curve K V} (h : Tame eps c) : AllMatter c :=
  allMatter_of_count h.good.pre h.inside fun x _ => h.count x

theorem Tame.unique {eps : K} {c d : Curve K V} (h : Tame eps c) (hd : d.Good eps) (h1 : d.degree = c.degree) (h2 : d.knots = c.knots)
    (he : ∀ u, c.lo < u → u < c.hi → d.eval u = c.eval u) : d = c :=
  C107_determined h.good.pre hd.pre h.matter h1 h2 he

/-- The pieces of a curve split at a parameter that is not a knot. -/
structure CutHalves (eps : K) (c : Curve K V) (u : K) (l r : Curve K V) : Prop where
  lt : Tame eps l
  rt : Tame eps r
  ld : l.degree = c.degree
  rd : r.degree = c.degree
  lk : l.knots = c.knots.filter (· < u) ++ List.replicate (c.degree + 1) u
  rk : r.knots = List.replicate (c.degree + 1) u ++ c.knots.filter (u < ·)
  llo : l.lo = c.lo
  lhi : l.hi = u
  rlo : r.lo = u
  rhi : r.hi = c.hi
  le : ∀ x, c.lo ≤ x → x ≤ u → l.eval x = c.eval x
  re : ∀ x, u ≤ x → x ≤ c.hi → r.eval x = c.eval x

theorem filter_take {l : List K} {u : K} {s : ℕ} (h1 : ∀ x ∈ l.take s, x < u) (h2 : ∀ x ∈ l.drop s, u < x) :
    l.filter (· < u) = l.take s ∧ l.filter (u < ·) = l.drop s := by
  constructor
  · conv_lhs => rw [← List.take_append_drop s l]
    rw [List.filter_append, List.filter_eq_self.2 (by simpa using h1), List.filter_eq_nil_iff.2 (by
      intro x hx; simpa using (h2 x hx).le), List.append_nil]
  · conv_lhs => rw [← List.take_append_drop s l]
    rw [List.filter_append, List.filter_eq_nil_iff.2 (by intro x hx; simpa using (h1 x hx).le),
      List.filter_eq_self.2 (by simpa using h2), List.nil_append]

theorem split_halves {eps : K} {c : Curve K V} (h : Tame eps c) {u : K} (h1 : c.lo < u) (h2 : u < c.hi)
    (hsep : ∀ y ∈ c.knots, eps ≤ |y - u|) (hnew : u ∉ c.knots) :
    ∃ l r, c.trySplit eps u = .ok (l, r) ∧ CutHalves eps c u l r := by
  have hg := h.good
  have hsep' : ∀ y ∈ c.knots, |y - u| < eps → y = u := fun y hy hlt => absurd hlt (not_lt.2 (hsep y hy))
  obtain ⟨s, c', l, r, e, hs⟩ := split_pieces hg h1.le h2.le hsep'
  obtain ⟨l', r', e', lg, -, -, lev⟩ := C21_left_piece hg h1.le h2.le hsep' (fun h => absurd h hnew)
  obtain ⟨l'', r'', e'', rg, -, -, rev⟩ := C21_right_piece hg h1.le h2 hsep'
  rw [e] at e' e''
  cases e'; cases e''
  have hl := hg.knots_len
  have hps := hs.ps
  have hsn := hs.sn
  have hin := hs.inSpan
  rw [InSpan, if_neg h2.ne] at hin
  have hmem : ∀ j, j < c.knots.length → kf c.knots j ∈ c.knots := fun j hj => by rw [kf_eq hj]; exact List.getElem_mem _
  have t1 : ∀ x ∈ c.knots.take (s + 1), x < u := by
    intro x hx
    obtain ⟨j, hj, rfl⟩ := List.mem_take_iff_getElem.1 hx
    rw [← kf_eq (by omega)]
    refine lt_of_le_of_ne (le_trans (hg.pre.mono j s (by omega) (by omega)) hin.1) fun he => hnew ?_
    rw [← he]; exact hmem _ (by omega)
  have t2 : ∀ x ∈ c.knots.drop (s + 1), u < x := by
    intro x hx
    obtain ⟨j, hj, rfl⟩ := List.mem_drop_iff_getElem.1 hx
    rw [← kf_eq (by omega)]
    exact lt_of_lt_of_le hin.2 (hg.pre.mono (s + 1) _ (by omega) (by omega))
  obtain ⟨f1, f2⟩ := filter_take t1 t2
  have hcu : c.knots.count u = 0 := List.count_eq_zero.2 hnew
  have lk : l.knots = c.knots.filter (· < u) ++ List.replicate (c.degree + 1) u := by rw [hs.lk, f1]
  have rk : r.knots = List.replicate (c.degree + 1) u ++ c.knots.filter (u < ·) := by rw [hs.rk, f2]
  have cnt : ∀ x (q : K → Bool), q u = false → (List.replicate (c.degree + 1) u).count x + (c.knots.filter q).count x ≤ c.degree + 1 := by
    intro x q _
    have a1 : (c.knots.filter q).count x ≤ c.knots.count x := List.filter_sublist.count_le x
    by_cases hx : x = u
    · subst hx; rw [List.count_replicate_self]; omega
    · rw [List.count_replicate, if_neg (by simpa using fun h => hx h.symm)]
      have := h.count x
      omega
  refine ⟨l, r, e, ⟨⟨lg, ?_, ?_⟩, ⟨rg, ?_, ?_⟩, hs.ld, hs.rd, lk, rk, hs.llo hg, hs.lhi hg, hs.rlo, hs.rhi, ?_, ?_⟩⟩
  · intro x hx
    rw [hs.llo hg, hs.lhi hg]
    rw [lk] at hx
    rcases List.mem_append.1 hx with hx | hx
    · rw [List.mem_filter] at hx
      exact ⟨(h.inside x hx.1).1, (by simpa using hx.2 : x < u).le⟩
    · rw [List.eq_of_mem_replicate hx]; exact ⟨h1.le, le_rfl⟩
  · intro x
    rw [lk, List.count_append, hs.ld, add_comm]
    exact cnt x _ (by simp)
  · intro x hx
    rw [hs.rlo, hs.rhi]
    rw [rk] at hx
    rcases List.mem_append.1 hx with hx | hx
    · rw [List.eq_of_mem_replicate hx]; exact ⟨le_rfl, h2.le⟩
    · rw [List.mem_filter] at hx
      exact ⟨(by simpa using hx.2 : u < x).le, (h.inside x hx.1).2⟩
  · intro x
    rw [rk, List.count_append, hs.rd]
    exact cnt x _ (by simp)
  · intro x g1 g2
    have := lev x g1 g2
    rw [point_eq_eval lg (by rw [hs.llo hg]; exact g1) (by rw [hs.lhi hg]; exact g2), point_eq_eval hg g1 (g2.trans h2.le)] at this
    exact Except.ok.inj this
  · intro x g1 g2
    have := rev x g1 g2
    rw [point_eq_eval rg (by rw [hs.rlo]; exact g1) (by rw [hs.rhi]; exact g2), point_eq_eval hg (h1.le.trans g1) g2] at this
    exact Except.ok.inj this

/-- **C107**: cutting a curve at two parameters gives the same three pieces, whichever cut is made first. -/
theorem C107_split_any_order {eps : K} {c : Curve K V} (h : Tame eps c) {a b : K} (h1 : c.lo < a) (hab : a < b) (h2 : b < c.hi)
    (ha : ∀ y ∈ c.knots, eps ≤ |y - a|) (hb : ∀ y ∈ c.knots, eps ≤ |y - b|) (hgap : eps ≤ b - a) (ha' : a ∉ c.knots) (hb' : b ∉ c.knots) :
    ∃ l m r x y, c.trySplit eps a = .ok (l, x) ∧ x.trySplit eps b = .ok (m, r) ∧
      c.trySplit eps b = .ok (y, r) ∧ y.trySplit eps a = .ok (l, m) := by
  obtain ⟨l, x, e1, s1⟩ := split_halves h h1 (hab.trans h2) ha ha'
  obtain ⟨y, r, e2, s2⟩ := split_halves h (h1.trans hab) h2 hb hb'
  have hx : ∀ z ∈ x.knots, z = a ∨ z ∈ c.knots := by
    intro z hz
    rw [s1.rk] at hz
    rcases List.mem_append.1 hz with hz | hz
    · exact Or.inl (List.eq_of_mem_replicate hz)
    · exact Or.inr (List.mem_filter.1 hz).1
  have hy : ∀ z ∈ y.knots, z = b ∨ z ∈ c.knots := by
    intro z hz
    rw [s2.lk] at hz
    rcases List.mem_append.1 hz with hz | hz
    · exact Or.inr (List.mem_filter.1 hz).1
    · exact Or.inl (List.eq_of_mem_replicate hz)
  obtain ⟨m, r', e3, s3⟩ := split_halves s1.rt (u := b) (by rw [s1.rlo]; exact hab) (by rw [s1.rhi]; exact h2) (by
    intro z hz
    rcases hx z hz with rfl | hz
    · rw [abs_sub_comm, abs_of_pos (sub_pos.2 hab)]; exact hgap
    · exact hb z hz) (by
    intro hz
    rcases hx b hz with hz | hz
    · exact hab.ne' hz
    · exact hb' hz)
  obtain ⟨l', m', e4, s4⟩ := split_halves s2.lt (u := a) (by rw [s2.llo]; exact h1) (by rw [s2.lhi]; exact hab) (by
    intro z hz
    rcases hy z hz with rfl | hz
    · rw [abs_of_pos (sub_pos.2 hab)]; exact hgap
    · exact ha z hz) (by
    intro hz
    rcases hy a hz with hz | hz
    · exact hab.ne hz
    · exact ha' hz)
  have er : r' = r := by
    refine s2.rt.unique s3.rt.good (by rw [s3.rd, s1.rd, s2.rd]) ?_ ?_
    · rw [s3.rk, s2.rk, s1.rk, s1.rd, List.filter_append, List.filter_eq_nil_iff.2 (by
        intro z hz; rw [List.eq_of_mem_replicate hz]; simpa using hab.le), List.nil_append, List.filter_filter]
      congr 1
      apply List.filter_congr
      intro z _
      by_cases hz : b < z
      · simp [hz, hab.trans hz]
      · simp [hz]
    · intro t t1 t2
      rw [s2.rlo] at t1; rw [s2.rhi] at t2
      rw [s3.re t t1.le (by rw [s1.rhi]; exact t2.le), s1.re t (hab.trans t1).le t2.le, s2.re t t1.le t2.le]
  have el : l' = l := by
    refine s1.lt.unique s4.lt.good (by rw [s4.ld, s2.ld, s1.ld]) ?_ ?_
    · rw [s4.lk, s2.lk, s1.lk, s2.ld, List.filter_append, List.filter_eq_nil_iff (l := List.replicate _ _).2 (by
        intro z hz; rw [List.eq_of_mem_replicate hz]; simpa using hab.le), List.append_nil, List.filter_filter]
      congr 1
      apply List.filter_congr
      intro z _
      by_cases hz : z < a
      · simp [hz, hz.trans hab]
      · simp [hz]
    · intro t t1 t2
      rw [s1.llo] at t1; rw [s1.lhi] at t2
      rw [s4.le t (by rw [s2.llo]; exact t1.le) t2.le, s2.le t t1.le (t2.trans hab).le, s1.le t t1.le t2.le]
  have em : m' = m := by
    refine s3.lt.unique s4.rt.good (by rw [s4.rd, s2.ld, s3.ld, s1.rd]) ?_ ?_
    · rw [s4.rk, s2.lk, s3.lk, s1.rk, s1.rd, s2.ld, List.filter_append, List.filter_append, List.filter_eq_self (l := List.replicate _ b).2 (by
        intro z hz; rw [List.eq_of_mem_replicate hz]; simpa using hab), List.filter_eq_self (l := List.replicate _ a).2 (by
        intro z hz; rw [List.eq_of_mem_replicate hz]; simpa using hab), List.append_assoc, List.filter_filter, List.filter_filter]
      congr 2
      apply List.filter_congr
      intro z _
      exact Bool.and_comm _ _
    · intro t t1 t2
      rw [s3.llo, s1.rlo] at t1; rw [s3.lhi] at t2
      rw [s4.re t t1.le (by rw [s2.lhi]; exact t2.le), s2.le t (h1.trans t1).le t2.le, s3.le t (by rw [s1.rlo]; exact t1.le) t2.le,
        s1.re t t1.le (t2.trans h2).le]
  subst er el em
  exact ⟨_, _, _, _, _, e1, e3, e2, e4⟩

/-- **C107**: splitting a refined curve gives the pieces of the curve, refined with the new knots on their side. -/
theorem C107_split_refined {eps : K} {c : Curve K V} (h : Tame eps c) {xs : List K} {u : K} (h1 : c.lo < u) (h2 : u < c.hi)
    (hsort : xs.Pairwise (· ≤ ·)) (hdom : ∀ x ∈ xs, c.lo < x ∧ x < c.hi)
    (hsep : ∀ x ∈ xs, ∀ y ∈ xs ++ c.knots, |y - x| < eps → y = x) (hcount : ∀ x, (xs ++ c.knots).count x ≤ c.degree + 1)
    (hu : ∀ y ∈ xs ++ c.knots, eps ≤ |y - u|) (hu' : u ∉ xs ++ c.knots) :
    ∃ d l r l' r', c.tryRefineKnot eps xs = .ok d ∧ c.trySplit eps u = .ok (l, r) ∧
      l.tryRefineKnot eps (xs.filter (· < u)) = .ok l' ∧ r.tryRefineKnot eps (xs.filter (u < ·)) = .ok r' ∧
      d.trySplit eps u = .ok (l', r') := by
  have hg := h.good
  obtain ⟨d, e1, r1⟩ := tryRefineKnot_refines hg hsort (fun x hx => ⟨(hdom x hx).1.le, (hdom x hx).2.le⟩) hsep
  have gd := r1.good hg hdom (fun x hx y hy => hsep x hx y (List.mem_append_right _ hy))
  have td : Tame eps d := by
    refine ⟨gd, ?_, fun x => by rw [r1.knots.count_eq, r1.degree]; exact hcount x⟩
    intro x hx
    rw [r1.lo, r1.hi]
    rcases List.mem_append.1 (r1.knots.mem_iff.1 hx) with hx | hx
    · exact ⟨(hdom x hx).1.le, (hdom x hx).2.le⟩
    · exact h.inside x hx
  obtain ⟨l, r, e2, s2⟩ := split_halves h h1 h2 (fun y hy => hu y (List.mem_append_right _ hy)) (fun hc => hu' (List.mem_append_right _ hc))
  obtain ⟨l', r', e3, s3⟩ := split_halves td (u := u) (by rw [r1.lo]; exact h1) (by rw [r1.hi]; exact h2)
    (fun y hy => hu y (r1.knots.mem_iff.1 hy)) (fun hc => hu' (r1.knots.mem_iff.1 hc))
  have lsep : ∀ x ∈ xs, ∀ y, (y ∈ xs ∨ y ∈ c.knots ∨ y = u) → |y - x| < eps → y = x := by
    intro x hx y hy hlt
    rcases hy with hy | hy | rfl
    · exact hsep x hx y (List.mem_append_left _ hy) hlt
    · exact hsep x hx y (List.mem_append_right _ hy) hlt
    · rw [abs_sub_comm] at hlt; exact absurd hlt (not_lt.2 (hu x (List.mem_append_left _ hx)))
  obtain ⟨dl, e4, r4⟩ := tryRefineKnot_refines s2.lt.good (xs := xs.filter (· < u)) (hsort.sublist List.filter_sublist)
    (by
      intro x hx
      rw [List.mem_filter] at hx
      rw [s2.llo, s2.lhi]; exact ⟨(hdom x hx.1).1.le, (by simpa using hx.2 : x < u).le⟩)
    (by
      intro x hx y hy
      rw [List.mem_filter] at hx
      apply lsep x hx.1
      rw [s2.lk] at hy
      simp only [List.mem_append, List.mem_filter, List.mem_replicate] at hy
      tauto)
  obtain ⟨dr, e5, r5⟩ := tryRefineKnot_refines s2.rt.good (xs := xs.filter (u < ·)) (hsort.sublist List.filter_sublist)
    (by
      intro x hx
      rw [List.mem_filter] at hx
      rw [s2.rlo, s2.rhi]; exact ⟨(by simpa using hx.2 : u < x).le, (hdom x hx.1).2.le⟩)
    (by
      intro x hx y hy
      rw [List.mem_filter] at hx
      apply lsep x hx.1
      rw [s2.rk] at hy
      simp only [List.mem_append, List.mem_filter, List.mem_replicate] at hy
      tauto)
  have el : dl = l' := by
    refine C107_determined s3.lt.good.pre r4.pre s3.lt.matter (by rw [r4.degree, s2.ld, s3.ld, r1.degree]) ?_ ?_
    · refine List.Perm.eq_of_pairwise (fun a b _ _ h1 h2 => le_antisymm h1 h2) r4.pre.sorted s3.lt.good.pre.sorted (r4.knots.trans ?_)
      rw [s3.lk, s2.lk, r1.degree, ← List.append_assoc, ← List.filter_append]
      exact ((r1.knots.filter _).symm).append_right _
    · intro t t1 t2
      rw [s3.llo, r1.lo] at t1; rw [s3.lhi] at t2
      rw [r4.eval s2.lt.good.pre (by rw [s2.llo]; exact t1.le) (by rw [s2.lhi]; exact t2.le), s2.le t t1.le t2.le,
        s3.le t (by rw [r1.lo]; exact t1.le) t2.le, r1.eval hg.pre t1.le (t2.trans h2).le]
  have er : dr = r' := by
    refine C107_determined s3.rt.good.pre r5.pre s3.rt.matter (by rw [r5.degree, s2.rd, s3.rd, r1.degree]) ?_ ?_
    · refine List.Perm.eq_of_pairwise (fun a b _ _ h1 h2 => le_antisymm h1 h2) r5.pre.sorted s3.rt.good.pre.sorted (r5.knots.trans ?_)
      rw [s3.rk, s2.rk, r1.degree]
      refine (List.perm_append_comm_assoc _ _ _).trans ?_
      rw [← List.filter_append]
      exact ((r1.knots.filter _).symm).append_left _
    · intro t t1 t2
      rw [s3.rlo] at t1; rw [s3.rhi, r1.hi] at t2
      rw [r5.eval s2.rt.good.pre (by rw [s2.rlo]; exact t1.le) (by rw [s2.rhi]; exact t2.le), s2.re t t1.le t2.le,
        s3.re t t1.le (by rw [r1.hi]; exact t2.le), r1.eval hg.pre (h1.trans t1).le t2.le]
  subst el er
  exact ⟨_, _, _, _, _, e1, e2, e4, e5, e3⟩

/-- **C107** (what is needed): if some control point does not matter, it can be replaced by any other without any
    effect before the end of the domain, so the assumption cannot be dropped. -/
theorem C107_influence_needed {eps : K} {c : Curve K V} (h : c.Good eps) (hno : ¬ AllMatter c) :
    ∃ i, i < c.cps.length ∧ ∀ (q : V) (u : K), c.lo ≤ u → u < c.hi →
      ({ c with cps := c.cps.set i q } : Curve K V).point eps u = c.point eps u := by
  unfold AllMatter at hno
  push Not at hno
  obtain ⟨i, hi, hno⟩ := hno
  refine ⟨i, hi, fun q u h1 h2 => C12_local_control h h1 h2.le i q ?_ hi⟩
  by_contra hc
  push Not at hc
  obtain ⟨a1, a2, -⟩ := hc
  have a3 : u < kf c.knots (i + c.degree + 1) := by
    by_contra hn
    exact h2.ne (a2 (not_lt.1 hn))
  exact absurd (hno (lt_of_le_of_lt a1 a3) (lt_of_le_of_lt a1 h2)) (not_le.2 (lt_of_le_of_lt h1 a3))

/-! ### Surfaces -/

/-- Good surfaces with the knots inside the domain, none more than `degree + 1` times. -/
structure TameNet (eps : K) (S : Surface K V) : Prop where
  good : S.Good eps
  uin : ∀ x ∈ S.uKnots, S.ulo ≤ x ∧ x ≤ S.uhi
  vin : ∀ x ∈ S.vKnots, S.vlo ≤ x ∧ x ≤ S.vhi
  ucount : ∀ x, S.uKnots.count x ≤ S.uDegree + 1
  vcount : ∀ x, S.vKnots.count x ≤ S.vDegree + 1

/-- **C107**: a surface determines its control points. -/
theorem C107_surface_determined {eps : K} {S T : Surface K V} (h : TameNet eps S) (hT : T.Good eps) (h1 : T.uDegree = S.uDegree)
    (h2 : T.vDegree = S.vDegree) (h3 : T.uKnots = S.uKnots) (h4 : T.vKnots = S.vKnots)
    (he : ∀ u v, S.ulo < u → u < S.uhi → S.vlo < v → v < S.vhi → T.eval u v = S.eval u v) : T = S := by
  have hg := h.good
  have hlen : T.cps.length = S.cps.length := by
    have a := hg.u_len; have b := hT.u_len
    rw [h3, h1] at b; omega
  have hcols : T.cols = S.cols := by rw [Surface.cols, Surface.cols, h4, h2]
  have iso : ∀ v, S.vlo < v → v < S.vhi → T.isoV v = S.isoV v := by
    intro v v1 v2
    refine Tame.unique (eps := eps) ⟨hg.isoV v, ?_, ?_⟩ (hT.isoV v) h1 h3 ?_
    · intro x hx; rw [Surface.isoV_hi]; exact h.uin x hx
    · exact h.ucount
    · intro u u1 u2
      rw [Surface.isoV_hi] at u2
      rw [← Surface.eval_eq_isoV hT, ← Surface.eval_eq_isoV hg]
      exact he u v u1 u2 v1 v2
  have rows : ∀ i, i < S.cps.length → T.row i = S.row i := by
    intro i hi
    refine Tame.unique (eps := eps) ⟨hg.row hi, ?_, ?_⟩ (hT.row (by omega)) h2 h4 ?_
    · intro x hx; rw [Surface.row_hi hg hi]; exact h.vin x hx
    · exact h.vcount
    · intro v v1 v2
      rw [Surface.row_hi hg hi] at v2
      have := congrArg (fun c => c.cps.getD i 0) (iso v v1 v2)
      simpa [Surface.isoV, List.getD_eq_getElem?_getD, hi, hlen] using this
  have hcps : T.cps = S.cps := by
    apply List.ext_getElem hlen
    intro i g1 g2
    have := congrArg Curve.cps (rows i g2)
    simpa [Surface.row, List.getD_eq_getElem?_getD, g1, g2] using this
  obtain ⟨a1, a2, a3, a4, a5⟩ := T
  obtain ⟨b1, b2, b3, b4, b5⟩ := S
  simp only at h1 h2 h3 h4 hcps
  subst h1 h2 h3 h4 hcps
  rfl

/-- **C107**: refining a surface in u and in v commutes. -/
theorem C107_surface_refine_commutes {eps : K} {S : Surface K V} (h : TameNet eps S) {xs ys : List K}
    (hsx : xs.Pairwise (· ≤ ·)) (hsy : ys.Pairwise (· ≤ ·))
    (hx : ∀ x ∈ xs, S.ulo < x ∧ x < S.uhi) (hy : ∀ y ∈ ys, S.vlo < y ∧ y < S.vhi)
    (hsepx : ∀ x ∈ xs, ∀ y ∈ xs ++ S.uKnots, |y - x| < eps → y = x) (hsepy : ∀ x ∈ ys, ∀ y ∈ ys ++ S.vKnots, |y - x| < eps → y = x)
    (hcx : ∀ x, (xs ++ S.uKnots).count x ≤ S.uDegree + 1) (hcy : ∀ y, (ys ++ S.vKnots).count y ≤ S.vDegree + 1) :
    ∃ A B T, S.tryRefineKnot eps xs .u = .ok A ∧ A.tryRefineKnot eps ys .v = .ok T ∧
      S.tryRefineKnot eps ys .v = .ok B ∧ B.tryRefineKnot eps xs .u = .ok T := by
  have hg := h.good
  obtain ⟨A, eA, a1, a2, a3, a4, a5, a6, a7, -, a8, a9⟩ := C33_refine_u hg hsx (fun x h' => ⟨(hx x h').1.le, (hx x h').2.le⟩) hsepx
  obtain ⟨aG, a10, a11, -⟩ := a9 hx
  obtain ⟨B, eB, b1, b2, b3, b4, b5, b6, b7, -, b8, b9⟩ := C33_refine_v hg hsy (fun x h' => ⟨(hy x h').1.le, (hy x h').2.le⟩) hsepy
  obtain ⟨bG, b10, b11, -⟩ := b9 hy
  have avlo : A.vlo = S.vlo := by rw [Surface.vlo, Surface.vlo, a2, a3]
  have avhi : A.vhi = S.vhi := by rw [Surface.vhi, Surface.vhi, Surface.cols, Surface.cols, a2, a3]
  have bulo : B.ulo = S.ulo := by rw [Surface.ulo, Surface.ulo, b1, b3]
  have buhi : B.uhi = S.uhi := by rw [Surface.uhi, Surface.uhi, b3, b6]
  obtain ⟨T, eT, c1, c2, c3, c4, c5, c6, c7, -, c8, c9⟩ := C33_refine_v aG hsy
    (fun x h' => by rw [avlo, avhi]; exact ⟨(hy x h').1.le, (hy x h').2.le⟩) (by rw [a3]; exact hsepy)
  obtain ⟨cG, c10, c11, -⟩ := c9 (by rw [avlo, avhi]; exact hy)
  obtain ⟨T', eT', d1, d2, d3, d4, d5, d6, d7, -, d8, d9⟩ := C33_refine_u bG hsx
    (fun x h' => by rw [bulo, buhi]; exact ⟨(hx x h').1.le, (hx x h').2.le⟩) (by rw [b3]; exact hsepx)
  obtain ⟨dG, d10, d11, -⟩ := d9 (by rw [bulo, buhi]; exact hx)
  have tulo : T.ulo = S.ulo := by rw [Surface.ulo, c1, c3]; exact a10
  have tuhi : T.uhi = S.uhi := by rw [Surface.uhi, c3, c6]; exact a11
  have tvlo : T.vlo = S.vlo := c10.trans avlo
  have tvhi : T.vhi = S.vhi := c11.trans avhi
  have hT : T' = T := by
    refine C107_surface_determined (eps := eps) ⟨cG, ?_, ?_, ?_, ?_⟩ dG (by rw [d1, b1, c1, a1]) (by rw [d2, b2, c2, a2]) ?_ ?_ ?_
    · intro x hx'
      rw [tulo, tuhi]
      rw [c3] at hx'
      rcases List.mem_append.1 (a5.mem_iff.1 hx') with hx' | hx'
      · exact ⟨(hx x hx').1.le, (hx x hx').2.le⟩
      · exact h.uin x hx'
    · intro x hx'
      rw [tvlo, tvhi]
      rcases List.mem_append.1 (c5.mem_iff.1 hx') with hx' | hx'
      · exact ⟨(hy x hx').1.le, (hy x hx').2.le⟩
      · rw [a3] at hx'; exact h.vin x hx'
    · intro x; rw [c3, a5.count_eq, c1, a1]; exact hcx x
    · intro x; rw [c5.count_eq, a3, c2, a2]; exact hcy x
    · refine List.Perm.eq_of_pairwise (fun a b _ _ h1 h2 => le_antisymm h1 h2) d4 (by rw [c3]; exact a4) ?_
      rw [c3]
      refine d5.trans ?_
      rw [b3]; exact a5.symm
    · refine List.Perm.eq_of_pairwise (fun a b _ _ h1 h2 => le_antisymm h1 h2) (by rw [d3]; exact b4) c4 ?_
      rw [d3]
      refine b5.trans ?_
      rw [← a3]; exact c5.symm
    · intro u v u1 u2 v1 v2
      rw [tulo] at u1; rw [tuhi] at u2; rw [tvlo] at v1; rw [tvhi] at v2
      rw [d8 u v (by rw [bulo]; exact u1.le) (by rw [buhi]; exact u2.le), b8 u v v1.le v2.le,
        c8 u v (by rw [avlo]; exact v1.le) (by rw [avhi]; exact v2.le), a8 u v u1.le u2.le]
  rw [hT] at eT'
  exact ⟨A, B, T, eA, eT, eB, eT'⟩

/-! ### Witnesses -/

/-- Witness: a plane curve with a double knot (weights 2), every knot inside the domain. -/
theorem exPoly_tame : Tame (1/1000) exPoly := by
  refine ⟨exPoly_good, by decide +kernel, ?_⟩
  intro x
  by_cases hx : x ∈ exPoly.knots
  · revert x
    decide +kernel
  · rw [List.count_eq_zero.2 hx]; omega

theorem count_le_of_mem {l : List K} {m : ℕ} (h : ∀ x ∈ l, l.count x ≤ m) (x : K) : l.count x ≤ m := by
  by_cases hx : x ∈ l
  · exact h x hx
  · rw [List.count_eq_zero.2 hx]; omega

example : AllMatter exPoly := exPoly_tame.matter

/-- Inserting 1/2, then 5/2 and 5/2, is the same as inserting 5/2 first, then 1/2 with the second 5/2. -/
example : ∃ d, [[(1/2 : ℚ)], [5/2, 5/2]].foldlM (fun c xs => c.tryRefineKnot (1/1000) xs) exPoly = .ok d ∧
    [[(5/2 : ℚ)], [1/2, 5/2]].foldlM (fun c xs => c.tryRefineKnot (1/1000) xs) exPoly = .ok d :=
  C107_refine_any_order exPoly_good (by norm_num) (by norm_num) (by decide +kernel) exPoly_tame.inside (by decide +kernel)
    (by decide +kernel) (count_le_of_mem (by decide +kernel))

example : ∃ d, exPoly.tryAddKnot (1/2) = .ok d ∧ exPoly.tryRefineKnot (1/1000) [1/2] = .ok d :=
  C107_add_knot_is_refinement (w := 2) exPoly_good (by decide +kernel) (by decide +kernel) (by decide +kernel) exPoly_tame.inside
    (by decide +kernel) (count_le_of_mem (by decide +kernel))

/-- The cuts at 1/2 and 5/2 in either order. -/
example : ∃ l m r x y, exPoly.trySplit (1/1000) (1/2) = .ok (l, x) ∧ x.trySplit (1/1000) (5/2) = .ok (m, r) ∧
    exPoly.trySplit (1/1000) (5/2) = .ok (y, r) ∧ y.trySplit (1/1000) (1/2) = .ok (l, m) :=
  C107_split_any_order exPoly_tame (by decide +kernel) (by norm_num) (by decide +kernel) (by decide +kernel) (by decide +kernel)
    (by norm_num) (by decide +kernel) (by decide +kernel)

example : ∃ d l r l' r', exPoly.tryRefineKnot (1/1000) [1/2, 5/2] = .ok d ∧ exPoly.trySplit (1/1000) (3/2) = .ok (l, r) ∧
    l.tryRefineKnot (1/1000) ([1/2, 5/2].filter (· < 3/2)) = .ok l' ∧ r.tryRefineKnot (1/1000) ([1/2, 5/2].filter (3/2 < ·)) = .ok r' ∧
    d.trySplit (1/1000) (3/2) = .ok (l', r') :=
  C107_split_refined exPoly_tame (by decide +kernel) (by decide +kernel) (by norm_num) (by decide +kernel) (by decide +kernel)
    (count_le_of_mem (by decide +kernel)) (by decide +kernel) (by decide +kernel)

/-- Witness: a knot repeated `degree + 2` times, the control point in the middle has no effect. -/
def exIdle : Curve ℚ ℚ := ⟨1, [0, 1, 7, 2, 3], [0, 0, 1, 1, 1, 2, 2]⟩

example : ¬ AllMatter exIdle := by
  intro h
  exact absurd (h 2 (by decide)).1 (by decide +kernel)

theorem exSurf_tame : TameNet (1/1000) exSurf :=
  ⟨exSurf_good, by decide +kernel, by decide +kernel, count_le_of_mem (by decide +kernel), count_le_of_mem (by decide +kernel)⟩

example : ∃ A B T, exSurf.tryRefineKnot (1/1000) [1/2, 1] .u = .ok A ∧ A.tryRefineKnot (1/1000) [2] .v = .ok T ∧
    exSurf.tryRefineKnot (1/1000) [2] .v = .ok B ∧ B.tryRefineKnot (1/1000) [1/2, 1] .u = .ok T :=
  C107_surface_refine_commutes exSurf_tame (by norm_num) (by norm_num) (by decide +kernel) (by decide +kernel) (by decide +kernel)
    (by decide +kernel) (count_le_of_mem (by decide +kernel)) (count_le_of_mem (by decide +kernel))

end Curvo.Props

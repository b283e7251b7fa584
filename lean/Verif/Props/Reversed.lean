/-
  Refining and splitting reversed curves: C108.
-/
import Verif.Props.Unique
import Verif.Lemmas.Unify

set_option linter.unusedSectionVars false
set_option linter.unusedSimpArgs false

namespace Curvo.Props

open Curvo Curvo.Knots Curvo.Spec Curvo.Curve

variable {K : Type} [Field K] [LinearOrder K] [IsStrictOrderedRing K]
variable {V : Type} [AddCommGroup V] [Module K V]

/-- Tame curves without breaks: inside of the domain no knot is repeated more than `degree` times. -/
structure Unbroken (eps : K) (c : Curve K V) : Prop extends Tame eps c where
  inner : ∀ x, c.lo < x → x < c.hi → c.knots.count x ≤ c.degree

theorem Unbroken.cont {eps : K} {c : Curve K V} (h : Unbroken eps c) : ContKnots (kf c.knots) c.degree (c.cps.length - 1) := by
  intro i h1 h2
  have hl := h.good.knots_len
  have hp := h.good.cps_pos
  refine lt_of_le_of_ne (h.good.pre.mono _ _ (by omega) (by omega)) fun he => ?_
  have hc := count_of_equal h.good.pre.sorted (by omega) he
  have a1 : c.lo < kf c.knots i := lt_of_lt_of_le h.good.good.first (h.good.pre.mono _ _ (by omega) (by omega))
  have a2 : kf c.knots i < c.hi := by
    have := h.good.good.last
    rw [show c.cps.length - 1 + 1 = c.cps.length by omega] at this
    exact lt_of_le_of_lt (h.good.pre.mono i (c.cps.length - 1) (by omega) (by omega)) this
  have := h.inner _ a1 a2
  omega

/-- The knots of a tame curve begin and end with the ends of the domain. -/
theorem Tame.ends {eps : K} {c : Curve K V} (h : Tame eps c) : kf c.knots 0 = c.lo ∧ kf c.knots (c.knots.length - 1) = c.hi := by
  have hl := h.good.knots_len
  have hp := h.good.cps_pos
  have hd := h.good.pre.deg_lt
  have hm : ∀ j, j < c.knots.length → kf c.knots j ∈ c.knots := fun j hj => by rw [kf_eq hj]; exact List.getElem_mem _
  exact ⟨le_antisymm (h.good.pre.mono 0 c.degree (by omega) (by omega)) (h.inside _ (hm 0 (by omega))).1,
    le_antisymm (h.inside _ (hm _ (by omega))).2 (h.good.pre.mono c.cps.length _ (by omega) (by omega))⟩

/-- What inverting does to an unbroken curve. -/
theorem invert_unbroken {eps : K} {c : Curve K V} (h : Unbroken eps c) :
    ∃ c', c.invert = .ok c' ∧ Unbroken eps c' ∧ c'.degree = c.degree ∧ c'.cps = c.cps.reverse ∧
      c'.knots = c.knots.reverse.map (fun k => c.lo + c.hi - k) ∧ c'.lo = c.lo ∧ c'.hi = c.hi ∧
      ∀ u, c.lo ≤ u → u ≤ c.hi → c'.eval (c.lo + c.hi - u) = c.eval u := by
  have hl := h.good.knots_len
  obtain ⟨k0, k1⟩ := h.toTame.ends
  obtain ⟨c', e, g, hd, hlo, hhi, hev⟩ := C13_invert_reverses h.good h.cont
  rw [k0, k1] at hlo hhi
  have hlo : c'.lo = c.lo := by rw [hlo]; ring
  have hhi : c'.hi = c.hi := by rw [hhi]; ring
  have hne : c.knots ≠ [] := by intro he; rw [he] at hl; simp at hl
  have hck : c'.cps = c.cps.reverse ∧ c'.knots = c.knots.reverse.map (fun k => c.lo + c.hi - k) := by
    have e' := e
    rw [Curve.invert, C07_invert_mirror hne, ok_bind] at e'
    obtain rfl := Except.ok.inj e'
    refine ⟨rfl, ?_⟩
    have f0 : c.knots.head hne = c.lo := by rw [← k0, kf_eq (by omega), List.head_eq_getElem]
    have f1 : c.knots.getLast hne = c.hi := by rw [← k1, kf_eq (by omega), List.getLast_eq_getElem]
    show List.map _ _ = _
    rw [f0, f1]
  obtain ⟨hcps, hk⟩ := hck
  have hcount : ∀ x, c'.knots.count x = c.knots.count (c.lo + c.hi - x) := by
    intro x
    have hinj : Function.Injective fun k : K => c.lo + c.hi - k := fun a b hab => by simpa using hab
    have := List.count_map_of_injective c.knots.reverse _ hinj (c.lo + c.hi - x)
    rw [List.count_reverse] at this
    rw [hk, ← this]
    congr 1
    ring
  refine ⟨c', e, ⟨⟨g, ?_, ?_⟩, ?_⟩, hd, hcps, hk, hlo, hhi, ?_⟩
  · intro x hx
    rw [hk] at hx
    obtain ⟨y, hy, rfl⟩ := List.mem_map.1 hx
    have := h.inside y (by simpa using hy)
    rw [hlo, hhi]
    constructor <;> linarith [this.1, this.2]
  · intro x; rw [hcount, hd]; exact h.count _
  · intro x h1 h2
    rw [hlo] at h1; rw [hhi] at h2
    rw [hcount, hd]
    exact h.inner _ (by linarith) (by linarith)
  · intro u h1 h2
    have := hev u h1 h2
    rw [k0, k1, point_eq_eval g (by rw [hlo]; linarith) (by rw [hhi]; linarith), point_eq_eval h.good h1 h2] at this
    exact Except.ok.inj this

/-- **C108**: refining the reversed curve at the mirrored parameters gives the reversed refinement. -/
theorem C108_refine_reversed {eps : K} {c : Curve K V} {xs : List K} (h : Unbroken eps c)
    (hsort : xs.Pairwise (· ≤ ·)) (hdom : ∀ x ∈ xs, c.lo < x ∧ x < c.hi)
    (hsep : ∀ x ∈ xs, ∀ y ∈ xs ++ c.knots, |y - x| < eps → y = x)
    (hcount : ∀ x, c.lo < x → x < c.hi → (xs ++ c.knots).count x ≤ c.degree) :
    ∃ c' d d', c.invert = .ok c' ∧ c.tryRefineKnot eps xs = .ok d ∧ d.invert = .ok d' ∧
      c'.tryRefineKnot eps (xs.reverse.map fun x => c.lo + c.hi - x) = .ok d' := by
  have hg := h.good
  obtain ⟨c', e1, u1, d1, p1, k1, lo1, hi1, ev1⟩ := invert_unbroken h
  obtain ⟨d, e2, r2⟩ := tryRefineKnot_refines hg hsort (fun x hx => ⟨(hdom x hx).1.le, (hdom x hx).2.le⟩) hsep
  have gd := r2.good hg hdom (fun x hx y hy => hsep x hx y (List.mem_append_right _ hy))
  have ud : Unbroken eps d := by
    refine ⟨⟨gd, ?_, ?_⟩, ?_⟩
    · intro x hx
      rw [r2.lo, r2.hi]
      rcases List.mem_append.1 (r2.knots.mem_iff.1 hx) with hx | hx
      · exact ⟨(hdom x hx).1.le, (hdom x hx).2.le⟩
      · exact h.inside x hx
    · intro x
      rw [r2.knots.count_eq, r2.degree]
      by_cases hx : c.lo < x ∧ x < c.hi
      · exact (hcount x hx.1 hx.2).trans (by omega)
      · rw [List.count_append, List.count_eq_zero.2 fun hm => hx (hdom x hm), zero_add]
        exact h.count x
    · intro x g1 g2
      rw [r2.lo] at g1; rw [r2.hi] at g2
      rw [r2.knots.count_eq, r2.degree]; exact hcount x g1 g2
  obtain ⟨d', e3, u3, d3, p3, k3, lo3, hi3, ev3⟩ := invert_unbroken ud
  rw [r2.lo, r2.hi] at k3 ev3
  rw [r2.lo] at lo3; rw [r2.hi] at hi3
  have hrev : ∀ {l : List K}, l.Pairwise (· ≤ ·) → (l.reverse.map fun x => c.lo + c.hi - x).Pairwise (· ≤ ·) := by
    intro l hl
    rw [List.pairwise_map, List.pairwise_reverse]
    exact hl.imp fun hab => by linarith
  obtain ⟨e, e4, r4⟩ := tryRefineKnot_refines u1.good (xs := xs.reverse.map fun x => c.lo + c.hi - x) (hrev hsort)
    (by
      intro x hx
      obtain ⟨y, hy, rfl⟩ := List.mem_map.1 hx
      have := hdom y (by simpa using hy)
      rw [lo1, hi1]
      constructor <;> linarith [this.1, this.2])
    (by
      intro x hx y hy hlt
      obtain ⟨x', hx', rfl⟩ := List.mem_map.1 hx
      have hy' : ∃ y' ∈ xs ++ c.knots, c.lo + c.hi - y' = y := by
        rcases List.mem_append.1 hy with hy | hy
        · obtain ⟨y', hy', rfl⟩ := List.mem_map.1 hy
          exact ⟨y', List.mem_append_left _ (by simpa using hy'), rfl⟩
        · rw [k1] at hy
          obtain ⟨y', hy', rfl⟩ := List.mem_map.1 hy
          exact ⟨y', List.mem_append_right _ (by simpa using hy'), rfl⟩
      obtain ⟨y', hy', rfl⟩ := hy'
      have := hsep x' (by simpa using hx') y' hy' (by
        rw [show c.lo + c.hi - y' - (c.lo + c.hi - x') = -(y' - x') by ring, abs_neg] at hlt
        exact hlt)
      rw [this])
  have : e = d' := by
    refine C107_determined u3.good.pre r4.pre u3.toTame.matter (by rw [r4.degree, d1, d3, r2.degree]) ?_ ?_
    · refine List.Perm.eq_of_pairwise (fun a b _ _ h1 h2 => le_antisymm h1 h2) r4.pre.sorted u3.good.pre.sorted (r4.knots.trans ?_)
      rw [k1, k3, ← List.map_append]
      apply List.Perm.map
      refine ((List.reverse_perm xs).append (List.reverse_perm c.knots)).trans ?_
      exact r2.knots.symm.trans (List.reverse_perm _).symm
    · intro u g1 g2
      rw [lo3] at g1; rw [hi3] at g2
      rw [r4.eval u1.good.pre (by rw [lo1]; exact g1.le) (by rw [hi1]; exact g2.le)]
      have a1 := ev1 (c.lo + c.hi - u) (by linarith) (by linarith)
      have a2 := ev3 (c.lo + c.hi - u) (by linarith) (by linarith)
      rw [show c.lo + c.hi - (c.lo + c.hi - u) = u by ring] at a1 a2
      rw [a1, a2, r2.eval hg.pre (by linarith) (by linarith)]
  rw [this] at e4
  exact ⟨c', d, d', e1, e2, e3, e4⟩

/-- A curve with its knots moved by `t`. -/
def shifted (t : K) (c : Curve K V) : Curve K V := { c with knots := c.knots.map fun x => x + t }

theorem shifted_spec {eps : K} {c : Curve K V} (h : c.Good eps) (t : K) :
    (shifted t c).Good eps ∧ (shifted t c).lo = c.lo + t ∧ (shifted t c).hi = c.hi + t ∧
      ∀ u, c.lo ≤ u → u ≤ c.hi → (shifted t c).eval (u + t) = c.eval u := by
  have := affine_good h (α := 1) (β := t) le_rfl
  simpa [shifted, one_mul] using this

/-- **C108**: cutting the reversed curve at the mirrored parameter gives the reversed pieces in the other order,
    up to the beginning of their parameter ranges: the control points are those of the other piece backwards. -/
theorem C108_split_reversed {eps : K} {c : Curve K V} (h : Unbroken eps c) {u : K} (h1 : c.lo < u) (h2 : u < c.hi)
    (hsep : ∀ y ∈ c.knots, eps ≤ |y - u|) (hnew : u ∉ c.knots) :
    ∃ c' l r l' r', c.invert = .ok c' ∧ c.trySplit eps u = .ok (l, r) ∧ l.invert = .ok l' ∧ r.invert = .ok r' ∧
      c'.trySplit eps (c.lo + c.hi - u) = .ok (shifted (c.lo - u) r', shifted (c.hi - u) l') := by
  have hg := h.good
  obtain ⟨c', e1, u1, d1, p1, k1, lo1, hi1, ev1⟩ := invert_unbroken h
  obtain ⟨l, r, e2, s2⟩ := split_halves h.toTame h1 h2 hsep hnew
  have ul : Unbroken eps l := by
    refine ⟨s2.lt, fun x g1 g2 => ?_⟩
    rw [s2.llo] at g1; rw [s2.lhi] at g2
    rw [s2.lk, List.count_append, List.count_replicate, if_neg (by simpa using g2.ne'), add_zero, s2.ld]
    exact (List.filter_sublist.count_le x).trans (h.inner x g1 (g2.trans h2))
  have ur : Unbroken eps r := by
    refine ⟨s2.rt, fun x g1 g2 => ?_⟩
    rw [s2.rlo] at g1; rw [s2.rhi] at g2
    rw [s2.rk, List.count_append, List.count_replicate, if_neg (by simpa using g1.ne), zero_add, s2.rd]
    exact (List.filter_sublist.count_le x).trans (h.inner x (h1.trans g1) g2)
  obtain ⟨l', e3, u3, d3, p3, k3, lo3, hi3, ev3⟩ := invert_unbroken ul
  obtain ⟨r', e4, u4, d4, p4, k4, lo4, hi4, ev4⟩ := invert_unbroken ur
  rw [s2.llo, s2.lhi] at k3 ev3
  rw [s2.rlo, s2.rhi] at k4 ev4
  rw [s2.llo] at lo3; rw [s2.lhi] at hi3
  rw [s2.rlo] at lo4; rw [s2.rhi] at hi4
  have hm : ∀ y ∈ c'.knots, ∃ z ∈ c.knots, y = c.lo + c.hi - z := by
    intro y hy
    rw [k1] at hy
    obtain ⟨z, hz, rfl⟩ := List.mem_map.1 hy
    exact ⟨z, by simpa using hz, rfl⟩
  obtain ⟨a, b, e5, s5⟩ := split_halves u1.toTame (u := c.lo + c.hi - u) (by rw [lo1]; linarith) (by rw [hi1]; linarith)
    (by
      intro y hy
      obtain ⟨z, hz, rfl⟩ := hm y hy
      rw [show c.lo + c.hi - z - (c.lo + c.hi - u) = -(z - u) by ring, abs_neg]
      exact hsep z hz)
    (by
      intro hy
      obtain ⟨z, hz, he⟩ := hm _ hy
      have : u = z := by linarith
      exact hnew (this ▸ hz))
  obtain ⟨sg1, slo1, shi1, sev1⟩ := shifted_spec u4.good (c.lo - u)
  obtain ⟨sg2, slo2, shi2, sev2⟩ := shifted_spec u3.good (c.hi - u)
  have f1 : ∀ q : K → Prop, [DecidablePred q] → ∀ q' : K → Prop, [DecidablePred q'] → (∀ z, q (c.lo + c.hi - z) ↔ q' z) →
      c'.knots.filter (fun x => decide (q x)) = (c.knots.filter (fun x => decide (q' x))).reverse.map fun k => c.lo + c.hi - k := by
    intro q _ q' _ hq
    rw [k1, List.filter_map, ← List.filter_reverse]
    congr 1
    apply List.filter_congr
    intro z _
    simp [hq z]
  have hA : shifted (c.lo - u) r' = a := by
    refine s5.lt.unique sg1 (by rw [s5.ld, d1]; show r'.degree = _; rw [d4, s2.rd]) ?_ ?_
    · show r'.knots.map _ = _
      rw [k4, s5.lk, s2.rk, d1, f1 (fun x => x < c.lo + c.hi - u) (fun z => u < z) (fun z => by constructor <;> intro _ <;> linarith)]
      rw [List.reverse_append, List.map_append, List.map_append, List.map_map, List.reverse_replicate, List.map_replicate, List.map_replicate]
      congr 1
      · apply List.map_congr_left
        intro x _
        simp only [Function.comp]; ring
      · congr 1; ring
    · intro t t1 t2
      rw [s5.llo, lo1] at t1; rw [s5.lhi] at t2
      have a1 := sev1 (t - (c.lo - u)) (by rw [lo4]; linarith) (by rw [hi4]; linarith)
      rw [sub_add_cancel] at a1
      have a2 := ev4 (u + c.hi - (t - (c.lo - u))) (by linarith) (by linarith)
      rw [show u + c.hi - (u + c.hi - (t - (c.lo - u))) = t - (c.lo - u) by ring] at a2
      have a3 := ev1 (c.lo + c.hi - t) (by linarith) (by linarith)
      rw [show c.lo + c.hi - (c.lo + c.hi - t) = t by ring] at a3
      rw [a1, a2, s5.le t (by rw [lo1]; exact t1.le) t2.le, a3, s2.re _ (by linarith) (by linarith)]
      congr 1; ring
  have hB : shifted (c.hi - u) l' = b := by
    refine s5.rt.unique sg2 (by rw [s5.rd, d1]; show l'.degree = _; rw [d3, s2.ld]) ?_ ?_
    · show l'.knots.map _ = _
      rw [k3, s5.rk, s2.lk, d1, f1 (fun x => c.lo + c.hi - u < x) (fun z => z < u) (fun z => by constructor <;> intro _ <;> linarith)]
      rw [List.reverse_append, List.map_append, List.map_append, List.map_map, List.reverse_replicate, List.map_replicate]
      congr 1
      · congr 1; simp only [Function.comp]; ring
      · rw [List.map_map]
        apply List.map_congr_left
        intro x _
        simp only [Function.comp]; ring
    · intro t t1 t2
      rw [s5.rlo] at t1; rw [s5.rhi, hi1] at t2
      have a1 := sev2 (t - (c.hi - u)) (by rw [lo3]; linarith) (by rw [hi3]; linarith)
      rw [sub_add_cancel] at a1
      have a2 := ev3 (c.lo + u - (t - (c.hi - u))) (by linarith) (by linarith)
      rw [show c.lo + u - (c.lo + u - (t - (c.hi - u))) = t - (c.hi - u) by ring] at a2
      have a3 := ev1 (c.lo + c.hi - t) (by linarith) (by linarith)
      rw [show c.lo + c.hi - (c.lo + c.hi - t) = t by ring] at a3
      rw [a1, a2, s5.re t t1.le (by rw [hi1]; exact t2.le), a3, s2.le _ (by linarith) (by linarith)]
      congr 1; ring
  exact ⟨c', l, r, l', r', e1, e2, e3, e4, by rw [hA, hB]; exact e5⟩

/-- Witnesses: the plane curve with a double knot, refined at 1/2 and 5/2, or cut at 1/2. -/
theorem exPoly_unbroken : Unbroken (1/1000) exPoly := by
  refine ⟨exPoly_tame, ?_⟩
  intro x h1 h2
  by_cases hx : x ∈ exPoly.knots
  · exact (by decide +kernel : ∀ x ∈ exPoly.knots, exPoly.lo < x → x < exPoly.hi → exPoly.knots.count x ≤ exPoly.degree) x hx h1 h2
  · rw [List.count_eq_zero.2 hx]; omega

example : ∃ c' d d', exPoly.invert = .ok c' ∧ exPoly.tryRefineKnot (1/1000) [1/2, 5/2] = .ok d ∧ d.invert = .ok d' ∧
    c'.tryRefineKnot (1/1000) ([1/2, 5/2].reverse.map fun x => exPoly.lo + exPoly.hi - x) = .ok d' :=
  C108_refine_reversed exPoly_unbroken (by norm_num) (by decide +kernel) (by decide +kernel) (by
    intro x h1 h2
    by_cases hx : x ∈ [1/2, 5/2] ++ exPoly.knots
    · exact (by decide +kernel : ∀ x ∈ [1/2, 5/2] ++ exPoly.knots, exPoly.lo < x → x < exPoly.hi →
        ([1/2, 5/2] ++ exPoly.knots).count x ≤ exPoly.degree) x hx h1 h2
    · rw [List.count_eq_zero.2 hx]; omega)

example : ∃ c' l r l' r', exPoly.invert = .ok c' ∧ exPoly.trySplit (1/1000) (1/2) = .ok (l, r) ∧ l.invert = .ok l' ∧ r.invert = .ok r' ∧
    c'.trySplit (1/1000) (exPoly.lo + exPoly.hi - 1/2) = .ok (shifted (exPoly.lo - 1/2) r', shifted (exPoly.hi - 1/2) l') :=
  C108_split_reversed exPoly_unbroken (by decide +kernel) (by decide +kernel) (by decide +kernel) (by decide +kernel)

end Curvo.Props

/-
  Cutting composes: C111.
-/
import Verif.Props.Unique
import Verif.Props.Reversed

set_option linter.unusedSectionVars false
set_option linter.unusedSimpArgs false

namespace Curvo.Props

open Curvo Curvo.Knots Curvo.Spec Curvo.Curve Curvo.Surface

variable {K : Type} [Field K] [LinearOrder K] [IsStrictOrderedRing K]
variable {V : Type} [AddCommGroup V] [Module K V]

/-- A parameter is clear of a list of knots: no knot within the tolerance, and it is no knot. -/
def ClearOf (eps : K) (ks : List K) (u : K) : Prop := (∀ y ∈ ks, eps ≤ |y - u|) ∧ u ∉ ks

/-- The piece of a curve over `[a, b]`. -/
structure PieceOf (eps : K) (c : Curve K V) (a b : K) (d : Curve K V) : Prop where
  tame : Tame eps d
  deg : d.degree = c.degree
  knots : d.knots = List.replicate (c.degree + 1) a ++ (c.knots.filter (fun x => decide (a < x) && decide (x < b)) ++
    List.replicate (c.degree + 1) b)
  lo : d.lo = a
  hi : d.hi = b
  ev : ∀ x, a ≤ x → x ≤ b → d.eval x = c.eval x

/-- Trimming inside: the outcome has one piece, whose knots and points are known. -/
theorem trim_piece {eps : K} {c : Curve K V} (h : Tame eps c) {a b : K} (h1 : c.lo < a) (hab : a < b) (h2 : b < c.hi)
    (ha : ClearOf eps c.knots a) (hb : ClearOf eps c.knots b) (hgap : eps ≤ b - a) :
    ∃ d, c.tryTrimRange eps a b = .ok [d] ∧ PieceOf eps c a b d := by
  obtain ⟨l, x, e1, s1⟩ := split_halves h h1 (hab.trans h2) ha.1 ha.2
  have hx : ∀ z ∈ x.knots, z = a ∨ z ∈ c.knots := by
    intro z hz
    rw [s1.rk] at hz
    rcases List.mem_append.1 hz with hz | hz
    · exact Or.inl (List.eq_of_mem_replicate hz)
    · exact Or.inr (List.mem_filter.1 hz).1
  obtain ⟨m, r, e3, s3⟩ := split_halves s1.rt (u := b) (by rw [s1.rlo]; exact hab) (by rw [s1.rhi]; exact h2) (by
    intro z hz
    rcases hx z hz with rfl | hz
    · rw [abs_sub_comm, abs_of_pos (sub_pos.2 hab)]; exact hgap
    · exact hb.1 z hz) (by
    intro hz
    rcases hx b hz with hz | hz
    · exact hab.ne' hz
    · exact hb.2 hz)
  refine ⟨m, ?_, s3.lt, by rw [s3.ld, s1.rd], ?_, by rw [s3.llo, s1.rlo], s3.lhi, ?_⟩
  · unfold Curve.tryTrimRange
    simp only [if_pos hab, min_eq_left hab.le, max_eq_right hab.le, e1, e3, ok_bind, pure_eq_ok]
  · rw [s3.lk, s1.rk, s1.rd, List.filter_append, List.filter_eq_self (l := List.replicate _ a).2 (by
      intro z hz; rw [List.eq_of_mem_replicate hz]; simpa using hab), List.append_assoc, List.filter_filter]
    congr 2
    apply List.filter_congr
    intro z _
    exact Bool.and_comm _ _
  · intro t t1 t2
    rw [s3.le t (by rw [s1.rlo]; exact t1) t2, s1.re t t1 (t2.trans h2.le)]

/-- **C111**: trimming a trimmed curve is trimming the curve. -/
theorem C111_trim_trim {eps : K} {c : Curve K V} (h : Tame eps c) {a a' b' b : K} (h1 : c.lo < a) (h2 : a < a') (h3 : a' < b')
    (h4 : b' < b) (h5 : b < c.hi) (ca : ClearOf eps c.knots a) (ca' : ClearOf eps c.knots a') (cb' : ClearOf eps c.knots b')
    (cb : ClearOf eps c.knots b) (g1 : eps ≤ a' - a) (g2 : eps ≤ b' - a') (g3 : eps ≤ b - b') :
    ∃ d e, c.tryTrimRange eps a b = .ok [d] ∧ d.tryTrimRange eps a' b' = .ok [e] ∧ c.tryTrimRange eps a' b' = .ok [e] := by
  obtain ⟨d, e1, p1⟩ := trim_piece h h1 (h2.trans (h3.trans h4)) h5 ca cb (by linarith)
  obtain ⟨e, e2, p2⟩ := trim_piece h (h1.trans h2) h3 (h4.trans h5) ca' cb' g2
  have hmem : ∀ z ∈ d.knots, z = a ∨ z ∈ c.knots ∨ z = b := by
    intro z hz
    rw [p1.knots] at hz
    rcases List.mem_append.1 hz with hz | hz
    · exact Or.inl (List.eq_of_mem_replicate hz)
    rcases List.mem_append.1 hz with hz | hz
    · exact Or.inr (Or.inl (List.mem_filter.1 hz).1)
    · exact Or.inr (Or.inr (List.eq_of_mem_replicate hz))
  have hclear : ∀ u, a' ≤ u → u ≤ b' → ClearOf eps c.knots u → ClearOf eps d.knots u := by
    intro u u1 u2 hu
    refine ⟨fun y hy => ?_, fun hy => ?_⟩
    · rcases hmem y hy with rfl | hy | rfl
      · rw [abs_sub_comm, abs_of_pos (by linarith)]; linarith
      · exact hu.1 y hy
      · rw [abs_of_pos (by linarith)]; linarith
    · rcases hmem u hy with rfl | hy | rfl
      · exact absurd h2 (not_lt.2 u1)
      · exact hu.2 hy
      · exact absurd h4 (not_lt.2 u2)
  obtain ⟨e', e3, p3⟩ := trim_piece p1.tame (by rw [p1.lo]; exact h2) h3 (by rw [p1.hi]; exact h4) (hclear a' le_rfl h3.le ca')
    (hclear b' h3.le le_rfl cb') g2
  have he : e' = e := by
    refine p2.tame.unique p3.tame.good (by rw [p3.deg, p1.deg, p2.deg]) ?_ ?_
    · rw [p3.knots, p2.knots, p1.deg, p1.knots, List.filter_append, List.filter_append,
        List.filter_eq_nil_iff (l := List.replicate _ a).2 (by
          intro z hz; rw [List.eq_of_mem_replicate hz]; simp [h2.le, not_lt.2 h2.le]),
        List.filter_eq_nil_iff (l := List.replicate _ b).2 (by
          intro z hz; rw [List.eq_of_mem_replicate hz]; simp [h4.le]), List.nil_append, List.append_nil, List.filter_filter]
      congr 2
      apply List.filter_congr
      intro z _
      by_cases hz : a' < z
      · by_cases hz' : z < b'
        · simp [hz, hz', h2.trans hz, hz'.trans h4]
        · simp [hz, hz']
      · simp [hz]
    · intro t t1 t2
      rw [p2.lo] at t1; rw [p2.hi] at t2
      rw [p3.ev t t1.le t2.le, p1.ev t (h2.trans t1).le (t2.trans h4).le, p2.ev t t1.le t2.le]
  rw [he] at e3
  exact ⟨d, e, e1, e3, e2⟩

/-- **C111**: the part inside a range and the two parts outside are the three pieces the two cuts leave. -/
theorem C111_inside_outside {eps : K} {c : Curve K V} (h : Tame eps c) {a b : K} (h1 : c.lo < a) (hab : a < b) (h2 : b < c.hi)
    (ha : ClearOf eps c.knots a) (hb : ClearOf eps c.knots b) (hgap : eps ≤ b - a) :
    ∃ l m r x, c.trySplit eps a = .ok (l, x) ∧ x.trySplit eps b = .ok (m, r) ∧ c.tryTrimRange eps a b = .ok [m] ∧
      c.tryTrimRange eps b a = .ok [r, l] := by
  obtain ⟨l, m, r, x, y, e1, e2, e3, e4⟩ := C107_split_any_order h h1 hab h2 ha.1 hb.1 hgap ha.2 hb.2
  refine ⟨l, m, r, x, e1, e2, ?_, ?_⟩
  · unfold Curve.tryTrimRange
    simp only [if_pos hab, min_eq_left hab.le, max_eq_right hab.le, e1, e2, ok_bind, pure_eq_ok]
  · unfold Curve.tryTrimRange
    simp only [if_neg (not_lt.2 hab.le), min_eq_right hab.le, max_eq_left hab.le, e1, e2, ok_bind, pure_eq_ok]

/-- **C111**: trimming the reversed curve to the mirrored range is the reversed trimmed curve, up to the beginning of the
    parameter range. -/
theorem C111_trim_reversed {eps : K} {c : Curve K V} (h : Unbroken eps c) {a b : K} (h1 : c.lo < a) (hab : a < b) (h2 : b < c.hi)
    (ha : ClearOf eps c.knots a) (hb : ClearOf eps c.knots b) (hgap : eps ≤ b - a) :
    ∃ c' d d', c.invert = .ok c' ∧ c.tryTrimRange eps a b = .ok [d] ∧ d.invert = .ok d' ∧
      c'.tryTrimRange eps (c.lo + c.hi - b) (c.lo + c.hi - a) = .ok [shifted (c.lo + c.hi - a - b) d'] := by
  obtain ⟨c', e1, u1, d1, p1, k1, lo1, hi1, ev1⟩ := invert_unbroken h
  obtain ⟨d, e2, q⟩ := trim_piece h.toTame h1 hab h2 ha hb hgap
  have ud : Unbroken eps d := by
    refine ⟨q.tame, fun x g1 g2 => ?_⟩
    rw [q.lo] at g1; rw [q.hi] at g2
    rw [q.knots, List.count_append, List.count_append, List.count_replicate, List.count_replicate, if_neg (by simpa using g1.ne),
      if_neg (by simpa using g2.ne'), zero_add, add_zero, q.deg]
    exact (List.filter_sublist.count_le x).trans (h.inner x (h1.trans g1) (g2.trans h2))
  obtain ⟨d', e3, u3, d3, p3, k3, lo3, hi3, ev3⟩ := invert_unbroken ud
  rw [q.lo, q.hi] at k3 ev3
  rw [q.lo] at lo3; rw [q.hi] at hi3
  have hm : ∀ y ∈ c'.knots, ∃ z ∈ c.knots, y = c.lo + c.hi - z := by
    intro y hy
    rw [k1] at hy
    obtain ⟨z, hz, rfl⟩ := List.mem_map.1 hy
    exact ⟨z, by simpa using hz, rfl⟩
  have hclear : ∀ u, ClearOf eps c.knots u → ClearOf eps c'.knots (c.lo + c.hi - u) := by
    intro u hu
    refine ⟨fun y hy => ?_, fun hy => ?_⟩
    · obtain ⟨z, hz, rfl⟩ := hm y hy
      rw [show c.lo + c.hi - z - (c.lo + c.hi - u) = -(z - u) by ring, abs_neg]
      exact hu.1 z hz
    · obtain ⟨z, hz, he⟩ := hm _ hy
      have : u = z := by linarith
      exact hu.2 (this ▸ hz)
  obtain ⟨e, e4, s⟩ := trim_piece u1.toTame (a := c.lo + c.hi - b) (b := c.lo + c.hi - a) (by rw [lo1]; linarith) (by linarith)
    (by rw [hi1]; linarith) (hclear b hb) (hclear a ha) (by linarith)
  obtain ⟨sg, slo, shi, sev⟩ := shifted_spec u3.good (c.lo + c.hi - a - b)
  have he : shifted (c.lo + c.hi - a - b) d' = e := by
    refine s.tame.unique sg (by rw [s.deg, d1]; show d'.degree = _; rw [d3, q.deg]) ?_ ?_
    · show d'.knots.map _ = _
      rw [k3, s.knots, q.knots, d1, k1, List.filter_map, List.reverse_append, List.reverse_append,
        List.map_append, List.map_append, List.map_append, List.map_append, List.reverse_replicate, List.reverse_replicate,
        List.map_replicate, List.map_replicate, List.map_replicate, List.map_replicate, List.append_assoc, List.map_map]
      congr 1
      · congr 1; ring
      · congr 1
        · rw [List.filter_reverse]
          have : c.knots.filter ((fun x => decide (c.lo + c.hi - b < x) && decide (x < c.lo + c.hi - a)) ∘ fun k => c.lo + c.hi - k)
              = c.knots.filter (fun x => decide (a < x) && decide (x < b)) := by
            apply List.filter_congr
            intro z _
            simp only [Function.comp, sub_lt_sub_iff_left]
            exact Bool.and_comm _ _
          rw [this]
          apply List.map_congr_left
          intro x _
          simp only [Function.comp]; ring
        · congr 1; ring
    · intro t t1 t2
      rw [s.lo] at t1; rw [s.hi] at t2
      have a1 := sev (t - (c.lo + c.hi - a - b)) (by rw [lo3]; linarith) (by rw [hi3]; linarith)
      rw [sub_add_cancel] at a1
      have a2 := ev3 (c.lo + c.hi - t) (by linarith) (by linarith)
      rw [show a + b - (c.lo + c.hi - t) = t - (c.lo + c.hi - a - b) by ring] at a2
      have a3 := ev1 (c.lo + c.hi - t) (by linarith) (by linarith)
      rw [show c.lo + c.hi - (c.lo + c.hi - t) = t by ring] at a3
      rw [a1, a2, s.ev t t1.le t2.le, a3, q.ev _ (by linarith) (by linarith)]
  exact ⟨c', d, d', e1, e2, e3, by rw [he]; exact e4⟩

/-! ### Surfaces -/

/-- The halves of a surface split at a parameter of u that is not a knot. -/
structure HalvesU (eps : K) (S : Surface K V) (t : K) (L R : Surface K V) : Prop where
  lt : TameNet eps L
  rt : TameNet eps R
  ld : L.uDegree = S.uDegree
  rd : R.uDegree = S.uDegree
  lvd : L.vDegree = S.vDegree
  rvd : R.vDegree = S.vDegree
  lk : L.uKnots = S.uKnots.filter (· < t) ++ List.replicate (S.uDegree + 1) t
  rk : R.uKnots = List.replicate (S.uDegree + 1) t ++ S.uKnots.filter (t < ·)
  lvk : L.vKnots = S.vKnots
  rvk : R.vKnots = S.vKnots
  llo : L.ulo = S.ulo
  lhi : L.uhi = t
  rlo : R.ulo = t
  rhi : R.uhi = S.uhi
  lvlo : L.vlo = S.vlo
  lvhi : L.vhi = S.vhi
  rvlo : R.vlo = S.vlo
  rvhi : R.vhi = S.vhi
  le : ∀ u v, S.ulo ≤ u → u ≤ t → S.vlo ≤ v → v ≤ S.vhi → L.eval u v = S.eval u v
  re : ∀ u v, t ≤ u → u ≤ S.uhi → S.vlo ≤ v → v ≤ S.vhi → R.eval u v = S.eval u v

/-- The halves of a surface split at a parameter of v that is not a knot. -/
structure HalvesV (eps : K) (S : Surface K V) (t : K) (L R : Surface K V) : Prop where
  lt : TameNet eps L
  rt : TameNet eps R
  ld : L.vDegree = S.vDegree
  rd : R.vDegree = S.vDegree
  lud : L.uDegree = S.uDegree
  rud : R.uDegree = S.uDegree
  lk : L.vKnots = S.vKnots.filter (· < t) ++ List.replicate (S.vDegree + 1) t
  rk : R.vKnots = List.replicate (S.vDegree + 1) t ++ S.vKnots.filter (t < ·)
  luk : L.uKnots = S.uKnots
  ruk : R.uKnots = S.uKnots
  llo : L.vlo = S.vlo
  lhi : L.vhi = t
  rlo : R.vlo = t
  rhi : R.vhi = S.vhi
  lulo : L.ulo = S.ulo
  luhi : L.uhi = S.uhi
  rulo : R.ulo = S.ulo
  ruhi : R.uhi = S.uhi
  le : ∀ u v, S.ulo ≤ u → u ≤ S.uhi → S.vlo ≤ v → v ≤ t → L.eval u v = S.eval u v
  re : ∀ u v, S.ulo ≤ u → u ≤ S.uhi → t ≤ v → v ≤ S.vhi → R.eval u v = S.eval u v

theorem TameNet.col {eps : K} {S : Surface K V} (h : TameNet eps S) (j : ℕ) : Tame eps (S.col j) :=
  ⟨h.good.col j, fun x hx => by have := h.uin x hx; rw [col_lo, col_hi]; exact this, h.ucount⟩

theorem TameNet.row {eps : K} {S : Surface K V} (h : TameNet eps S) {i : ℕ} (hi : i < S.cps.length) : Tame eps (S.row i) :=
  ⟨h.good.row hi, fun x hx => by have := h.vin x hx; rw [row_hi h.good hi]; exact this, h.vcount⟩

theorem halves_u {eps : K} {S : Surface K V} (h : TameNet eps S) {t : K} (h1 : S.ulo < t) (h2 : t < S.uhi)
    (ht : ClearOf eps S.uKnots t) : ∃ L R, S.trySplit eps t .u = .ok (L, R) ∧ HalvesU eps S t L R := by
  have hg := h.good
  have hsep : ∀ y ∈ S.uKnots, |y - t| < eps → y = t := fun y hy hlt => absurd hlt (not_lt.2 (ht.1 y hy))
  obtain ⟨L, R, e, a1, a2, a3, a4, b1, b2, b3, b4, rr, ll⟩ := C33_split_u hg h1.le h2.le hsep
  obtain ⟨L', R', e', d1, d2, k1, k2, -, -, hc⟩ := split_u hg h1.le h2.le hsep
  rw [e] at e'; cases e'
  obtain ⟨l, r, e0, s0⟩ := split_halves (h.col 0) (u := t) h1 (by rw [col_hi]; exact h2) ht.1 ht.2
  rw [(hc 0 hg.cols_pos).1] at e0; cases e0
  obtain ⟨rg, re⟩ := rr h2
  obtain ⟨lg, le⟩ := ll fun hm => absurd hm ht.2
  have t1 := s0.lt
  have t2 := s0.rt
  refine ⟨L, R, e, ⟨lg, ?_, ?_, ?_, ?_⟩, ⟨rg, ?_, ?_, ?_, ?_⟩, s0.ld, s0.rd, d1, d2, s0.lk, s0.rk, k1, k2, a1, a2, a3, a4, b1, b2, b3, b4, ?_, ?_⟩
  · intro x hx; have := t1.inside x hx; rw [col_lo, col_hi] at this; exact this
  · intro x hx; rw [k1] at hx; rw [b1, b2]; exact h.vin x hx
  · exact t1.count
  · intro x; rw [k1, d1]; exact h.vcount x
  · intro x hx; have := t2.inside x hx; rw [col_lo, col_hi] at this; exact this
  · intro x hx; rw [k2] at hx; rw [b3, b4]; exact h.vin x hx
  · exact t2.count
  · intro x; rw [k2, d2]; exact h.vcount x
  · intro u v u1 u2 v1 v2
    have := le u v u1 u2 v1 v2
    rw [Surface.point_eq_eval hg u1 (u2.trans h2.le) v1 v2, Surface.point_eq_eval lg (by rw [a1]; exact u1) (by rw [a2]; exact u2)
      (by rw [b1]; exact v1) (by rw [b2]; exact v2)] at this
    exact Except.ok.inj this
  · intro u v u1 u2 v1 v2
    have := re u v u1 u2 v1 v2
    rw [Surface.point_eq_eval hg (h1.le.trans u1) u2 v1 v2, Surface.point_eq_eval rg (by rw [a3]; exact u1) (by rw [a4]; exact u2)
      (by rw [b3]; exact v1) (by rw [b4]; exact v2)] at this
    exact Except.ok.inj this

theorem halves_v {eps : K} {S : Surface K V} (h : TameNet eps S) {t : K} (h1 : S.vlo < t) (h2 : t < S.vhi)
    (ht : ClearOf eps S.vKnots t) : ∃ L R, S.trySplit eps t .v = .ok (L, R) ∧ HalvesV eps S t L R := by
  have hg := h.good
  have hrp := hg.rows_pos
  have hsep : ∀ y ∈ S.vKnots, |y - t| < eps → y = t := fun y hy hlt => absurd hlt (not_lt.2 (ht.1 y hy))
  obtain ⟨L, R, e, b1, b2, b3, b4, rr, ll⟩ := C33_split_v hg h1.le h2.le hsep
  obtain ⟨L', R', e', d1, d2, k1, k2, -, -, hc⟩ := split_v hg h1.le h2.le hsep
  rw [e] at e'; cases e'
  obtain ⟨l, r, e0, s0⟩ := split_halves (h.row hrp) (u := t) h1 (by rw [row_hi hg hrp]; exact h2) ht.1 ht.2
  rw [(hc 0 hrp).1] at e0; cases e0
  obtain ⟨rg, a3, a4, re⟩ := rr h2
  obtain ⟨lg, a1, a2, le⟩ := ll fun hm => absurd hm ht.2
  have t1 := s0.lt
  have t2 := s0.rt
  refine ⟨L, R, e, ⟨lg, ?_, ?_, ?_, ?_⟩, ⟨rg, ?_, ?_, ?_, ?_⟩, s0.ld, s0.rd, d1, d2, s0.lk, s0.rk, k1, k2, a1, a2, a3, a4, b1, b2, b3, b4, ?_, ?_⟩
  · intro x hx; rw [k1] at hx; rw [b1, b2]; exact h.uin x hx
  · intro x hx; have := t1.inside x hx; rw [row_hi lg lg.rows_pos] at this; exact this
  · intro x; rw [k1, d1]; exact h.ucount x
  · exact t1.count
  · intro x hx; rw [k2] at hx; rw [b3, b4]; exact h.uin x hx
  · intro x hx; have := t2.inside x hx; rw [row_hi rg rg.rows_pos] at this; exact this
  · intro x; rw [k2, d2]; exact h.ucount x
  · exact t2.count
  · intro u v u1 u2 v1 v2
    have := le u v u1 u2 v1 v2
    rw [Surface.point_eq_eval hg u1 u2 v1 (v2.trans h2.le), Surface.point_eq_eval lg (by rw [b1]; exact u1) (by rw [b2]; exact u2)
      (by rw [a1]; exact v1) (by rw [a2]; exact v2)] at this
    exact Except.ok.inj this
  · intro u v u1 u2 v1 v2
    have := re u v u1 u2 v1 v2
    rw [Surface.point_eq_eval hg u1 u2 (h1.le.trans v1) v2, Surface.point_eq_eval rg (by rw [b3]; exact u1) (by rw [b4]; exact u2)
      (by rw [a3]; exact v1) (by rw [a4]; exact v2)] at this
    exact Except.ok.inj this

/-- **C111**: cutting a surface once in u and once in v leaves the same four patches, whichever direction is cut first. -/
theorem C111_four_patches {eps : K} {S : Surface K V} (h : TameNet eps S) {s t : K} (h1 : S.ulo < s) (h2 : s < S.uhi)
    (h3 : S.vlo < t) (h4 : t < S.vhi) (hs : ClearOf eps S.uKnots s) (ht : ClearOf eps S.vKnots t) :
    ∃ L R B T LB LT RB RT, S.trySplit eps s .u = .ok (L, R) ∧ L.trySplit eps t .v = .ok (LB, LT) ∧ R.trySplit eps t .v = .ok (RB, RT) ∧
      S.trySplit eps t .v = .ok (B, T) ∧ B.trySplit eps s .u = .ok (LB, RB) ∧ T.trySplit eps s .u = .ok (LT, RT) := by
  obtain ⟨L, R, e1, x1⟩ := halves_u h h1 h2 hs
  obtain ⟨B, T, e2, x2⟩ := halves_v h h3 h4 ht
  obtain ⟨LB, LT, e3, x3⟩ := halves_v x1.lt (t := t) (by rw [x1.lvlo]; exact h3) (by rw [x1.lvhi]; exact h4) (by rw [x1.lvk]; exact ht)
  obtain ⟨RB, RT, e4, x4⟩ := halves_v x1.rt (t := t) (by rw [x1.rvlo]; exact h3) (by rw [x1.rvhi]; exact h4) (by rw [x1.rvk]; exact ht)
  obtain ⟨LB', RB', e5, x5⟩ := halves_u x2.lt (t := s) (by rw [x2.lulo]; exact h1) (by rw [x2.luhi]; exact h2) (by rw [x2.luk]; exact hs)
  obtain ⟨LT', RT', e6, x6⟩ := halves_u x2.rt (t := s) (by rw [x2.rulo]; exact h1) (by rw [x2.ruhi]; exact h2) (by rw [x2.ruk]; exact hs)
  have q1 : LB' = LB := by
    refine C107_surface_determined x3.lt x5.lt.good (by rw [x5.ld, x2.lud, x3.lud, x1.ld]) (by rw [x5.lvd, x2.ld, x3.ld, x1.lvd])
      (by rw [x5.lk, x2.luk, x2.lud, x3.luk, x1.lk]) (by rw [x5.lvk, x2.lk, x3.lk, x1.lvk, x1.lvd]) ?_
    intro u v u1 u2 v1 v2
    rw [x3.lulo, x1.llo] at u1; rw [x3.luhi, x1.lhi] at u2; rw [x3.llo, x1.lvlo] at v1; rw [x3.lhi] at v2
    rw [x5.le u v (by rw [x2.lulo]; exact u1.le) u2.le (by rw [x2.llo]; exact v1.le) (by rw [x2.lhi]; exact v2.le),
      x2.le u v u1.le (u2.trans h2).le v1.le v2.le,
      x3.le u v (by rw [x1.llo]; exact u1.le) (by rw [x1.lhi]; exact u2.le) (by rw [x1.lvlo]; exact v1.le) v2.le,
      x1.le u v u1.le u2.le v1.le (v2.trans h4).le]
  have q2 : RB' = RB := by
    refine C107_surface_determined x4.lt x5.rt.good (by rw [x5.rd, x2.lud, x4.lud, x1.rd]) (by rw [x5.rvd, x2.ld, x4.ld, x1.rvd])
      (by rw [x5.rk, x2.luk, x2.lud, x4.luk, x1.rk]) (by rw [x5.rvk, x2.lk, x4.lk, x1.rvk, x1.rvd]) ?_
    intro u v u1 u2 v1 v2
    rw [x4.lulo, x1.rlo] at u1; rw [x4.luhi, x1.rhi] at u2; rw [x4.llo, x1.rvlo] at v1; rw [x4.lhi] at v2
    rw [x5.re u v u1.le (by rw [x2.luhi]; exact u2.le) (by rw [x2.llo]; exact v1.le) (by rw [x2.lhi]; exact v2.le),
      x2.le u v (h1.trans u1).le u2.le v1.le v2.le,
      x4.le u v (by rw [x1.rlo]; exact u1.le) (by rw [x1.rhi]; exact u2.le) (by rw [x1.rvlo]; exact v1.le) v2.le,
      x1.re u v u1.le u2.le v1.le (v2.trans h4).le]
  have q3 : LT' = LT := by
    refine C107_surface_determined x3.rt x6.lt.good (by rw [x6.ld, x2.rud, x3.rud, x1.ld]) (by rw [x6.lvd, x2.rd, x3.rd, x1.lvd])
      (by rw [x6.lk, x2.ruk, x2.rud, x3.ruk, x1.lk]) (by rw [x6.lvk, x2.rk, x3.rk, x1.lvk, x1.lvd]) ?_
    intro u v u1 u2 v1 v2
    rw [x3.rulo, x1.llo] at u1; rw [x3.ruhi, x1.lhi] at u2; rw [x3.rlo] at v1; rw [x3.rhi, x1.lvhi] at v2
    rw [x6.le u v (by rw [x2.rulo]; exact u1.le) u2.le (by rw [x2.rlo]; exact v1.le) (by rw [x2.rhi]; exact v2.le),
      x2.re u v u1.le (u2.trans h2).le v1.le v2.le,
      x3.re u v (by rw [x1.llo]; exact u1.le) (by rw [x1.lhi]; exact u2.le) v1.le (by rw [x1.lvhi]; exact v2.le),
      x1.le u v u1.le u2.le (h3.trans v1).le v2.le]
  have q4 : RT' = RT := by
    refine C107_surface_determined x4.rt x6.rt.good (by rw [x6.rd, x2.rud, x4.rud, x1.rd]) (by rw [x6.rvd, x2.rd, x4.rd, x1.rvd])
      (by rw [x6.rk, x2.ruk, x2.rud, x4.ruk, x1.rk]) (by rw [x6.rvk, x2.rk, x4.rk, x1.rvk, x1.rvd]) ?_
    intro u v u1 u2 v1 v2
    rw [x4.rulo, x1.rlo] at u1; rw [x4.ruhi, x1.rhi] at u2; rw [x4.rlo] at v1; rw [x4.rhi, x1.rvhi] at v2
    rw [x6.re u v u1.le (by rw [x2.ruhi]; exact u2.le) (by rw [x2.rlo]; exact v1.le) (by rw [x2.rhi]; exact v2.le),
      x2.re u v (h1.trans u1).le u2.le v1.le v2.le,
      x4.re u v (by rw [x1.rlo]; exact u1.le) (by rw [x1.rhi]; exact u2.le) v1.le (by rw [x1.rvhi]; exact v2.le),
      x1.re u v u1.le u2.le (h3.trans v1).le v2.le]
  subst q1 q2 q3 q4
  exact ⟨L, R, B, T, _, _, _, _, e1, e3, e4, e2, e5, e6⟩

/-! ### Witnesses -/

example : ∃ d e, exPoly.tryTrimRange (1/1000) (1/4) (11/4) = .ok [d] ∧ d.tryTrimRange (1/1000) (1/2) (5/2) = .ok [e] ∧
    exPoly.tryTrimRange (1/1000) (1/2) (5/2) = .ok [e] :=
  C111_trim_trim exPoly_tame (by decide +kernel) (by norm_num) (by norm_num) (by norm_num) (by decide +kernel)
    ⟨by decide +kernel, by decide +kernel⟩ ⟨by decide +kernel, by decide +kernel⟩ ⟨by decide +kernel, by decide +kernel⟩
    ⟨by decide +kernel, by decide +kernel⟩ (by norm_num) (by norm_num) (by norm_num)

example : ∃ l m r x, exPoly.trySplit (1/1000) (1/2) = .ok (l, x) ∧ x.trySplit (1/1000) (5/2) = .ok (m, r) ∧
    exPoly.tryTrimRange (1/1000) (1/2) (5/2) = .ok [m] ∧ exPoly.tryTrimRange (1/1000) (5/2) (1/2) = .ok [r, l] :=
  C111_inside_outside exPoly_tame (by decide +kernel) (by norm_num) (by decide +kernel)
    ⟨by decide +kernel, by decide +kernel⟩ ⟨by decide +kernel, by decide +kernel⟩ (by norm_num)

example : ∃ c' d d', exPoly.invert = .ok c' ∧ exPoly.tryTrimRange (1/1000) (1/2) (5/2) = .ok [d] ∧ d.invert = .ok d' ∧
    c'.tryTrimRange (1/1000) (exPoly.lo + exPoly.hi - 5/2) (exPoly.lo + exPoly.hi - 1/2) =
      .ok [shifted (exPoly.lo + exPoly.hi - 1/2 - 5/2) d'] :=
  C111_trim_reversed exPoly_unbroken (by decide +kernel) (by norm_num) (by decide +kernel)
    ⟨by decide +kernel, by decide +kernel⟩ ⟨by decide +kernel, by decide +kernel⟩ (by norm_num)

example : ∃ L R B T LB LT RB RT, exSurf.trySplit (1/1000) (1/2) .u = .ok (L, R) ∧ L.trySplit (1/1000) 2 .v = .ok (LB, LT) ∧
    R.trySplit (1/1000) 2 .v = .ok (RB, RT) ∧ exSurf.trySplit (1/1000) 2 .v = .ok (B, T) ∧
    B.trySplit (1/1000) (1/2) .u = .ok (LB, RB) ∧ T.trySplit (1/1000) (1/2) .u = .ok (LT, RT) :=
  C111_four_patches exSurf_tame (by decide +kernel) (by decide +kernel) (by decide +kernel) (by decide +kernel)
    ⟨by decide +kernel, by decide +kernel⟩ ⟨by decide +kernel, by decide +kernel⟩

end Curvo.Props

/-
  Property theorems about the traversal of bounding box trees: C37, with the parameters of the common
  points, and for a surface against a curve.
-/
import Verif.Props.Traverse
import Verif.Props.Surface3
import Verif.Props.Isocurve
import Verif.Props.Curve2
import Mathlib.Data.List.OfFn

set_option linter.unusedSectionVars false

namespace Curvo.Props

open Curvo Curvo.Spec

variable {K : Type} [Field K] [LinearOrder K] [IsStrictOrderedRing K] {d : ℕ}

/-! ### Curves -/

section curve
variable {eps big : K} {rnd : ℕ → K}

/-- The node covers the parameter `u` and has the point `p` there. -/
def curveAt (eps u : K) (t : CurveTree K d) (p : Fin d → K) : Prop :=
  t.curve.lo ≤ u ∧ u ≤ t.curve.hi ∧ t.curve.pointAt eps u = .ok p

theorem curveAt_covers {t0 : CurveTree K d} (hg : Generic eps big rnd t0) (hr : ∀ n, 0 ≤ rnd n ∧ rnd n ≤ 1) (u : K) :
    Covers (CurveTree.tree eps big rnd) (curveAt eps u) (CurveInv eps big rnd t0) where
  box := by
    intro t ht
    obtain ⟨b, e, hb⟩ := (C37_curve_covers hg hr).box t ht
    exact ⟨b, e, fun p hp => hb p ⟨u, hp⟩⟩
  dividable := (C37_curve_covers hg hr).dividable
  divide := by
    intro t pos ht hdv
    obtain ⟨l, r, e, g1, g2, w1, w2, q1, q2, q3, q4, p1, p2, _⟩ := split_node (hg t pos ht.reach hdv) hr ht.good ht.weights
    have hdom := ht.good.pre.dom
    obtain ⟨b1, b2, _⟩ := splitParam_bounds hdom (hr pos).1 (hr pos).2
    have b1 : t.curve.lo < paramOf rnd t pos := b1
    have b2 : paramOf rnd t pos < t.curve.hi := b2
    refine ⟨_, _, _, e, ⟨ht.reach.left hdv e, g1, w1, ht.tol⟩, ⟨ht.reach.right hdv e, g2, w2, ht.tol⟩, ?_⟩
    intro p
    unfold curveAt
    simp only [q1, q2, q3, q4]
    constructor
    · rintro ⟨h1, h2, ep⟩
      rcases le_total u (paramOf rnd t pos) with h | h
      · left; exact ⟨h1, h, by rw [Curve.pointAt, p1 u h1 h, ← Curve.pointAt]; exact ep⟩
      · right; exact ⟨h, h2, by rw [Curve.pointAt, p2 u h h2, ← Curve.pointAt]; exact ep⟩
    · rintro (⟨h1, h2, ep⟩ | ⟨h1, h2, ep⟩)
      · exact ⟨h1, le_trans h2 b2.le, by rw [Curve.pointAt, ← p1 u h1 h2, ← Curve.pointAt]; exact ep⟩
      · exact ⟨le_trans b1.le h1, h2, by rw [Curve.pointAt, ← p2 u h1 h2, ← Curve.pointAt]; exact ep⟩

theorem reach_inv {t0 t : CurveTree K d} (hg : Generic eps big rnd t0) (hr : ∀ n, 0 ≤ rnd n ∧ rnd n ≤ 1)
    (h0 : CurveInv eps big rnd t0 t0) (h : Reach (CurveTree.tree eps big rnd) t0 t) : CurveInv eps big rnd t0 t := by
  induction h with
  | root => exact h0
  | @left x y z r r' _ hdv e ih =>
    obtain ⟨_, _, _, e', i1, _, _⟩ := (C37_curve_covers hg hr).divide x r ih hdv
    rw [e'] at e; cases e; exact i1
  | @right x y z r r' _ hdv e ih =>
    obtain ⟨_, _, _, e', _, i2, _⟩ := (C37_curve_covers hg hr).divide x r ih hdv
    rw [e'] at e; cases e; exact i2

/-- The part of a curve's node that matters to the user: a piece `[lo, hi]` of the domain of `c`, no longer
    than `tol`, on which it evaluates as `c` does. -/
structure SubCurve (eps tol : K) (c c' : Curve K ((Fin d → K) × K)) : Prop where
  lo : c.lo ≤ c'.lo
  hi : c'.hi ≤ c.hi
  short : c'.hi - c'.lo ≤ tol
  same : ∀ u, c'.lo ≤ u → u ≤ c'.hi → c'.pointAt eps u = c.pointAt eps u

theorem reach_piece {t0 t : CurveTree K d} (hg : Generic eps big rnd t0) (hr : ∀ n, 0 ≤ rnd n ∧ rnd n ≤ 1)
    (h0 : CurveInv eps big rnd t0 t0) (h : Reach (CurveTree.tree eps big rnd) t0 t) :
    t0.curve.lo ≤ t.curve.lo ∧ t.curve.hi ≤ t0.curve.hi ∧
      ∀ u, t.curve.lo ≤ u → u ≤ t.curve.hi → t.curve.pointAt eps u = t0.curve.pointAt eps u := by
  have main : ∀ (x y z : CurveTree K d) (r r' : ℕ), Reach (CurveTree.tree eps big rnd) t0 x →
      (t0.curve.lo ≤ x.curve.lo ∧ x.curve.hi ≤ t0.curve.hi ∧
        ∀ u, x.curve.lo ≤ u → u ≤ x.curve.hi → x.curve.pointAt eps u = t0.curve.pointAt eps u) →
      (CurveTree.tree eps big rnd).isDividable x = .ok true →
      (CurveTree.tree eps big rnd).tryDivide x r = .ok ((y, z), r') →
      ∀ t, t = y ∨ t = z → t0.curve.lo ≤ t.curve.lo ∧ t.curve.hi ≤ t0.curve.hi ∧
        ∀ u, t.curve.lo ≤ u → u ≤ t.curve.hi → t.curve.pointAt eps u = t0.curve.pointAt eps u := by
    intro x y z r r' hx ih hdv e
    have ix := reach_inv hg hr h0 hx
    obtain ⟨l, rr, e', g1, g2, w1, w2, q1, q2, q3, q4, p1, p2, _⟩ := split_node (hg x r hx hdv) hr ix.good ix.weights
    have e : CurveTree.tryDivide eps rnd x _ = _ := e
    rw [e'] at e
    cases e
    obtain ⟨b1, b2, _⟩ := splitParam_bounds ix.good.pre.dom (hr r).1 (hr r).2
    have b1 : x.curve.lo < paramOf rnd x r := b1
    have b2 : paramOf rnd x r < x.curve.hi := b2
    rintro t (rfl | rfl)
    · simp only [q1, q2]
      refine ⟨ih.1, le_trans b2.le ih.2.1, fun u h1 h2 => ?_⟩
      rw [Curve.pointAt, p1 u h1 h2, ← Curve.pointAt]
      exact ih.2.2 u h1 (le_trans h2 b2.le)
    · simp only [q3, q4]
      refine ⟨le_trans ih.1 b1.le, ih.2.1, fun u h1 h2 => ?_⟩
      rw [Curve.pointAt, p2 u h1 h2, ← Curve.pointAt]
      exact ih.2.2 u (le_trans b1.le h1) h2
  induction h with
  | root => exact ⟨le_rfl, le_rfl, fun _ _ _ => rfl⟩
  | left hx hdv e ih => exact main _ _ _ _ _ hx ih hdv e _ (Or.inl rfl)
  | right hx hdv e ih => exact main _ _ _ _ _ hx ih hdv e _ (Or.inr rfl)

theorem short_of_undividable {t0 t : CurveTree K d} (ht : CurveInv eps big rnd t0 t)
    (h : t.isDividable = .ok false) : t.curve.hi - t.curve.lo ≤ t0.tolerance := by
  rw [isDividable_ok ht.good] at h
  have h := Except.ok.inj h
  simp only [Bool.or_eq_false_iff, decide_eq_false_iff_not, not_lt] at h
  rw [← ht.tol]
  exact h.1

theorem tryDivide_degree {t : CurveTree K d} {pos : ℕ}
    (hgen : ∀ y ∈ t.curve.knots, y ≠ paramOf rnd t pos ∧ eps ≤ |y - paramOf rnd t pos|)
    (hr : ∀ n, 0 ≤ rnd n ∧ rnd n ≤ 1) (hgood : t.curve.Good eps) {y z : CurveTree K d} {r' : ℕ}
    (e : CurveTree.tryDivide eps rnd t pos = .ok ((y, z), r')) :
    y.curve.degree = t.curve.degree ∧ z.curve.degree = t.curve.degree := by
  obtain ⟨b1, b2, _⟩ := splitParam_bounds hgood.pre.dom (hr pos).1 (hr pos).2
  obtain ⟨s, c', l, r, e', hs⟩ := split_pieces hgood b1.le b2.le
    (fun y hy hlt => absurd hlt (not_lt.2 (hgen y hy).2))
  rw [CurveTree.tryDivide, knotsDomain_eq hgood, ok_bind] at e
  simp only at e
  rw [e', ok_bind] at e
  cases e
  exact ⟨hs.ld, hs.rd⟩

/-- A tree made without a tolerance is divided into pieces of at most a 64th of the domain; curves of degree two and higher
    are not divided much further than that. -/
theorem C37_default_tolerance {c : Curve K ((Fin d → K) × K)} (h : c.Good eps) (hw : ∀ p ∈ c.cps, 0 < p.2)
    (hr : ∀ n, 0 ≤ rnd n ∧ rnd n ≤ 1) :
    ∃ t0, CurveTree.new c none = .ok t0 ∧ t0.curve = c ∧ (Generic eps big rnd t0 →
      ∀ t, Reach (CurveTree.tree eps big rnd) t0 t → t.isDividable = .ok false →
        t.curve.hi - t.curve.lo ≤ (c.hi - c.lo) / 64 ∧
        (c.degree ≠ 1 → 9 / 20 * ((c.hi - c.lo) / 64) ≤ t.curve.hi - t.curve.lo)) := by
  refine ⟨⟨c, (c.hi - c.lo) / 64⟩, by simp only [CurveTree.new, knotsDomain_eq h, ok_bind]; rfl, rfl, fun hg => ?_⟩
  have h0 : CurveInv eps big rnd ⟨c, (c.hi - c.lo) / 64⟩ ⟨c, (c.hi - c.lo) / 64⟩ := ⟨.root, h, hw, rfl⟩
  have hd : 0 < c.hi - c.lo := sub_pos.2 h.pre.dom
  intro t ht hu
  refine ⟨short_of_undividable (reach_inv hg hr h0 ht) hu, fun h1 => ?_⟩
  clear hu
  have main : t.curve.degree = c.degree ∧ 9 / 20 * ((c.hi - c.lo) / 64) ≤ t.curve.hi - t.curve.lo := by
    have step : ∀ (x y z : CurveTree K d) (r r' : ℕ), Reach (CurveTree.tree eps big rnd) ⟨c, (c.hi - c.lo) / 64⟩ x →
        (CurveTree.tree eps big rnd).isDividable x = .ok true →
        (CurveTree.tree eps big rnd).tryDivide x r = .ok ((y, z), r') → x.curve.degree = c.degree →
        ∀ t, t = y ∨ t = z → t.curve.degree = c.degree ∧ 9 / 20 * ((c.hi - c.lo) / 64) ≤ t.curve.hi - t.curve.lo := by
      intro x y z r r' hx hdv e hxd
      have ix := reach_inv hg hr h0 hx
      have hdg := tryDivide_degree (hg x r hx hdv) hr ix.good e
      obtain ⟨l, rr, e', g1, g2, w1, w2, q1, q2, q3, q4, p1, p2, _⟩ := split_node (hg x r hx hdv) hr ix.good ix.weights
      have e : CurveTree.tryDivide eps rnd x _ = _ := e
      rw [e'] at e
      cases e
      have hdv : x.isDividable = .ok true := hdv
      rw [isDividable_ok ix.good] at hdv
      have hdv := Except.ok.inj hdv
      simp only [hxd, h1, decide_false, Bool.false_and, Bool.or_false, decide_eq_true_eq, ix.tol] at hdv
      obtain ⟨-, -, -, -, b5, b6⟩ := splitParam_bounds ix.good.pre.dom (hr r).1 (hr r).2
      have b5 : 9 / 20 * (x.curve.hi - x.curve.lo) ≤ paramOf rnd x r - x.curve.lo := b5
      have b6 : 9 / 20 * (x.curve.hi - x.curve.lo) ≤ x.curve.hi - paramOf rnd x r := b6
      rintro t (rfl | rfl)
      · refine ⟨hdg.1.trans hxd, ?_⟩
        simp only [q1, q2]; linarith
      · refine ⟨hdg.2.trans hxd, ?_⟩
        simp only [q3, q4]; linarith
    induction ht with
    | root => exact ⟨rfl, by linarith⟩
    | left hx hdv e ih => exact step _ _ _ _ _ hx hdv e ih.1 _ (Or.inl rfl)
    | right hx hdv e ih => exact step _ _ _ _ _ hx hdv e ih.1 _ (Or.inr rfl)
  exact main.2

end curve

section curves
variable {eps big : K} {rnd : ℕ → K} [Archimedean K]

/-- Curve–curve traversal, with parameters: every reported pair consists of pieces of the two curves no
    longer than the tolerances, and whenever the curves meet at the parameters `u` and `v`, some reported
    pair covers `u` and `v`. -/
theorem C37_curve_curve_params {a b : CurveTree K d} (ha : a.curve.Good eps) (hb : b.curve.Good eps)
    (wa : ∀ p ∈ a.curve.cps, 0 < p.2) (wb : ∀ p ∈ b.curve.cps, 0 < p.2)
    (ta : 0 < a.tolerance) (tb : 0 < b.tolerance) (hr : ∀ n, 0 ≤ rnd n ∧ rnd n ≤ 1)
    (ga : Generic eps big rnd a) (gb : Generic eps big rnd b) (pos : ℕ) :
    ∃ pairs, traverse (CurveTree.tree eps big rnd) (CurveTree.tree eps big rnd)
        (5 ^ (curveRank a a + curveRank b b)) [(a, b)] pos = .ok pairs ∧
      (∀ e ∈ pairs, SubCurve eps a.tolerance a.curve e.1.curve ∧ SubCurve eps b.tolerance b.curve e.2.curve) ∧
      ∀ u v p, a.curve.lo ≤ u → u ≤ a.curve.hi → b.curve.lo ≤ v → v ≤ b.curve.hi →
        a.curve.pointAt eps u = .ok p → b.curve.pointAt eps v = .ok p →
        ∃ e ∈ pairs, e.1.curve.lo ≤ u ∧ u ≤ e.1.curve.hi ∧ e.2.curve.lo ≤ v ∧ v ≤ e.2.curve.hi := by
  have ia : CurveInv eps big rnd a a := ⟨.root, ha, wa, rfl⟩
  have ib : CurveInv eps big rnd b b := ⟨.root, hb, wb, rfl⟩
  obtain ⟨pairs, hp⟩ := C37_terminates (C37_curve_covers ga hr) (C37_curve_covers gb hr)
    (curve_ranked ga hr ta) (curve_ranked gb hr tb) ia ib pos
  refine ⟨pairs, hp, ?_, ?_⟩
  · intro e he
    obtain ⟨r1, r2, d1, d2, _⟩ := C37_sound hp e he
    obtain ⟨x1, x2, x3⟩ := reach_piece ga hr ia r1
    obtain ⟨y1, y2, y3⟩ := reach_piece gb hr ib r2
    exact ⟨⟨x1, x2, short_of_undividable (reach_inv ga hr ia r1) d1, x3⟩,
      ⟨y1, y2, short_of_undividable (reach_inv gb hr ib r2) d2, y3⟩⟩
  · intro u v p h1 h2 h3 h4 e1 e2
    obtain ⟨e, he, ⟨k1, k2, _⟩, k4, k5, _⟩ := C37_no_miss (curveAt_covers ga hr u) (curveAt_covers gb hr v)
      ia ib hp ⟨h1, h2, e1⟩ ⟨h3, h4, e2⟩
    exact ⟨e, he, k1, k2, k4, k5⟩

end curves

/-! ### Surfaces -/

section surface
variable {eps big : K} {Rng : Type}

/-- The knots in the direction in which the node will be divided, and the ends of the domain there. -/
def dirKnots (t : SurfTree K d) : List K := match t.direction with | .u => t.surface.uKnots | .v => t.surface.vKnots
def dirLo (t : SurfTree K d) : K := match t.direction with | .u => t.surface.ulo | .v => t.surface.vlo
def dirHi (t : SurfTree K d) : K := match t.direction with | .u => t.surface.uhi | .v => t.surface.vhi

/-- The middle of the domain, where the node is divided. -/
def midOf (t : SurfTree K d) : K := (dirLo t + dirHi t) * (1 / 2)

/-- No division lands on a knot, or closer than `eps` to one. -/
def SurfGeneric (Rng : Type) (eps big : K) (t0 : SurfTree K d) : Prop :=
  ∀ t, Reach (SurfTree.tree Rng eps big) t0 t → t.isDividable = .ok true →
    ∀ y ∈ dirKnots t, y ≠ midOf t ∧ eps ≤ |y - midOf t|

/-- Nodes below `t0` with a well formed surface of positive weights. -/
structure SurfInv (Rng : Type) (eps big : K) (t0 t : SurfTree K d) : Prop where
  reach : Reach (SurfTree.tree Rng eps big) t0 t
  good : t.surface.Good eps
  weights : ∀ row ∈ t.surface.cps, ∀ p ∈ row, 0 < p.2
  tol : t.tolerance = t0.tolerance

/-- The node covers the parameters `(u, v)` and has the point `p` there. -/
def surfAt (eps u v : K) (t : SurfTree K d) (p : Fin d → K) : Prop :=
  (t.surface.ulo ≤ u ∧ u ≤ t.surface.uhi) ∧ (t.surface.vlo ≤ v ∧ v ≤ t.surface.vhi) ∧
    t.surface.pointAt eps u v = .ok p

theorem surf_domains {S : Surface K ((Fin d → K) × K)} (h : S.Good eps) :
    S.uDomain = .ok (S.ulo, S.uhi) ∧ S.vDomain = .ok (S.vlo, S.vhi) := ⟨u_domain_eq h, v_domain_eq h⟩

theorem surf_dom_lt {S : Surface K ((Fin d → K) × K)} (h : S.Good eps) : S.ulo < S.uhi ∧ S.vlo < S.vhi := by
  have h1 := (h.col 0).pre.dom
  have h2 := (h.row h.rows_pos).pre.dom
  rw [Surface.col_lo, Surface.col_hi] at h1
  rw [Surface.row_hi h h.rows_pos] at h2
  exact ⟨h1, h2⟩

theorem surf_isDividable {t : SurfTree K d} (h : t.surface.Good eps) : t.isDividable =
    .ok (decide (t.tolerance.1 < t.surface.uhi - t.surface.ulo) ||
      decide (t.tolerance.2 < t.surface.vhi - t.surface.vlo)) := by
  rw [SurfTree.isDividable, (surf_domains h).1, ok_bind, (surf_domains h).2, ok_bind]
  rfl

/-- What dividing a node gives. -/
structure Halves (eps : K) (t l r : SurfTree K d) : Prop where
  gl : l.surface.Good eps
  gr : r.surface.Good eps
  wl : ∀ row ∈ l.surface.cps, ∀ p ∈ row, 0 < p.2
  wr : ∀ row ∈ r.surface.cps, ∀ p ∈ row, 0 < p.2
  tl : l.tolerance = t.tolerance
  tr : r.tolerance = t.tolerance
  dl : l.direction = t.direction.opposite
  dr : r.direction = t.direction.opposite
  doms : match t.direction with
    | .u => l.surface.ulo = t.surface.ulo ∧ l.surface.uhi = midOf t ∧ r.surface.ulo = midOf t ∧
        r.surface.uhi = t.surface.uhi ∧ l.surface.vlo = t.surface.vlo ∧ l.surface.vhi = t.surface.vhi ∧
        r.surface.vlo = t.surface.vlo ∧ r.surface.vhi = t.surface.vhi
    | .v => l.surface.vlo = t.surface.vlo ∧ l.surface.vhi = midOf t ∧ r.surface.vlo = midOf t ∧
        r.surface.vhi = t.surface.vhi ∧ l.surface.ulo = t.surface.ulo ∧ l.surface.uhi = t.surface.uhi ∧
        r.surface.ulo = t.surface.ulo ∧ r.surface.uhi = t.surface.uhi
  pl : ∀ u v, l.surface.ulo ≤ u → u ≤ l.surface.uhi → l.surface.vlo ≤ v → v ≤ l.surface.vhi →
    l.surface.point eps u v = t.surface.point eps u v
  pr : ∀ u v, r.surface.ulo ≤ u → u ≤ r.surface.uhi → r.surface.vlo ≤ v → v ≤ r.surface.vhi →
    r.surface.point eps u v = t.surface.point eps u v
  kl : ∀ y ∈ l.surface.uKnots, y ∈ t.surface.uKnots ∨ t.direction = .u ∧ y = midOf t
  kl' : ∀ y ∈ l.surface.vKnots, y ∈ t.surface.vKnots ∨ t.direction = .v ∧ y = midOf t
  kr : ∀ y ∈ r.surface.uKnots, y ∈ t.surface.uKnots ∨ t.direction = .u ∧ y = midOf t
  kr' : ∀ y ∈ r.surface.vKnots, y ∈ t.surface.vKnots ∨ t.direction = .v ∧ y = midOf t

theorem weight_convex (p q : (Fin d → K) × K) (t : K) (t0 : 0 ≤ t) (t1 : t ≤ 1) (hp : 0 < p.2) (hq : 0 < q.2) :
    0 < (t • p + (1 - t) • q).2 := by
  simp only [Prod.snd_add, Prod.smul_snd, smul_eq_mul]
  rcases eq_or_lt_of_le t0 with h | h
  · rw [← h]; simpa using hq
  · exact add_pos_of_pos_of_nonneg (mul_pos h hp) (mul_nonneg (sub_nonneg.2 t1) hq.le)

theorem weights_of_cols {S L : Surface K ((Fin d → K) × K)} (h : S.Good eps)
    (hw : ∀ row ∈ S.cps, ∀ p ∈ row, 0 < p.2) (hl : ∀ row ∈ L.cps, row.length = S.cols)
    (hh : ∀ j, j < S.cols → Curve.Hull (S.col j) (L.col j)) : ∀ row ∈ L.cps, ∀ p ∈ row, 0 < p.2 := by
  intro row hrow p hp
  obtain ⟨j, hj, rfl⟩ := List.getElem_of_mem hp
  have hj' : j < S.cols := by rw [← hl row hrow]; exact hj
  refine hh j hj' (fun p => 0 < p.2) weight_convex ?_ _ ?_
  · intro q hq
    obtain ⟨r, hr, rfl⟩ := List.mem_map.1 hq
    have hlen : j < r.length := by rw [h.rect r hr]; exact hj'
    rw [List.getD_eq_getElem?_getD, List.getElem?_eq_getElem hlen]
    exact hw r hr _ (List.getElem_mem _)
  · refine List.mem_map.2 ⟨row, hrow, ?_⟩
    rw [List.getD_eq_getElem?_getD, List.getElem?_eq_getElem hj]
    rfl

theorem weights_of_rows {S L : Surface K ((Fin d → K) × K)}
    (hw : ∀ row ∈ S.cps, ∀ p ∈ row, 0 < p.2) (hl : L.cps.length = S.cps.length)
    (hh : ∀ i, i < S.cps.length → Curve.Hull (S.row i) (L.row i)) : ∀ row ∈ L.cps, ∀ p ∈ row, 0 < p.2 := by
  intro row hrow p hp
  obtain ⟨i, hi, rfl⟩ := List.getElem_of_mem hrow
  have hi' : i < S.cps.length := by omega
  refine hh i hi' (fun p => 0 < p.2) weight_convex ?_ _ ?_
  · intro q hq
    rw [Surface.row, List.getD_eq_getElem?_getD, List.getElem?_eq_getElem hi'] at hq
    exact hw _ (List.getElem_mem _) q hq
  · rw [Surface.row, List.getD_eq_getElem?_getD, List.getElem?_eq_getElem hi]
    exact hp

theorem middle_bounds {a b : K} (h : a < b) : a < (a + b) * (1 / 2) ∧ (a + b) * (1 / 2) < b := by
  constructor <;> linarith

theorem surf_divide {t : SurfTree K d} (rng : Rng) (hgood : t.surface.Good eps)
    (hw : ∀ row ∈ t.surface.cps, ∀ p ∈ row, 0 < p.2) (hgen : ∀ y ∈ dirKnots t, y ≠ midOf t ∧ eps ≤ |y - midOf t|) :
    ∃ l r, SurfTree.tryDivide eps t rng = .ok ((l, r), rng) ∧ Halves eps t l r := by
  obtain ⟨S, tol, dir⟩ := t
  obtain ⟨d1, d2⟩ := surf_domains hgood
  obtain ⟨e1, e2⟩ := surf_dom_lt hgood
  cases dir with
  | u =>
    have hgen : ∀ y ∈ S.uKnots, y ≠ (S.ulo + S.uhi) * (1 / 2) ∧ eps ≤ |y - (S.ulo + S.uhi) * (1 / 2)| := hgen
    obtain ⟨m1, m2⟩ := middle_bounds e1
    have hsep : ∀ y ∈ S.uKnots, |y - (S.ulo + S.uhi) * (1 / 2)| < eps → y = (S.ulo + S.uhi) * (1 / 2) :=
      fun y hy hlt => absurd hlt (not_lt.2 (hgen y hy).2)
    obtain ⟨L, R, e, a1, a2, a3, a4, b1, b2, b3, b4, hR, hL⟩ := C33_split_u hgood m1.le m2.le hsep
    obtain ⟨gr, pr⟩ := hR m2
    obtain ⟨gl, pl⟩ := hL (fun hm => absurd rfl (hgen _ hm).1)
    obtain ⟨L', R', e', f1, f2, f3, f4, f5, f6, f7⟩ := split_u hgood m1.le m2.le hsep
    rw [e] at e'
    cases e'
    refine ⟨⟨L, tol, .v⟩, ⟨R, tol, .v⟩, ?_, ?_⟩
    · show (S.uDomain >>= _) = _
      simp only at d1
      rw [d1, ok_bind]
      show (S.trySplit eps ((S.ulo + S.uhi) * (1 / 2)) .u >>= _) = _
      rw [e]
      rfl
    · obtain ⟨_, s, c', hs⟩ := f7 0 hgood.cols_pos
      have kn : ∀ y, y ∈ L.uKnots ∨ y ∈ R.uKnots → y ∈ S.uKnots ∨ y = (S.ulo + S.uhi) * (1 / 2) := by
        intro y hy
        have k1 : L.uKnots = _ := hs.lk
        have k2 : R.uKnots = _ := hs.rk
        rw [k1, k2] at hy
        simp only [List.mem_append, List.mem_replicate] at hy
        rcases hy with (h | h) | (h | h)
        · exact Or.inl (List.mem_of_mem_take h)
        · exact Or.inr h.2
        · exact Or.inr h.2
        · exact Or.inl (List.mem_of_mem_drop h)
      refine ⟨gl, gr, ?_, ?_, rfl, rfl, rfl, rfl, ⟨a1, a2, a3, a4, b1, b2, b3, b4⟩, ?_, ?_, ?_, ?_, ?_, ?_⟩
      · exact weights_of_cols hgood hw f5 fun j hj => by
          obtain ⟨_, s, c', hs⟩ := f7 j hj; exact hs.lhull
      · exact weights_of_cols hgood hw f6 fun j hj => by
          obtain ⟨_, s, c', hs⟩ := f7 j hj; exact hs.rhull
      · intro u v h1 h2 h3 h4
        simp only [a1, a2, b1, b2] at h1 h2 h3 h4
        exact pl u v h1 h2 h3 h4
      · intro u v h1 h2 h3 h4
        simp only [a3, a4, b3, b4] at h1 h2 h3 h4
        exact pr u v h1 h2 h3 h4
      · intro y hy
        exact (kn y (Or.inl hy)).imp_right fun h => ⟨rfl, h⟩
      · intro y hy
        simp only [f3] at hy
        exact Or.inl hy
      · intro y hy
        exact (kn y (Or.inr hy)).imp_right fun h => ⟨rfl, h⟩
      · intro y hy
        simp only [f4] at hy
        exact Or.inl hy
  | v =>
    have hgen : ∀ y ∈ S.vKnots, y ≠ (S.vlo + S.vhi) * (1 / 2) ∧ eps ≤ |y - (S.vlo + S.vhi) * (1 / 2)| := hgen
    obtain ⟨m1, m2⟩ := middle_bounds e2
    have hsep : ∀ y ∈ S.vKnots, |y - (S.vlo + S.vhi) * (1 / 2)| < eps → y = (S.vlo + S.vhi) * (1 / 2) :=
      fun y hy hlt => absurd hlt (not_lt.2 (hgen y hy).2)
    obtain ⟨L, R, e, b1, b2, b3, b4, hR, hL⟩ := C33_split_v hgood m1.le m2.le hsep
    obtain ⟨gr, a3, a4, pr⟩ := hR m2
    obtain ⟨gl, a1, a2, pl⟩ := hL (fun hm => absurd rfl (hgen _ hm).1)
    obtain ⟨L', R', e', f1, f2, f3, f4, f5, f6, f7⟩ := split_v hgood m1.le m2.le hsep
    rw [e] at e'
    cases e'
    refine ⟨⟨L, tol, .u⟩, ⟨R, tol, .u⟩, ?_, ?_⟩
    · show (S.vDomain >>= _) = _
      simp only at d2
      rw [d2, ok_bind]
      show (S.trySplit eps ((S.vlo + S.vhi) * (1 / 2)) .v >>= _) = _
      rw [e]
      rfl
    · obtain ⟨_, s, c', hs⟩ := f7 0 hgood.rows_pos
      have kn : ∀ y, y ∈ L.vKnots ∨ y ∈ R.vKnots → y ∈ S.vKnots ∨ y = (S.vlo + S.vhi) * (1 / 2) := by
        intro y hy
        have k1 : L.vKnots = _ := hs.lk
        have k2 : R.vKnots = _ := hs.rk
        rw [k1, k2] at hy
        simp only [List.mem_append, List.mem_replicate] at hy
        rcases hy with (h | h) | (h | h)
        · exact Or.inl (List.mem_of_mem_take h)
        · exact Or.inr h.2
        · exact Or.inr h.2
        · exact Or.inl (List.mem_of_mem_drop h)
      refine ⟨gl, gr, ?_, ?_, rfl, rfl, rfl, rfl, ⟨a1, a2, a3, a4, b1, b2, b3, b4⟩, ?_, ?_, ?_, ?_, ?_, ?_⟩
      · exact weights_of_rows hw f5 fun j hj => by
          obtain ⟨_, s, c', hs⟩ := f7 j hj; exact hs.lhull
      · exact weights_of_rows hw f6 fun j hj => by
          obtain ⟨_, s, c', hs⟩ := f7 j hj; exact hs.rhull
      · intro u v h1 h2 h3 h4
        simp only [a1, a2, b1, b2] at h1 h2 h3 h4
        exact pl u v h1 h2 h3 h4
      · intro u v h1 h2 h3 h4
        simp only [a3, a4, b3, b4] at h1 h2 h3 h4
        exact pr u v h1 h2 h3 h4
      · intro y hy
        simp only [f3] at hy
        exact Or.inl hy
      · intro y hy
        exact (kn y (Or.inl hy)).imp_right fun h => ⟨rfl, h⟩
      · intro y hy
        simp only [f4] at hy
        exact Or.inl hy
      · intro y hy
        exact (kn y (Or.inr hy)).imp_right fun h => ⟨rfl, h⟩

/-- The halves lie in the node's domain and cover it. -/
theorem Halves.inside {t l r : SurfTree K d} (h : Halves eps t l r) (hg : t.surface.Good eps) :
    (t.surface.ulo ≤ l.surface.ulo ∧ l.surface.uhi ≤ t.surface.uhi ∧ t.surface.vlo ≤ l.surface.vlo ∧
      l.surface.vhi ≤ t.surface.vhi) ∧
    (t.surface.ulo ≤ r.surface.ulo ∧ r.surface.uhi ≤ t.surface.uhi ∧ t.surface.vlo ≤ r.surface.vlo ∧
      r.surface.vhi ≤ t.surface.vhi) ∧
    ∀ u v, t.surface.ulo ≤ u → u ≤ t.surface.uhi → t.surface.vlo ≤ v → v ≤ t.surface.vhi →
      ((l.surface.ulo ≤ u ∧ u ≤ l.surface.uhi) ∧ l.surface.vlo ≤ v ∧ v ≤ l.surface.vhi) ∨
      ((r.surface.ulo ≤ u ∧ u ≤ r.surface.uhi) ∧ r.surface.vlo ≤ v ∧ v ≤ r.surface.vhi) := by
  obtain ⟨e1, e2⟩ := surf_dom_lt hg
  have hd := h.doms
  obtain ⟨S, tol, dir⟩ := t
  cases dir with
  | u =>
    obtain ⟨a1, a2, a3, a4, b1, b2, b3, b4⟩ := hd
    obtain ⟨m1, m2⟩ := middle_bounds e1
    have a2 : l.surface.uhi = (S.ulo + S.uhi) * (1 / 2) := a2
    have a3 : r.surface.ulo = (S.ulo + S.uhi) * (1 / 2) := a3
    simp only [a1, a2, a3, a4, b1, b2, b3, b4]
    refine ⟨⟨le_rfl, m2.le, le_rfl, le_rfl⟩, ⟨m1.le, le_rfl, le_rfl, le_rfl⟩, ?_⟩
    intro u v h1 h2 h3 h4
    exact (le_total u ((S.ulo + S.uhi) * (1 / 2))).imp (fun h => ⟨⟨h1, h⟩, h3, h4⟩) (fun h => ⟨⟨h, h2⟩, h3, h4⟩)
  | v =>
    obtain ⟨a1, a2, a3, a4, b1, b2, b3, b4⟩ := hd
    obtain ⟨m1, m2⟩ := middle_bounds e2
    have a2 : l.surface.vhi = (S.vlo + S.vhi) * (1 / 2) := a2
    have a3 : r.surface.vlo = (S.vlo + S.vhi) * (1 / 2) := a3
    simp only [a1, a2, a3, a4, b1, b2, b3, b4]
    refine ⟨⟨le_rfl, le_rfl, le_rfl, m2.le⟩, ⟨le_rfl, le_rfl, m1.le, le_rfl⟩, ?_⟩
    intro u v h1 h2 h3 h4
    exact (le_total v ((S.vlo + S.vhi) * (1 / 2))).imp (fun h => ⟨⟨h1, h2⟩, h3, h⟩) (fun h => ⟨⟨h1, h2⟩, h, h4⟩)

theorem C37_surface_covers {t0 : SurfTree K d} (hg : SurfGeneric Rng eps big t0) (u v : K) :
    Covers (SurfTree.tree Rng eps big) (surfAt eps u v) (SurfInv Rng eps big t0) where
  box := by
    intro t ht
    refine ⟨_, by
      show t.surface.boundingBox big = _
      rw [Surface.boundingBox, surf_dehomogenizedCps_eq ht.weights]; rfl, ?_⟩
    rintro p ⟨⟨h1, h2⟩, ⟨h3, h4⟩, e⟩
    obtain ⟨box, q, eb, eq, hc⟩ := C10_surface_in_bounding_box (big := big) ht.good ht.weights h1 h2 h3 h4
    rw [Surface.boundingBox, surf_dehomogenizedCps_eq ht.weights] at eb
    rw [e] at eq
    cases eq; cases eb
    exact hc
  dividable := fun t ht => ⟨_, surf_isDividable ht.good⟩
  divide := by
    intro t rng ht hdv
    obtain ⟨l, r, e, hh⟩ := surf_divide rng ht.good ht.weights (hg t ht.reach hdv)
    obtain ⟨i1, i2, i3⟩ := hh.inside ht.good
    refine ⟨l, r, rng, e, ⟨ht.reach.left hdv e, hh.gl, hh.wl, hh.tl.trans ht.tol⟩,
      ⟨ht.reach.right hdv e, hh.gr, hh.wr, hh.tr.trans ht.tol⟩, ?_⟩
    intro p
    constructor
    · rintro ⟨⟨h1, h2⟩, ⟨h3, h4⟩, ep⟩
      refine (i3 u v h1 h2 h3 h4).imp ?_ ?_
      · rintro ⟨⟨k1, k2⟩, k3, k4⟩
        exact ⟨⟨k1, k2⟩, ⟨k3, k4⟩, by rw [Surface.pointAt, hh.pl u v k1 k2 k3 k4, ← Surface.pointAt]; exact ep⟩
      · rintro ⟨⟨k1, k2⟩, k3, k4⟩
        exact ⟨⟨k1, k2⟩, ⟨k3, k4⟩, by rw [Surface.pointAt, hh.pr u v k1 k2 k3 k4, ← Surface.pointAt]; exact ep⟩
    · rintro (⟨⟨k1, k2⟩, ⟨k3, k4⟩, ep⟩ | ⟨⟨k1, k2⟩, ⟨k3, k4⟩, ep⟩)
      · exact ⟨⟨i1.1.trans k1, k2.trans i1.2.1⟩, ⟨i1.2.2.1.trans k3, k4.trans i1.2.2.2⟩,
          by rw [Surface.pointAt, ← hh.pl u v k1 k2 k3 k4, ← Surface.pointAt]; exact ep⟩
      · exact ⟨⟨i2.1.trans k1, k2.trans i2.2.1⟩, ⟨i2.2.2.1.trans k3, k4.trans i2.2.2.2⟩,
          by rw [Surface.pointAt, ← hh.pr u v k1 k2 k3 k4, ← Surface.pointAt]; exact ep⟩

/-- A piece of the surface `S`, no longer than the tolerances, on which it evaluates as `S` does. -/
structure SubSurface (eps : K) (tol : K × K) (S S' : Surface K ((Fin d → K) × K)) : Prop where
  inside : S.ulo ≤ S'.ulo ∧ S'.uhi ≤ S.uhi ∧ S.vlo ≤ S'.vlo ∧ S'.vhi ≤ S.vhi
  short : S'.uhi - S'.ulo ≤ tol.1 ∧ S'.vhi - S'.vlo ≤ tol.2
  same : ∀ u v, S'.ulo ≤ u → u ≤ S'.uhi → S'.vlo ≤ v → v ≤ S'.vhi → S'.pointAt eps u v = S.pointAt eps u v

theorem surf_reach {t0 t : SurfTree K d} (hg : SurfGeneric Rng eps big t0) (h0 : SurfInv Rng eps big t0 t0)
    (h : Reach (SurfTree.tree Rng eps big) t0 t) : SurfInv Rng eps big t0 t ∧
      (t0.surface.ulo ≤ t.surface.ulo ∧ t.surface.uhi ≤ t0.surface.uhi ∧ t0.surface.vlo ≤ t.surface.vlo ∧
        t.surface.vhi ≤ t0.surface.vhi) ∧
      ∀ u v, t.surface.ulo ≤ u → u ≤ t.surface.uhi → t.surface.vlo ≤ v → v ≤ t.surface.vhi →
        t.surface.pointAt eps u v = t0.surface.pointAt eps u v := by
  induction h with
  | root => exact ⟨h0, ⟨le_rfl, le_rfl, le_rfl, le_rfl⟩, fun _ _ _ _ _ _ => rfl⟩
  | @left x y z r r' hx hdv e ih =>
    obtain ⟨ix, id, ip⟩ := ih
    obtain ⟨l, rr, e', hh⟩ := surf_divide r ix.good ix.weights (hg x hx hdv)
    have e1 : SurfTree.tryDivide eps x r = _ := e
    rw [e'] at e1
    cases e1
    obtain ⟨i1, _, _⟩ := hh.inside ix.good
    refine ⟨⟨hx.left hdv e, hh.gl, hh.wl, hh.tl.trans ix.tol⟩, ⟨id.1.trans i1.1, i1.2.1.trans id.2.1,
      id.2.2.1.trans i1.2.2.1, i1.2.2.2.trans id.2.2.2⟩, ?_⟩
    intro u v h1 h2 h3 h4
    rw [Surface.pointAt, hh.pl u v h1 h2 h3 h4, ← Surface.pointAt]
    exact ip u v (i1.1.trans h1) (h2.trans i1.2.1) (i1.2.2.1.trans h3) (h4.trans i1.2.2.2)
  | @right x y z r r' hx hdv e ih =>
    obtain ⟨ix, id, ip⟩ := ih
    obtain ⟨l, rr, e', hh⟩ := surf_divide r ix.good ix.weights (hg x hx hdv)
    have e1 : SurfTree.tryDivide eps x r = _ := e
    rw [e'] at e1
    cases e1
    obtain ⟨_, i1, _⟩ := hh.inside ix.good
    refine ⟨⟨hx.right hdv e, hh.gr, hh.wr, hh.tr.trans ix.tol⟩, ⟨id.1.trans i1.1, i1.2.1.trans id.2.1,
      id.2.2.1.trans i1.2.2.1, i1.2.2.2.trans id.2.2.2⟩, ?_⟩
    intro u v h1 h2 h3 h4
    rw [Surface.pointAt, hh.pr u v h1 h2 h3 h4, ← Surface.pointAt]
    exact ip u v (i1.1.trans h1) (h2.trans i1.2.1) (i1.2.2.1.trans h3) (h4.trans i1.2.2.2)

/-- For a surface without knots strictly inside its domain (a Bezier patch), with tolerances that are the
    same fraction `δ` of the two sides, every division is generic as soon as the tolerances are at least
    twice `eps`. -/
theorem surf_generic_of_ends {t0 : SurfTree K d} (hgood : t0.surface.Good eps)
    (hw : ∀ row ∈ t0.surface.cps, ∀ p ∈ row, 0 < p.2) (hdir : t0.direction = .u)
    (hu : ∀ y ∈ t0.surface.uKnots, y ≤ t0.surface.ulo ∨ t0.surface.uhi ≤ y)
    (hv : ∀ y ∈ t0.surface.vKnots, y ≤ t0.surface.vlo ∨ t0.surface.vhi ≤ y) {δ : K}
    (htu : t0.tolerance.1 = (t0.surface.uhi - t0.surface.ulo) * δ)
    (htv : t0.tolerance.2 = (t0.surface.vhi - t0.surface.vlo) * δ)
    (heu : eps ≤ t0.tolerance.1 / 2) (hev : eps ≤ t0.tolerance.2 / 2) : SurfGeneric Rng eps big t0 := by
  obtain ⟨U, hU⟩ : ∃ U, t0.surface.uhi - t0.surface.ulo = U := ⟨_, rfl⟩
  obtain ⟨V, hV⟩ : ∃ V, t0.surface.vhi - t0.surface.vlo = V := ⟨_, rfl⟩
  obtain ⟨du, dv⟩ := surf_dom_lt hgood
  have pU : 0 < U := by rw [← hU]; linarith
  have pV : 0 < V := by rw [← hV]; linarith
  rw [hU] at htu
  rw [hV] at htv
  -- what holds of every node
  let Inv : SurfTree K d → Prop := fun t => t.surface.Good eps ∧ (∀ row ∈ t.surface.cps, ∀ p ∈ row, 0 < p.2) ∧
    t.tolerance = t0.tolerance ∧ (∀ y ∈ t.surface.uKnots, y ≤ t.surface.ulo ∨ t.surface.uhi ≤ y) ∧
    (∀ y ∈ t.surface.vKnots, y ≤ t.surface.vlo ∨ t.surface.vhi ≤ y) ∧
    ∃ m : ℕ, t.surface.vhi - t.surface.vlo = V * (1 / 2) ^ m ∧
      t.surface.uhi - t.surface.ulo = match t.direction with
        | .u => U * (1 / 2) ^ m
        | .v => U * (1 / 2) ^ m / 2
  have main : ∀ t, Inv t → t.isDividable = .ok true → ∀ y ∈ dirKnots t, y ≠ midOf t ∧ eps ≤ |y - midOf t| := by
    rintro ⟨S, tol, dir⟩ ⟨g, w, ht, ku, kv, m, mv, mu⟩ hdv
    rw [surf_isDividable g] at hdv
    have hdv := Except.ok.inj hdv
    simp only [Bool.or_eq_true, decide_eq_true_eq] at hdv
    simp only at ht ku kv mv mu
    rw [ht, htu, htv] at hdv
    obtain ⟨lu, lv⟩ := surf_dom_lt g
    simp only at lu lv
    have hpow : δ < (1 / 2) ^ m := by
      have hp : (0 : K) < (1 / 2) ^ m := by positivity
      rcases hdv with h | h
      · have : U * δ < U * (1 / 2) ^ m := by
          cases dir with
          | u => rw [mu] at h; exact h
          | v => rw [mu] at h; have : 0 < U * (1 / 2) ^ m := mul_pos pU hp; simp only at h; linarith
        exact lt_of_mul_lt_mul_left this pU.le
      · rw [mv] at h; exact lt_of_mul_lt_mul_left h pV.le
    have far : ∀ a b : K, a < b → eps ≤ (b - a) / 2 → ∀ y, y ≤ a ∨ b ≤ y →
        y ≠ (a + b) * (1 / 2) ∧ eps ≤ |y - (a + b) * (1 / 2)| := by
      intro a b hab he y hy
      rcases hy with hy | hy
      · have : y < (a + b) * (1 / 2) := by linarith
        exact ⟨this.ne, by rw [abs_sub_comm, abs_of_pos (by linarith)]; linarith⟩
      · have : (a + b) * (1 / 2) < y := by linarith
        exact ⟨this.ne', by rw [abs_of_pos (by linarith)]; linarith⟩
    cases dir with
    | u =>
      intro y hy
      refine far S.ulo S.uhi lu ?_ y (ku y hy)
      have : U * δ ≤ U * (1 / 2) ^ m := mul_le_mul_of_nonneg_left hpow.le pU.le
      rw [htu] at heu
      simp only at mu
      linarith
    | v =>
      intro y hy
      refine far S.vlo S.vhi lv ?_ y (kv y hy)
      have : V * δ ≤ V * (1 / 2) ^ m := mul_le_mul_of_nonneg_left hpow.le pV.le
      rw [htv] at hev
      linarith
  have step : ∀ x l r, Inv x → Halves eps x l r → Inv l ∧ Inv r := by
    rintro ⟨S, tol, dir⟩ ⟨Sl, tl, dl⟩ ⟨Sr, tr, dr⟩ ⟨g, w, ht, ku, kv, m, mv, mu⟩ hh
    have il := hh.inside g
    obtain ⟨gl, gr, wl, wr, t1, t2, d1, d2, hd, _, _, k1, k2, k3, k4⟩ := hh
    simp only at ht ku kv mv mu t1 t2 d1 d2 gl gr wl wr
    subst d1; subst d2
    obtain ⟨⟨i1, i2, i3, i4⟩, ⟨j1, j2, j3, j4⟩, _⟩ := il
    simp only at i1 i2 i3 i4 j1 j2 j3 j4
    cases dir with
    | u =>
      obtain ⟨a1, a2, a3, a4, b1, b2, b3, b4⟩ := hd
      have a2 : Sl.uhi = (S.ulo + S.uhi) * (1 / 2) := a2
      have a3 : Sr.ulo = (S.ulo + S.uhi) * (1 / 2) := a3
      simp only at a1 a4 b1 b2 b3 b4 mu
      refine ⟨⟨gl, wl, t1.trans ht, ?_, ?_, m, ?_, ?_⟩, ⟨gr, wr, t2.trans ht, ?_, ?_, m, ?_, ?_⟩⟩
      · intro y hy
        rcases k1 y hy with h | ⟨_, h⟩
        · exact (ku y h).imp (fun h => by simp only [a1]; exact h) (fun h => i2.trans h)
        · right; rw [h]; exact a2.le
      · intro y hy
        rcases k2 y hy with h | ⟨h, _⟩
        · simp only [b1, b2]; exact kv y h
        · cases h
      · simp only [b1, b2]; exact mv
      · simp only [a1, a2, UV.opposite]; rw [← mu]; ring
      · intro y hy
        rcases k3 y hy with h | ⟨_, h⟩
        · exact (ku y h).imp (fun h => h.trans j1) (fun h => by simp only [a4]; exact h)
        · left; rw [h]; exact a3.ge
      · intro y hy
        rcases k4 y hy with h | ⟨h, _⟩
        · simp only [b3, b4]; exact kv y h
        · cases h
      · simp only [b3, b4]; exact mv
      · simp only [a3, a4, UV.opposite]; rw [← mu]; ring
    | v =>
      obtain ⟨a1, a2, a3, a4, b1, b2, b3, b4⟩ := hd
      have a2 : Sl.vhi = (S.vlo + S.vhi) * (1 / 2) := a2
      have a3 : Sr.vlo = (S.vlo + S.vhi) * (1 / 2) := a3
      simp only at a1 a4 b1 b2 b3 b4 mu
      refine ⟨⟨gl, wl, t1.trans ht, ?_, ?_, m + 1, ?_, ?_⟩, ⟨gr, wr, t2.trans ht, ?_, ?_, m + 1, ?_, ?_⟩⟩
      · intro y hy
        rcases k1 y hy with h | ⟨h, _⟩
        · simp only [b1, b2]; exact ku y h
        · cases h
      · intro y hy
        rcases k2 y hy with h | ⟨_, h⟩
        · exact (kv y h).imp (fun h => by simp only [a1]; exact h) (fun h => i4.trans h)
        · right; rw [h]; exact a2.le
      · simp only [a1, a2, pow_succ]; rw [show V * ((1 / 2) ^ m * (1 / 2)) = V * (1 / 2) ^ m / 2 by ring, ← mv]; ring
      · simp only [b1, b2, UV.opposite, pow_succ]; rw [mu]; ring
      · intro y hy
        rcases k3 y hy with h | ⟨h, _⟩
        · simp only [b3, b4]; exact ku y h
        · cases h
      · intro y hy
        rcases k4 y hy with h | ⟨_, h⟩
        · exact (kv y h).imp (fun h => h.trans j3) (fun h => by simp only [a4]; exact h)
        · left; rw [h]; exact a3.ge
      · simp only [a3, a4, pow_succ]; rw [show V * ((1 / 2) ^ m * (1 / 2)) = V * (1 / 2) ^ m / 2 by ring, ← mv]; ring
      · simp only [b3, b4, UV.opposite, pow_succ]; rw [mu]; ring
  have inv : ∀ t, Reach (SurfTree.tree Rng eps big) t0 t → Inv t := by
    intro t ht
    induction ht with
    | root => exact ⟨hgood, hw, rfl, hu, hv, 0, by simpa using hV, by rw [hdir]; simpa using hU⟩
    | @left x y z r r' hx hdv e ih =>
      obtain ⟨l, rr, e', hh⟩ := surf_divide r ih.1 ih.2.1 (main x ih hdv)
      have e1 : SurfTree.tryDivide eps x r = _ := e
      rw [e'] at e1
      cases e1
      exact (step _ _ _ ih hh).1
    | @right x y z r r' hx hdv e ih =>
      obtain ⟨l, rr, e', hh⟩ := surf_divide r ih.1 ih.2.1 (main x ih hdv)
      have e1 : SurfTree.tryDivide eps x r = _ := e
      rw [e'] at e1
      cases e1
      exact (step _ _ _ ih hh).2
  exact fun t ht hdv => main t (inv t ht) hdv

variable [Archimedean K]

theorem exists_halvings (m i : K) (hm : 0 < m) : ∃ n : ℕ, i * (1 / 2) ^ n ≤ m := by
  rcases le_or_gt i 0 with h | h
  · exact ⟨0, by simpa using le_trans h hm.le⟩
  · obtain ⟨n, hn⟩ := exists_pow_lt_of_lt_one (div_pos hm h) (by norm_num : (1 / 2 : K) < 1)
    refine ⟨n, ?_⟩
    rw [mul_comm]
    exact ((lt_div_iff₀ h).1 hn).le

open Classical in
/-- Number of halvings of an interval of length `i` until it is no longer than `m`. -/
noncomputable def halvings (m i : K) : ℕ := if hm : 0 < m then Nat.find (exists_halvings m i hm) else 0

theorem halvings_half {m i : K} (hm : 0 < m) : halvings m (i / 2) ≤ halvings m i - 1 := by
  classical
  simp only [halvings, dif_pos hm]
  have hs := Nat.find_spec (exists_halvings m i hm)
  set n := Nat.find (exists_halvings m i hm) with hn
  refine Nat.find_min' _ ?_
  cases hc : n with
  | zero =>
    rw [hc] at hs
    simp at hs ⊢
    linarith
  | succ k =>
    rw [hc, pow_succ] at hs
    simp only [Nat.add_sub_cancel]
    calc i / 2 * (1 / 2) ^ k = i * ((1 / 2) ^ k * (1 / 2)) := by ring
      _ ≤ m := hs

theorem halvings_pos {m i : K} (hm : 0 < m) (h : m < i) : 0 < halvings m i := by
  classical
  simp only [halvings, dif_pos hm]
  rw [Nat.find_pos]
  simpa using h

/-- Number of divisions of a surface node before it is no longer divided; the two directions alternate. -/
noncomputable def surfRank (t : SurfTree K d) : ℕ :=
  match t.direction with
  | .u => max (2 * halvings t.tolerance.1 (t.surface.uhi - t.surface.ulo) - 1)
      (2 * halvings t.tolerance.2 (t.surface.vhi - t.surface.vlo))
  | .v => max (2 * halvings t.tolerance.1 (t.surface.uhi - t.surface.ulo))
      (2 * halvings t.tolerance.2 (t.surface.vhi - t.surface.vlo) - 1)

theorem surf_ranked {t0 : SurfTree K d} (hg : SurfGeneric Rng eps big t0) (h1 : 0 < t0.tolerance.1)
    (h2 : 0 < t0.tolerance.2) : Ranked (SurfTree.tree Rng eps big) (SurfInv Rng eps big t0) surfRank := by
  intro t rng y z r' ht hdv ed
  obtain ⟨l, r, e, hh⟩ := surf_divide rng ht.good ht.weights (hg t ht.reach hdv)
  have ed' : SurfTree.tryDivide eps t rng = .ok ((y, z), r') := ed
  rw [e] at ed'
  cases ed'
  have hdv' : t.isDividable = .ok true := hdv
  rw [surf_isDividable ht.good] at hdv'
  have hdv' := Except.ok.inj hdv'
  simp only [Bool.or_eq_true, decide_eq_true_eq] at hdv'
  have hpos : 0 < halvings t.tolerance.1 (t.surface.uhi - t.surface.ulo) ∨
      0 < halvings t.tolerance.2 (t.surface.vhi - t.surface.vlo) :=
    hdv'.imp (halvings_pos (by rw [ht.tol]; exact h1)) (halvings_pos (by rw [ht.tol]; exact h2))
  have hd := hh.doms
  have k1 := hh.tl
  have k2 := hh.tr
  have k3 := hh.dl
  have k4 := hh.dr
  have p1 : 0 < t.tolerance.1 := by rw [ht.tol]; exact h1
  have p2 : 0 < t.tolerance.2 := by rw [ht.tol]; exact h2
  clear hh e ed hdv ht hdv'
  obtain ⟨S, tol, dir⟩ := t
  obtain ⟨Sl, tl, dl⟩ := y
  obtain ⟨Sr, tr, dr⟩ := z
  simp only at k1 k2 k3 k4 p1 p2 hpos
  subst k1; subst k2
  cases dir with
  | u =>
    obtain ⟨a1, a2, a3, a4, b1, b2, b3, b4⟩ := hd
    have a2 : Sl.uhi = (S.ulo + S.uhi) * (1 / 2) := a2
    have a3 : Sr.ulo = (S.ulo + S.uhi) * (1 / 2) := a3
    have a1 : Sl.ulo = S.ulo := a1
    have a4 : Sr.uhi = S.uhi := a4
    simp only at b1 b2 b3 b4
    have hl : Sl.uhi - Sl.ulo = (S.uhi - S.ulo) / 2 := by rw [a1, a2]; ring
    have hr : Sr.uhi - Sr.ulo = (S.uhi - S.ulo) / 2 := by rw [a3, a4]; ring
    simp only [UV.opposite] at k3 k4
    clear a1 a2 a3 a4
    subst k3; subst k4
    have hle := halvings_half (i := S.uhi - S.ulo) p1
    simp only [surfRank, hl, hr, b1, b2, b3, b4]
    omega
  | v =>
    obtain ⟨a1, a2, a3, a4, b1, b2, b3, b4⟩ := hd
    have a2 : Sl.vhi = (S.vlo + S.vhi) * (1 / 2) := a2
    have a3 : Sr.vlo = (S.vlo + S.vhi) * (1 / 2) := a3
    have a1 : Sl.vlo = S.vlo := a1
    have a4 : Sr.vhi = S.vhi := a4
    simp only at b1 b2 b3 b4
    have hl : Sl.vhi - Sl.vlo = (S.vhi - S.vlo) / 2 := by rw [a1, a2]; ring
    have hr : Sr.vhi - Sr.vlo = (S.vhi - S.vlo) / 2 := by rw [a3, a4]; ring
    simp only [UV.opposite] at k3 k4
    clear a1 a2 a3 a4
    subst k3; subst k4
    have hle := halvings_half (i := S.vhi - S.vlo) p2
    simp only [surfRank, hl, hr, b1, b2, b3, b4]
    omega

/-- Surface–curve traversal: it terminates for every sequence of random numbers, every reported pair consists
    of pieces of the surface and the curve no longer than the tolerances, and whenever the surface at `(u, v)`
    meets the curve at `w`, some reported pair covers these parameters. -/
theorem C37_surface_curve {rnd : ℕ → K} {a : SurfTree K d} {b : CurveTree K d} (ha : a.surface.Good eps)
    (hb : b.curve.Good eps) (wa : ∀ row ∈ a.surface.cps, ∀ p ∈ row, 0 < p.2) (wb : ∀ p ∈ b.curve.cps, 0 < p.2)
    (ta : 0 < a.tolerance.1) (ta' : 0 < a.tolerance.2) (tb : 0 < b.tolerance) (hr : ∀ n, 0 ≤ rnd n ∧ rnd n ≤ 1)
    (ga : SurfGeneric ℕ eps big a) (gb : Generic eps big rnd b) (pos : ℕ) :
    ∃ pairs, traverse (SurfTree.tree ℕ eps big) (CurveTree.tree eps big rnd)
        (5 ^ (surfRank a + curveRank b b)) [(a, b)] pos = .ok pairs ∧
      (∀ e ∈ pairs, SubSurface eps a.tolerance a.surface e.1.surface ∧ SubCurve eps b.tolerance b.curve e.2.curve) ∧
      ∀ u v w p, a.surface.ulo ≤ u → u ≤ a.surface.uhi → a.surface.vlo ≤ v → v ≤ a.surface.vhi →
        b.curve.lo ≤ w → w ≤ b.curve.hi → a.surface.pointAt eps u v = .ok p → b.curve.pointAt eps w = .ok p →
        ∃ e ∈ pairs, (e.1.surface.ulo ≤ u ∧ u ≤ e.1.surface.uhi) ∧ (e.1.surface.vlo ≤ v ∧ v ≤ e.1.surface.vhi) ∧
          e.2.curve.lo ≤ w ∧ w ≤ e.2.curve.hi := by
  have ia : SurfInv ℕ eps big a a := ⟨.root, ha, wa, rfl⟩
  have ib : CurveInv eps big rnd b b := ⟨.root, hb, wb, rfl⟩
  obtain ⟨pairs, hp⟩ := C37_terminates (C37_surface_covers ga 0 0) (C37_curve_covers gb hr)
    (surf_ranked ga ta ta') (curve_ranked gb hr tb) ia ib pos
  refine ⟨pairs, hp, ?_, ?_⟩
  · intro e he
    obtain ⟨r1, r2, d1, d2, _⟩ := C37_sound hp e he
    obtain ⟨x1, x2, x3⟩ := surf_reach ga ia r1
    obtain ⟨y1, y2, y3⟩ := reach_piece gb hr ib r2
    refine ⟨⟨x2, ?_, x3⟩, ⟨y1, y2, short_of_undividable (reach_inv gb hr ib r2) d2, y3⟩⟩
    have d1 : e.1.isDividable = .ok false := d1
    rw [surf_isDividable x1.good] at d1
    have d1 := Except.ok.inj d1
    simp only [Bool.or_eq_false_iff, decide_eq_false_iff_not, not_lt] at d1
    rw [← x1.tol]
    exact d1
  · intro u v w p h1 h2 h3 h4 h5 h6 e1 e2
    obtain ⟨e, he, ⟨k1, k2, _⟩, k4, k5, _⟩ := C37_no_miss (C37_surface_covers ga u v) (curveAt_covers gb hr w)
      ia ib hp ⟨⟨h1, h2⟩, ⟨h3, h4⟩, e1⟩ ⟨h5, h6, e2⟩
    exact ⟨e, he, k1, k2, k4, k5⟩

end surface

/-- Witness: a saddle and a straight line through its middle. -/
def exSaddle : Surface ℚ ((Fin 3 → ℚ) × ℚ) where
  uDegree := 1
  vDegree := 1
  uKnots := [0, 0, 1, 1]
  vKnots := [0, 0, 1, 1]
  cps := [[(![0, 0, 0], 1), (![0, 4, 4], 1)], [(![4, 0, 4], 1), (![4, 4, 0], 1)]]

def exNeedle : Curve ℚ ((Fin 3 → ℚ) × ℚ) where
  degree := 1
  cps := [(![2, 2, 0], 1), (![2, 2, 4], 1)]
  knots := [0, 0, 1, 1]

theorem exSaddle_good : exSaddle.Good (1/1000000) where
  rows_pos := by decide
  u_len := by decide
  u_good := by
    refine ⟨by norm_num, by decide, ?_, ?_, ?_, ?_, ?_⟩
    · intro i j hij hj
      exact (by decide +kernel : ∀ i ≤ 3, ∀ j ≤ 3, i ≤ j → kf exSaddle.uKnots i ≤ kf exSaddle.uKnots j)
        i (by have : j ≤ 3 := hj; omega) j hj hij
    all_goals simp [exSaddle, kf]; try norm_num
  cols_pos := by decide
  v_good := by
    refine ⟨by norm_num, by decide, ?_, ?_, ?_, ?_, ?_⟩
    · intro i j hij hj
      exact (by decide +kernel : ∀ i ≤ 3, ∀ j ≤ 3, i ≤ j → kf exSaddle.vKnots i ≤ kf exSaddle.vKnots j)
        i (by have : j ≤ 3 := hj; omega) j hj hij
    all_goals simp [exSaddle, kf, Surface.cols]; try norm_num
  rect := by decide

theorem exNeedle_good : exNeedle.Good (1/1000000) where
  cps_pos := by decide
  knots_len := by decide
  good := by
    refine ⟨by norm_num, by decide, ?_, ?_, ?_, ?_, ?_⟩
    · intro i j hij hj
      exact (by decide +kernel : ∀ i ≤ 3, ∀ j ≤ 3, i ≤ j → kf exNeedle.knots i ≤ kf exNeedle.knots j)
        i (by have : j ≤ 3 := hj; omega) j hj hij
    all_goals simp [exNeedle, kf]; try norm_num

/-- Computed points can be compared coordinate by coordinate. -/
theorem res_eq_of_ofFn {n : ℕ} {x : Res (Fin n → ℚ)} {p : Fin n → ℚ} (h : x.map List.ofFn = .ok (List.ofFn p)) :
    x = .ok p := by
  cases x with
  | error e => cases h
  | ok q => rw [List.ofFn_injective (Except.ok.inj h)]

example (rnd : ℕ → ℚ) (hr : ∀ n, 0 ≤ rnd n ∧ rnd n ≤ 1) (pos : ℕ) : ∃ fuel pairs,
    traverse (SurfTree.tree ℕ (1/1000000) 1000) (CurveTree.tree (1/1000000) 1000 rnd) fuel
      [(⟨exSaddle, (1/64, 1/64), .u⟩, ⟨exNeedle, 1/64⟩)] pos = .ok pairs ∧
    ∃ e ∈ pairs, (e.1.surface.ulo ≤ 1/2 ∧ 1/2 ≤ e.1.surface.uhi) ∧ (e.1.surface.vlo ≤ 1/2 ∧ 1/2 ≤ e.1.surface.vhi) ∧
      e.2.curve.lo ≤ 1/2 ∧ 1/2 ≤ e.2.curve.hi := by
  have wa : ∀ row ∈ exSaddle.cps, ∀ p ∈ row, 0 < p.2 := by decide
  have wb : ∀ p ∈ exNeedle.cps, 0 < p.2 := by decide
  obtain ⟨pairs, h1, _, h2⟩ := C37_surface_curve (big := 1000) (rnd := rnd) (a := ⟨exSaddle, (1/64, 1/64), .u⟩)
    (b := ⟨exNeedle, 1/64⟩) exSaddle_good exNeedle_good wa wb (by norm_num) (by norm_num) (by norm_num) hr
    (surf_generic_of_ends (δ := 1/64) exSaddle_good wa rfl (by decide +kernel) (by decide +kernel) (by decide +kernel)
      (by decide +kernel) (by norm_num) (by norm_num))
    (generic_of_ends hr exNeedle_good wb (by decide +kernel) (by norm_num) (by norm_num)) pos
  exact ⟨_, pairs, h1, h2 (1/2) (1/2) (1/2) ![2, 2, 2] (by decide +kernel) (by decide +kernel) (by decide +kernel)
    (by decide +kernel) (by decide +kernel) (by decide +kernel) (res_eq_of_ofFn (by decide +kernel))
    (res_eq_of_ofFn (by decide +kernel))⟩

/-- The tree of a rational parabola without a tolerance. -/
example (rnd : ℕ → ℚ) (hr : ∀ n, 0 ≤ rnd n ∧ rnd n ≤ 1) (t : CurveTree ℚ 2)
    (h : Reach (CurveTree.tree (1/1000000) 1000 rnd) ⟨exBezA, 1/64⟩ t) (hu : t.isDividable = .ok false) :
    CurveTree.new exBezA none = .ok ⟨exBezA, 1/64⟩ ∧ t.curve.hi - t.curve.lo ≤ 1/64 ∧ 9/1280 ≤ t.curve.hi - t.curve.lo := by
  have wa : ∀ p ∈ exBezA.cps, 0 < p.2 := by decide
  have e1 : exBezA.hi - exBezA.lo = 1 := by decide +kernel
  obtain ⟨t0, e0, ec, hmain⟩ := C37_default_tolerance (big := 1000) exBezA_good wa hr
  have e : CurveTree.new exBezA none = .ok ⟨exBezA, 1/64⟩ := by
    simp only [CurveTree.new, knotsDomain_eq exBezA_good, ok_bind, e1]; rfl
  rw [e] at e0
  cases e0
  have := hmain (generic_of_ends hr exBezA_good wa (by decide +kernel) (by norm_num) (by norm_num)) t h hu
  rw [e1] at this
  exact ⟨e, this.1, by have := this.2 (by decide); linarith⟩

end Curvo.Props

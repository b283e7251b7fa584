/-
  Property theorems about the control points of refined surfaces and of the pieces of a surface: C104.
-/
import Verif.Props.Pieces
import Verif.Props.Surface3
import Verif.Props.SurfTolerance

set_option linter.unusedSectionVars false

namespace Curvo.Props

open Curvo Curvo.Curve Curvo.Spec Curvo.Surface

variable {K : Type} [Field K] [LinearOrder K] [IsStrictOrderedRing K] {d : ℕ} {W : Type} [AddCommGroup W] [Module K W]
  {V : Type} [AddCommGroup V] [Module K V]

/-- All control points of a surface in one list. -/
def net (S : Surface K V) : List V := S.cps.flatten

theorem mem_net {S : Surface K V} {p : V} : p ∈ net S ↔ ∃ row ∈ S.cps, p ∈ row := List.mem_flatten

/-- What a refined surface or a piece `S'` of a surface `S` with positive weights owes to `S`: positive weights, between the smallest
    and the largest weight of `S`, and control points in every convex set that contains those of `S`. -/
structure SurfInside (S S' : Surface K (W × K)) : Prop where
  pos : ∀ row ∈ S'.cps, ∀ q ∈ row, 0 < q.2
  weights : ∀ a b, (∀ row ∈ S.cps, ∀ q ∈ row, a ≤ q.2 ∧ q.2 ≤ b) → ∀ row ∈ S'.cps, ∀ q ∈ row, a ≤ q.2 ∧ q.2 ≤ b
  points : ∃ pts pts', S.dehomogenizedCps = .ok pts ∧ S'.dehomogenizedCps = .ok pts' ∧
    ∀ P : W → Prop, (∀ x y (t : K), 0 ≤ t → t ≤ 1 → P x → P y → P (t • x + (1 - t) • y)) →
      (∀ row ∈ pts, ∀ x ∈ row, P x) → ∀ row ∈ pts', ∀ x ∈ row, P x

/-- The control points of `S'` are convex combinations of those of `S`. -/
def SurfHull (S S' : Surface K V) : Prop := Hull (⟨0, net S, []⟩ : Curve K V) ⟨0, net S', []⟩

theorem SurfHull.refl (S : Surface K V) : SurfHull S S := Hull.refl _

theorem SurfHull.trans {S S' S'' : Surface K V} (h : SurfHull S S') (h' : SurfHull S' S'') : SurfHull S S'' := Hull.trans h h'

theorem SurfHull.inside {S S' : Surface K (W × K)} (h : SurfHull S S') (hw : ∀ row ∈ S.cps, ∀ q ∈ row, 0 < q.2) : SurfInside S S' := by
  have hw' : ∀ q ∈ net S, 0 < q.2 := by
    intro q hq
    obtain ⟨row, hr, hq⟩ := mem_net.1 hq
    exact hw row hr q hq
  have hi := Hull.inside h hw'
  have hpos : ∀ row ∈ S'.cps, ∀ q ∈ row, 0 < q.2 := fun row hr q hq => hi.pos q (mem_net.2 ⟨row, hr, hq⟩)
  refine ⟨hpos, fun a b hab row hr q hq => ?_, _, _, surf_dehomogenizedCps_eq hw, surf_dehomogenizedCps_eq hpos, fun P hP hc row hr x hx => ?_⟩
  · refine hi.weights a b (fun q hq => ?_) q (mem_net.2 ⟨row, hr, hq⟩)
    obtain ⟨row, hr, hq⟩ := mem_net.1 hq
    exact hab row hr q hq
  · obtain ⟨pts, pts', e, e', hp⟩ := hi.points
    rw [dehomogenizedCps_eq hw'] at e
    rw [dehomogenizedCps_eq hi.pos] at e'
    cases e
    cases e'
    obtain ⟨row', hr', rfl⟩ := List.mem_map.1 hr
    obtain ⟨q, hq, rfl⟩ := List.mem_map.1 hx
    refine hp P hP (fun x hx => ?_) _ (List.mem_map.2 ⟨q, mem_net.2 ⟨row', hr', hq⟩, rfl⟩)
    obtain ⟨q, hq, rfl⟩ := List.mem_map.1 hx
    obtain ⟨row, hr, hq⟩ := mem_net.1 hq
    exact hc _ (List.mem_map.2 ⟨row, hr, rfl⟩) _ (List.mem_map.2 ⟨q, hq, rfl⟩)

/-- The box of `S'` is inside the box of `S`. -/
def SurfBoxInside (big : K) (S S' : Surface K ((Fin d → K) × K)) : Prop :=
  ∃ b b', S.boundingBox big = .ok b ∧ S'.boundingBox big = .ok b' ∧ ∀ i, b.min i ≤ b'.min i ∧ b'.max i ≤ b.max i

theorem SurfInside.box {S S' : Surface K ((Fin d → K) × K)} (h : SurfInside S S') (big : K) : SurfBoxInside big S S' := by
  obtain ⟨pts, pts', e, e', hp⟩ := h.points
  refine ⟨_, _, by rw [Surface.boundingBox, e]; rfl, by rw [Surface.boundingBox, e']; rfl, fun i => ?_⟩
  obtain ⟨a1, a2, a3, a4, a5⟩ := le_ofPoints (big := big) (pts := pts.flatten) (i := i)
  obtain ⟨b1, b2, b3, b4, b5⟩ := le_ofPoints (big := big) (pts := pts'.flatten) (i := i)
  have := hp (fun x => (Box.ofPoints big pts.flatten).min i ≤ x i ∧ x i ≤ (Box.ofPoints big pts.flatten).max i) (by
    intro x y t t0 t1 hx hy
    have t1' : 0 ≤ 1 - t := sub_nonneg.2 t1
    simp only [Pi.add_apply, Pi.smul_apply, smul_eq_mul]
    constructor
    · nlinarith [mul_le_mul_of_nonneg_left hx.1 t0, mul_le_mul_of_nonneg_left hy.1 t1']
    · nlinarith [mul_le_mul_of_nonneg_left hx.2 t0, mul_le_mul_of_nonneg_left hy.2 t1'])
    fun row hr x hx => a5 x (List.mem_flatten.2 ⟨row, hr, hx⟩)
  refine ⟨b1 _ a3 fun p hp => ?_, b2 _ a4 fun p hp => ?_⟩
  · obtain ⟨row, hr, hp⟩ := List.mem_flatten.1 hp
    exact (this row hr p hp).1
  · obtain ⟨row, hr, hp⟩ := List.mem_flatten.1 hp
    exact (this row hr p hp).2

/-- Domain and knots in one direction. -/
def sideLo (S : Surface K V) : UV → K | .u => S.ulo | .v => S.vlo
def sideHi (S : Surface K V) : UV → K | .u => S.uhi | .v => S.vhi
def sideKnots (S : Surface K V) : UV → List K | .u => S.uKnots | .v => S.vKnots

/-! ### Refinement -/

theorem mapM_result {α β : Type} {f : α → Res β} : ∀ {l : List α} {ys : List β}, l.mapM f = .ok ys → ∀ y ∈ ys, ∃ x ∈ l, f x = .ok y
  | [], ys, h, y, hy => by
    have : ys = [] := (Except.ok.inj h).symm
    rw [this] at hy
    exact absurd hy List.not_mem_nil
  | x :: l, ys, h, y, hy => by
    rw [List.mapM_cons] at h
    obtain ⟨z, hz, h⟩ := bind_eq_ok.1 h
    obtain ⟨zs, hzs, h⟩ := bind_eq_ok.1 h
    cases h
    rcases List.mem_cons.1 hy with rfl | hy
    · exact ⟨x, by simp, hz⟩
    · obtain ⟨x', hx', e⟩ := mapM_result hzs y hy
      exact ⟨x', by simp [hx'], e⟩

theorem foldlM_pred {σ β : Type} {f : σ → β → Res σ} {P : σ → Prop} : ∀ {l : List β} {s s' : σ}, l.foldlM f s = .ok s' → P s →
    (∀ x ∈ l, ∀ s s', P s → f s x = .ok s' → P s') → P s'
  | [], s, s', h, h0, _ => by cases h; exact h0
  | x :: l, s, s', h, h0, hs => by
    rw [List.foldlM_cons] at h
    obtain ⟨z, hz, h⟩ := bind_eq_ok.1 h
    exact foldlM_pred h (hs x (by simp) s z h0 hz) fun y hy => hs y (by simp [hy])

/-- Transposing invents no control points. -/
theorem transpose_result {α : Type} {pts t : List (List α)} (h : Misc.transpose pts = .ok t) : ∀ row ∈ t, ∀ p ∈ row, ∃ r ∈ pts, p ∈ r := by
  unfold Misc.transpose at h
  obtain ⟨row0, h0, h⟩ := bind_eq_ok.1 h
  refine foldlM_pred (P := fun t : List (List α) => ∀ row ∈ t, ∀ p ∈ row, ∃ r ∈ pts, p ∈ r) h ?_ ?_
  · intro row hr p hp
    rw [(List.mem_replicate.1 hr).2] at hp
    exact absurd hp List.not_mem_nil
  · intro r hr s s' hs e
    refine foldlM_pred (P := fun t : List (List α) => ∀ row ∈ t, ∀ p ∈ row, ∃ r ∈ pts, p ∈ r) e hs ?_
    rintro ⟨i, x⟩ hx s s' hs e
    unfold Misc.pushAt at e
    obtain ⟨row, e1, e2⟩ := bind_eq_ok.1 e
    have hx' : x ∈ r := by
      obtain ⟨⟨y, j⟩, hy, he⟩ := List.mem_map.1 hx
      cases he
      exact List.fst_mem_of_mem_zipIdx hy
    have hrow : row ∈ s := by
      unfold getR at e1
      split at e1
      · cases e1
        rename_i h
        exact List.mem_of_getElem? h
      · cases e1
    have e3 : s' = s.set i (row ++ [x]) := by
      unfold setR at e2
      split_ifs at e2
      exact (Except.ok.inj e2).symm
    rw [e3]
    intro q hq p hp
    rcases List.mem_or_eq_of_mem_set hq with hq | rfl
    · exact hs q hq p hp
    · rcases List.mem_append.1 hp with hp | hp
      · exact hs row hrow p hp
      · rw [List.mem_singleton.1 hp]
        exact ⟨r, hr, hx'⟩

/-- **Refining a surface in either direction** moves no control point out of the convex hull of the control net, no weight out of the
    range of weights. -/
theorem C104_surface_refine {eps : K} {S : Surface K (W × K)} {xs : List K} {dir : UV} (h : S.Good eps)
    (hw : ∀ row ∈ S.cps, ∀ q ∈ row, 0 < q.2) (hsort : xs.Pairwise (· ≤ ·))
    (hdom : ∀ x ∈ xs, sideLo S dir ≤ x ∧ x ≤ sideHi S dir)
    (hsep : ∀ x ∈ xs, ∀ y ∈ xs ++ sideKnots S dir, |y - x| < eps → y = x) :
    ∃ S', S.tryRefineKnot eps xs dir = .ok S' ∧ SurfInside S S' := by
  cases dir with
  | u =>
    obtain ⟨S', e, -⟩ := C33_refine_u h hsort hdom hsep
    refine ⟨S', e, SurfHull.inside (fun Q hQ hS p hp => ?_) hw⟩
    obtain ⟨row, hr, hp'⟩ := mem_net.1 hp
    clear hp
    have e' := e
    unfold Surface.tryRefineKnot at e'
    obtain ⟨rows, e1, e'⟩ := bind_eq_ok.1 e'
    obtain ⟨cs, e2, e'⟩ := bind_eq_ok.1 e'
    cases cs with
    | nil => cases e'
    | cons c cs =>
      obtain ⟨cps, e3, e'⟩ := bind_eq_ok.1 e'
      cases e'
      obtain ⟨r, hr', hp⟩ := transpose_result e3 row hr p hp'
      obtain ⟨c', hc', rfl⟩ := List.mem_map.1 hr'
      obtain ⟨col, hcol, e4⟩ := mapM_result e2 c' hc'
      obtain ⟨t, et, hlen, -, -, ht⟩ := transpose_cols h.rows_pos h.rect
      rw [et] at e1
      obtain rfl : t = rows := Except.ok.inj e1
      obtain ⟨j, hj, rfl⟩ := List.getElem_of_mem hcol
      have ecol : t[j] = (S.col j).cps := by
        have := ht j (by omega)
        rw [List.getD_eq_getElem?_getD, List.getElem?_eq_getElem hj] at this
        exact this
      rw [ecol] at e4
      obtain ⟨c'', e5, -, hH⟩ := Curve.tryRefineKnot_refines_hull (h.col j) hsort (by intro x hx; rw [col_lo, col_hi]; exact hdom x hx) hsep
      rw [show Curve.tryNew S.uDegree (S.col j).cps S.uKnots = .ok (S.col j) from tryNew_good (h.col j), ok_bind, e5] at e4
      cases e4
      refine hH Q hQ (fun q hq => ?_) p hp
      have hq' : q ∈ t[j] := by rw [ecol]; exact hq
      obtain ⟨r, hr, hq⟩ := transpose_result et _ (List.getElem_mem hj) q hq'
      exact hS q (mem_net.2 ⟨r, hr, hq⟩)
  | v =>
    obtain ⟨S', e, -⟩ := C33_refine_v h hsort hdom hsep
    refine ⟨S', e, SurfHull.inside (fun Q hQ hS p hp => ?_) hw⟩
    obtain ⟨row, hr, hp'⟩ := mem_net.1 hp
    clear hp
    have e' := e
    unfold Surface.tryRefineKnot at e'
    obtain ⟨cs, e2, e'⟩ := bind_eq_ok.1 e'
    cases cs with
    | nil => cases e'
    | cons c cs =>
      cases e'
      obtain ⟨c', hc', rfl⟩ := List.mem_map.1 hr
      obtain ⟨r, hr', e4⟩ := mapM_result e2 c' hc'
      obtain ⟨i, hi, rfl⟩ := List.getElem_of_mem hr'
      have e0 : (⟨S.vDegree, S.cps[i], S.vKnots⟩ : Curve K (W × K)) = S.row i := by
        simp [Surface.row, List.getD_eq_getElem?_getD, hi]
      have hg := h.row hi
      have hrl : (S.row i).lo = S.vlo := rfl
      have hrh := row_hi h hi
      rw [← e0] at hg hrl hrh
      obtain ⟨c'', e5, -, hH⟩ := Curve.tryRefineKnot_refines_hull hg hsort (by rw [hrl, hrh]; exact hdom) hsep
      rw [show Curve.tryNew S.vDegree S.cps[i] S.vKnots = .ok ⟨S.vDegree, S.cps[i], S.vKnots⟩ from tryNew_good hg, ok_bind, e5] at e4
      cases e4
      exact hH Q hQ (fun q hq => hS q (mem_net.2 ⟨_, hr', hq⟩)) p hp'

/-! ### Splitting -/

theorem hull_of_cols {eps : K} {S L : Surface K V} (h : S.Good eps) (hl : ∀ row ∈ L.cps, row.length = S.cols)
    (hh : ∀ j, j < S.cols → Curve.Hull (S.col j) (L.col j)) : SurfHull S L := by
  intro Q hQ hS p hp
  obtain ⟨row, hrow, hp⟩ := mem_net.1 hp
  obtain ⟨j, hj, rfl⟩ := List.getElem_of_mem hp
  have hj' : j < S.cols := by rw [← hl row hrow]; exact hj
  refine hh j hj' Q hQ ?_ _ ?_
  · intro q hq
    obtain ⟨r, hr, rfl⟩ := List.mem_map.1 hq
    have hlen : j < r.length := by rw [h.rect r hr]; exact hj'
    rw [List.getD_eq_getElem?_getD, List.getElem?_eq_getElem hlen]
    exact hS _ (mem_net.2 ⟨r, hr, List.getElem_mem _⟩)
  · refine List.mem_map.2 ⟨row, hrow, ?_⟩
    rw [List.getD_eq_getElem?_getD, List.getElem?_eq_getElem hj]
    rfl

theorem hull_of_rows {S L : Surface K V} (hl : L.cps.length = S.cps.length)
    (hh : ∀ i, i < S.cps.length → Curve.Hull (S.row i) (L.row i)) : SurfHull S L := by
  intro Q hQ hS p hp
  obtain ⟨row, hrow, hp⟩ := mem_net.1 hp
  obtain ⟨i, hi, rfl⟩ := List.getElem_of_mem hrow
  have hi' : i < S.cps.length := by omega
  refine hh i hi' Q hQ ?_ _ ?_
  · intro q hq
    rw [Surface.row, List.getD_eq_getElem?_getD, List.getElem?_eq_getElem hi'] at hq
    exact hS q (mem_net.2 ⟨_, List.getElem_mem _, hq⟩)
  · rw [Surface.row, List.getD_eq_getElem?_getD, List.getElem?_eq_getElem hi]
    exact hp

theorem split_hull {eps : K} {S : Surface K V} {dir : UV} (h : S.Good eps) {t : K}
    (h1 : sideLo S dir ≤ t) (h2 : t ≤ sideHi S dir)
    (hsep : ∀ y ∈ sideKnots S dir, |y - t| < eps → y = t) :
    ∃ L R, S.trySplit eps t dir = .ok (L, R) ∧ SurfHull S L ∧ SurfHull S R := by
  cases dir with
  | u =>
    obtain ⟨L, R, e, -, -, -, -, f5, f6, f7⟩ := split_u h h1 h2 hsep
    refine ⟨L, R, e, hull_of_cols h f5 fun j hj => ?_, hull_of_cols h f6 fun j hj => ?_⟩
    · obtain ⟨_, s, c', hs⟩ := f7 j hj; exact hs.lhull
    · obtain ⟨_, s, c', hs⟩ := f7 j hj; exact hs.rhull
  | v =>
    obtain ⟨L, R, e, -, -, -, -, f5, f6, f7⟩ := split_v h h1 h2 hsep
    refine ⟨L, R, e, hull_of_rows f5 fun j hj => ?_, hull_of_rows f6 fun j hj => ?_⟩
    · obtain ⟨_, s, c', hs⟩ := f7 j hj; exact hs.lhull
    · obtain ⟨_, s, c', hs⟩ := f7 j hj; exact hs.rhull

/-- **Both pieces of a split surface** stay in the convex hull of the control net, in either direction. -/
theorem C104_surface_split {eps : K} {S : Surface K (W × K)} {dir : UV} (h : S.Good eps) (hw : ∀ row ∈ S.cps, ∀ q ∈ row, 0 < q.2) {t : K}
    (h1 : sideLo S dir ≤ t) (h2 : t ≤ sideHi S dir)
    (hsep : ∀ y ∈ sideKnots S dir, |y - t| < eps → y = t) :
    ∃ L R, S.trySplit eps t dir = .ok (L, R) ∧ SurfInside S L ∧ SurfInside S R := by
  obtain ⟨L, R, e, hl, hr⟩ := split_hull h h1 h2 hsep
  exact ⟨L, R, e, hl.inside hw, hr.inside hw⟩

/-- **Nested boxes**: in the bounding box tree of a surface the box of every node is inside the box of the root. -/
theorem C104_surface_tree {Rng : Type} {eps big : K} {t0 : SurfTree K d} (h : t0.surface.Good eps)
    (hw : ∀ row ∈ t0.surface.cps, ∀ q ∈ row, 0 < q.2) (hg : SurfGeneric Rng eps big t0) {t : SurfTree K d}
    (ht : Reach (SurfTree.tree Rng eps big) t0 t) : SurfInside t0.surface t.surface ∧ SurfBoxInside big t0.surface t.surface := by
  suffices H : SurfHull t0.surface t.surface from ⟨H.inside hw, (H.inside hw).box big⟩
  have h0 : SurfInv Rng eps big t0 t0 := ⟨.root, h, hw, rfl⟩
  have step : ∀ (x y z : SurfTree K d) (r r' : Rng), Reach (SurfTree.tree Rng eps big) t0 x →
      (SurfTree.tree Rng eps big).isDividable x = .ok true → (SurfTree.tree Rng eps big).tryDivide x r = .ok ((y, z), r') →
      SurfHull t0.surface x.surface → SurfHull t0.surface y.surface ∧ SurfHull t0.surface z.surface := by
    intro x y z r r' hx hd e hH
    have hgood := (surf_reach hg h0 hx).1.good
    obtain ⟨e1, e2⟩ := surf_dom_lt hgood
    obtain ⟨d1, d2⟩ := surf_domains hgood
    have hgen := hg x hx hd
    obtain ⟨S, tol, dir⟩ := x
    have e : SurfTree.tryDivide eps ⟨S, tol, dir⟩ r = .ok ((y, z), r') := e
    cases dir with
    | u =>
      obtain ⟨m1, m2⟩ := middle_bounds e1
      obtain ⟨L, R, es, hl, hr⟩ := split_hull (dir := .u) (t := (S.ulo + S.uhi) * (1 / 2)) hgood m1.le m2.le
        (fun y hy hlt => absurd hlt (not_lt.2 (hgen y hy).2))
      have e' : (S.uDomain >>= fun dom => S.trySplit eps ((dom.1 + dom.2) * (1 / 2)) .u >>= fun x =>
        pure ((⟨x.1, tol, .v⟩, ⟨x.2, tol, .v⟩), r)) = .ok ((y, z), r') := e
      simp only at d1
      rw [d1, ok_bind, es, ok_bind] at e'
      cases e'
      exact ⟨hH.trans hl, hH.trans hr⟩
    | v =>
      obtain ⟨m1, m2⟩ := middle_bounds e2
      obtain ⟨L, R, es, hl, hr⟩ := split_hull (dir := .v) (t := (S.vlo + S.vhi) * (1 / 2)) hgood m1.le m2.le
        (fun y hy hlt => absurd hlt (not_lt.2 (hgen y hy).2))
      have e' : (S.vDomain >>= fun dom => S.trySplit eps ((dom.1 + dom.2) * (1 / 2)) .v >>= fun x =>
        pure ((⟨x.1, tol, .u⟩, ⟨x.2, tol, .u⟩), r)) = .ok ((y, z), r') := e
      simp only at d2
      rw [d2, ok_bind, es, ok_bind] at e'
      cases e'
      exact ⟨hH.trans hl, hH.trans hr⟩
  induction ht with
  | root => exact SurfHull.refl _
  | left hx hd e ih => exact (step _ _ _ _ _ hx hd e ih).1
  | right hx hd e ih => exact (step _ _ _ _ _ hx hd e ih).2

/-- The pieces of the saddle split at `1/3`. -/
example (dir : UV) : ∃ L R, exSaddle.trySplit (1/1000000) (1/3) dir = .ok (L, R) ∧ SurfInside exSaddle L ∧ SurfInside exSaddle R :=
  C104_surface_split exSaddle_good (by decide) (by cases dir <;> decide +kernel) (by cases dir <;> decide +kernel)
    (by cases dir <;> decide +kernel)

/-- Refining it at two places. -/
example (dir : UV) : ∃ S', exSaddle.tryRefineKnot (1/1000000) [1/3, 1/2] dir = .ok S' ∧ SurfInside exSaddle S' :=
  C104_surface_refine exSaddle_good (by decide) (by norm_num) (by cases dir <;> decide +kernel) (by cases dir <;> decide +kernel)

/-- Its tree. -/
example (t : SurfTree ℚ 3) (h : Reach (SurfTree.tree ℕ (1/1000000) 1000) ⟨exSaddle, (1/64, 1/64), .u⟩ t) : SurfBoxInside 1000 exSaddle t.surface :=
  (C104_surface_tree (t0 := ⟨exSaddle, (1/64, 1/64), .u⟩) exSaddle_good (by decide)
    (surf_generic_of_ends (δ := 1/64) exSaddle_good (by decide) rfl (by decide +kernel) (by decide +kernel) (by decide +kernel)
      (by decide +kernel) (by norm_num) (by norm_num)) h).2

end Curvo.Props

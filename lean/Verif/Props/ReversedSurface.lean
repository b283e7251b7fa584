/-
  C123: cutting flipped surfaces.
-/
import Verif.Props.Cutting

set_option linter.unusedSectionVars false
set_option linter.unusedSimpArgs false

namespace Curvo.Props

open Curvo Curvo.Knots Curvo.Spec Curvo.Curve Curvo.Surface

variable {K : Type} [Field K] [LinearOrder K] [IsStrictOrderedRing K]
variable {V : Type} [AddCommGroup V] [Module K V]

/-! ### Specification -/

/-- The knots in u: inside of the domain, repeated at most degree + 1 times, and at most degree times inside. -/
structure UnbrokenU (S : Surface K V) : Prop where
  inside : ∀ x ∈ S.uKnots, S.ulo ≤ x ∧ x ≤ S.uhi
  count : ∀ x, S.uKnots.count x ≤ S.uDegree + 1
  inner : ∀ x, S.ulo < x → x < S.uhi → S.uKnots.count x ≤ S.uDegree

/-- The knots in v: inside of the domain, repeated at most degree + 1 times, and at most degree times inside. -/
structure UnbrokenV (S : Surface K V) : Prop where
  inside : ∀ x ∈ S.vKnots, S.vlo ≤ x ∧ x ≤ S.vhi
  count : ∀ x, S.vKnots.count x ≤ S.vDegree + 1
  inner : ∀ x, S.vlo < x → x < S.vhi → S.vKnots.count x ≤ S.vDegree

/-- A surface with its knots in u moved by `t`. -/
def shiftedU (t : K) (S : Surface K V) : Surface K V := { S with uKnots := S.uKnots.map fun x => x + t }

/-- A surface with its knots in v moved by `t`. -/
def shiftedV (t : K) (S : Surface K V) : Surface K V := { S with vKnots := S.vKnots.map fun x => x + t }

/-! ### Surfaces by rows and columns -/

theorem ext_rows {S T : Surface K V} (hl : S.cps.length = T.cps.length) (h0 : 0 < S.cps.length) (h1 : S.uDegree = T.uDegree)
    (h2 : S.uKnots = T.uKnots) (h : ∀ i, i < S.cps.length → S.row i = T.row i) : S = T := by
  have a := h 0 h0
  have b1 : S.vDegree = T.vDegree := congrArg Curve.degree a
  have b2 : S.vKnots = T.vKnots := congrArg Curve.knots a
  have b3 : S.cps = T.cps := by
    refine List.ext_getElem hl fun i g1 g2 => ?_
    have := congrArg Curve.cps (h i g1)
    simpa [Surface.row, List.getD_eq_getElem?_getD, g1, g2] using this
  cases S; cases T; simp_all

theorem ext_cols {S T : Surface K V} {n : ℕ} (h0 : 0 < n) (hS : ∀ r ∈ S.cps, r.length = n) (hT : ∀ r ∈ T.cps, r.length = n)
    (h1 : S.vDegree = T.vDegree) (h2 : S.vKnots = T.vKnots) (h : ∀ j, j < n → S.col j = T.col j) : S = T := by
  have a := h 0 h0
  have b1 : S.uDegree = T.uDegree := congrArg Curve.degree a
  have b2 : S.uKnots = T.uKnots := congrArg Curve.knots a
  have hl : S.cps.length = T.cps.length := by simpa [Surface.col] using congrArg (fun c => c.cps.length) a
  have b3 : S.cps = T.cps := by
    refine List.ext_getElem hl fun i g1 g2 => ?_
    refine List.ext_getElem (by rw [hS _ (List.getElem_mem _), hT _ (List.getElem_mem _)]) fun j k1 k2 => ?_
    have hj : j < n := by rw [← hS _ (List.getElem_mem g1)]; exact k1
    have := congrArg (fun c => c.cps[i]?) (h j hj)
    simpa [Surface.col, List.getD_eq_getElem?_getD, g1, g2, k1, k2] using this
  cases S; cases T; simp_all

theorem UnbrokenV.row {eps : K} {S : Surface K V} (h : UnbrokenV S) (hg : S.Good eps) {i : ℕ} (hi : i < S.cps.length) : Unbroken eps (S.row i) :=
  ⟨⟨hg.row hi, fun x hx => by rw [row_hi hg hi]; exact h.inside x hx, h.count⟩, fun x g1 g2 => h.inner x g1 (by rw [row_hi hg hi] at g2; exact g2)⟩

theorem UnbrokenU.col {eps : K} {S : Surface K V} (h : UnbrokenU S) (hg : S.Good eps) (j : ℕ) : Unbroken eps (S.col j) :=
  ⟨⟨hg.col j, fun x hx => by rw [col_hi]; exact h.inside x hx, h.count⟩, fun x g1 g2 => h.inner x g1 (by rw [col_hi] at g2; exact g2)⟩

theorem UnbrokenV.cont {eps : K} {S : Surface K V} (h : UnbrokenV S) (hg : S.Good eps) : ContKnots (kf S.vKnots) S.vDegree (S.cols - 1) := by
  have := (h.row hg hg.rows_pos).cont
  rwa [show (S.row 0).cps.length = S.cols from hg.row_len hg.rows_pos] at this

theorem UnbrokenU.cont {eps : K} {S : Surface K V} (h : UnbrokenU S) (hg : S.Good eps) : ContKnots (kf S.uKnots) S.uDegree (S.cps.length - 1) := by
  have := (h.col hg 0).cont
  rwa [show (S.col 0).cps.length = S.cps.length by simp [Surface.col]] at this

theorem flip_v_eq (S : Surface K V) : S.flip .v = (Knots.invert S.vKnots).map fun ks => { S with cps := S.cps.map List.reverse, vKnots := ks } := by
  unfold Surface.flip
  simp only [pure_eq_ok, ok_bind]
  cases Knots.invert S.vKnots <;> rfl

theorem flip_u_eq (S : Surface K V) : S.flip .u = (Knots.invert S.uKnots).map fun ks => { S with cps := S.cps.reverse, uKnots := ks } := by
  unfold Surface.flip
  simp only [pure_eq_ok, ok_bind]
  cases Knots.invert S.uKnots <;> rfl

theorem flip_v_row {S S' : Surface K V} (h : S.flip .v = .ok S') {i : ℕ} (hi : i < S.cps.length) : (S.row i).invert = .ok (S'.row i) := by
  rw [flip_v_eq] at h
  unfold Curve.invert
  show (do let ks ← Knots.invert S.vKnots; _) = _
  cases e : Knots.invert S.vKnots with
  | error _ => rw [e] at h; cases h
  | ok ks =>
    rw [e] at h; cases h
    simp [Surface.row, List.getD_eq_getElem?_getD, hi, ok_bind]

theorem flip_u_col {S S' : Surface K V} (h : S.flip .u = .ok S') (j : ℕ) : (S.col j).invert = .ok (S'.col j) := by
  rw [flip_u_eq] at h
  unfold Curve.invert
  show (do let ks ← Knots.invert S.uKnots; _) = _
  cases e : Knots.invert S.uKnots with
  | error _ => rw [e] at h; cases h
  | ok ks =>
    rw [e] at h; cases h
    simp [Surface.col, ok_bind]

/-- What flipping in v does. -/
theorem flip_v_spec {eps : K} {S : Surface K V} (hg : S.Good eps) (h : UnbrokenV S) :
    ∃ S', S.flip .v = .ok S' ∧ S'.Good eps ∧ S'.uDegree = S.uDegree ∧ S'.vDegree = S.vDegree ∧ S'.uKnots = S.uKnots ∧
      S'.vKnots = S.vKnots.reverse.map (fun k => S.vlo + S.vhi - k) ∧ S'.cps = S.cps.map List.reverse ∧
      S'.vlo = S.vlo ∧ S'.vhi = S.vhi ∧ S'.cols = S.cols := by
  have hrp := hg.rows_pos
  obtain ⟨S', e1, g1, m1, m2, -, -, -⟩ := C29_flip_v hg (h.cont hg)
  obtain ⟨c0, c1⟩ := (h.row hg hrp).toTame.ends
  change kf S.vKnots 0 = S.vlo at c0
  change kf S.vKnots (S.vKnots.length - 1) = (S.row 0).hi at c1
  rw [row_hi hg hrp] at c1
  rw [c0, c1] at m1 m2
  obtain ⟨c', a1, -, -, -, a3, -⟩ := invert_unbroken (h.row hg hrp)
  rw [flip_v_row e1 hrp] at a1
  cases a1
  have hS' := e1
  rw [flip_v_eq] at hS'
  obtain ⟨ks, eks⟩ := invert_ok (ks := S.vKnots) (by have := hg.v_len; omega)
  rw [eks] at hS'
  have hS'' := (Except.ok.inj hS').symm
  have hk : S'.vKnots = S.vKnots.reverse.map (fun k => S.vlo + S.vhi - k) := by
    have := a3
    rw [row_hi hg hrp] at this
    exact this
  refine ⟨S', e1, g1, by rw [hS''], by rw [hS''], by rw [hS''], hk, by rw [hS''], by linarith, by linarith, ?_⟩
  unfold Surface.cols
  rw [hk, show S'.vDegree = S.vDegree by rw [hS'']]
  simp

/-- What flipping in u does. -/
theorem flip_u_spec {eps : K} {S : Surface K V} (hg : S.Good eps) (h : UnbrokenU S) :
    ∃ S', S.flip .u = .ok S' ∧ S'.Good eps ∧ S'.uDegree = S.uDegree ∧ S'.vDegree = S.vDegree ∧ S'.vKnots = S.vKnots ∧
      S'.uKnots = S.uKnots.reverse.map (fun k => S.ulo + S.uhi - k) ∧ S'.cps = S.cps.reverse ∧
      S'.ulo = S.ulo ∧ S'.uhi = S.uhi ∧ S'.cols = S.cols := by
  have hrp := hg.rows_pos
  obtain ⟨S', e1, g1, m1, m2, -, -, -⟩ := C29_flip_u hg (h.cont hg)
  obtain ⟨c0, c1⟩ := (h.col hg 0).toTame.ends
  change kf S.uKnots 0 = S.ulo at c0
  change kf S.uKnots (S.uKnots.length - 1) = (S.col 0).hi at c1
  rw [col_hi] at c1
  rw [c0, c1] at m1 m2
  obtain ⟨c', a1, -, -, -, a3, -⟩ := invert_unbroken (h.col hg 0)
  rw [flip_u_col e1 0] at a1
  cases a1
  have hS' := e1
  rw [flip_u_eq] at hS'
  obtain ⟨ks, eks⟩ := invert_ok (ks := S.uKnots) (by have := hg.u_len; omega)
  rw [eks] at hS'
  have hS'' := (Except.ok.inj hS').symm
  have hk : S'.uKnots = S.uKnots.reverse.map (fun k => S.ulo + S.uhi - k) := by
    have := a3
    rw [col_hi] at this
    exact this
  exact ⟨S', e1, g1, by rw [hS''], by rw [hS''], by rw [hS''], hk, by rw [hS''], by linarith, by linarith, by rw [hS'']; rfl⟩

theorem clear_mirrored {eps m t : K} {ks : List K} (h : ClearOf eps ks t) : ClearOf eps (ks.reverse.map fun k => m - k) (m - t) := by
  constructor
  · intro y hy
    obtain ⟨z, hz, rfl⟩ := List.mem_map.1 hy
    rw [show m - z - (m - t) = -(z - t) by ring, abs_neg]
    exact h.1 z (by simpa using hz)
  · intro hy
    obtain ⟨z, hz, he⟩ := List.mem_map.1 hy
    have : t = z := by linarith
    exact h.2 (this ▸ by simpa using hz)

theorem clear_sep {eps t : K} {ks : List K} (h : ClearOf eps ks t) : ∀ y ∈ ks, |y - t| < eps → y = t :=
  fun y hy hlt => absurd (h.1 y hy) (not_le.2 hlt)

/-- **C123**: cutting the surface flipped in v at the mirrored parameter of v gives the flipped pieces in the other order,
    with knots moved by a constant. -/
theorem C123_split_v {eps : K} {S : Surface K V} (hg : S.Good eps) (h : UnbrokenV S) {t : K} (h1 : S.vlo < t) (h2 : t < S.vhi)
    (ht : ClearOf eps S.vKnots t) :
    ∃ S' L R L' R', S.flip .v = .ok S' ∧ S.trySplit eps t .v = .ok (L, R) ∧ L.flip .v = .ok L' ∧ R.flip .v = .ok R' ∧
      S'.trySplit eps (S.vlo + S.vhi - t) .v = .ok (shiftedV (S.vlo - t) R', shiftedV (S.vhi - t) L') := by
  have hrp := hg.rows_pos
  obtain ⟨S', e1, g1, f1, f2, f3, f4, f5, m1, m2, -⟩ := flip_v_spec hg h
  have hlen : S'.cps.length = S.cps.length := by rw [f5]; simp
  obtain ⟨L, R, e2, d1, d2, k1, k2, l1, l2, hc⟩ := split_v hg h1.le h2.le (clear_sep ht)
  have key := fun i (hi : i < S.cps.length) => C108_split_reversed (h.row hg hi) h1 (by rw [row_hi hg hi]; exact h2) ht.1 ht.2
  obtain ⟨A, B, e5, d5, d6, k5, k6, l5, l6, hc'⟩ := split_v g1 (t := S.vlo + S.vhi - t) (by rw [m1]; linarith) (by rw [m2]; linarith)
    (clear_sep (by rw [f4]; exact clear_mirrored ht))
  obtain ⟨L', eL⟩ : ∃ L', L.flip .v = .ok L' := by
    obtain ⟨c', l, r, l', r', -, q2, q3, -⟩ := key 0 hrp
    rw [(hc 0 hrp).1] at q2; cases q2
    obtain ⟨ks, eks, -⟩ := bind_eq_ok.1 q3
    rw [flip_v_eq, show L.vKnots = (L.row 0).knots from rfl, eks]
    exact ⟨_, rfl⟩
  obtain ⟨R', eR⟩ : ∃ R', R.flip .v = .ok R' := by
    obtain ⟨c', l, r, l', r', -, q2, -, q3, -⟩ := key 0 hrp
    rw [(hc 0 hrp).1] at q2; cases q2
    obtain ⟨ks, eks, -⟩ := bind_eq_ok.1 q3
    rw [flip_v_eq, show R.vKnots = (R.row 0).knots from rfl, eks]
    exact ⟨_, rfl⟩
  have rest : ∀ {T T' : Surface K V}, T.flip .v = .ok T' → T'.cps.length = T.cps.length ∧ T'.uDegree = T.uDegree ∧ T'.uKnots = T.uKnots := by
    intro T T' e
    rw [flip_v_eq] at e
    cases ek : Knots.invert T.vKnots with
    | error _ => rw [ek] at e; cases e
    | ok ks => rw [ek] at e; cases e; simp
  have rows : ∀ i, i < S.cps.length → A.row i = (shiftedV (S.vlo - t) R').row i ∧ B.row i = (shiftedV (S.vhi - t) L').row i := by
    intro i hi
    obtain ⟨c', l, r, l', r', q1, q2, q3, q4, q5⟩ := key i hi
    rw [flip_v_row e1 hi] at q1; cases q1
    rw [(hc i hi).1] at q2; cases q2
    rw [flip_v_row eL (by rw [l1]; exact hi)] at q3; cases q3
    rw [flip_v_row eR (by rw [l2]; exact hi)] at q4; cases q4
    rw [row_hi hg hi] at q5
    have := (hc' i (by rw [hlen]; exact hi)).1
    rw [show (S.row i).lo + S.vhi - t = S.vlo + S.vhi - t from rfl] at q5
    rw [q5] at this
    have := Except.ok.inj this
    exact ⟨(congrArg Prod.fst this).symm, (congrArg Prod.snd this).symm⟩
  have hA : A = shiftedV (S.vlo - t) R' := by
    obtain ⟨a1, a2, a3⟩ := rest eR
    exact ext_rows (by rw [l5, hlen]; show _ = R'.cps.length; rw [a1, l2]) (by rw [l5, hlen]; exact hrp)
      (by rw [d5, f1]; show _ = R'.uDegree; rw [a2, d2]) (by rw [k5, f3]; show _ = R'.uKnots; rw [a3, k2])
      (fun i hi => (rows i (by rw [l5, hlen] at hi; exact hi)).1)
  have hB : B = shiftedV (S.vhi - t) L' := by
    obtain ⟨a1, a2, a3⟩ := rest eL
    exact ext_rows (by rw [l6, hlen]; show _ = L'.cps.length; rw [a1, l1]) (by rw [l6, hlen]; exact hrp)
      (by rw [d6, f1]; show _ = L'.uDegree; rw [a2, d1]) (by rw [k6, f3]; show _ = L'.uKnots; rw [a3, k1])
      (fun i hi => (rows i (by rw [l6, hlen] at hi; exact hi)).2)
  rw [hA, hB] at e5
  exact ⟨S', L, R, L', R', e1, e2, eL, eR, e5⟩

/-- **C123**: the same in u. -/
theorem C123_split_u {eps : K} {S : Surface K V} (hg : S.Good eps) (h : UnbrokenU S) {t : K} (h1 : S.ulo < t) (h2 : t < S.uhi)
    (ht : ClearOf eps S.uKnots t) :
    ∃ S' L R L' R', S.flip .u = .ok S' ∧ S.trySplit eps t .u = .ok (L, R) ∧ L.flip .u = .ok L' ∧ R.flip .u = .ok R' ∧
      S'.trySplit eps (S.ulo + S.uhi - t) .u = .ok (shiftedU (S.ulo - t) R', shiftedU (S.uhi - t) L') := by
  have hcp := hg.cols_pos
  obtain ⟨S', e1, g1, f1, f2, f3, f4, f5, m1, m2, m3⟩ := flip_u_spec hg h
  obtain ⟨L, R, e2, d1, d2, k1, k2, l1, l2, hc⟩ := split_u hg h1.le h2.le (clear_sep ht)
  have key := fun j => C108_split_reversed (h.col hg j) h1 (by rw [col_hi]; exact h2) ht.1 ht.2
  obtain ⟨A, B, e5, d5, d6, k5, k6, l5, l6, hc'⟩ := split_u g1 (t := S.ulo + S.uhi - t) (by rw [m1]; linarith) (by rw [m2]; linarith)
    (clear_sep (by rw [f4]; exact clear_mirrored ht))
  rw [m3] at l5 l6
  obtain ⟨L', eL⟩ : ∃ L', L.flip .u = .ok L' := by
    obtain ⟨c', l, r, l', r', -, q2, q3, -⟩ := key 0
    rw [(hc 0 hcp).1] at q2; cases q2
    obtain ⟨ks, eks, -⟩ := bind_eq_ok.1 q3
    rw [flip_u_eq, show L.uKnots = (L.col 0).knots from rfl, eks]
    exact ⟨_, rfl⟩
  obtain ⟨R', eR⟩ : ∃ R', R.flip .u = .ok R' := by
    obtain ⟨c', l, r, l', r', -, q2, -, q3, -⟩ := key 0
    rw [(hc 0 hcp).1] at q2; cases q2
    obtain ⟨ks, eks, -⟩ := bind_eq_ok.1 q3
    rw [flip_u_eq, show R.uKnots = (R.col 0).knots from rfl, eks]
    exact ⟨_, rfl⟩
  have rest : ∀ {T T' : Surface K V}, T.flip .u = .ok T' → T'.cps = T.cps.reverse ∧ T'.vDegree = T.vDegree ∧ T'.vKnots = T.vKnots := by
    intro T T' e
    rw [flip_u_eq] at e
    cases ek : Knots.invert T.uKnots with
    | error _ => rw [ek] at e; cases e
    | ok ks => rw [ek] at e; cases e; simp
  have cols : ∀ j, j < S.cols → A.col j = (shiftedU (S.ulo - t) R').col j ∧ B.col j = (shiftedU (S.uhi - t) L').col j := by
    intro j hj
    obtain ⟨c', l, r, l', r', q1, q2, q3, q4, q5⟩ := key j
    rw [flip_u_col e1 j] at q1; cases q1
    rw [(hc j hj).1] at q2; cases q2
    rw [flip_u_col eL j] at q3; cases q3
    rw [flip_u_col eR j] at q4; cases q4
    rw [col_hi] at q5
    have := (hc' j (by rw [m3]; exact hj)).1
    rw [show (S.col j).lo + S.uhi - t = S.ulo + S.uhi - t from rfl] at q5
    rw [q5] at this
    have := Except.ok.inj this
    exact ⟨(congrArg Prod.fst this).symm, (congrArg Prod.snd this).symm⟩
  have hA : A = shiftedU (S.ulo - t) R' := by
    obtain ⟨a1, a2, a3⟩ := rest eR
    exact ext_cols hcp l5 (by show ∀ r ∈ R'.cps, _; rw [a1]; intro r hr; exact l2 r (by simpa using hr))
      (by rw [d5, f2]; show _ = R'.vDegree; rw [a2, d2]) (by rw [k5, f3]; show _ = R'.vKnots; rw [a3, k2]) (fun j hj => (cols j hj).1)
  have hB : B = shiftedU (S.uhi - t) L' := by
    obtain ⟨a1, a2, a3⟩ := rest eL
    exact ext_cols hcp l6 (by show ∀ r ∈ L'.cps, _; rw [a1]; intro r hr; exact l1 r (by simpa using hr))
      (by rw [d6, f2]; show _ = L'.vDegree; rw [a2, d1]) (by rw [k6, f3]; show _ = L'.vKnots; rw [a3, k1]) (fun j hj => (cols j hj).2)
  rw [hA, hB] at e5
  exact ⟨S', L, R, L', R', e1, e2, eL, eR, e5⟩

/-! ### Across -/

theorem col_of_flip_v {T T' : Surface K V} (e : T.flip .v = .ok T') {n : ℕ} (hT : ∀ r ∈ T.cps, r.length = n) {j : ℕ} (hj : j < n) :
    T'.col j = T.col (n - 1 - j) := by
  rw [flip_v_eq] at e
  cases ek : Knots.invert T.vKnots with
  | error _ => rw [ek] at e; cases e
  | ok ks =>
    rw [ek] at e; cases e
    simp only [Surface.col, List.map_map, Curve.mk.injEq, true_and, and_true]
    refine List.map_congr_left fun r hr => ?_
    have := hT r hr
    simp [List.getD_eq_getElem?_getD, List.getElem?_reverse (show j < r.length by omega), this]

theorem row_of_flip_u {T T' : Surface K V} (e : T.flip .u = .ok T') {i : ℕ} (hi : i < T.cps.length) :
    T'.row i = T.row (T.cps.length - 1 - i) := by
  rw [flip_u_eq] at e
  cases ek : Knots.invert T.uKnots with
  | error _ => rw [ek] at e; cases e
  | ok ks =>
    rw [ek] at e; cases e
    simp [Surface.row, List.getD_eq_getElem?_getD, List.getElem?_reverse hi]

/-- **C123**: flipping in v and cutting in u can be exchanged. -/
theorem C123_across_u {eps : K} {S : Surface K V} (hg : S.Good eps) (h : UnbrokenV S) {t : K} (h1 : S.ulo ≤ t) (h2 : t ≤ S.uhi)
    (ht : ∀ y ∈ S.uKnots, |y - t| < eps → y = t) :
    ∃ S' L R L' R', S.flip .v = .ok S' ∧ S.trySplit eps t .u = .ok (L, R) ∧ L.flip .v = .ok L' ∧ R.flip .v = .ok R' ∧
      S'.trySplit eps t .u = .ok (L', R') := by
  have hcp := hg.cols_pos
  obtain ⟨S', e1, g1, f1, f2, f3, f4, f5, m1, m2, m3⟩ := flip_v_spec hg h
  obtain ⟨L, R, e2, d1, d2, k1, k2, l1, l2, hc⟩ := split_u hg h1 h2 ht
  have hhi : S'.uhi = S.uhi := by rw [Surface.uhi, Surface.uhi, f3, f5]; simp
  obtain ⟨A, B, e5, d5, d6, k5, k6, l5, l6, hc'⟩ := split_u g1 (t := t) (by rw [Surface.ulo, f3, f1]; exact h1) (by rw [hhi]; exact h2)
    (by rw [f3]; exact ht)
  rw [m3] at l5 l6
  obtain ⟨ks, eks⟩ := invert_ok (ks := S.vKnots) (by have := hg.v_len; omega)
  have hvk : S'.vKnots = ks := by rw [flip_v_eq, eks] at e1; cases e1; rfl
  obtain ⟨L', eL, hL⟩ : ∃ L', L.flip .v = .ok L' ∧ L' = { L with cps := L.cps.map List.reverse, vKnots := ks } := by
    rw [flip_v_eq, k1, eks]; exact ⟨_, rfl, rfl⟩
  obtain ⟨R', eR, hR⟩ : ∃ R', R.flip .v = .ok R' ∧ R' = { R with cps := R.cps.map List.reverse, vKnots := ks } := by
    rw [flip_v_eq, k2, eks]; exact ⟨_, rfl, rfl⟩
  have cols : ∀ j, j < S.cols → A.col j = L'.col j ∧ B.col j = R'.col j := by
    intro j hj
    have q := (hc' j (by rw [m3]; exact hj)).1
    rw [col_of_flip_v e1 hg.rect hj, (hc _ (by omega)).1] at q
    rw [col_of_flip_v eL l1 hj, col_of_flip_v eR l2 hj]
    have := Except.ok.inj q
    exact ⟨(congrArg Prod.fst this).symm, (congrArg Prod.snd this).symm⟩
  have hA : A = L' := ext_cols hcp l5 (by rw [hL]; intro r hr; obtain ⟨q, hq, rfl⟩ := List.mem_map.1 hr; simpa using l1 q hq)
      (by rw [d5, f2, hL, ← d1]) (by rw [k5, hvk, hL]) (fun j hj => (cols j hj).1)
  have hB : B = R' := ext_cols hcp l6 (by rw [hR]; intro r hr; obtain ⟨q, hq, rfl⟩ := List.mem_map.1 hr; simpa using l2 q hq)
      (by rw [d6, f2, hR, ← d2]) (by rw [k6, hvk, hR]) (fun j hj => (cols j hj).2)
  rw [hA, hB] at e5
  exact ⟨S', L, R, L', R', e1, e2, eL, eR, e5⟩

/-- **C123**: flipping in u and cutting in v can be exchanged. -/
theorem C123_across_v {eps : K} {S : Surface K V} (hg : S.Good eps) (h : UnbrokenU S) {t : K} (h1 : S.vlo ≤ t) (h2 : t ≤ S.vhi)
    (ht : ∀ y ∈ S.vKnots, |y - t| < eps → y = t) :
    ∃ S' L R L' R', S.flip .u = .ok S' ∧ S.trySplit eps t .v = .ok (L, R) ∧ L.flip .u = .ok L' ∧ R.flip .u = .ok R' ∧
      S'.trySplit eps t .v = .ok (L', R') := by
  have hrp := hg.rows_pos
  obtain ⟨S', e1, g1, f1, f2, f3, f4, f5, m1, m2, m3⟩ := flip_u_spec hg h
  have hlen : S'.cps.length = S.cps.length := by rw [f5]; simp
  obtain ⟨L, R, e2, d1, d2, k1, k2, l1, l2, hc⟩ := split_v hg h1 h2 ht
  obtain ⟨A, B, e5, d5, d6, k5, k6, l5, l6, hc'⟩ := split_v g1 (t := t) (by rw [Surface.vlo, f3, f2]; exact h1)
    (by rw [Surface.vhi, f3, m3]; exact h2) (by rw [f3]; exact ht)
  obtain ⟨ks, eks⟩ := invert_ok (ks := S.uKnots) (by have := hg.u_len; omega)
  have huk : S'.uKnots = ks := by rw [flip_u_eq, eks] at e1; cases e1; rfl
  obtain ⟨L', eL, hL⟩ : ∃ L', L.flip .u = .ok L' ∧ L' = { L with cps := L.cps.reverse, uKnots := ks } := by
    rw [flip_u_eq, k1, eks]; exact ⟨_, rfl, rfl⟩
  obtain ⟨R', eR, hR⟩ : ∃ R', R.flip .u = .ok R' ∧ R' = { R with cps := R.cps.reverse, uKnots := ks } := by
    rw [flip_u_eq, k2, eks]; exact ⟨_, rfl, rfl⟩
  have rows : ∀ i, i < S.cps.length → A.row i = L'.row i ∧ B.row i = R'.row i := by
    intro i hi
    have q := (hc' i (by rw [hlen]; exact hi)).1
    rw [row_of_flip_u e1 hi, (hc _ (by omega)).1] at q
    rw [row_of_flip_u eL (by rw [l1]; exact hi), row_of_flip_u eR (by rw [l2]; exact hi), l1, l2]
    have := Except.ok.inj q
    exact ⟨(congrArg Prod.fst this).symm, (congrArg Prod.snd this).symm⟩
  have hA : A = L' := ext_rows (by rw [l5, hlen, hL]; simp [l1]) (by rw [l5, hlen]; exact hrp) (by rw [d5, f1, hL, ← d1])
      (by rw [k5, huk, hL]) (fun i hi => (rows i (by rw [l5, hlen] at hi; exact hi)).1)
  have hB : B = R' := ext_rows (by rw [l6, hlen, hR]; simp [l2]) (by rw [l6, hlen]; exact hrp) (by rw [d6, f1, hR, ← d2])
      (by rw [k6, huk, hR]) (fun i hi => (rows i (by rw [l6, hlen] at hi; exact hi)).2)
  rw [hA, hB] at e5
  exact ⟨S', L, R, L', R', e1, e2, eL, eR, e5⟩

/-! ### Refinement -/

/-- A refinement of a curve is the computed one. -/
theorem refines_computed {eps : K} {c d : Curve K V} {xs : List K} (h : Tame eps c) (hsort : xs.Pairwise (· ≤ ·))
    (hdom : ∀ x ∈ xs, c.lo < x ∧ x < c.hi) (hsep : ∀ x ∈ xs, ∀ y ∈ xs ++ c.knots, |y - x| < eps → y = x)
    (hcount : ∀ x, (xs ++ c.knots).count x ≤ c.degree + 1) (r : Refines c d xs) : c.tryRefineKnot eps xs = .ok d := by
  obtain ⟨e, he, re⟩ := tryRefineKnot_refines h.good hsort (fun x hx => ⟨(hdom x hx).1.le, (hdom x hx).2.le⟩) hsep
  rw [he, Refines.unique h.good.pre r re (List.Perm.refl _) h.inside (fun x hx => ⟨(hdom x hx).1.le, (hdom x hx).2.le⟩) hcount]

theorem mirrored_sorted {m : K} {xs : List K} (h : xs.Pairwise (· ≤ ·)) : (xs.reverse.map fun x => m - x).Pairwise (· ≤ ·) := by
  rw [List.pairwise_map, List.pairwise_reverse]
  exact h.imp fun hab => by linarith

theorem mirrored_sep {eps m : K} {xs ks : List K} (h : ∀ x ∈ xs, ∀ y ∈ xs ++ ks, |y - x| < eps → y = x) :
    ∀ x ∈ xs.reverse.map (fun x => m - x), ∀ y ∈ xs.reverse.map (fun x => m - x) ++ ks.reverse.map (fun x => m - x), |y - x| < eps → y = x := by
  intro x hx y hy hlt
  obtain ⟨x', hx', rfl⟩ := List.mem_map.1 hx
  obtain ⟨y', hy', rfl⟩ : ∃ y' ∈ xs ++ ks, m - y' = y := by
    rcases List.mem_append.1 hy with hy | hy
    · obtain ⟨y', hy', rfl⟩ := List.mem_map.1 hy
      exact ⟨y', List.mem_append_left _ (by simpa using hy'), rfl⟩
    · obtain ⟨y', hy', rfl⟩ := List.mem_map.1 hy
      exact ⟨y', List.mem_append_right _ (by simpa using hy'), rfl⟩
  rw [show m - y' - (m - x') = -(y' - x') by ring, abs_neg] at hlt
  rw [h x' (by simpa using hx') y' hy' hlt]

theorem mirrored_count {m : K} {xs ks : List K} (x : K) :
    (xs.reverse.map (fun x => m - x) ++ ks.reverse.map (fun x => m - x)).count x = (xs ++ ks).count (m - x) := by
  have hinj : Function.Injective fun k : K => m - k := fun a b hab => by simpa using hab
  have key : ∀ l : List K, (l.reverse.map fun x => m - x).count x = l.count (m - x) := by
    intro l
    have := List.count_map_of_injective l.reverse _ hinj (m - x)
    rw [List.count_reverse] at this
    rw [← this]
    simp
  rw [List.count_append, key, key, List.count_append]

/-- **C123**: refining the surface flipped in v at the mirrored parameters gives the flipped refinement. -/
theorem C123_refine_v {eps : K} {S : Surface K V} (hg : S.Good eps) (h : UnbrokenV S) {xs : List K} (hsort : xs.Pairwise (· ≤ ·))
    (hdom : ∀ x ∈ xs, S.vlo < x ∧ x < S.vhi) (hsep : ∀ x ∈ xs, ∀ y ∈ xs ++ S.vKnots, |y - x| < eps → y = x)
    (hcount : ∀ x, S.vlo < x → x < S.vhi → (xs ++ S.vKnots).count x ≤ S.vDegree) :
    ∃ S' D D', S.flip .v = .ok S' ∧ S.tryRefineKnot eps xs .v = .ok D ∧ D.flip .v = .ok D' ∧
      S'.tryRefineKnot eps (xs.reverse.map fun x => S.vlo + S.vhi - x) .v = .ok D' := by
  have hrp := hg.rows_pos
  have hcount' : ∀ x, (xs ++ S.vKnots).count x ≤ S.vDegree + 1 := by
    intro x
    by_cases hx : S.vlo < x ∧ x < S.vhi
    · exact (hcount x hx.1 hx.2).trans (by omega)
    · rw [List.count_append, List.count_eq_zero.2 fun hm => hx (hdom x hm), zero_add]
      exact h.count x
  obtain ⟨S', e1, g1, f1, f2, f3, f4, f5, m1, m2, m3⟩ := flip_v_spec hg h
  have hlen : S'.cps.length = S.cps.length := by rw [f5]; simp
  obtain ⟨D, e2, a1, a2, a3, -, a5, a6, -, rr, -, -⟩ := C33_refine_v hg hsort (fun x hx => ⟨(hdom x hx).1.le, (hdom x hx).2.le⟩) hsep
  have hdom' : ∀ x ∈ xs.reverse.map (fun x => S.vlo + S.vhi - x), S.vlo < x ∧ x < S.vhi := by
    intro x hx
    obtain ⟨y, hy, rfl⟩ := List.mem_map.1 hx
    have := hdom y (by simpa using hy)
    constructor <;> linarith [this.1, this.2]
  obtain ⟨E, e5, b1, b2, b3, -, -, b6, -, rr', -, -⟩ := C33_refine_v g1 (xs := xs.reverse.map fun x => S.vlo + S.vhi - x) (mirrored_sorted hsort)
    (fun x hx => by rw [m1, m2]; exact ⟨(hdom' x hx).1.le, (hdom' x hx).2.le⟩) (by rw [f4]; exact mirrored_sep hsep)
  obtain ⟨D', eD⟩ : ∃ D', D.flip .v = .ok D' := by
    obtain ⟨ks, eks⟩ := invert_ok (ks := D.vKnots) (by rw [a5.length_eq]; have := hg.v_len; simp; omega)
    rw [flip_v_eq, eks]; exact ⟨_, rfl⟩
  have rest : D'.cps.length = D.cps.length ∧ D'.uDegree = D.uDegree ∧ D'.uKnots = D.uKnots := by
    have e := eD
    rw [flip_v_eq] at e
    cases ek : Knots.invert D.vKnots with
    | error _ => rw [ek] at e; cases e
    | ok ks => rw [ek] at e; cases e; simp
  have hE : E = D' := by
    refine ext_rows (by rw [b6, hlen, rest.1, a6]) (by rw [b6, hlen]; exact hrp) (by rw [b1, f1, rest.2.1, a1]) (by rw [b3, f3, rest.2.2, a3])
      fun i hi => ?_
    rw [b6, hlen] at hi
    obtain ⟨c', d, d', q1, q2, q3, q4⟩ := C108_refine_reversed (h.row hg hi) hsort (fun x hx => by rw [row_hi hg hi]; exact hdom x hx) hsep
      (fun x g1 g2 => hcount x g1 (by rw [row_hi hg hi] at g2; exact g2))
    rw [flip_v_row e1 hi] at q1; cases q1
    rw [refines_computed (h.row hg hi).toTame hsort (fun x hx => by rw [row_hi hg hi]; exact hdom x hx) hsep hcount' (rr i hi)] at q2; cases q2
    rw [flip_v_row eD (by rw [a6]; exact hi)] at q3; cases q3
    rw [row_hi hg hi] at q4
    have hi' : i < S'.cps.length := by rw [hlen]; exact hi
    have tame' : Tame eps (S'.row i) := by
      obtain ⟨c', q1, q2, -⟩ := invert_unbroken (h.row hg hi)
      rw [flip_v_row e1 hi] at q1; cases q1
      exact q2.toTame
    have := refines_computed tame' (mirrored_sorted hsort) (fun x hx => by rw [row_hi g1 hi', m2, show (S'.row i).lo = S'.vlo from rfl, m1]; exact hdom' x hx)
      (by show ∀ x ∈ _, ∀ y ∈ _ ++ S'.vKnots, _; rw [f4]; exact mirrored_sep hsep)
      (by intro x; show (_ ++ S'.vKnots).count x ≤ S'.vDegree + 1; rw [f4, mirrored_count, f2]; exact hcount' _) (rr' i hi')
    rw [show (S.row i).lo = S.vlo from rfl, this] at q4
    exact Except.ok.inj q4
  rw [hE] at e5
  exact ⟨S', D, D', e1, e2, eD, e5⟩

/-- **C123**: the same in u. -/
theorem C123_refine_u {eps : K} {S : Surface K V} (hg : S.Good eps) (h : UnbrokenU S) {xs : List K} (hsort : xs.Pairwise (· ≤ ·))
    (hdom : ∀ x ∈ xs, S.ulo < x ∧ x < S.uhi) (hsep : ∀ x ∈ xs, ∀ y ∈ xs ++ S.uKnots, |y - x| < eps → y = x)
    (hcount : ∀ x, S.ulo < x → x < S.uhi → (xs ++ S.uKnots).count x ≤ S.uDegree) :
    ∃ S' D D', S.flip .u = .ok S' ∧ S.tryRefineKnot eps xs .u = .ok D ∧ D.flip .u = .ok D' ∧
      S'.tryRefineKnot eps (xs.reverse.map fun x => S.ulo + S.uhi - x) .u = .ok D' := by
  have hcp := hg.cols_pos
  have hcount' : ∀ x, (xs ++ S.uKnots).count x ≤ S.uDegree + 1 := by
    intro x
    by_cases hx : S.ulo < x ∧ x < S.uhi
    · exact (hcount x hx.1 hx.2).trans (by omega)
    · rw [List.count_append, List.count_eq_zero.2 fun hm => hx (hdom x hm), zero_add]
      exact h.count x
  obtain ⟨S', e1, g1, f1, f2, f3, f4, f5, m1, m2, m3⟩ := flip_u_spec hg h
  obtain ⟨D, e2, a1, a2, a3, -, a5, -, a6, rr, -, -⟩ := C33_refine_u hg hsort (fun x hx => ⟨(hdom x hx).1.le, (hdom x hx).2.le⟩) hsep
  have hdom' : ∀ x ∈ xs.reverse.map (fun x => S.ulo + S.uhi - x), S.ulo < x ∧ x < S.uhi := by
    intro x hx
    obtain ⟨y, hy, rfl⟩ := List.mem_map.1 hx
    have := hdom y (by simpa using hy)
    constructor <;> linarith [this.1, this.2]
  obtain ⟨E, e5, b1, b2, b3, -, -, -, b6, rr', -, -⟩ := C33_refine_u g1 (xs := xs.reverse.map fun x => S.ulo + S.uhi - x) (mirrored_sorted hsort)
    (fun x hx => by rw [m1, m2]; exact ⟨(hdom' x hx).1.le, (hdom' x hx).2.le⟩) (by rw [f4]; exact mirrored_sep hsep)
  rw [m3] at b6
  obtain ⟨D', eD⟩ : ∃ D', D.flip .u = .ok D' := by
    obtain ⟨ks, eks⟩ := invert_ok (ks := D.uKnots) (by rw [a5.length_eq]; have := hg.u_len; simp; omega)
    rw [flip_u_eq, eks]; exact ⟨_, rfl⟩
  have rest : D'.cps = D.cps.reverse ∧ D'.vDegree = D.vDegree ∧ D'.vKnots = D.vKnots := by
    have e := eD
    rw [flip_u_eq] at e
    cases ek : Knots.invert D.uKnots with
    | error _ => rw [ek] at e; cases e
    | ok ks => rw [ek] at e; cases e; simp
  have hE : E = D' := by
    refine ext_cols hcp b6 (by rw [rest.1]; intro r hr; exact a6 r (by simpa using hr)) (by rw [b2, f2, rest.2.1, a2])
      (by rw [b3, f3, rest.2.2, a3]) fun j hj => ?_
    obtain ⟨c', d, d', q1, q2, q3, q4⟩ := C108_refine_reversed (h.col hg j) hsort (fun x hx => by rw [col_hi]; exact hdom x hx) hsep
      (fun x g1 g2 => hcount x g1 (by rw [col_hi] at g2; exact g2))
    rw [flip_u_col e1 j] at q1; cases q1
    rw [refines_computed (h.col hg j).toTame hsort (fun x hx => by rw [col_hi]; exact hdom x hx) hsep hcount' (rr j hj)] at q2; cases q2
    rw [flip_u_col eD j] at q3; cases q3
    rw [col_hi] at q4
    have tame' : Tame eps (S'.col j) := by
      obtain ⟨c', q1, q2, -⟩ := invert_unbroken (h.col hg j)
      rw [flip_u_col e1 j] at q1; cases q1
      exact q2.toTame
    have := refines_computed tame' (mirrored_sorted hsort) (fun x hx => by rw [col_hi, m2, show (S'.col j).lo = S'.ulo from rfl, m1]; exact hdom' x hx)
      (by show ∀ x ∈ _, ∀ y ∈ _ ++ S'.uKnots, _; rw [f4]; exact mirrored_sep hsep)
      (by intro x; show (_ ++ S'.uKnots).count x ≤ S'.uDegree + 1; rw [f4, mirrored_count, f1]; exact hcount' _) (rr' j (by rw [m3]; exact hj))
    rw [show (S.col j).lo = S.ulo from rfl, this] at q4
    exact Except.ok.inj q4
  rw [hE] at e5
  exact ⟨S', D, D', e1, e2, eD, e5⟩

/-! ### Both directions -/

theorem invert_eq_flips (S : Surface K V) : S.invert = (S.flip .u >>= fun S' => S'.flip .v) := by
  rw [(C29_flip_uv S).2, (C29_flip_uv S).1]

/-- **C123**: cutting the inverted surface at the mirrored parameter of u. -/
theorem C123_split_inverted {eps : K} {S : Surface K V} (hg : S.Good eps) (hu : UnbrokenU S) (hv : UnbrokenV S) {t : K} (h1 : S.ulo < t)
    (h2 : t < S.uhi) (ht : ClearOf eps S.uKnots t) :
    ∃ S' L R L' R', S.invert = .ok S' ∧ S.trySplit eps t .u = .ok (L, R) ∧ L.invert = .ok L' ∧ R.invert = .ok R' ∧
      S'.trySplit eps (S.ulo + S.uhi - t) .u = .ok (shiftedU (S.ulo - t) R', shiftedU (S.uhi - t) L') := by
  obtain ⟨T, L, R, L', R', e1, e2, e3, e4, e5⟩ := C123_split_u hg hu h1 h2 ht
  obtain ⟨T0, q, g, f1, f2, f3, f4, f5, m1, m2, m3⟩ := flip_u_spec hg hu
  rw [e1] at q; cases q
  have vT : UnbrokenV T := by
    have a : T.vlo = S.vlo := by rw [Surface.vlo, Surface.vlo, f3, f2]
    have b : T.vhi = S.vhi := by rw [Surface.vhi, Surface.vhi, f3, m3]
    exact ⟨by rw [f3, a, b]; exact hv.inside, by rw [f3, f2]; exact hv.count, by rw [f3, a, b, f2]; exact hv.inner⟩
  obtain ⟨S', A, B, A', B', q1, q2, q3, q4, q5⟩ := C123_across_u g vT (t := S.ulo + S.uhi - t) (by rw [m1]; linarith) (by rw [m2]; linarith)
    (clear_sep (by rw [f4]; exact clear_mirrored ht))
  rw [e5] at q2; cases q2
  have move : ∀ {s : K} {P Q : Surface K V}, (shiftedU s P).flip .v = .ok Q → ∃ P', P.flip .v = .ok P' ∧ Q = shiftedU s P' := by
    intro s P Q e
    rw [flip_v_eq] at e
    change (Knots.invert P.vKnots).map _ = _ at e
    cases ek : Knots.invert P.vKnots with
    | error _ => rw [ek] at e; cases e
    | ok ks =>
      rw [ek] at e
      refine ⟨{ P with cps := P.cps.map List.reverse, vKnots := ks }, by rw [flip_v_eq, ek]; rfl, ?_⟩
      exact (Except.ok.inj e).symm
  obtain ⟨R'', r1, rfl⟩ := move q3
  obtain ⟨L'', r2, rfl⟩ := move q4
  exact ⟨S', L, R, L'', R'', by rw [invert_eq_flips, e1]; exact q1, e2, by rw [invert_eq_flips, e3]; exact r2,
    by rw [invert_eq_flips, e4]; exact r1, q5⟩

/-- Inverting is also flipping in v first. -/
theorem invert_of_flips {S A B : Surface K V} (h1 : S.flip .v = .ok A) (h2 : A.flip .u = .ok B) : S.invert = .ok B := by
  rw [flip_v_eq] at h1
  rw [flip_u_eq] at h2
  cases ev : Knots.invert S.vKnots with
  | error _ => rw [ev] at h1; cases h1
  | ok vs =>
    rw [ev] at h1
    cases h1
    change (Knots.invert S.uKnots).map _ = _ at h2
    cases eu : Knots.invert S.uKnots with
    | error _ => rw [eu] at h2; cases h2
    | ok us =>
      rw [eu] at h2
      cases h2
      rw [Surface.invert, eu, ev]
      rfl

/-- **C123**: cutting the inverted surface at the mirrored parameter of v. -/
theorem C123_split_inverted_v {eps : K} {S : Surface K V} (hg : S.Good eps) (hu : UnbrokenU S) (hv : UnbrokenV S) {t : K} (h1 : S.vlo < t)
    (h2 : t < S.vhi) (ht : ClearOf eps S.vKnots t) :
    ∃ S' L R L' R', S.invert = .ok S' ∧ S.trySplit eps t .v = .ok (L, R) ∧ L.invert = .ok L' ∧ R.invert = .ok R' ∧
      S'.trySplit eps (S.vlo + S.vhi - t) .v = .ok (shiftedV (S.vlo - t) R', shiftedV (S.vhi - t) L') := by
  obtain ⟨T, L, R, L', R', e1, e2, e3, e4, e5⟩ := C123_split_v hg hv h1 h2 ht
  obtain ⟨T0, q, g, f1, f2, f3, f4, f5, m1, m2, m3⟩ := flip_v_spec hg hv
  rw [e1] at q; cases q
  have uT : UnbrokenU T := by
    have a : T.ulo = S.ulo := by rw [Surface.ulo, Surface.ulo, f3, f1]
    have b : T.uhi = S.uhi := by rw [Surface.uhi, Surface.uhi, f3, f5, List.length_map]
    exact ⟨by rw [f3, a, b]; exact hu.inside, by rw [f3, f1]; exact hu.count, by rw [f3, a, b, f1]; exact hu.inner⟩
  obtain ⟨S', A, B, A', B', q1, q2, q3, q4, q5⟩ := C123_across_v g uT (t := S.vlo + S.vhi - t) (by rw [m1]; linarith) (by rw [m2]; linarith)
    (clear_sep (by rw [f4]; exact clear_mirrored ht))
  rw [e5] at q2; cases q2
  have move : ∀ {s : K} {P Q : Surface K V}, (shiftedV s P).flip .u = .ok Q → ∃ P', P.flip .u = .ok P' ∧ Q = shiftedV s P' := by
    intro s P Q e
    rw [flip_u_eq] at e
    change (Knots.invert P.uKnots).map _ = _ at e
    cases ek : Knots.invert P.uKnots with
    | error _ => rw [ek] at e; cases e
    | ok ks =>
      rw [ek] at e
      refine ⟨{ P with cps := P.cps.reverse, uKnots := ks }, by rw [flip_u_eq, ek]; rfl, ?_⟩
      exact (Except.ok.inj e).symm
  obtain ⟨R'', r1, rfl⟩ := move q3
  obtain ⟨L'', r2, rfl⟩ := move q4
  exact ⟨S', L, R, L'', R'', invert_of_flips e1 q1, e2, invert_of_flips e3 r2, invert_of_flips e4 r1, q5⟩

/-! ### Witnesses -/

theorem count_inside {l : List K} {m : ℕ} {a b : K} (h : ∀ x ∈ l, a < x → x < b → l.count x ≤ m) (x : K) (h1 : a < x) (h2 : x < b) :
    l.count x ≤ m := by
  by_cases hx : x ∈ l
  · exact h x hx h1 h2
  · rw [List.count_eq_zero.2 hx]; omega

theorem exSurf_unbrokenU : UnbrokenU exSurf := ⟨exSurf_tame.uin, exSurf_tame.ucount, count_inside (by decide +kernel)⟩

theorem exSurf_unbrokenV : UnbrokenV exSurf := ⟨exSurf_tame.vin, exSurf_tame.vcount, count_inside (by decide +kernel)⟩

example : ∃ S' L R L' R', exSurf.flip .v = .ok S' ∧ exSurf.trySplit (1/1000) 2 .v = .ok (L, R) ∧ L.flip .v = .ok L' ∧ R.flip .v = .ok R' ∧
    S'.trySplit (1/1000) (exSurf.vlo + exSurf.vhi - 2) .v = .ok (shiftedV (exSurf.vlo - 2) R', shiftedV (exSurf.vhi - 2) L') :=
  C123_split_v exSurf_good exSurf_unbrokenV (by decide +kernel) (by decide +kernel) ⟨by decide +kernel, by decide +kernel⟩

example : ∃ S' L R L' R', exSurf.invert = .ok S' ∧ exSurf.trySplit (1/1000) (1/2) .u = .ok (L, R) ∧ L.invert = .ok L' ∧ R.invert = .ok R' ∧
    S'.trySplit (1/1000) (exSurf.ulo + exSurf.uhi - 1/2) .u = .ok (shiftedU (exSurf.ulo - 1/2) R', shiftedU (exSurf.uhi - 1/2) L') :=
  C123_split_inverted exSurf_good exSurf_unbrokenU exSurf_unbrokenV (by decide +kernel) (by decide +kernel) ⟨by decide +kernel, by decide +kernel⟩

example : ∃ S' L R L' R', exSurf.flip .u = .ok S' ∧ exSurf.trySplit (1/1000) 2 .v = .ok (L, R) ∧ L.flip .u = .ok L' ∧ R.flip .u = .ok R' ∧
    S'.trySplit (1/1000) 2 .v = .ok (L', R') :=
  C123_across_v exSurf_good exSurf_unbrokenU (by decide +kernel) (by decide +kernel) (by decide +kernel)

example : ∃ S' D D', exSurf.flip .u = .ok S' ∧ exSurf.tryRefineKnot (1/1000) [1/2] .u = .ok D ∧ D.flip .u = .ok D' ∧
    S'.tryRefineKnot (1/1000) (([1/2] : List ℚ).reverse.map fun x => exSurf.ulo + exSurf.uhi - x) .u = .ok D' :=
  C123_refine_u exSurf_good exSurf_unbrokenU (by norm_num) (by decide +kernel) (by decide +kernel) (count_inside (by decide +kernel))

example : ∃ S' D D', exSurf.flip .v = .ok S' ∧ exSurf.tryRefineKnot (1/1000) [2] .v = .ok D ∧ D.flip .v = .ok D' ∧
    S'.tryRefineKnot (1/1000) (([2] : List ℚ).reverse.map fun x => exSurf.vlo + exSurf.vhi - x) .v = .ok D' :=
  C123_refine_v exSurf_good exSurf_unbrokenV (by norm_num) (by decide +kernel) (by decide +kernel) (count_inside (by decide +kernel))

example : ∃ S' L R L' R', exSurf.invert = .ok S' ∧ exSurf.trySplit (1/1000) 2 .v = .ok (L, R) ∧ L.invert = .ok L' ∧ R.invert = .ok R' ∧
    S'.trySplit (1/1000) (exSurf.vlo + exSurf.vhi - 2) .v = .ok (shiftedV (exSurf.vlo - 2) R', shiftedV (exSurf.vhi - 2) L') :=
  C123_split_inverted_v exSurf_good exSurf_unbrokenU exSurf_unbrokenV (by decide +kernel) (by decide +kernel) ⟨by decide +kernel, by decide +kernel⟩

end Curvo.Props

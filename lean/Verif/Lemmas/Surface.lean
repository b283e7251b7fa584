/-
  Surfaces as curves of curves.
-/
import Mathlib.Algebra.BigOperators.GroupWithZero.Action
import Verif.Spec.Surface
import Verif.Props.Curve

set_option linter.unusedSectionVars false

namespace Curvo.Surface

open Curvo Curvo.Spec Curvo.Knots Curvo.Curve

variable {K : Type} [Field K] [LinearOrder K]
variable {V : Type} [AddCommGroup V] [Module K V]

/-- Column `j` of the net as a curve in u. -/
def col (S : Surface K V) (j : ℕ) : Curve K V := ⟨S.uDegree, S.cps.map fun row => row.getD j 0, S.uKnots⟩

/-- Row `i` of the net as a curve in v. -/
def row (S : Surface K V) (i : ℕ) : Curve K V := ⟨S.vDegree, S.cps.getD i [], S.vKnots⟩

/-- The curve `v ↦ S(u, v)`. -/
def isoU (S : Surface K V) (u : K) : Curve K V :=
  ⟨S.vDegree, (List.range S.cols).map fun j => (S.col j).eval u, S.vKnots⟩

/-- The curve `u ↦ S(u, v)`. -/
def isoV (S : Surface K V) (v : K) : Curve K V :=
  ⟨S.uDegree, (List.range S.cps.length).map fun i => (S.row i).eval v, S.uKnots⟩

theorem Good.v_len {eps : K} {S : Surface K V} (h : S.Good eps) :
    S.vKnots.length = S.cols + S.vDegree + 1 := by
  have := h.cols_pos
  unfold cols at *
  omega

theorem Good.col {eps : K} {S : Surface K V} (h : S.Good eps) (j : ℕ) : (S.col j).Good eps where
  cps_pos := by simpa [Surface.col] using h.rows_pos
  knots_len := by simpa [Surface.col] using h.u_len
  good := by simpa [Surface.col] using h.u_good

theorem Good.row_len {eps : K} {S : Surface K V} (h : S.Good eps) {i : ℕ} (hi : i < S.cps.length) :
    (S.cps.getD i []).length = S.cols := by
  rw [List.getD_eq_getElem?_getD, List.getElem?_eq_getElem hi]
  exact h.rect _ (List.getElem_mem _)

theorem Good.row {eps : K} {S : Surface K V} (h : S.Good eps) {i : ℕ} (hi : i < S.cps.length) :
    (S.row i).Good eps where
  cps_pos := by
    show 0 < (S.cps.getD i []).length
    rw [h.row_len hi]; exact h.cols_pos
  knots_len := by
    show _ = (S.cps.getD i []).length + _ + 1
    rw [h.row_len hi]; exact h.v_len
  good := by
    show GoodKnots eps _ _ ((S.cps.getD i []).length - 1)
    rw [h.row_len hi]; exact h.v_good

theorem Good.isoU {eps : K} {S : Surface K V} (h : S.Good eps) (u : K) : (S.isoU u).Good eps where
  cps_pos := by simpa [Surface.isoU] using h.cols_pos
  knots_len := by simpa [Surface.isoU] using h.v_len
  good := by simpa [Surface.isoU] using h.v_good

theorem Good.isoV {eps : K} {S : Surface K V} (h : S.Good eps) (v : K) : (S.isoV v).Good eps where
  cps_pos := by simpa [Surface.isoV] using h.rows_pos
  knots_len := by simpa [Surface.isoV] using h.u_len
  good := by simpa [Surface.isoV] using h.u_good

theorem col_lo (S : Surface K V) (j : ℕ) : (S.col j).lo = S.ulo := rfl
theorem col_hi (S : Surface K V) (j : ℕ) : (S.col j).hi = S.uhi := by simp [Curve.hi, col, uhi]
theorem isoU_lo (S : Surface K V) (u : K) : (S.isoU u).lo = S.vlo := rfl
theorem isoU_hi (S : Surface K V) (u : K) : (S.isoU u).hi = S.vhi := by simp [Curve.hi, isoU, vhi]
theorem isoV_lo (S : Surface K V) (v : K) : (S.isoV v).lo = S.ulo := rfl
theorem isoV_hi (S : Surface K V) (v : K) : (S.isoV v).hi = S.uhi := by simp [Curve.hi, isoV, uhi]
theorem row_lo (S : Surface K V) (i : ℕ) : (S.row i).lo = S.vlo := rfl
theorem row_hi {eps : K} {S : Surface K V} (h : S.Good eps) {i : ℕ} (hi : i < S.cps.length) :
    (S.row i).hi = S.vhi := by
  show kf S.vKnots (S.cps.getD i []).length = _
  rw [h.row_len hi]; rfl

theorem curve_eval_eq {c : Curve K V} (h : 0 < c.cps.length) (u : K) :
    c.eval u = (Finset.range c.cps.length).sum fun i => N (kf c.knots) c.hi c.degree i u • c.cps.getD i 0 := by
  rw [Curve.eval, Spec.curve, Nat.sub_add_cancel h]; rfl

theorem getD_map_range {α : Type} {f : ℕ → α} {n i : ℕ} (h : i < n) (d : α) :
    ((List.range n).map f).getD i d = f i := by
  simp [List.getD_eq_getElem?_getD, h]

theorem col_getD (S : Surface K V) {i j : ℕ} (h : i < S.cps.length) : (S.col j).cps.getD i 0 = S.cp i j := by
  simp [Surface.col, cp, List.getD_eq_getElem?_getD, h]

theorem row_getD (S : Surface K V) (i j : ℕ) : (S.row i).cps.getD j 0 = S.cp i j := rfl

theorem eval_eq_isoU {eps : K} {S : Surface K V} (h : S.Good eps) (u v : K) :
    S.eval u v = (S.isoU u).eval v := by
  have hr := h.rows_pos
  rw [curve_eval_eq (h.isoU u).cps_pos, eval, Finset.sum_comm, isoU_hi]
  have hl : (S.isoU u).cps.length = S.cols := by simp [Surface.isoU]
  rw [hl]
  apply Finset.sum_congr rfl
  intro j hj
  have hj := Finset.mem_range.1 hj
  have : (S.isoU u).cps.getD j 0 = (S.col j).eval u := getD_map_range hj _
  rw [this, curve_eval_eq (h.col j).cps_pos, Finset.smul_sum, col_hi]
  have hl' : (S.col j).cps.length = S.cps.length := by simp [Surface.col]
  rw [hl']
  apply Finset.sum_congr rfl
  intro i hi
  rw [col_getD S (Finset.mem_range.1 hi), smul_smul, mul_comm]
  rfl

theorem eval_eq_isoV {eps : K} {S : Surface K V} (h : S.Good eps) (u v : K) :
    S.eval u v = (S.isoV v).eval u := by
  have hr := h.rows_pos
  rw [curve_eval_eq (h.isoV v).cps_pos, eval, isoV_hi]
  have hl : (S.isoV v).cps.length = S.cps.length := by simp [isoV]
  rw [hl]
  apply Finset.sum_congr rfl
  intro i hi
  have hi := Finset.mem_range.1 hi
  have : (S.isoV v).cps.getD i 0 = (S.row i).eval v := getD_map_range hi _
  rw [this, curve_eval_eq (h.row hi).cps_pos, Finset.smul_sum, row_hi h hi]
  have hl' : (S.row i).cps.length = S.cols := h.row_len hi
  rw [hl']
  apply Finset.sum_congr rfl
  intro j hj
  rw [row_getD, smul_smul]
  rfl

variable [IsStrictOrderedRing K]

/-- The inner loop computes a point of a column. -/
theorem isoPoint_eq {eps : K} {S : Surface K V} (h : S.Good eps) {u : K} {s j : ℕ} (hps : S.uDegree ≤ s)
    (hsn : s ≤ S.cps.length - 1) (hin : InSpan (kf S.uKnots) S.uhi u s) (hj : j < S.cols) :
    S.isoPoint ((List.range (S.uDegree + 1)).map fun r => NS (kf S.uKnots) s S.uDegree (s - S.uDegree + r) u)
      (s - S.uDegree) j = .ok ((S.col j).eval u) := by
  have hr := h.rows_pos
  have hl' : (S.col j).cps.length = S.cps.length := by simp [Surface.col]
  rw [eval_eq_span (h.col j) (s := s) hps (by rw [hl']; exact hsn) (by rw [col_hi]; exact hin), isoPoint]
  rw [foldlM_sum (g := fun r => NS (kf S.uKnots) s S.uDegree (s - S.uDegree + r) u • (S.col j).cps.getD (s - S.uDegree + r) 0)]
  · rw [zero_add]; rfl
  · intro acc k hk
    have hk' : s - S.uDegree + k < S.cps.length := by omega
    rw [getR_eq_getD ([] : List V) hk', ok_bind, getR_eq_getD (0 : V) (by rw [h.row_len hk']; exact hj), ok_bind,
      getR_eq_getD (0 : K) (by simpa using hk), ok_bind, getD_map_range hk, col_getD S hk']
    rfl

/-- Evaluation from the basis functions of the two active spans. -/
theorem outer_eq {eps : K} {S : Surface K V} (h : S.Good eps) {u v : K} {su sv : ℕ} (hpu : S.uDegree ≤ su)
    (hnu : su ≤ S.cps.length - 1) (hu : InSpan (kf S.uKnots) S.uhi u su) (hpv : S.vDegree ≤ sv)
    (hnv : sv ≤ S.cols - 1) (hv : InSpan (kf S.vKnots) S.vhi v sv) :
    S.pointGivenBases su sv ((List.range (S.uDegree + 1)).map fun r => NS (kf S.uKnots) su S.uDegree (su - S.uDegree + r) u)
      ((List.range (S.vDegree + 1)).map fun r => NS (kf S.vKnots) sv S.vDegree (sv - S.vDegree + r) v) =
      .ok (S.eval u v) := by
  have hc := h.cols_pos
  have hl' : (S.isoU u).cps.length = S.cols := by simp [Surface.isoU]
  rw [eval_eq_isoU h, eval_eq_span (h.isoU u) (s := sv) hpv (by rw [hl']; exact hnv) (by rw [isoU_hi]; exact hv),
    pointGivenBases, subR_eq_ok hpu, ok_bind, subR_eq_ok hpv, ok_bind]
  rw [foldlM_sum (g := fun r => NS (kf S.vKnots) sv S.vDegree (sv - S.vDegree + r) v • (S.isoU u).cps.getD (sv - S.vDegree + r) 0)]
  · rw [zero_add]; rfl
  · intro acc k hk
    have hk' : sv - S.vDegree + k < S.cols := by omega
    rw [isoPoint_eq h hpu hnu hu hk', ok_bind, getR_eq_getD (0 : K) (by simpa using hk), ok_bind, getD_map_range hk]
    have : (S.isoU u).cps.getD (sv - S.vDegree + k) 0 = (S.col (sv - S.vDegree + k)).eval u := getD_map_range hk' _
    rw [this]
    rfl

theorem Good.exists_span_u {eps : K} {S : Surface K V} (h : S.Good eps) {u : K} (h1 : S.ulo ≤ u) (h2 : u ≤ S.uhi) :
    ∃ s, findKnotSpanIndex eps S.uKnots (S.cps.length - 1) S.uDegree u = .ok s ∧ S.uDegree ≤ s ∧
      s ≤ S.cps.length - 1 ∧ InSpan (kf S.uKnots) S.uhi u s := by
  have := (h.col 0).exists_span (u := u) h1 (by rw [col_hi]; exact h2)
  have hl' : (S.col 0).cps.length = S.cps.length := by simp [Surface.col]
  rw [hl', col_hi] at this
  exact this

theorem Good.exists_span_v {eps : K} {S : Surface K V} (h : S.Good eps) {v : K} (h1 : S.vlo ≤ v) (h2 : v ≤ S.vhi) :
    ∃ s, findKnotSpanIndex eps S.vKnots (S.cols - 1) S.vDegree v = .ok s ∧ S.vDegree ≤ s ∧
      s ≤ S.cols - 1 ∧ InSpan (kf S.vKnots) S.vhi v s := by
  have := (h.isoU 0).exists_span (u := v) h1 (by rw [isoU_hi]; exact h2)
  have hl' : (S.isoU 0).cps.length = S.cols := by simp [Surface.isoU]
  rw [hl', isoU_hi] at this
  exact this

theorem Good.u_basis {eps : K} {S : Surface K V} (h : S.Good eps) {u : K} {s : ℕ} (hps : S.uDegree ≤ s)
    (hsn : s ≤ S.cps.length - 1) (hin : InSpan (kf S.uKnots) S.uhi u s) :
    basisFunctions S.uKnots s u S.uDegree =
      .ok ((List.range (S.uDegree + 1)).map fun r => NS (kf S.uKnots) s S.uDegree (s - S.uDegree + r) u) := by
  have := h.rows_pos
  have := h.u_len
  exact basisFunctions_eq _ hps (by omega)
    (fun i j hi hj hj' => ne_across h.u_good.mono (inSpan_lt hin) i j hi hj (by omega))

theorem Good.v_basis {eps : K} {S : Surface K V} (h : S.Good eps) {v : K} {s : ℕ} (hps : S.vDegree ≤ s)
    (hsn : s ≤ S.cols - 1) (hin : InSpan (kf S.vKnots) S.vhi v s) :
    basisFunctions S.vKnots s v S.vDegree =
      .ok ((List.range (S.vDegree + 1)).map fun r => NS (kf S.vKnots) s S.vDegree (s - S.vDegree + r) v) := by
  have := h.cols_pos
  have := h.v_len
  exact basisFunctions_eq _ hps (by omega)
    (fun i j hi hj hj' => ne_across h.v_good.mono (inSpan_lt hin) i j hi hj (by omega))

/-- The model evaluates to the tensor product sum. -/
theorem point_eq_eval {eps : K} {S : Surface K V} (h : S.Good eps) {u v : K} (h1 : S.ulo ≤ u) (h2 : u ≤ S.uhi)
    (h3 : S.vlo ≤ v) (h4 : v ≤ S.vhi) : S.point eps u v = .ok (S.eval u v) := by
  obtain ⟨su, eu, pu, nu, iu⟩ := h.exists_span_u h1 h2
  obtain ⟨sv, ev, pv, nv, iv⟩ := h.exists_span_v h3 h4
  have := h.rows_pos
  have := h.cols_pos
  have hul := h.u_len
  have hvl := h.v_len
  rw [← outer_eq h pu nu iu pv nv iv, point, subR_eq_ok (by omega), ok_bind, subR_eq_ok (by omega), ok_bind,
    subR_eq_ok (by omega), ok_bind, subR_eq_ok (by omega), ok_bind]
  rw [show S.uKnots.length - S.uDegree - 2 = S.cps.length - 1 by omega,
    show S.vKnots.length - S.vDegree - 2 = S.cols - 1 by omega, eu, ok_bind, ev, ok_bind, h.u_basis pu nu iu, ok_bind,
    h.v_basis pv nv iv, ok_bind, subR_eq_ok pu, ok_bind, pointGivenBases, subR_eq_ok pu, ok_bind, subR_eq_ok pv, ok_bind]
  rfl

end Curvo.Surface

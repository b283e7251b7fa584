/-
  Surfaces whose columns or rows are given curves, used for refinement, splitting and isocurves.
-/
import Verif.Lemmas.Surface
import Verif.Props.Misc
import Verif.Props.Refine

set_option linter.unusedSectionVars false

namespace Curvo

theorem mapM_exists {α β : Type} {f : α → Res β} {P : α → β → Prop} :
    ∀ {l : List α}, (∀ x ∈ l, ∃ y, f x = .ok y ∧ P x y) → ∃ ys, l.mapM f = .ok ys ∧ List.Forall₂ P l ys
  | [], _ => ⟨[], rfl, .nil⟩
  | a :: l, h => by
    obtain ⟨y, e, hy⟩ := h a (by simp)
    obtain ⟨ys, es, hys⟩ := mapM_exists (l := l) fun x hx => h x (List.mem_cons_of_mem _ hx)
    exact ⟨y :: ys, by rw [List.mapM_cons, e, ok_bind, es]; rfl, .cons hy hys⟩

namespace Surface

open Curvo.Knots Curvo.Spec Curvo.Props Curvo.Misc

variable {K : Type} [Field K] [LinearOrder K] [IsStrictOrderedRing K]
variable {V : Type} [AddCommGroup V] [Module K V]

theorem transpose_cols {pts : List (List V)} {n : ℕ} (hpos : 0 < pts.length) (hn : ∀ r ∈ pts, r.length = n) :
    ∃ t, transpose pts = .ok t ∧ t.length = n ∧ (∀ r ∈ t, r.length = pts.length) ∧
      (∀ j, j < pts.length → t.map (fun r => r.getD j 0) = pts.getD j []) ∧
      (∀ i, i < n → t.getD i [] = pts.map fun r => r.getD i 0) := by
  obtain ⟨t, e, h1, h2, h3⟩ := C64_transpose rfl hpos hn
  refine ⟨t, e, h1, h2, ?_, ?_⟩
  · intro j hj
    have hl := hn _ (List.getElem_mem hj)
    rw [List.getD_eq_getElem?_getD, List.getElem?_eq_getElem hj]
    apply List.ext_getElem
    · simp [h1, hl]
    · intro i g1 g2
      simp at g1 g2
      have := h3 j i hj (by omega)
      have hti := h2 _ (List.getElem_mem g1)
      rw [List.getElem?_eq_getElem g1, List.getElem?_eq_getElem hj] at this
      simp only [Option.bind_some] at this
      rw [List.getElem?_eq_getElem g2] at this
      simp [List.getD_eq_getElem?_getD, this]
  · intro i hi
    have hti := h2 _ (List.getElem_mem (show i < t.length by omega))
    rw [List.getD_eq_getElem?_getD, List.getElem?_eq_getElem (by omega)]
    apply List.ext_getElem
    · simp [hti]
    · intro j g1 g2
      simp at g1 g2
      have := h3 j i g2 hi
      have hl := hn _ (List.getElem_mem g2)
      rw [List.getElem?_eq_getElem (show i < t.length by omega), List.getElem?_eq_getElem g2] at this
      simp only [Option.bind_some] at this
      rw [List.getElem?_eq_getElem g1] at this
      simp [List.getD_eq_getElem?_getD, ← this]

/-- The transposed net of a good surface. -/
theorem Good.transpose {eps : K} {S : Surface K V} (h : S.Good eps) :
    Misc.transpose S.cps = .ok ((List.range S.cols).map fun j => (S.col j).cps) := by
  obtain ⟨t, e, h1, h2, _, h4⟩ := transpose_cols h.rows_pos h.rect
  rw [e]
  congr 1
  apply List.ext_getElem
  · simp [h1]
  · intro i g1 g2
    have := h4 i (by omega)
    rw [List.getD_eq_getElem?_getD, List.getElem?_eq_getElem g1] at this
    simpa [Surface.col] using this

/-- A surface whose columns are good curves. -/
theorem good_of_cols {eps : K} {S S' : Surface K V} (h : S.Good eps) (hvd : S'.vDegree = S.vDegree)
    (hvk : S'.vKnots = S.vKnots) (hrect : ∀ row ∈ S'.cps, row.length = S.cols) (hg : (S'.col 0).Good eps) :
    S'.Good eps := by
  have hc : S'.cols = S.cols := by rw [cols, cols, hvd, hvk]
  have hl : (S'.col 0).cps.length = S'.cps.length := by simp [Surface.col]
  refine ⟨?_, ?_, ?_, ?_, ?_, ?_⟩
  · have := hg.cps_pos; rwa [hl] at this
  · have := hg.knots_len; rwa [hl] at this
  · have := hg.good; rwa [hl] at this
  · rw [hc]; exact h.cols_pos
  · rw [hc, hvd, hvk]; exact h.v_good
  · rw [hc]; exact hrect

theorem eval_of_cols {eps : K} {S S' : Surface K V} (h : S.Good eps) (hvd : S'.vDegree = S.vDegree)
    (hvk : S'.vKnots = S.vKnots) (hpos : 0 < S'.cps.length) (u v : K)
    (he : ∀ j, j < S.cols → (S'.col j).eval u = (S.col j).eval u) :
    S'.eval u v = S.eval u v := by
  have hc : S'.cols = S.cols := by rw [cols, cols, hvd, hvk]
  have hvh : S'.vhi = S.vhi := by rw [vhi, vhi, hc, hvk]
  have key : ∀ T : Surface K V, 0 < T.cps.length → T.eval u v =
      (Finset.range T.cols).sum fun j => N (kf T.vKnots) T.vhi T.vDegree j v • (T.col j).eval u := by
    intro T hT
    rw [eval, Finset.sum_comm]
    apply Finset.sum_congr rfl
    intro j hj
    rw [curve_eval_eq (by simpa [Surface.col] using hT), Finset.smul_sum, col_hi]
    have hl' : (T.col j).cps.length = T.cps.length := by simp [Surface.col]
    rw [hl']
    apply Finset.sum_congr rfl
    intro i hi
    rw [col_getD T (Finset.mem_range.1 hi), smul_smul, mul_comm]
    rfl
  rw [key S h.rows_pos, key S' hpos, hc, hvh, hvd, hvk]
  apply Finset.sum_congr rfl
  intro j hj
  rw [he j (Finset.mem_range.1 hj)]

/-- A surface whose rows are good curves. -/
theorem good_of_rows {eps : K} {S S' : Surface K V} (h : S.Good eps) (hud : S'.uDegree = S.uDegree)
    (huk : S'.uKnots = S.uKnots) (hlen : S'.cps.length = S.cps.length)
    (hg : ∀ i, i < S.cps.length → (S'.row i).Good eps) : S'.Good eps := by
  have hr := h.rows_pos
  have hcl : ∀ i, i < S.cps.length → (S'.row i).cps.length = S'.cols := by
    intro i hi
    have := (hg i hi).knots_len
    have e1 : (S'.row i).knots.length = S'.vKnots.length := rfl
    have e2 : (S'.row i).degree = S'.vDegree := rfl
    rw [cols]; omega
  refine ⟨by omega, ?_, ?_, ?_, ?_, ?_⟩
  · rw [huk, hlen, hud]; exact h.u_len
  · rw [huk, hlen, hud]; exact h.u_good
  · rw [← hcl 0 hr]; exact (hg 0 hr).cps_pos
  · have := (hg 0 hr).good
    rw [hcl 0 hr] at this
    exact this
  · intro row hrow
    obtain ⟨i, hi, rfl⟩ := List.mem_iff_getElem.1 hrow
    rw [← hcl i (by omega)]
    simp [Surface.row, List.getD_eq_getElem?_getD, hi]

theorem eval_of_rows {eps : K} {S S' : Surface K V} (h : S.Good eps) (hud : S'.uDegree = S.uDegree)
    (huk : S'.uKnots = S.uKnots) (hlen : S'.cps.length = S.cps.length) (u v : K)
    (hcl : ∀ i, i < S.cps.length → (S'.row i).cps.length = S'.cols) (hpos : 0 < S'.cols)
    (he : ∀ i, i < S.cps.length → (S'.row i).eval v = (S.row i).eval v) :
    S'.eval u v = S.eval u v := by
  have huh : S'.uhi = S.uhi := by rw [uhi, uhi, hlen, huk]
  have key : ∀ T : Surface K V, (∀ i, i < T.cps.length → (T.row i).cps.length = T.cols) → 0 < T.cols → T.eval u v =
      (Finset.range T.cps.length).sum fun i => N (kf T.uKnots) T.uhi T.uDegree i u • (T.row i).eval v := by
    intro T hT hT0
    rw [eval]
    apply Finset.sum_congr rfl
    intro i hi
    have hi := Finset.mem_range.1 hi
    rw [curve_eval_eq (by rw [hT i hi]; exact hT0), Finset.smul_sum, hT i hi]
    have e : (T.row i).hi = T.vhi := by rw [Curve.hi, hT i hi]; rfl
    rw [e]
    apply Finset.sum_congr rfl
    intro j _
    rw [row_getD, smul_smul]
    rfl
  rw [key S (fun i hi => h.row_len hi) h.cols_pos, key S' (fun i hi => hcl i (by omega)) hpos, huh, hud, huk, hlen]
  apply Finset.sum_congr rfl
  intro i hi
  rw [he i (Finset.mem_range.1 hi)]

theorem tryNew_sorted {deg : ℕ} {cps : List V} {ks : List K} (h1 : deg < cps.length)
    (h2 : ks.length = cps.length + deg + 1) (h3 : ks.Pairwise (· ≤ ·)) :
    Curve.tryNew deg cps ks = .ok ⟨deg, cps, ks⟩ := by
  rw [Curve.tryNew, if_neg (by omega), if_neg (by omega), mergeSort_of_sorted h3]; rfl

theorem tryNew_good {eps : K} {c : Curve K V} (h : c.Good eps) : Curve.tryNew c.degree c.cps c.knots = .ok c :=
  tryNew_sorted h.pre.deg_lt h.knots_len h.pre.sorted

end Surface

end Curvo

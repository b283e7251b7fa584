/-
  Homogeneous derivatives of surfaces.
-/
import Verif.Lemmas.Rational2

set_option linter.unusedSectionVars false

namespace Curvo.Surface

open Curvo Curvo.Spec Curvo.Knots Polynomial

variable {K V W : Type} [Field K] [LinearOrder K] [IsStrictOrderedRing K]
variable [AddCommGroup V] [Module K V]

/-- Value of the `n`-th derivative of the `r`-th active basis polynomial. -/
noncomputable def bder (ks : List K) (p s : ℕ) (n r : ℕ) (u : K) : K :=
  ((derivative^[n]) (spanPoly (kf ks) s p (s - p + r))).eval u

theorem bder_high {ks : List K} {p s n r : ℕ} {u : K} (h : p < n) : bder ks p s n r u = 0 := by
  rw [bder, iterate_derivative_spanPoly_high _ _ _ _ _ h, eval_zero]

/-- Derivative of order `k` in u and `l` in v of the polynomial patch on the spans `su`, `sv`. -/
noncomputable def patchDer (S : Surface K V) (su sv k l : ℕ) (u v : K) : V :=
  (Finset.range (S.vDegree + 1)).sum fun s => bder S.vKnots S.vDegree sv l s v •
    (Finset.range (S.uDegree + 1)).sum fun r => bder S.uKnots S.uDegree su k r u •
      S.cp (su - S.uDegree + r) (sv - S.vDegree + s)

theorem patchDer_high {S : Surface K V} {su sv k l : ℕ} {u v : K} (h : S.uDegree < k ∨ S.vDegree < l) :
    S.patchDer su sv k l u v = 0 := by
  unfold patchDer
  apply Finset.sum_eq_zero
  intro s _
  rcases h with h | h
  · rw [Finset.sum_eq_zero, smul_zero]
    intro r _
    rw [bder_high h, zero_smul]
  · rw [bder_high h, zero_smul]

theorem derColumns_spec {eps : K} {S : Surface K V} (h : S.Good eps) {su sv k n : ℕ} {f : ℕ → ℕ → K}
    (hpu : S.uDegree ≤ su) (hnu : su ≤ S.cps.length - 1) (hpv : S.vDegree ≤ sv) (hnv : sv ≤ S.cols - 1) (hk : k < n) :
    S.derColumns (mat n (S.uDegree + 1) f) su sv k = .ok (vec (S.vDegree + 1) fun s =>
      (Finset.range (S.uDegree + 1)).sum fun r => f k r • S.cp (su - S.uDegree + r) (sv - S.vDegree + s)) := by
  have := h.rows_pos
  have := h.cols_pos
  rw [derColumns, mapM_ok]
  · rfl
  · intro s hs
    have hs' := List.mem_range.1 hs
    rw [foldlM_sum (g := fun r => f k r • S.cp (su - S.uDegree + r) (sv - S.vDegree + s)), zero_add]
    intro acc r hr
    rw [subR_eq_ok hpu, ok_bind, getR_eq_getD [] (by omega), ok_bind, subR_eq_ok hpv, ok_bind,
      getR_eq_getD 0 (by rw [h.row_len (by omega)]; omega), ok_bind, get2R_mat hk hr, ok_bind]
    rfl

theorem derivatives_spec {eps : K} {S : Surface K V} (h : S.Good eps) {u v : K} {m su sv : ℕ}
    (eu : findKnotSpanIndex eps S.uKnots (S.cps.length - 1) S.uDegree u = .ok su)
    (ev : findKnotSpanIndex eps S.vKnots (S.cols - 1) S.vDegree v = .ok sv)
    (hpu : S.uDegree ≤ su) (hnu : su ≤ S.cps.length - 1) (hpv : S.vDegree ≤ sv) (hnv : sv ≤ S.cols - 1)
    (hu : kf S.uKnots su < kf S.uKnots (su + 1)) (hv : kf S.vKnots sv < kf S.vKnots (sv + 1)) :
    S.derivatives eps u v m = .ok (mat (m + 1) (m + 1) fun k l =>
      if k + l ≤ m then S.patchDer su sv k l u v else 0) := by
  have := h.rows_pos
  have := h.cols_pos
  have hul := h.u_len
  have hvl := h.v_len
  have hule := h.u_good.le
  have hvle := h.v_good.le
  obtain ⟨du, hdu⟩ : ∃ du, du = if m < S.uDegree then m else S.uDegree := ⟨_, rfl⟩
  obtain ⟨dv, hdv⟩ : ∃ dv, dv = if m < S.vDegree then m else S.vDegree := ⟨_, rfl⟩
  have hdm : du ≤ m := by rw [hdu]; split_ifs <;> omega
  have hdp : du ≤ S.uDegree := by rw [hdu]; split_ifs <;> omega
  have hvm : dv ≤ m := by rw [hdv]; split_ifs <;> omega
  have hvp : dv ≤ S.vDegree := by rw [hdv]; split_ifs <;> omega
  rw [derivatives, subR_eq_ok (by omega), ok_bind, subR_eq_ok (by omega), ok_bind,
    subR_eq_ok (by omega), ok_bind, subR_eq_ok (by omega), ok_bind]
  simp only []
  rw [← hdu, ← hdv, show S.uKnots.length - S.uDegree - 2 = S.cps.length - 1 by omega,
    show S.vKnots.length - S.vDegree - 2 = S.cols - 1 by omega, eu, ok_bind, ev, ok_bind,
    derivativeBasisFunctions_spec hpu (by omega)
      (fun i j hi hj hj' => ne_across h.u_good.mono hu i j hi hj (by omega)), ok_bind,
    derivativeBasisFunctions_spec hpv (by omega)
      (fun i j hi hj hj' => ne_across h.v_good.mono hv i j hi hj (by omega)), ok_bind, mat_replicate]
  obtain ⟨st, est, g, eg, hg⟩ := foldlM_range_inv (f := fun skl k => do
      let temp ← S.derColumns (mat (S.cps.length - 1 + 1) (S.uDegree + 1)
        fun n r => bder S.uKnots S.uDegree su n r u) su sv k
      let nk ← subR m k
      let dd := if nk < dv then nk else dv
      (List.range (dd + 1)).foldlM (fun skl l =>
        (List.range (S.vDegree + 1)).foldlM (fun skl s => do
          let item ← getR temp s
          let b ← get2R (mat (S.cols - 1 + 1) (S.vDegree + 1) fun n r => bder S.vKnots S.vDegree sv n r v) l s
          let col ← get2R skl k l
          set2R skl k l (col + b • item)) skl) skl) (n := du + 1)
    (s := mat (m + 1) (m + 1) fun _ _ => (0 : V))
    (P := fun t skl => ∃ g, skl = mat (m + 1) (m + 1) g ∧ ∀ k l, k ≤ m → l ≤ m →
      g k l = if k < t ∧ l ≤ min (m - k) dv then S.patchDer su sv k l u v else 0)
    ⟨_, rfl, fun k l _ _ => by rw [if_neg (by omega)]⟩ (by
      rintro k hk _ ⟨g, rfl, hg⟩
      obtain ⟨st, est, g1, eg1, hg1⟩ := foldlM_range_inv (f := fun skl l =>
          (List.range (S.vDegree + 1)).foldlM (fun skl s => do
            let item ← getR (vec (S.vDegree + 1) fun s => (Finset.range (S.uDegree + 1)).sum fun r =>
              bder S.uKnots S.uDegree su k r u • S.cp (su - S.uDegree + r) (sv - S.vDegree + s)) s
            let b ← get2R (mat (S.cols - 1 + 1) (S.vDegree + 1) fun n r => bder S.vKnots S.vDegree sv n r v) l s
            let col ← get2R skl k l
            set2R skl k l (col + b • item)) skl) (n := (if m - k < dv then m - k else dv) + 1)
        (s := mat (m + 1) (m + 1) g)
        (P := fun t skl => ∃ g1, skl = mat (m + 1) (m + 1) g1 ∧ ∀ a l, a ≤ m → l ≤ m →
          g1 a l = if a = k ∧ l < t then S.patchDer su sv k l u v else g a l)
        ⟨g, rfl, fun a l _ _ => by rw [if_neg (by omega)]⟩ (by
          rintro l hl _ ⟨g1, rfl, hg1⟩
          have hl' : l ≤ dv ∧ l ≤ m - k := by split_ifs at hl <;> omega
          obtain ⟨st, est, g2, eg2, hg2⟩ := foldlM_range_inv (f := fun skl s => do
              let item ← getR (vec (S.vDegree + 1) fun s => (Finset.range (S.uDegree + 1)).sum fun r =>
                bder S.uKnots S.uDegree su k r u • S.cp (su - S.uDegree + r) (sv - S.vDegree + s)) s
              let b ← get2R (mat (S.cols - 1 + 1) (S.vDegree + 1) fun n r => bder S.vKnots S.vDegree sv n r v) l s
              let col ← get2R skl k l
              set2R skl k l (col + b • item)) (n := S.vDegree + 1) (s := mat (m + 1) (m + 1) g1)
            (P := fun t skl => ∃ g2, skl = mat (m + 1) (m + 1) g2 ∧ ∀ a b, a ≤ m → b ≤ m →
              g2 a b = if a = k ∧ b = l then (Finset.range t).sum fun s => bder S.vKnots S.vDegree sv l s v •
                (Finset.range (S.uDegree + 1)).sum fun r => bder S.uKnots S.uDegree su k r u •
                  S.cp (su - S.uDegree + r) (sv - S.vDegree + s) else g1 a b)
            ⟨g1, rfl, fun a b ha hb => by
              by_cases e : a = k ∧ b = l
              · rw [if_pos e, e.1, e.2, hg1 k l (by omega) (by omega), if_neg (by omega), hg k l (by omega) (by omega),
                  if_neg (by omega)]
                simp
              · rw [if_neg e]⟩ (by
              rintro s hs _ ⟨g2, rfl, hg2⟩
              refine ⟨_, by rw [getR_vec hs, ok_bind, get2R_mat (by omega) hs, ok_bind, get2R_mat (by omega) (by omega),
                ok_bind, set2R_mat (by omega) (by omega)], _, rfl, ?_⟩
              intro a b ha hb
              unfold updF2
              by_cases e : a = k ∧ b = l
              · rw [if_pos e, if_pos e, hg2 k l (by omega) (by omega), if_pos ⟨rfl, rfl⟩, Finset.sum_range_succ (n := s)]
              · rw [if_neg e, if_neg e, hg2 a b ha hb, if_neg e])
          refine ⟨st, est, g2, eg2, ?_⟩
          intro a b ha hb
          rw [hg2 a b ha hb]
          by_cases e : a = k ∧ b = l
          · rw [if_pos e, if_pos (by omega), e.2]; rfl
          · rw [if_neg e, hg1 a b ha hb]
            by_cases e2 : a = k ∧ b < l
            · rw [if_pos e2, if_pos (by omega)]
            · rw [if_neg e2, if_neg (by omega)])
      refine ⟨st, ?_, g1, eg1, ?_⟩
      · simp only []
        rw [derColumns_spec h hpu hnu hpv hnv (by omega), ok_bind, subR_eq_ok (by omega), ok_bind]
        exact est
      · intro a b ha hb
        rw [hg1 a b ha hb]
        have hmin : ∀ x, (x < (if m - k < dv then m - k else dv) + 1) ↔ x ≤ min (m - k) dv := by
          intro x; split_ifs <;> omega
        by_cases e : a = k
        · subst e
          rw [hg a b ha hb, if_neg (c := a < a ∧ _) (by omega)]
          by_cases e2 : b ≤ min (m - a) dv
          · rw [if_pos ⟨rfl, (hmin b).2 e2⟩, if_pos ⟨by omega, e2⟩]
          · rw [if_neg (fun hc => e2 ((hmin b).1 hc.2)), if_neg (fun hc => e2 hc.2)]
        · rw [if_neg (fun hc => e hc.1), hg a b ha hb]
          by_cases e2 : a < k ∧ b ≤ min (m - a) dv
          · rw [if_pos e2, if_pos ⟨by omega, e2.2⟩]
          · rw [if_neg e2, if_neg (fun hc => e2 ⟨by omega, hc.2⟩)])
  refine Eq.trans est ?_
  rw [eg]
  congr 1
  apply mat_congr
  intro k l hk hl
  rw [hg k l (by omega) (by omega)]
  by_cases e : k + l ≤ m
  · rw [if_pos e]
    by_cases e2 : k < du + 1 ∧ l ≤ min (m - k) dv
    · rw [if_pos e2]
    · rw [if_neg e2, patchDer_high]
      rw [hdu, hdv] at e2
      split_ifs at e2 <;> omega
  · rw [if_neg e, if_neg (by omega)]

/-- On a pair of spans the surface is the polynomial patch. -/
theorem eval_eq_patch {eps : K} {S : Surface K V} (h : S.Good eps) {u v : K} {su sv : ℕ}
    (hpu : S.uDegree ≤ su) (hnu : su ≤ S.cps.length - 1) (hpv : S.vDegree ≤ sv) (hnv : sv ≤ S.cols - 1)
    (hu : InSpan (kf S.uKnots) S.uhi u su) (hv : InSpan (kf S.vKnots) S.vhi v sv) :
    S.eval u v = S.patchDer su sv 0 0 u v := by
  have := h.rows_pos
  have := h.cols_pos
  have e1 := Curve.eval_eq_span (h.isoU u) (u := v) (s := sv) hpv (by simpa [Surface.isoU] using hnv)
    (by rw [isoU_hi]; exact hv)
  rw [eval_eq_isoU h, e1, patchDer]
  apply Finset.sum_congr rfl
  intro s hs
  have hs' : s < S.vDegree + 1 := Finset.mem_range.1 hs
  have e2 : (S.isoU u).cps.getD (sv - S.vDegree + s) 0 = (S.col (sv - S.vDegree + s)).eval u :=
    getD_map_range (by omega) _
  have e3 := Curve.eval_eq_span (h.col (sv - S.vDegree + s)) (u := u) (s := su) hpu (by simpa [Surface.col] using hnu)
    (by rw [col_hi]; exact hu)
  show _ • (S.isoU u).cps.getD (sv - S.vDegree + s) 0 = _
  rw [e2, e3, bder, Function.iterate_zero, id, spanPoly_eval]
  congr 1
  apply Finset.sum_congr rfl
  intro r hr
  have hr' : r < S.uDegree + 1 := Finset.mem_range.1 hr
  rw [bder, Function.iterate_zero, id, spanPoly_eval]
  congr 1
  show (S.cps.map fun row => row.getD (sv - S.vDegree + s) 0).getD (su - S.uDegree + r) 0 = _
  rw [cp, List.getD_eq_getElem?_getD, List.getElem?_map, List.getD_eq_getElem?_getD (l := S.cps),
    List.getElem?_eq_getElem (by omega : su - S.uDegree + r < S.cps.length)]
  rfl

end Curvo.Surface

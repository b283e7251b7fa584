/-
  Property theorems about regularly sampled derivatives and the regular tessellation: C27 (samples), C34, C66.
-/
import Verif.Props.SurfaceDeriv
import Verif.Props.Regular
import Verif.Props.Curve2

set_option linter.unusedSectionVars false

namespace Curvo.Props

open Curvo Curvo.Knots Curvo.Spec Curvo.Surface Polynomial

variable {K : Type} [Field K] [LinearOrder K] [IsStrictOrderedRing K]
variable {V W : Type} [AddCommGroup V] [Module K V] [AddCommGroup W] [Module K W]

theorem regularDerGo_spec {eps : K} {ks : List K} {p n : ℕ} {span : K} (hl : ks.length = n + p + 2)
    (hg : GoodKnots eps (kf ks) p n) (hspan : 0 ≤ span) :
    ∀ (todo : ℕ) (u : K) (idx : ℕ), p ≤ idx → idx ≤ n → kf ks idx ≤ u →
      (∀ r, r < todo → u + r * span ≤ kf ks (n + 1)) →
      ∃ L, regularDerGo ks p n span todo u idx = .ok L ∧ L.length = todo ∧
        ∀ r : ℕ, r < todo → ∃ s, L[r]? = some (s, mat (n + 1) (p + 1) fun a b => bder ks p s a b (u + r * span)) ∧
          p ≤ s ∧ s ≤ n ∧ InSpan (kf ks) (kf ks (n + 1)) (u + r * span) s := by
  intro todo
  induction todo with
  | zero => intro u idx _ _ _ _; exact ⟨[], rfl, rfl, fun r hr => absurd hr (by omega)⟩
  | succ todo ih =>
    intro u idx h1 h2 h3 h4
    obtain ⟨idx', e, a, b, c, d⟩ := advanceGo_spec (ks := ks) (n := n) (u := u) (by omega) (n + 2) idx h2 (by omega)
    have hk : kf ks idx' ≤ u := by
      rcases Nat.lt_or_ge idx idx' with h | h
      · exact c h
      · rw [show idx' = idx by omega]; exact h3
    have hu : u ≤ kf ks (n + 1) := by simpa using h4 0 (by omega)
    have hin : InSpan (kf ks) (kf ks (n + 1)) u idx' := by
      by_cases hend : u = kf ks (n + 1)
      · have : idx' = n := by
          rcases d with d | d
          · exact d
          · exfalso
            rw [hend] at d
            exact absurd (hg.mono (idx' + 1) (n + 1) (by omega) (by omega)) (not_le.2 d)
        rw [InSpan, if_pos hend, this, hend]
        exact ⟨hg.last, le_refl _⟩
      · rw [InSpan, if_neg hend]
        refine ⟨hk, ?_⟩
        rcases d with d | d
        · rw [d]; exact lt_of_le_of_ne hu hend
        · exact d
    have hb := derivativeBasisFunctions_spec (ks := ks) (u := u) (p := p) (s := idx') (N := n) (by omega) (by omega)
      (fun i j hi hj hj' => ne_across hg.mono (Curve.inSpan_lt hin) i j hi hj (by omega))
    obtain ⟨L, eL, hL, hr⟩ := ih (u + span) idx' (by omega) b (le_trans hk (by linarith)) (by
      intro r hr
      have := h4 (r + 1) (by omega)
      rw [Nat.cast_add, Nat.cast_one, add_mul, one_mul] at this
      linarith)
    refine ⟨_, by rw [regularDerGo, e, ok_bind, hb, ok_bind, eL, ok_bind]; rfl, by simp [hL], ?_⟩
    intro r hr'
    rcases r with _ | r
    · refine ⟨idx', by simp [bder], by omega, b, by simpa using hin⟩
    · obtain ⟨s, e1, e2, e3, e4⟩ := hr r (by omega)
      have : u + ((r + 1 : ℕ) : K) * span = u + span + r * span := by push_cast; ring
      rw [this]
      exact ⟨s, by simpa using e1, e2, e3, e4⟩

theorem regularSpan_eq {eps : K} {ks : List K} {p n divs : ℕ} (hl : ks.length = n + p + 2)
    (hg : GoodKnots eps (kf ks) p n) (hd : 0 < divs) : regularlySpacedSpan ks p divs =
      .ok (kf ks p, kf ks (n + 1), (kf ks (n + 1) - kf ks p) / divs, n) := by
  have hdK : (0 : K) < divs := Nat.cast_pos.2 hd
  have hdom : domain ks p = .ok (kf ks p, kf ks (n + 1)) := by
    rw [domain, getR_kf (by omega), ok_bind, subR_eq_ok (by omega), ok_bind, subR_eq_ok (by omega), ok_bind,
      getR_kf (by omega), ok_bind, show ks.length - 1 - p = n + 1 by omega]
    rfl
  rw [regularlySpacedSpan, subR_eq_ok (by omega), ok_bind, subR_eq_ok (by omega), ok_bind, hdom, ok_bind]
  simp only []
  rw [divR_eq_ok hdK.ne', ok_bind, show ks.length - p - 2 = n by omega]
  rfl

theorem regularDer_spec {eps : K} {ks : List K} {p n divs : ℕ} (hl : ks.length = n + p + 2)
    (hg : GoodKnots eps (kf ks) p n) (hd : 0 < divs) :
    ∃ L, regularlySpacedDerivativeBasisFunctions eps ks p divs = .ok L ∧ L.length = divs + 1 ∧
      ∀ r : ℕ, r ≤ divs → ∃ s, L[r]? = some (s, mat (n + 1) (p + 1) fun a b =>
          bder ks p s a b (kf ks p + r * ((kf ks (n + 1) - kf ks p) / divs))) ∧ p ≤ s ∧ s ≤ n ∧
        InSpan (kf ks) (kf ks (n + 1)) (kf ks p + r * ((kf ks (n + 1) - kf ks p) / divs)) s := by
  have hpn := hg.le
  have hlt : kf ks p < kf ks (n + 1) :=
    lt_of_lt_of_le hg.first (hg.mono _ _ (by omega) (by omega))
  have hdK : (0 : K) < divs := Nat.cast_pos.2 hd
  obtain ⟨s, es, ps, sn, hin⟩ := C01_span_brackets (u := kf ks p) hl hg (le_refl _) hlt.le
  obtain ⟨L, e, hL, hr⟩ := regularDerGo_spec hl hg (span := (kf ks (n + 1) - kf ks p) / divs)
    (div_nonneg (sub_nonneg.2 hlt.le) hdK.le) (divs + 1) (kf ks p) s ps sn (Curve.inSpan_le hin).1 (by
      intro r hr
      have h1 : (r : K) ≤ divs := Nat.cast_le.2 (by omega)
      have h2 : (r : K) * ((kf ks (n + 1) - kf ks p) / divs) ≤ divs * ((kf ks (n + 1) - kf ks p) / divs) :=
        mul_le_mul_of_nonneg_right h1 (div_nonneg (sub_nonneg.2 hlt.le) hdK.le)
      rw [mul_div_cancel₀ _ hdK.ne'] at h2
      linarith)
  refine ⟨L, by
    rw [regularlySpacedDerivativeBasisFunctions, regularSpan_eq hl hg hd, ok_bind]; simp only []; rw [es, ok_bind, e],
    hL, ?_⟩
  intro r h
  exact hr r (by omega)

/-- With at most as many derivatives as both degrees the shared-basis table is the full homogeneous table. -/
theorem givenBases_spec {eps : K} {S : Surface K V} (h : S.Good eps) {u v : K} {m su sv : ℕ}
    (hpu : S.uDegree ≤ su) (hnu : su ≤ S.cps.length - 1) (hpv : S.vDegree ≤ sv) (hnv : sv ≤ S.cols - 1)
    (hmu : m ≤ S.uDegree) (hmv : m ≤ S.vDegree) :
    S.derivativesGivenBases su sv
      (mat (S.cps.length - 1 + 1) (S.uDegree + 1) fun a b => bder S.uKnots S.uDegree su a b u)
      (mat (S.cols - 1 + 1) (S.vDegree + 1) fun a b => bder S.vKnots S.vDegree sv a b v) m =
      .ok (mat (m + 1) (m + 1) fun k l => if k + l ≤ m then S.patchDer su sv k l u v else 0) := by
  have := h.rows_pos
  have := h.cols_pos
  have hule := h.u_good.le
  have hvle := h.v_good.le
  have hdu : (if m < S.uDegree then m else S.uDegree) = m := by split_ifs <;> omega
  have hdv : (if m < S.vDegree then m else S.vDegree) = m := by split_ifs <;> omega
  rw [derivativesGivenBases]
  simp only [hdu, hdv]
  rw [mat_replicate]
  obtain ⟨st, est, g, eg, hg⟩ := foldlM_range_inv (f := fun skl k => do
      let temp ← S.derColumns (mat (S.cps.length - 1 + 1) (S.uDegree + 1)
        fun n r => bder S.uKnots S.uDegree su n r u) su sv k
      let nk ← subR m k
      (List.range ((if nk < m then nk else m) + 1)).foldlM (fun skl l => do
        let v ← (List.range (S.vDegree + 1)).foldlM (fun acc s => do
          let item ← getR temp s
          let b ← get2R (mat (S.cols - 1 + 1) (S.vDegree + 1) fun n r => bder S.vKnots S.vDegree sv n r v) l s
          pure (acc + b • item)) 0
        set2R skl k l v) skl) (n := m + 1)
    (s := mat (m + 1) (m + 1) fun _ _ => (0 : V))
    (P := fun t skl => ∃ g, skl = mat (m + 1) (m + 1) g ∧ ∀ k l, k ≤ m → l ≤ m →
      g k l = if k < t ∧ k + l ≤ m then S.patchDer su sv k l u v else 0)
    ⟨_, rfl, fun k l _ _ => by rw [if_neg (by omega)]⟩ (by
      rintro k hk _ ⟨g, rfl, hg⟩
      obtain ⟨st, est, g1, eg1, hg1⟩ := foldlM_range_inv (f := fun skl l => do
          let v ← (List.range (S.vDegree + 1)).foldlM (fun acc s => do
            let item ← getR (vec (S.vDegree + 1) fun s => (Finset.range (S.uDegree + 1)).sum fun r =>
              bder S.uKnots S.uDegree su k r u • S.cp (su - S.uDegree + r) (sv - S.vDegree + s)) s
            let b ← get2R (mat (S.cols - 1 + 1) (S.vDegree + 1) fun n r => bder S.vKnots S.vDegree sv n r v) l s
            pure (acc + b • item)) 0
          set2R skl k l v) (n := (if m - k < m then m - k else m) + 1)
        (s := mat (m + 1) (m + 1) g)
        (P := fun t skl => ∃ g1, skl = mat (m + 1) (m + 1) g1 ∧ ∀ a l, a ≤ m → l ≤ m →
          g1 a l = if a = k ∧ l < t then S.patchDer su sv k l u v else g a l)
        ⟨g, rfl, fun a l _ _ => by rw [if_neg (by omega)]⟩ (by
          rintro l hl _ ⟨g1, rfl, hg1⟩
          have hl' : l ≤ m - k := by split_ifs at hl <;> omega
          refine ⟨mat (m + 1) (m + 1) (updF2 g1 k l (S.patchDer su sv k l u v)), ?_, _, rfl, ?_⟩
          · skip
            rw [foldlM_sum (g := fun s => bder S.vKnots S.vDegree sv l s v •
                (Finset.range (S.uDegree + 1)).sum fun r => bder S.uKnots S.uDegree su k r u •
                  S.cp (su - S.uDegree + r) (sv - S.vDegree + s)), zero_add, ok_bind, set2R_mat (by omega) (by omega)]
            · rfl
            · intro acc s hs
              rw [getR_vec hs, ok_bind, get2R_mat (by omega) hs, ok_bind]
              rfl
          · intro a b ha hb
            unfold updF2
            by_cases e : a = k ∧ b = l
            · rw [if_pos e, if_pos (by omega), e.2]
            · rw [if_neg e, hg1 a b ha hb]
              by_cases e2 : a = k ∧ b < l
              · rw [if_pos e2, if_pos (by omega)]
              · rw [if_neg e2, if_neg (by omega)])
      refine ⟨st, ?_, g1, eg1, ?_⟩
      · skip
        rw [derColumns_spec h hpu hnu hpv hnv (by omega), ok_bind, subR_eq_ok (by omega), ok_bind]
        exact est
      · intro a b ha hb
        rw [hg1 a b ha hb]
        have hmin : ∀ x, (x < (if m - k < m then m - k else m) + 1) ↔ k + x ≤ m := by
          intro x; split_ifs <;> omega
        by_cases e : a = k
        · subst e
          rw [hg a b ha hb, if_neg (c := a < a ∧ _) (by omega)]
          by_cases e2 : a + b ≤ m
          · rw [if_pos ⟨rfl, (hmin b).2 e2⟩, if_pos ⟨by omega, e2⟩]
          · rw [if_neg (fun hc => e2 ((hmin b).1 hc.2)), if_neg (fun hc => e2 hc.2)]
        · rw [if_neg (fun hc => e hc.1), hg a b ha hb]
          by_cases e2 : a < k ∧ a + b ≤ m
          · rw [if_pos e2, if_pos ⟨by omega, e2.2⟩]
          · rw [if_neg e2, if_neg (fun hc => e2 ⟨by omega, hc.2⟩)])
  refine Eq.trans est ?_
  rw [eg]
  congr 1
  apply mat_congr
  intro k l hk hl
  rw [hg k l (by omega) (by omega)]
  by_cases e : k + l ≤ m
  · rw [if_pos e, if_pos ⟨hk, e⟩]
  · rw [if_neg e, if_neg (fun hc => e hc.2)]

/-- The regularly sampled derivatives are the derivatives at the equally spaced parameters, for orders up to both
    degrees. -/
theorem C27_regular_sample_derivatives {eps : K} {S : Surface K V} (h : S.Good eps) {du dv m : ℕ} (hdu : 0 < du)
    (hdv : 0 < dv) (hmu : m ≤ S.uDegree) (hmv : m ≤ S.vDegree) :
    ∃ D : ℕ → ℕ → List (List V), S.regularSampleDerivatives eps du dv m =
        .ok ((List.range (du + 1)).map fun i => (List.range (dv + 1)).map fun j => D i j) ∧
      ∀ i j : ℕ, i ≤ du → j ≤ dv → S.derivatives eps (S.ulo + i * ((S.uhi - S.ulo) / du))
        (S.vlo + j * ((S.vhi - S.vlo) / dv)) m = .ok (D i j) := by
  have hr := h.rows_pos
  have hc := h.cols_pos
  have hul := h.u_len
  have hvl := h.v_len
  have e1 : S.cps.length - 1 + 1 = S.cps.length := by omega
  have e2 : S.cols - 1 + 1 = S.cols := by omega
  obtain ⟨Lu, eu, lu, hu⟩ := regularDer_spec (n := S.cps.length - 1) (by omega) h.u_good hdu
  obtain ⟨Lv, ev, lv, hv⟩ := regularDer_spec (n := S.cols - 1) (by omega) h.v_good hdv
  set U : ℕ → K := fun i => S.ulo + i * ((S.uhi - S.ulo) / du) with hU
  set Vv : ℕ → K := fun j => S.vlo + j * ((S.vhi - S.vlo) / dv) with hV
  have key : ∀ i j, i ≤ du → j ≤ dv → ∃ D, S.derivatives eps (U i) (Vv j) m = .ok D ∧
      (do let x ← getR Lu i
          let y ← getR Lv j
          S.derivativesGivenBases x.1 y.1 x.2 y.2 m) = .ok D := by
    intro i j hi hj
    obtain ⟨su, g1, g2, g3, g4⟩ := hu i hi
    obtain ⟨sv, k1, k2, k3, k4⟩ := hv j hj
    have hUi : kf S.uKnots S.uDegree + (i : K) * ((kf S.uKnots (S.cps.length - 1 + 1) - kf S.uKnots S.uDegree) / du) =
        U i := by rw [hU, e1]; rfl
    have hVj : kf S.vKnots S.vDegree + (j : K) * ((kf S.vKnots (S.cols - 1 + 1) - kf S.vKnots S.vDegree) / dv) =
        Vv j := by rw [hV, e2]; rfl
    rw [hUi] at g1 g4
    rw [hVj] at k1 k4
    rw [e1] at g4
    rw [e2] at k4
    have g4 : InSpan (kf S.uKnots) S.uhi (U i) su := g4
    have k4 : InSpan (kf S.vKnots) S.vhi (Vv j) sv := k4
    have b1 : S.ulo ≤ U i := le_trans (h.u_good.mono _ _ g2 (by omega)) (Curve.inSpan_le g4).1
    have b2 : U i ≤ S.uhi := le_trans (Curve.inSpan_le g4).2 (h.u_good.mono _ _ (by omega) (by omega))
    have b3 : S.vlo ≤ Vv j := le_trans (h.v_good.mono _ _ k2 (by omega)) (Curve.inSpan_le k4).1
    have b4 : Vv j ≤ S.vhi := le_trans (Curve.inSpan_le k4).2 (h.v_good.mono _ _ (by omega) (by omega))
    obtain ⟨ed, _, _⟩ := surf_span h b1 b2 b3 b4 (by omega) (by omega) g4 k4 m
    refine ⟨_, ed, ?_⟩
    rw [getR_ok_iff.2 g1, ok_bind, getR_ok_iff.2 k1, ok_bind]
    exact givenBases_spec h g2 g3 k2 k3 hmu hmv
  choose! D hD1 hD2 using key
  refine ⟨D, ?_, hD1⟩
  rw [Surface.regularSampleDerivatives, eu, ok_bind, ev, ok_bind]
  apply mapM_ok
  intro i hi
  apply mapM_ok
  intro j hj
  exact hD2 i j (by have := List.mem_range.1 hi; omega) (by have := List.mem_range.1 hj; omega)

theorem rationalDerivatives_ok {eps : K} {S : Surface K (W × K)} (h : S.Good eps)
    (hw : ∀ row ∈ S.cps, ∀ p ∈ row, 0 < p.2) {u v : K} (h1 : S.ulo ≤ u) (h2 : u ≤ S.uhi) (h3 : S.vlo ≤ v)
    (h4 : v ≤ S.vhi) (m : ℕ) : ∃ Q : ℕ → ℕ → W, S.rationalDerivatives eps u v m =
      .ok (vec (m + 1) fun k => vec (m - k + 1) (Q k)) := by
  have := h.rows_pos
  have := h.cols_pos
  obtain ⟨su, eu, pu, nu, iu⟩ := h.exists_span_u h1 h2
  obtain ⟨sv, ev, pv, nv, iv⟩ := h.exists_span_v h3 h4
  obtain ⟨e, _, _⟩ := surf_span h h1 h2 h3 h4 (by omega) (by omega) iu iv m
  have hp := surf_weight_pos h hw h1 h2 h3 h4
  rw [eval_eq_patch h pu nu pv nv iu iv] at hp
  obtain ⟨Q, eQ, _⟩ := rationalTable_spec (m := m)
    (F := fun k l => if k + l ≤ m then S.patchDer su sv k l u v else 0) (by
      simp only [Nat.add_zero, Nat.zero_le, if_true]; exact hp.ne')
  exact ⟨Q, by rw [Surface.rationalDerivatives, e, ok_bind, eQ]⟩

theorem grid_param {lo hi : K} (h : lo ≤ hi) {d i : ℕ} (hd : 0 < d) (hi' : i ≤ d) :
    lo ≤ lo + i * ((hi - lo) / d) ∧ lo + i * ((hi - lo) / d) ≤ hi := by
  have hdK : (0 : K) < d := Nat.cast_pos.2 hd
  have h0 : 0 ≤ (hi - lo) / d := div_nonneg (sub_nonneg.2 h) hdK.le
  have h1 : (i : K) ≤ d := Nat.cast_le.2 hi'
  have h2 := mul_le_mul_of_nonneg_right h1 h0
  rw [mul_div_cancel₀ _ hdK.ne'] at h2
  exact ⟨le_add_of_nonneg_right (mul_nonneg (Nat.cast_nonneg _) h0), by linarith⟩

theorem Good.u_dom {eps : K} {S : Surface K V} (h : S.Good eps) : S.ulo ≤ S.uhi := by
  have := h.rows_pos
  have := h.u_good.le
  exact h.u_good.mono _ _ (by omega) (by omega)

theorem Good.v_dom {eps : K} {S : Surface K V} (h : S.Good eps) : S.vlo ≤ S.vhi := by
  have := h.cols_pos
  have := h.v_good.le
  exact h.v_good.mono _ _ (by omega) (by omega)

/-- The regularly sampled rational derivatives are the rational derivatives at the equally spaced parameters, for orders
    up to both degrees. -/
theorem C27_regular_sample_rational {eps : K} {S : Surface K (W × K)} (h : S.Good eps)
    (hw : ∀ row ∈ S.cps, ∀ p ∈ row, 0 < p.2) {du dv m : ℕ} (hdu : 0 < du)
    (hdv : 0 < dv) (hmu : m ≤ S.uDegree) (hmv : m ≤ S.vDegree) :
    ∃ D : ℕ → ℕ → List (List W), S.regularSampleRationalDerivatives eps du dv m =
        .ok ((List.range (du + 1)).map fun i => (List.range (dv + 1)).map fun j => D i j) ∧
      ∀ i j : ℕ, i ≤ du → j ≤ dv → S.rationalDerivatives eps (S.ulo + i * ((S.uhi - S.ulo) / du))
        (S.vlo + j * ((S.vhi - S.vlo) / dv)) m = .ok (D i j) := by
  obtain ⟨D, eD, hD⟩ := C27_regular_sample_derivatives h (du := du) (dv := dv) hdu hdv hmu hmv
  have key : ∀ i j, i ≤ du → j ≤ dv → ∃ R, S.rationalDerivatives eps (S.ulo + i * ((S.uhi - S.ulo) / du))
        (S.vlo + j * ((S.vhi - S.vlo) / dv)) m = .ok R ∧ rationalTable (D i j) m = .ok R := by
    intro i j hi hj
    obtain ⟨a1, a2⟩ := grid_param (K := K) (Good.u_dom h) hdu hi
    obtain ⟨a3, a4⟩ := grid_param (K := K) (Good.v_dom h) hdv hj
    obtain ⟨Q, eQ⟩ := rationalDerivatives_ok h hw a1 a2 a3 a4 m
    refine ⟨_, eQ, ?_⟩
    rwa [Surface.rationalDerivatives, hD i j hi hj, ok_bind] at eQ
  choose! R hR1 hR2 using key
  refine ⟨R, ?_, hR1⟩
  rw [regularSampleRationalDerivatives, eD, ok_bind]
  apply mapM_ok
  intro i hi
  apply mapM_ok
  intro j hj
  have hi' := List.mem_range.1 hi
  have hj' := List.mem_range.1 hj
  rw [show ((List.range (du + 1)).map fun i => (List.range (dv + 1)).map fun j => D i j) = mat (du + 1) (dv + 1) D from
    rfl, get2R_mat hi' hj', ok_bind]
  exact hR2 i j (by omega) (by omega)

/-- The sampled normals are the normalised normals at the equally spaced parameters. -/
theorem C34_normals {cross : W → W → W} {normalize : W → W} {eps : K} {S : Surface K (W × K)} (h : S.Good eps)
    (hw : ∀ row ∈ S.cps, ∀ p ∈ row, 0 < p.2) {du dv : ℕ} (hdu : 0 < du) (hdv : 0 < dv)
    (hpu : 0 < S.uDegree) (hpv : 0 < S.vDegree) :
    ∃ N : ℕ → ℕ → W, S.regularSampleNormals cross normalize eps du dv =
        .ok ((List.range (du + 1)).map fun i => (List.range (dv + 1)).map fun j => normalize (N i j)) ∧
      ∀ i j : ℕ, i ≤ du → j ≤ dv → S.normalAt cross eps (S.ulo + i * ((S.uhi - S.ulo) / du))
        (S.vlo + j * ((S.vhi - S.vlo) / dv)) = .ok (N i j) := by
  obtain ⟨D, eD, hD⟩ := C27_regular_sample_rational h hw (du := du) (dv := dv) (m := 1) hdu hdv hpu hpv
  have key : ∀ i j, i ≤ du → j ≤ dv → ∃ n, S.normalAt cross eps (S.ulo + i * ((S.uhi - S.ulo) / du))
        (S.vlo + j * ((S.vhi - S.vlo) / dv)) = .ok n ∧ (do
          let v0 ← get2R (D i j) 1 0
          let v1 ← get2R (D i j) 0 1
          pure (normalize (cross v0 v1)) : Res W) = .ok (normalize n) := by
    intro i j hi hj
    obtain ⟨a1, a2⟩ := grid_param (K := K) (Good.u_dom h) hdu hi
    obtain ⟨a3, a4⟩ := grid_param (K := K) (Good.v_dom h) hdv hj
    obtain ⟨Q, eQ⟩ := rationalDerivatives_ok h hw a1 a2 a3 a4 1
    rw [hD i j hi hj] at eQ
    rw [Surface.normalAt, hD i j hi hj, ok_bind, Except.ok.inj eQ]
    exact ⟨cross (Q 1 0) (Q 0 1), rfl, rfl⟩
  choose! N hN1 hN2 using key
  refine ⟨N, ?_, hN1⟩
  rw [regularSampleNormals, eD, ok_bind]
  have : ∀ i, i ≤ du → ((List.range (dv + 1)).map fun j => D i j).mapM (fun der => (do
      let v0 ← get2R der 1 0
      let v1 ← get2R der 0 1
      pure (normalize (cross v0 v1)) : Res W)) = .ok ((List.range (dv + 1)).map fun j => normalize (N i j)) := by
    intro i hi
    rw [List.mapM_map]
    apply mapM_ok
    intro j hj
    exact hN2 i j hi (by have := List.mem_range.1 hj; omega)
  rw [List.mapM_map]
  apply mapM_ok
  intro i hi
  exact this i (by have := List.mem_range.1 hi; omega)

theorem flatten_getElem {α : Type} (f : ℕ → ℕ → α) (n m i j : ℕ) (hi : i < n) (hj : j < m) :
    ((List.range n).flatMap fun i => (List.range m).map fun j => f i j)[i * m + j]? = some (f i j) := by
  induction n generalizing i f with
  | zero => omega
  | succ n ih =>
    rw [List.range_succ_eq_map, List.flatMap_cons, List.flatMap_map]
    rcases i with _ | i
    · rw [List.getElem?_append_left (by simpa using hj), List.getElem?_map, List.getElem?_range (by omega)]
      simp
    · rw [List.getElem?_append_right (by simp [Nat.succ_mul]; omega)]
      rw [show (i + 1) * m + j - ((List.range m).map fun j => f 0 j).length = i * m + j by
        simp [Nat.succ_mul]; omega]
      exact ih (fun i j => f (i + 1) j) i (by omega)

theorem flatMap_length {α : Type} (f : ℕ → ℕ → α) (n m : ℕ) :
    ((List.range n).flatMap fun i => (List.range m).map fun j => f i j).length = n * m := by
  simp [List.length_flatMap]

/-- Regular tessellation: the arrays have `(divs_u + 1) * (divs_v + 1)` entries, and the entries at
    `i * (divs_v + 1) + j` are the parameters, the surface point and the normalised normal of the grid node `(i, j)`. -/
theorem C34_vertices {cross : W → W → W} {normalize : W → W} {eps : K} {S : Surface K (W × K)} (h : S.Good eps)
    (hw : ∀ row ∈ S.cps, ∀ p ∈ row, 0 < p.2) {du dv : ℕ} (hdu : 0 < du) (hdv : 0 < dv)
    (hpu : 0 < S.uDegree) (hpv : 0 < S.vDegree) :
    ∃ T, S.regularTessellate cross normalize eps du dv = .ok T ∧
      T.points.length = (du + 1) * (dv + 1) ∧ T.normals.length = (du + 1) * (dv + 1) ∧
      T.uvs.length = (du + 1) * (dv + 1) ∧ T.faces = gridFaces du dv ∧
      ∀ i j : ℕ, i ≤ du → j ≤ dv → ∃ (u v : K) (p n : W),
        u = S.ulo + i * ((S.uhi - S.ulo) / du) ∧ v = S.vlo + j * ((S.vhi - S.vlo) / dv) ∧
        T.uvs[i * (dv + 1) + j]? = some (u, v) ∧
        T.points[i * (dv + 1) + j]? = some p ∧ S.pointAt eps u v = .ok p ∧
        T.normals[i * (dv + 1) + j]? = some (normalize n) ∧ S.normalAt cross eps u v = .ok n := by
  have hr := h.rows_pos
  have hc := h.cols_pos
  have hul := h.u_len
  have hvl := h.v_len
  have e1 : S.cps.length - 1 + 1 = S.cps.length := by omega
  have e2 : S.cols - 1 + 1 = S.cols := by omega
  obtain ⟨rows, er, lr, hrow⟩ := C28_regular_samples h hw hdu hdv
  obtain ⟨N, eN, hN⟩ := C34_normals (cross := cross) (normalize := normalize) h hw hdu hdv hpu hpv
  have key : ∀ i j, i ≤ du → j ≤ dv → ∃ p, (∀ row, rows[i]? = some row → row.length = dv + 1 ∧ row[j]? = some p) ∧
      S.pointAt eps (S.ulo + i * ((S.uhi - S.ulo) / du)) (S.vlo + j * ((S.vhi - S.vlo) / dv)) = .ok p := by
    intro i j hi hj
    obtain ⟨row, p, a, b, c, d⟩ := hrow i j hi hj
    refine ⟨p, fun row' h' => ?_, d⟩
    obtain rfl : row = row' := Option.some.inj (a.symm.trans h')
    exact ⟨b, c⟩
  choose! P hP1 hP2 using key
  have hrows : rows = (List.range (du + 1)).map fun i => (List.range (dv + 1)).map fun j => P i j := by
    apply List.ext_getElem
    · simp [lr]
    · intro i g1 g2
      have hi : i ≤ du := by omega
      simp only [List.getElem_map, List.getElem_range]
      have hrl := (hP1 i 0 hi (by omega) rows[i] (List.getElem?_eq_getElem g1)).1
      apply List.ext_getElem
      · simp [hrl]
      · intro j g3 g4
        have := (hP1 i j hi (by omega) rows[i] (List.getElem?_eq_getElem g1)).2
        rw [List.getElem?_eq_getElem g3] at this
        simp only [List.getElem_map, List.getElem_range]
        exact Option.some.inj this
  have fl : ∀ {α : Type} (f : ℕ → ℕ → α) (n m : ℕ), ((List.range n).map fun i => (List.range m).map fun j => f i j).flatten
      = (List.range n).flatMap fun i => (List.range m).map fun j => f i j := by
    intro α f n m
    rfl
  refine ⟨_, by
    rw [regularTessellate, er, ok_bind, eN, ok_bind, regularSpan_eq (n := S.cps.length - 1) (by omega) h.u_good hdu,
      ok_bind, regularSpan_eq (n := S.cols - 1) (by omega) h.v_good hdv, ok_bind]; rfl, ?_, ?_, ?_, rfl, ?_⟩
  · simp only []
    rw [hrows, fl, flatMap_length]
  · simp only []
    rw [fl, flatMap_length]
  · simp only []
    rw [flatMap_length (fun iu iv : ℕ => (_ + _ * (iu : K), _ + _ * (iv : K)))]
  · intro i j hi hj
    refine ⟨_, _, P i j, N i j, rfl, rfl, ?_, ?_, hP2 i j hi hj, ?_, hN i j hi hj⟩
    · simp only []
      rw [flatten_getElem (fun iu iv : ℕ => (_ + _ * (iu : K), _ + _ * (iv : K))) _ _ _ _ (by omega) (by omega), e1, e2]
      simp only [mul_comm, Surface.ulo, Surface.uhi, Surface.vlo, Surface.vhi]
    · simp only []
      rw [hrows, fl, flatten_getElem _ _ _ _ _ (by omega) (by omega)]
    · simp only []
      rw [fl, flatten_getElem _ _ _ _ _ (by omega) (by omega)]

/-- Zero divisions in one direction make the equal spacing non finite. -/
theorem C34_zero_divisions {cross : W → W → W} {normalize : W → W} {eps : K} {S : Surface K (W × K)} (h : S.Good eps)
    (dv : ℕ) : S.regularTessellate cross normalize eps 0 dv = .error .nonfinite := by
  have hr := h.rows_pos
  have hul := h.u_len
  have hle := h.u_good.le
  have hdom : domain S.uKnots S.uDegree = .ok (S.ulo, S.uhi) := by
    rw [domain, getR_kf (by omega), ok_bind, subR_eq_ok (by omega), ok_bind, subR_eq_ok (by omega), ok_bind,
      getR_kf (by omega), ok_bind, show S.uKnots.length - 1 - S.uDegree = S.cps.length by omega]
    rfl
  have : regularlySpacedSpan S.uKnots S.uDegree 0 = .error .nonfinite := by
    rw [regularlySpacedSpan, subR_eq_ok (by omega), ok_bind, subR_eq_ok (by omega), ok_bind, hdom, ok_bind]
    simp [divR]
  rw [regularTessellate, regularSamplePoints, regularlySpacedBasisFunctions, this]
  rfl

/-! ### The grid of triangles -/

theorem mem_gridFaces {du dv : ℕ} {f : ℕ × ℕ × ℕ} : f ∈ gridFaces du dv ↔ ∃ iu iv, iu < du ∧ iv < dv ∧
    (f = (iu * (dv + 1) + iv, (iu + 1) * (dv + 1) + (iv + 1), iu * (dv + 1) + (iv + 1)) ∨
     f = (iu * (dv + 1) + iv, (iu + 1) * (dv + 1) + iv, (iu + 1) * (dv + 1) + (iv + 1))) := by
  simp only [gridFaces, List.mem_flatMap, List.mem_range, List.mem_cons, List.not_mem_nil, or_false]
  have e : ∀ iu iv, iu * (dv + 1) + iv + dv + 2 = (iu + 1) * (dv + 1) + (iv + 1) ∧
      iu * (dv + 1) + iv + dv + 1 = (iu + 1) * (dv + 1) + iv ∧ iu * (dv + 1) + iv + 1 = iu * (dv + 1) + (iv + 1) := by
    intro iu iv
    refine ⟨?_, ?_, ?_⟩ <;> ring
  constructor
  · rintro ⟨iu, h1, iv, h2, h⟩
    rw [(e iu iv).1, (e iu iv).2.1, (e iu iv).2.2] at h
    exact ⟨iu, iv, h1, h2, h⟩
  · rintro ⟨iu, iv, h1, h2, h⟩
    refine ⟨iu, h1, iv, h2, ?_⟩
    rw [(e iu iv).1, (e iu iv).2.1, (e iu iv).2.2]
    exact h

/-- There are `2 * divs_u * divs_v` faces, in range and with three different indices. -/
theorem C34_faces (du dv : ℕ) : (gridFaces du dv).length = 2 * du * dv ∧
    ∀ a b c, (a, b, c) ∈ gridFaces du dv →
      a < (du + 1) * (dv + 1) ∧ b < (du + 1) * (dv + 1) ∧ c < (du + 1) * (dv + 1) ∧ a ≠ b ∧ b ≠ c ∧ a ≠ c := by
  constructor
  · simp only [gridFaces, List.length_flatMap, List.map_const', List.length_cons, List.length_nil, List.sum_replicate,
      List.length_range, smul_eq_mul]
    ring
  · intro a b c h
    obtain ⟨iu, iv, h1, h2, h⟩ := mem_gridFaces.1 h
    have hb : (iu + 1) * (dv + 1) ≤ du * (dv + 1) := Nat.mul_le_mul_right _ (by omega)
    have e1 : (iu + 1) * (dv + 1) = iu * (dv + 1) + (dv + 1) := by ring
    have e2 : (du + 1) * (dv + 1) = du * (dv + 1) + (dv + 1) := by ring
    rw [e1] at h hb
    rcases h with h | h <;>
    · simp only [Prod.mk.injEq] at h
      obtain ⟨rfl, rfl, rfl⟩ := h
      omega

/-- Position of vertex `k` in grid coordinates. -/
def gridNode (K : Type) [Field K] (dv k : ℕ) : K × K := (((k / (dv + 1) : ℕ) : K), ((k % (dv + 1) : ℕ) : K))

theorem gridNode_eq {dv i j : ℕ} (hj : j ≤ dv) : gridNode K dv (i * (dv + 1) + j) = ((i : K), (j : K)) := by
  have h1 : (i * (dv + 1) + j) / (dv + 1) = i := by
    rw [Nat.add_comm, Nat.add_mul_div_right _ _ (by omega), Nat.div_eq_of_lt (by omega), Nat.zero_add]
  have h2 : (i * (dv + 1) + j) % (dv + 1) = j := by
    rw [Nat.add_comm, Nat.add_mul_mod_self_right, Nat.mod_eq_of_lt (by omega)]
  rw [gridNode, h1, h2]

theorem exists_cell {d : ℕ} {x : K} (hd : 0 < d) (h0 : 0 ≤ x) (h1 : x ≤ d) : ∃ i : ℕ, i < d ∧ (i : K) ≤ x ∧ x ≤ i + 1 := by
  induction d with
  | zero => omega
  | succ d ih =>
    rcases le_total (d : K) x with h | h
    · exact ⟨d, by omega, h, by push_cast at h1; exact h1⟩
    · rcases Nat.eq_zero_or_pos d with rfl | hd'
      · exact ⟨0, by omega, by simpa using h0, le_trans h (by simp)⟩
      · obtain ⟨i, a, b, c⟩ := ih hd' h
        exact ⟨i, by omega, b, c⟩

/-- The triangles cover the whole grid. -/
theorem C34_cover {du dv : ℕ} (hdu : 0 < du) (hdv : 0 < dv) {x y : K} (hx0 : 0 ≤ x) (hx1 : x ≤ du) (hy0 : 0 ≤ y)
    (hy1 : y ≤ dv) : ∃ a b c, (a, b, c) ∈ gridFaces du dv ∧ ∃ α β γ : K, 0 ≤ α ∧ 0 ≤ β ∧ 0 ≤ γ ∧ α + β + γ = 1 ∧
      α • gridNode K dv a + β • gridNode K dv b + γ • gridNode K dv c = (x, y) := by
  obtain ⟨i, hi, x1, x2⟩ := exists_cell hdu hx0 hx1
  obtain ⟨j, hj, y1, y2⟩ := exists_cell hdv hy0 hy1
  rcases le_total (x - i) (y - j) with h | h
  · refine ⟨_, _, _, mem_gridFaces.2 ⟨i, j, hi, hj, Or.inl rfl⟩, 1 - (y - j), x - i, (y - j) - (x - i), by linarith,
      by linarith, by linarith, by ring, ?_⟩
    rw [gridNode_eq (by omega), gridNode_eq (by omega), gridNode_eq (by omega)]
    ext <;> simp <;> ring
  · refine ⟨_, _, _, mem_gridFaces.2 ⟨i, j, hi, hj, Or.inr rfl⟩, 1 - (x - i), (x - i) - (y - j), y - j, by linarith,
      by linarith, by linarith, by ring, ?_⟩
    rw [gridNode_eq (by omega), gridNode_eq (by omega), gridNode_eq (by omega)]
    ext <;> simp <;> ring

theorem cell_unique {i i' : ℕ} {x : K} (h1 : (i : K) < x) (h2 : x < i + 1) (h3 : (i' : K) < x) (h4 : x < i' + 1) :
    i = i' := by
  have a : (i : K) < ((i' + 1 : ℕ) : K) := by push_cast; linarith
  have b : (i' : K) < ((i + 1 : ℕ) : K) := by push_cast; linarith
  have := Nat.cast_lt.1 a
  have := Nat.cast_lt.1 b
  omega

theorem face_interior {du dv : ℕ} {x y : K} {f : ℕ × ℕ × ℕ} (hf : f ∈ gridFaces du dv) {α β γ : K} (ha : 0 < α)
    (hb : 0 < β) (hc : 0 < γ) (hs : α + β + γ = 1)
    (e : α • gridNode K dv f.1 + β • gridNode K dv f.2.1 + γ • gridNode K dv f.2.2 = (x, y)) :
    ∃ i j : ℕ, (i : K) < x ∧ x < i + 1 ∧ (j : K) < y ∧ y < j + 1 ∧
      ((x - i < y - j ∧ f = (i * (dv + 1) + j, (i + 1) * (dv + 1) + (j + 1), i * (dv + 1) + (j + 1))) ∨
       (y - j < x - i ∧ f = (i * (dv + 1) + j, (i + 1) * (dv + 1) + j, (i + 1) * (dv + 1) + (j + 1)))) := by
  obtain ⟨i, j, hi, hj, h⟩ := mem_gridFaces.1 hf
  refine ⟨i, j, ?_⟩
  have hα : α = 1 - β - γ := by linarith
  subst hα
  rcases h with h | h
  · rw [h] at e
    simp only [] at e
    rw [gridNode_eq (by omega), gridNode_eq (by omega), gridNode_eq (by omega)] at e
    have e1 := congrArg Prod.fst e
    have e2 := congrArg Prod.snd e
    simp at e1 e2
    have hx : x = i + β := by rw [← e1]; ring
    have hy : y = j + β + γ := by rw [← e2]; ring
    subst hx hy
    exact ⟨by linarith, by linarith, by linarith, by linarith, Or.inl ⟨by linarith, h⟩⟩
  · rw [h] at e
    simp only [] at e
    rw [gridNode_eq (by omega), gridNode_eq (by omega), gridNode_eq (by omega)] at e
    have e1 := congrArg Prod.fst e
    have e2 := congrArg Prod.snd e
    simp at e1 e2
    have hx : x = i + β + γ := by rw [← e1]; ring
    have hy : y = j + γ := by rw [← e2]; ring
    subst hx hy
    exact ⟨by linarith, by linarith, by linarith, by linarith, Or.inr ⟨by linarith, h⟩⟩

/-- Different triangles do not overlap: a point in the interior of two triangles makes them equal. -/
theorem C34_disjoint {du dv : ℕ} {x y : K} {f g : ℕ × ℕ × ℕ} (hf : f ∈ gridFaces du dv) (hg : g ∈ gridFaces du dv)
    {α β γ α' β' γ' : K} (ha : 0 < α) (hb : 0 < β) (hc : 0 < γ) (hs : α + β + γ = 1)
    (e : α • gridNode K dv f.1 + β • gridNode K dv f.2.1 + γ • gridNode K dv f.2.2 = (x, y))
    (ha' : 0 < α') (hb' : 0 < β') (hc' : 0 < γ') (hs' : α' + β' + γ' = 1)
    (e' : α' • gridNode K dv g.1 + β' • gridNode K dv g.2.1 + γ' • gridNode K dv g.2.2 = (x, y)) : f = g := by
  obtain ⟨i, j, h1, h2, h3, h4, h5⟩ := face_interior hf ha hb hc hs e
  obtain ⟨i', j', k1, k2, k3, k4, k5⟩ := face_interior hg ha' hb' hc' hs' e'
  obtain rfl := cell_unique h1 h2 k1 k2
  obtain rfl := cell_unique h3 h4 k3 k4
  rcases h5 with ⟨a, rfl⟩ | ⟨a, rfl⟩ <;> rcases k5 with ⟨b, rfl⟩ | ⟨b, rfl⟩
  · rfl
  · exact absurd a (not_lt.2 b.le)
  · exact absurd a (not_lt.2 b.le)
  · rfl

/-- All triangles have the same orientation in parameter space (twice the signed area is one cell). -/
theorem C34_orientation {du dv a b c : ℕ} (h : (a, b, c) ∈ gridFaces du dv) :
    ((gridNode K dv b).1 - (gridNode K dv a).1) * ((gridNode K dv c).2 - (gridNode K dv a).2) -
      ((gridNode K dv b).2 - (gridNode K dv a).2) * ((gridNode K dv c).1 - (gridNode K dv a).1) = 1 := by
  obtain ⟨i, j, hi, hj, h⟩ := mem_gridFaces.1 h
  rcases h with h | h <;>
  · simp only [Prod.mk.injEq] at h
    obtain ⟨rfl, rfl, rfl⟩ := h
    rw [gridNode_eq (by omega), gridNode_eq (by omega), gridNode_eq (by omega)]
    simp

/-- No face is listed twice. -/
theorem C34_nodup (du dv : ℕ) : (gridFaces du dv).Nodup := by
  have e : ∀ iu iv, iu * (dv + 1) + iv + dv + 2 = (iu + 1) * (dv + 1) + (iv + 1) ∧
      iu * (dv + 1) + iv + dv + 1 = (iu + 1) * (dv + 1) + iv := by
    intro iu iv
    refine ⟨?_, ?_⟩ <;> ring
  unfold gridFaces
  rw [List.nodup_flatMap]
  refine ⟨fun i _ => ?_, ?_⟩
  · simp only []
    rw [List.nodup_flatMap]
    refine ⟨fun j _ => by simp, ?_⟩
    refine List.nodup_range.imp ?_
    intro j j' hne f h1 h2
    simp only [List.mem_cons, List.not_mem_nil, or_false] at h1 h2
    rcases h1 with rfl | rfl <;> rcases h2 with h2 | h2 <;> · simp only [Prod.mk.injEq] at h2; omega
  · refine List.nodup_range.imp_of_mem ?_
    intro i i' _ _ hne f h1 h2
    simp only [List.mem_flatMap, List.mem_range, List.mem_cons, List.not_mem_nil, or_false] at h1 h2
    obtain ⟨j, hj, h1⟩ := h1
    obtain ⟨j', hj', h2⟩ := h2
    have k1 : f.1 = i * (dv + 1) + j := by rcases h1 with rfl | rfl <;> rfl
    have k2 : f.1 = i' * (dv + 1) + j' := by rcases h2 with rfl | rfl <;> rfl
    rw [k1] at k2
    apply hne
    have : (i * (dv + 1) + j) / (dv + 1) = (i' * (dv + 1) + j') / (dv + 1) := by rw [k2]
    rwa [Nat.add_comm, Nat.add_mul_div_right _ _ (by omega), Nat.div_eq_of_lt (by omega), Nat.zero_add, Nat.add_comm (i' * (dv + 1)),
      Nat.add_mul_div_right _ _ (by omega), Nat.div_eq_of_lt (by omega), Nat.zero_add] at this

/-! ### Witnesses and the defect of the shared-basis table -/

theorem exSurf_dom : exSurf.ulo ≤ 1 ∧ (1 : ℚ) ≤ exSurf.uhi := by
  constructor <;> (simp [exSurf, Surface.ulo, Surface.uhi, kf])

def exCross (a b : ℚ × ℚ) : ℚ × ℚ := (a.1 * b.2 - a.2 * b.1, 0)

example : ∃ T, exSurf.regularTessellate exCross id (1/1000) 3 5 = .ok T ∧ T.points.length = 24 ∧
    T.faces.length = 30 := by
  obtain ⟨T, e, hl, _, _, hf, _⟩ := C34_vertices (cross := exCross) (normalize := id) exSurf_good exSurf_weights
    (du := 3) (dv := 5) (by norm_num) (by norm_num) (by decide) (by decide)
  exact ⟨T, e, hl, by rw [hf, (C34_faces 3 5).1]⟩

example : ∃ a b c, (a, b, c) ∈ gridFaces 2 3 ∧ ∃ α β γ : ℚ, 0 ≤ α ∧ 0 ≤ β ∧ 0 ≤ γ ∧ α + β + γ = 1 ∧
      α • gridNode ℚ 3 a + β • gridNode ℚ 3 b + γ • gridNode ℚ 3 c = (3/2, 9/4) :=
  C34_cover (by norm_num) (by norm_num) (by norm_num) (by norm_num) (by norm_num) (by norm_num)

set_option synthInstance.maxSize 1024 in
/-- With a higher order than a degree the sampled derivatives index out of range: the same order is available from the
    pointwise evaluation. -/
theorem C27_regular_sample_panics :
    exSurf.regularSampleDerivatives (1/1000) 1 1 2 = .error .panic ∧
      ∃ D, exSurf.derivatives (1/1000) 0 0 2 = .ok D := by
  refine ⟨by decide +kernel, ?_⟩
  have := exSurf_good
  have hr := this.rows_pos
  have hc := this.cols_pos
  obtain ⟨su, eu, pu, nu, iu⟩ := this.exists_span_u (u := 0) (by simp [exSurf, Surface.ulo, kf])
    (by simp [exSurf, Surface.uhi, kf])
  obtain ⟨sv, ev, pv, nv, iv⟩ := this.exists_span_v (v := 0) (by simp [exSurf, Surface.vlo, kf])
    (by simp [exSurf, Surface.vhi, kf, Surface.cols])
  exact ⟨_, (surf_span this (by simp [exSurf, Surface.ulo, kf]) (by simp [exSurf, Surface.uhi, kf])
    (by simp [exSurf, Surface.vlo, kf]) (by simp [exSurf, Surface.vhi, kf, Surface.cols]) (by omega) (by omega) iu iv 2).1⟩

end Curvo.Props

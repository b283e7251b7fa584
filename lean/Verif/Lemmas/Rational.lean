/-
  Homogeneous derivatives of curves and surfaces and the loops of the rational derivatives.
-/
import Mathlib.Tactic.Module
import Mathlib.Tactic.Abel
import Verif.Lemmas.Deriv2
import Verif.Lemmas.Surface
import Verif.Props.Misc

set_option linter.unusedSectionVars false

namespace Curvo

open Curvo.Spec Polynomial

theorem vec_succ {α : Type} (n : ℕ) (f : ℕ → α) : vec (n + 1) f = vec n f ++ [f n] := by
  simp [vec, List.range_succ]

theorem vec_map {α β : Type} (n : ℕ) (f : ℕ → α) (g : α → β) : (vec n f).map g = vec n fun i => g (f i) := by
  simp [vec]

variable {K V W : Type} [Field K] [LinearOrder K]

theorem binomGet_eq (n k : ℕ) : (binomGet n k : K) = (n.choose k : K) := (Props.memo_get n k _ (fun _ _ _ h => by cases h)).1

theorem foldlM_add_range {M : Type} [AddCommGroup M] {f : M → ℕ → Res M} {g : ℕ → M} {n : ℕ} {b : M}
    (h : ∀ acc i, i < n → f acc (i + 1) = .ok (acc + g i)) :
    ((List.range n).map (· + 1)).foldlM f b = .ok (b + (Finset.range n).sum g) := by
  obtain ⟨s, e, hs⟩ := foldlM_inv (f := f) (g := (· + 1)) (n := n) (s := b)
    (P := fun t s => s = b + (Finset.range t).sum g) (by simp) (by
      rintro t ht _ rfl
      exact ⟨_, h _ t ht, by rw [Finset.sum_range_succ, add_assoc]⟩)
  rw [e, hs]

namespace Curve

section homogeneous
variable [AddCommGroup V] [Module K V] [IsStrictOrderedRing K]

/-- The `n`-th derivative of the polynomial piece of a curve on span `s`. -/
noncomputable def pieceDer (c : Curve K V) (s n : ℕ) (u : K) : V :=
  (Finset.range (c.degree + 1)).sum fun r =>
    ((derivative^[n]) (spanPoly (kf c.knots) s c.degree (s - c.degree + r))).eval u • c.cps.getD (s - c.degree + r) 0

theorem pieceDer_high {c : Curve K V} {s n : ℕ} {u : K} (h : c.degree < n) : c.pieceDer s n u = 0 := by
  unfold pieceDer
  apply Finset.sum_eq_zero
  intro r _
  rw [iterate_derivative_spanPoly_high _ _ _ _ _ h, eval_zero, zero_smul]

theorem derivatives_spec {eps : K} {c : Curve K V} {u : K} (h : c.Good eps) {m s : ℕ}
    (hs : Knots.findKnotSpanIndex eps c.knots (c.cps.length - 1) c.degree u = .ok s)
    (hps : c.degree ≤ s) (hsn : s ≤ c.cps.length - 1) (hlt : kf c.knots s < kf c.knots (s + 1)) :
    c.derivatives eps u m = .ok (vec (m + 1) fun n => c.pieceDer s n u) := by
  have hpos := h.cps_pos
  have hl := h.knots_len
  have hle := h.good.le
  obtain ⟨du, hdu⟩ : ∃ du, du = if m < c.degree then m else c.degree := ⟨_, rfl⟩
  have hdm : du ≤ m := by rw [hdu]; split_ifs <;> omega
  rw [derivatives, lastIndex, subR_eq_ok (by omega), ok_bind, subR_eq_ok (by omega), ok_bind]
  simp only []
  rw [← hdu, show c.knots.length - c.degree - 2 = c.cps.length - 1 by omega, hs, ok_bind,
    Knots.derivativeBasisFunctions_spec hps (by omega)
      (fun i j hi hj hj' => Knots.ne_across h.good.mono hlt i j hi hj (by omega)), ok_bind]
  obtain ⟨l, el, g, eg, hg⟩ := foldlM_range_inv (f := fun ders k =>
      (List.range (c.degree + 1)).foldlM (fun ders j => do
        let off ← subR s c.degree
        let p ← getR c.cps (off + j)
        let b ← get2R (mat (du + 1) (c.degree + 1) fun n r =>
          ((derivative^[n]) (spanPoly (kf c.knots) s c.degree (s - c.degree + r))).eval u) k j
        let col ← getR ders k
        setR ders k (col + b • p)) ders) (n := du + 1) (s := vec (m + 1) fun _ => (0 : V))
    (P := fun t ders => ∃ g, ders = vec (m + 1) g ∧ ∀ n, n ≤ m → g n = if n < t then c.pieceDer s n u else 0)
    ⟨_, rfl, fun n _ => by simp⟩ (by
      rintro k hk _ ⟨g, rfl, hg⟩
      obtain ⟨l, el, g', eg', hg'⟩ := foldlM_range_inv (f := fun ders j => do
          let off ← subR s c.degree
          let p ← getR c.cps (off + j)
          let b ← get2R (mat (du + 1) (c.degree + 1) fun n r =>
            ((derivative^[n]) (spanPoly (kf c.knots) s c.degree (s - c.degree + r))).eval u) k j
          let col ← getR ders k
          setR ders k (col + b • p)) (n := c.degree + 1) (s := vec (m + 1) g)
        (P := fun t ders => ∃ g', ders = vec (m + 1) g' ∧ ∀ n, n ≤ m → g' n = if n = k then
          (Finset.range t).sum (fun r => ((derivative^[k]) (spanPoly (kf c.knots) s c.degree
            (s - c.degree + r))).eval u • c.cps.getD (s - c.degree + r) 0) else g n)
        ⟨g, rfl, fun n hn => by
          split_ifs with e
          · rw [e, hg k (by omega), if_neg (by omega)]; simp
          · rfl⟩ (by
          rintro j hj _ ⟨g', rfl, hg'⟩
          refine ⟨_, by
            rw [subR_eq_ok hps, ok_bind, getR_eq_getD 0 (by omega), ok_bind, get2R_mat hk hj, ok_bind,
              getR_vec (by omega), ok_bind, setR_vec (by omega)], _, rfl, ?_⟩
          intro n hn
          unfold updF
          split_ifs with e
          · rw [hg' k (by omega), if_pos rfl, Finset.sum_range_succ]
          · rw [hg' n hn, if_neg e])
      refine ⟨l, el, g', eg', ?_⟩
      intro n hn
      rw [hg' n hn]
      by_cases e : n = k
      · rw [if_pos e, if_pos (by omega), e]; rfl
      · rw [if_neg e, hg n hn]
        by_cases e2 : n < k
        · rw [if_pos e2, if_pos (by omega)]
        · rw [if_neg e2, if_neg (by omega)])
  rw [vec_replicate, el, eg]
  congr 1
  apply vec_congr
  intro n hn
  rw [hg n (by omega)]
  split_ifs with e
  · rfl
  · rw [pieceDer_high]
    rw [hdu] at e; split_ifs at e <;> omega

end homogeneous

variable [AddCommGroup W] [Module K W]

/-- The rational loop solves the Leibniz equations. -/
theorem rationalGo_spec {m : ℕ} {A : ℕ → W} {w : ℕ → K} (h0 : w 0 ≠ 0) :
    ∃ Q : ℕ → W, rationalGo (vec (m + 1) A) (vec (m + 1) w) m = .ok (vec (m + 1) Q) ∧
      ∀ k, k ≤ m → (Finset.range (k + 1)).sum (fun i => (k.choose i : K) • w i • Q (k - i)) = A k := by
  obtain ⟨l, el, Q, eQ, hQ⟩ := foldlM_range_inv (f := fun ck k => do
      let v ← getR (vec (m + 1) A) k
      let v ← ((List.range k).map (· + 1)).foldlM (fun v i => do
        let w ← getR (vec (m + 1) w) i
        let o ← subR k i
        let x ← getR ck o
        pure (v - (binomGet k i * w) • x)) v
      let w0 ← getR (vec (m + 1) w) 0
      let d ← divV v w0
      pure (ck ++ [d])) (n := m + 1) (s := [])
    (P := fun t ck => ∃ Q : ℕ → W, ck = vec t Q ∧
      ∀ k, k < t → (Finset.range (k + 1)).sum (fun i => (k.choose i : K) • w i • Q (k - i)) = A k)
    ⟨fun _ => 0, rfl, fun k hk => absurd hk (by omega)⟩ (by
      rintro k hk _ ⟨Q, rfl, hQ⟩
      have e1 : ((List.range k).map (· + 1)).foldlM (fun v i => do
          let w ← getR (vec (m + 1) w) i
          let o ← subR k i
          let x ← getR (vec k Q) o
          pure (v - (binomGet k i * w) • x)) (A k) =
          .ok (A k + (Finset.range k).sum fun i => -(((k.choose (i + 1) : K) * w (i + 1)) • Q (k - (i + 1)))) := by
        apply foldlM_add_range
        intro acc i hi
        rw [getR_vec (by omega), ok_bind, subR_eq_ok (by omega), ok_bind, getR_vec (by omega), ok_bind, binomGet_eq,
          sub_eq_add_neg]
        rfl
      obtain ⟨d, hd⟩ : ∃ d, d = (w 0)⁻¹ • (A k + (Finset.range k).sum fun i =>
        -(((k.choose (i + 1) : K) * w (i + 1)) • Q (k - (i + 1)))) := ⟨_, rfl⟩
      refine ⟨vec k Q ++ [d], ?_, updF Q k d, ?_, ?_⟩
      · rw [getR_vec hk, ok_bind, e1, ok_bind, getR_vec (by omega), ok_bind, divV, if_neg h0, ok_bind, hd]
        rfl
      · rw [vec_succ]
        congr 1
        · apply vec_congr; intro i hi; simp [updF, hi.ne]
        · simp [updF]
      · intro k' hk'
        rcases Nat.lt_or_ge k' k with h | h
        · rw [← hQ k' h]
          apply Finset.sum_congr rfl
          intro i _
          rw [updF, if_neg (by omega)]
        · obtain rfl : k' = k := by omega
          rw [Finset.sum_range_succ']
          have e2 : ((Finset.range k').sum fun i => ((k'.choose (i + 1) : ℕ) : K) • w (i + 1) • updF Q k' d (k' - (i + 1))) =
              (Finset.range k').sum fun i => ((k'.choose (i + 1) : K) * w (i + 1)) • Q (k' - (i + 1)) := by
            apply Finset.sum_congr rfl
            intro i hi
            have := Finset.mem_range.1 hi
            rw [updF, if_neg (by omega), mul_smul]
          rw [e2, Finset.sum_neg_distrib] at *
          simp only [Nat.choose_zero_right, Nat.cast_one, one_smul, Nat.sub_zero]
          rw [updF, if_pos rfl, hd, smul_inv_smul₀ h0]
          abel)
  refine ⟨Q, ?_, fun k hk => hQ k (by omega)⟩
  rw [rationalGo, el, eQ]

/-- The Leibniz equations have one solution. -/
theorem leibniz_unique {w : ℕ → K} (h0 : w 0 ≠ 0) {Q R : ℕ → W} {m : ℕ}
    (h : ∀ k, k ≤ m → (Finset.range (k + 1)).sum (fun i => (k.choose i : K) • w i • Q (k - i)) =
      (Finset.range (k + 1)).sum (fun i => (k.choose i : K) • w i • R (k - i))) : ∀ k, k ≤ m → Q k = R k := by
  intro k
  induction k using Nat.strong_induction_on with
  | _ k ih =>
    intro hk
    have := h k hk
    rw [Finset.sum_range_succ', Finset.sum_range_succ'] at this
    have e : ((Finset.range k).sum fun i => ((k.choose (i + 1) : ℕ) : K) • w (i + 1) • Q (k - (i + 1))) =
        (Finset.range k).sum fun i => ((k.choose (i + 1) : ℕ) : K) • w (i + 1) • R (k - (i + 1)) := by
      apply Finset.sum_congr rfl
      intro i hi
      have := Finset.mem_range.1 hi
      rw [ih (k - (i + 1)) (by omega) (by omega)]
    rw [e] at this
    have := add_left_cancel this
    simp only [Nat.choose_zero_right, Nat.cast_one, one_smul, Nat.sub_zero] at this
    exact smul_right_injective W h0 this

end Curve

end Curvo

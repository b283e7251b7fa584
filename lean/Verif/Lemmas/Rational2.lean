/-
  The loops of the rational surface derivatives.
-/
import Verif.Lemmas.Rational

set_option linter.unusedSectionVars false

namespace Curvo

open Curvo.Spec Polynomial

theorem get2R_jag {α : Type} {n i j : ℕ} {len : ℕ → ℕ} {f : ℕ → ℕ → α} (h : i < n) (h' : j < len i) :
    get2R (vec n fun i => vec (len i) (f i)) i j = .ok (f i j) := by
  rw [get2R, getR_vec h, ok_bind, getR_vec h']

theorem mat_map {α β : Type} (n m : ℕ) (f : ℕ → ℕ → α) (g : α → β) :
    (mat n m f).map (·.map g) = mat n m fun i j => g (f i j) := by
  simp [mat, vec]

namespace Surface

variable {K V W : Type} [Field K] [LinearOrder K]

section rational
variable [AddCommGroup W] [Module K W]

/-- The two-variable Leibniz sum of order `(k, l)`. -/
def leib (w : ℕ → ℕ → K) (Q : ℕ → ℕ → W) (k l : ℕ) : W :=
  (Finset.range (k + 1)).sum fun i => (Finset.range (l + 1)).sum fun j =>
    ((k.choose i : K) * (l.choose j : K) * w i j) • Q (k - i) (l - j)

/-- The terms of the Leibniz sum other than the leading one. -/
def leibRest (w : ℕ → ℕ → K) (Q : ℕ → ℕ → W) (k l : ℕ) : W :=
  ((Finset.range l).sum fun j => ((l.choose (j + 1) : K) * w 0 (j + 1)) • Q k (l - (j + 1))) +
  (Finset.range k).sum fun i => ((k.choose (i + 1) : K) * w (i + 1) 0) • Q (k - (i + 1)) l +
    (k.choose (i + 1) : K) • (Finset.range l).sum fun j =>
      w (i + 1) (j + 1) • (l.choose (j + 1) : K) • Q (k - (i + 1)) (l - (j + 1))

theorem leib_eq (w : ℕ → ℕ → K) (Q : ℕ → ℕ → W) (k l : ℕ) : leib w Q k l = w 0 0 • Q k l + leibRest w Q k l := by
  unfold leib leibRest
  rw [Finset.sum_range_succ', Finset.sum_range_succ']
  simp only [Nat.choose_zero_right, Nat.cast_one, one_mul, Nat.sub_zero]
  have e : ∀ i, ((Finset.range (l + 1)).sum fun j =>
      ((k.choose (i + 1) : K) * (l.choose j : K) * w (i + 1) j) • Q (k - (i + 1)) (l - j)) =
      ((k.choose (i + 1) : K) * w (i + 1) 0) • Q (k - (i + 1)) l +
    (k.choose (i + 1) : K) • (Finset.range l).sum fun j =>
      w (i + 1) (j + 1) • (l.choose (j + 1) : K) • Q (k - (i + 1)) (l - (j + 1)) := by
    intro i
    rw [Finset.sum_range_succ', add_comm]
    simp only [Nat.choose_zero_right, Nat.cast_one, mul_one, Nat.sub_zero]
    congr 1
    rw [Finset.smul_sum]
    apply Finset.sum_congr rfl
    intro j _
    rw [smul_smul, smul_smul]
    congr 1; ring
  simp only [e]
  abel

theorem leibRest_congr {w : ℕ → ℕ → K} {Q R : ℕ → ℕ → W} {k l : ℕ}
    (h : ∀ k' l', k' ≤ k → l' ≤ l → k' + l' < k + l → Q k' l' = R k' l') : leibRest w Q k l = leibRest w R k l := by
  unfold leibRest
  congr 1
  · apply Finset.sum_congr rfl
    intro j hj
    have := Finset.mem_range.1 hj
    rw [h _ _ (by omega) (by omega) (by omega)]
  · apply Finset.sum_congr rfl
    intro i hi
    have := Finset.mem_range.1 hi
    rw [h _ _ (by omega) (by omega) (by omega)]
    congr 2
    apply Finset.sum_congr rfl
    intro j hj
    have := Finset.mem_range.1 hj
    rw [h _ _ (by omega) (by omega) (by omega)]

/-- The two-variable Leibniz equations have one solution. -/
theorem leib_unique {w : ℕ → ℕ → K} (h0 : w 0 0 ≠ 0) {Q R : ℕ → ℕ → W} {m : ℕ}
    (h : ∀ k l, k + l ≤ m → leib w Q k l = leib w R k l) : ∀ k l, k + l ≤ m → Q k l = R k l := by
  suffices H : ∀ n, n ≤ m → ∀ k l, k + l = n → Q k l = R k l from fun k l hkl => H _ hkl k l rfl
  intro n
  induction n using Nat.strong_induction_on with
  | _ n ih =>
    intro hn k l hkl
    have := h k l (by omega)
    rw [leib_eq, leib_eq, leibRest_congr (R := R) (fun k' l' _ _ h => ih (k' + l') (by omega) (by omega) k' l' rfl)] at this
    exact smul_right_injective W h0 (add_right_cancel this)

theorem rationalEntry_spec {m k l : ℕ} {A : ℕ → ℕ → W} {w : ℕ → ℕ → K} {Q : ℕ → ℕ → W} (h0 : w 0 0 ≠ 0)
    (hkl : k + l ≤ m) :
    rationalEntry (mat (m + 1) (m + 1) A) (mat (m + 1) (m + 1) w) (vec k fun k' => vec (m - k' + 1) (Q k'))
      (vec l (Q k)) k l = .ok ((w 0 0)⁻¹ • (A k l - leibRest w Q k l)) := by
  have e1 : ((List.range l).map (· + 1)).foldlM (fun v j => do
      let wj ← get2R (mat (m + 1) (m + 1) w) 0 j
      let o ← subR l j
      let x ← getR (vec l (Q k)) o
      pure (v - (binomGet l j * wj) • x)) (A k l) =
      .ok (A k l + (Finset.range l).sum fun j => -(((l.choose (j + 1) : K) * w 0 (j + 1)) • Q k (l - (j + 1)))) := by
    apply foldlM_add_range
    intro acc j hj
    rw [get2R_mat (by omega) (by omega), ok_bind, subR_eq_ok (by omega), ok_bind, getR_vec (by omega), ok_bind,
      binomGet_eq, sub_eq_add_neg]
    rfl
  have e2 : ∀ v0 : W, ((List.range k).map (· + 1)).foldlM (fun v i => do
      let wi ← get2R (mat (m + 1) (m + 1) w) i 0
      let o ← subR k i
      let x ← get2R (vec k fun k' => vec (m - k' + 1) (Q k')) o l
      let v := v - (binomGet k i * wi) • x
      let v2 ← ((List.range l).map (· + 1)).foldlM (fun v2 j => do
        let o ← subR k i
        let o' ← subR l j
        let x ← get2R (vec k fun k' => vec (m - k' + 1) (Q k')) o o'
        let wij ← get2R (mat (m + 1) (m + 1) w) i j
        pure (v2 + wij • ((binomGet l j : K) • x))) 0
      pure (v - (binomGet k i : K) • v2)) v0 =
      .ok (v0 + (Finset.range k).sum fun i => -(((k.choose (i + 1) : K) * w (i + 1) 0) • Q (k - (i + 1)) l +
        (k.choose (i + 1) : K) • (Finset.range l).sum fun j =>
          w (i + 1) (j + 1) • (l.choose (j + 1) : K) • Q (k - (i + 1)) (l - (j + 1)))) := by
    intro v0
    apply foldlM_add_range
    intro acc i hi
    have e3 : ((List.range l).map (· + 1)).foldlM (fun v2 j => do
        let o ← subR k (i + 1)
        let o' ← subR l j
        let x ← get2R (vec k fun k' => vec (m - k' + 1) (Q k')) o o'
        let wij ← get2R (mat (m + 1) (m + 1) w) (i + 1) j
        pure (v2 + wij • ((binomGet l j : K) • x))) 0 =
        .ok (0 + (Finset.range l).sum fun j =>
          w (i + 1) (j + 1) • (l.choose (j + 1) : K) • Q (k - (i + 1)) (l - (j + 1))) := by
      apply foldlM_add_range
      intro acc j hj
      rw [subR_eq_ok (by omega), ok_bind, subR_eq_ok (by omega), ok_bind, get2R_jag (by omega) (by omega), ok_bind,
        get2R_mat (by omega) (by omega), ok_bind, binomGet_eq]
      rfl
    rw [get2R_mat (by omega) (by omega), ok_bind, subR_eq_ok (by omega), ok_bind, get2R_jag (by omega) (by omega),
      ok_bind]
    simp only [] at e3 ⊢
    rw [subR_eq_ok (by omega)] at e3
    simp only [ok_bind] at e3 ⊢
    rw [e3, ok_bind, zero_add, binomGet_eq, pure_eq_ok]
    congr 1
    abel
  rw [rationalEntry, get2R_mat (by omega) (by omega), ok_bind, e1, ok_bind, e2, ok_bind, get2R_mat (by omega) (by omega),
    ok_bind, divV, if_neg h0]
  unfold leibRest
  congr 2
  rw [Finset.sum_neg_distrib, Finset.sum_neg_distrib]
  abel

/-- The rational table solves the two-variable Leibniz equations. -/
theorem rationalTable_spec {m : ℕ} {F : ℕ → ℕ → W × K} (h0 : (F 0 0).2 ≠ 0) :
    ∃ Q : ℕ → ℕ → W, rationalTable (mat (m + 1) (m + 1) F) m = .ok (vec (m + 1) fun k => vec (m - k + 1) (Q k)) ∧
      ∀ k l, k + l ≤ m → leib (fun i j => (F i j).2) Q k l = (F k l).1 := by
  obtain ⟨st, est, Q, eQ, hQ⟩ := foldlM_range_inv (f := fun skl k => do
      let d ← subR m k
      let row ← (List.range (d + 1)).foldlM (fun row l => do
        let v ← rationalEntry ((mat (m + 1) (m + 1) F).map (·.map Prod.fst)) ((mat (m + 1) (m + 1) F).map (·.map Prod.snd))
          skl row k l
        pure (row ++ [v])) []
      pure (skl ++ [row])) (n := m + 1) (s := [])
    (P := fun t skl => ∃ Q : ℕ → ℕ → W, skl = vec t (fun k => vec (m - k + 1) (Q k)) ∧
      ∀ k l, k < t → k + l ≤ m → leib (fun i j => (F i j).2) Q k l = (F k l).1)
    ⟨fun _ _ => 0, rfl, fun k l hk => absurd hk (by omega)⟩ (by
      rintro k hk _ ⟨Q, rfl, hQ⟩
      obtain ⟨row, erow, q, eq, hq⟩ := foldlM_range_inv (f := fun row l => do
          let v ← rationalEntry (mat (m + 1) (m + 1) fun i j => (F i j).1) (mat (m + 1) (m + 1) fun i j => (F i j).2)
            (vec k fun k' => vec (m - k' + 1) (Q k')) row k l
          pure (row ++ [v])) (n := m - k + 1) (s := [])
        (P := fun t row => ∃ q : ℕ → W, row = vec t q ∧
          ∀ l, l < t → leib (fun i j => (F i j).2) (fun a b => if a = k then q b else Q a b) k l = (F k l).1)
        ⟨fun _ => 0, rfl, fun l hl => absurd hl (by omega)⟩ (by
          rintro l hl _ ⟨q, rfl, hq⟩
          obtain ⟨R, hR⟩ : ∃ R : ℕ → ℕ → W, R = fun a b => if a = k then q b else Q a b := ⟨_, rfl⟩
          have r1 : vec l q = vec l (R k) := by apply vec_congr; intro i _; simp [hR]
          have r2 : (vec k fun k' => vec (m - k' + 1) (Q k')) = vec k fun k' => vec (m - k' + 1) (R k') := by
            apply vec_congr; intro i hi; apply vec_congr; intro j _; simp [hR, hi.ne]
          have ee := rationalEntry_spec (m := m) (k := k) (l := l) (A := fun i j => (F i j).1) (w := fun i j => (F i j).2)
            (Q := R) h0 (by omega)
          obtain ⟨v, hv⟩ : ∃ v, v = ((F 0 0).2)⁻¹ • ((F k l).1 - leibRest (fun i j => (F i j).2) R k l) := ⟨_, rfl⟩
          refine ⟨vec l q ++ [v], ?_, updF q l v, ?_, ?_⟩
          · rw [r1, r2, ee, ok_bind, hv]; rfl
          · rw [vec_succ]
            congr 1
            · apply vec_congr; intro i hi; simp [updF, hi.ne]
            · simp [updF]
          · intro l' hl'
            rcases Nat.lt_or_ge l' l with h | h
            · rw [← hq l' h, leib_eq, leib_eq]
              congr 1
              · simp [updF, h.ne]
              · apply leibRest_congr
                intro a b _ hb _
                by_cases e : a = k
                · simp only [if_pos e]; rw [updF, if_neg (by omega)]
                · simp only [if_neg e]
            · obtain rfl : l' = l := by omega
              rw [leib_eq, leibRest_congr (R := R)]
              · simp only [if_true]
                rw [updF, if_pos rfl, hv, smul_inv_smul₀ h0]; abel
              · intro a b ha hb hab
                rw [hR]
                by_cases e : a = k
                · simp only [if_pos e]; rw [updF, if_neg (by omega)]
                · simp only [if_neg e])
      refine ⟨(vec k fun k => vec (m - k + 1) (Q k)) ++ [vec (m - k + 1) q], ?_,
        fun a b => if a = k then q b else Q a b, ?_, ?_⟩
      · rw [mat_map, mat_map, subR_eq_ok (by omega), ok_bind, erow, ok_bind, eq]; rfl
      · rw [vec_succ k]
        congr 1
        · apply vec_congr; intro i hi; apply vec_congr; intro j _; simp [hi.ne]
        · simp
      · intro k' l hk' hl
        rcases Nat.lt_or_ge k' k with h | h
        · rw [← hQ k' l h hl, leib_eq, leib_eq]
          congr 1
          · simp only [if_neg h.ne]
          · apply leibRest_congr
            intro a b ha _ _
            rw [if_neg (by omega)]
        · obtain rfl : k' = k := by omega
          exact hq l (by omega))
  refine ⟨Q, ?_, fun k l h => hQ k l (by omega) h⟩
  rw [rationalTable, est, eQ]

end rational

end Surface

end Curvo

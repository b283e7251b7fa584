/-
  Lemmas for degree elevation: the coefficients, one Bezier segment, and the main loop on chains of Bezier segments.
-/
import Verif.Model.Elevate
import Verif.Lemmas.Mat
import Verif.Lemmas.Rational
import Mathlib.Tactic.FieldSimp
import Mathlib.Tactic.Linarith

set_option linter.unusedSectionVars false

namespace Curvo.Curve

open Curvo

variable {K : Type} [Field K] [LinearOrder K] [IsStrictOrderedRing K] {V : Type} [AddCommGroup V] [Module K V]

theorem foldlM_range_two {σ : Type} (f : σ → ℕ → Res σ) (s : σ) :
    (List.range 2).foldlM f s = (f s 0 >>= fun s => f s 1) := by
  rw [show List.range 2 = [0, 1] from rfl, List.foldlM_cons]
  congr 1
  funext s'
  rw [List.foldlM_cons]
  cases f s' 1 <;> rfl

theorem foldlM_range_one {σ : Type} (f : σ → ℕ → Res σ) (s : σ) : (List.range 1).foldlM f s = f s 0 := by
  rw [show List.range 1 = [0] from rfl, List.foldlM_cons]
  cases f s 0 <;> rfl

/-- The two coefficients of row `i`. -/
def CoeffRow (p : ℕ) (f : ℕ → ℕ → K) (i : ℕ) : Prop :=
  f i (i - 1) = (i : K) / (p + 1) ∧ f i i = 1 - (i : K) / (p + 1)

theorem choose_low {p i : ℕ} (hi : i ≤ p) :
    ((p.choose i : K)) / ((p + 1).choose (i + 1) : K) = ((i + 1 : ℕ) : K) / (p + 1) := by
  have h := Nat.add_one_mul_choose_eq p i
  have hp : ((p : K) + 1) ≠ 0 := by positivity
  have hc : (((p + 1).choose (i + 1) : ℕ) : K) ≠ 0 := by
    have := Nat.choose_pos (show i + 1 ≤ p + 1 by omega)
    exact_mod_cast this.ne'
  rw [div_eq_div_iff hc hp]
  have h' : (((p + 1) * p.choose i : ℕ) : K) = (((p + 1).choose (i + 1) * (i + 1) : ℕ) : K) := by rw [h]
  push_cast at h' ⊢
  linarith

theorem choose_high {p i : ℕ} (hi : i ≤ p) :
    ((p.choose (i + 1) : K)) / ((p + 1).choose (i + 1) : K) = 1 - ((i + 1 : ℕ) : K) / (p + 1) := by
  have hc : (((p + 1).choose (i + 1) : ℕ) : K) ≠ 0 := by
    have := Nat.choose_pos (show i + 1 ≤ p + 1 by omega)
    exact_mod_cast this.ne'
  rw [← choose_low hi, eq_sub_iff_add_eq, ← add_div, div_eq_one_iff_eq hc, add_comm]
  exact_mod_cast (Nat.choose_succ_succ p i).symm

theorem elevCoeffs_one {p : ℕ} (hp : 1 ≤ p) :
    ∃ f, (elevCoeffs p 1 : Res (List (List K))) = .ok (mat (p + 2) (p + 1) f) ∧ f (p + 1) p = 1 ∧
      ∀ i, 1 ≤ i → i ≤ p → CoeffRow p f i := by
  obtain ⟨z1, e1, f, rfl, hf1, hf2⟩ := foldlM_inv (n := (p + 1) / 2) (g := (· + 1))
    (f := fun (z : List (List K)) i => do
      let inv ← divR 1 (binomGet (p + 1) i)
      let lo ← subR i 1
      (List.range (min p i + 1 - lo)).foldlM (fun z d => do
        let j := lo + d
        let ij ← subR i j
        set2R z i j (inv * binomGet p j * binomGet 1 ij)) z)
    (P := fun t z => ∃ f, z = mat (p + 2) (p + 1) f ∧ f (p + 1) p = 1 ∧ ∀ i, 1 ≤ i → i ≤ t → CoeffRow p f i)
    (s := mat (p + 2) (p + 1) (updF2 (updF2 (fun _ _ => (0 : K)) 0 0 1) (p + 1) p 1))
    ⟨_, rfl, by simp [updF2], fun i h1 h2 => by omega⟩
    (by
      rintro t ht _ ⟨f, rfl, hf1, hf2⟩
      have hc : (((p + 1).choose (t + 1) : ℕ) : K) ≠ 0 := by
        have := Nat.choose_pos (show t + 1 ≤ p + 1 by omega)
        exact_mod_cast this.ne'
      refine ⟨mat (p + 2) (p + 1) (updF2 (updF2 f (t + 1) t (1 / ((p + 1).choose (t + 1) : K) * (p.choose t : K) * 1))
        (t + 1) (t + 1) (1 / ((p + 1).choose (t + 1) : K) * (p.choose (t + 1) : K) * 1)), ?_, _, rfl, ?_, ?_⟩
      · simp only [binomGet_eq]
        rw [divR_eq_ok hc, ok_bind, subR_eq_ok (by omega), ok_bind,
          show min p (t + 1) + 1 - (t + 1 - 1) = 2 by omega, foldlM_range_two]
        simp only [Nat.add_sub_cancel, Nat.add_zero]
        rw [subR_eq_ok (by omega), ok_bind, set2R_mat (by omega) (by omega), ok_bind, subR_eq_ok (by omega), ok_bind,
          set2R_mat (by omega) (by omega)]
        simp
      · simp only [updF2]
        rw [if_neg (by omega), if_neg (by omega)]
        exact hf1
      · intro i h1 h2
        by_cases hi : i = t + 1
        · subst hi
          refine ⟨?_, ?_⟩
          · simp only [updF2, Nat.add_sub_cancel]
            rw [if_neg (by omega), if_pos ⟨trivial, trivial⟩, ← choose_low (show t ≤ p by omega)]
            ring
          · simp only [updF2]
            rw [if_pos ⟨trivial, trivial⟩, ← choose_high (show t ≤ p by omega)]
            ring
        · obtain ⟨a1, a2⟩ := hf2 i h1 (by omega)
          refine ⟨?_, ?_⟩
          · simp only [updF2]; rw [if_neg (by omega), if_neg (by omega)]; exact a1
          · simp only [updF2]; rw [if_neg (by omega), if_neg (by omega)]; exact a2)
  obtain ⟨z2, e2, g, rfl, hg1, hg2⟩ := foldlM_range_inv (n := p + 1 - ((p + 1) / 2 + 1))
    (f := fun (z : List (List K)) d => do
      let i := (p + 1) / 2 + 1 + d
      let lo ← subR i 1
      (List.range (min p i + 1 - lo)).foldlM (fun z d => do
        let j := lo + d
        let x ← get2R z (p + 1 - i) (p - j)
        set2R z i j x) z)
    (P := fun t z => ∃ f, z = mat (p + 2) (p + 1) f ∧ f (p + 1) p = 1 ∧
      ∀ i, 1 ≤ i → i ≤ (p + 1) / 2 + t → CoeffRow p f i)
    (s := mat (p + 2) (p + 1) f) ⟨_, rfl, hf1, fun i h1 h2 => hf2 i h1 (by omega)⟩
    (by
      rintro t ht _ ⟨f, rfl, hf1, hf2⟩
      obtain ⟨i, hi⟩ : ∃ i, (p + 1) / 2 + 1 + t = i + 1 := ⟨(p + 1) / 2 + t, by omega⟩
      have hip : i + 1 ≤ p := by omega
      obtain ⟨b1, b2⟩ := hf2 (p - i) (by omega) (by omega)
      refine ⟨mat (p + 2) (p + 1) (updF2 (updF2 f (i + 1) i (f (p - i) (p - i))) (i + 1) (i + 1)
        (f (p - i) (p - (i + 1)))), ?_, _, rfl, ?_, ?_⟩
      · simp only [hi]
        rw [subR_eq_ok (by omega), ok_bind, show min p (i + 1) + 1 - (i + 1 - 1) = 2 by omega, foldlM_range_two]
        simp only [Nat.add_sub_cancel, Nat.add_zero]
        rw [get2R_mat (by omega) (by omega), ok_bind, set2R_mat (by omega) (by omega), ok_bind,
          get2R_mat (by omega) (by omega), ok_bind, set2R_mat (by omega) (by omega),
          show p + 1 - (i + 1) = p - i by omega]
        congr 2
        unfold updF2
        rw [if_neg (by omega)]
      · simp only [updF2]
        rw [if_neg (by omega), if_neg (by omega)]
        exact hf1
      · have hcast : ((p - i : ℕ) : K) = (p : K) - i := by rw [Nat.cast_sub (by omega)]
        have hp0 : ((p : K) + 1) ≠ 0 := by positivity
        intro j h1 h2
        by_cases hj : j = i + 1
        · subst hj
          refine ⟨?_, ?_⟩
          · simp only [updF2, Nat.add_sub_cancel]
            rw [if_neg (by omega), if_pos ⟨trivial, trivial⟩, b2, hcast]
            push_cast; field_simp; ring
          · simp only [updF2]
            rw [if_pos ⟨trivial, trivial⟩, show p - (i + 1) = p - i - 1 by omega, b1, hcast]
            push_cast; field_simp; ring
        · obtain ⟨a1, a2⟩ := hf2 j h1 (by omega)
          refine ⟨?_, ?_⟩
          · simp only [updF2]; rw [if_neg (by omega), if_neg (by omega)]; exact a1
          · simp only [updF2]; rw [if_neg (by omega), if_neg (by omega)]; exact a2)
  refine ⟨g, ?_, hg1, fun i h1 h2 => hg2 i h1 (by omega)⟩
  rw [elevCoeffs]
  simp only []
  rw [mat_replicate, set2R_mat (by omega) (by omega), ok_bind, set2R_mat (by omega) (by omega), ok_bind, e1, ok_bind]
  exact e2

/-- Control point `i` of the elevated segment. -/
def elevPt (p : ℕ) (b : ℕ → V) (i : ℕ) : V :=
  ((i : K) / (p + 1)) • b (i - 1) + (1 - (i : K) / (p + 1)) • b i

theorem elevSegment_one {p N : ℕ} (hp : 1 ≤ p) (hN : p + 2 ≤ N) {f : ℕ → ℕ → K} (hf1 : f (p + 1) p = 1)
    (hf2 : ∀ i, 1 ≤ i → i ≤ p → CoeffRow p f i) (b e : ℕ → V) :
    ∃ e', elevSegment p 1 (mat (p + 2) (p + 1) f) 1 (vec N b) (vec N e) = .ok (vec N e') ∧
      ∀ i, 1 ≤ i → i ≤ p + 1 → e' i = elevPt (K := K) p b i := by
  have hp0 : ((p : K) + 1) ≠ 0 := by positivity
  obtain ⟨z, e1, e', rfl, h⟩ := foldlM_range_inv (n := p + 1 + 1 - 1)
    (f := fun (ebpts : List V) d => do
      let i := 1 + d
      let ebpts ← setR ebpts i 0
      let lo ← subR i 1
      (List.range (min p i + 1 - lo)).foldlM (fun ebpts d => do
        let j := lo + d
        let e ← getR ebpts i
        let x ← getR (vec N b) j
        let w ← get2R (mat (p + 2) (p + 1) f) i j
        setR ebpts i (e + w • x)) ebpts)
    (P := fun t z => ∃ e', z = vec N e' ∧ ∀ i, 1 ≤ i → i ≤ t → e' i = elevPt (K := K) p b i)
    (s := vec N e) ⟨e, rfl, fun i h1 h2 => by omega⟩
    (by
      rintro t ht _ ⟨e', rfl, h⟩
      simp only [Nat.add_comm 1 t, Nat.add_sub_cancel]
      rw [setR_vec (by omega), ok_bind, subR_eq_ok (by omega), ok_bind]
      simp only [Nat.add_sub_cancel]
      by_cases htp : t + 1 ≤ p
      · obtain ⟨c1, c2⟩ := hf2 (t + 1) (by omega) htp
        rw [Nat.add_sub_cancel] at c1
        rw [show min p (t + 1) + 1 - t = 2 by omega, foldlM_range_two]
        simp only [Nat.add_zero]
        rw [getR_vec (by omega), ok_bind, getR_vec (by omega), ok_bind, get2R_mat (by omega) (by omega), ok_bind,
          setR_vec (by omega), ok_bind, getR_vec (by omega), ok_bind, getR_vec (by omega), ok_bind,
          get2R_mat (by omega) (by omega), ok_bind, setR_vec (by omega)]
        refine ⟨_, rfl, _, rfl, fun i h1 h2 => ?_⟩
        simp only [updF]
        by_cases hi : i = t + 1
        · subst hi
          simp only [if_true, zero_add, elevPt, Nat.add_sub_cancel, c1, c2]
        · simp only [if_neg hi]
          exact h i h1 (by omega)
      · have htp' : t = p := by omega
        subst htp'
        rw [show min t (t + 1) + 1 - t = 1 by omega, foldlM_range_one]
        simp only [Nat.add_zero]
        rw [getR_vec (by omega), ok_bind, getR_vec (by omega), ok_bind, get2R_mat (by omega) (by omega), ok_bind,
          setR_vec (by omega)]
        refine ⟨_, rfl, _, rfl, fun i h1 h2 => ?_⟩
        simp only [updF]
        by_cases hi : i = t + 1
        · subst hi
          have hone : ((t + 1 : ℕ) : K) / (t + 1) = 1 := by push_cast; exact div_self hp0
          simp only [if_true, zero_add, elevPt, Nat.add_sub_cancel, hf1, hone, sub_self, zero_smul, add_zero]
        · simp only [if_neg hi]
          exact h i h1 (by omega))
  exact ⟨e', e1, h⟩

theorem elevSkip_spec {knots : List K} {m e : ℕ} (hm : m < knots.length) : ∀ (d fuel b : ℕ), b + d = e → d < fuel → e ≤ m →
    (∀ i, b ≤ i → i < e → knots[i]? = knots[i + 1]?) → (e = m ∨ knots[e]? ≠ knots[e + 1]?) →
    elevSkip knots m fuel b = .ok e := by
  intro d
  induction d with
  | zero =>
    intro fuel b hb hf he _ hne
    obtain ⟨fuel, rfl⟩ : ∃ k, fuel = k + 1 := ⟨fuel - 1, by omega⟩
    have hb : b = e := by omega
    subst hb
    rw [elevSkip]
    by_cases hbm : b < m
    · rw [if_pos hbm, getR_eq_ok (by omega), ok_bind, getR_eq_ok (by omega), ok_bind, if_neg]
      · rfl
      · intro h
        rcases hne with h' | h'
        · omega
        · exact h' (by rw [List.getElem?_eq_getElem (by omega), List.getElem?_eq_getElem (by omega), h])
    · rw [if_neg hbm]; rfl
  | succ d ih =>
    intro fuel b hb hf he heq hne
    obtain ⟨fuel, rfl⟩ : ∃ k, fuel = k + 1 := ⟨fuel - 1, by omega⟩
    have h := heq b le_rfl (by omega)
    rw [List.getElem?_eq_getElem (by omega), List.getElem?_eq_getElem (by omega)] at h
    rw [elevSkip, if_pos (by omega), getR_eq_ok (by omega), ok_bind, getR_eq_ok (by omega), ok_bind,
      if_pos (Option.some.inj h)]
    exact ih fuel (b + 1) (by omega) (by omega) he (fun i h1 h2 => heq i (by omega) h2) hne

/-- Writing `n` values from position `c` on. -/
theorem foldWrite {α : Type} {N : ℕ} {g : ℕ → Res α} {v : ℕ → α} (f : ℕ → α) (c : ℕ) : ∀ n, (∀ d, d < n → g d = .ok (v d)) →
    (List.range n).foldlM (fun (st : List α × ℕ) d => do
      let x ← g d
      let l ← setR st.1 st.2 x
      pure (l, st.2 + 1)) (vec N f, c) =
    if n = 0 ∨ c + n ≤ N then .ok (vec N (fun i => if c ≤ i ∧ i < c + n then v (i - c) else f i), c + n)
    else .error .panic := by
  intro n
  induction n with
  | zero =>
    intro _
    rw [if_pos (.inl rfl)]
    have : (fun i => if c ≤ i ∧ i < c + 0 then v (i - c) else f i) = f := by
      funext i; rw [if_neg (by omega)]
    rw [this]; rfl
  | succ n ih =>
    intro hg
    rw [List.range_succ, List.foldlM_append, ih fun d hd => hg d (by omega)]
    by_cases h : n = 0 ∨ c + n ≤ N
    · rw [if_pos h, ok_bind, List.foldlM_cons, hg n (by omega), ok_bind]
      by_cases h' : c + n < N
      · rw [setR_vec h', ok_bind, if_pos (.inr (by omega))]
        show Except.ok _ = _
        congr 2
        · apply vec_congr
          intro i hi
          simp only [updF]
          by_cases hin : i = c + n
          · subst hin
            rw [if_pos rfl, if_pos (by omega), Nat.add_sub_cancel_left]
          · rw [if_neg hin]
            by_cases h2 : c ≤ i ∧ i < c + n
            · rw [if_pos h2, if_pos (by omega)]
            · rw [if_neg h2, if_neg (by omega)]
      · rw [if_neg (by omega), setR, if_neg (by simpa using h')]
        rfl
    · rw [if_neg h, if_neg (by omega)]
      rfl

end Curvo.Curve

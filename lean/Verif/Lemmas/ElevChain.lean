/-
  Degree elevation of chains of Bezier segments by one.
-/
import Verif.Lemmas.Elevate

set_option linter.unusedSectionVars false

namespace Curvo.Curve

open Curvo

variable {K : Type} [Field K] [LinearOrder K] [IsStrictOrderedRing K] {V : Type} [AddCommGroup V] [Module K V]

/-- The knots of a chain of `s` Bezier segments of degree `p` with breakpoints `u 0, …, u s`: the inner breakpoints `p`
    times, the ends `p + 1` times. -/
def chainKnots (p s : ℕ) (u : ℕ → K) : List K := vec (s * p + p + 2) fun i => u (min s ((i - 1) / p))

/-- The chain with control points `P`. -/
def chain (p s : ℕ) (u : ℕ → K) (P : ℕ → V) : Curve K V := ⟨p, vec (s * p + 1) P, chainKnots p s u⟩

/-- Control point `i` of the elevated chain. -/
def chainElev (p : ℕ) (P : ℕ → V) (i : ℕ) : V :=
  elevPt (K := K) p (fun k => P (i / (p + 1) * p + k)) (i % (p + 1))

theorem foldWrite' {α : Type} {N : ℕ} {v : α} (f : ℕ → α) (c n : ℕ) (h : c + n ≤ N) :
    (List.range n).foldlM (fun (st : List α × ℕ) _ => do
      let l ← setR st.1 st.2 v
      pure (l, st.2 + 1)) (vec N f, c) =
    .ok (vec N (fun i => if c ≤ i ∧ i < c + n then v else f i), c + n) := by
  have := foldWrite (N := N) (g := fun _ => .ok v) (v := fun _ => v) f c n (fun _ _ => rfl)
  rw [if_pos (.inr h)] at this
  exact this

theorem foldSet {α : Type} {N : ℕ} {g : ℕ → Res α} {v : ℕ → α} (f : ℕ → α) (c n : ℕ) (h : c + n ≤ N)
    (hg : ∀ d, d < n → g d = .ok (v d)) :
    (List.range n).foldlM (fun (st : List α) d => do
      let x ← g d
      setR st (c + d) x) (vec N f) =
    .ok (vec N (fun i => if c ≤ i ∧ i < c + n then v (i - c) else f i)) := by
  obtain ⟨s, e, hs⟩ := foldlM_range_inv (n := n) (s := vec N f)
    (f := fun (st : List α) d => do
      let x ← g d
      setR st (c + d) x)
    (P := fun t z => z = vec N (fun i => if c ≤ i ∧ i < c + t then v (i - c) else f i))
    (by
      apply vec_congr
      intro i _
      rw [if_neg (by omega)])
    (by
      rintro t ht _ rfl
      rw [hg t ht, ok_bind, setR_vec (by omega)]
      refine ⟨_, rfl, ?_⟩
      apply vec_congr
      intro i hi
      simp only [updF]
      by_cases hin : i = c + t
      · subst hin
        rw [if_pos rfl, if_pos (by omega), Nat.add_sub_cancel_left]
      · rw [if_neg hin]
        by_cases h2 : c ≤ i ∧ i < c + t
        · rw [if_pos h2, if_pos (by omega)]
        · rw [if_neg h2, if_neg (by omega)])
  rw [e, hs]

variable {p s N : ℕ} {u : ℕ → K} {P : ℕ → V}

/-- The state of the main loop before segment `j`. -/
structure ChainInv (p s N : ℕ) (u : ℕ → K) (P : ℕ → V) (j : ℕ) (σ : Elev K V) : Prop where
  bpts : ∃ f, σ.bpts = vec N f ∧ ∀ i, i ≤ p → f i = P (j * p + i)
  ebpts : ∃ f, σ.ebpts = vec N f
  nbpts : ∃ f, σ.nbpts = vec N f
  qw : σ.qw = vec N fun i => if i < j * (p + 1) + 1 then chainElev (K := K) p P i else 0
  uh : σ.uh = vec (N + p + 2) fun i => if i < max j 1 * (p + 1) + 1 then u (min s ((i - 1) / (p + 1))) else 0
  kind : σ.kind = max j 1 * (p + 1) + 1
  cind : σ.cind = j * (p + 1) + 1
  a : σ.a = j * p + p
  b : σ.b = j * p + p + 1
  r : σ.r = if j = 0 then -1 else 0
  ua : σ.ua = u j

theorem chainKnots_get {i : ℕ} (h : i < s * p + p + 2) : (chainKnots p s u)[i]? = some (u (min s ((i - 1) / p))) := by
  rw [chainKnots, vec, List.getElem?_map, List.getElem?_range h]; rfl

theorem mul_add_div' {j p k : ℕ} (h : k < p) : (j * p + k) / p = j := by
  rw [Nat.mul_comm, Nat.mul_add_div (by omega), Nat.div_eq_of_lt h, Nat.add_zero]

theorem chain_skip (hp : 1 ≤ p) (hu : ∀ i, i < s → u i < u (i + 1)) {j : ℕ} (hj : j < s) :
    elevSkip (chainKnots p s u) (s * p + p + 1) (s * p + p + 1 + 1) (j * p + p + 1) =
      .ok (if j + 1 < s then (j + 2) * p else s * p + p + 1) := by
  have hm := Nat.mul_le_mul_right p (show j + 1 ≤ s by omega)
  rw [Nat.add_mul, Nat.one_mul] at hm
  have hx : ∀ i, j * p + p + 1 ≤ i → i ≤ (if j + 1 < s then (j + 2) * p else s * p + p + 1) →
      (chainKnots p s u)[i]? = some (u (j + 1)) := by
    intro i h1 h2
    have hi : i < s * p + p + 2 := by
      split at h2
      · have := Nat.mul_le_mul_right p (show j + 2 ≤ s by omega); omega
      · omega
    rw [chainKnots_get hi]
    congr 2
    have hlow : j + 1 ≤ (i - 1) / p := by
      rw [Nat.le_div_iff_mul_le (by omega), Nat.add_mul]; omega
    split at h2
    · have : (i - 1) / p < j + 2 := by
        rw [Nat.div_lt_iff_lt_mul (by omega)]; omega
      omega
    · omega
  split
  · rename_i hjs
    rw [if_pos hjs] at hx
    have h2 := Nat.mul_le_mul_right p (show j + 2 ≤ s by omega)
    have h3 : (j + 2) * p = j * p + 2 * p := by ring
    refine elevSkip_spec (e := (j + 2) * p) (by simp [chainKnots]) (p - 1) _ _ (by omega) (by omega) (by omega) ?_ ?_
    · intro i h1 h2
      rw [hx i h1 (by omega), hx (i + 1) (by omega) (by omega)]
    · right
      rw [hx ((j + 2) * p) (by omega) le_rfl, chainKnots_get (by omega), Nat.add_sub_cancel,
        Nat.mul_div_cancel _ (by omega), show min s (j + 2) = j + 1 + 1 by omega]
      exact fun h => (hu (j + 1) hjs).ne (Option.some.inj h)
  · rename_i hjs
    rw [if_neg hjs] at hx
    have : j + 1 = s := by omega
    subst this
    have h3 : (j + 1) * p = j * p + p := by ring
    refine elevSkip_spec (e := (j + 1) * p + p + 1) (by simp [chainKnots]) p _ _ (by omega) (by omega) (by omega) ?_ (.inl rfl)
    intro i h1 h2
    rw [hx i h1 (by omega), hx (i + 1) (by omega) (by omega)]

theorem chainElev_seg {j k : ℕ} (hp : 1 ≤ p) (h1 : 1 ≤ k) (h2 : k ≤ p + 1) :
    chainElev (K := K) p P (j * (p + 1) + k) = elevPt (K := K) p (fun i => P (j * p + i)) k := by
  have hp0 : ((p : K) + 1) ≠ 0 := by positivity
  unfold chainElev
  rcases Nat.lt_or_eq_of_le h2 with h | rfl
  · rw [mul_add_div' (by omega), Nat.mul_comm j (p + 1), Nat.mul_add_mod, Nat.mod_eq_of_lt h]
  · rw [show j * (p + 1) + (p + 1) = (j + 1) * (p + 1) by ring, Nat.mul_div_cancel _ (by omega), Nat.mul_mod_left]
    have hone : ((p + 1 : ℕ) : K) / (p + 1) = 1 := by push_cast; exact div_self hp0
    simp only [elevPt, hone, Nat.cast_zero, zero_div, zero_smul, zero_add, sub_zero, one_smul, sub_self, add_zero,
      Nat.add_sub_cancel]
    congr 1; ring

/-- The final state of the main loop. -/
structure ChainDone (p s N : ℕ) (u : ℕ → K) (P : ℕ → V) (σ : Elev K V) : Prop where
  qw : σ.qw = vec N fun i => if i < s * (p + 1) + 1 then chainElev (K := K) p P i else 0
  uh : σ.uh = vec (N + p + 2) fun i => if i < s * (p + 1) + (p + 1) + 2 then u (min s ((i - 1) / (p + 1))) else 0
  b : σ.b = s * p + p + 1

theorem chain_step (hp : 1 ≤ p) (hu : ∀ i, i < s → u i < u (i + 1)) {j : ℕ} (hj : j < s) {f : ℕ → ℕ → K}
    (hf1 : f (p + 1) p = 1) (hf2 : ∀ i, 1 ≤ i → i ≤ p → CoeffRow p f i) (hN : p + 2 ≤ N) (hNs : s * p + 1 ≤ N)
    (hjN : j * (p + 1) < N) {σ : Elev K V} (h : ChainInv p s N u P j σ) :
    if (j + 1) * (p + 1) < N then
      ∃ σ', elevStep (chain p s u P) 1 (s * p + p + 1) (mat (p + 2) (p + 1) f) σ = .ok σ' ∧
        (j + 1 < s → ChainInv p s N u P (j + 1) σ') ∧ (j + 1 = s → ChainDone p s N u P σ')
    else elevStep (chain p s u P) 1 (s * p + p + 1) (mat (p + 2) (p + 1) f) σ = .error .panic := by
  obtain ⟨bpts, ebpts, nbpts, qw, uh, kind, cind, a, b, r, ua⟩ := σ
  obtain ⟨⟨bf, hb1, hb2⟩, ⟨ef, he⟩, ⟨nf, hn⟩, hq, huh, hkind, hcind, ha, hb, hr, hua⟩ := h
  simp only at hb1 he hn hq huh hkind hcind ha hb hr hua
  have hm1 : (j + 1) * (p + 1) = j * (p + 1) + (p + 1) := by ring
  have hjp : (j + 1) * p = j * p + p := by ring
  have hjp' : j * (p + 1) = j * p + j := by ring
  have hms := Nat.mul_le_mul_right p (show j + 1 ≤ s by omega)
  obtain ⟨e', he', hev⟩ := elevSegment_one hp hN hf1 hf2 bf ef
  obtain ⟨B, hB⟩ : ∃ B, B = if j + 1 < s then (j + 2) * p else s * p + p + 1 := ⟨_, rfl⟩
  obtain ⟨R, hR⟩ : ∃ R : ℤ, R = if j + 1 < s then 0 else -1 := ⟨_, rfl⟩
  have hBm : B ≤ s * p + p + 1 := by
    rw [hB]; split
    · have := Nat.mul_le_mul_right p (show j + 2 ≤ s by omega); omega
    · exact le_rfl
  have hRr : (p : ℤ) - ((B - (j * p + p + 1) + 1 : ℕ) : ℤ) = R := by
    rw [hB, hR]
    split
    · have h3 : (j + 2) * p = j * p + 2 * p := by ring
      rw [h3]; omega
    · have : j + 1 = s := by omega
      subst this
      rw [hjp]; omega
  have hRn : ¬ 0 < R := by rw [hR]; split <;> omega
  have hrn : ¬ 0 < r := by rw [hr]; split <;> omega
  have hrn1 : ¬ 1 < r := by rw [hr]; split <;> omega
  have hub : getR (chainKnots p s u) B = .ok (u (j + 1)) := by
    rw [getR_ok_iff, chainKnots_get (by omega)]
    congr 2
    rw [hB]
    split
    · have : ((j + 2) * p - 1) / p = j + 1 := by
        rw [show (j + 2) * p - 1 = (j + 1) * p + (p - 1) by rw [Nat.add_mul, Nat.add_mul]; omega]
        exact mul_add_div' (by omega)
      omega
    · have : j + 1 = s := by omega
      subst this
      have : j + 1 ≤ ((j + 1) * p + p + 1 - 1) / p := by
        rw [Nat.le_div_iff_mul_le (by omega)]; omega
      omega
  subst hb1 he hn hq huh hkind hcind ha hb hua
  -- the knots written in this step
  have huw : ∃ U : List K, U = (vec (N + p + 2) fun i =>
      if i < (j + 1) * (p + 1) + 1 then u (min s ((i - 1) / (p + 1))) else 0) := ⟨_, rfl⟩
  obtain ⟨U, hU⟩ := huw
  have hqw := foldWrite (N := N) (g := fun d => getR (vec N e') (1 + d)) (v := fun d => e' (1 + d))
    (fun i => if i < j * (p + 1) + 1 then chainElev (K := K) p P i else 0) (j * (p + 1) + 1) (p + 1)
    (fun d hd => getR_vec (by omega))
  have hqf : (fun i => if j * (p + 1) + 1 ≤ i ∧ i < j * (p + 1) + 1 + (p + 1) then e' (1 + (i - (j * (p + 1) + 1)))
      else if i < j * (p + 1) + 1 then chainElev (K := K) p P i else 0) =
      fun i => if i < (j + 1) * (p + 1) + 1 then chainElev (K := K) p P i else 0 := by
    funext i
    by_cases h1 : j * (p + 1) + 1 ≤ i ∧ i < j * (p + 1) + 1 + (p + 1)
    · rw [if_pos h1, if_pos (by omega), hev _ (by omega) (by omega)]
      obtain ⟨k, rfl⟩ : ∃ k, i = j * (p + 1) + k := ⟨i - j * (p + 1), by omega⟩
      rw [chainElev_seg hp (by omega) (by omega), show 1 + (j * (p + 1) + k - (j * (p + 1) + 1)) = k by omega]
      unfold elevPt
      by_cases hk : k ≤ p
      · rw [hb2 _ (by omega), hb2 _ hk]
      · have : k = p + 1 := by omega
        subst this
        have hp0 : ((p : K) + 1) ≠ 0 := by positivity
        have hone : ((p + 1 : ℕ) : K) / (p + 1) = 1 := by push_cast; exact div_self hp0
        rw [hone, sub_self, zero_smul, zero_smul, hb2 _ (by omega)]
    · rw [if_neg h1]
      by_cases h2 : i < j * (p + 1) + 1
      · rw [if_pos h2, if_pos (by omega)]
      · rw [if_neg h2, if_neg (by omega)]
  rw [hqf] at hqw
  have hstep : elevStep (chain p s u P) 1 (s * p + p + 1) (mat (p + 2) (p + 1) f)
      ⟨vec N bf, vec N ef, vec N nf, vec N fun i => if i < j * (p + 1) + 1 then chainElev (K := K) p P i else 0,
        vec (N + p + 2) fun i => if i < max j 1 * (p + 1) + 1 then u (min s ((i - 1) / (p + 1))) else 0,
        max j 1 * (p + 1) + 1, j * (p + 1) + 1, j * p + p, j * p + p + 1, r, u j⟩ =
      ((List.range (p + 1)).foldlM (fun (st : List V × ℕ) d => do
        let x ← getR (vec N e') (1 + d)
        let l ← setR st.1 st.2 x
        pure (l, st.2 + 1)) (vec N fun i => if i < j * (p + 1) + 1 then chainElev (K := K) p P i else 0,
          j * (p + 1) + 1) >>= fun st =>
      if B < s * p + p + 1 then do
        let ur ← asUsize R
        let src ← sliceR (vec N nf) 0 ur
        let _ ← sliceR (vec N bf) 0 ur
        let bp ← subR B p
        let bpts ← (List.range (p + 1 - ur)).foldlM (fun bpts d => do
          let x ← getR (vec (s * p + 1) P) (bp + (ur + d))
          setR bpts (ur + d) x) (src ++ (vec N bf).drop ur)
        pure ⟨bpts, vec N e', vec N nf, st.1, U, (j + 1) * (p + 1) + 1, st.2, B, B + 1, R, u (j + 1)⟩
      else do
        let uh ← (List.range (p + 1 + 1)).foldlM (fun uh i => setR uh ((j + 1) * (p + 1) + 1 + i) (u (j + 1))) U
        pure ⟨vec N bf, vec N e', vec N nf, st.1, uh, (j + 1) * (p + 1) + 1, st.2, j * p + p, B, R, u j⟩) := by
    rw [elevStep]
    simp only [chain]
    rw [chain_skip hp hu hj, ← hB, ok_bind, hub, ok_bind]
    simp only [hRr]
    rw [if_neg hRn]
    simp only [if_neg hRn, if_neg hrn, if_neg hrn1, pure_bind]
    rw [he', ok_bind, show p + 1 + 1 - 1 = p + 1 by omega]
    rw [elevKnots]
    rcases Nat.eq_zero_or_pos j with rfl | hj0
    · rw [if_neg (show ¬ (0 * p + p ≠ p) by simp), pure_bind]
      have h1 : max 0 1 * (p + 1) + 1 = (0 + 1) * (p + 1) + 1 := by simp
      rw [h1, ← hU]
    · have hjp0 : 0 < j * p := Nat.mul_pos hj0 (by omega)
      have h1 : max j 1 = j := by omega
      have hr0 : r = 0 := by rw [hr, if_neg (by omega)]
      rw [if_pos (show j * p + p ≠ p by omega), h1, hr0, show (((p + 1 : ℕ) : ℤ) - 0).toNat = p + 1 by omega,
        foldWrite' _ (j * (p + 1) + 1) (p + 1) (by omega), ok_bind, pure_bind]
      have hUf : (vec (N + p + 2) fun i => if j * (p + 1) + 1 ≤ i ∧ i < j * (p + 1) + 1 + (p + 1) then u j else
          if i < j * (p + 1) + 1 then u (min s ((i - 1) / (p + 1))) else 0) = U := by
        rw [hU]
        apply vec_congr
        intro i _
        by_cases h2 : j * (p + 1) + 1 ≤ i ∧ i < j * (p + 1) + 1 + (p + 1)
        · rw [if_pos h2, if_pos (by omega), show i - 1 = j * (p + 1) + (i - 1 - j * (p + 1)) by omega,
            mul_add_div' (by omega)]
          congr 1; omega
        · rw [if_neg h2]
          by_cases h3 : i < j * (p + 1) + 1
          · rw [if_pos h3, if_pos (by omega)]
          · rw [if_neg h3, if_neg (by omega)]
      simp only [hUf]
      rw [show j * (p + 1) + 1 + (p + 1) = (j + 1) * (p + 1) + 1 by omega]
  rw [hstep, hqw]
  by_cases hlt : (j + 1) * (p + 1) < N
  · rw [if_pos hlt, if_pos (.inr (by omega)), ok_bind]
    by_cases hjs : j + 1 < s
    · rw [if_pos hjs] at hB hR
      have hB2 : B = j * p + 2 * p := by rw [hB]; ring
      have h2 := Nat.mul_le_mul_right p (show j + 2 ≤ s by omega)
      rw [if_pos (by omega), hR, asUsize_eq (n := 0) (by rfl), ok_bind, sliceR_eq_ok le_rfl (by omega), ok_bind,
        sliceR_eq_ok le_rfl (by omega), ok_bind, subR_eq_ok (by omega), ok_bind]
      have hfs := foldSet (N := N) (g := fun d => getR (vec (s * p + 1) P) (B - p + (0 + d)))
        (v := fun d => P (B - p + (0 + d))) bf 0 (p + 1 - 0) (by omega) (fun d hd => getR_vec (by omega))
      simp only [List.take_zero, List.drop_nil, List.nil_append, List.drop_zero]
      rw [hfs, ok_bind]
      refine ⟨_, rfl, fun _ => ?_, fun h => by omega⟩
      have hmax : max (j + 1) 1 = j + 1 := by omega
      refine ⟨⟨_, rfl, fun i hi => ?_⟩, ⟨_, rfl⟩, ⟨_, rfl⟩, rfl, by rw [hmax]; exact hU, by rw [hmax],
        by show j * (p + 1) + 1 + (p + 1) = _; omega,
        by show B = _; omega, by show B + 1 = _; omega, by simp, rfl⟩
      rw [if_pos (by omega)]
      congr 1; omega
    · have hjs' : j + 1 = s := by omega
      rw [if_neg hjs] at hB
      rw [if_neg (by omega), hU]
      have hfs := foldSet (N := N + p + 2) (g := fun _ => .ok (u (j + 1))) (v := fun _ => u (j + 1))
        (fun i => if i < (j + 1) * (p + 1) + 1 then u (min s ((i - 1) / (p + 1))) else 0) ((j + 1) * (p + 1) + 1)
        (p + 1 + 1) (by omega) (fun d hd => rfl)
      simp only [ok_bind] at hfs
      rw [hfs, ok_bind]
      refine ⟨_, rfl, fun h => by omega, fun _ => ⟨by rw [← hjs'], ?_, hB⟩⟩
      rw [← hjs']
      apply vec_congr
      intro i _
      by_cases h2 : (j + 1) * (p + 1) + 1 ≤ i ∧ i < (j + 1) * (p + 1) + 1 + (p + 1 + 1)
      · rw [if_pos h2, if_pos (by omega)]
        have : j + 1 ≤ (i - 1) / (p + 1) := by
          rw [Nat.le_div_iff_mul_le (by omega)]; omega
        rw [show min (j + 1) ((i - 1) / (p + 1)) = j + 1 by omega]
      · rw [if_neg h2]
        by_cases h3 : i < (j + 1) * (p + 1) + 1
        · rw [if_pos h3, if_pos (by omega)]
        · rw [if_neg h3, if_neg (by omega)]
  · rw [if_neg hlt, if_neg (by omega)]
    rfl

theorem chain_loop (hp : 1 ≤ p) (hu : ∀ i, i < s → u i < u (i + 1)) {f : ℕ → ℕ → K}
    (hf1 : f (p + 1) p = 1) (hf2 : ∀ i, 1 ≤ i → i ≤ p → CoeffRow p f i) (hN : p + 2 ≤ N) (hNs : s * p + 1 ≤ N) :
    ∀ (d j fuel : ℕ) (σ : Elev K V), j + d = s → 1 ≤ d → d < fuel → j * (p + 1) < N → ChainInv p s N u P j σ →
    if s * (p + 1) < N then
      ∃ σ', elevLoop (chain p s u P) 1 (s * p + p + 1) (mat (p + 2) (p + 1) f) fuel σ = .ok σ' ∧ ChainDone p s N u P σ'
    else elevLoop (chain p s u P) 1 (s * p + p + 1) (mat (p + 2) (p + 1) f) fuel σ = .error .panic := by
  intro d
  induction d with
  | zero => intro j fuel σ _ h; omega
  | succ d ih =>
    intro j fuel σ hjd _ hfuel hjN hinv
    obtain ⟨fuel, rfl⟩ : ∃ k, fuel = k + 1 := ⟨fuel - 1, by omega⟩
    have hms := Nat.mul_le_mul_right p (show j + 1 ≤ s by omega)
    have hms' := Nat.mul_le_mul_right (p + 1) (show j + 1 ≤ s by omega)
    have hjp : (j + 1) * p = j * p + p := by ring
    have hst := chain_step hp hu (show j < s by omega) hf1 hf2 hN hNs hjN hinv
    rw [elevLoop, if_pos (show σ.b < s * p + p + 1 by rw [hinv.b]; omega)]
    by_cases hlt : (j + 1) * (p + 1) < N
    · rw [if_pos hlt] at hst
      obtain ⟨σ', e, h1, h2⟩ := hst
      rw [e, ok_bind]
      rcases Nat.eq_zero_or_pos d with rfl | hd
      · have hjs : j + 1 = s := by omega
        have hd := h2 hjs
        obtain ⟨fuel, rfl⟩ : ∃ k, fuel = k + 1 := ⟨fuel - 1, by omega⟩
        rw [elevLoop, if_neg (show ¬ σ'.b < s * p + p + 1 by rw [hd.b]; omega), if_pos (by rw [← hjs]; exact hlt)]
        exact ⟨σ', rfl, hd⟩
      · exact ih (j + 1) fuel σ' (by omega) hd (by omega) hlt (h1 (by omega))
    · rw [if_neg hlt] at hst
      rw [hst, if_neg (by omega)]
      rfl

/-- Elevating a chain of Bezier segments by one: at most four segments fit; unused control points and knots are zero. -/
theorem chain_elevate (hp : 1 ≤ p) (hs : 1 ≤ s) (hu : ∀ i, i < s → u i < u (i + 1)) :
    (chain p s u P).tryElevateDegree (p + 1) =
      if s ≤ 4 then
        .ok ⟨p + 1, vec (s * p + 5) fun i => if i < s * (p + 1) + 1 then chainElev (K := K) p P i else 0,
          vec (s * p + 5 + p + 2) fun i => if i < s * (p + 1) + (p + 1) + 2 then u (min s ((i - 1) / (p + 1))) else 0⟩
      else .error .panic := by
  obtain ⟨f, ef, hf1, hf2⟩ := elevCoeffs_one (K := K) hp
  have hsp : p ≤ s * p := Nat.le_mul_of_pos_left p hs
  have hsp' : s * (p + 1) = s * p + s := by ring
  rw [tryElevateDegree, if_neg (by simp [chain])]
  have hkl : (chain p s u P).knots.length = s * p + p + 2 := by simp [chain, chainKnots]
  have hcl : (chain p s u P).cps.length = s * p + 1 := by simp [chain]
  have hdeg : (chain p s u P).degree = p := rfl
  simp only [hkl, hcl, hdeg]
  rw [subR_eq_ok (by omega), ok_bind, show p + 1 - p = 1 by omega, ef, ok_bind]
  have hk0 : getR (chain p s u P).knots 0 = .ok (u 0) := by
    rw [getR_ok_iff]
    exact (chainKnots_get (by omega)).trans (by simp)
  have hc0 : getR (chain p s u P).cps 0 = .ok (P 0) := getR_vec (by omega)
  rw [hk0, ok_bind, hc0, ok_bind]
  simp only [vec_replicate]
  rw [show s * p + 1 + 1 + 3 = s * p + 5 by omega, setR_vec (by omega), ok_bind]
  have hfs := foldSet (N := s * p + 5 + (p + 1) + 1) (g := fun _ => .ok (u 0)) (v := fun _ => u 0)
    (fun _ => (0 : K)) 0 (p + 1 + 1) (by omega) (fun d hd => rfl)
  simp only [ok_bind, Nat.zero_add] at hfs
  rw [hfs, ok_bind, sliceR_eq_ok (by omega) (by rw [hcl]; omega), ok_bind, sliceR_eq_ok (by omega) (by simp; omega),
    ok_bind, show s * p + p + 2 - (p + 2) + p + 1 = s * p + p + 1 by omega]
  have hloop := chain_loop (N := s * p + 5) (P := P) hp hu hf1 hf2 (by omega) (by omega) s 0 (s * p + p + 1 + 1)
    { bpts := (chain p s u P).cps.take (p + 1) ++ (vec (s * p + 5) fun _ => (0 : V)).drop (p + 1),
      ebpts := vec (s * p + 5) fun _ => 0, nbpts := vec (s * p + 5) fun _ => 0,
      qw := vec (s * p + 5) (updF (fun _ => 0) 0 (P 0)),
      uh := vec (s * p + 5 + (p + 1) + 1) fun i => if 0 ≤ i ∧ i < p + 1 + 1 then u 0 else 0,
      kind := p + 1 + 1, cind := 1, a := p, b := p + 1, r := -1, ua := u 0 } (by omega) hs
    (by have := Nat.le_mul_of_pos_right s (show 0 < p by omega); omega) (by omega)
    (by
      refine ⟨⟨fun i => if i ≤ p then P i else 0, ?_, fun i hi => by simp [hi]⟩, ⟨_, rfl⟩, ⟨_, rfl⟩, ?_, ?_, by simp, by simp,
        by simp, by simp, by simp, rfl⟩
      · apply List.ext_getElem
        · simp [chain]; omega
        · intro i h1 h2
          rw [List.getElem_append]
          by_cases hi : i ≤ p
          · have : i < ((chain p s u P).cps.take (p + 1)).length := by simp [chain]; omega
            rw [dif_pos this]
            simp [chain, vec, hi]
          · have : ¬ i < ((chain p s u P).cps.take (p + 1)).length := by simp [chain]; omega
            rw [dif_neg this]
            simp [chain, vec, hi]
      · apply vec_congr
        intro i _
        simp only [updF, Nat.zero_mul, Nat.zero_add]
        by_cases hi : i = 0
        · subst hi
          simp [chainElev, elevPt]
        · rw [if_neg hi, if_neg (by omega)]
      · rw [show s * p + 5 + (p + 1) + 1 = s * p + 5 + p + 2 by omega]
        apply vec_congr
        intro i _
        rw [show max 0 1 * (p + 1) + 1 = p + 1 + 1 by simp]
        by_cases hi : i < p + 1 + 1
        · rw [if_pos (by omega), if_pos hi, Nat.div_eq_of_lt (by omega), Nat.min_zero]
        · rw [if_neg (by omega), if_neg hi])
  simp only [List.drop_zero]
  by_cases h4 : s ≤ 4
  · rw [if_pos (by omega)] at hloop
    obtain ⟨σ', e, hd⟩ := hloop
    rw [if_pos h4, e, ok_bind, hd.qw, hd.uh]
    rfl
  · rw [if_neg (by omega)] at hloop
    rw [if_neg h4, hloop]
    rfl

end Curvo.Curve

/-
  The derivative table computed by `derivativeBasisFunctions`: the loops over `r` and `k`.
-/
import Verif.Lemmas.Deriv

set_option linter.unusedSectionVars false

namespace Curvo.Knots

open Curvo.Spec

variable {K : Type} [Field K] [LinearOrder K]

/-- One summand of the `n`-th derivative, without the factorial. -/
def dterm (k : ℕ → K) (s : ℕ) (u : K) (p i n j : ℕ) : K := dcoef k p i n j * NS k s (p - n) (i + j) u

/-- The unscaled entry of the table. -/
def dval (k : ℕ → K) (s : ℕ) (u : K) (p r n : ℕ) : K :=
  if n ≤ p then (Finset.range (n + 1)).sum fun j => dterm k s u p (s - p + r) n j else 0

/-- The setting of one column: the triangle is right, `n + 1` is the order that is computed. -/
structure Col (k : ℕ → K) (s : ℕ) (u : K) (p : ℕ) (f : ℕ → ℕ → K) (r n : ℕ) : Prop where
  ndu : NduOk k s u p f
  ps : p ≤ s
  sep : ∀ i j, i ≤ s → s < j → j ≤ s + p → k j ≠ k i
  r_le : r ≤ p
  n_lt : n < p

theorem Col.den {k : ℕ → K} {s : ℕ} {u : K} {p : ℕ} {f : ℕ → ℕ → K} {r n : ℕ} (h : Col k s u p f r n) {j : ℕ}
    (h1 : n + 1 ≤ r + j) (h2 : j + r ≤ p) :
    f (p - n) (r + j - (n + 1)) = k (s - p + r + j + (p - n)) - k (s - p + r + j) ∧
      f (p - n) (r + j - (n + 1)) ≠ 0 := by
  have := h.n_lt; have := h.ps; have := h.r_le
  have e : f (p - n) (r + j - (n + 1)) = k (s - p + r + j + (p - n)) - k (s - p + r + j) := by
    rw [h.ndu.lower (p - n) (by omega) _ (by omega)]
    congr 2 <;> omega
  refine ⟨e, ?_⟩
  rw [e]
  exact sub_ne_zero.2 (h.sep _ _ (by omega) (by omega) (by omega))

theorem Col.basis {k : ℕ → K} {s : ℕ} {u : K} {p : ℕ} {f : ℕ → ℕ → K} {r n : ℕ} (h : Col k s u p f r n) {j : ℕ}
    (h1 : n + 1 ≤ r + j) (h2 : j + r ≤ p) :
    f (r + j - (n + 1)) (p - (n + 1)) = NS k s (p - (n + 1)) (s - p + r + j) u := by
  have := h.n_lt; have := h.ps; have := h.r_le
  rw [h.ndu.upper (p - (n + 1)) (by omega) _ (by omega)]
  congr 1; omega

theorem dterm_zero {k : ℕ → K} {s : ℕ} {u : K} {p r n j : ℕ} (hp : p ≤ s) (hr : r ≤ p) (hn : n ≤ p)
    (h : r + j < n ∨ p < j + r) : dterm k s u p (s - p + r) n j = 0 := by
  unfold dterm
  rcases h with h | h
  · rw [NS_eq_zero_left _ _ _ _ _ (by omega), mul_zero]
  · rw [NS_eq_zero_right _ _ _ _ _ (by omega), mul_zero]

/-- Which entries of a row of `a` hold coefficients of order `n`. -/
def RowOk (k : ℕ → K) (s p r n : ℕ) (row : ℕ → K) (S : ℕ → Prop) : Prop :=
  ∀ j, S j → n ≤ r + j → j ≤ n → j + r ≤ p → row j = dcoef k p (s - p + r) n j

/-- State inside of one step: `g` row `s1` is of order `n`, row `s2` holds order `n + 1` for `S`. -/
structure StepSt (k : ℕ → K) (s p r n s1 s2 : ℕ) (S : ℕ → Prop) (a : List (List K)) : Prop where
  ex : ∃ g : ℕ → ℕ → K, a = mat 2 (p + 1) g ∧ RowOk k s p r n (g s1) (fun _ => True) ∧ RowOk k s p r (n + 1) (g s2) S
  lt1 : s1 < 2
  lt2 : s2 < 2
  ne : s1 ≠ s2

theorem RowOk.upd {k : ℕ → K} {s p r n : ℕ} {row : ℕ → K} {S T : ℕ → Prop} {j0 : ℕ} {v : K}
    (h : RowOk k s p r n row S) (hv : v = dcoef k p (s - p + r) n j0) (hT : ∀ j, T j → j ≠ j0 → S j) :
    RowOk k s p r n (fun j => if j = j0 then v else row j) T := by
  intro j hj h1 h2 h3
  by_cases e : j = j0
  · subst e; simp [hv]
  · simp only [if_neg e]; exact h j (hT j hj e) h1 h2 h3

theorem StepSt.set {k : ℕ → K} {s p r n s1 s2 : ℕ} {S T : ℕ → Prop} {a : List (List K)} {j0 : ℕ} {v : K}
    (h : StepSt k s p r n s1 s2 S a) (hj0 : j0 ≤ p) (hv : v = dcoef k p (s - p + r) (n + 1) j0)
    (hT : ∀ j, T j → j ≠ j0 → S j) :
    ∃ a', set2R a s2 j0 v = .ok a' ∧ get2R a' s2 j0 = .ok v ∧ StepSt k s p r n s1 s2 T a' := by
  obtain ⟨⟨g, e, h1, h2⟩, hs1, hs2, hne⟩ := h
  refine ⟨mat 2 (p + 1) (updF2 g s2 j0 v), by rw [e, set2R_mat hs2 (by omega)], ?_, ⟨_, rfl, ?_, ?_⟩, hs1, hs2, hne⟩
  · rw [get2R_mat hs2 (by omega)]; simp [updF2]
  · have : updF2 g s2 j0 v s1 = g s1 := by funext b; simp [updF2, hne]
    rw [this]; exact h1
  · have : updF2 g s2 j0 v s2 = fun j => if j = j0 then v else g s2 j := by funext b; simp [updF2]
    rw [this]; exact h2.upd hv hT

theorem StepSt.get {k : ℕ → K} {s p r n s1 s2 : ℕ} {S : ℕ → Prop} {a : List (List K)} {j : ℕ}
    (h : StepSt k s p r n s1 s2 S a) (h1 : n ≤ r + j) (h2 : j ≤ n) (h3 : j + r ≤ p) :
    get2R a s1 j = .ok (dcoef k p (s - p + r) n j) := by
  obtain ⟨⟨g, e, hg, _⟩, hs1, _, _⟩ := h
  rw [e, get2R_mat hs1 (by omega), hg j trivial h1 h2 h3]

theorem derFirst_spec {k : ℕ → K} {s : ℕ} {u : K} {p : ℕ} {f : ℕ → ℕ → K} {r n : ℕ} (h : Col k s u p f r n)
    {s1 s2 : ℕ} {a : List (List K)} (ha : StepSt k s p r n s1 s2 (fun _ => False) a) :
    ∃ a', derFirst (mat (p + 1) (p + 1) f) (r : ℤ) ((n + 1 : ℕ) : ℤ) ((p : ℤ) - ((n + 1 : ℕ) : ℤ))
        ((r : ℤ) - ((n + 1 : ℕ) : ℤ)) s1 s2 a = .ok (a', dterm k s u p (s - p + r) (n + 1) 0) ∧
      StepSt k s p r n s1 s2 (fun j => j < 1) a' := by
  have := h.n_lt; have := h.ps; have := h.r_le
  unfold derFirst
  by_cases hr : n + 1 ≤ r
  · rw [if_pos (by omega)]
    obtain ⟨d1, d2⟩ := h.den (j := 0) (by omega) (by omega)
    have b := h.basis (j := 0) (by omega) (by omega)
    rw [Nat.add_zero] at d1 d2 b
    obtain ⟨a', e1, e2, e3⟩ := ha.set (T := fun j => j < 1) (j0 := 0)
      (v := dcoef k p (s - p + r) n 0 / f (p - n) (r - (n + 1))) (by omega) (by
        rw [dcoef, d1, if_pos rfl, sub_zero, Nat.add_zero]) (by intro j h1 h2; omega)
    refine ⟨a', ?_, e3⟩
    rw [ha.get (by omega) (by omega) (by omega), ok_bind, asUsize_eq (n := p - n) (by omega), ok_bind,
      asUsize_eq (n := r - (n + 1)) (by omega), ok_bind, get2R_mat (by omega) (by omega), ok_bind, divR_eq_ok d2, ok_bind,
      e1, ok_bind, e2, ok_bind, asUsize_eq (n := p - (n + 1)) (by omega), ok_bind, get2R_mat (by omega) (by omega),
      ok_bind, b, dterm, dcoef, d1, if_pos rfl, sub_zero]
    rfl
  · rw [if_neg (by omega)]
    refine ⟨a, ?_, ?_⟩
    · rw [dterm_zero h.ps h.r_le h.n_lt (by omega)]; rfl
    · obtain ⟨⟨g, e, hg, hg2⟩, hs1, hs2, hne⟩ := ha
      refine ⟨⟨g, e, hg, ?_⟩, hs1, hs2, hne⟩
      intro j h1 h2
      omega

theorem derInner_spec {k : ℕ → K} {s : ℕ} {u : K} {p : ℕ} {f : ℕ → ℕ → K} {r n : ℕ} (h : Col k s u p f r n)
    {s1 s2 j : ℕ} {a : List (List K)} {d : K} {S T : ℕ → Prop} (ha : StepSt k s p r n s1 s2 S a) (h0 : 1 ≤ j)
    (h1 : n + 1 ≤ r + j) (h2 : j ≤ n) (h3 : j + r ≤ p) (hT : ∀ x, T x → x ≠ j → S x) :
    ∃ a', derInner (mat (p + 1) (p + 1) f) s1 s2 ((p : ℤ) - ((n + 1 : ℕ) : ℤ)) ((r : ℤ) - ((n + 1 : ℕ) : ℤ)) (a, d) (j : ℤ) =
        .ok (a', d + dterm k s u p (s - p + r) (n + 1) j) ∧ StepSt k s p r n s1 s2 T a' := by
  have := h.n_lt; have := h.ps; have := h.r_le
  obtain ⟨d1, d2⟩ := h.den h1 h3
  have b := h.basis h1 h3
  have hv : (dcoef k p (s - p + r) n j - dcoef k p (s - p + r) n (j - 1)) / f (p - n) (r + j - (n + 1)) =
      dcoef k p (s - p + r) (n + 1) j := by
    rw [dcoef, d1, if_neg (by omega)]
  obtain ⟨a', e1, e2, e3⟩ := ha.set (T := T) (j0 := j) (by omega) hv hT
  refine ⟨a', ?_, e3⟩
  rw [derInner, asUsize_nat, ok_bind, subR_eq_ok h0, ok_bind, ha.get (by omega) h2 h3, ok_bind,
    ha.get (by omega) (by omega) (by omega), ok_bind, asUsize_eq (n := p - n) (by omega), ok_bind,
    asUsize_eq (n := r + j - (n + 1)) (by omega), ok_bind, get2R_mat (by omega) (by omega), ok_bind,
    divR_eq_ok d2, ok_bind, e1, ok_bind, e2, ok_bind, asUsize_eq (n := p - (n + 1)) (by omega), ok_bind,
    get2R_mat (by omega) (by omega), ok_bind, b, hv]
  rfl

theorem derLast_spec {k : ℕ → K} {s : ℕ} {u : K} {p : ℕ} {f : ℕ → ℕ → K} {r n : ℕ} (h : Col k s u p f r n)
    {s1 s2 : ℕ} {a : List (List K)} {d : K} {S : ℕ → Prop} (ha : StepSt k s p r n s1 s2 S a)
    (hS : ∀ j, n + 1 ≤ r + j → j ≤ n → j + r ≤ p → S j) :
    ∃ a', derLast (mat (p + 1) (p + 1) f) (r : ℤ) ((n + 1 : ℕ) : ℤ) ((p : ℤ) - ((n + 1 : ℕ) : ℤ)) s1 s2 a d =
        .ok (a', d + dterm k s u p (s - p + r) (n + 1) (n + 1)) ∧
      StepSt k s p r n s1 s2 (fun _ => True) a' := by
  have := h.n_lt; have := h.ps; have := h.r_le
  unfold derLast
  have widen : ∀ {a'}, StepSt k s p r n s1 s2 (fun j => S j ∨ (j = n + 1 ∧ r + (n + 1) ≤ p)) a' →
      StepSt k s p r n s1 s2 (fun _ => True) a' := by
    rintro a' ⟨⟨g, e, hg, hg2⟩, hs1, hs2, hne⟩
    refine ⟨⟨g, e, hg, ?_⟩, hs1, hs2, hne⟩
    intro j _ h1 h2 h3
    refine hg2 j ?_ h1 h2 h3
    rcases Nat.lt_or_ge n j with hj | hj
    · right; omega
    · left; exact hS j h1 hj h3
  by_cases hr : r + (n + 1) ≤ p
  · rw [if_pos (by omega)]
    obtain ⟨d1, d2⟩ := h.den (j := n + 1) (by omega) (by omega)
    have b := h.basis (j := n + 1) (by omega) (by omega)
    rw [Nat.add_sub_cancel] at d1 d2 b
    have hv : -(dcoef k p (s - p + r) n n) / f (p - n) r = dcoef k p (s - p + r) (n + 1) (n + 1) := by
      rw [dcoef, dcoef_zero _ _ _ _ _ (by omega : n < n + 1), zero_sub, if_neg (by omega), Nat.add_sub_cancel, d1]
    obtain ⟨a', e1, e2, e3⟩ := ha.set (T := fun j => S j ∨ (j = n + 1 ∧ r + (n + 1) ≤ p)) (j0 := n + 1) (by omega) hv
      (by intro j h1 h2; rcases h1 with h1 | h1
          · exact h1
          · exact absurd h1.1 h2)
    refine ⟨a', ?_, widen e3⟩
    rw [asUsize_nat, ok_bind, asUsize_nat, ok_bind, asUsize_eq (n := n) (by omega), ok_bind,
      ha.get (by omega) (by omega) (by omega), ok_bind, asUsize_eq (n := p - n) (by omega), ok_bind,
      get2R_mat (by omega) (by omega), ok_bind, divR_eq_ok d2, ok_bind, e1, ok_bind, e2, ok_bind,
      asUsize_eq (n := p - (n + 1)) (by omega), ok_bind, get2R_mat (by omega) (by omega), ok_bind, b, hv]
    rfl
  · rw [if_neg (by omega)]
    refine ⟨a, ?_, widen ?_⟩
    · rw [dterm_zero h.ps h.r_le h.n_lt (by omega), add_zero]; rfl
    · obtain ⟨⟨g, e, hg, hg2⟩, hs1, hs2, hne⟩ := ha
      refine ⟨⟨g, e, hg, ?_⟩, hs1, hs2, hne⟩
      intro j hj h1 h2 h3
      rcases hj with hj | hj
      · exact hg2 j hj h1 h2 h3
      · omega

/-- The loop over `j`. -/
theorem derLoop_spec {k : ℕ → K} {s : ℕ} {u : K} {p : ℕ} {f : ℕ → ℕ → K} {r n : ℕ} (h : Col k s u p f r n)
    {s1 s2 : ℕ} {a : List (List K)} {d : K} (ha : StepSt k s p r n s1 s2 (fun j => j < 1) a) :
    ∃ a', (intRange (if -1 ≤ (r : ℤ) - ((n + 1 : ℕ) : ℤ) then 1 else -((r : ℤ) - ((n + 1 : ℕ) : ℤ)))
        (if (r : ℤ) - 1 ≤ (p : ℤ) - ((n + 1 : ℕ) : ℤ) then ((n + 1 : ℕ) : ℤ) - 1 else (p : ℤ) - r)).foldlM
        (derInner (mat (p + 1) (p + 1) f) s1 s2 ((p : ℤ) - ((n + 1 : ℕ) : ℤ)) ((r : ℤ) - ((n + 1 : ℕ) : ℤ))) (a, d) =
        .ok (a', d + (Finset.Ico 1 (n + 1)).sum fun j => dterm k s u p (s - p + r) (n + 1) j) ∧
      StepSt k s p r n s1 s2 (fun j => n + 1 ≤ r + j ∧ j ≤ n ∧ j + r ≤ p) a' := by
  have := h.n_lt; have := h.ps; have := h.r_le
  obtain ⟨lo, hlo⟩ : ∃ lo : ℕ, lo = if n ≤ r then 1 else n + 1 - r := ⟨_, rfl⟩
  obtain ⟨hi, hhi⟩ : ∃ hi : ℕ, hi = if r + n ≤ p then n else p - r := ⟨_, rfl⟩
  have e1 : (if -1 ≤ (r : ℤ) - ((n + 1 : ℕ) : ℤ) then 1 else -((r : ℤ) - ((n + 1 : ℕ) : ℤ))) = (lo : ℤ) := by
    rw [hlo]; split_ifs <;> omega
  have e2 : (if (r : ℤ) - 1 ≤ (p : ℤ) - ((n + 1 : ℕ) : ℤ) then ((n + 1 : ℕ) : ℤ) - 1 else (p : ℤ) - r) = (hi : ℤ) := by
    rw [hhi]; split_ifs <;> omega
  have hlo1 : 1 ≤ lo := by rw [hlo]; split_ifs <;> omega
  have hlo2 : n + 1 ≤ r + lo := by rw [hlo]; split_ifs <;> omega
  have hhi1 : hi ≤ n := by rw [hhi]; split_ifs <;> omega
  have hhi2 : hi + r ≤ p := by rw [hhi]; split_ifs <;> omega
  rw [e1, e2, intRange_nat]
  obtain ⟨st, e, a', d', est, hd, hst⟩ := foldlM_inv
    (f := derInner (mat (p + 1) (p + 1) f) s1 s2 ((p : ℤ) - ((n + 1 : ℕ) : ℤ)) ((r : ℤ) - ((n + 1 : ℕ) : ℤ)))
    (g := fun t : ℕ => ((lo + t : ℕ) : ℤ)) (n := hi + 1 - lo) (s := (a, d))
    (P := fun t st => ∃ a' d', st = (a', d') ∧
      d' = d + (Finset.range t).sum (fun x => dterm k s u p (s - p + r) (n + 1) (lo + x)) ∧
      StepSt k s p r n s1 s2 (fun j => j < 1 ∨ (lo ≤ j ∧ j < lo + t)) a')
    ⟨a, d, rfl, by simp, by
      obtain ⟨⟨g, e, hg, hg2⟩, hs1, hs2, hne⟩ := ha
      exact ⟨⟨g, e, hg, fun j hj => hg2 j (by omega)⟩, hs1, hs2, hne⟩⟩
    (by
      rintro t ht _ ⟨a', d', rfl, hd, hst⟩
      obtain ⟨a'', e, hst'⟩ := derInner_spec h (j := lo + t) (d := d') (T := fun j => j < 1 ∨ (lo ≤ j ∧ j < lo + (t + 1)))
        hst (by omega) (by omega) (by omega) (by omega) (by intro x hx hne; omega)
      refine ⟨_, e, _, _, rfl, ?_, hst'⟩
      rw [hd, Finset.sum_range_succ, add_assoc])
  subst est
  refine ⟨a', ?_, ?_⟩
  · rw [e, hd]
    congr 3
    rw [show (Finset.range (hi + 1 - lo)).sum (fun x => dterm k s u p (s - p + r) (n + 1) (lo + x)) =
      (Finset.Ico lo (hi + 1)).sum (fun x => dterm k s u p (s - p + r) (n + 1) x) from
      (Finset.sum_Ico_eq_sum_range _ _ _).symm]
    apply Finset.sum_subset
    · intro x hx
      rw [Finset.mem_Ico] at hx ⊢
      omega
    · intro x hx hx'
      rw [Finset.mem_Ico] at hx hx'
      apply dterm_zero h.ps h.r_le h.n_lt
      rw [hlo, hhi] at hx'
      split_ifs at hx' <;> omega
  · obtain ⟨⟨g, e, hg, hg2⟩, hs1, hs2, hne⟩ := hst
    refine ⟨⟨g, e, hg, ?_⟩, hs1, hs2, hne⟩
    intro j hj
    refine hg2 j ?_
    by_cases hj0 : j < 1
    · left; exact hj0
    · right
      rw [hlo, hhi]
      split_ifs <;> omega

/-- State of the loop over the derivative order, after `n` rounds. -/
structure ColSt (k : ℕ → K) (s : ℕ) (u : K) (p N r n : ℕ) (fd : ℕ → ℕ → K) (st : DerSt K) : Prop where
  ders : ∃ g, st.ders = mat (N + 1) (p + 1) g ∧
    ∀ a b, a ≤ N → b ≤ p → g a b = if b = r ∧ 1 ≤ a ∧ a ≤ n then dval k s u p r a else fd a b
  amat : ∃ g, st.a = mat 2 (p + 1) g
  low : n < p → StepSt k s p r n st.s1 st.s2 (fun _ => False) st.a

theorem derStep_low {k : ℕ → K} {s : ℕ} {u : K} {p N : ℕ} {f fd : ℕ → ℕ → K} {r n : ℕ} (h : Col k s u p f r n)
    (hN : n < N) {st : DerSt K} (hs : ColSt k s u p N r n fd st) :
    ∃ st', derStep (mat (p + 1) (p + 1) f) p r st ((n + 1 : ℕ) : ℤ) = .ok st' ∧ ColSt k s u p N r (n + 1) fd st' := by
  have := h.n_lt; have := h.ps; have := h.r_le
  obtain ⟨⟨gd, ed, hd⟩, _, hlow⟩ := hs
  obtain ⟨a1, e1, h1⟩ := derFirst_spec h (hlow h.n_lt)
  obtain ⟨a2, e2, h2⟩ := derLoop_spec h (d := dterm k s u p (s - p + r) (n + 1) 0) h1
  obtain ⟨a3, e3, h3⟩ := derLast_spec h (d := dterm k s u p (s - p + r) (n + 1) 0 +
      (Finset.Ico 1 (n + 1)).sum fun j => dterm k s u p (s - p + r) (n + 1) j) h2 (fun j x y z => ⟨x, y, z⟩)
  have hsum : dterm k s u p (s - p + r) (n + 1) 0 +
      ((Finset.Ico 1 (n + 1)).sum fun j => dterm k s u p (s - p + r) (n + 1) j) +
      dterm k s u p (s - p + r) (n + 1) (n + 1) = dval k s u p r (n + 1) := by
    rw [dval, if_pos (by omega), Finset.sum_range_succ, Finset.range_eq_Ico,
      Finset.sum_eq_sum_Ico_succ_bot (Nat.succ_pos n)]
  refine ⟨⟨mat (N + 1) (p + 1) (updF2 gd (n + 1) r (dval k s u p r (n + 1))), a3, st.s2, st.s1⟩, ?_, ⟨_, rfl, ?_⟩, ?_, ?_⟩
  · simp only [derStep]
    rw [e1, ok_bind]
    simp only []
    rw [e2, ok_bind]
    simp only []
    rw [e3, ok_bind]
    simp only []
    rw [asUsize_nat, ok_bind, asUsize_nat, ok_bind, ed, set2R_mat (by omega) (by omega), ok_bind, hsum]
    rfl
  · intro a b ha hb
    unfold updF2
    by_cases hab : a = n + 1 ∧ b = r
    · rw [if_pos hab, if_pos (by omega), hab.1]
    · rw [if_neg hab, hd a b ha hb]
      by_cases hc : b = r ∧ 1 ≤ a ∧ a ≤ n
      · rw [if_pos hc, if_pos (by omega)]
      · rw [if_neg hc, if_neg (by omega)]
  · obtain ⟨⟨g, e, _⟩, _⟩ := h3
    exact ⟨g, e⟩
  · intro _
    obtain ⟨⟨g, e, hg, hg2⟩, hs1, hs2, hne⟩ := h3
    refine ⟨⟨g, e, hg2, ?_⟩, hs2, hs1, hne.symm⟩
    intro j hj; exact absurd hj id

theorem derStep_high {k : ℕ → K} {s : ℕ} {u : K} {p N : ℕ} {ndu : List (List K)} {fd : ℕ → ℕ → K} {r n : ℕ}
    (hr : r ≤ p) (hp : p ≤ n) (hN : n < N) {st : DerSt K} (hs : ColSt k s u p N r n fd st) :
    ∃ st', derStep ndu p r st ((n + 1 : ℕ) : ℤ) = .ok st' ∧ ColSt k s u p N r (n + 1) fd st' := by
  obtain ⟨⟨gd, ed, hd⟩, hmat, _⟩ := hs
  refine ⟨⟨mat (N + 1) (p + 1) (updF2 gd (n + 1) r 0), st.a, st.s2, st.s1⟩, ?_, ⟨_, rfl, ?_⟩, hmat, by intro; omega⟩
  · simp only [derStep]
    rw [derFirst, if_neg (by omega)]
    simp only [pure_eq_ok, ok_bind]
    rw [intRange_empty (by split_ifs <;> omega), List.foldlM_nil]
    simp only [pure_eq_ok, ok_bind]
    rw [derLast, if_neg (by omega)]
    simp only [pure_eq_ok, ok_bind]
    rw [asUsize_nat, ok_bind, asUsize_nat, ok_bind, ed, set2R_mat (by omega) (by omega), ok_bind]
  · intro a b ha hb
    unfold updF2
    by_cases hab : a = n + 1 ∧ b = r
    · rw [if_pos hab, if_pos (by omega), hab.1, dval, if_neg (by omega)]
    · rw [if_neg hab, hd a b ha hb]
      by_cases hc : b = r ∧ 1 ≤ a ∧ a ≤ n
      · rw [if_pos hc, if_pos (by omega)]
      · rw [if_neg hc, if_neg (by omega)]

theorem derColumn_spec {k : ℕ → K} {s : ℕ} {u : K} {p N : ℕ} {f fd g0 : ℕ → ℕ → K} {r : ℕ}
    (hndu : NduOk k s u p f) (hps : p ≤ s) (hsep : ∀ i j, i ≤ s → s < j → j ≤ s + p → k j ≠ k i) (hr : r ≤ p) :
    ∃ g1 g2, derColumn (mat (p + 1) (p + 1) f) p N (mat (N + 1) (p + 1) fd, mat 2 (p + 1) g0) (r : ℤ) =
        .ok (mat (N + 1) (p + 1) g1, mat 2 (p + 1) g2) ∧
      ∀ a b, a ≤ N → b ≤ p → g1 a b = if b = r ∧ 1 ≤ a then dval k s u p r a else fd a b := by
  obtain ⟨st, e, ⟨g, eg, hg⟩, ⟨g2, eg2⟩, _⟩ := foldlM_inv (f := derStep (mat (p + 1) (p + 1) f) p r)
    (g := fun t : ℕ => ((t + 1 : ℕ) : ℤ)) (n := N)
    (s := ({ ders := mat (N + 1) (p + 1) fd, a := mat 2 (p + 1) (updF2 g0 0 0 1), s1 := 0, s2 := 1 } : DerSt K))
    (P := fun n st => ColSt k s u p N r n fd st)
    ⟨⟨fd, rfl, fun a b _ _ => by rw [if_neg (by omega)]⟩, ⟨_, rfl⟩, fun _ =>
      ⟨⟨_, rfl, by
        intro j _ h1 h2 _
        obtain rfl : j = 0 := by omega
        simp [updF2, dcoef], fun j hj => absurd hj id⟩, Nat.zero_lt_two, Nat.one_lt_two, Nat.zero_ne_one⟩⟩
    (by
      intro n hn st hst
      by_cases hnp : n < p
      · exact derStep_low ⟨hndu, hps, hsep, hr, hnp⟩ hn hst
      · exact derStep_high hr (by omega) hn hst)
  refine ⟨g, g2, ?_, ?_⟩
  · rw [derColumn, set2R_mat (by omega) (by omega), ok_bind]
    have : intRange 1 (N : ℤ) = (List.range N).map fun t : ℕ => ((t + 1 : ℕ) : ℤ) := by
      have := intRange_nat 1 N
      rw [Nat.add_sub_cancel] at this
      rw [Nat.cast_one] at this
      rw [this]
      apply List.map_congr_left
      intro t _
      push_cast; ring
    rw [this, e, ok_bind, eg, eg2]
    rfl
  · intro a b ha hb
    rw [hg a b ha hb]
    congr 1
    apply propext
    constructor
    · rintro ⟨x, y, _⟩; exact ⟨x, y⟩
    · rintro ⟨x, y⟩; exact ⟨x, y, ha⟩

/-- The value of `acc` before row `k` is scaled. -/
def accZ (p : ℕ) : ℕ → ℤ
  | 0 => p
  | k + 1 => accZ p k * ((p : ℤ) - (k + 1 : ℕ))

theorem accZ_eq (p : ℕ) : ∀ n, n + 1 ≤ p → ((accZ p n : ℤ) : K) = fallF p (n + 1)
  | 0, _ => by simp [accZ, fallF]
  | n + 1, h => by
    rw [accZ, fallF, Int.cast_mul, accZ_eq p n (by omega)]
    congr 1
    rw [← Nat.cast_sub (by omega), Int.cast_natCast]

theorem scale_spec {p N : ℕ} {gd : ℕ → ℕ → K} :
    ∃ st : List (List K) × ℤ, ((List.range N).map (· + 1)).foldlM (derScale p) (mat (N + 1) (p + 1) gd, (p : ℤ)) = .ok st ∧
      ∃ g, st.1 = mat (N + 1) (p + 1) g ∧
        ∀ a b, a ≤ N → b ≤ p → g a b = if a = 0 then gd a b else gd a b * ((accZ p (a - 1) : ℤ) : K) := by
  obtain ⟨st, e, ⟨g, eg, hg⟩, _⟩ := foldlM_inv (f := derScale (K := K) p) (g := (· + 1)) (n := N)
    (s := (mat (N + 1) (p + 1) gd, (p : ℤ)))
    (P := fun n st => (∃ g, st.1 = mat (N + 1) (p + 1) g ∧
      ∀ a b, a ≤ N → b ≤ p → g a b = if a = 0 ∨ n < a then gd a b else gd a b * ((accZ p (a - 1) : ℤ) : K)) ∧ st.2 = accZ p n)
    ⟨⟨gd, rfl, fun a b _ _ => by rw [if_pos (by omega)]⟩, rfl⟩
    (by
      rintro n hn ⟨st1, st2⟩ ⟨⟨g, eg, hg⟩, hacc⟩
      simp only at eg hacc
      subst eg hacc
      obtain ⟨l, el, g', eg', hg'⟩ := foldlM_range_inv (f := fun ders j => do
          let x ← get2R ders (n + 1) j
          set2R ders (n + 1) j (x * ((accZ p n : ℤ) : K))) (n := p + 1) (s := mat (N + 1) (p + 1) g)
        (P := fun t ders => ∃ g', ders = mat (N + 1) (p + 1) g' ∧
          ∀ a b, a ≤ N → b ≤ p → g' a b = if a = n + 1 ∧ b < t then g a b * ((accZ p n : ℤ) : K) else g a b)
        ⟨g, rfl, fun a b _ _ => by rw [if_neg (by omega)]⟩
        (by
          rintro t ht _ ⟨g', rfl, hg'⟩
          refine ⟨_, by rw [get2R_mat (by omega) (by omega), ok_bind, set2R_mat (by omega) (by omega)], _, rfl, ?_⟩
          intro a b ha hb
          unfold updF2
          by_cases hab : a = n + 1 ∧ b = t
          · rw [if_pos hab, if_pos (by omega), hg' _ _ (by omega) (by omega), if_neg (by omega), hab.1, hab.2]
          · rw [if_neg hab, hg' a b ha hb]
            by_cases hc : a = n + 1 ∧ b < t
            · rw [if_pos hc, if_pos (by omega)]
            · rw [if_neg hc, if_neg (by omega)])
      refine ⟨(l, accZ p n * ((p : ℤ) - (n + 1 : ℕ))), ?_, ⟨g', eg', ?_⟩, rfl⟩
      · rw [derScale, el, ok_bind]; rfl
      · intro a b ha hb
        rw [hg' a b ha hb, hg a b ha hb]
        by_cases han : a = n + 1
        · rw [if_pos (by omega), if_pos (by omega), if_neg (by omega), han, Nat.add_sub_cancel]
        · rw [if_neg (by omega)]
          by_cases hc : a = 0 ∨ n < a
          · rw [if_pos hc, if_pos (by omega)]
          · rw [if_neg hc, if_neg (by omega)])
  refine ⟨st, e, g, eg, ?_⟩
  intro a b ha hb
  rw [hg a b ha hb]
  by_cases h0 : a = 0
  · rw [if_pos (by omega), if_pos h0]
  · rw [if_neg (by omega), if_neg h0]

open Polynomial in
/-- The derivative table: entry `(k, r)` is the value of the `k`-th derivative of the `r`-th basis polynomial that
    is not zero on the span. -/
theorem derivativeBasisFunctions_spec {ks : List K} {s p N : ℕ} {u : K} (hp : p ≤ s) (hlen : s + p < ks.length)
    (hk : ∀ i j, i ≤ s → s < j → j ≤ s + p → kf ks j ≠ kf ks i) :
    derivativeBasisFunctions ks s u p N =
      .ok (mat (N + 1) (p + 1) fun n r => ((derivative^[n]) (spanPoly (kf ks) s p (s - p + r))).eval u) := by
  obtain ⟨f, ef, hf⟩ := nduTable_spec (u := u) hp hlen hk
  obtain ⟨l, el, g, eg, hg⟩ := foldlM_range_inv (f := fun ders j => do
      let x ← get2R (mat (p + 1) (p + 1) f) j p
      set2R ders 0 j x) (n := p + 1) (s := mat (N + 1) (p + 1) (fun _ _ => (0 : K)))
    (P := fun t ders => ∃ g, ders = mat (N + 1) (p + 1) g ∧
      ∀ a b, a ≤ N → b ≤ p → g a b = if a = 0 ∧ b < t then NS (kf ks) s p (s - p + b) u else 0)
    ⟨_, rfl, fun a b _ _ => by rw [if_neg (by omega)]⟩
    (by
      rintro t ht _ ⟨g, rfl, hg⟩
      refine ⟨_, by rw [get2R_mat (by omega) (by omega), ok_bind, set2R_mat (by omega) (by omega)], _, rfl, ?_⟩
      intro a b ha hb
      unfold updF2
      by_cases hab : a = 0 ∧ b = t
      · rw [if_pos hab, if_pos (by omega), hf.upper p (le_refl _) t (by omega), hab.2]
      · rw [if_neg hab, hg a b ha hb]
        by_cases hc : a = 0 ∧ b < t
        · rw [if_pos hc, if_pos (by omega)]
        · rw [if_neg hc, if_neg (by omega)])
  obtain ⟨st, est, g1, g2, est', hg1⟩ := foldlM_inv (f := derColumn (mat (p + 1) (p + 1) f) p N)
    (g := fun t : ℕ => (t : ℤ)) (n := p + 1) (s := (mat (N + 1) (p + 1) g, mat 2 (p + 1) (fun _ _ => (0 : K))))
    (P := fun t st => ∃ g1 g2, st = (mat (N + 1) (p + 1) g1, mat 2 (p + 1) g2) ∧
      ∀ a b, a ≤ N → b ≤ p → g1 a b = if b < t ∧ 1 ≤ a then dval (kf ks) s u p b a else g a b)
    ⟨g, _, rfl, fun a b _ _ => by rw [if_neg (by omega)]⟩
    (by
      rintro t ht _ ⟨g1, g2, rfl, hg1⟩
      obtain ⟨g3, g4, e, h3⟩ := derColumn_spec (N := N) (fd := g1) (g0 := g2) hf hp hk (r := t) (by omega)
      refine ⟨_, e, g3, g4, rfl, ?_⟩
      intro a b ha hb
      rw [h3 a b ha hb, hg1 a b ha hb]
      by_cases hbt : b = t ∧ 1 ≤ a
      · rw [if_pos hbt, if_pos (by omega), hbt.1]
      · rw [if_neg hbt]
        by_cases hc : b < t ∧ 1 ≤ a
        · rw [if_pos hc, if_pos (by omega)]
        · rw [if_neg hc, if_neg (by omega)])
  subst est'
  obtain ⟨st, est2, g5, eg5, hg5⟩ := scale_spec (p := p) (N := N) (gd := g1)
  have hir : intRange 0 (p : ℤ) = (List.range (p + 1)).map fun t : ℕ => (t : ℤ) := by
    have := intRange_nat 0 p
    simpa using this
  rw [derivativeBasisFunctions, ef, ok_bind]
  rw [mat_replicate, mat_replicate]
  simp only []
  rw [el, ok_bind, eg, hir, est, ok_bind]
  simp only []
  rw [est2, ok_bind]
  rw [eg5]
  simp only [pure_eq_ok]
  congr 1
  apply mat_congr
  intro n r hn hr
  rw [hg5 n r (by omega) (by omega)]
  by_cases h0 : n = 0
  · subst h0
    rw [if_pos rfl, hg1 _ _ (by omega) (by omega), if_neg (by omega), hg _ _ (by omega) (by omega), if_pos (by omega),
      Function.iterate_zero, id, spanPoly_eval]
  · rw [if_neg h0, hg1 _ _ (by omega) (by omega), if_pos (by omega)]
    by_cases hnp : n ≤ p
    · rw [iterate_derivative_spanPoly p _ hk n hnp, dval, if_pos hnp, accZ_eq (K := K) p (n - 1) (by omega),
        Nat.sub_add_cancel (by omega), eval_mul, eval_C, eval_finset_sum, mul_comm]
      congr 1
      apply Finset.sum_congr rfl
      intro j _
      rw [eval_mul, eval_C, spanPoly_eval, dterm]
    · rw [iterate_derivative_spanPoly_high _ _ _ _ _ (by omega), dval, if_neg hnp]; simp

end Curvo.Knots

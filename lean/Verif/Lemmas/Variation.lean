/-
  Sign changes: a spline changes its sign at most as often as its coefficients (variation diminution), by inserting
  the parameters as knots until the values of the spline are coefficients.
-/
import Mathlib.Tactic.Linarith
import Verif.Lemmas.Insert

set_option linter.unusedSectionVars false

namespace Curvo.Spec

variable {K : Type} [Field K] [LinearOrder K]

/-- Among the values `f 0 … f n` there are `m + 1` of alternating sign, in this order; the first has the sign of `σ`. -/
def Alt (σ : K) (m n : ℕ) (f : ℕ → K) : Prop :=
  ∃ φ : ℕ → ℕ, (∀ j, j ≤ m → φ j ≤ n) ∧ (∀ j, j < m → φ j < φ (j + 1)) ∧
    ∀ j, j ≤ m → 0 < σ * (-1) ^ j * f (φ j)

/-- The spline of degree `p` with knots `v` and coefficients `P 0 … P n`. -/
def spl (v : ℕ → K) (b : K) (p n : ℕ) (P : ℕ → K) (u : K) : K :=
  (Finset.range (n + 1)).sum fun t => N v b p t u * P t

/-- Knots for `n + 1` coefficients with the domain from `a` to `b`. -/
structure Knots (v : ℕ → K) (a b : K) (p n : ℕ) : Prop where
  le : p ≤ n
  mono : MonoUpTo v (n + p + 1)
  lo : v p = a
  hi : v (n + 1) = b
  lt : a < b

theorem Knots.inSpan {v : ℕ → K} {a b : K} {p n : ℕ} (h : Knots v a b p n) {u : K} (h1 : a ≤ u) (h2 : u ≤ b) :
    ∃ s, p ≤ s ∧ s ≤ n ∧ InSpan v b u s := by
  have := exists_inSpan (k := v) (u := u) h.le (by rw [h.lo, h.hi]; exact h.lt) (by rw [h.lo]; exact h1) (by rw [h.hi]; exact h2)
  rwa [h.hi] at this

theorem inSpan_le {v : ℕ → K} {b u : K} {s : ℕ} (h : InSpan v b u s) : v s ≤ u ∧ u ≤ v (s + 1) := by
  unfold InSpan at h
  split at h
  · exact ⟨h.1.le, h.2⟩
  · exact ⟨h.1, h.2.le⟩

/-- Inserting a knot into a span of the domain. -/
theorem Knots.insert {v : ℕ → K} {a b x : K} {p n i : ℕ} (h : Knots v a b p n) (hpi : p ≤ i) (hin : i ≤ n)
    (hx : InSpan v b x i) : Knots (insKnot v i x) a b p (n + 1) where
  le := by have := h.le; omega
  mono := by
    have := insKnot_mono h.mono (by omega : i ≤ n + p + 1) (inSpan_le hx).1 (fun _ => (inSpan_le hx).2)
    rwa [show n + 1 + p + 1 = n + p + 1 + 1 by omega]
  lo := by rw [insKnot_le hpi]; exact h.lo
  hi := by rw [insKnot_gt (by omega)]; exact h.hi
  lt := h.lt

/-- `r` consecutive knots with the value `x`. -/
def Block (v : ℕ → K) (m : ℕ) (x : K) (r : ℕ) : Prop :=
  ∃ a, a + r ≤ m + 1 ∧ ∀ j, a ≤ j → j < a + r → v j = x

/-- Inserting another value does not tear a block apart. -/
theorem Block.insert_other {v : ℕ → K} {m i r : ℕ} {x y : K} (h : Block v m y r) (hxy : x ≠ y)
    (h1 : v i ≤ x) (h2 : x ≤ v (i + 1)) : Block (insKnot v i x) (m + 1) y r := by
  obtain ⟨a, ha, hv⟩ := h
  by_cases c1 : i < a
  · refine ⟨a + 1, by omega, fun j hj1 hj2 => ?_⟩
    obtain ⟨l, rfl⟩ : ∃ l, j = l + 1 := ⟨j - 1, by omega⟩
    rw [insKnot_gt (by omega)]; exact hv l (by omega) (by omega)
  · by_cases c2 : a + r ≤ i + 1
    · refine ⟨a, by omega, fun j hj1 hj2 => ?_⟩
      rw [insKnot_le (by omega)]; exact hv j hj1 hj2
    · exfalso
      have e1 := hv i (by omega) (by omega)
      have e2 := hv (i + 1) (by omega) (by omega)
      rw [e1] at h1; rw [e2] at h2
      exact hxy (le_antisymm h2 h1)

/-- Inserting the value of a block makes it longer. -/
theorem Block.insert_self {v : ℕ → K} {a b x : K} {p n i r : ℕ} (hk : Knots v a b p n) (h : Block v (n + p + 1) x r)
    (hin : i ≤ n) (hx : InSpan v b x i) :
    Block (insKnot v i x) (n + p + 1 + 1) x (r + 1) := by
  obtain ⟨l, hl, hv⟩ := h
  by_cases hr : r = 0
  · subst hr
    refine ⟨i + 1, by omega, fun j h1 h2 => ?_⟩
    rw [show j = i + 1 by omega, insKnot_mid]
  · by_cases hb : x = b
    · unfold InSpan at hx
      rw [if_pos hb] at hx
      have hil : i < l := by
        by_contra hc
        have := hk.mono l i (by omega) (by omega)
        rw [hv l (le_refl _) (by omega)] at this
        exact absurd hx.1 (not_lt.2 this)
      refine ⟨i + 1, by omega, fun j h1 h2 => ?_⟩
      by_cases hj : j = i + 1
      · rw [hj, insKnot_mid]
      · obtain ⟨q, rfl⟩ : ∃ q, j = q + 1 := ⟨j - 1, by omega⟩
        rw [insKnot_gt (by omega)]
        have e1 := hk.mono (i + 1) q (by omega) (by omega)
        have e2 := hk.mono q (l + r - 1) (by omega) (by omega)
        rw [hv (l + r - 1) (by omega) (by omega)] at e2
        exact le_antisymm e2 (le_trans hx.2 e1)
    · unfold InSpan at hx
      rw [if_neg hb] at hx
      have hli : l + r ≤ i + 1 := by
        by_contra hc
        have := hk.mono (i + 1) (l + r - 1) (by omega) (by omega)
        rw [hv (l + r - 1) (by omega) (by omega)] at this
        exact absurd hx.2 (not_lt.2 this)
      refine ⟨i + 1 - r, by omega, fun j h1 h2 => ?_⟩
      by_cases hj : j = i + 1
      · rw [hj, insKnot_mid]
      · rw [insKnot_le (by omega)]
        have e1 := hk.mono l j (by omega) (by omega)
        have e2 := hk.mono j i (by omega) (by omega)
        rw [hv l (le_refl _) (by omega)] at e1
        exact le_antisymm (le_trans e2 hx.1) e1

section ordered
variable [IsStrictOrderedRing K]

/-- **Knot insertion does not create sign changes.** -/
theorem Alt.of_insert {v : ℕ → K} {p n i m : ℕ} {x σ : K} {P : ℕ → K} (hv : MonoUpTo v (n + p + 1)) (hpi : p ≤ i)
    (hin : i ≤ n) (h1 : v i ≤ x) (h2 : x ≤ v (i + 1)) (h : Alt σ m (n + 1) (insCps v p i x P)) : Alt σ m n P := by
  obtain ⟨φ, hφn, hφ, hs⟩ := h
  have key : ∀ j, ∃ q, j ≤ m → q ≤ n ∧ q ≤ φ j ∧ φ j ≤ q + 1 ∧ 0 < σ * (-1) ^ j * P q := by
    intro j
    by_cases hj : j ≤ m
    · have h0 := hs j hj
      have hn := hφn j hj
      by_cases c1 : φ j + p ≤ i
      · rw [insCps_le c1] at h0
        exact ⟨φ j, fun _ => ⟨by omega, le_refl _, by omega, h0⟩⟩
      · by_cases c2 : i < φ j
        · rw [insCps_gt c2] at h0
          exact ⟨φ j - 1, fun _ => ⟨by omega, by omega, by omega, h0⟩⟩
        · obtain ⟨a0, a1⟩ := insAlpha_mem (t := φ j) hv hin h1 h2
          rw [insCps, smul_eq_mul, smul_eq_mul] at h0
          by_cases c3 : 0 < σ * (-1) ^ j * P (φ j)
          · exact ⟨φ j, fun _ => ⟨by omega, le_refl _, by omega, c3⟩⟩
          · refine ⟨φ j - 1, fun _ => ⟨by omega, by omega, by omega, ?_⟩⟩
            by_contra c4
            have e1 := mul_nonneg a0 (neg_nonneg.2 (not_lt.1 c3))
            have e2 := mul_nonneg (sub_nonneg.2 a1) (neg_nonneg.2 (not_lt.1 c4))
            nlinarith [e1, e2]
    · exact ⟨0, fun h => absurd h hj⟩
  choose ψ hψ using key
  refine ⟨ψ, fun j hj => (hψ j hj).1, fun j hj => ?_, fun j hj => (hψ j hj).2.2.2⟩
  obtain ⟨_, a1, _, a3⟩ := hψ j hj.le
  obtain ⟨_, _, b2, b3⟩ := hψ (j + 1) hj
  have hlt := hφ j hj
  rcases Nat.lt_or_ge (ψ j) (ψ (j + 1)) with h | h
  · exact h
  · exfalso
    have e : ψ j = ψ (j + 1) := by omega
    rw [← e, pow_succ] at b3
    nlinarith [a3, b3]

/-- A curve with the control points `P 0 … P n`. -/
def splV {V : Type} [AddCommGroup V] [Module K V] (v : ℕ → K) (b : K) (p n : ℕ) (P : ℕ → V) (u : K) : V :=
  (Finset.range (n + 1)).sum fun t => N v b p t u • P t

variable {V : Type} [AddCommGroup V] [Module K V]

theorem splV_insert {v : ℕ → K} {a b x u : K} {p n i : ℕ} (h : Knots v a b p n) (hpi : p ≤ i) (hin : i ≤ n)
    (hx : InSpan v b x i) (P : ℕ → V) (h1 : a ≤ u) (h2 : u ≤ b) :
    splV (insKnot v i x) b p (n + 1) (insCps v p i x P) u = splV v b p n P u := by
  obtain ⟨s, _, hs, hu⟩ := h.inSpan h1 h2
  exact sumN_insert (b := b) (u := u) h.mono hpi hin (inSpan_le hx).1 (inSpan_le hx).2 hs hu P

/-- `S` is kept by inserting knots. -/
def Kept (a b : K) (p : ℕ) (S : ℕ → (ℕ → V) → Prop) : Prop :=
  ∀ w l Q i x, Knots w a b p l → p ≤ i → i ≤ l → InSpan w b x i → S l Q → S (l + 1) (insCps w p i x Q)

/-- `Q` on the knots `w` is the same curve as `P` on `v`, and comes from it by inserting knots. -/
structure Finer (v : ℕ → K) (a b : K) (p n : ℕ) (P : ℕ → V) (w : ℕ → K) (l : ℕ) (Q : ℕ → V) : Prop where
  knots : Knots w a b p l
  eval : ∀ u, a ≤ u → u ≤ b → splV w b p l Q u = splV v b p n P u
  keep : ∀ S, Kept a b p S → S n P → S l Q

/-- Insert one parameter `r` times. -/
theorem exists_block {v : ℕ → K} {a b x : K} {p n : ℕ} {P : ℕ → V} (h : Knots v a b p n) (h1 : a ≤ x) (h2 : x ≤ b) :
    ∀ r, ∃ w l Q, Finer v a b p n P w l Q ∧ Block w (l + p + 1) x r ∧
      ∀ y q, y ≠ x → Block v (n + p + 1) y q → Block w (l + p + 1) y q
  | 0 => ⟨v, n, P, ⟨h, fun _ _ _ => rfl, fun _ _ h => h⟩, ⟨0, by omega, fun j _ hj => by omega⟩, fun _ _ _ h => h⟩
  | r + 1 => by
    obtain ⟨w, l, Q, hf, hb, ho⟩ := exists_block (P := P) h h1 h2 r
    obtain ⟨i, hpi, hil, hi⟩ := hf.knots.inSpan h1 h2
    have hle := inSpan_le hi
    have hself := hb.insert_self hf.knots hil hi
    rw [show l + p + 1 + 1 = l + 1 + p + 1 by omega] at hself
    refine ⟨insKnot w i x, l + 1, insCps w p i x Q, ⟨hf.knots.insert hpi hil hi, fun u hu1 hu2 => ?_, fun S hS h0 => ?_⟩,
      hself, fun y q hy hq => ?_⟩
    · rw [splV_insert hf.knots hpi hil hi Q hu1 hu2, hf.eval u hu1 hu2]
    · exact hS _ _ _ _ _ hf.knots hpi hil hi (hf.keep S hS h0)
    · have := (ho y q hy hq).insert_other (Ne.symm hy) hle.1 hle.2
      rwa [show l + p + 1 + 1 = l + 1 + p + 1 by omega] at this

/-- Insert all of several parameters `p` times. -/
theorem exists_blocks {v : ℕ → K} {a b : K} {p n : ℕ} {P : ℕ → V} (h : Knots v a b p n) {x : ℕ → K} :
    ∀ m, (∀ j, j < m → a ≤ x j ∧ x j ≤ b) → (∀ i j, i < j → j < m → x i < x j) →
      ∃ w l Q, Finer v a b p n P w l Q ∧ ∀ j, j < m → Block w (l + p + 1) (x j) p
  | 0, _, _ => ⟨v, n, P, ⟨h, fun _ _ _ => rfl, fun _ _ h => h⟩, fun j hj => by omega⟩
  | m + 1, hx, hm => by
    obtain ⟨w, l, Q, hf, hb⟩ := exists_blocks (P := P) h m (fun j hj => hx j (by omega))
      (fun i j hi hj => hm i j hi (by omega))
    obtain ⟨w', l', Q', hf', hb', ho⟩ := exists_block (P := Q) hf.knots (hx m (by omega)).1 (hx m (by omega)).2 p
    refine ⟨w', l', Q', ⟨hf'.knots, fun u h1 h2 => (hf'.eval u h1 h2).trans (hf.eval u h1 h2),
      fun S hS h0 => hf'.keep S hS (hf.keep S hS h0)⟩, fun j hj => ?_⟩
    by_cases hjm : j = m
    · rw [hjm]; exact hb'
    · exact ho _ _ (hm j m (by omega) (by omega)).ne (hb j (by omega))

/-- A curve passes at a knot of multiplicity `p` through a control point. -/
theorem splV_block {v : ℕ → K} {a b x : K} {p n s : ℕ} {P : ℕ → V} (h : Knots v a b p n) (hb : Block v (n + p + 1) x p)
    (hp : 1 ≤ p) (hps : p ≤ s) (hsn : s ≤ n) (hx : InSpan v b x s) :
    splV v b p n P x = P (if x = b then s else s - p) := by
  obtain ⟨l, hl, hv⟩ := hb
  have e1 : splV v b p n P x = (Finset.range (n + 1)).sum fun t => NS v s p t x • P t := by
    apply Finset.sum_congr rfl
    intro t ht
    rw [N_eq_NS h.mono (by omega) hx _ _ (by have := Finset.mem_range.1 ht; omega)]
  rw [e1]
  by_cases hxb : x = b
  · rw [if_pos hxb]
    unfold InSpan at hx
    rw [if_pos hxb] at hx
    have hsl : s < l := by
      by_contra hc
      have := h.mono l s (by omega) (by omega)
      rw [hv l (le_refl _) (by omega)] at this
      exact absurd hx.1 (not_lt.2 this)
    have hw : ∀ j, s < j → j ≤ s + p → v j = x := by
      intro j h1 h2
      have e1 := h.mono (s + 1) j (by omega) (by omega)
      have e2 := h.mono j (l + p - 1) (by omega) (by omega)
      rw [hv (l + p - 1) (by omega) (by omega)] at e2
      exact le_antisymm e2 (le_trans hx.2 e1)
    rw [Finset.sum_eq_single s]
    · rw [NS_left_delta hw hx.1.ne p (le_refl _) s, if_pos rfl, one_smul]
    · intro t _ hts
      rw [NS_left_delta hw hx.1.ne p (le_refl _) t, if_neg hts, zero_smul]
    · intro hs; exact absurd (Finset.mem_range.2 (by omega)) hs
  · rw [if_neg hxb]
    unfold InSpan at hx
    rw [if_neg hxb] at hx
    have hls : l + p ≤ s + 1 := by
      by_contra hc
      have := h.mono (s + 1) (l + p - 1) (by omega) (by omega)
      rw [hv (l + p - 1) (by omega) (by omega)] at this
      exact absurd hx.2 (not_lt.2 this)
    have hw : ∀ j, s < j + p → j ≤ s → v j = x := by
      intro j h1 h2
      have e1 := h.mono l j (by omega) (by omega)
      have e2 := h.mono j s (by omega) (by omega)
      rw [hv l (le_refl _) (by omega)] at e1
      exact le_antisymm (le_trans e2 hx.1) e1
    rw [Finset.sum_eq_single (s - p)]
    · rw [NS_right_delta hw hx.2.ne' p (le_refl _) hps, if_pos (by omega), one_smul]
    · intro t _ hts
      rw [NS_right_delta hw hx.2.ne' p (le_refl _) hps, if_neg (by omega), zero_smul]
    · intro hs; exact absurd (Finset.mem_range.2 (by omega)) hs

theorem spl_block {v : ℕ → K} {a b x : K} {p n s : ℕ} {P : ℕ → K} (h : Knots v a b p n) (hb : Block v (n + p + 1) x p)
    (hp : 1 ≤ p) (hps : p ≤ s) (hsn : s ≤ n) (hx : InSpan v b x s) :
    spl v b p n P x = P (if x = b then s else s - p) := splV_block h hb hp hps hsn hx

/-- Inserting increasing parameters makes the points of the curve control points, in this order. -/
theorem exists_indices {v : ℕ → K} {a b : K} {p n m : ℕ} {P : ℕ → V} {x : ℕ → K} (h : Knots v a b p n) (hp : 1 ≤ p)
    (hx : ∀ j, j ≤ m → a ≤ x j ∧ x j ≤ b) (hm : ∀ j, j < m → x j < x (j + 1)) :
    ∃ (w : ℕ → K) (l : ℕ) (Q : ℕ → V) (ψ : ℕ → ℕ), Finer v a b p n P w l Q ∧ (∀ j, j ≤ m → ψ j ≤ l) ∧ (∀ j, j < m → ψ j < ψ (j + 1)) ∧
      ∀ j, j ≤ m → Q (ψ j) = splV v b p n P (x j) := by
  have hmono : ∀ i j, i < j → j ≤ m → x i < x j := by
    intro i j hij
    induction j, hij using Nat.le_induction with
    | base => intro hj; exact hm i (by omega)
    | succ j hj ih => intro hjm; exact lt_trans (ih (by omega)) (hm j (by omega))
  obtain ⟨w, l, Q, hf, hb⟩ := exists_blocks (P := P) h (x := x) (m + 1) (fun j hj => hx j (by omega))
    (fun i j hi hj => hmono i j hi (by omega))
  have key : ∀ j, ∃ s, j ≤ m → p ≤ s ∧ s ≤ l ∧ InSpan w b (x j) s := by
    intro j
    by_cases hj : j ≤ m
    · obtain ⟨s, h1, h2, h3⟩ := hf.knots.inSpan (hx j hj).1 (hx j hj).2
      exact ⟨s, fun _ => ⟨h1, h2, h3⟩⟩
    · exact ⟨0, fun h => absurd h hj⟩
  choose s hs' using key
  refine ⟨w, l, Q, fun j => if x j = b then s j else s j - p, hf, fun j hj => ?_, fun j hj => ?_, fun j hj => ?_⟩
  · have := (hs' j hj).2.1
    show (if x j = b then s j else s j - p) ≤ l
    split_ifs <;> omega
  · obtain ⟨a1, a2, a3⟩ := hs' j hj.le
    obtain ⟨b1, b2, b3⟩ := hs' (j + 1) hj
    have hlt := hm j hj
    have hxb : x j ≠ b := (lt_of_lt_of_le hlt (hx (j + 1) hj).2).ne
    simp only [if_neg hxb]
    have hsj := a3
    unfold InSpan at hsj
    rw [if_neg hxb] at hsj
    obtain ⟨c, hc, hv⟩ := hb (j + 1) (by omega)
    have hsc : s j < c := by
      by_contra hcc
      have := hf.knots.mono c (s j) (by omega) (by omega)
      rw [hv c (le_refl _) (by omega)] at this
      exact absurd (lt_of_lt_of_le hlt this) (not_lt.2 hsj.1)
    by_cases hyb : x (j + 1) = b
    · rw [if_pos hyb]
      unfold InSpan at b3
      rw [if_pos hyb] at b3
      have : s j ≤ s (j + 1) := by
        by_contra hcc
        have := hf.knots.mono (s (j + 1) + 1) (s j) (by omega) (by omega)
        exact absurd (lt_of_le_of_lt hsj.1 hlt) (not_lt.2 (le_trans b3.2 this))
      omega
    · rw [if_neg hyb]
      unfold InSpan at b3
      rw [if_neg hyb] at b3
      have : c + p ≤ s (j + 1) + 1 := by
        by_contra hcc
        have := hf.knots.mono (s (j + 1) + 1) (c + p - 1) (by omega) (by omega)
        rw [hv (c + p - 1) (by omega) (by omega)] at this
        exact absurd b3.2 (not_lt.2 this)
      omega
  · obtain ⟨a1, a2, a3⟩ := hs' j hj
    rw [← hf.eval _ (hx j hj).1 (hx j hj).2, splV_block hf.knots (hb j (by omega)) hp a1 a2 a3]

/-- **Variation diminution.** If a spline takes values of alternating sign at `m + 1` increasing parameters, then `m + 1`
    of its coefficients have alternating signs. -/
theorem Alt.of_values {v : ℕ → K} {a b σ : K} {p n m : ℕ} {P : ℕ → K} {x : ℕ → K} (h : Knots v a b p n) (hp : 1 ≤ p)
    (hx : ∀ j, j ≤ m → a ≤ x j ∧ x j ≤ b) (hm : ∀ j, j < m → x j < x (j + 1))
    (hs : ∀ j, j ≤ m → 0 < σ * (-1) ^ j * spl v b p n P (x j)) : Alt σ m n P := by
  obtain ⟨w, l, Q, ψ, hf, h1, h2, h3⟩ := exists_indices (P := P) h hp hx hm
  refine hf.keep (fun l Q => Alt σ m l Q → Alt σ m n P)
    (fun w l Q i y hw h1 h2 h3 ih hA => ih (hA.of_insert hw.mono h1 h2 (inSpan_le h3).1 (inSpan_le h3).2)) id
    ⟨ψ, h1, h2, fun j hj => ?_⟩
  rw [h3 j hj]
  exact hs j hj

end ordered

end Curvo.Spec

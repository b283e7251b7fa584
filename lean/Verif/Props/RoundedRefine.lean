/-
  Property theorems about knot refinement and splitting in floating point arithmetic: C100.
-/
import Verif.Model.RoundedRefine
import Verif.Props.Rounded
import Verif.Props.Refine

set_option linter.unusedSectionVars false
set_option linter.unusedSimpArgs false

namespace Curvo.Props

open Curvo Curvo.Knots Curvo.Spec Curvo.Curve

variable {K : Type} [Field K] [LinearOrder K] [IsStrictOrderedRing K] {d : ℕ}

/-- A coordinate of a homogeneous point, or its weight. -/
def hcoord (i : Option (Fin d)) (q : (Fin d → K) × K) : K := i.elim q.2 q.1

theorem hcoord_zero (i : Option (Fin d)) : hcoord i (0 : (Fin d → K) × K) = 0 := by cases i <;> rfl

theorem hcoord_add (i : Option (Fin d)) (p q : (Fin d → K) × K) : hcoord i (p + q) = hcoord i p + hcoord i q := by cases i <;> rfl

theorem hcoord_smul (i : Option (Fin d)) (t : K) (q : (Fin d → K) × K) : hcoord i (t • q) = t * hcoord i q := by cases i <;> rfl

theorem hcoord_lerp (i : Option (Fin d)) (p q : (Fin d → K) × K) (t : K) :
    hcoord i (Curve.lerp p q t) = (1 - t) * hcoord i p + t * hcoord i q := by
  rw [Curve.lerp, hcoord_add, hcoord_smul, hcoord_smul]

theorem hcoord_lerpR (fl : K → K) (i : Option (Fin d)) (p q : (Fin d → K) × K) (t : K) :
    hcoord i (Rounded.lerp fl p q t) = Rounded.lerp1 fl (hcoord i p) (hcoord i q) t := by cases i <;> rfl

/-! ### One combination -/

/-- The relative error of one combination of two control points. -/
def lerpErr (μ : K) : K := (1 + μ) ^ 3 - 1 + 2 * μ + 2 * (((1 - μ) ^ 3)⁻¹ - 1)

section one
variable {fl : K → K} {μ : K}

theorem Rounds.zero (h : Rounds fl μ) : fl 0 = 0 := by
  have := h.err 0
  rw [abs_zero, mul_zero, sub_zero] at this
  exact abs_eq_zero.1 (le_antisymm this (abs_nonneg _))

theorem Rounds.le (h : Rounds fl μ) (x : K) : |fl x| ≤ (1 + μ) * |x| := by
  have := h.err x
  have e := abs_add_le (fl x - x) x
  rw [sub_add_cancel] at e
  linarith

/-- The rounded weight of a combination. -/
theorem weight_near (h : Rounds fl μ) (h1 : fl 1 = 1) {α δ : K} (h0 : 0 ≤ α) (hle : α ≤ δ) (hd : 0 < δ) :
    0 ≤ fl (fl α / fl δ) ∧ fl (fl α / fl δ) ≤ 1 ∧ |fl (fl α / fl δ) - α / δ| ≤ ((1 - μ) ^ 3)⁻¹ - 1 := by
  have h00 := h.rho_pos
  have a1 := h.rel h0
  have a2 := h.rel hd.le
  have hdp := a2.pos h00 hd
  have a3 := ((a1.div h00 a2 hd).round h)
  have hfa : 0 ≤ fl α := a1.nonneg h00
  have hq0 : 0 ≤ fl (fl α / fl δ) := a3.nonneg h00
  have hq1 : fl (fl α / fl δ) ≤ 1 := by
    rw [← h1]
    refine h.mono _ _ ?_
    rw [div_le_one hdp]
    exact h.mono _ _ hle
  refine ⟨hq0, hq1, ?_⟩
  have hw1 : α / δ ≤ 1 := (div_le_one hd).2 hle
  have hw0 : 0 ≤ α / δ := div_nonneg h0 hd.le
  rw [show 1 + 1 + 1 = 3 from rfl] at a3
  have hp : 0 < (1 - μ) ^ 3 := pow_pos h00 _
  have hp1 : (1 - μ) ^ 3 ≤ 1 := pow_le_one₀ h00.le h.rho_le
  have hup : fl (fl α / fl δ) ≤ ((1 - μ) ^ 3)⁻¹ * (α / δ) := by
    rw [inv_mul_eq_div, le_div_iff₀ hp, mul_comm]; exact a3.2.2
  have hlo := a3.2.1
  have hi1 : 1 ≤ ((1 - μ) ^ 3)⁻¹ := (one_le_inv₀ hp).2 hp1
  have hsum : 2 ≤ (1 - μ) ^ 3 + ((1 - μ) ^ 3)⁻¹ := by
    have : (1 - μ) ^ 3 * ((1 - μ) ^ 3)⁻¹ = 1 := mul_inv_cancel₀ hp.ne'
    nlinarith [sq_nonneg ((1 - μ) ^ 3 - 1), inv_pos.2 hp]
  rw [abs_le]
  constructor <;> nlinarith

/-- The error of one combination. -/
theorem lerp1_near (h : Rounds fl μ) (h1 : fl 1 = 1) {w w' p q p' q' E M : K} (hw0' : 0 ≤ w') (hw1' : w' ≤ 1)
    (hw : |w' - w| ≤ ((1 - μ) ^ 3)⁻¹ - 1) (hp : |p| ≤ M) (hq : |q| ≤ M) (hE : 0 ≤ E) (hp' : |p' - p| ≤ E) (hq' : |q' - q| ≤ E) :
    |Rounded.lerp1 fl p' q' (fl (1 - w')) - (w * p + (1 - w) * q)| ≤ (1 + lerpErr μ) * E + lerpErr μ * M := by
  have hμ := h.nonneg
  obtain ⟨γ, hγ⟩ : ∃ γ, γ = ((1 - μ) ^ 3)⁻¹ - 1 := ⟨_, rfl⟩
  have hγ0 : 0 ≤ γ := by
    rw [hγ]
    have : 1 ≤ ((1 - μ) ^ 3)⁻¹ := (one_le_inv₀ (pow_pos h.rho_pos _)).2 (pow_le_one₀ h.rho_pos.le h.rho_le)
    linarith
  have hM : 0 ≤ M := (abs_nonneg _).trans hp
  obtain ⟨t, ht⟩ : ∃ t, t = fl (1 - w') := ⟨_, rfl⟩
  obtain ⟨b, hb⟩ : ∃ b, b = fl (1 - t) := ⟨_, rfl⟩
  have ht0 : 0 ≤ t := by rw [ht, ← h.zero]; exact h.mono _ _ (by linarith)
  have ht1 : t ≤ 1 := by
    have := h.mono (1 - w') 1 (by linarith)
    rw [h1] at this
    rw [ht]; exact this
  have hb0 : 0 ≤ b := by rw [hb, ← h.zero]; exact h.mono _ _ (by linarith)
  have et : |t - (1 - w)| ≤ μ + γ := by
    have e := h.err (1 - w')
    rw [abs_of_nonneg (by linarith : (0 : K) ≤ 1 - w')] at e
    have e2 := abs_add_le (t - (1 - w')) (w - w')
    rw [show t - (1 - w') + (w - w') = t - (1 - w) by ring, abs_sub_comm w w', ht] at e2
    rw [ht]
    rw [hγ]
    nlinarith
  have eb : |b - w| ≤ 2 * μ + γ := by
    have e := h.err (1 - t)
    rw [abs_of_nonneg (by linarith : (0 : K) ≤ 1 - t)] at e
    have e2 := abs_add_le (b - (1 - t)) (1 - w - t)
    rw [show b - (1 - t) + (1 - w - t) = b - w by ring, abs_sub_comm (1 - w) t, hb] at e2
    rw [hb]
    nlinarith
  have hbt : t + b ≤ 1 + μ := by
    have := (abs_le.1 (h.err (1 - t))).2
    rw [abs_of_nonneg (by linarith : (0 : K) ≤ 1 - t), ← hb] at this
    nlinarith
  have bp' : |p'| ≤ M + E := by
    have := abs_add_le (p' - p) p
    rw [sub_add_cancel] at this; linarith
  have bq' : |q'| ≤ M + E := by
    have := abs_add_le (q' - q) q
    rw [sub_add_cancel] at this; linarith
  have hS : |t * q' + b * p' - (w * p + (1 - w) * q)| ≤ (1 + μ) * E + (3 * μ + 2 * γ) * M := by
    have e : t * q' + b * p' - (w * p + (1 - w) * q) = t * (q' - q) + b * (p' - p) + ((t - (1 - w)) * q + (b - w) * p) := by ring
    rw [e]
    refine (abs_add_le _ _).trans ?_
    have e1 := abs_add_le (t * (q' - q)) (b * (p' - p))
    have e2 := abs_add_le ((t - (1 - w)) * q) ((b - w) * p)
    rw [abs_mul, abs_mul, abs_of_nonneg ht0, abs_of_nonneg hb0] at e1
    rw [abs_mul, abs_mul] at e2
    have k1 : t * |q' - q| + b * |p' - p| ≤ (1 + μ) * E := by
      have k1 := mul_le_mul_of_nonneg_left hq' ht0
      have k2 := mul_le_mul_of_nonneg_left hp' hb0
      have k3 := mul_le_mul_of_nonneg_right hbt hE
      linarith
    have k2 : |t - (1 - w)| * |q| ≤ (μ + γ) * M := mul_le_mul et hq (abs_nonneg _) (by linarith)
    have k3 : |b - w| * |p| ≤ (2 * μ + γ) * M := mul_le_mul eb hp (abs_nonneg _) (by linarith)
    linarith
  have hT : |t * q'| + |b * p'| ≤ (1 + μ) * (M + E) := by
    rw [abs_mul, abs_mul, abs_of_nonneg ht0, abs_of_nonneg hb0]
    have k1 := mul_le_mul_of_nonneg_left bq' ht0
    have k2 := mul_le_mul_of_nonneg_left bp' hb0
    have k3 := mul_le_mul_of_nonneg_right hbt (show 0 ≤ M + E by linarith)
    linarith
  have r1 := h.err (t * q')
  have r2 := h.err (b * p')
  have r3 := h.err (fl (t * q') + fl (b * p'))
  have r4 := abs_add_le (fl (t * q')) (fl (b * p'))
  have r5 := h.le (t * q')
  have r6 := h.le (b * p')
  have hR : |fl (fl (t * q') + fl (b * p')) - (t * q' + b * p')| ≤ (2 * μ + μ ^ 2) * ((1 + μ) * (M + E)) := by
    have e : fl (fl (t * q') + fl (b * p')) - (t * q' + b * p') =
        (fl (fl (t * q') + fl (b * p')) - (fl (t * q') + fl (b * p'))) + ((fl (t * q') - t * q') + (fl (b * p') - b * p')) := by ring
    rw [e]
    refine (abs_add_le _ _).trans ?_
    have e1 := abs_add_le (fl (t * q') - t * q') (fl (b * p') - b * p')
    have k1 : μ * |fl (t * q') + fl (b * p')| ≤ μ * ((1 + μ) * (|t * q'| + |b * p'|)) := mul_le_mul_of_nonneg_left (by linarith) hμ
    have k2 : (2 * μ + μ ^ 2) * (|t * q'| + |b * p'|) ≤ (2 * μ + μ ^ 2) * ((1 + μ) * (M + E)) :=
      mul_le_mul_of_nonneg_left hT (by positivity)
    have k3 : μ * ((1 + μ) * (|t * q'| + |b * p'|)) + (μ * |t * q'| + μ * |b * p'|) = (2 * μ + μ ^ 2) * (|t * q'| + |b * p'|) := by ring
    linarith
  have hfin : |Rounded.lerp1 fl p' q' t - (w * p + (1 - w) * q)| ≤
      (2 * μ + μ ^ 2) * ((1 + μ) * (M + E)) + ((1 + μ) * E + (3 * μ + 2 * γ) * M) := by
    have e : Rounded.lerp1 fl p' q' t - (w * p + (1 - w) * q) =
        (fl (fl (t * q') + fl (b * p')) - (t * q' + b * p')) + (t * q' + b * p' - (w * p + (1 - w) * q)) := by
      rw [Rounded.lerp1, ← hb]; ring
    rw [e]
    exact (abs_add_le _ _).trans (add_le_add hR hS)
  rw [← ht]
  refine hfin.trans ?_
  rw [lerpErr, ← hγ]
  have k1 := mul_nonneg hμ hE
  have k2 := mul_nonneg hγ0 hE
  have k3 : (2 * μ + μ ^ 2) * ((1 + μ) * (M + E)) + ((1 + μ) * E + (3 * μ + 2 * γ) * M) =
    (1 + ((1 + μ) ^ 3 - 1 + 2 * μ + 2 * γ)) * E + ((1 + μ) ^ 3 - 1 + 2 * μ + 2 * γ) * M - (2 * (μ * E) + 2 * (γ * E)) := by ring
  linarith

theorem lerpErr_nonneg (h : Rounds fl μ) : 0 ≤ lerpErr μ := by
  have hμ := h.nonneg
  have : 1 ≤ ((1 - μ) ^ 3)⁻¹ := (one_le_inv₀ (pow_pos h.rho_pos _)).2 (pow_le_one₀ h.rho_pos.le h.rho_le)
  have : 1 ≤ (1 + μ) ^ 3 := one_le_pow₀ (by linarith)
  rw [lerpErr]
  linarith

end one

/-! ### The loops -/

section loops
variable {fl : K → K} {μ eps : K} {c : Curve K ((Fin d → K) × K)} {M : Option (Fin d) → K}

/-- The coordinates of the exact points are bounded by `M`, those of the computed ones differ by at most `e M`. -/
structure Near (e : K) (M : Option (Fin d) → K) (cp cp' : List ((Fin d → K) × K)) : Prop where
  len : cp'.length = cp.length
  bound : ∀ i t, |hcoord i (cp.getD t 0)| ≤ M i
  near : ∀ i t, |hcoord i (cp'.getD t 0) - hcoord i (cp.getD t 0)| ≤ e * M i

theorem Near.set {e : K} {cp cp' : List ((Fin d → K) × K)} (h : Near e M cp cp') {j : ℕ} {v v' : (Fin d → K) × K}
    (hb : ∀ i, |hcoord i v| ≤ M i) (hn : ∀ i, |hcoord i v' - hcoord i v| ≤ e * M i) : Near e M (cp.set j v) (cp'.set j v') := by
  refine ⟨by simp [h.len], fun i t => ?_, fun i t => ?_⟩
  · by_cases hj : j = t
    · subst hj
      by_cases hl : j < cp.length
      · rw [getD_set_eq hl]; exact hb i
      · rw [List.set_eq_of_length_le (by omega)]; exact h.bound i j
    · rw [getD_set_ne hj]; exact h.bound i t
  · by_cases hj : j = t
    · subst hj
      by_cases hl : j < cp.length
      · rw [getD_set_eq hl, getD_set_eq (by rw [h.len]; exact hl)]; exact hn i
      · rw [List.set_eq_of_length_le (l := cp') (by rw [h.len]; omega), List.set_eq_of_length_le (l := cp) (by omega)]; exact h.near i j
    · rw [getD_set_ne hj, getD_set_ne hj]; exact h.near i t

theorem Near.mono {e f : K} {cp cp' : List ((Fin d → K) × K)} (h : Near e M cp cp') (hM : ∀ i, 0 ≤ M i) (hef : e ≤ f) : Near f M cp cp' :=
  ⟨h.len, h.bound, fun i t => (h.near i t).trans (mul_le_mul_of_nonneg_right hef (hM i))⟩

theorem while_near (hM : ∀ i, 0 ≤ M i) (hc : ∀ i, ∀ q ∈ c.cps, |hcoord i q| ≤ M i) {e : K} (he : 0 ≤ e) {a : ℕ} {x : K} :
    ∀ (fuel : ℕ) (s s' : RefState K ((Fin d → K) × K)) (cp' : List ((Fin d → K) × K)), refineWhile c a x fuel s = .ok s' → Near e M s.cp cp' →
      ∃ cp'', refineWhile c a x fuel { s with cp := cp' } = .ok { s' with cp := cp'' } ∧ Near e M s'.cp cp'' := by
  intro fuel
  induction fuel with
  | zero => intro s s' cp' h; cases h
  | succ fuel ih =>
    intro s s' cp' h hn
    rw [refineWhile] at h
    obtain ⟨ki, e1, h⟩ := bind_eq_ok.1 h
    rw [refineWhile]
    simp only [e1, ok_bind]
    by_cases hc1 : x ≤ ki ∧ a < s.i
    · rw [if_pos hc1] at h ⊢
      obtain ⟨v1, e2, h⟩ := bind_eq_ok.1 h
      obtain ⟨v2, e3, h⟩ := bind_eq_ok.1 h
      obtain ⟨v3, e4, h⟩ := bind_eq_ok.1 h
      obtain ⟨v4, e5, h⟩ := bind_eq_ok.1 h
      obtain ⟨v5, e6, h⟩ := bind_eq_ok.1 h
      obtain ⟨v6, e7, h⟩ := bind_eq_ok.1 h
      obtain ⟨v7, e8, h⟩ := bind_eq_ok.1 h
      obtain ⟨v8, e9, h⟩ := bind_eq_ok.1 h
      obtain ⟨v9, e10, h⟩ := bind_eq_ok.1 h
      have hv5 : v5 < s.cp.length := by
        by_contra hlt
        simp [setR, hlt] at e7
      rw [setR_eq_ok hv5] at e7
      obtain rfl := Except.ok.inj e7
      have hv3 : v3 ∈ c.cps := by
        unfold getR at e4
        cases hg : c.cps[v2]? with
        | none => rw [hg] at e4; cases e4
        | some w =>
          rw [hg] at e4
          obtain rfl := Except.ok.inj e4
          exact List.mem_of_getElem? hg
      have e7' : setR cp' v5 v3 = .ok (cp'.set v5 v3) := setR_eq_ok (by rw [hn.len]; exact hv5)
      simp only [e2, e3, e4, e5, e6, e7', e8, e9, e10, ok_bind]
      exact ih _ _ _ h (hn.set (fun i => hc i _ hv3) (fun i => by rw [sub_self, abs_zero]; exact mul_nonneg he (hM i)))
    · rw [if_neg hc1] at h ⊢
      obtain rfl := Except.ok.inj h
      exact ⟨cp', rfl, hn⟩

/-- The inner loop of the rounded code. -/
theorem alpha_fold (h : Rounds fl μ) (heps : fl eps = eps) {x : K} {kn : List K} {k i : ℕ} {cp : List ((Fin d → K) × K)}
    (hpi : c.degree ≤ i) (hk : k < cp.length) (hkn : k + c.degree < kn.length)
    (hil : i < c.knots.length) (hpk : c.degree < k)
    (hsep : ∀ l, 1 ≤ l → l ≤ c.degree → |kf kn (k + l) - x| < eps → kf kn (k + l) = x)
    (hx : ∀ l, 1 ≤ l → l ≤ c.degree → x ≤ kf kn (k + l)) :
    ∀ L, L ≤ c.degree → ∃ cp', (List.range' 1 L).foldlM (Rounded.refineAlpha fl eps c x kn k i) cp = .ok cp' ∧
      cp'.length = cp.length ∧
      (∀ t, t < k - c.degree ∨ k - c.degree + L ≤ t → cp'.getD t 0 = cp.getD t 0) ∧
      (∀ l, 1 ≤ l → l ≤ L → (kf kn (k + l) = x ∧ cp'.getD (k - c.degree + l - 1) 0 = cp.getD (k - c.degree + l) 0) ∨
        cp'.getD (k - c.degree + l - 1) 0 = Rounded.lerp fl (cp.getD (k - c.degree + l - 1) 0) (cp.getD (k - c.degree + l) 0)
          (fl (1 - if fl (kf kn (k + l) - kf c.knots (i - c.degree + l)) ≠ 0 then
            fl (fl (kf kn (k + l) - x) / fl (kf kn (k + l) - kf c.knots (i - c.degree + l))) else 0))) := by
  intro L
  induction L with
  | zero => intro _; exact ⟨cp, rfl, rfl, fun _ _ => rfl, fun l h1 h2 => by omega⟩
  | succ L ih =>
    intro hL
    obtain ⟨cp1, h1, h2, h3, h4⟩ := ih (by omega)
    obtain ⟨v, step, hv⟩ : ∃ v, Rounded.refineAlpha fl eps c x kn k i cp1 (1 + L) = .ok (cp1.set (k - c.degree + L) v) ∧
        ((kf kn (k + (L + 1)) = x ∧ v = cp.getD (k - c.degree + (L + 1)) 0) ∨
        v = Rounded.lerp fl (cp.getD (k - c.degree + (L + 1) - 1) 0) (cp.getD (k - c.degree + (L + 1)) 0)
          (fl (1 - if fl (kf kn (k + (L + 1)) - kf c.knots (i - c.degree + (L + 1))) ≠ 0 then
            fl (fl (kf kn (k + (L + 1)) - x) / fl (kf kn (k + (L + 1)) - kf c.knots (i - c.degree + (L + 1)))) else 0))) := by
      have hD : subR k c.degree = .ok (k - c.degree) := subR_eq_ok (by omega)
      rw [Rounded.refineAlpha, hD, ok_bind]
      have e1 : k - c.degree + (1 + L) = k - c.degree + L + 1 := by omega
      simp only [e1]
      rw [if_pos (by omega), getR_kf (by omega), ok_bind, subR_eq_ok (by omega), ok_bind]
      have e2 : k + (1 + L) = k + (L + 1) := by omega
      have g1 : cp1.getD (k - c.degree + L + 1) 0 = cp.getD (k - c.degree + (L + 1)) 0 :=
        h3 _ (Or.inr (by omega))
      have g0 : cp1.getD (k - c.degree + L) 0 = cp.getD (k - c.degree + L) 0 := h3 _ (Or.inr (by omega))
      rw [e2]
      by_cases hsmall : |fl (kf kn (k + (L + 1)) - x)| < eps
      · rw [if_pos hsmall, getR_eq_getD (0 : (Fin d → K) × K) (by omega), ok_bind, setR_eq_ok (by omega), g1, Nat.add_sub_cancel]
        refine ⟨_, rfl, .inl ⟨?_, rfl⟩⟩
        refine hsep (L + 1) (by omega) hL ?_
        have hx' := hx (L + 1) (by omega) hL
        by_contra hc
        push Not at hc
        rw [abs_of_nonneg (by linarith)] at hc
        have := h.mono _ _ hc
        rw [heps] at this
        exact absurd hsmall (not_lt.2 (this.trans (le_abs_self _)))
      · rw [if_neg hsmall, subR_eq_ok (by omega), ok_bind, getR_kf (by omega), ok_bind,
          getR_eq_getD (0 : (Fin d → K) × K) (by omega), ok_bind, getR_eq_getD (0 : (Fin d → K) × K) (by omega), ok_bind,
          setR_eq_ok (by omega), Nat.add_sub_cancel, g0, g1,
          show i - c.degree + (1 + L) = i - c.degree + (L + 1) by omega]
        exact ⟨_, rfl, .inr rfl⟩
    refine ⟨cp1.set (k - c.degree + L) v, ?_, by simpa using h2, ?_, ?_⟩
    · rw [List.range'_1_concat, List.foldlM_append, h1]
      simp only [List.foldlM_cons, List.foldlM_nil, ok_bind]
      rw [step, ok_bind]; rfl
    · intro t ht
      rw [getD_set_ne (by omega), h3 t (by omega)]
    · intro l hl1 hl2
      rcases Nat.lt_or_eq_of_le hl2 with h | h
      · rw [getD_set_ne (by omega)]
        exact h4 l hl1 (by omega)
      · subst h
        rw [show k - c.degree + (L + 1) - 1 = k - c.degree + L by omega] at hv ⊢
        rw [getD_set_eq (by omega)]
        exact hv

/-- One inserted knot. -/
theorem step_near (h : Rounds fl μ) (h1 : fl 1 = 1) (heps : fl eps = eps) (hM : ∀ i, 0 ≤ M i) (hc : ∀ i, ∀ q ∈ c.cps, |hcoord i q| ≤ M i)
    {a r1 q : ℕ} {x : K} {s : RefState K ((Fin d → K) × K)} (hd : c.degree < c.cps.length)
    (hl : c.knots.length = c.cps.length + c.degree + 1) (hpa : c.degree ≤ a) (han : a < c.cps.length)
    (hq : 0 < q) (hs : RInv c a r1 q x s) (hmono : c.knots.Pairwise (· ≤ ·)) (hax : kf c.knots a ≤ x) (hxhi : x ≤ c.hi)
    (hsep : ∀ y ∈ (view c s).knots, |y - x| < eps → y = x) {e : K} (he : 0 ≤ e) {cp' : List ((Fin d → K) × K)} (hn : Near e M s.cp cp') :
    ∃ s' cp'', Curve.refineStep eps c a s x = .ok s' ∧ Rounded.refineStep fl eps c a { s with cp := cp' } x = .ok { s' with cp := cp'' } ∧
      Near ((1 + lerpErr μ) * e + lerpErr μ) M s'.cp cp'' := by
  obtain ⟨t, g1, g2, g3, g4⟩ := refineWhile_spec hd hl hpa hq (s.i + 1) s hs (by omega)
  obtain ⟨cpt, w1, hnt⟩ := while_near hM hc he (s.i + 1) s t cp' g1 hn
  have hit : t.i < c.cps.length := by
    rcases g4 with h | h
    · by_contra hge
      have := mono_of_sorted hmono (m := t.i) (by have := g2.i_le; omega) c.cps.length t.i (by omega)
        (le_refl _)
      exact absurd (lt_of_le_of_lt this h) (not_lt.2 hxhi)
    · omega
  have hvt : kf c.knots t.i ≤ x := by
    rcases g4 with h | h
    · exact h.le
    · rw [h]; exact hax
  obtain ⟨hk, hkl, hcl, hqr, hai, hil, hkt, hct, hr⟩ := g2
  have hv : (view c s).knots = c.knots.take (t.i + 1) ++ t.kn.drop (t.k + 1) := by rw [← g3]; rfl
  have hmem : ∀ l, 1 ≤ l → l ≤ c.degree → kf t.kn (t.k + l) ∈ t.kn.drop (t.k + 1) := by
    intro l hl1 hl2
    rw [kf_eq (by omega)]
    exact List.mem_drop_iff_getElem.2 ⟨l - 1, by omega, by congr 1; omega⟩
  have hsp : ∀ l, 1 ≤ l → l ≤ c.degree → |kf t.kn (t.k + l) - x| < eps → kf t.kn (t.k + l) = x := fun l hl1 hl2 hsm =>
    hsep _ (by rw [hv]; exact List.mem_append_right _ (hmem l hl1 hl2)) hsm
  have hge : ∀ l, 1 ≤ l → l ≤ c.degree → x ≤ kf t.kn (t.k + l) := fun l hl1 hl2 => hr _ (hmem l hl1 hl2)
  have hlo : ∀ l, 1 ≤ l → l ≤ c.degree → kf c.knots (t.i - c.degree + l) ≤ x := fun l hl1 hl2 =>
    (mono_of_sorted hmono (m := t.i) (by omega) _ _ (by omega) (le_refl _)).trans hvt
  have hlt := hnt.len
  obtain ⟨cpA, f1, f2, f3, f4⟩ := refineAlpha_fold (eps := eps) (c := c) (x := x) (kn := t.kn) (k := t.k)
    (i := t.i) (cp := t.cp.set (t.k - c.degree - 1) (t.cp.getD (t.k - c.degree) 0)) (by omega) (by omega)
    (by simp; omega) (by omega) (by omega) (by omega) hsp c.degree (le_refl _)
  obtain ⟨cpB, b1, b2, b3, b4⟩ := alpha_fold h heps (c := c) (x := x) (kn := t.kn) (k := t.k)
    (i := t.i) (cp := cpt.set (t.k - c.degree - 1) (cpt.getD (t.k - c.degree) 0)) (by omega)
    (by simp; omega) (by omega) (by omega) (by omega) hsp hge c.degree (le_refl _)
  have hset := hnt.set (j := t.k - c.degree - 1) (v := t.cp.getD (t.k - c.degree) 0) (v' := cpt.getD (t.k - c.degree) 0)
    (fun i => hnt.bound i _) (fun i => hnt.near i _)
  have hκ := lerpErr_nonneg h
  have hee : e ≤ (1 + lerpErr μ) * e + lerpErr μ := by nlinarith
  have hwt : ∀ l, 1 ≤ l → l ≤ c.degree → 0 ≤ (kf t.kn (t.k + l) - x) / (kf t.kn (t.k + l) - kf c.knots (t.i - c.degree + l)) ∧
      (kf t.kn (t.k + l) - x) / (kf t.kn (t.k + l) - kf c.knots (t.i - c.degree + l)) ≤ 1 := by
    intro l hl1 hl2
    have k1 := hge l hl1 hl2
    have k2 := hlo l hl1 hl2
    exact ⟨div_nonneg (by linarith) (by linarith), div_le_one_of_le₀ (by linarith) (by linarith)⟩
  have hin : ∀ j, ¬ (j < t.k - c.degree ∨ t.k - c.degree + c.degree ≤ j) → ∃ l, 1 ≤ l ∧ l ≤ c.degree ∧ j = t.k - c.degree + l - 1 := by
    intro j hj
    exact ⟨j + 1 - (t.k - c.degree), by omega, by omega, by omega⟩
  have key : Near ((1 + lerpErr μ) * e + lerpErr μ) M cpA cpB := by
    refine ⟨by rw [b2, f2]; exact hset.len, fun i j => ?_, fun i j => ?_⟩
    · by_cases hj : j < t.k - c.degree ∨ t.k - c.degree + c.degree ≤ j
      · rw [f3 j hj]; exact hset.bound i j
      · obtain ⟨l, hl1, hl2, rfl⟩ := hin j hj
        obtain ⟨w0, w1⟩ := hwt l hl1 hl2
        have k1 := hset.bound i (t.k - c.degree + l - 1)
        have k2 := hset.bound i (t.k - c.degree + l)
        rw [f4 l hl1 hl2, hcoord_lerp]
        generalize (kf t.kn (t.k + l) - x) / (kf t.kn (t.k + l) - kf c.knots (t.i - c.degree + l)) = w at w0 w1
        rw [sub_sub_cancel]
        refine (abs_add_le _ _).trans ?_
        rw [abs_mul, abs_mul, abs_of_nonneg w0, abs_of_nonneg (by linarith : 0 ≤ 1 - w)]
        have m1 := mul_le_mul_of_nonneg_left k1 w0
        have m2 := mul_le_mul_of_nonneg_left k2 (by linarith : 0 ≤ 1 - w)
        linarith
    · have hmm := mul_le_mul_of_nonneg_right hee (hM i)
      by_cases hj : j < t.k - c.degree ∨ t.k - c.degree + c.degree ≤ j
      · rw [f3 j hj, b3 j hj]; exact (hset.near i j).trans hmm
      · obtain ⟨l, hl1, hl2, rfl⟩ := hin j hj
        obtain ⟨w0, w1⟩ := hwt l hl1 hl2
        have k1 := hset.bound i (t.k - c.degree + l - 1)
        have k2 := hset.bound i (t.k - c.degree + l)
        have k3 := hset.near i (t.k - c.degree + l - 1)
        have k4 := hset.near i (t.k - c.degree + l)
        rw [f4 l hl1 hl2, hcoord_lerp]
        rcases b4 l hl1 hl2 with ⟨ex, eb⟩ | eb
        · rw [eb, ex, sub_self, zero_div, sub_zero, sub_self, zero_mul, zero_add, one_mul]
          exact k4.trans hmm
        · rw [eb, hcoord_lerpR, sub_sub_cancel]
          have hw' : 0 ≤ (if fl (kf t.kn (t.k + l) - kf c.knots (t.i - c.degree + l)) ≠ 0 then
              fl (fl (kf t.kn (t.k + l) - x) / fl (kf t.kn (t.k + l) - kf c.knots (t.i - c.degree + l))) else 0) ∧
              (if fl (kf t.kn (t.k + l) - kf c.knots (t.i - c.degree + l)) ≠ 0 then
              fl (fl (kf t.kn (t.k + l) - x) / fl (kf t.kn (t.k + l) - kf c.knots (t.i - c.degree + l))) else 0) ≤ 1 ∧
              |(if fl (kf t.kn (t.k + l) - kf c.knots (t.i - c.degree + l)) ≠ 0 then
              fl (fl (kf t.kn (t.k + l) - x) / fl (kf t.kn (t.k + l) - kf c.knots (t.i - c.degree + l))) else 0) -
              (kf t.kn (t.k + l) - x) / (kf t.kn (t.k + l) - kf c.knots (t.i - c.degree + l))| ≤ ((1 - μ) ^ 3)⁻¹ - 1 := by
            have q1 := hge l hl1 hl2
            have q2 := hlo l hl1 hl2
            rcases (sub_nonneg.2 (q2.trans q1)).eq_or_lt with hz | hz
            · rw [← hz, h.zero, if_neg (by simp), div_zero, sub_self, abs_zero]
              refine ⟨le_rfl, zero_le_one, ?_⟩
              have : 1 ≤ ((1 - μ) ^ 3)⁻¹ := (one_le_inv₀ (pow_pos h.rho_pos _)).2 (pow_le_one₀ h.rho_pos.le h.rho_le)
              linarith
            · rw [if_pos ((h.rel hz.le).pos h.rho_pos hz).ne']
              exact weight_near h h1 (by linarith) (by linarith) hz
          have := lerp1_near h h1 hw'.1 hw'.2.1 hw'.2.2 k1 k2 (mul_nonneg he (hM i)) k3 k4
          refine this.trans (le_of_eq ?_)
          ring
  refine ⟨{ cp := cpA, kn := t.kn.set t.k x, k := t.k - 1, i := t.i }, cpB, ?_, ?_, key⟩
  · rw [Curve.refineStep, g1, ok_bind, subR_eq_ok (by omega), ok_bind, subR_eq_ok (by omega), ok_bind,
      getR_eq_getD (0 : (Fin d → K) × K) (by omega), ok_bind, setR_eq_ok (by omega), ok_bind, f1, ok_bind,
      setR_eq_ok (by omega), ok_bind, subR_eq_ok (by omega), ok_bind]
    rfl
  · rw [Rounded.refineStep]
    simp only [w1, ok_bind]
    rw [subR_eq_ok (by omega), ok_bind, subR_eq_ok (by omega), ok_bind,
      getR_eq_getD (0 : (Fin d → K) × K) (by omega), ok_bind, setR_eq_ok (by omega), ok_bind, b1, ok_bind,
      setR_eq_ok (by omega), ok_bind, subR_eq_ok (by omega), ok_bind]
    rfl

/-- The outer loop. -/
theorem fold_near (h : Rounds fl μ) (h1 : fl 1 = 1) (heps : fl eps = eps) (hM : ∀ i, 0 ≤ M i) (hc : ∀ i, ∀ q ∈ c.cps, |hcoord i q| ≤ M i)
    {a r1 : ℕ} (hd : c.degree < c.cps.length)
    (hl : c.knots.length = c.cps.length + c.degree + 1) (hpa : c.degree ≤ a) (han : a < c.cps.length)
    (hmono : c.knots.Pairwise (· ≤ ·)) :
    ∀ (ys : List K) (z : K) (s : RefState K ((Fin d → K) × K)), RInv c a r1 ys.length z s →
      ys.Pairwise (· ≥ ·) → (∀ y ∈ ys, y ≤ z) → (∀ y ∈ ys, kf c.knots a ≤ y ∧ y ≤ c.hi) →
      (∀ x ∈ ys, ∀ y ∈ ys ++ (view c s).knots, |y - x| < eps → y = x) → (view c s).Pre →
      ∀ (e : K) (cp' : List ((Fin d → K) × K)), 0 ≤ e → Near e M s.cp cp' →
      ∃ s' cp'', ys.foldlM (Curve.refineStep eps c a) s = .ok s' ∧
        ys.foldlM (Rounded.refineStep fl eps c a) { s with cp := cp' } = .ok { s' with cp := cp'' } ∧
        Near ((1 + lerpErr μ) ^ ys.length * (1 + e) - 1) M s'.cp cp''
  | [], z, s, _, _, _, _, _, _, e, cp', _, hn => ⟨s, cp', rfl, rfl, by simpa using hn⟩
  | x :: ys, z, s, hs, hsort, hz, hdom, hsep, hp, e, cp', he, hn => by
    have hsort' := List.pairwise_cons.1 hsort
    obtain ⟨s1, e1, e2, e3, e4, e5, e6, e7, e8⟩ := refineStep_spec (eps := eps) hd hl hpa han
      (by simp) (hs.weaken (hz x (by simp))) hmono (hdom x (by simp)).1 (hdom x (by simp)).2
      (fun y hy => hsep x (by simp) y (List.mem_append_right _ hy))
    obtain ⟨s1', cp1, f1, f2, f3⟩ := step_near h h1 heps hM hc hd hl hpa han
      (by simp) (hs.weaken (hz x (by simp))) hmono (hdom x (by simp)).1 (hdom x (by simp)).2
      (fun y hy => hsep x (by simp) y (List.mem_append_right _ hy)) he hn
    rw [e1] at f1
    obtain rfl := Except.ok.inj f1
    have hlt : s1.i < (view c s).cps.length := by
      show s1.i < (c.cps.take _ ++ s.cp.drop _).length
      have := hs.cp_len; have := hs.k_eq; have := hs.a_le; have := hs.q_le; have := hs.i_le
      simp only [List.length_append, List.length_take, List.length_drop]; omega
    have hR : Refines (view c s) (view c s1) [x] := by
      rw [e8]; exact insertOne_refines hp e3 hlt e5 e6
    simp only [List.length_cons, Nat.add_sub_cancel] at e2
    have hκ := lerpErr_nonneg h
    obtain ⟨s', cp'', g1, g2, g3⟩ := fold_near h h1 heps hM hc hd hl hpa han hmono ys x s1 e2
      hsort'.2 hsort'.1 (fun y hy => hdom y (List.mem_cons_of_mem _ hy))
      (by
        intro w hw y hy
        apply hsep w (List.mem_cons_of_mem _ hw) y
        rcases List.mem_append.1 hy with h | h
        · exact List.mem_append_left _ (List.mem_cons_of_mem _ h)
        · have := hR.knots.subset h
          simp only [List.mem_append, List.mem_cons, List.not_mem_nil, or_false] at this ⊢
          tauto)
      hR.pre _ cp1 (by positivity) f3
    refine ⟨s', cp'', by rw [List.foldlM_cons, e1, ok_bind, g1], by rw [List.foldlM_cons, f2, ok_bind, g2], ?_⟩
    have : (1 + lerpErr μ) ^ ys.length * (1 + ((1 + lerpErr μ) * e + lerpErr μ)) - 1 = (1 + lerpErr μ) ^ (x :: ys).length * (1 + e) - 1 := by
      rw [List.length_cons, pow_succ]; ring
    rw [← this]
    exact g3

end loops

/-! ### Refinement -/

section refine
variable {fl : K → K} {μ eps : K} {c : Curve K ((Fin d → K) × K)} {M : Option (Fin d) → K}

theorem refine_near (h : Rounds fl μ) (h1 : fl 1 = 1) (heps : fl eps = eps) (hM : ∀ i, ∀ q ∈ c.cps, |hcoord i q| ≤ M i) (hg : c.Good eps)
    (hks : ∀ k ∈ c.knots, fl k = k) {xs : List K}
    (hsort : xs.Pairwise (· ≤ ·)) (hdom : ∀ x ∈ xs, c.lo ≤ x ∧ x ≤ c.hi) (hsep : ∀ x ∈ xs, ∀ y ∈ xs ++ c.knots, |y - x| < eps → y = x) :
    ∃ c' cps', c.tryRefineKnot eps xs = .ok c' ∧ Rounded.tryRefineKnot fl eps c xs = .ok { c' with cps := cps' } ∧
      Near ((1 + lerpErr μ) ^ xs.length - 1) M c'.cps cps' := by
  have hpre := hg.pre
  have hl := hpre.knots_len
  have hd := hpre.deg_lt
  have hmono := hg.good.mono
  have hpos := hg.cps_pos
  have hM0 : ∀ i, 0 ≤ M i := fun i => (abs_nonneg _).trans (hM i _ (List.getElem_mem hpos))
  have hspan : ∀ u, c.lo ≤ u → u ≤ c.hi → Rounded.findKnotSpanIndex fl eps c.knots (c.cps.length - 1) c.degree u =
      findKnotSpanIndex eps c.knots (c.cps.length - 1) c.degree u := fun u u1 u2 =>
    C99_span h (by omega) hg.good hks u1 (by rw [Nat.sub_add_cancel hpos]; exact u2)
  have hin : ∀ i t, |hcoord i (c.cps.getD t 0)| ≤ M i := by
    intro i t
    by_cases ht : t < c.cps.length
    · exact hM i _ (getD_mem ht)
    · rw [List.getD, List.getElem?_eq_none (by omega), Option.getD_none, hcoord_zero, abs_zero]
      exact hM0 i
  cases xs with
  | nil => exact ⟨c, c.cps, rfl, rfl, rfl, hin, fun i t => by simp⟩
  | cons x0 rest =>
    obtain ⟨a, ha, hpa, han, hain⟩ := hg.exists_span (hdom x0 (by simp)).1 (hdom x0 (by simp)).2
    set xr := (x0 :: rest)[rest.length] with hxr
    have hxrm : xr ∈ x0 :: rest := List.getElem_mem _
    obtain ⟨b', hb, hpb, hbn, hbin⟩ := hg.exists_span (hdom xr hxrm).1 (hdom xr hxrm).2
    have ha' := (hspan x0 (hdom x0 (by simp)).1 (hdom x0 (by simp)).2).trans ha
    have hb' := (hspan xr (hdom xr hxrm).1 (hdom xr hxrm).2).trans hb
    have hlast : ∀ x ∈ x0 :: rest, x ≤ xr := by
      intro x hx
      obtain ⟨j, hj, rfl⟩ := List.mem_iff_getElem.1 hx
      rcases Nat.lt_or_eq_of_le (show j ≤ rest.length by simp at hj; omega) with h' | h'
      · exact List.pairwise_iff_getElem.1 hsort j rest.length hj (by simp) h'
      · subst h'; exact le_refl _
    have hab : a ≤ b' := by
      by_contra hlt
      have m1 := hmono (b' + 1) a (by omega) (by omega)
      have m2 := inSpan_le hbin
      have m3 := inSpan_le hain
      have m4 := hlast x0 (by simp)
      have heq : xr = x0 := le_antisymm (le_trans m2.2 (le_trans m1 m3.1)) m4
      rw [heq] at hbin
      exact absurd (inSpan_unique hmono (by omega) (by omega) hain hbin) (by omega)
    unfold Curve.tryRefineKnot Rounded.tryRefineKnot
    have s1 : subR c.cps.length 1 = .ok (c.cps.length - 1) := subR_eq_ok (by omega)
    have s2 : getR (x0 :: rest) rest.length = .ok xr := getR_eq_ok (by simp)
    simp only [s1, s2, ok_bind, ha, hb, ha', hb']
    have s3 : subR a c.degree = .ok (a - c.degree) := subR_eq_ok hpa
    have s4 : sliceR c.cps 0 (a - c.degree + 1) = .ok ((List.take (a - c.degree + 1) c.cps).drop 0) := sliceR_eq_ok (by omega) (by omega)
    have s5 : sliceR (List.replicate (c.cps.length - 1 + rest.length + 2) (0 : (Fin d → K) × K)) 0 (a - c.degree + 1) =
        .ok ((List.take (a - c.degree + 1) (List.replicate (c.cps.length - 1 + rest.length + 2) (0 : (Fin d → K) × K))).drop 0) :=
      sliceR_eq_ok (by omega) (by simp; omega)
    simp only [s3, s4, s5, ok_bind]
    set cp0 : List ((Fin d → K) × K) := (List.take (a - c.degree + 1) c.cps).drop 0 ++
      (List.replicate (c.cps.length - 1 + rest.length + 2) (0 : (Fin d → K) × K)).drop (a - c.degree + 1) with hcp0
    have hcp0l : cp0.length = c.cps.length + (rest.length + 1) := by
      simp [hcp0]; omega
    obtain ⟨cp1, f1, f2, f3, f4⟩ := copyRange_spec (src := c.cps) (dst := cp0) (d := rest.length + 1)
      (lo := b' + 1 - 1) (hi := c.cps.length - 1) (0 : (Fin d → K) × K) (by omega) (by omega)
    set kn0 : List K := List.replicate (c.cps.length - 1 + c.degree + 1 + 1 + rest.length + 1) (0 : K) with hkn0
    have hkn0l : kn0.length = c.knots.length + (rest.length + 1) := by simp [hkn0]; omega
    obtain ⟨kn1, g1, g2, g3, g4⟩ := copyRange_spec (src := c.knots) (dst := kn0) (d := 0)
      (lo := 0) (hi := a) (0 : K) (by omega) (by omega)
    obtain ⟨kn2, k1, k2, k3, k4⟩ := copyRange_spec (src := c.knots) (dst := kn1) (d := rest.length + 1)
      (lo := b' + 1 + c.degree) (hi := c.cps.length - 1 + c.degree + 1) (0 : K) (by omega) (by omega)
    simp only [f1, g1, k1, ok_bind]
    set st : RefState K ((Fin d → K) × K) := RefState.mk cp1 kn2 (b' + 1 + c.degree + rest.length) (b' + 1 + c.degree - 1) with hst
    have hdropk : kn2.drop (b' + 1 + c.degree + rest.length + 1) = c.knots.drop (b' + c.degree + 1) := by
      apply ext_getD (d := 0)
      · simp only [List.length_drop]; omega
      · intro t ht
        simp only [List.length_drop] at ht
        rw [Curve.getD_drop, Curve.getD_drop, ← k4 _ (by omega) (by omega)]
        congr 1; omega
    have hdropc : cp1.drop (b' + 1 + c.degree + rest.length - c.degree) = c.cps.drop b' := by
      apply ext_getD (d := 0)
      · simp only [List.length_drop]; omega
      · intro t ht
        simp only [List.length_drop] at ht
        rw [Curve.getD_drop, Curve.getD_drop, ← f4 _ (by omega) (by omega)]
        congr 1; omega
    have hview : view c st = c := by
      have q1 : c.cps.take (b' + 1 + c.degree - 1 - c.degree) ++
          cp1.drop (b' + 1 + c.degree + rest.length - c.degree) = c.cps := by
        rw [hdropc, show b' + 1 + c.degree - 1 - c.degree = b' by omega, List.take_append_drop]
      have q2 : c.knots.take (b' + 1 + c.degree - 1 + 1) ++
          kn2.drop (b' + 1 + c.degree + rest.length + 1) = c.knots := by
        rw [hdropk, show b' + 1 + c.degree - 1 + 1 = b' + c.degree + 1 by omega, List.take_append_drop]
      unfold view
      simp only [hst]
      rw [q1, q2]
    have hinv : RInv c a (rest.length + 1) (x0 :: rest).reverse.length xr st := by
      refine ⟨?_, by show kn2.length = _; omega, by show cp1.length = _; omega, by simp,
        by show a ≤ b' + 1 + c.degree - 1; omega, by show b' + 1 + c.degree - 1 < _; omega, ?_, ?_, ?_⟩
      · show b' + 1 + c.degree + rest.length = b' + 1 + c.degree - 1 + _
        simp; omega
      · show kn2.take (a + 1) = _
        apply ext_getD (d := 0)
        · simp only [List.length_take]; omega
        · intro t ht
          simp only [List.length_take] at ht
          rw [getD_take (by omega), getD_take (by omega), k3 t (by omega)]
          exact g4 t (by omega) (by omega)
      · show cp1.take (a - c.degree) = _
        apply ext_getD (d := 0)
        · simp only [List.length_take]; omega
        · intro t ht
          simp only [List.length_take] at ht
          rw [getD_take (by omega), getD_take (by omega), f3 t (by omega), hcp0, List.drop_zero,
            getD_append_left (by simp; omega), getD_take (by omega)]
      · show ∀ y ∈ kn2.drop (b' + 1 + c.degree + rest.length + 1), xr ≤ y
        rw [hdropk]
        intro y hy
        obtain ⟨j, hj, rfl⟩ := List.mem_drop_iff_getElem.1 hy
        rw [← kf_eq]
        exact le_trans (inSpan_le hbin).2 (hmono _ _ (by omega) (by omega))
    have hb0 : ∀ i t, |hcoord i (cp0.getD t 0)| ≤ M i := by
      intro i t
      by_cases ht : t < cp0.length
      · have hm := getD_mem (x := (0 : (Fin d → K) × K)) ht
        generalize cp0.getD t 0 = v at hm ⊢
        rw [hcp0, List.mem_append, List.drop_zero] at hm
        rcases hm with hm | hm
        · exact hM i _ (List.mem_of_mem_take hm)
        · rw [List.eq_of_mem_replicate (List.mem_of_mem_drop hm), hcoord_zero, abs_zero]; exact hM0 i
      · rw [List.getD, List.getElem?_eq_none (by omega), Option.getD_none, hcoord_zero, abs_zero]
        exact hM0 i
    have hnear : Near 0 M st.cp st.cp := by
      refine ⟨rfl, fun i t => ?_, fun i t => by simp⟩
      show |hcoord i (cp1.getD t 0)| ≤ M i
      by_cases ht : t < b' + 1 - 1 + (rest.length + 1) ∨ c.cps.length - 1 + (rest.length + 1) < t
      · rw [f3 t ht]; exact hb0 i t
      · have := f4 (t - (rest.length + 1)) (by omega) (by omega)
        rw [Nat.sub_add_cancel (by omega)] at this
        rw [this]; exact hin i _
    obtain ⟨s', cp'', r1, r2, r3⟩ := fold_near h h1 heps hM0 hM hd hl hpa (by omega) hpre.sorted
      (x0 :: rest).reverse xr st hinv
      (by rw [List.pairwise_reverse]; exact hsort) (fun y hy => hlast y (List.mem_reverse.1 hy))
      (fun y hy => ⟨le_trans (inSpan_le hain).1 (by
        rcases List.mem_cons.1 (List.mem_reverse.1 hy) with h | h
        · rw [h]
        · exact (List.pairwise_cons.1 hsort).1 y h), (hdom y (List.mem_reverse.1 hy)).2⟩)
      (by
        rw [hview]
        intro x hx y hy
        apply hsep x (List.mem_reverse.1 hx) y
        simp only [List.mem_append, List.mem_reverse] at hy ⊢
        exact hy)
      (by rw [hview]; exact hpre) 0 st.cp le_rfl hnear
    have r2' : (x0 :: rest).reverse.foldlM (Rounded.refineStep fl eps c a) st = .ok { s' with cp := cp'' } := r2
    rw [List.length_reverse, add_zero, mul_one] at r3
    refine ⟨{ degree := c.degree, knots := s'.kn, cps := s'.cp }, cp'', ?_, ?_, r3⟩
    · rw [r1, ok_bind]; rfl
    · rw [r2', ok_bind]; rfl

theorem hcoord_sum (i : Option (Fin d)) {n : ℕ} (f : ℕ → (Fin d → K) × K) :
    hcoord i ((Finset.range n).sum f) = (Finset.range n).sum fun r => hcoord i (f r) := by
  induction n with
  | zero => simp [hcoord_zero]
  | succ n ih => rw [Finset.sum_range_succ, hcoord_add, ih, Finset.sum_range_succ]

/-- Curves with the same knots and close control points are close. -/
theorem eval_near (hg : c.Pre) {cps' : List ((Fin d → K) × K)} {e : K} (hn : Near e M c.cps cps') {u : K} (h1 : c.lo ≤ u) (h2 : u ≤ c.hi)
    (i : Option (Fin d)) : |hcoord i (({ c with cps := cps' } : Curve K ((Fin d → K) × K)).eval u) - hcoord i (c.eval u)| ≤ e * M i := by
  obtain ⟨s, hps, hsn, hin⟩ := hg.exists_span h1 h2
  have hd := hg.deg_lt
  have hm := hg.mono
  have e1 : c.eval u = _ := curve_eq_span hm (fun j => c.cps.getD j 0) hps (by omega)
    (by rw [Nat.sub_add_cancel (by omega)]; exact hin)
  have e2 : ({ c with cps := cps' } : Curve K ((Fin d → K) × K)).eval u =
      (Finset.range (c.degree + 1)).sum fun r => NS (kf c.knots) s c.degree (s - c.degree + r) u • cps'.getD (s - c.degree + r) 0 := by
    show curve (kf c.knots) c.degree (cps'.length - 1) _ u = _
    rw [hn.len]
    exact curve_eq_span hm (fun j => cps'.getD j 0) hps (by omega) (by rw [Nat.sub_add_cancel (by omega)]; exact hin)
  have hsum := NS_sum_eq_one (k := kf c.knots) u c.degree hps
    (fun i j hi hj hj' => ne_across hm (inSpan_lt hin) i j hi hj (by omega))
  rw [e1, e2, hcoord_sum, hcoord_sum, ← Finset.sum_sub_distrib]
  refine (Finset.abs_sum_le_sum_abs _ _).trans ?_
  rw [← one_mul (e * M i), ← hsum, Finset.sum_mul]
  refine Finset.sum_le_sum fun r hr => ?_
  have := Finset.mem_range.1 hr
  have h0 : 0 ≤ NS (kf c.knots) s c.degree (s - c.degree + r) u :=
    NS_nonneg hm (inSpan_le hin).1 (inSpan_le hin).2 _ _ (by omega)
  rw [hcoord_smul, hcoord_smul, ← mul_sub, abs_mul, abs_of_nonneg h0]
  exact mul_le_mul_of_nonneg_left (hn.near i _) h0

/-- The distance of two lists of control points, coordinate by coordinate. -/
def Within (E : Option (Fin d) → K) (cp cp' : List ((Fin d → K) × K)) : Prop :=
  cp'.length = cp.length ∧ ∀ i t, |hcoord i (cp'.getD t 0) - hcoord i (cp.getD t 0)| ≤ E i

/-- **Refinement in floating point**: with every operation rounded, refinement by a sorted list of parameters of the domain succeeds
    like the exact one, and returns the same knots.  A coordinate or weight of a control point is off by at most
    `((1 + lerpErr μ) ^ n - 1)` times the largest such coordinate, for `n` new knots, and so is the curve everywhere. -/
theorem C100_refine (h : Rounds fl μ) (h1 : fl 1 = 1) (heps : fl eps = eps) (hM : ∀ i, ∀ q ∈ c.cps, |hcoord i q| ≤ M i) (hg : c.Good eps)
    (hks : ∀ k ∈ c.knots, fl k = k) {xs : List K}
    (hsort : xs.Pairwise (· ≤ ·)) (hdom : ∀ x ∈ xs, c.lo ≤ x ∧ x ≤ c.hi) (hsep : ∀ x ∈ xs, ∀ y ∈ xs ++ c.knots, |y - x| < eps → y = x) :
    ∃ c' ĉ, c.tryRefineKnot eps xs = .ok c' ∧ Rounded.tryRefineKnot fl eps c xs = .ok ĉ ∧ ĉ.degree = c.degree ∧ ĉ.knots = c'.knots ∧
      ĉ.knots.Pairwise (· ≤ ·) ∧ ĉ.knots.Perm (xs ++ c.knots) ∧ ĉ.knots.length = ĉ.cps.length + ĉ.degree + 1 ∧
      Within (fun i => ((1 + lerpErr μ) ^ xs.length - 1) * M i) c'.cps ĉ.cps ∧
      ∀ u, c.lo ≤ u → u ≤ c.hi → ∀ i, |hcoord i (ĉ.eval u) - hcoord i (c.eval u)| ≤ ((1 + lerpErr μ) ^ xs.length - 1) * M i := by
  obtain ⟨c', cps', r1, r2, r3⟩ := refine_near h h1 heps hM hg hks hsort hdom hsep
  obtain ⟨c'', t1, t2⟩ := tryRefineKnot_refines hg hsort hdom hsep
  rw [r1] at t1
  obtain rfl := Except.ok.inj t1
  refine ⟨c', _, r1, r2, t2.degree, rfl, t2.pre.sorted, t2.knots, by rw [r3.len]; exact t2.pre.knots_len, ⟨r3.len, r3.near⟩,
    fun u u1 u2 i => ?_⟩
  rw [← t2.eval hg.pre u1 u2]
  exact eval_near t2.pre r3 (by rw [t2.lo]; exact u1) (by rw [t2.hi]; exact u2) i

theorem Near.take {e : K} {cp cp' : List ((Fin d → K) × K)} (h : Near e M cp cp') (n : ℕ) (he : 0 ≤ e) (hM : ∀ i, 0 ≤ M i) :
    Near e M (cp.take n) (cp'.take n) := by
  have hl := h.len
  refine ⟨by simp [hl], fun i t => ?_, fun i t => ?_⟩
  all_goals
    by_cases ht : t < n
    · simp only [getD_take ht]; first | exact h.bound i t | exact h.near i t
    · have e1 : ∀ l : List ((Fin d → K) × K), (l.take n).getD t 0 = 0 := fun l => by
        rw [List.getD, List.getElem?_eq_none (by simp; omega), Option.getD_none]
      simp only [e1, hcoord_zero, sub_zero, abs_zero]
      first | exact hM i | exact mul_nonneg he (hM i)

theorem Near.drop {e : K} {cp cp' : List ((Fin d → K) × K)} (h : Near e M cp cp') (n : ℕ) : Near e M (cp.drop n) (cp'.drop n) := by
  have hl := h.len
  refine ⟨by simp [hl], fun i t => ?_, fun i t => ?_⟩
  · rw [getD_drop]; exact h.bound i _
  · rw [getD_drop, getD_drop]; exact h.near i _

/-- **Splitting in floating point**: at a parameter that is a knot or at least `eps` away from all knots, splitting succeeds like the
    exact one.  The pieces have the exact knots, and their control points are off by at most `((1 + lerpErr μ) ^ (p + 1) - 1)` times
    the largest coordinate.  The left piece follows the curve up to `u` to the same accuracy unless `u` is an inner knot of the curve
    (see `C21_left_piece_at_knot`), and the right piece follows it from `u` on. -/
theorem C100_split (h : Rounds fl μ) (h1 : fl 1 = 1) (heps : fl eps = eps) (hM : ∀ i, ∀ q ∈ c.cps, |hcoord i q| ≤ M i) (hg : c.Good eps)
    (hks : ∀ k ∈ c.knots, fl k = k) {u : K} (hu1 : c.lo ≤ u) (hu2 : u ≤ c.hi) (hsep : ∀ y ∈ c.knots, |y - u| < eps → y = u) :
    ∃ l r l' r', c.trySplit eps u = .ok (l, r) ∧ Rounded.trySplit fl eps c u = .ok (l', r') ∧
      l'.degree = l.degree ∧ l'.knots = l.knots ∧ r'.degree = r.degree ∧ r'.knots = r.knots ∧
      Within (fun i => ((1 + lerpErr μ) ^ (c.degree + 1) - 1) * M i) l.cps l'.cps ∧
      Within (fun i => ((1 + lerpErr μ) ^ (c.degree + 1) - 1) * M i) r.cps r'.cps ∧
      ((u ∈ c.knots → u = c.hi) → ∀ x, c.lo ≤ x → x ≤ u → ∀ i,
        |hcoord i (l'.eval x) - hcoord i (c.eval x)| ≤ ((1 + lerpErr μ) ^ (c.degree + 1) - 1) * M i) ∧
      (u < c.hi → ∀ x, u ≤ x → x ≤ c.hi → ∀ i,
        |hcoord i (r'.eval x) - hcoord i (c.eval x)| ≤ ((1 + lerpErr μ) ^ (c.degree + 1) - 1) * M i) := by
  have hl := hg.knots_len
  have hpos := hg.cps_pos
  have hM0 : ∀ i, 0 ≤ M i := fun i => (abs_nonneg _).trans (hM i _ (List.getElem_mem hpos))
  have p1 : (List.replicate (c.degree + 1) u).Pairwise (· ≤ ·) := by rw [List.pairwise_replicate]; right; exact le_refl _
  have p2 : ∀ x ∈ List.replicate (c.degree + 1) u, c.lo ≤ x ∧ x ≤ c.hi := by
    intro x hx; rw [List.eq_of_mem_replicate hx]; exact ⟨hu1, hu2⟩
  have p3 : ∀ x ∈ List.replicate (c.degree + 1) u, ∀ y ∈ List.replicate (c.degree + 1) u ++ c.knots, |y - x| < eps → y = x := by
    intro x hx y hy
    rw [List.eq_of_mem_replicate hx]
    rcases List.mem_append.1 hy with hy | hy
    · intro _; exact List.eq_of_mem_replicate hy
    · exact hsep y hy
  obtain ⟨c', cps', r1, r2, r3⟩ := refine_near h h1 heps hM hg hks p1 p2 p3
  obtain ⟨c'', t1, hr⟩ := tryRefineKnot_refines hg p1 p2 p3
  rw [r1] at t1
  obtain rfl := Except.ok.inj t1
  obtain ⟨s, hs, hps, hsn, hin⟩ := hg.exists_span hu1 hu2
  have hs' := (C99_span h (by omega) hg.good hks hu1 (by rw [Nat.sub_add_cancel hpos]; exact hu2)).trans hs
  have hl' := hr.pre.knots_len
  have hcl := hr.cps_len
  have hdeg := hr.degree
  have hn := r3.len
  rw [List.length_replicate] at hcl r3
  have he0 : 0 ≤ (1 + lerpErr μ) ^ (c.degree + 1) - 1 := sub_nonneg.2 (one_le_pow₀ (by have := lerpErr_nonneg h; linarith))
  have s0 : (c'.knots.take (s + c.degree + 2)).Pairwise (· ≤ ·) := hr.pre.sorted.sublist (List.take_sublist _ _)
  have s1 : (c'.knots.drop (s + 1)).Pairwise (· ≤ ·) := hr.pre.sorted.sublist (List.drop_sublist _ _)
  have hex : c.trySplit eps u = .ok ({ degree := c.degree, cps := c'.cps.take (s + 1), knots := c'.knots.take (s + c.degree + 2) },
      { degree := c.degree, cps := c'.cps.drop (s + 1), knots := c'.knots.drop (s + 1) }) := by
    rw [trySplit, clamp_domain hg hu1 hu2, ok_bind, r1, ok_bind, hg.lastIndex, ok_bind, hs, ok_bind,
      sliceR_eq_ok (by omega) (by omega), ok_bind, sliceR_eq_ok (by omega) (by omega), ok_bind,
      sliceR_eq_ok (by omega) (by omega), ok_bind, sliceR_eq_ok (by omega) (by omega), ok_bind,
      List.drop_zero, List.drop_zero, List.take_length, List.take_length,
      tryNew, if_neg (by simp; omega), if_neg (by simp; omega), mergeSort_of_sorted s0, pure_eq_ok, ok_bind,
      tryNew, if_neg (by simp; omega), if_neg (by simp; omega), mergeSort_of_sorted s1, pure_eq_ok, ok_bind]
    rfl
  have nl := r3.take (s + 1) he0 hM0
  have nr := r3.drop (s + 1)
  refine ⟨{ degree := c.degree, cps := c'.cps.take (s + 1), knots := c'.knots.take (s + c.degree + 2) },
    { degree := c.degree, cps := c'.cps.drop (s + 1), knots := c'.knots.drop (s + 1) },
    { degree := c.degree, cps := cps'.take (s + 1), knots := c'.knots.take (s + c.degree + 2) },
    { degree := c.degree, cps := cps'.drop (s + 1), knots := c'.knots.drop (s + 1) }, hex, ?_, rfl, rfl, rfl, rfl,
    ⟨nl.len, nl.near⟩, ⟨nr.len, nr.near⟩, ?_, ?_⟩
  · rw [Rounded.trySplit, clamp_domain hg hu1 hu2, ok_bind, r2, ok_bind, hg.lastIndex, ok_bind, hs', ok_bind]
    simp only []
    rw [
      sliceR_eq_ok (by omega) (by omega), ok_bind, sliceR_eq_ok (by omega) (by omega), ok_bind,
      sliceR_eq_ok (by omega) (by omega), ok_bind, sliceR_eq_ok (by omega) (by omega), ok_bind,
      List.drop_zero, List.drop_zero, List.take_length, List.take_length,
      tryNew, if_neg (by simp; omega), if_neg (by simp; omega), mergeSort_of_sorted s0, pure_eq_ok, ok_bind,
      tryNew, if_neg (by simp; omega), if_neg (by simp; omega), mergeSort_of_sorted s1, pure_eq_ok, ok_bind]
    rfl
  · intro hnew x x1 x2 i
    obtain ⟨l, r, k1, k2, k3, k4, k5⟩ := C21_left_piece hg hu1 hu2 hsep hnew
    rw [hex] at k1
    obtain ⟨rfl, rfl⟩ := Prod.mk.inj (Except.ok.inj k1)
    have k6 := k5 x x1 x2
    rw [point_eq_eval k2 (by rw [k3]; exact x1) (by rw [k4]; exact x2), point_eq_eval hg x1 (x2.trans hu2)] at k6
    rw [← Except.ok.inj k6]
    exact eval_near k2.pre nl (by rw [k3]; exact x1) (by rw [k4]; exact x2) i
  · intro hlt x x1 x2 i
    obtain ⟨l, r, k1, k2, k3, k4, k5⟩ := C21_right_piece hg hu1 hlt hsep
    rw [hex] at k1
    obtain ⟨rfl, rfl⟩ := Prod.mk.inj (Except.ok.inj k1)
    have k6 := k5 x x1 x2
    rw [point_eq_eval k2 (by rw [k3]; exact x1) (by rw [k4]; exact x2), point_eq_eval hg (hu1.trans x1) x2] at k6
    rw [← Except.ok.inj k6]
    exact eval_near k2.pre nr (by rw [k3]; exact x1) (by rw [k4]; exact x2) i

/-- A homogeneous coordinate of a point of a curve is bounded by those of its control points. -/
theorem eval_coord_le (hg : c.Pre) {i : Option (Fin d)} {X : K} (hX : ∀ q ∈ c.cps, |hcoord i q| ≤ X) {u : K} (h1 : c.lo ≤ u) (h2 : u ≤ c.hi) :
    |hcoord i (c.eval u)| ≤ X := by
  obtain ⟨s, hps, hsn, hin⟩ := hg.exists_span h1 h2
  have hd := hg.deg_lt
  have hm' := hg.mono
  have e1 : c.eval u = _ := curve_eq_span hm' (fun j => c.cps.getD j 0) hps (by omega)
    (by rw [Nat.sub_add_cancel (by omega)]; exact hin)
  have hsum := NS_sum_eq_one (k := kf c.knots) u c.degree hps
    (fun i j hi hj hj' => ne_across hm' (inSpan_lt hin) i j hi hj (by omega))
  rw [e1, hcoord_sum]
  refine (Finset.abs_sum_le_sum_abs _ _).trans ?_
  rw [← one_mul X, ← hsum, Finset.sum_mul]
  refine Finset.sum_le_sum fun r hr => ?_
  have := Finset.mem_range.1 hr
  have h0 : 0 ≤ NS (kf c.knots) s c.degree (s - c.degree + r) u :=
    NS_nonneg hm' (inSpan_le hin).1 (inSpan_le hin).2 _ _ (by omega)
  rw [hcoord_smul, abs_mul, abs_of_nonneg h0]
  exact mul_le_mul_of_nonneg_left (hX _ (getD_mem (by omega))) h0

/-- The weight of a point of a curve is at least the smallest weight of its control points. -/
theorem eval_weight_ge (hg : c.Pre) {m : K} (hm : ∀ q ∈ c.cps, m ≤ q.2) {u : K} (h1 : c.lo ≤ u) (h2 : u ≤ c.hi) : m ≤ (c.eval u).2 := by
  obtain ⟨s, hps, hsn, hin⟩ := hg.exists_span h1 h2
  have hd := hg.deg_lt
  have hm' := hg.mono
  have e1 : c.eval u = _ := curve_eq_span hm' (fun j => c.cps.getD j 0) hps (by omega)
    (by rw [Nat.sub_add_cancel (by omega)]; exact hin)
  have hsum := NS_sum_eq_one (k := kf c.knots) u c.degree hps
    (fun i j hi hj hj' => ne_across hm' (inSpan_lt hin) i j hi hj (by omega))
  rw [e1, Prod.snd_sum, ← one_mul m, ← hsum, Finset.sum_mul]
  refine Finset.sum_le_sum fun r hr => ?_
  have := Finset.mem_range.1 hr
  exact mul_le_mul_of_nonneg_left (hm _ (getD_mem (by omega)))
    (NS_nonneg hm' (inSpan_le hin).1 (inSpan_le hin).2 _ _ (by omega))

/-- The quotient of two quantities known up to an error. -/
theorem quotient_near {x w x' w' e X W m : K} (hm : 0 < m) (hw : m ≤ w) (hx : |x / w| ≤ X / m) (hX : 0 ≤ X)
    (h1 : |x' - x| ≤ e * X) (h2 : |w' - w| ≤ e * W) (hs : e * W < m) : |x' / w' - x / w| ≤ e * X * (1 + W / m) / (m - e * W) := by
  have hw0 : 0 < w := hm.trans_le hw
  have hw' : m - e * W ≤ w' := by have := (abs_le.1 h2).1; linarith
  have hp : 0 < m - e * W := by linarith
  have hw0' : 0 < w' := hp.trans_le hw'
  have e1 : x' / w' - x / w = ((x' - x) - x / w * (w' - w)) / w' := by field_simp; ring
  rw [e1, abs_div, abs_of_pos hw0']
  have e2 : |(x' - x) - x / w * (w' - w)| ≤ e * X * (1 + W / m) := by
    refine (abs_sub _ _).trans ?_
    rw [abs_mul]
    have := mul_le_mul hx h2 (abs_nonneg _) (div_nonneg hX hm.le)
    calc _ ≤ e * X + X / m * (e * W) := add_le_add h1 this
      _ = _ := by ring
  exact div_le_div₀ ((abs_nonneg _).trans e2) e2 hp hw'

/-- **The points of a refined curve**: with weights between `m > 0` and `W`, the points of the computed curve are those of the original
    one up to a multiple of the error of the control points, as long as that error is too small to cancel a weight. -/
theorem C100_points (h : Rounds fl μ) (h1 : fl 1 = 1) (heps : fl eps = eps) {X : Fin d → K} {m W : K} (hm : 0 < m)
    (hX : ∀ i, ∀ q ∈ c.cps, |q.1 i| ≤ X i) (hlo : ∀ q ∈ c.cps, m ≤ q.2) (hhi : ∀ q ∈ c.cps, q.2 ≤ W) (hg : c.Good eps)
    (hks : ∀ k ∈ c.knots, fl k = k) {xs : List K}
    (hsort : xs.Pairwise (· ≤ ·)) (hdom : ∀ x ∈ xs, c.lo ≤ x ∧ x ≤ c.hi) (hsep : ∀ x ∈ xs, ∀ y ∈ xs ++ c.knots, |y - x| < eps → y = x)
    {e : K} (he : e = (1 + lerpErr μ) ^ xs.length - 1) (hs : e * W < m) :
    ∃ ĉ, Rounded.tryRefineKnot fl eps c xs = .ok ĉ ∧ ∀ u, c.lo ≤ u → u ≤ c.hi → 0 < (ĉ.eval u).2 ∧
      ∀ i, |proj (ĉ.eval u) i - proj (c.eval u) i| ≤ e * X i * (1 + W / m) / (m - e * W) := by
  have hpos := hg.cps_pos
  have hW : m ≤ W := (hlo _ (List.getElem_mem hpos)).trans (hhi _ (List.getElem_mem hpos))
  have hb : ∀ i, ∀ q ∈ c.cps, |hcoord i q| ≤ i.elim W X := by
    intro i q hq
    cases i with
    | none => show |q.2| ≤ W; rw [abs_of_pos (hm.trans_le (hlo q hq))]; exact hhi q hq
    | some i => exact hX i q hq
  have he0 : 0 ≤ e := by
    rw [he]; exact sub_nonneg.2 (one_le_pow₀ (by have := lerpErr_nonneg h; linarith))
  obtain ⟨c', ĉ, -, r2, -, -, -, -, -, -, r3⟩ := C100_refine (M := fun i => i.elim W X) h h1 heps hb hg hks hsort hdom hsep
  rw [← he] at r3
  refine ⟨ĉ, r2, fun u u1 u2 => ?_⟩
  have hw := eval_weight_ge hg.pre hlo u1 u2
  have k2 : |(ĉ.eval u).2 - (c.eval u).2| ≤ e * W := r3 u u1 u2 none
  refine ⟨by have := (abs_le.1 k2).1; linarith, fun i => ?_⟩
  have k1 : |(ĉ.eval u).1 i - (c.eval u).1 i| ≤ e * X i := r3 u u1 u2 (some i)
  have hX0 : 0 ≤ X i := (abs_nonneg _).trans (hX i _ (List.getElem_mem hpos))
  have hx : |(c.eval u).1 i| ≤ X i := by
    exact eval_coord_le hg.pre (i := some i) (hX i) u1 u2
  show |(ĉ.eval u).2⁻¹ * (ĉ.eval u).1 i - (c.eval u).2⁻¹ * (c.eval u).1 i| ≤ _
  rw [inv_mul_eq_div, inv_mul_eq_div]
  refine quotient_near hm hw ?_ hX0 k1 k2 hs
  rw [abs_div, abs_of_pos (hm.trans_le hw)]
  exact div_le_div₀ hX0 hx hm hw

end refine

/-! ### Without rounding, and in double precision -/

section exact

theorem lerp_exact (p q : (Fin d → K) × K) (t : K) : Rounded.lerp (fun x => x) p q t = Curve.lerp p q t := by
  refine Prod.ext (funext fun i => ?_) ?_
  · show t * q.1 i + (1 - t) * p.1 i = (1 - t) * p.1 i + t * q.1 i; ring
  · show t * q.2 + (1 - t) * p.2 = (1 - t) * p.2 + t * q.2; ring

theorem refineStep_exact (eps : K) (c : Curve K ((Fin d → K) × K)) (a : ℕ) : Rounded.refineStep (fun x => x) eps c a = Curve.refineStep eps c a := by
  funext s x
  have : ∀ kn k i, Rounded.refineAlpha (fun x => x) eps c x kn k i = Curve.refineAlpha eps c x kn k i := by
    intro kn k i
    funext cp l
    simp only [Rounded.refineAlpha, Curve.refineAlpha, lerp_exact]
  simp only [Rounded.refineStep, Curve.refineStep, this]

/-- Without rounding the model is that of the exact functions. -/
theorem C100_exact (eps : K) (c : Curve K ((Fin d → K) × K)) (xs : List K) (u : K) :
    Rounded.tryRefineKnot (fun x => x) eps c xs = c.tryRefineKnot eps xs ∧ Rounded.trySplit (fun x => x) eps c u = c.trySplit eps u := by
  have h : ∀ xs, Rounded.tryRefineKnot (fun x => x) eps c xs = c.tryRefineKnot eps xs := by
    intro xs
    cases xs with
    | nil => rfl
    | cons x0 rest => simp only [Rounded.tryRefineKnot, Curve.tryRefineKnot, find_exact, refineStep_exact]
  refine ⟨h xs, ?_⟩
  simp only [Rounded.trySplit, Curve.trySplit, find_exact, h]

end exact

section double
variable [FloorRing K]

theorem lerpErr_double : lerpErr (((2 : K) ^ 53)⁻¹) ≤ 11001 / 1000 * ((2 : K) ^ 53)⁻¹ := by
  unfold lerpErr
  norm_num

theorem pow_le_of_small {κ : K} (h0 : 0 ≤ κ) (h1 : κ ≤ 1) {n : ℕ} (hn : n * κ < 1) : (1 + κ) ^ n - 1 ≤ n * κ / (1 - n * κ) := by
  have hp : 0 < 1 - n * κ := by linarith
  have hb : 1 - n * κ ≤ (1 - κ) ^ n := by
    have := one_add_mul_le_pow (a := -κ) (by linarith) n
    rw [show (1 : K) + -κ = 1 - κ by ring] at this
    linarith
  have hm : (1 + κ) ^ n * (1 - n * κ) ≤ 1 := by
    calc (1 + κ) ^ n * (1 - n * κ) ≤ (1 + κ) ^ n * (1 - κ) ^ n := mul_le_mul_of_nonneg_left hb (pow_nonneg (by linarith) _)
      _ = ((1 + κ) * (1 - κ)) ^ n := (mul_pow _ _ _).symm
      _ ≤ 1 := pow_le_one₀ (mul_nonneg (by linarith) (by linarith)) (by nlinarith)
  rw [le_div_iff₀ hp]
  linarith

/-- The error of up to `10¹²` insertions in double precision. -/
theorem growth_double {n : ℕ} (hn : n ≤ 10 ^ 12) : (1 + lerpErr (((2 : K) ^ 53)⁻¹)) ^ n - 1 ≤ 12 * n / 2 ^ 53 := by
  have hn' : (n : K) ≤ 10 ^ 12 := by exact_mod_cast hn
  have hn0 : (0 : K) ≤ n := Nat.cast_nonneg _
  have h0 : (0 : K) ≤ lerpErr (((2 : K) ^ 53)⁻¹) := lerpErr_nonneg (C99_nearest (fl64_nearest (K := K)))
  have h1 := lerpErr_double (K := K)
  have hk : (n : K) * lerpErr (((2 : K) ^ 53)⁻¹) ≤ n * (11001 / 1000 * ((2 : K) ^ 53)⁻¹) := mul_le_mul_of_nonneg_left h1 hn0
  have hsmall : (n : K) * (11001 / 1000 * ((2 : K) ^ 53)⁻¹) ≤ 2 / 1000 := by
    refine (mul_le_mul_of_nonneg_right hn' (by positivity)).trans ?_
    norm_num
  have hle1 : lerpErr (((2 : K) ^ 53)⁻¹) ≤ 1 := h1.trans (by norm_num)
  refine (pow_le_of_small h0 hle1 (by linarith)).trans ?_
  have hp : (0 : K) < 1 - n * lerpErr (((2 : K) ^ 53)⁻¹) := by linarith
  rw [div_le_iff₀ hp]
  have hnm : (0 : K) ≤ n * ((2 : K) ^ 53)⁻¹ := by positivity
  rw [div_eq_mul_inv]
  nlinarith

variable {fl : K → K} {eps : K} {c : Curve K ((Fin d → K) × K)} {M : Option (Fin d) → K}

/-- **Refinement in double precision**: inserting `n ≤ 10¹²` knots is accurate to `12 n · 2⁻⁵³` times the largest coordinate. -/
theorem C100_double (h : Nearest (Binary64 K) fl) (heps : eps ∈ Binary64 K) (hM : ∀ i, ∀ q ∈ c.cps, |hcoord i q| ≤ M i) (hg : c.Good eps)
    (hks : ∀ k ∈ c.knots, k ∈ Binary64 K) {xs : List K} (hn : xs.length ≤ 10 ^ 12)
    (hsort : xs.Pairwise (· ≤ ·)) (hdom : ∀ x ∈ xs, c.lo ≤ x ∧ x ≤ c.hi) (hsep : ∀ x ∈ xs, ∀ y ∈ xs ++ c.knots, |y - x| < eps → y = x) :
    ∃ c' ĉ, c.tryRefineKnot eps xs = .ok c' ∧ Rounded.tryRefineKnot fl eps c xs = .ok ĉ ∧ ĉ.knots = c'.knots ∧
      Within (fun i => 12 * xs.length / 2 ^ 53 * M i) c'.cps ĉ.cps ∧
      ∀ u, c.lo ≤ u → u ≤ c.hi → ∀ i, |hcoord i (ĉ.eval u) - hcoord i (c.eval u)| ≤ 12 * xs.length / 2 ^ 53 * M i := by
  have hM0 : ∀ i, 0 ≤ M i := fun i => (abs_nonneg _).trans (hM i _ (List.getElem_mem hg.cps_pos))
  have h1 : fl 1 = 1 := h.fix ⟨1, 0, by norm_num, by norm_num⟩
  obtain ⟨c', ĉ, r1, r2, -, r3, -, -, -, r4, r5⟩ := C100_refine (C99_nearest h) h1 (h.fix heps) hM hg (fun k hk => h.fix (hks k hk))
    hsort hdom hsep
  have hle := fun i => mul_le_mul_of_nonneg_right (growth_double (K := K) hn) (hM0 i)
  exact ⟨c', ĉ, r1, r2, r3, ⟨r4.1, fun i t => (r4.2 i t).trans (hle i)⟩, fun u u1 u2 i => (r5 u u1 u2 i).trans (hle i)⟩

theorem exNoise_good' : exNoise.Good (1/1024) where
  cps_pos := by decide
  knots_len := by decide
  good := ⟨by norm_num, by decide, mono_of_sorted (by decide +kernel) (by decide), by decide +kernel, by decide +kernel,
    by decide +kernel, by decide +kernel⟩

/-- Values that double precision stores exactly. -/
theorem exNoise_stored (k : ℚ) (hk : k ∈ exNoise.knots) : fl64 k = k := by
  simp only [exNoise, List.mem_cons, List.not_mem_nil, or_false] at hk
  refine (fl64_nearest (K := ℚ)).fix ?_
  rcases hk with rfl | rfl | rfl | rfl | rfl | rfl | rfl
  iterate 3 exact ⟨0, 0, by norm_num, by norm_num⟩
  · exact ⟨1, 0, by norm_num, by norm_num⟩
  iterate 3 exact ⟨2, 0, by norm_num, by norm_num⟩

theorem exNoise_bound (i : Option (Fin 2)) (q : (Fin 2 → ℚ) × ℚ) (hq : q ∈ exNoise.cps) : |hcoord i q| ≤ 6 := by
  simp only [exNoise, List.mem_cons, List.not_mem_nil, or_false] at hq
  rcases i with _ | i
  · rcases hq with rfl | rfl | rfl | rfl <;> simp [hcoord] <;> norm_num
  · rcases hq with rfl | rfl | rfl | rfl <;> fin_cases i <;> simp [hcoord] <;> norm_num

/-- The hypotheses are met by a rational curve, four new knots, and a tolerance that is a power of two. -/
example : ∃ c' ĉ, exNoise.tryRefineKnot (1/1024) [1/3, 1/2, 1, 3/2] = .ok c' ∧
    Rounded.tryRefineKnot fl64 (1/1024) exNoise [1/3, 1/2, 1, 3/2] = .ok ĉ ∧ ĉ.knots = c'.knots ∧
    ∀ u, 0 ≤ u → u ≤ 2 → |hcoord (some 0) (ĉ.eval u) - hcoord (some 0) (exNoise.eval u)| ≤ 4 / 10 ^ 14 := by
  obtain ⟨c', ĉ, r1, r2, r3, -, r4⟩ := C100_double (fl64_nearest (K := ℚ)) (c := exNoise) (eps := 1/1024) (M := fun _ => 6)
    (xs := [1/3, 1/2, 1, 3/2]) ⟨1, -10, by norm_num, by norm_num⟩
    exNoise_bound exNoise_good' (by
      intro k hk
      simp only [exNoise, List.mem_cons, List.not_mem_nil, or_false] at hk
      rcases hk with rfl | rfl | rfl | rfl | rfl | rfl | rfl
      iterate 3 exact ⟨0, 0, by norm_num, by norm_num⟩
      · exact ⟨1, 0, by norm_num, by norm_num⟩
      iterate 3 exact ⟨2, 0, by norm_num, by norm_num⟩) (by decide) (by decide +kernel) (by decide +kernel) (by decide +kernel)
  refine ⟨c', ĉ, r1, r2, r3, fun u u1 u2 => (r4 u u1 u2 (some 0)).trans (by norm_num)⟩

/-- Splitting that curve at a third of its first span. -/
example : ∃ l' r', Rounded.trySplit fl64 (1/1024) exNoise (1/3) = .ok (l', r') ∧
    (∀ x, 0 ≤ x → x ≤ 1/3 → |hcoord (some 1) (l'.eval x) - hcoord (some 1) (exNoise.eval x)| ≤ 3 / 10 ^ 14) ∧
    ∀ x, 1/3 ≤ x → x ≤ 2 → |hcoord none (r'.eval x) - hcoord none (exNoise.eval x)| ≤ 3 / 10 ^ 14 := by
  have hb : (fl64 (1/1024 : ℚ)) = 1/1024 := (fl64_nearest (K := ℚ)).fix ⟨1, -10, by norm_num, by norm_num⟩
  obtain ⟨l, r, l', r', -, e2, -, -, -, -, -, -, e3, e4⟩ := C100_split (M := fun _ => 6) (C99_nearest (fl64_nearest (K := ℚ)))
    ((fl64_nearest (K := ℚ)).fix ⟨1, 0, by norm_num, by norm_num⟩) hb exNoise_bound exNoise_good' exNoise_stored (u := 1/3)
    (by decide +kernel) (by decide +kernel) (by decide +kernel)
  have hle := growth_double (K := ℚ) (n := 3) (by norm_num)
  refine ⟨l', r', e2, fun x x1 x2 => (e3 (by decide +kernel) x x1 x2 (some 1)).trans ?_,
    fun x x1 x2 => (e4 (by decide +kernel) x x1 x2 none).trans ?_⟩
  all_goals
    show ((1 + lerpErr (((2 : ℚ) ^ 53)⁻¹)) ^ 3 - 1) * 6 ≤ _
    norm_num at hle ⊢
    linarith

/-- Its points after two insertions. -/
example : ∃ ĉ, Rounded.tryRefineKnot fl64 (1/1024) exNoise [1/3, 1/3] = .ok ĉ ∧
    ∀ u, 0 ≤ u → u ≤ 2 → |proj (ĉ.eval u) 0 - proj (exNoise.eval u) 0| ≤ 1 / 10 ^ 13 := by
  have hb : (fl64 (1/1024 : ℚ)) = 1/1024 := (fl64_nearest (K := ℚ)).fix ⟨1, -10, by norm_num, by norm_num⟩
  have hle := growth_double (K := ℚ) (n := 2) (by norm_num)
  obtain ⟨e, he⟩ : ∃ e, e = (1 + lerpErr (((2 : ℚ) ^ 53)⁻¹)) ^ 2 - 1 := ⟨_, rfl⟩
  rw [← he] at hle
  have he0 : 0 ≤ e := by
    rw [he]; exact sub_nonneg.2 (one_le_pow₀ (by have := lerpErr_nonneg (C99_nearest (fl64_nearest (K := ℚ))); linarith))
  obtain ⟨ĉ, r1, r2⟩ := C100_points (X := fun _ => 6) (m := 1) (W := 2) (C99_nearest (fl64_nearest (K := ℚ)))
    ((fl64_nearest (K := ℚ)).fix ⟨1, 0, by norm_num, by norm_num⟩) hb one_pos (fun i => exNoise_bound (some i))
    (by decide +kernel) (by decide +kernel) exNoise_good' exNoise_stored (xs := [1/3, 1/3])
    (by decide +kernel) (by decide +kernel) (by decide +kernel) he (by norm_num at hle; linarith)
  refine ⟨ĉ, r1, fun u u1 u2 => ((r2 u u1 u2).2 0).trans ?_⟩
  norm_num at hle ⊢
  rw [div_le_iff₀ (by linarith)]
  linarith

end double

end Curvo.Props

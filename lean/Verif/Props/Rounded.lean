/-
  Property theorems about evaluation in floating point arithmetic: C99.
-/
import Verif.Model.Rounded
import Verif.Props.Curve
import Verif.Props.Surface
import Mathlib.Algebra.Order.BigOperators.Group.Finset
import Mathlib.Data.Int.Log
import Mathlib.Algebra.Order.Round

set_option linter.unusedSectionVars false
set_option linter.unusedSimpArgs false

namespace Curvo.Props

open Curvo Curvo.Knots Curvo.Spec

/-! ### Specification of the rounding -/

variable {K : Type} [Field K] [LinearOrder K] [IsStrictOrderedRing K] {d : ℕ}

/-- `fl` rounds with unit roundoff `μ`: the error is at most `μ` times the exact result, and larger results are not rounded
    to smaller numbers. -/
structure Rounds (fl : K → K) (μ : K) : Prop where
  nonneg : 0 ≤ μ
  lt_one : μ < 1
  err : ∀ x, |fl x - x| ≤ μ * |x|
  mono : ∀ x y, x ≤ y → fl x ≤ fl y

/-! ### Without rounding -/

section exact

theorem find_exact (eps : K) (ks : List K) (n p : ℕ) (u : K) :
    Rounded.findKnotSpanIndex (fun x => x) eps ks n p u = findKnotSpanIndex eps ks n p u := rfl

theorem inner_exact (ks : List K) (s : ℕ) (u : K) (j : ℕ) : ∀ (bs : List K) (r : ℕ) (saved : K),
    Rounded.basisInner (fun x => x) ks s u j r saved bs = basisInner ks s u j r saved bs
  | [], _, _ => rfl
  | b :: bs, r, saved => by
    rw [Rounded.basisInner, basisInner]
    simp only [Rounded.rightAt, Rounded.leftAt, rightAt, leftAt, inner_exact ks s u j bs]

theorem basis_exact (ks : List K) (s : ℕ) (u : K) : ∀ p, Rounded.basisFunctions (fun x => x) ks s u p = basisFunctions ks s u p
  | 0 => rfl
  | p + 1 => by
    rw [Rounded.basisFunctions, basisFunctions, basis_exact ks s u p]
    simp only [inner_exact]
    rfl

theorem accumulate_exact (acc : (Fin d → K) × K) (b : K) (p : (Fin d → K) × K) :
    Rounded.accumulate (fun x => x) acc b p = acc + b • p := by
  ext i
  · simp [Rounded.accumulate, mul_comm]
  · simp [Rounded.accumulate, mul_comm]

theorem dehomogenize_exact (p : (Fin d → K) × K) : Rounded.dehomogenize (fun x => x) p = Curve.dehomogenize p := by
  unfold Rounded.dehomogenize Curve.dehomogenize
  split_ifs
  · congr 1
    ext i
    simp [div_eq_inv_mul]
  · rfl

/-- **The rounded functions are those of the model**: without rounding they agree, for all curves, surfaces and parameters. -/
theorem C99_exact (eps : K) (c : Curve K ((Fin d → K) × K)) (S : Surface K ((Fin d → K) × K)) (u v : K) :
    Rounded.pointAt (fun x => x) eps c u = c.pointAt eps u ∧ Rounded.pointAtS (fun x => x) eps S u v = S.pointAt eps u v := by
  constructor
  · simp only [Rounded.pointAt, Curve.pointAt, Rounded.point, Curve.point, find_exact, basis_exact, Rounded.sumPoints, Curve.sumPoints,
      accumulate_exact, dehomogenize_exact]
  · simp only [Rounded.pointAtS, Surface.pointAt, Rounded.pointS, Surface.point, find_exact, basis_exact, Rounded.isoPoint,
      Surface.isoPoint, accumulate_exact, dehomogenize_exact]

end exact

/-! ### Relative errors -/

/-- `y` is `x` up to `k` roundings; `ρ` is one minus the unit roundoff. -/
def Rel (ρ : K) (k : ℕ) (x y : K) : Prop := 0 ≤ x ∧ ρ ^ k * x ≤ y ∧ ρ ^ k * y ≤ x

section rel
variable {fl : K → K} {μ ρ : K}

theorem Rel.nonneg (h0 : 0 < ρ) {k : ℕ} {x y : K} (h : Rel ρ k x y) : 0 ≤ y :=
  le_trans (mul_nonneg (pow_nonneg h0.le k) h.1) h.2.1

theorem Rel.mono (h0 : 0 < ρ) (h1 : ρ ≤ 1) {k l : ℕ} (hkl : k ≤ l) {x y : K} (h : Rel ρ k x y) : Rel ρ l x y := by
  have hp : ρ ^ l ≤ ρ ^ k := pow_le_pow_of_le_one h0.le h1 hkl
  exact ⟨h.1, (mul_le_mul_of_nonneg_right hp h.1).trans h.2.1, (mul_le_mul_of_nonneg_right hp (h.nonneg h0)).trans h.2.2⟩

theorem Rel.refl {x : K} (hx : 0 ≤ x) : Rel ρ 0 x x := ⟨hx, by simp, by simp⟩

theorem Rel.mul (h0 : 0 < ρ) {k l : ℕ} {x y x' y' : K} (h : Rel ρ k x y) (h' : Rel ρ l x' y') : Rel ρ (k + l) (x * x') (y * y') := by
  refine ⟨mul_nonneg h.1 h'.1, ?_, ?_⟩
  · rw [pow_add, show ρ ^ k * ρ ^ l * (x * x') = (ρ ^ k * x) * (ρ ^ l * x') by ring]
    exact mul_le_mul h.2.1 h'.2.1 (mul_nonneg (pow_nonneg h0.le _) h'.1) (h.nonneg h0)
  · rw [pow_add, show ρ ^ k * ρ ^ l * (y * y') = (ρ ^ k * y) * (ρ ^ l * y') by ring]
    exact mul_le_mul h.2.2 h'.2.2 (mul_nonneg (pow_nonneg h0.le _) (h'.nonneg h0)) h.1

theorem Rel.pos (h0 : 0 < ρ) {k : ℕ} {x y : K} (h : Rel ρ k x y) (hx : 0 < x) : 0 < y :=
  lt_of_lt_of_le (mul_pos (pow_pos h0 k) hx) h.2.1

theorem Rel.div (h0 : 0 < ρ) {k l : ℕ} {x y x' y' : K} (h : Rel ρ k x y) (h' : Rel ρ l x' y') (hx : 0 < x') :
    Rel ρ (k + l) (x / x') (y / y') := by
  have hy := h'.pos h0 hx
  refine ⟨div_nonneg h.1 hx.le, ?_, ?_⟩
  · rw [pow_add, le_div_iff₀ hy, show ρ ^ k * ρ ^ l * (x / x') * y' = (ρ ^ k * x) * ((ρ ^ l * y') / x') by ring]
    calc (ρ ^ k * x) * ((ρ ^ l * y') / x') ≤ (ρ ^ k * x) * 1 :=
          mul_le_mul_of_nonneg_left ((div_le_one hx).2 h'.2.2) (mul_nonneg (pow_nonneg h0.le _) h.1)
      _ ≤ y := by rw [mul_one]; exact h.2.1
  · rw [pow_add, le_div_iff₀ hx, show ρ ^ k * ρ ^ l * (y / y') * x' = (ρ ^ k * y) * ((ρ ^ l * x') / y') by ring]
    calc (ρ ^ k * y) * ((ρ ^ l * x') / y') ≤ (ρ ^ k * y) * 1 :=
          mul_le_mul_of_nonneg_left ((div_le_one hy).2 h'.2.1) (mul_nonneg (pow_nonneg h0.le _) (h.nonneg h0))
      _ ≤ x := by rw [mul_one]; exact h.2.2

theorem Rel.add {k : ℕ} {x y x' y' : K} (h : Rel ρ k x y) (h' : Rel ρ k x' y') : Rel ρ k (x + x') (y + y') :=
  ⟨add_nonneg h.1 h'.1, by rw [mul_add]; exact add_le_add h.2.1 h'.2.1, by rw [mul_add]; exact add_le_add h.2.2 h'.2.2⟩

theorem Rounds.rho_pos (h : Rounds fl μ) : 0 < 1 - μ := by have := h.lt_one; linarith

theorem Rounds.rho_le (h : Rounds fl μ) : 1 - μ ≤ 1 := by have := h.nonneg; linarith

theorem Rounds.rel (h : Rounds fl μ) {x : K} (hx : 0 ≤ x) : Rel (1 - μ) 1 x (fl x) := by
  have e := abs_le.1 (h.err x)
  rw [abs_of_nonneg hx] at e
  have := h.nonneg
  have := h.rho_pos
  refine ⟨hx, by rw [pow_one]; linarith [e.1], ?_⟩
  rw [pow_one]
  nlinarith [e.2, mul_nonneg (mul_nonneg h.nonneg h.nonneg) hx]

theorem Rel.round (h : Rounds fl μ) {k : ℕ} {x y : K} (hr : Rel (1 - μ) k x y) : Rel (1 - μ) (k + 1) x (fl y) := by
  have hy := hr.nonneg h.rho_pos
  have e := h.rel hy
  have hp := pow_nonneg h.rho_pos.le k
  refine ⟨hr.1, ?_, ?_⟩
  · rw [pow_succ, mul_comm ((1 - μ) ^ k), mul_assoc]
    calc _ ≤ (1 - μ) * y := mul_le_mul_of_nonneg_left hr.2.1 h.rho_pos.le
      _ ≤ _ := by simpa using e.2.1
  · rw [pow_succ, mul_assoc]
    calc _ ≤ (1 - μ) ^ k * y := mul_le_mul_of_nonneg_left (by simpa using e.2.2) hp
      _ ≤ _ := hr.2.2

/-- The factor of a relative error. -/
theorem Rel.factor (h0 : 0 < ρ) (h1 : ρ ≤ 1) {k : ℕ} {x y : K} (h : Rel ρ k x y) : ∃ η, Rel ρ k 1 η ∧ y = x * η := by
  have hp := pow_nonneg h0.le k
  have hp1 : ρ ^ k ≤ 1 := pow_le_one₀ h0.le h1
  rcases h.1.eq_or_lt with hx | hx
  · refine ⟨1, ⟨zero_le_one, by simpa using hp1, by simpa using hp1⟩, ?_⟩
    have := h.2.2
    have hpos : 0 < ρ ^ k := pow_pos h0 k
    have : y ≤ 0 := by
      by_contra hc
      push Not at hc
      have := mul_pos hpos hc
      linarith
    rw [← hx, zero_mul]
    exact le_antisymm this (h.nonneg h0)
  · refine ⟨y / x, ⟨zero_le_one, ?_, ?_⟩, by field_simp⟩
    · rw [mul_one, le_div_iff₀ hx]; exact h.2.1
    · rw [← mul_div_assoc, div_le_one hx]; exact h.2.2

/-- A rounded number is the exact one times a factor. -/
theorem Rounds.factor (h : Rounds fl μ) (x : K) : ∃ η, Rel (1 - μ) 1 1 η ∧ fl x = x * η := by
  have e := abs_le.1 (h.err x)
  have := h.nonneg
  have := h.rho_pos
  have key : ∀ δ : K, |δ| ≤ μ → Rel (1 - μ) 1 1 (1 + δ) := by
    intro δ hδ
    obtain ⟨a, b⟩ := abs_le.1 hδ
    refine ⟨zero_le_one, by rw [pow_one]; linarith, ?_⟩
    rw [pow_one]
    nlinarith [mul_nonneg h.nonneg h.nonneg]
  by_cases hx : x = 0
  · subst hx
    refine ⟨1 + 0, key 0 (by simpa using h.nonneg), ?_⟩
    have := h.err 0
    simp only [abs_zero, mul_zero, sub_zero] at this
    rw [zero_mul]
    exact abs_eq_zero.1 (le_antisymm this (abs_nonneg _))
  · refine ⟨1 + (fl x - x) / x, key _ ?_, by field_simp; ring⟩
    rw [abs_div, div_le_iff₀ (abs_pos.2 hx)]
    exact h.err x

end rel

/-! ### Spans and basis functions -/

section basis
variable {fl : K → K} {μ : K}

/-- The span is found exactly when the knots are stored without error. -/
theorem C99_span (h : Rounds fl μ) {eps : K} {ks : List K} {p n : ℕ} {u : K} (hlen : ks.length = n + p + 2)
    (hg : GoodKnots eps (kf ks) p n) (hks : ∀ k ∈ ks, fl k = k) (h1 : kf ks p ≤ u) (h2 : u ≤ kf ks (n + 1)) :
    Rounded.findKnotSpanIndex fl eps ks n p u = findKnotSpanIndex eps ks n p u := by
  have hle := hg.le
  have hfix : ∀ i, i < ks.length → fl (kf ks i) = kf ks i := by
    intro i hi
    rw [kf_eq hi]
    exact hks _ (List.getElem_mem hi)
  have a : kf ks n ≤ fl (kf ks (n + 1) - eps) := by
    rw [← hfix n (by omega)]
    exact h.mono _ _ (by linarith [hg.last_gap])
  have b : fl (kf ks p + eps) ≤ kf ks (p + 1) := by
    rw [← hfix (p + 1) (by omega)]
    exact h.mono _ _ hg.first_gap
  have hg0 : GoodKnots 0 (kf ks) p n := ⟨le_refl _, hg.le, hg.mono, hg.first, hg.last, by linarith [hg.first], by linarith [hg.last]⟩
  have e0 : ∀ {s : ℕ}, s ≤ n + p → InSpan (kf ks) (kf ks (n + 1)) u s → findKnotSpanIndex eps ks n p u = .ok s :=
    fun hs hin => C01_span_unique hlen hg h1 h2 hs hin
  rw [Rounded.findKnotSpanIndex, getR_kf (by omega)]
  simp only [ok_bind]
  split_ifs with hu
  · refine (e0 (s := n) (by omega) ?_).symm
    have := lt_of_le_of_lt a hu
    unfold InSpan
    split_ifs with hb
    · exact ⟨this, h2⟩
    · exact ⟨this.le, lt_of_le_of_ne h2 hb⟩
  · rw [getR_kf (by omega), ok_bind]
    split_ifs with hd
    · refine (e0 (s := p) (by omega) ?_).symm
      have hlt := lt_of_lt_of_le hd b
      have hm := hg.mono (p + 1) (n + 1) (by omega) (by omega)
      unfold InSpan
      rw [if_neg (by intro hc; linarith)]
      exact ⟨h1, hlt⟩
    · have e : findKnotSpanIndex 0 ks n p u = Knots.spanGo ks u (n + 2) p (n + 1) ((p + (n + 1)) / 2) := by
        rw [findKnotSpanIndex, getR_kf (by omega), ok_bind, if_neg (by rw [sub_zero]; exact not_lt.2 h2), getR_kf (by omega), ok_bind,
          if_neg (by rw [add_zero]; exact not_lt.2 h1)]
      rw [← e]
      obtain ⟨s, es, -, hsn, hin⟩ := C01_span_brackets hlen hg0 h1 h2
      rw [es]
      exact (e0 (by omega) hin).symm

theorem inner_rel (h : Rounds fl μ) {ks : List K} {s : ℕ} {u : K} {j e : ℕ}
    (hl : ∀ i v, leftAt ks s u i = .ok v → 1 ≤ i → 0 ≤ v) (hr : ∀ i v, rightAt ks s u i = .ok v → 1 ≤ i → 0 ≤ v) :
    ∀ (bs bs' : List K) (r : ℕ) (saved saved' : K) (out : List K), r + bs.length = j → List.Forall₂ (Rel (1 - μ) e) bs bs' →
      Rel (1 - μ) (e + 5) saved saved' → basisInner ks s u j r saved bs = .ok out →
      ∃ out', Rounded.basisInner fl ks s u j r saved' bs' = .ok out' ∧ List.Forall₂ (Rel (1 - μ) (e + 6)) out out'
  | [], _, r, saved, saved', out, _, .nil, hs, eo => by
    have : [saved] = out := Except.ok.inj eo
    subst this
    exact ⟨[saved'], rfl, .cons (hs.mono h.rho_pos h.rho_le (by omega)) .nil⟩
  | b :: bs, _, r, saved, saved', out, hj, .cons (b := b') (l₂ := bs') hb hbs, hs, eo => by
    rw [basisInner] at eo
    obtain ⟨rr, er, eo⟩ := bind_eq_ok.1 eo
    obtain ⟨ll, el, eo⟩ := bind_eq_ok.1 eo
    obtain ⟨temp, et, eo⟩ := bind_eq_ok.1 eo
    obtain ⟨rest, ee, eo⟩ := bind_eq_ok.1 eo
    have hout : (saved + rr * temp) :: rest = out := Except.ok.inj eo
    subst hout
    simp only [List.length_cons] at hj
    have r0 := hr _ _ er (by omega)
    have l0 := hl _ _ el (by omega)
    have er' : Rounded.rightAt fl ks s u (r + 1) = .ok (fl rr) := by
      unfold rightAt at er
      obtain ⟨k, ek, e1⟩ := bind_eq_ok.1 er
      rw [Rounded.rightAt, ek, ok_bind]
      rw [← Except.ok.inj e1]
      rfl
    have el' : Rounded.leftAt fl ks s u (j - r) = .ok (fl ll) := by
      unfold leftAt at el
      obtain ⟨i, ei, e0⟩ := bind_eq_ok.1 el
      obtain ⟨k, ek, e1⟩ := bind_eq_ok.1 e0
      rw [Rounded.leftAt, ei, ok_bind, ek, ok_bind]
      rw [← Except.ok.inj e1]
      rfl
    have hne : rr + ll ≠ 0 := by
      intro hz
      rw [hz] at et
      simp [divR] at et
    have hpos : 0 < rr + ll := lt_of_le_of_ne (add_nonneg r0 l0) (Ne.symm hne)
    rw [divR_eq_ok hne] at et
    have et : b / (rr + ll) = temp := Except.ok.inj et
    have hden : Rel (1 - μ) 2 (rr + ll) (fl (fl rr + fl ll)) := ((h.rel r0).add (h.rel l0)).round h
    have htemp : Rel (1 - μ) (e + 3) temp (fl (b' / fl (fl rr + fl ll))) := by
      rw [← et]
      exact (hb.div h.rho_pos hden hpos).round h
    have hrt : Rel (1 - μ) (e + 5) (rr * temp) (fl (fl rr * fl (b' / fl (fl rr + fl ll)))) :=
      (((h.rel r0).mul h.rho_pos htemp).round h).mono h.rho_pos h.rho_le (by omega)
    have hlt : Rel (1 - μ) (e + 5) (ll * temp) (fl (fl ll * fl (b' / fl (fl rr + fl ll)))) :=
      (((h.rel l0).mul h.rho_pos htemp).round h).mono h.rho_pos h.rho_le (by omega)
    obtain ⟨out', eo', ho'⟩ := inner_rel h hl hr bs bs' (r + 1) _ _ rest (by omega) hbs hlt ee
    refine ⟨_, ?_, .cons ((hs.add hrt).round h) ho'⟩
    rw [Rounded.basisInner, er', ok_bind, el', ok_bind, divR_eq_ok (hden.pos h.rho_pos hpos).ne', ok_bind]
    simp only
    rw [eo', ok_bind]
    rfl

theorem basis_length {ks : List K} {s : ℕ} {u : K} {j : ℕ} : ∀ (bs : List K) (r : ℕ) (saved : K) (out : List K),
    basisInner ks s u j r saved bs = .ok out → out.length = bs.length + 1
  | [], _, _, out, e => by
    have : [_] = out := Except.ok.inj e
    subst this; rfl
  | b :: bs, r, saved, out, e => by
    rw [basisInner] at e
    obtain ⟨rr, er, e⟩ := bind_eq_ok.1 e
    obtain ⟨ll, el, e⟩ := bind_eq_ok.1 e
    obtain ⟨temp, et, e⟩ := bind_eq_ok.1 e
    obtain ⟨rest, ee, e⟩ := bind_eq_ok.1 e
    have : _ :: rest = out := Except.ok.inj e
    subst this
    simp [basis_length bs _ _ _ ee]

theorem basis_rel (h : Rounds fl μ) {ks : List K} {s : ℕ} {u : K}
    (hl : ∀ i v, leftAt ks s u i = .ok v → 1 ≤ i → 0 ≤ v) (hr : ∀ i v, rightAt ks s u i = .ok v → 1 ≤ i → 0 ≤ v) :
    ∀ (p : ℕ) (out : List K), basisFunctions ks s u p = .ok out → out.length = p + 1 ∧
      ∃ out', Rounded.basisFunctions fl ks s u p = .ok out' ∧ List.Forall₂ (Rel (1 - μ) (6 * p)) out out'
  | 0, out, e => by
    have : [1] = out := Except.ok.inj e
    subst this
    exact ⟨rfl, [1], rfl, .cons (Rel.refl zero_le_one) .nil⟩
  | p + 1, out, e => by
    rw [basisFunctions] at e
    obtain ⟨row, e0, e⟩ := bind_eq_ok.1 e
    obtain ⟨x, ex, e⟩ := bind_eq_ok.1 e
    obtain ⟨y, ey, e⟩ := bind_eq_ok.1 e
    obtain ⟨hlen, row', e0', hrow⟩ := basis_rel h hl hr p row e0
    obtain ⟨out', eo, ho⟩ := inner_rel h hl hr row row' 0 0 0 out (by omega) hrow
      ⟨le_refl _, by simp, by simp⟩ e
    refine ⟨by rw [basis_length _ _ _ _ e, hlen], out', ?_, ho⟩
    have ex' : Rounded.leftAt fl ks s u (p + 1) = .ok (fl x) := by
      unfold leftAt at ex
      obtain ⟨i, ei, e1⟩ := bind_eq_ok.1 ex
      obtain ⟨k, ek, e2⟩ := bind_eq_ok.1 e1
      rw [Rounded.leftAt, ei, ok_bind, ek, ok_bind, ← Except.ok.inj e2]
      rfl
    have ey' : Rounded.rightAt fl ks s u (p + 1) = .ok (fl y) := by
      unfold rightAt at ey
      obtain ⟨k, ek, e2⟩ := bind_eq_ok.1 ey
      rw [Rounded.rightAt, ek, ok_bind, ← Except.ok.inj e2]
      rfl
    rw [Rounded.basisFunctions, e0', ok_bind, ex', ok_bind, ey', ok_bind, eo]

theorem basis_core (h : Rounds fl μ) {ks : List K} {p s : ℕ} {u : K} (hm : MonoUpTo (kf ks) (ks.length - 1)) (hp : p ≤ s)
    (hlen : s + p + 1 < ks.length) (hlt : kf ks s < kf ks (s + 1)) (hle : kf ks s ≤ u ∧ u ≤ kf ks (s + 1)) :
    ∃ out, Rounded.basisFunctions fl ks s u p = .ok out ∧ out.length = p + 1 ∧
      ∀ r ≤ p, Rel (1 - μ) (6 * p) (NS (kf ks) s p (s - p + r) u) (out.getD r 0) := by
  have e := basisFunctions_eq (ks := ks) (s := s) (u := u) p hp (by omega)
    (fun i j hi hj hj' => ne_across hm hlt i j hi hj (by omega))
  obtain ⟨hlen', out, eo, ho⟩ := basis_rel h (ks := ks) (s := s) (u := u) (by
      intro i v hv hi
      unfold leftAt at hv
      obtain ⟨m, em, e1⟩ := bind_eq_ok.1 hv
      obtain ⟨k, ek, e2⟩ := bind_eq_ok.1 e1
      have hv : u - k = v := Except.ok.inj e2
      have hm1 : m = s + 1 - i := by
        unfold subR at em
        split_ifs at em
        exact (Except.ok.inj em).symm
      rw [getR_kf (by omega)] at ek
      have hk : kf ks m = k := Except.ok.inj ek
      have := hm m s (by omega) (by omega)
      rw [← hv, ← hk]
      linarith [hle.1]) (by
      intro i v hv hi
      unfold rightAt at hv
      obtain ⟨k, ek, e2⟩ := bind_eq_ok.1 hv
      have hv : k - u = v := Except.ok.inj e2
      have hi' : s + i < ks.length := by
        by_contra hc
        simp [getR, List.getElem?_eq_none (not_lt.1 hc)] at ek
      rw [getR_kf hi'] at ek
      have hk : kf ks (s + i) = k := Except.ok.inj ek
      have := hm (s + 1) (s + i) (by omega) (by omega)
      rw [← hv, ← hk]
      linarith [hle.2]) p _ e
  have hol := ho.length_eq
  rw [hlen'] at hol
  refine ⟨out, eo, hol.symm, fun r hr => ?_⟩
  have := List.forall₂_iff_get.1 ho
  have := this.2 r (by rw [hlen']; omega) (by omega)
  simp only [List.get_eq_getElem, List.getElem_map, List.getElem_range] at this
  simpa [List.getD, show r < out.length by omega] using this

/-- **Basis functions are computed to high relative accuracy**: every value differs from the exact one by a factor that comes from at
    most `6 p` roundings, however small it is, wherever the knots are. -/
theorem C99_basis (h : Rounds fl μ) {ks : List K} {p s : ℕ} {b u : K} (hsort : ks.Pairwise (· ≤ ·)) (hp : p ≤ s)
    (hlen : s + p + 1 < ks.length) (hin : InSpan (kf ks) b u s) :
    ∃ out, Rounded.basisFunctions fl ks s u p = .ok out ∧ out.length = p + 1 ∧
      ∀ r ≤ p, 0 ≤ out.getD r 0 ∧ (1 - μ) ^ (6 * p) * N (kf ks) b p (s - p + r) u ≤ out.getD r 0 ∧
        (1 - μ) ^ (6 * p) * out.getD r 0 ≤ N (kf ks) b p (s - p + r) u := by
  have hm := mono_of_sorted (m := ks.length - 1) hsort (by omega)
  obtain ⟨out, eo, hl, ho⟩ := basis_core h hm hp hlen (Curve.inSpan_lt hin) (Curve.inSpan_le hin)
  refine ⟨out, eo, hl, fun r hr => ?_⟩
  rw [N_eq_NS hm (by omega) hin p (s - p + r) (by omega)]
  exact ⟨(ho r hr).nonneg h.rho_pos, (ho r hr).2⟩

end basis

/-! ### Sums -/

section sums
variable {fl : K → K} {μ : K}

/-- The accumulation of one coordinate. -/
def dotFl (fl : K → K) (c b : ℕ → K) : ℕ → K
  | 0 => 0
  | n + 1 => fl (dotFl fl c b n + fl (c n * b n))

theorem dotFl_repr (h : Rounds fl μ) {c b b' : ℕ → K} {e : ℕ} : ∀ n : ℕ, (∀ i < n, Rel (1 - μ) e (b i) (b' i)) →
    ∃ η : ℕ → K, (∀ i < n, Rel (1 - μ) (e + 1 + n) 1 (η i)) ∧ dotFl fl c b' n = (Finset.range n).sum fun i => c i * b i * η i
  | 0, _ => ⟨fun _ => 1, by simp, by simp [dotFl]⟩
  | n + 1, hb => by
    obtain ⟨η, hη, en⟩ := dotFl_repr h n (fun i hi => hb i (by omega))
    obtain ⟨β, hβ, eb⟩ := (hb n (by omega)).factor h.rho_pos h.rho_le
    obtain ⟨δ1, hδ1, e1⟩ := h.factor (c n * b' n)
    obtain ⟨δ2, hδ2, e2⟩ := h.factor (dotFl fl c b' n + fl (c n * b' n))
    refine ⟨fun i => if i = n then β * δ1 * δ2 else η i * δ2, ?_, ?_⟩
    · intro i hi
      by_cases hin : i = n
      · simp only [if_pos hin]
        have := ((hβ.mul h.rho_pos hδ1).mul h.rho_pos hδ2)
        rw [mul_one, mul_one] at this
        exact this.mono h.rho_pos h.rho_le (by omega)
      · simp only [if_neg hin]
        have := (hη i (by omega)).mul h.rho_pos hδ2
        rw [mul_one] at this
        exact this.mono h.rho_pos h.rho_le (by omega)
    · rw [dotFl, e2, e1, en, eb, Finset.sum_range_succ, add_mul, Finset.sum_mul]
      simp only [if_true]
      congr 1
      · refine Finset.sum_congr rfl fun i hi => ?_
        rw [if_neg (by have := Finset.mem_range.1 hi; omega)]
        ring
      · ring

/-- The quotient of two such sums: masses `m`, coordinates `q`. -/
theorem ratio_bound (h : Rounds fl μ) {ι : Type} (s : Finset ι) {m q η ζ : ι → K} {k : ℕ} {M : K} (hm : ∀ i ∈ s, 0 ≤ m i)
    (hpos : 0 < s.sum m) (hq : ∀ i ∈ s, |q i| ≤ M) (hη : ∀ i ∈ s, Rel (1 - μ) k 1 (η i)) (hζ : ∀ i ∈ s, Rel (1 - μ) k 1 (ζ i)) :
    0 < s.sum (fun i => m i * ζ i) ∧
    |fl (s.sum (fun i => m i * q i * η i) / s.sum (fun i => m i * ζ i)) - s.sum (fun i => m i * q i) / s.sum m| ≤
      (((1 - μ) ^ (2 * k + 1))⁻¹ - 1) * M := by
  have h0 := h.rho_pos
  obtain ⟨δ, hδ, e⟩ := h.factor (s.sum (fun i => m i * q i * η i) / s.sum (fun i => m i * ζ i))
  have hw : Rel (1 - μ) k (s.sum m) (s.sum fun i => m i * ζ i) := by
    refine ⟨hpos.le, ?_, ?_⟩
    · rw [Finset.mul_sum]
      refine Finset.sum_le_sum fun i hi => ?_
      rw [mul_comm]
      exact mul_le_mul_of_nonneg_left (by simpa using (hζ i hi).2.1) (hm i hi)
    · rw [Finset.mul_sum]
      refine Finset.sum_le_sum fun i hi => ?_
      calc (1 - μ) ^ k * (m i * ζ i) = m i * ((1 - μ) ^ k * ζ i) := by ring
        _ ≤ m i * 1 := mul_le_mul_of_nonneg_left (hζ i hi).2.2 (hm i hi)
        _ = m i := mul_one _
  have hwpos := hw.pos h0 hpos
  refine ⟨hwpos, ?_⟩
  set w := s.sum m with hwdef
  set w' := s.sum (fun i => m i * ζ i) with hw'def
  set ρ := 1 - μ with hρ
  have hinv : Rel ρ k 1 (w / w') := by
    have := (Rel.refl (ρ := ρ) (hpos.le)).div h0 hw hpos
    rw [div_self hpos.ne', zero_add] at this
    exact this
  have key : ∀ i ∈ s, |η i * δ * (w / w') - 1| ≤ (ρ ^ (2 * k + 1))⁻¹ - 1 := by
    intro i hi
    have hr := ((hη i hi).mul h0 hδ).mul h0 hinv
    rw [mul_one, mul_one, show k + 1 + k = 2 * k + 1 by ring] at hr
    have hp : 0 < ρ ^ (2 * k + 1) := pow_pos h0 _
    have hp1 : ρ ^ (2 * k + 1) ≤ 1 := pow_le_one₀ h0.le h.rho_le
    have hup : η i * δ * (w / w') ≤ (ρ ^ (2 * k + 1))⁻¹ := by
      rw [← one_div, le_div_iff₀ hp, mul_comm]; exact hr.2.2
    have hlo : ρ ^ (2 * k + 1) ≤ η i * δ * (w / w') := by simpa using hr.2.1
    have hsum : 2 ≤ ρ ^ (2 * k + 1) + (ρ ^ (2 * k + 1))⁻¹ := by
      have : ρ ^ (2 * k + 1) * (ρ ^ (2 * k + 1))⁻¹ = 1 := mul_inv_cancel₀ hp.ne'
      nlinarith [sq_nonneg (ρ ^ (2 * k + 1) - 1), inv_pos.2 hp]
    rw [abs_le]
    constructor <;> linarith
  have hM : 0 ≤ M := by
    by_contra hc
    push Not at hc
    have hne : s.Nonempty := by
      by_contra he
      rw [Finset.not_nonempty_iff_eq_empty] at he
      rw [hwdef, he] at hpos
      simp at hpos
    obtain ⟨i, hi⟩ := hne
    have := hq i hi
    have := abs_nonneg (q i)
    linarith
  have hd : fl (s.sum (fun i => m i * q i * η i) / w') - s.sum (fun i => m i * q i) / w =
      (s.sum fun i => m i * q i * (η i * δ * (w / w') - 1)) / w := by
    rw [e, eq_div_iff hpos.ne']
    simp only [mul_sub, mul_one, Finset.sum_sub_distrib]
    rw [sub_mul, div_mul_cancel₀ _ hpos.ne']
    congr 1
    rw [div_mul_eq_mul_div, div_mul_eq_mul_div, Finset.sum_mul, Finset.sum_mul, Finset.sum_div]
    refine Finset.sum_congr rfl fun i _ => ?_
    ring
  rw [hd, abs_div, abs_of_pos hpos, div_le_iff₀ hpos]
  calc |s.sum fun i => m i * q i * (η i * δ * (w / w') - 1)| ≤ s.sum fun i => |m i * q i * (η i * δ * (w / w') - 1)| :=
        Finset.abs_sum_le_sum_abs _ _
    _ ≤ s.sum fun i => ((ρ ^ (2 * k + 1))⁻¹ - 1) * M * m i := by
        refine Finset.sum_le_sum fun i hi => ?_
        rw [abs_mul, abs_mul, abs_of_nonneg (hm i hi)]
        calc m i * |q i| * |η i * δ * (w / w') - 1| ≤ m i * M * ((ρ ^ (2 * k + 1))⁻¹ - 1) :=
              mul_le_mul (mul_le_mul_of_nonneg_left (hq i hi) (hm i hi)) (key i hi) (abs_nonneg _) (mul_nonneg (hm i hi) hM)
          _ = _ := by ring
    _ = ((ρ ^ (2 * k + 1))⁻¹ - 1) * M * w := by rw [Finset.mul_sum]

end sums

/-! ### Curves -/

section curves
variable {fl : K → K} {μ eps : K}

theorem sum_eq {cps : List ((Fin d → K) × K)} {basis : List K} {off : ℕ} : ∀ n, off + n ≤ cps.length → n ≤ basis.length →
    (List.range n).foldlM (fun acc i => do
      let c ← getR cps (off + i)
      let b ← getR basis i
      pure (Rounded.accumulate fl acc b c)) (0 : (Fin d → K) × K) =
    (.ok (fun k => dotFl fl (fun i => (cps.getD (off + i) 0).1 k) (fun i => basis.getD i 0) n,
      dotFl fl (fun i => (cps.getD (off + i) 0).2) (fun i => basis.getD i 0) n) : Res _)
  | 0, _, _ => rfl
  | n + 1, h1, h2 => by
    rw [List.range_succ, List.foldlM_append, sum_eq n (by omega) (by omega), ok_bind, List.foldlM_cons,
      getR_eq_getD 0 (by omega), ok_bind, getR_eq_getD 0 (by omega), ok_bind]
    rfl

/-- **Evaluation in floating point arithmetic**: for a curve with positive weights whose knots are stored without error, `point_at`
    succeeds at every parameter of the domain, and every coordinate of the computed point differs from the exact one by at most the
    error of `14 p + 5` roundings of the largest coordinate of the control points. -/
theorem C99_curve (h : Rounds fl μ) {c : Curve K ((Fin d → K) × K)} (hg : c.Good eps) (hw : ∀ q ∈ c.cps, 0 < q.2)
    (hks : ∀ k ∈ c.knots, fl k = k) {t : K} (h1 : c.lo ≤ t) (h2 : t ≤ c.hi) :
    ∃ x x', c.pointAt eps t = .ok x ∧ Rounded.pointAt fl eps c t = .ok x' ∧
      ∀ (i : Fin d) (M : K), (∀ q ∈ c.cps, |q.1 i / q.2| ≤ M) →
        |x' i - x i| ≤ (((1 - μ) ^ (14 * c.degree + 5))⁻¹ - 1) * M := by
  have hpos := hg.cps_pos
  have hlen := hg.knots_len
  obtain ⟨s, es, hps, hsn, hin⟩ := hg.exists_span h1 h2
  have hm : MonoUpTo (kf c.knots) (c.knots.length - 1) := by
    rw [show c.knots.length - 1 = c.cps.length - 1 + c.degree + 1 by omega]; exact hg.good.mono
  obtain ⟨out, eo, hol, ho⟩ := basis_core h hm hps (by omega) (Curve.inSpan_lt hin) (Curve.inSpan_le hin)
  have esf : Rounded.findKnotSpanIndex fl eps c.knots (c.cps.length - 1) c.degree t = .ok s := by
    rw [C99_span h (by omega) hg.good hks h1 (by rw [Nat.sub_add_cancel hpos]; exact h2)]
    exact es
  obtain ⟨ex, hwpos⟩ := C09_point_at_positive_weights hg hw h1 h2
  set p := c.degree with hpdef
  let b : ℕ → K := fun r => NS (kf c.knots) s p (s - p + r) t
  let P : ℕ → (Fin d → K) × K := fun r => c.cps.getD (s - p + r) 0
  have hP : ∀ r, r ≤ p → P r ∈ c.cps := by
    intro r hr
    show c.cps.getD (s - p + r) 0 ∈ c.cps
    rw [List.getD, List.getElem?_eq_getElem (by omega)]
    exact List.getElem_mem _
  have hb : ∀ r, r ≤ p → 0 ≤ b r := fun r hr => (ho r hr).1
  have heval : c.eval t = (Finset.range (p + 1)).sum fun r => b r • P r := Curve.eval_eq_span hg hps hsn hin
  have hweight : (c.eval t).2 = (Finset.range (p + 1)).sum fun r => b r * (P r).2 := by
    rw [heval, Prod.snd_sum]; rfl
  have hcoord : ∀ i, (c.eval t).1 i = (Finset.range (p + 1)).sum fun r => b r * (P r).1 i := by
    intro i
    rw [heval, Prod.fst_sum, Finset.sum_apply]; rfl
  have hrel : ∀ i < p + 1, Rel (1 - μ) (6 * p) (b i) (out.getD i 0) := fun i hi => ho i (by omega)
  obtain ⟨ζ, hζ, eζ⟩ := dotFl_repr h (c := fun r => (P r).2) (p + 1) hrel
  have bound : ∀ (i : Fin d) (M : K), (∀ r ∈ Finset.range (p + 1), |(P r).1 i / (P r).2| ≤ M) →
      0 < dotFl fl (fun r => (P r).2) (fun r => out.getD r 0) (p + 1) ∧
      |fl (dotFl fl (fun r => (P r).1 i) (fun r => out.getD r 0) (p + 1) / dotFl fl (fun r => (P r).2) (fun r => out.getD r 0) (p + 1)) -
        ((c.eval t).2⁻¹ • (c.eval t).1) i| ≤ (((1 - μ) ^ (14 * p + 5))⁻¹ - 1) * M := by
    intro i M hM
    obtain ⟨η, hη, eη⟩ := dotFl_repr h (c := fun r => (P r).1 i) (p + 1) hrel
    have := ratio_bound h (Finset.range (p + 1)) (m := fun r => b r * (P r).2) (q := fun r => (P r).1 i / (P r).2) (η := η) (ζ := ζ)
      (k := 7 * p + 2) (M := M) (fun r hr => mul_nonneg (hb r (by have := Finset.mem_range.1 hr; omega))
        (hw _ (hP r (by have := Finset.mem_range.1 hr; omega))).le) (by rw [← hweight]; exact hwpos) hM
      (fun r hr => (hη r (Finset.mem_range.1 hr)).mono h.rho_pos h.rho_le (by omega))
      (fun r hr => (hζ r (Finset.mem_range.1 hr)).mono h.rho_pos h.rho_le (by omega))
    have hne : ∀ r ∈ Finset.range (p + 1), (P r).2 ≠ 0 := fun r hr => (hw _ (hP r (by have := Finset.mem_range.1 hr; omega))).ne'
    have e1 : (Finset.range (p + 1)).sum (fun r => b r * (P r).2 * ((P r).1 i / (P r).2) * η r) =
        dotFl fl (fun r => (P r).1 i) (fun r => out.getD r 0) (p + 1) := by
      rw [eη]
      refine Finset.sum_congr rfl fun r hr => ?_
      have := hne r hr
      field_simp
    have e2 : (Finset.range (p + 1)).sum (fun r => b r * (P r).2 * ζ r) = dotFl fl (fun r => (P r).2) (fun r => out.getD r 0) (p + 1) := by
      rw [eζ]
      refine Finset.sum_congr rfl fun r hr => ?_
      ring
    have e3 : (Finset.range (p + 1)).sum (fun r => b r * (P r).2 * ((P r).1 i / (P r).2)) = (c.eval t).1 i := by
      rw [hcoord]
      refine Finset.sum_congr rfl fun r hr => ?_
      have := hne r hr
      field_simp
    rw [e1, e2, e3, ← hweight, show 2 * (7 * p + 2) + 1 = 14 * p + 5 by ring] at this
    refine ⟨this.1, ?_⟩
    rw [Pi.smul_apply, smul_eq_mul, inv_mul_eq_div]
    exact this.2
  have hwp : 0 < dotFl fl (fun r => (P r).2) (fun r => out.getD r 0) (p + 1) := by
    have := (ratio_bound h (Finset.range (p + 1)) (m := fun r => b r * (P r).2) (q := fun _ => 0) (η := ζ) (ζ := ζ) (k := 7 * p + 2) (M := 0)
      (fun r hr => mul_nonneg (hb r (by have := Finset.mem_range.1 hr; omega))
        (hw _ (hP r (by have := Finset.mem_range.1 hr; omega))).le) (by rw [← hweight]; exact hwpos) (by simp)
      (fun r hr => (hζ r (Finset.mem_range.1 hr)).mono h.rho_pos h.rho_le (by omega))
      (fun r hr => (hζ r (Finset.mem_range.1 hr)).mono h.rho_pos h.rho_le (by omega))).1
    rw [eζ]
    refine this.trans_eq (Finset.sum_congr rfl fun r hr => ?_)
    ring
  refine ⟨_, _, ex, ?_, fun i M hM => (bound i M (fun r hr => hM _ (hP r (by have := Finset.mem_range.1 hr; omega)))).2⟩
  rw [Rounded.pointAt, Rounded.point, Curve.lastIndex, subR_eq_ok (by omega), ok_bind, subR_eq_ok (by omega), ok_bind,
    show c.knots.length - p - 2 = c.cps.length - 1 by omega, esf, ok_bind, eo, ok_bind, subR_eq_ok hps, ok_bind, Rounded.sumPoints,
    sum_eq _ (by omega) (by omega), ok_bind, Rounded.dehomogenize, if_pos hwp.ne']
  rfl

end curves

/-! ### Surfaces -/

section surfaces
variable {fl : K → K} {μ eps : K}

theorem getD_mem {α : Type} {l : List α} {i : ℕ} {x : α} (h : i < l.length) : l.getD i x ∈ l := by
  rw [List.getD, List.getElem?_eq_getElem h]
  exact List.getElem_mem _

theorem iso_eq {S : Surface K ((Fin d → K) × K)} (hg : S.Good eps) {bu : List K} {off j : ℕ} (hj : j < S.cols) : ∀ n, off + n ≤ S.cps.length →
    n ≤ bu.length →
    (List.range n).foldlM (fun acc k => do
      let row ← getR S.cps (off + k)
      let p ← getR row j
      let b ← getR bu k
      pure (Rounded.accumulate fl acc b p)) (0 : (Fin d → K) × K) =
    (.ok (fun k => dotFl fl (fun i => (S.cp (off + i) j).1 k) (fun i => bu.getD i 0) n,
      dotFl fl (fun i => (S.cp (off + i) j).2) (fun i => bu.getD i 0) n) : Res _)
  | 0, _, _ => rfl
  | n + 1, h1, h2 => by
    rw [List.range_succ, List.foldlM_append, iso_eq hg hj n (by omega) (by omega), ok_bind, List.foldlM_cons,
      getR_eq_getD [] (by omega), ok_bind, getR_eq_getD 0 (by rw [hg.row_len (by omega)]; exact hj), ok_bind,
      getR_eq_getD 0 (by omega), ok_bind]
    rfl

theorem outer_fold {f : ℕ → (Fin d → K) × K} {g : ℕ → Res ((Fin d → K) × K)} {bv : List K} : ∀ n, (∀ l < n, g l = .ok (f l)) → n ≤ bv.length →
    (List.range n).foldlM (fun acc l => do
      let temp ← g l
      let b ← getR bv l
      pure (Rounded.accumulate fl acc b temp)) (0 : (Fin d → K) × K) =
    (.ok (fun k => dotFl fl (fun l => (f l).1 k) (fun i => bv.getD i 0) n,
      dotFl fl (fun l => (f l).2) (fun i => bv.getD i 0) n) : Res _)
  | 0, _, _ => rfl
  | n + 1, h1, h2 => by
    rw [List.range_succ, List.foldlM_append, outer_fold n (fun l hl => h1 l (by omega)) (by omega), ok_bind, List.foldlM_cons,
      h1 n (by omega), ok_bind, getR_eq_getD 0 (by omega), ok_bind]
    rfl

/-- A double sum. -/
theorem dotFl_double (h : Rounds fl μ) {c : ℕ → ℕ → K} {a a' b b' : ℕ → K} {e f n m : ℕ} (ha : ∀ i < n, Rel (1 - μ) e (a i) (a' i))
    (hb : ∀ i < m, Rel (1 - μ) f (b i) (b' i)) :
    ∃ η : ℕ × ℕ → K, (∀ i ∈ Finset.range n ×ˢ Finset.range m, Rel (1 - μ) (e + 1 + n + (f + 1 + m)) 1 (η i)) ∧
      dotFl fl (fun l => dotFl fl (fun k => c k l) a' n) b' m =
        (Finset.range n ×ˢ Finset.range m).sum fun i => a i.1 * b i.2 * c i.1 i.2 * η i := by
  choose η hη eη using fun l => dotFl_repr h (c := fun k => c k l) n ha
  obtain ⟨ζ, hζ, eζ⟩ := dotFl_repr h (c := fun l => dotFl fl (fun k => c k l) a' n) m hb
  refine ⟨fun i => η i.2 i.1 * ζ i.2, fun i hi => ?_, ?_⟩
  · rw [Finset.mem_product, Finset.mem_range, Finset.mem_range] at hi
    have := (hη i.2 i.1 hi.1).mul h.rho_pos (hζ i.2 hi.2)
    rwa [mul_one] at this
  · rw [eζ, Finset.sum_product_right]
    refine Finset.sum_congr rfl fun l _ => ?_
    rw [eη, Finset.sum_mul, Finset.sum_mul]
    refine Finset.sum_congr rfl fun k _ => ?_
    ring

/-- **Evaluation of surfaces in floating point arithmetic**: the error is at most that of `14 (p + q) + 9` roundings of the largest
    coordinate of the control points. -/
theorem C99_surface (h : Rounds fl μ) {S : Surface K ((Fin d → K) × K)} (hg : S.Good eps) (hw : ∀ row ∈ S.cps, ∀ q ∈ row, 0 < q.2)
    (hku : ∀ k ∈ S.uKnots, fl k = k) (hkv : ∀ k ∈ S.vKnots, fl k = k) {u v : K} (h1 : S.ulo ≤ u) (h2 : u ≤ S.uhi)
    (h3 : S.vlo ≤ v) (h4 : v ≤ S.vhi) :
    ∃ x x', S.pointAt eps u v = .ok x ∧ Rounded.pointAtS fl eps S u v = .ok x' ∧
      ∀ (i : Fin d) (M : K), (∀ row ∈ S.cps, ∀ q ∈ row, |q.1 i / q.2| ≤ M) →
        |x' i - x i| ≤ (((1 - μ) ^ (14 * (S.uDegree + S.vDegree) + 9))⁻¹ - 1) * M := by
  have hrp := hg.rows_pos
  have hcp := hg.cols_pos
  have hul := hg.u_len
  have hvl := hg.v_len
  obtain ⟨su, eu, hpu, hnu, iu⟩ := hg.exists_span_u h1 h2
  obtain ⟨sv, ev, hpv, hnv, iv⟩ := hg.exists_span_v h3 h4
  have hmu : MonoUpTo (kf S.uKnots) (S.uKnots.length - 1) := by
    rw [show S.uKnots.length - 1 = S.cps.length - 1 + S.uDegree + 1 by omega]; exact hg.u_good.mono
  have hmv : MonoUpTo (kf S.vKnots) (S.vKnots.length - 1) := by
    rw [show S.vKnots.length - 1 = S.cols - 1 + S.vDegree + 1 by omega]; exact hg.v_good.mono
  obtain ⟨bu', eu', hul', hbu⟩ := basis_core h hmu hpu (by omega) (Curve.inSpan_lt iu) (Curve.inSpan_le iu)
  obtain ⟨bv', ev', hvl', hbv⟩ := basis_core h hmv hpv (by omega) (Curve.inSpan_lt iv) (Curve.inSpan_le iv)
  have efu : Rounded.findKnotSpanIndex fl eps S.uKnots (S.cps.length - 1) S.uDegree u = .ok su := by
    rw [C99_span h (by omega) hg.u_good hku h1 (by rw [Nat.sub_add_cancel hrp]; exact h2)]
    exact eu
  have efv : Rounded.findKnotSpanIndex fl eps S.vKnots (S.cols - 1) S.vDegree v = .ok sv := by
    rw [C99_span h (by omega) hg.v_good hkv h3 (by rw [Nat.sub_add_cancel hcp]; exact h4)]
    exact ev
  obtain ⟨ex, hwpos⟩ := C28_point_at hg hw h1 h2 h3 h4
  set p := S.uDegree with hpdef
  set q := S.vDegree with hqdef
  let a : ℕ → K := fun r => NS (kf S.uKnots) su p (su - p + r) u
  let b : ℕ → K := fun r => NS (kf S.vKnots) sv q (sv - q + r) v
  let P : ℕ → ℕ → (Fin d → K) × K := fun k l => S.cp (su - p + k) (sv - q + l)
  let I := Finset.range (p + 1) ×ˢ Finset.range (q + 1)
  have hI : ∀ i ∈ I, i.1 ≤ p ∧ i.2 ≤ q := by
    intro i hi
    simp only [I, Finset.mem_product, Finset.mem_range] at hi
    omega
  have hP : ∀ k l, k ≤ p → l ≤ q → ∃ row ∈ S.cps, P k l ∈ row := by
    intro k l hk hl
    have hk' : su - p + k < S.cps.length := by omega
    refine ⟨S.cps.getD (su - p + k) [], ?_, ?_⟩
    · rw [List.getD, List.getElem?_eq_getElem hk']
      exact List.getElem_mem _
    · exact getD_mem (show sv - q + l < (S.cps.getD (su - p + k) []).length by rw [hg.row_len hk']; omega)
  have hPw : ∀ i ∈ I, 0 < (P i.1 i.2).2 := by
    intro i hi
    obtain ⟨row, hr, hm⟩ := hP i.1 i.2 (hI i hi).1 (hI i hi).2
    exact hw row hr _ hm
  have ha : ∀ i < p + 1, Rel (1 - μ) (6 * p) (a i) (bu'.getD i 0) := fun i hi => hbu i (by omega)
  have hb : ∀ i < q + 1, Rel (1 - μ) (6 * q) (b i) (bv'.getD i 0) := fun i hi => hbv i (by omega)
  have heval : S.eval u v = I.sum fun i => (a i.1 * b i.2) • P i.1 i.2 := by
    rw [Surface.eval_eq_isoU hg, Curve.eval_eq_span (hg.isoU u) (s := sv) hpv (by simpa [Surface.isoU] using hnv) (by rw [Surface.isoU_hi]; exact iv)]
    rw [Finset.sum_product_right]
    refine Finset.sum_congr rfl fun l hl => ?_
    have hl := Finset.mem_range.1 hl
    have hl : l < q + 1 := hl
    have hl' : sv - q + l < S.cols := by omega
    have e : (S.isoU u).cps.getD (sv - q + l) 0 = (S.col (sv - q + l)).eval u := Surface.getD_map_range hl' _
    show b l • (S.isoU u).cps.getD (sv - q + l) 0 = _
    rw [e, Curve.eval_eq_span (hg.col _) (s := su) hpu (by simpa [Surface.col] using hnu) (by rw [Surface.col_hi]; exact iu), Finset.smul_sum]
    refine Finset.sum_congr rfl fun k hk => ?_
    have hk : k < p + 1 := Finset.mem_range.1 hk
    have e2 := Surface.col_getD S (j := sv - q + l) (show su - p + k < S.cps.length by omega)
    show b l • (a k • (S.col (sv - q + l)).cps.getD (su - p + k) 0) = _
    rw [e2, smul_smul, mul_comm]
  have hweight : (S.eval u v).2 = I.sum fun i => a i.1 * b i.2 * (P i.1 i.2).2 := by
    rw [heval, Prod.snd_sum]; rfl
  have hcoord : ∀ k, (S.eval u v).1 k = I.sum fun i => a i.1 * b i.2 * (P i.1 i.2).1 k := by
    intro k
    rw [heval, Prod.fst_sum, Finset.sum_apply]; rfl
  have hab : ∀ i ∈ I, 0 ≤ a i.1 * b i.2 := fun i hi => mul_nonneg (hbu i.1 (hI i hi).1).1 (hbv i.2 (hI i hi).2).1
  let Wd := dotFl fl (fun l => dotFl fl (fun k => (P k l).2) (fun i => bu'.getD i 0) (p + 1)) (fun i => bv'.getD i 0) (q + 1)
  let X := fun j => dotFl fl (fun l => dotFl fl (fun k => (P k l).1 j) (fun i => bu'.getD i 0) (p + 1)) (fun i => bv'.getD i 0) (q + 1)
  obtain ⟨ζ, hζ, eζ⟩ := dotFl_double h (c := fun k l => (P k l).2) ha hb
  have e2 : I.sum (fun i => a i.1 * b i.2 * (P i.1 i.2).2 * ζ i) = Wd := eζ.symm
  have hζ' : ∀ i ∈ I, Rel (1 - μ) (7 * (p + q) + 4) 1 (ζ i) := fun i hi => (hζ i hi).mono h.rho_pos h.rho_le (by omega)
  have hwp : 0 < Wd := by
    have := (ratio_bound h I (m := fun i => a i.1 * b i.2 * (P i.1 i.2).2) (q := fun _ => 0) (η := ζ) (ζ := ζ) (k := 7 * (p + q) + 4) (M := 0)
      (fun i hi => mul_nonneg (hab i hi) (hPw i hi).le) (by rw [← hweight]; exact hwpos) (by simp) hζ' hζ').1
    rwa [e2] at this
  refine ⟨_, fun j => fl (X j / Wd), ex, ?_, fun j M hM => ?_⟩
  · have efold := outer_fold (fl := fl) (f := fun l => (fun k => dotFl fl (fun i => (P i l).1 k) (fun i => bu'.getD i 0) (p + 1),
        dotFl fl (fun i => (P i l).2) (fun i => bu'.getD i 0) (p + 1)))
      (g := fun l => do let v0 ← subR sv q; Rounded.isoPoint fl S bu' (su - p) (v0 + l)) (bv := bv') (q + 1) (fun l hl => by
        rw [subR_eq_ok hpv, ok_bind, Rounded.isoPoint, iso_eq hg (by omega) _ (by omega) (by omega)]) (by omega)
    simp only [bind_assoc] at efold
    rw [Rounded.pointAtS, Rounded.pointS, subR_eq_ok (by omega), ok_bind, subR_eq_ok (by omega), ok_bind, subR_eq_ok (by omega), ok_bind,
      subR_eq_ok (by omega), ok_bind, show S.uKnots.length - p - 2 = S.cps.length - 1 by omega,
      show S.vKnots.length - q - 2 = S.cols - 1 by omega, efu, ok_bind, efv, ok_bind, eu', ok_bind, ev', ok_bind, subR_eq_ok hpu, ok_bind]
    rw [efold, ok_bind, Rounded.dehomogenize, if_pos hwp.ne']
    rfl
  · obtain ⟨η, hη, eη⟩ := dotFl_double h (c := fun k l => (P k l).1 j) ha hb
    have := (ratio_bound h I (m := fun i => a i.1 * b i.2 * (P i.1 i.2).2) (q := fun i => (P i.1 i.2).1 j / (P i.1 i.2).2) (η := η) (ζ := ζ)
      (k := 7 * (p + q) + 4) (M := M) (fun i hi => mul_nonneg (hab i hi) (hPw i hi).le) (by rw [← hweight]; exact hwpos)
      (fun i hi => by
        obtain ⟨row, hr, hm⟩ := hP i.1 i.2 (hI i hi).1 (hI i hi).2
        exact hM row hr _ hm) (fun i hi => (hη i hi).mono h.rho_pos h.rho_le (by omega)) hζ').2
    have e1 : I.sum (fun i => a i.1 * b i.2 * (P i.1 i.2).2 * ((P i.1 i.2).1 j / (P i.1 i.2).2) * η i) = X j := by
      refine Eq.trans (Finset.sum_congr rfl fun i hi => ?_) eη.symm
      have := (hPw i hi).ne'
      field_simp
    have e3 : I.sum (fun i => a i.1 * b i.2 * (P i.1 i.2).2 * ((P i.1 i.2).1 j / (P i.1 i.2).2)) = (S.eval u v).1 j := by
      rw [hcoord]
      refine Finset.sum_congr rfl fun i hi => ?_
      have := (hPw i hi).ne'
      field_simp
    rw [e1, e2, e3, ← hweight, show 2 * (7 * (p + q) + 4) + 1 = 14 * (p + q) + 9 by ring] at this
    rw [Pi.smul_apply, smul_eq_mul, inv_mul_eq_div]
    exact this

end surfaces

/-! ### Rounding to the nearest -/

/-- `fl x` is an element of `F` nearest to `x`; ties are broken in any way. -/
def Nearest (F : Set K) (fl : K → K) : Prop := ∀ x, fl x ∈ F ∧ ∀ y ∈ F, |fl x - x| ≤ |y - x|

theorem Nearest.fix {F : Set K} {fl : K → K} (h : Nearest F fl) {x : K} (hx : x ∈ F) : fl x = x := by
  have := (h x).2 x hx
  rw [sub_self, abs_zero] at this
  linarith [abs_eq_zero.1 (le_antisymm this (abs_nonneg _))]

/-- Any rounding to the nearest element of a set that comes close enough to every number qualifies. -/
theorem Nearest.rounds {F : Set K} {fl : K → K} (h : Nearest F fl) {μ : K} (h0 : 0 ≤ μ) (h1 : μ < 1)
    (hF : ∀ x, ∃ y ∈ F, |y - x| ≤ μ * |x|) : Rounds fl μ where
  nonneg := h0
  lt_one := h1
  err x := by
    obtain ⟨y, hy, e⟩ := hF x
    exact ((h x).2 y hy).trans e
  mono x y hxy := by
    rcases hxy.eq_or_lt with rfl | hlt
    · exact le_rfl
    · by_contra hc
      push Not at hc
      have e1 := (h x).2 _ (h y).1
      have e2 := (h y).2 _ (h x).1
      rw [← sq_le_sq] at e1 e2
      nlinarith

section binary64
variable [FloorRing K]

/-- The numbers with a significand of 53 bits and any exponent. -/
def Binary64 (K : Type) [Field K] [LinearOrder K] : Set K := {x | ∃ m e : ℤ, |m| ≤ 2 ^ 53 ∧ x = (m : K) * 2 ^ e}

/-- A unit in the last place of `x`. -/
def ulp (x : K) : K := 2 ^ (Int.log 2 |x| - 52)

/-- Rounding to the nearest, ties upwards. -/
def fl64 (x : K) : K := (round (x / ulp x) : K) * ulp x

theorem ulp_pos (x : K) : 0 < ulp x := zpow_pos (by norm_num) _

theorem ulp_bounds {x : K} (hx : x ≠ 0) : 2 ^ 52 * ulp x ≤ |x| ∧ |x| < 2 ^ 53 * ulp x := by
  have hp := abs_pos.2 hx
  have e1 := Int.zpow_log_le_self (b := 2) (by norm_num) hp
  have e2 := Int.lt_zpow_succ_log_self (b := 2) (by norm_num) |x|
  have k1 : (2 : K) ^ 52 * ulp x = 2 ^ Int.log 2 |x| := by
    rw [ulp, ← zpow_natCast, ← zpow_add₀ (by norm_num)]; congr 1; push_cast; ring
  have k2 : (2 : K) ^ 53 * ulp x = 2 ^ (Int.log 2 |x| + 1) := by
    rw [ulp, ← zpow_natCast, ← zpow_add₀ (by norm_num)]; congr 1; push_cast; ring
  rw [k1, k2]
  exact ⟨by exact_mod_cast e1, by exact_mod_cast e2⟩

theorem fl64_err (x : K) : |fl64 x - x| ≤ ulp x / 2 := by
  have hu := ulp_pos x
  have := abs_sub_round (x / ulp x)
  rw [show fl64 x - x = -((x / ulp x - round (x / ulp x)) * ulp x) by
    rw [fl64, sub_mul, div_mul_cancel₀ _ hu.ne']; ring, abs_neg, abs_mul, abs_of_pos hu]
  nlinarith

theorem fl64_nearest : Nearest (Binary64 K) (fl64 : K → K) := by
  intro x
  have hu := ulp_pos x
  by_cases hx : x = 0
  · subst hx
    have : fl64 (0 : K) = 0 := by simp [fl64]
    rw [this]
    exact ⟨⟨0, 0, by norm_num, by simp⟩, by simp⟩
  obtain ⟨b1, b2⟩ := ulp_bounds hx
  have hmul : ∀ z : ℤ, |fl64 x - x| ≤ |(z : K) * ulp x - x| := by
    intro z
    have := round_le (x / ulp x) z
    have e : ∀ w : ℤ, |(w : K) * ulp x - x| = |x / ulp x - w| * ulp x := by
      intro w
      rw [show (w : K) * ulp x - x = -((x / ulp x - w) * ulp x) by rw [sub_mul, div_mul_cancel₀ _ hu.ne']; ring, abs_neg, abs_mul,
        abs_of_pos hu]
    rw [fl64, e, e]
    exact mul_le_mul_of_nonneg_right this hu.le
  constructor
  · refine ⟨round (x / ulp x), Int.log 2 |x| - 52, ?_, rfl⟩
    have hb : |x / ulp x| ≤ 2 ^ 53 := by
      rw [abs_div, abs_of_pos hu, div_le_iff₀ hu]; exact b2.le
    have rmono : ∀ {a b : K}, a ≤ b → round a ≤ round b := by
      intro a b hab
      rw [round_eq, round_eq]
      exact Int.floor_mono (by linarith)
    rw [abs_le] at hb ⊢
    constructor
    · have := rmono hb.1
      rwa [show (-2 ^ 53 : K) = ((-2 ^ 53 : ℤ) : K) by norm_num, round_intCast] at this
    · have := rmono hb.2
      rwa [show (2 ^ 53 : K) = ((2 ^ 53 : ℤ) : K) by norm_num, round_intCast] at this
  · rintro y ⟨m, e, hm, rfl⟩
    by_cases he : Int.log 2 |x| - 52 ≤ e
    · obtain ⟨n, hn⟩ := Int.eq_ofNat_of_zero_le (sub_nonneg.2 he)
      have : (m : K) * 2 ^ e = ((m * 2 ^ n : ℤ) : K) * ulp x := by
        rw [ulp, show e = (n : ℤ) + (Int.log 2 |x| - 52) by omega, zpow_add₀ (by norm_num), zpow_natCast]
        push_cast; ring
      rw [this]
      exact hmul _
    · have hy : |(m : K) * 2 ^ e| ≤ 2 ^ 52 * ulp x := by
        rw [abs_mul, abs_of_pos (zpow_pos (by norm_num : (0 : K) < 2) e)]
        have h1 : |(m : K)| ≤ 2 ^ 53 := by exact_mod_cast hm
        have h2 : (2 : K) ^ e ≤ 2 ^ (Int.log 2 |x| - 53) := zpow_le_zpow_right₀ (by norm_num) (by omega)
        have h3 : (2 : K) ^ (Int.log 2 |x| - 53) * 2 = ulp x := by
          rw [ulp, ← zpow_add_one₀ (by norm_num)]; congr 1; ring
        have h4 : (0 : K) < 2 ^ e := zpow_pos (by norm_num) e
        nlinarith [abs_nonneg (m : K)]
      rcases lt_or_gt_of_ne hx with hs | hs
      · have := hmul (-2 ^ 52)
        rw [abs_of_neg hs] at b1
        refine this.trans ?_
        push_cast
        rw [abs_of_nonneg (by linarith), abs_of_nonneg (by have := (abs_le.1 hy).1; linarith)]
        have := (abs_le.1 hy).1
        linarith
      · have := hmul (2 ^ 52)
        rw [abs_of_pos hs] at b1
        refine this.trans ?_
        push_cast
        rw [abs_of_nonpos (by linarith), abs_of_nonpos (by have := (abs_le.1 hy).2; linarith)]
        have := (abs_le.1 hy).2
        linarith

theorem binary64_dense (x : K) : ∃ y ∈ Binary64 K, |y - x| ≤ (2 ^ 53)⁻¹ * |x| := by
  refine ⟨fl64 x, (fl64_nearest x).1, ?_⟩
  by_cases hx : x = 0
  · subst hx; simp [fl64]
  · have := fl64_err x
    have := (ulp_bounds hx).1
    have : ulp x / 2 ≤ (2 ^ 53)⁻¹ * |x| := by
      rw [inv_mul_eq_div, le_div_iff₀ (by norm_num)]
      linarith
    linarith [fl64_err x]

/-- **Double precision**: whatever the ties are rounded to, a rounding to the nearest number with 53 significant bits has unit
    roundoff `2⁻⁵³`. -/
theorem C99_nearest {fl : K → K} (h : Nearest (Binary64 K) fl) : Rounds fl ((2 : K) ^ 53)⁻¹ :=
  h.rounds (by positivity) (by rw [inv_lt_one₀ (by positivity)]; norm_num) binary64_dense

/-- The relative error of `n` roundings. -/
theorem gamma_le {μ : K} (h1 : μ < 1) {n : ℕ} (hn : n * μ < 1) : ((1 - μ) ^ n)⁻¹ - 1 ≤ n * μ / (1 - n * μ) := by
  have hb : 1 - n * μ ≤ (1 - μ) ^ n := by
    have := one_add_mul_le_pow (a := -μ) (by linarith) n
    rw [show (1 : K) + -μ = 1 - μ by ring] at this
    linarith
  have hp : 0 < 1 - n * μ := by linarith
  have : ((1 - μ) ^ n)⁻¹ ≤ (1 - n * μ)⁻¹ := inv_anti₀ hp hb
  have e : n * μ / (1 - n * μ) = (1 - n * μ)⁻¹ - 1 := by field_simp; ring
  rw [e]
  linarith

/-- **Curves in double precision**: a curve of degree up to a hundred, with positive weights and knots that are numbers of 53 bits, is
    evaluated with an error of at most `(14 p + 6) · 2⁻⁵³` times the largest coordinate of the control points. -/
theorem C99_double {fl : K → K} (h : Nearest (Binary64 K) fl) {eps : K} {c : Curve K ((Fin d → K) × K)} (hg : c.Good eps)
    (hw : ∀ q ∈ c.cps, 0 < q.2) (hks : ∀ k ∈ c.knots, k ∈ Binary64 K) (hdeg : c.degree ≤ 100) {t : K} (h1 : c.lo ≤ t) (h2 : t ≤ c.hi) :
    ∃ x x', c.pointAt eps t = .ok x ∧ Rounded.pointAt fl eps c t = .ok x' ∧
      ∀ (i : Fin d) (M : K), (∀ q ∈ c.cps, |q.1 i / q.2| ≤ M) → |x' i - x i| ≤ (14 * c.degree + 6) / 2 ^ 53 * M := by
  obtain ⟨x, x', e1, e2, e3⟩ := C99_curve (C99_nearest h) hg hw (fun k hk => h.fix (hks k hk)) h1 h2
  refine ⟨x, x', e1, e2, fun i M hM => (e3 i M hM).trans ?_⟩
  have hM0 : 0 ≤ M := by
    have hpos := hg.cps_pos
    exact (abs_nonneg _).trans (hM _ (List.getElem_mem hpos))
  refine mul_le_mul_of_nonneg_right ?_ hM0
  have hd' : (c.degree : K) ≤ 100 := by exact_mod_cast hdeg
  have hd0 : (0 : K) ≤ c.degree := Nat.cast_nonneg _
  have hg := gamma_le (μ := ((2 : K) ^ 53)⁻¹) (n := 14 * c.degree + 5) (by rw [inv_lt_one₀ (by positivity)]; norm_num) (by
    rw [← div_eq_mul_inv, div_lt_one (by positivity)]; push_cast; linarith)
  refine hg.trans ?_
  push_cast
  rw [div_le_iff₀ (by rw [sub_pos, ← div_eq_mul_inv, div_lt_one (by positivity)]; linarith)]
  rw [div_mul_eq_mul_div, le_div_iff₀ (by positivity), mul_assoc, inv_mul_cancel₀ (by positivity), mul_one]
  have : (14 * (c.degree : K) + 5) * ((2 : K) ^ 53)⁻¹ ≤ 1405 / 2 ^ 53 := by
    rw [← div_eq_mul_inv, div_le_div_iff_of_pos_right (by positivity)]; linarith
  nlinarith

end binary64

/-! ### An example -/

/-- A rational curve with an inner knot. -/
def exNoise : Curve ℚ ((Fin 2 → ℚ) × ℚ) where
  degree := 2
  cps := [(![0, 4], 1), (![0, 0], 2), (![3, -1], 1), (![6, 3], 1)]
  knots := [0, 0, 0, 1, 2, 2, 2]

theorem exNoise_good : exNoise.Good (1/1000) where
  cps_pos := by decide
  knots_len := by decide
  good := by
    refine ⟨by norm_num, by decide, ?_, ?_, ?_, ?_, ?_⟩
    · intro i j hij hj
      exact (by decide +kernel : ∀ i ≤ 6, ∀ j ≤ 6, i ≤ j → kf exNoise.knots i ≤ kf exNoise.knots j)
        i (by have : j ≤ 6 := hj; omega) j hj hij
    all_goals simp [exNoise, kf]; try norm_num

/-- In double precision the curve is evaluated to about `2 · 10⁻¹⁴`. -/
example {t : ℚ} (h0 : 0 ≤ t) (h2 : t ≤ 2) : ∃ x x', exNoise.pointAt (1/1000) t = .ok x ∧ Rounded.pointAt fl64 (1/1000) exNoise t = .ok x' ∧
    |x' 0 - x 0| ≤ 34 / 2 ^ 53 * 6 := by
  obtain ⟨x, x', e1, e2, e3⟩ := C99_double (fl64_nearest (K := ℚ)) exNoise_good (by simp [exNoise]) (by
      intro k hk
      simp only [exNoise, List.mem_cons, List.not_mem_nil, or_false] at hk
      rcases hk with rfl | rfl | rfl | rfl | rfl | rfl | rfl
      iterate 3 exact ⟨0, 0, by norm_num, by norm_num⟩
      · exact ⟨1, 0, by norm_num, by norm_num⟩
      iterate 3 exact ⟨2, 0, by norm_num, by norm_num⟩) (by decide) (t := t) h0 h2
  refine ⟨x, x', e1, e2, ?_⟩
  have := e3 0 6 (by simp [exNoise]; norm_num)
  norm_num [exNoise] at this ⊢
  linarith

/-- A rational patch of degrees two and one. -/
def exNoiseS : Surface ℚ ((Fin 3 → ℚ) × ℚ) where
  uDegree := 2
  vDegree := 1
  uKnots := [0, 0, 0, 1, 1, 1]
  vKnots := [0, 0, 1, 1]
  cps := [[(![1, 0, 0], 1), (![1, 0, 5], 1)], [(![1, 1, 0], 2), (![1, 1, 3], 1)], [(![0, 2, 0], 2), (![0, 1, 1], 1)]]

theorem exNoiseS_good : exNoiseS.Good (1/1000) where
  rows_pos := by decide
  u_len := by decide
  u_good := ⟨by norm_num, by decide, mono_of_sorted (by decide +kernel) (by decide), by decide +kernel, by decide +kernel,
    by decide +kernel, by decide +kernel⟩
  cols_pos := by decide
  v_good := ⟨by norm_num, by decide, mono_of_sorted (by decide +kernel) (by decide), by decide +kernel, by decide +kernel,
    by decide +kernel, by decide +kernel⟩
  rect := by decide

example {u v : ℚ} (h1 : 0 ≤ u) (h2 : u ≤ 1) (h3 : 0 ≤ v) (h4 : v ≤ 1) :
    ∃ x x', exNoiseS.pointAt (1/1000) u v = .ok x ∧ Rounded.pointAtS fl64 (1/1000) exNoiseS u v = .ok x' ∧ |x' 2 - x 2| < 3 / 10 ^ 14 := by
  have h01 : ∀ k : ℚ, k = 0 ∨ k = 1 → fl64 k = k := by
    rintro k (rfl | rfl)
    · exact (fl64_nearest (K := ℚ)).fix ⟨0, 0, by norm_num, by norm_num⟩
    · exact (fl64_nearest (K := ℚ)).fix ⟨1, 0, by norm_num, by norm_num⟩
  obtain ⟨x, x', e1, e2, e3⟩ := C99_surface (C99_nearest (fl64_nearest (K := ℚ))) exNoiseS_good (by decide +kernel)
    (fun k hk => h01 k (by simp only [exNoiseS, List.mem_cons, List.not_mem_nil, or_false] at hk; tauto))
    (fun k hk => h01 k (by simp only [exNoiseS, List.mem_cons, List.not_mem_nil, or_false] at hk; tauto)) h1 h2 h3 h4
  refine ⟨x, x', e1, e2, ?_⟩
  have := e3 2 5 (by decide +kernel)
  norm_num [exNoiseS] at this ⊢
  linarith

/-- Rounding is not the identity: a third is not stored exactly. -/
example : fl64 (1 / 3 : ℚ) ≠ 1 / 3 := by decide +kernel

end Curvo.Props

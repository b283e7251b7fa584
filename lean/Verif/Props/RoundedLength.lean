/-
  C120: the search for the parameter at a length in floating point arithmetic.

  The loop runs until the lengths at the two ends of the bracket are closer than the tolerance.  With rounded parameters the bracket
  cannot get shorter than two neighbouring numbers, so the loop ends exactly if the lengths of neighbouring numbers around the target are
  close enough.
-/
import Verif.Model.RoundedLength
import Verif.Props.RoundedTess

set_option linter.unusedSectionVars false
set_option linter.unusedSimpArgs false

namespace Curvo.Props

open Curvo

variable {K : Type} [Field K] [LinearOrder K] [IsStrictOrderedRing K] {fl : K → K}

/-! ### Sets of floating point numbers -/

/-- The numbers with a significand of `q` bits and any exponent (24 bits in single, 53 bits in double precision). -/
def Binary (K : Type) [Field K] [LinearOrder K] (q : ℕ) : Set K := {x | ∃ m e : ℤ, |m| ≤ 2 ^ q ∧ x = (m : K) * 2 ^ e}

theorem binary_53 : Binary K 53 = Binary64 K := rfl

theorem Binary.double {q : ℕ} {x : K} (h : x ∈ Binary K q) : 2 * x ∈ Binary K q ∧ x * (1 / 2) ∈ Binary K q := by
  obtain ⟨m, e, hm, rfl⟩ := h
  refine ⟨⟨m, e + 1, hm, ?_⟩, ⟨m, e - 1, hm, ?_⟩⟩
  · rw [zpow_add_one₀ (by norm_num)]; ring
  · rw [zpow_sub_one₀ (by norm_num)]; ring

theorem Nearest.mono {F : Set K} (h : Nearest F fl) {x y : K} (hxy : x ≤ y) : fl x ≤ fl y := by
  rcases hxy.eq_or_lt with rfl | hlt
  · exact le_rfl
  · by_contra hc
    push Not at hc
    have e1 := (h x).2 _ (h y).1
    have e2 := (h y).2 _ (h x).1
    rw [← sq_le_sq] at e1 e2
    nlinarith

/-- Two neighbours: no number of the format lies between them. -/
def Neighbours (F : Set K) (x y : K) : Prop := x < y ∧ ∀ z ∈ F, ¬ (x < z ∧ z < y)

variable {q : ℕ}

/-- The rounded middle is a number nearest to the middle. -/
theorem halfway_nearest (h : Nearest (Binary K q) fl) (s e : K) :
    Rounded.halfway fl s e ∈ Binary K q ∧ ∀ y ∈ Binary K q, |Rounded.halfway fl s e - (s + e) / 2| ≤ |y - (s + e) / 2| := by
  have hm := (h (s + e)).1
  have e1 : Rounded.halfway fl s e = fl (s + e) * (1 / 2) := h.fix (Binary.double hm).2
  rw [e1]
  refine ⟨(Binary.double hm).2, fun y hy => ?_⟩
  have := (h (s + e)).2 _ (Binary.double hy).1
  rw [show fl (s + e) * (1 / 2) - (s + e) / 2 = (fl (s + e) - (s + e)) / 2 by ring,
    show y - (s + e) / 2 = (2 * y - (s + e)) / 2 by ring, abs_div, abs_div]
  exact div_le_div_of_nonneg_right this (abs_nonneg _)

theorem halfway_between (h : Nearest (Binary K q) fl) {s e : K} (hs : s ∈ Binary K q) (he : e ∈ Binary K q) (hse : s ≤ e) :
    s ≤ Rounded.halfway fl s e ∧ Rounded.halfway fl s e ≤ e := by
  obtain ⟨-, hn⟩ := halfway_nearest h s e
  have h1 := abs_le.1 (hn s hs)
  have h2 := abs_le.1 (hn e he)
  rw [abs_of_nonpos (by linarith : s - (s + e) / 2 ≤ 0)] at h1
  rw [abs_of_nonneg (by linarith : 0 ≤ e - (s + e) / 2)] at h2
  constructor <;> linarith [h1.1, h2.2]

theorem halfway_strict (h : Nearest (Binary K q) fl) {s e y : K} (hy : y ∈ Binary K q) (h1 : s < y) (h2 : y < e) :
    s < Rounded.halfway fl s e ∧ Rounded.halfway fl s e < e := by
  obtain ⟨-, hn⟩ := halfway_nearest h s e
  have : |y - (s + e) / 2| < (e - s) / 2 := by rw [abs_lt]; constructor <;> linarith
  have := abs_lt.1 ((hn y hy).trans_lt this)
  constructor <;> linarith [this.1, this.2]

/-! ### Without rounding -/

/-- **Without rounding** the search is the one of the exact model. -/
theorem C120_exact {W : Type} [AddCommGroup W] [Module K W] (nrm : W → K) (rule : List (K × K)) (eps : K) {s : Curve K (W × K)} {k0 k1 : K}
    (hd : s.knotsDomain = .ok (k0, k1)) (fuel : ℕ) (length tol total : K) :
    Rounded.segmentParameter (fun x => x) (Length.segmentLength nrm rule eps s) k0 k1 fuel length tol total =
      Length.segmentParameter fuel nrm rule eps s length tol total := by
  have hb : ∀ (n : ℕ) (a b : K × K), Rounded.bisect (fun x => x) (Length.segmentLength nrm rule eps s) length tol n a b =
      Length.bisect (Length.segmentLength nrm rule eps s) length tol n a b := by
    intro n
    induction n with
    | zero => intro a b; rfl
    | succ n ih =>
      intro a b
      rw [Rounded.bisect, Length.bisect]
      simp only [ih, Rounded.halfway, mul_one_div]
  rw [Rounded.segmentParameter, Length.segmentParameter, hd, ok_bind]
  simp only [hb]

/-! ### The result -/

section search
variable {len : K → Res K} {target tol : K}

/-- A bracket: two numbers of the interval whose lengths enclose the target. -/
structure Bracket (F : Set K) (len : K → Res K) (target a b : K) (s e : K × K) : Prop where
  left : s.1 ∈ F
  right : e.1 ∈ F
  lo : a ≤ s.1
  le : s.1 ≤ e.1
  hi : e.1 ≤ b
  len_left : len s.1 = .ok s.2
  len_right : len e.1 = .ok e.2
  below : s.2 ≤ target
  above : target < e.2

theorem Bracket.lt {F : Set K} {a b : K} {s e : K × K} (h : Bracket F len target a b s e) : s.1 < e.1 := by
  refine lt_of_le_of_ne h.le fun hc => ?_
  have h1 := h.len_left
  have h2 := h.len_right
  rw [hc, h2] at h1
  have := Except.ok.inj h1
  have := h.below
  have := h.above
  linarith

theorem Bracket.step (h : Nearest (Binary K q) fl) {a b l : K} {s e : K × K} (hb : Bracket (Binary K q) len target a b s e)
    (hl : len (Rounded.halfway fl s.1 e.1) = .ok l) :
    (target < l → Bracket (Binary K q) len target a b s (Rounded.halfway fl s.1 e.1, l)) ∧
    (¬ target < l → Bracket (Binary K q) len target a b (Rounded.halfway fl s.1 e.1, l) e) := by
  obtain ⟨i1, i2⟩ := halfway_between h hb.left hb.right hb.le
  have hm := (halfway_nearest h s.1 e.1).1
  exact ⟨fun ht => ⟨hb.left, hm, hb.lo, i1, i2.trans hb.hi, hb.len_left, hl, hb.below, ht⟩,
    fun ht => ⟨hm, hb.right, hb.lo.trans i1, i2, hb.hi, hl, hb.len_right, not_lt.1 ht, hb.above⟩⟩

theorem rounded_bracket (h : Nearest (Binary K q) fl) {a b u : K} : ∀ (fuel : ℕ) {s e : K × K}, Bracket (Binary K q) len target a b s e →
    Rounded.bisect fl len target tol fuel s e = .ok u →
      ∃ s' e', Bracket (Binary K q) len target a b s' e' ∧ s'.1 ≤ u ∧ u ≤ e'.1 ∧ fl (e'.2 - s'.2) ≤ tol := by
  intro fuel
  induction fuel with
  | zero => intro s e _ he; exact absurd he (by simp [Rounded.bisect])
  | succ n ih =>
    intro s e hb he
    rw [Rounded.bisect] at he
    split_ifs at he with ht
    · cases hl : len (Rounded.halfway fl s.1 e.1) with
      | error x => simp only [hl] at he; exact absurd he (by intro hc; cases hc)
      | ok l =>
        simp only [hl, ok_bind] at he
        split_ifs at he with hlt
        · exact ih ((hb.step h hl).1 hlt) he
        · exact ih ((hb.step h hl).2 hlt) he
    · obtain rfl := Except.ok.inj he
      obtain ⟨i1, i2⟩ := halfway_between h hb.left hb.right hb.le
      exact ⟨s, e, hb, i1, i2, not_lt.1 ht⟩

/-- **The result**, in any precision, whatever the computed lengths are: it lies in the domain; for lengths up to zero it is the start and from the
    total on the end; otherwise it lies between two numbers of the domain whose computed lengths enclose the given one and are at most the
    tolerance apart. -/
theorem C120_result (h : Nearest (Binary K q) fl) {k0 k1 total length u : K} (h0 : k0 ∈ Binary K q) (h1 : k1 ∈ Binary K q) (hle : k0 ≤ k1)
    (l0 : len k0 = .ok 0) (l1 : len k1 = .ok total) {fuel : ℕ}
    (hu : Rounded.segmentParameter fl len k0 k1 fuel length tol total = .ok u) :
    k0 ≤ u ∧ u ≤ k1 ∧ (length ≤ 0 → u = k0) ∧ (0 < length → total ≤ length → u = k1) ∧
      (0 < length → length < total → ∃ x y lx ly, x ∈ Binary K q ∧ y ∈ Binary K q ∧ k0 ≤ x ∧ x ≤ u ∧ u ≤ y ∧ y ≤ k1 ∧ len x = .ok lx ∧
        len y = .ok ly ∧ lx ≤ length ∧ length < ly ∧ fl (ly - lx) ≤ tol) := by
  rw [Rounded.segmentParameter] at hu
  split_ifs at hu with c1 c2
  · obtain rfl := Except.ok.inj hu
    exact ⟨le_rfl, hle, fun _ => rfl, fun hc => absurd hc (not_lt.2 c1), fun hc => absurd hc (not_lt.2 c1)⟩
  · obtain rfl := Except.ok.inj hu
    exact ⟨hle, le_rfl, fun hc => absurd hc c1, fun _ _ => rfl, fun _ hc => absurd hc (not_lt.2 c2)⟩
  · obtain ⟨s, e, hb, i1, i2, i3⟩ := rounded_bracket h (a := k0) (b := k1) fuel
      ⟨h0, h1, le_rfl, hle, le_rfl, l0, l1, (not_le.1 c1).le, not_le.1 c2⟩ hu
    exact ⟨hb.lo.trans i1, i2.trans hb.hi, fun hc => absurd hc c1, fun _ hc => absurd hc c2,
      fun _ _ => ⟨s.1, e.1, s.2, e.2, hb.left, hb.right, hb.lo, i1, i2, hb.hi, hb.len_left, hb.len_right, hb.below, hb.above, i3⟩⟩

/-- **The search that never ends**, in any precision: if all numbers of the format whose lengths enclose the target have lengths further apart than
    the tolerance, the loop runs forever. -/
theorem C120_never_ends (h : Nearest (Binary K q) fl) {k0 k1 total length : K} (h0 : k0 ∈ Binary K q) (h1 : k1 ∈ Binary K q) (hle : k0 ≤ k1)
    (l0 : len k0 = .ok 0) (l1 : len k1 = .ok total) (hl0 : 0 < length) (hl1 : length < total)
    (hlen : ∀ t, k0 ≤ t → t ≤ k1 → ∃ l, len t = .ok l)
    (hfar : ∀ x y lx ly, x ∈ Binary K q → y ∈ Binary K q → k0 ≤ x → x < y → y ≤ k1 → len x = .ok lx → len y = .ok ly → lx ≤ length → length < ly →
      tol < fl (ly - lx)) (fuel : ℕ) : Rounded.segmentParameter fl len k0 k1 fuel length tol total = .error .diverge := by
  have main : ∀ (fuel : ℕ) {s e : K × K}, Bracket (Binary K q) len length k0 k1 s e → Rounded.bisect fl len length tol fuel s e = .error .diverge := by
    intro fuel
    induction fuel with
    | zero => intro s e _; rfl
    | succ n ih =>
      intro s e hb
      obtain ⟨i1, i2⟩ := halfway_between h hb.left hb.right hb.le
      obtain ⟨l, hl⟩ := hlen _ (hb.lo.trans i1) (i2.trans hb.hi)
      rw [Rounded.bisect, if_pos (hfar _ _ _ _ hb.left hb.right hb.lo hb.lt hb.hi hb.len_left hb.len_right hb.below hb.above)]
      simp only [hl, ok_bind]
      split_ifs with hlt
      · exact ih ((hb.step h hl).1 hlt)
      · exact ih ((hb.step h hl).2 hlt)
  rw [Rounded.segmentParameter, if_neg (not_le.2 hl0), if_neg (not_le.2 hl1)]
  exact main fuel ⟨h0, h1, le_rfl, hle, le_rfl, l0, l1, hl0.le, hl1⟩

/-! ### Termination in double precision -/

section double
variable [FloorRing K]

theorem bisect_step (h : Nearest (Binary K q) fl) {a b : K} {s e : K × K} (hb : Bracket (Binary K q) len target a b s e)
    (hlen : ∀ t, a ≤ t → t ≤ b → ∃ l, len t = .ok l) {k : ℕ}
    (hk : tol < fl (e.2 - s.2) → ∀ s' e', Bracket (Binary K q) len target a b s' e' →
      (s'.1 = s.1 ∧ e'.1 = Rounded.halfway fl s.1 e.1 ∨ s'.1 = Rounded.halfway fl s.1 e.1 ∧ e'.1 = e.1) →
      ∀ fuel, k ≤ fuel → ∃ u, Rounded.bisect fl len target tol fuel s' e' = .ok u) :
    ∀ fuel, k + 1 ≤ fuel → ∃ u, Rounded.bisect fl len target tol fuel s e = .ok u := by
  intro fuel hfuel
  obtain ⟨fuel, rfl⟩ : ∃ n, fuel = n + 1 := ⟨fuel - 1, by omega⟩
  rw [Rounded.bisect]
  split_ifs with ht
  · obtain ⟨i1, i2⟩ := halfway_between h hb.left hb.right hb.le
    obtain ⟨l, hl⟩ := hlen _ (hb.lo.trans i1) (i2.trans hb.hi)
    simp only [hl, ok_bind]
    split_ifs with hlt
    · exact hk ht _ _ ((hb.step h hl).1 hlt) (Or.inl ⟨rfl, rfl⟩) fuel (by omega)
    · exact hk ht _ _ ((hb.step h hl).2 hlt) (Or.inr ⟨rfl, rfl⟩) fuel (by omega)
  · exact ⟨_, rfl⟩

variable {a b δ : K}

/-- Neighbours, and numbers closer than `δ`, whose computed lengths enclose the target have computed lengths at most the tolerance apart. -/
def Resolved (fl : K → K) (F : Set K) (len : K → Res K) (target tol a b δ : K) : Prop :=
  ∀ x y lx ly, x ∈ F → y ∈ F → a ≤ x → y ≤ b → (Neighbours F x y ∨ x < y ∧ y - x < δ) → len x = .ok lx → len y = .ok ly → lx ≤ target → target < ly →
    fl (ly - lx) ≤ tol

theorem bisect_grid (h : Nearest (Binary64 K) fl) (hres : Resolved fl (Binary64 K) len target tol a b δ)
    (hlen : ∀ t, a ≤ t → t ≤ b → ∃ l, len t = .ok l) (k : ℤ) :
    ∀ (n N : ℕ), N ≤ n → ∀ {s e : K × K}, Bracket (Binary64 K) len target a b s e → e.1 - s.1 = N * 2 ^ k →
      (∀ x ∈ Binary64 K, s.1 ≤ x → x ≤ e.1 → ∃ z : ℤ, x = z * 2 ^ k) →
      ∀ fuel, n + 1 ≤ fuel → ∃ u, Rounded.bisect fl len target tol fuel s e = .ok u := by
  have hg : (0 : K) < 2 ^ k := zpow_pos (by norm_num) k
  intro n
  induction n with
  | zero =>
    intro N hN s e hb hab
    obtain rfl : N = 0 := by omega
    have := hb.lt
    simp at hab
    linarith
  | succ n ih =>
    intro N hN s e hb hab hgrid
    refine bisect_step (q := 53) h hb hlen fun ht s' e' hb' hcase => ?_
    have hbet : ∃ y ∈ Binary64 K, s.1 < y ∧ y < e.1 := by
      by_contra hc
      push Not at hc
      have := hres _ _ _ _ hb.left hb.right hb.lo hb.hi (Or.inl ⟨hb.lt, fun z hz hzz => absurd hzz.2 (not_lt.2 (hc z hz hzz.1))⟩) hb.len_left
        hb.len_right hb.below hb.above
      linarith
    obtain ⟨y, hy, y1, y2⟩ := hbet
    obtain ⟨c1, c2⟩ := halfway_strict (q := 53) h hy y1 y2
    have hmem := (halfway_nearest (q := 53) h s.1 e.1).1
    obtain ⟨z, hz⟩ := hgrid _ hmem c1.le c2.le
    obtain ⟨za, hza⟩ := hgrid _ hb.left le_rfl hb.le
    obtain ⟨zb, hzb⟩ := hgrid _ hb.right hb.le le_rfl
    set m := Rounded.halfway fl s.1 e.1 with hm
    have hlt : ∀ {u v : ℤ}, (u : K) * 2 ^ k < v * 2 ^ k → u < v := fun {u v} huv => by
      have := lt_of_mul_lt_mul_right huv hg.le
      exact_mod_cast this
    have z1 : za < z := hlt (by rw [← hza, ← hz]; exact c1)
    have z2 : z < zb := hlt (by rw [← hzb, ← hz]; exact c2)
    have zN : zb - za = N := by
      have : ((zb - za : ℤ) : K) * 2 ^ k = (N : K) * 2 ^ k := by rw [← hab, hza, hzb]; push_cast; ring
      have := mul_right_cancel₀ hg.ne' this
      exact_mod_cast this
    obtain ⟨N1, hN1⟩ := Int.eq_ofNat_of_zero_le (show 0 ≤ z - za by omega)
    obtain ⟨N2, hN2⟩ := Int.eq_ofNat_of_zero_le (show 0 ≤ zb - z by omega)
    have hs1 : m - s.1 = N1 * 2 ^ k := by
      have : ((z - za : ℤ) : K) = N1 := by rw [hN1]; simp
      rw [← this, hz, hza]; push_cast; ring
    have hs2 : e.1 - m = N2 * 2 ^ k := by
      have : ((zb - z : ℤ) : K) = N2 := by rw [hN2]; simp
      rw [← this, hz, hzb]; push_cast; ring
    rcases hcase with ⟨q1, q2⟩ | ⟨q1, q2⟩
    · exact ih N1 (by omega) hb' (by rw [q1, q2]; exact hs1) (by
        rw [q1, q2]; exact fun x hx hx1 hx2 => hgrid x hx hx1 (hx2.trans c2.le))
    · exact ih N2 (by omega) hb' (by rw [q1, q2]; exact hs2) (by
        rw [q1, q2]; exact fun x hx hx1 hx2 => hgrid x hx (c1.le.trans hx1) hx2)

theorem bisect_double (h : Nearest (Binary64 K) fl) (hres : Resolved fl (Binary64 K) len target tol a b δ)
    (hlen : ∀ t, a ≤ t → t ≤ b → ∃ l, len t = .ok l) :
    ∀ (n : ℕ) {s e : K × K}, Bracket (Binary64 K) len target a b s e → (3 / 4) ^ n * (e.1 - s.1) < δ →
      ∀ fuel, n + 130 ≤ fuel → ∃ u, Rounded.bisect fl len target tol fuel s e = .ok u := by
  have hR := C99_nearest h
  intro n
  induction n with
  | zero =>
    intro s e hb hd fuel hfuel
    refine bisect_step (q := 53) (k := 0) h hb hlen (fun ht => ?_) fuel (by omega)
    rw [pow_zero, one_mul] at hd
    have := hres _ _ _ _ hb.left hb.right hb.lo hb.hi (Or.inr ⟨hb.lt, hd⟩) hb.len_left hb.len_right hb.below hb.above
    linarith
  | succ n ih =>
    intro s e hb hd fuel hfuel
    have hlt := hb.lt
    by_cases hs : e.1 - s.1 ≤ 32 * (((2 : K) ^ 53)⁻¹ * max |s.1| |e.1|)
    · obtain ⟨k, hgrid, hD⟩ := grid_of_small hlt hs
      obtain ⟨za, hza⟩ := hgrid _ hb.left le_rfl hlt.le
      obtain ⟨zb, hzb⟩ := hgrid _ hb.right hlt.le le_rfl
      have hg : (0 : K) < 2 ^ k := zpow_pos (by norm_num) k
      have hz : za < zb := by
        rw [hza, hzb] at hlt
        exact_mod_cast lt_of_mul_lt_mul_right hlt hg.le
      obtain ⟨N, hN⟩ := Int.eq_ofNat_of_zero_le (show 0 ≤ zb - za by omega)
      have e1 : e.1 - s.1 = N * 2 ^ k := by
        have : ((zb - za : ℤ) : K) = N := by rw [hN]; simp
        rw [← this, hza, hzb]; push_cast; ring
      have hN128 : N ≤ 128 := by
        rw [e1] at hD
        have := le_of_mul_le_mul_right hD hg
        exact_mod_cast this
      exact bisect_grid h hres hlen k 128 N hN128 hb e1 hgrid fuel (by omega)
    · push Not at hs
      refine bisect_step (q := 53) (k := n + 130) h hb hlen (fun ht s' e' hb' hcase => ?_) fuel (by omega)
      have hfix : Rounded.halfway fl s.1 e.1 = fl (s.1 + e.1) * (1 / 2) := h.fix (Binary.double (q := 53) (h (s.1 + e.1)).1).2
      have habs : |s.1 + e.1| ≤ 2 * max |s.1| |e.1| := by
        have := abs_add_le s.1 e.1
        have := le_max_left |s.1| |e.1|
        have := le_max_right |s.1| |e.1|
        linarith
      have herr := abs_le.1 ((hR.err (s.1 + e.1)).trans (mul_le_mul_of_nonneg_left habs hR.nonneg))
      have hp : (0 : K) < (3 / 4) ^ n := by positivity
      refine ih hb' (lt_of_le_of_lt ?_ hd)
      rw [pow_succ, mul_assoc]
      refine mul_le_mul_of_nonneg_left ?_ hp.le
      rcases hcase with ⟨q1, q2⟩ | ⟨q1, q2⟩
      · rw [q1, q2, hfix]; linarith [herr.2]
      · rw [q1, q2, hfix]; linarith [herr.1]

/-- **The search ends in double precision**, whatever the computed lengths are, if the computed lengths of neighbouring doubles, and of doubles
    closer than some `δ`, around the target are at most the tolerance apart; it takes at most 130 steps more than the number of steps of `3/4` from the
    length of the domain to `δ`. -/
theorem C120_ends (h : Nearest (Binary64 K) fl) {k0 k1 total length : K} (h0 : k0 ∈ Binary64 K) (h1 : k1 ∈ Binary64 K) (hle : k0 ≤ k1)
    (l0 : len k0 = .ok 0) (l1 : len k1 = .ok total) (hlen : ∀ t, k0 ≤ t → t ≤ k1 → ∃ l, len t = .ok l)
    (hres : Resolved fl (Binary64 K) len length tol k0 k1 δ) {n : ℕ} (hn : (3 / 4) ^ n * (k1 - k0) < δ) {fuel : ℕ} (hfuel : n + 130 ≤ fuel) :
    ∃ u, Rounded.segmentParameter fl len k0 k1 fuel length tol total = .ok u := by
  rw [Rounded.segmentParameter]
  split_ifs with c1 c2
  · exact ⟨_, rfl⟩
  · exact ⟨_, rfl⟩
  · exact bisect_double h hres hlen n (s := (k0, 0)) (e := (k1, total)) ⟨h0, h1, le_rfl, hle, le_rfl, l0, l1, (not_le.1 c1).le, not_le.1 c2⟩ hn fuel hfuel

end double

end search

/-! ### Single precision -/

theorem single_grid {z : ℚ} (h : z ∈ Binary ℚ 24) (hz : 8192 < z) : ∃ n : ℤ, z = n * (1 / 1024) := by
  obtain ⟨m, e, hm, rfl⟩ := h
  have hm' : (m : ℚ) ≤ 2 ^ 24 := by exact_mod_cast (abs_le.1 hm).2
  have he : (0 : ℚ) < 2 ^ e := zpow_pos (by norm_num) e
  have : (2 : ℚ) ^ (13 : ℤ) < 2 ^ (e + 24) := by
    rw [zpow_add₀ (by norm_num)]
    calc (2 : ℚ) ^ (13 : ℤ) = 8192 := by norm_num
      _ < m * 2 ^ e := hz
      _ ≤ 2 ^ 24 * 2 ^ e := mul_le_mul_of_nonneg_right hm' he.le
      _ = 2 ^ e * 2 ^ (24 : ℤ) := by rw [mul_comm]; norm_num
  have := (zpow_lt_zpow_iff_right₀ (by norm_num : (1 : ℚ) < 2)).1 this
  obtain ⟨n, hn⟩ := Int.eq_ofNat_of_zero_le (show 0 ≤ e + 10 by omega)
  refine ⟨m * 2 ^ n, ?_⟩
  rw [show e = (n : ℤ) + (-10) by omega, zpow_add₀ (by norm_num), zpow_natCast]
  push_cast
  rw [show (2 : ℚ) ^ (-10 : ℤ) = 1 / 1024 by norm_num, mul_assoc]

theorem single_gap {x y : ℚ} (hx : x ∈ Binary ℚ 24) (hy : y ∈ Binary ℚ 24) (h1 : x ≤ 10000) (h2 : 10000 < y) : 1 / 1024 ≤ y - x := by
  rcases le_or_gt x 8192 with h | h
  · linarith
  · obtain ⟨m, rfl⟩ := single_grid hx h
    obtain ⟨n, rfl⟩ := single_grid hy (by linarith)
    have : (m : ℚ) < n := by linarith
    have : (m : ℤ) + 1 ≤ n := by exact_mod_cast this
    have : (m : ℚ) + 1 ≤ n := by exact_mod_cast this
    linarith

/-- **Single precision**: on a segment of length 16384 parametrised by its length, with lengths computed without any error, the parameter at the
    length 10000 is never found with the default tolerance `1e-4`, whatever ties are rounded to. -/
theorem C120_single {fl : ℚ → ℚ} (h : Nearest (Binary ℚ 24) fl) (fuel : ℕ) :
    Rounded.segmentParameter fl (fun u => .ok u) 0 16384 fuel 10000 (1 / 10000) 16384 = .error .diverge := by
  refine C120_never_ends (q := 24) h ⟨0, 0, by norm_num, by norm_num⟩ ⟨1, 14, by norm_num, by norm_num⟩ (by norm_num) rfl rfl (by norm_num) (by norm_num)
    (fun t _ _ => ⟨t, rfl⟩) ?_ fuel
  rintro x y lx ly hx hy - - - ex ey h1 h2
  obtain rfl := Except.ok.inj ex
  obtain rfl := Except.ok.inj ey
  have hf : fl (1 / 1024) = 1 / 1024 := h.fix ⟨1, -10, by norm_num, by norm_num⟩
  calc (1 / 10000 : ℚ) < 1 / 1024 := by norm_num
    _ = fl (1 / 1024) := hf.symm
    _ ≤ fl (y - x) := h.mono (single_gap hx hy h1 h2)

/-! ### Examples -/

/-- In double precision the same search ends: neighbours around 10000 are much closer than the tolerance. -/
example : ∃ u, Rounded.segmentParameter fl64 (fun u : ℚ => .ok u) 0 16384 200 10000 (1 / 10000) 16384 = .ok u := by
  refine C120_ends (δ := 1 / 16384) (fl64_nearest (K := ℚ)) ⟨0, 0, by norm_num, by norm_num⟩ ⟨1, 14, by norm_num, by norm_num⟩ (by norm_num) rfl rfl
    (fun t _ _ => ⟨t, rfl⟩) ?_ (n := 70) (by norm_num) (by norm_num)
  rintro x y lx ly hx hy h0 h1 hxy ex ey e1 e2
  obtain rfl := Except.ok.inj ex
  obtain rfl := Except.ok.inj ey
  have hd : y - x ≤ 1 / 16384 := by
    rcases hxy with ⟨hlt, hnb⟩ | ⟨-, hd⟩
    · by_contra hc
      push Not at hc
      -- a double between the two: 10000 or 10000 + 2⁻¹⁵
      by_cases hx' : x < 10000
      · exact hnb 10000 ⟨10000, 0, by norm_num, by norm_num⟩ ⟨hx', e2⟩
      · exact hnb (10000 + 1 / 32768) ⟨10000 * 32768 + 1, -15, by norm_num, by norm_num⟩ ⟨by linarith, by linarith⟩
    · exact hd.le
  have hf : fl64 (1 / 16384 : ℚ) = 1 / 16384 := fl64_nearest.fix ⟨1, -14, by norm_num, by norm_num⟩
  calc fl64 (y - x) ≤ fl64 (1 / 16384) := Nearest.mono fl64_nearest hd
    _ = 1 / 16384 := hf
    _ ≤ 1 / 10000 := by norm_num

end Curvo.Props

/-
  C119: adaptive tessellation of curves in floating point arithmetic terminates and stays on the curve.

  The recursion halves parameter intervals.  In exact arithmetic it ends since intervals get shorter than `1e-8`; in floating point
  arithmetic the middle of an interval is rounded, and where the parameters are large neighbouring numbers are further apart than
  `1e-8`, so that the length alone never stops it.
-/
import Verif.Model.RoundedTess
import Verif.Props.RoundedRefine
import Verif.Props.Curve2

set_option linter.unusedSectionVars false
set_option linter.unusedSimpArgs false

namespace Curvo.Props

open Curvo Curvo.Knots Curvo.Spec

variable {K : Type} [Field K] [LinearOrder K] [IsStrictOrderedRing K] {d : ℕ} {fl : K → K} {μ eps : K}

/-! ### Without rounding -/

theorem normSq_exact (v : Fin d → K) : Rounded.normSq (fun x => x) v = ∑ i, v i * v i := by
  rw [Rounded.normSq, ← List.sum_ofFn, List.ofFn_eq_map]
  have : ∀ (l : List (Fin d)) (a : K), l.foldl (fun acc i => acc + v i * v i) a = a + (l.map fun i => v i * v i).sum := by
    intro l
    induction l with
    | nil => intro a; simp
    | cons x l ih => intro a; rw [List.foldl_cons, ih, List.map_cons, List.sum_cons]; ring
  rw [this, zero_add]

/-- **Without rounding** the rounded tessellation is the one of the exact model. -/
theorem C119_exact (M : Tess.Metric K (Fin d → K)) (hM : ∀ v, M.normSq v = ∑ i, v i * v i) (floor : K) (rnd : ℕ → K) (c : Curve K ((Fin d → K) × K))
    (tol : K) (fuel : ℕ) :
    Rounded.tessellateCurve (fun x => x) M.flat eps floor rnd fuel c tol = Tess.tessellateCurve M eps floor rnd fuel c tol := by
  have hd : ∀ p1 p2 p3 : Fin d → K, (Rounded.divides (fun x => x) M.flat tol p1 p2 p3 = true) =
      ((M.normSq (p1 - p3) < tol ∧ tol < M.normSq (p1 - p2)) ∨ M.flat p1 p2 p3 tol = false) := by
    intro p1 p2 p3
    rw [Rounded.divides, hM, hM, normSq_exact, normSq_exact]
    simp
  have ha : ∀ (fuel : ℕ) (a b : K) (pos : ℕ), Rounded.adaptive (fun x => x) M.flat floor rnd (c.pointAt eps) tol fuel a b pos =
      Tess.adaptive M floor rnd (c.pointAt eps) tol fuel a b pos := by
    intro fuel
    induction fuel with
    | zero => intro a b pos; rfl
    | succ fuel ih =>
      intro a b pos
      rw [Rounded.adaptive, Tess.adaptive]
      simp only [ih, hd, Rounded.probe, Rounded.exactMid]
  have hp : Rounded.pointAt (fun x => x) eps c = c.pointAt eps := by
    funext t; exact (C99_exact eps c ⟨0, 0, [], [], []⟩ t t).1
  rw [Rounded.tessellateCurve, Tess.tessellateCurve]
  simp only [hp, ha, dehomogenize_exact]

/-! ### The recursion -/

/-- The result is a list of points of the curve at strictly increasing parameters of the interval. -/
def Drawn (pt : K → Res (Fin d → K)) (a b : K) (r : Res (List (Fin d → K) × ℕ)) : Prop :=
  ∃ ts pts pos, r = .ok (pts, pos) ∧ ts ≠ [] ∧ List.Forall₂ (fun t p => pt t = .ok p) ts pts ∧ ts.Pairwise (· < ·) ∧
    ∀ t ∈ ts, a ≤ t ∧ t ≤ b

section recursion
variable {flat : (Fin d → K) → (Fin d → K) → (Fin d → K) → K → Bool} {floor tol : K} {rnd : ℕ → K} {pt : K → Res (Fin d → K)}

/-- With at least `k` levels the tessellation of the interval ends. -/
def Ends (fl : K → K) (flat : (Fin d → K) → (Fin d → K) → (Fin d → K) → K → Bool) (floor tol : K) (rnd : ℕ → K)
    (pt : K → Res (Fin d → K)) (k : ℕ) (a b : K) : Prop :=
  ∀ fuel, k ≤ fuel → ∀ pos, Drawn pt a b (Rounded.adaptive fl flat floor rnd pt tol fuel a b pos)

theorem drawn_append {a e b : K} {l r : List K} {lp rp : List (Fin d → K)} (hl : l ≠ []) (hr : r ≠ [])
    (fl' : List.Forall₂ (fun t p => pt t = .ok p) l lp) (fr : List.Forall₂ (fun t p => pt t = .ok p) r rp) (sl : l.Pairwise (· < ·))
    (sr : r.Pairwise (· < ·)) (il : ∀ t ∈ l, a ≤ t ∧ t ≤ e) (ir : ∀ t ∈ r, e ≤ t ∧ t ≤ b) (hae : a ≤ e) (heb : e ≤ b) :
    l.dropLast ++ r ≠ [] ∧ List.Forall₂ (fun t p => pt t = .ok p) (l.dropLast ++ r) (lp.dropLast ++ rp) ∧
      (l.dropLast ++ r).Pairwise (· < ·) ∧ ∀ t ∈ l.dropLast ++ r, a ≤ t ∧ t ≤ b := by
  have hsplit := List.dropLast_append_getLast hl
  have hpw := sl
  rw [← hsplit, List.pairwise_append] at hpw
  refine ⟨by simp [hr], ?_, ?_, ?_⟩
  · refine List.rel_append ?_ fr
    have hlen := fl'.length_eq
    rw [List.dropLast_eq_take, List.dropLast_eq_take, hlen]
    exact List.forall₂_take _ fl'
  · rw [List.pairwise_append]
    refine ⟨hpw.1, sr, ?_⟩
    intro x hx y hy
    have h1 := hpw.2.2 x hx (l.getLast hl) (by simp)
    exact (h1.trans_le (il _ (List.getLast_mem hl)).2).trans_le (ir y hy).1
  · intro t ht
    rcases List.mem_append.1 ht with h | h
    · have := il t (List.dropLast_subset _ h)
      exact ⟨this.1, this.2.trans heb⟩
    · have := ir t h
      exact ⟨hae.trans this.1, this.2⟩

theorem ends_step {k : ℕ} {a b : K} (h0 : fl 0 = 0) (hf : 0 < floor) (hr : ∀ n, 0 ≤ rnd n ∧ rnd n < 1) (hab : a ≤ b)
    (hpt : ∀ t, a ≤ t → t ≤ b → ∃ p, pt t = .ok p) (he : a ≤ Rounded.exactMid fl a b ∧ Rounded.exactMid fl a b ≤ b)
    (hprobe : ∀ x, 0 ≤ x → x < 1 → a ≤ Rounded.probe fl a (fl (b - a)) x ∧ Rounded.probe fl a (fl (b - a)) x ≤ b)
    (hk : ¬ fl (b - a) < floor → (∃ x p1 p2 p3, 0 ≤ x ∧ x < 1 ∧ pt a = .ok p1 ∧ pt (Rounded.probe fl a (fl (b - a)) x) = .ok p2 ∧ pt b = .ok p3 ∧
      Rounded.divides fl flat tol p1 p2 p3 = true) →
      Ends fl flat floor tol rnd pt k a (Rounded.exactMid fl a b) ∧ Ends fl flat floor tol rnd pt k (Rounded.exactMid fl a b) b) :
    Ends fl flat floor tol rnd pt (k + 1) a b := by
  intro fuel hfuel pos
  obtain ⟨fuel, rfl⟩ : ∃ n, fuel = n + 1 := ⟨fuel - 1, by omega⟩
  obtain ⟨p1, e1⟩ := hpt a le_rfl hab
  obtain ⟨p3, e3⟩ := hpt b hab le_rfl
  obtain ⟨p2, e2⟩ := hpt _ (hprobe _ (hr pos).1 (hr pos).2).1 (hprobe _ (hr pos).1 (hr pos).2).2
  rw [Rounded.adaptive]
  simp only [e1, ok_bind]
  by_cases hfl : fl (b - a) < floor
  · rw [if_pos hfl]
    exact ⟨[a], [p1], pos, rfl, by simp, .cons e1 .nil, by simp, by simpa using hab⟩
  · rw [if_neg hfl]
    simp only [e3, e2, ok_bind]
    by_cases hdv : Rounded.divides fl flat tol p1 p2 p3 = true
    · rw [if_pos hdv]
      obtain ⟨d1, d2⟩ := hk hfl ⟨_, p1, p2, p3, (hr pos).1, (hr pos).2, e1, e2, e3, hdv⟩
      obtain ⟨l, lp, pos1, el, hl, fl', sl, il⟩ := d1 fuel (by omega) (pos + 1)
      obtain ⟨r, rp, pos2, er, hr', fr, sr, ir⟩ := d2 fuel (by omega) pos1
      rw [el, ok_bind]
      simp only []
      rw [er, ok_bind]
      obtain ⟨q1, q2, q3, q4⟩ := drawn_append hl hr' fl' fr sl sr il ir he.1 he.2
      exact ⟨_, _, pos2, rfl, q1, q2, q3, q4⟩
    · rw [if_neg hdv]
      have hlt : a < b := by
        refine lt_of_le_of_ne hab ?_
        rintro rfl
        rw [sub_self, h0] at hfl
        exact hfl hf
      refine ⟨[a, b], [p1, p3], pos + 1, rfl, by simp, .cons e1 (.cons e3 .nil), by simpa using hlt, ?_⟩
      simp [hab]

end recursion

/-! ### One interval -/

/-- The rounded middle and the rounded random parameter lie in the interval, and the halves are at most `9/16` of it, up to
    one rounding of the parameter. -/
theorem rounded_middle (h : Rounds fl μ) (hμ : μ ≤ 1 / 256) {a b m : K} (ha : fl a = a) (hb : fl b = b) (hab : a ≤ b) (h1 : |a| ≤ m) (h2 : |b| ≤ m) :
    (a ≤ Rounded.exactMid fl a b ∧ Rounded.exactMid fl a b ≤ b) ∧
    (∀ x, 0 ≤ x → x < 1 → a ≤ Rounded.probe fl a (fl (b - a)) x ∧ Rounded.probe fl a (fl (b - a)) x ≤ b) ∧
    Rounded.exactMid fl a b - a ≤ 9 / 16 * (b - a) + μ * m ∧ b - Rounded.exactMid fl a b ≤ 9 / 16 * (b - a) + μ * m := by
  have hμ0 := h.nonneg
  set D := b - a with hD
  have hD0 : 0 ≤ D := sub_nonneg.2 hab
  have up : ∀ x : K, 0 ≤ x → fl x ≤ 257 / 256 * x := by
    intro x hx
    have := (abs_le.1 (h.err x)).2
    rw [abs_of_nonneg hx] at this
    nlinarith
  have dn : ∀ x : K, 0 ≤ x → 255 / 256 * x ≤ fl x := by
    intro x hx
    have := (abs_le.1 (h.err x)).1
    rw [abs_of_nonneg hx] at this
    nlinarith
  have nn : ∀ x : K, 0 ≤ x → 0 ≤ fl x := fun x hx => by have := dn x hx; nlinarith
  have inside : ∀ y, 0 ≤ y → y ≤ D → a ≤ fl (a + y) ∧ fl (a + y) ≤ b := by
    intro y y0 y1
    constructor
    · exact ha.ge.trans (h.mono _ _ (by linarith))
    · exact (h.mono _ _ (by linarith : a + y ≤ b)).trans hb.le
  set e := fl (fl D * (1 / 2)) with he
  have e1 : e ≤ 9 / 16 * D := by
    have := up _ (by have := nn D hD0; linarith : 0 ≤ fl D * (1 / 2))
    have := up D hD0
    linarith
  have e2 : 7 / 16 * D ≤ e := by
    have := dn _ (by have := nn D hD0; linarith : 0 ≤ fl D * (1 / 2))
    have := dn D hD0
    linarith
  have e0 : 0 ≤ e := by linarith
  have em : Rounded.exactMid fl a b = fl (a + e) := rfl
  have ins := inside e e0 (by linarith)
  have habs : |a + e| ≤ m := by
    rw [abs_le]
    have := (abs_le.1 h1).1
    have := (abs_le.1 h2).2
    constructor <;> linarith
  have err := abs_le.1 ((h.err (a + e)).trans (mul_le_mul_of_nonneg_left habs hμ0))
  refine ⟨em ▸ ins, ?_, by rw [em]; linarith [err.2], by rw [em]; linarith [err.1]⟩
  intro x x0 x1
  have f0 : 0 ≤ fl (1 / 5 : K) := nn _ (by norm_num)
  have f1 : fl (1 / 5 : K) ≤ 257 / 256 * (1 / 5) := up _ (by norm_num)
  have g0 : 0 ≤ fl (1 / 5) * x := mul_nonneg f0 x0
  have g1 : fl (1 / 5) * x ≤ 257 / 256 * (1 / 5) := by nlinarith
  have t0 : 0 ≤ fl (1 / 2 + fl (fl (1 / 5) * x)) := nn _ (by have := nn _ g0; linarith)
  have t1 : fl (1 / 2 + fl (fl (1 / 5) * x)) ≤ 3 / 4 := by
    have := up _ (by have := nn _ g0; linarith : 0 ≤ 1 / 2 + fl (fl (1 / 5) * x))
    have := up _ g0
    linarith
  have d0 := nn D hD0
  have d1 := up D hD0
  refine inside _ (nn _ (mul_nonneg d0 t0)) ?_
  refine (up _ (mul_nonneg d0 t0)).trans ?_
  have : fl D * fl (1 / 2 + fl (fl (1 / 5) * x)) ≤ 257 / 256 * D * (3 / 4) := mul_le_mul d1 t1 t0 (by linarith)
  linarith

/-- Any rounding: the tessellation of `[a, b]` ends after `n + 1` levels, if `n` halvings are enough to reach the parameter floor and the
    resolution of the parameters is finer than the floor. -/
theorem ends_of_resolution {flat : (Fin d → K) → (Fin d → K) → (Fin d → K) → K → Bool} {floor tol : K} {rnd : ℕ → K}
    {pt : K → Res (Fin d → K)} (h : Rounds fl μ) (hμ : μ ≤ 1 / 256) (hfl : ∀ x, fl (fl x) = fl x) (hf : 0 < floor)
    (hr : ∀ n, 0 ≤ rnd n ∧ rnd n < 1) {m : K} (hm : 8 * (μ * m) ≤ floor) : ∀ (n : ℕ) {a b : K}, fl a = a → fl b = b → a ≤ b → |a| ≤ m → |b| ≤ m →
      (∀ t, a ≤ t → t ≤ b → ∃ p, pt t = .ok p) → (3 / 4) ^ n * (b - a) < floor / 2 → Ends fl flat floor tol rnd pt (n + 1) a b := by
  intro n
  induction n with
  | zero =>
    intro a b ha hb hab h1 h2 hpt hlen
    obtain ⟨i1, i2, -, -⟩ := rounded_middle h hμ ha hb hab h1 h2
    refine ends_step h.zero hf hr hab hpt i1 i2 fun hd => absurd ?_ hd
    have := (abs_le.1 (h.err (b - a))).2
    rw [abs_of_nonneg (sub_nonneg.2 hab)] at this
    have : μ * (b - a) ≤ 1 / 256 * (b - a) := mul_le_mul_of_nonneg_right hμ (sub_nonneg.2 hab)
    rw [pow_zero, one_mul] at hlen
    linarith
  | succ n ih =>
    intro a b ha hb hab h1 h2 hpt hlen
    obtain ⟨i1, i2, i3, i4⟩ := rounded_middle h hμ ha hb hab h1 h2
    refine ends_step h.zero hf hr hab hpt i1 i2 fun hd _ => ?_
    have hD : floor ≤ 257 / 256 * (b - a) := by
      have := (abs_le.1 (h.err (b - a))).2
      rw [abs_of_nonneg (sub_nonneg.2 hab)] at this
      have : μ * (b - a) ≤ 1 / 256 * (b - a) := mul_le_mul_of_nonneg_right hμ (sub_nonneg.2 hab)
      linarith [not_lt.1 hd]
    have hmid : fl (Rounded.exactMid fl a b) = Rounded.exactMid fl a b := hfl _
    have hmm : |Rounded.exactMid fl a b| ≤ m := by
      rw [abs_le]; exact ⟨(abs_le.1 h1).1.trans i1.1, i1.2.trans (abs_le.1 h2).2⟩
    have hp : (0 : K) < (3 / 4) ^ n := by positivity
    have key : ∀ y, y ≤ 9 / 16 * (b - a) + μ * m → (3 / 4) ^ n * y < floor / 2 := by
      intro y hy
      refine lt_of_le_of_lt ?_ hlen
      rw [pow_succ, mul_assoc]
      refine mul_le_mul_of_nonneg_left ?_ hp.le
      linarith
    exact ⟨ih ha hmid i1.1 h1 hmm (fun t ht ht' => hpt t ht (ht'.trans i1.2)) (key _ i3),
      ih hmid hb i1.2 hmm h2 (fun t ht ht' => hpt t (i1.1.trans ht) ht') (key _ i4)⟩

/-! ### Double precision -/

section double
variable [FloorRing K] {flat : (Fin d → K) → (Fin d → K) → (Fin d → K) → K → Bool} {floor tol : K} {rnd : ℕ → K}
  {pt : K → Res (Fin d → K)}

theorem Ends.mono {k k' : ℕ} {a b : K} (h : Ends fl flat floor tol rnd pt k a b) (hk : k ≤ k') : Ends fl flat floor tol rnd pt k' a b :=
  fun fuel hf pos => h fuel (hk.trans hf) pos

/-- Where an interval is short compared with its parameters, the numbers in it are multiples of a power of two, and there are few. -/
theorem grid_of_small {a b : K} (hlt : a < b) (hs : b - a ≤ 32 * (((2 : K) ^ 53)⁻¹ * max |a| |b|)) :
    ∃ k : ℤ, (∀ x ∈ Binary64 K, a ≤ x → x ≤ b → ∃ z : ℤ, x = z * 2 ^ k) ∧ b - a ≤ 128 * 2 ^ k := by
  set m := max |a| |b| with hm
  have hm0 : 0 < m := by
    by_contra hc
    have h1 : |a| ≤ 0 := (le_max_left _ _).trans (not_lt.1 hc)
    have h2 : |b| ≤ 0 := (le_max_right _ _).trans (not_lt.1 hc)
    have e1 := abs_nonpos_iff.1 h1
    have e2 := abs_nonpos_iff.1 h2
    linarith
  have e1 := Int.zpow_log_le_self (b := 2) (by norm_num) (half_pos hm0)
  have e2 := Int.lt_zpow_succ_log_self (b := 2) (by norm_num) (m / 2)
  set j := Int.log 2 (m / 2) with hj
  replace e1 : (2 : K) ^ j ≤ m / 2 := by exact_mod_cast e1
  replace e2 : m / 2 < (2 : K) ^ (j + 1) := by exact_mod_cast e2
  have hsm : b - a ≤ m / 2 := by
    have : (32 : K) * (((2 : K) ^ 53)⁻¹ * m) ≤ m / 2 := by
      have : (32 : K) * ((2 : K) ^ 53)⁻¹ ≤ 1 / 2 := by norm_num
      nlinarith
    linarith
  refine ⟨j - 53, ?_, ?_⟩
  · rintro x ⟨M, e, hM, rfl⟩ hax hxb
    have hx : (2 : K) ^ j ≤ |(M : K) * 2 ^ e| := by
      refine e1.trans ?_
      set x := (M : K) * 2 ^ e
      have hmx : m ≤ |x| + (b - a) := by
        rw [hm, max_le_iff]
        constructor
        · have := abs_sub_abs_le_abs_sub a x
          rw [abs_sub_comm, abs_of_nonneg (by linarith : 0 ≤ x - a)] at this
          linarith
        · have := abs_sub_abs_le_abs_sub b x
          rw [abs_of_nonneg (by linarith : 0 ≤ b - x)] at this
          linarith
      linarith
    have hle : |(M : K) * 2 ^ e| ≤ 2 ^ (e + 53) := by
      rw [abs_mul, abs_of_pos (zpow_pos (by norm_num : (0 : K) < 2) e), zpow_add₀ (by norm_num), mul_comm]
      refine mul_le_mul_of_nonneg_left ?_ (zpow_pos (by norm_num) e).le
      exact_mod_cast hM
    have hje : j ≤ e + 53 := (zpow_le_zpow_iff_right₀ (by norm_num : (1 : K) < 2)).1 (hx.trans hle)
    obtain ⟨n, hn⟩ := Int.eq_ofNat_of_zero_le (show 0 ≤ e - (j - 53) by omega)
    refine ⟨M * 2 ^ n, ?_⟩
    rw [show e = (n : ℤ) + (j - 53) by omega, zpow_add₀ (by norm_num), zpow_natCast]
    push_cast
    ring
  · have : (2 : K) ^ (j - 53) = 2 ^ (j + 1) * (2 * 2 ^ 53)⁻¹ := by
      rw [show (2 : K) * 2 ^ 53 = 2 ^ (54 : ℤ) by norm_num, ← zpow_neg, ← zpow_add₀ (by norm_num)]
      congr 1; ring
    rw [this]
    have h3 : (0 : K) < (2 ^ 53)⁻¹ := by positivity
    have : 128 * ((2 : K) ^ (j + 1) * (2 * 2 ^ 53)⁻¹) = 64 * 2 ^ (j + 1) * (2 ^ 53)⁻¹ := by rw [mul_inv]; ring
    rw [this]
    nlinarith

/-- The test never divides a piece when the middle point is one of the ends. -/
def Settles (fl : K → K) (flat : (Fin d → K) → (Fin d → K) → (Fin d → K) → K → Bool) (tol : K) : Prop :=
  ∀ p q, Rounded.divides fl flat tol p p q = false ∧ Rounded.divides fl flat tol p q q = false

theorem ends_of_grid (h : Nearest (Binary64 K) fl) (hset : Settles fl flat tol) (hf : 0 < floor) (hr : ∀ n, 0 ≤ rnd n ∧ rnd n < 1) (k : ℤ) :
    ∀ (n N : ℕ), N ≤ n → n ≤ 2 ^ 53 → ∀ {a b : K}, a ∈ Binary64 K → b ∈ Binary64 K → b - a = N * 2 ^ k →
      (∀ t, a ≤ t → t ≤ b → ∃ p, pt t = .ok p) → (∀ x ∈ Binary64 K, a ≤ x → x ≤ b → ∃ z : ℤ, x = z * 2 ^ k) →
      Ends fl flat floor tol rnd pt (n + 1) a b := by
  have hR := C99_nearest h
  have hμ : ((2 : K) ^ 53)⁻¹ ≤ 1 / 256 := by norm_num
  have hg : (0 : K) < 2 ^ k := zpow_pos (by norm_num) k
  intro n
  induction n with
  | zero =>
    intro N hN _ a b ha hb hab hpt hgrid
    obtain rfl : N = 0 := by omega
    have hab' : a ≤ b := by simp at hab; linarith
    obtain ⟨i1, i2, -, -⟩ := rounded_middle hR hμ (h.fix ha) (h.fix hb) hab' (le_max_left |a| |b|) (le_max_right _ _)
    refine ends_step hR.zero hf hr hab' hpt i1 i2 fun hd => absurd ?_ hd
    rw [hab]; simp [hR.zero, hf]
  | succ n ih =>
    intro N hN hn a b ha hb hab hpt hgrid
    have hab' : a ≤ b := by
      have : (0 : K) ≤ N * 2 ^ k := mul_nonneg (Nat.cast_nonneg _) hg.le
      linarith
    obtain ⟨i1, i2, -, -⟩ := rounded_middle hR hμ (h.fix ha) (h.fix hb) hab' (le_max_left |a| |b|) (le_max_right _ _)
    refine ends_step hR.zero hf hr hab' hpt i1 i2 ?_
    rintro hd ⟨x, p1, p2, p3, x0, x1, e1, e2, e3, hdv⟩
    have hbet : ∃ y ∈ Binary64 K, a < y ∧ y < b := by
      by_contra hc
      push Not at hc
      obtain ⟨j1, j2⟩ := i2 x x0 x1
      rcases j1.eq_or_lt with j | j
      · rw [← j, e1] at e2
        obtain rfl := Except.ok.inj e2
        rw [(hset p1 p3).1] at hdv
        exact absurd hdv (by decide)
      · have j3 := le_antisymm j2 (hc _ (h _).1 j)
        rw [j3, e3] at e2
        obtain rfl := Except.ok.inj e2
        rw [(hset p1 p3).2] at hdv
        exact absurd hdv (by decide)
    obtain ⟨y, hy, y1, y2⟩ := hbet
    have hN53 : ((N : ℤ)) ≤ 2 ^ 53 := by exact_mod_cast hN.trans hn
    have fixD : fl (b - a) = b - a := h.fix ⟨N, k, by rw [abs_of_nonneg (by positivity)]; exact hN53, by rw [hab]; push_cast; rfl⟩
    have fixH : fl ((b - a) * (1 / 2)) = (b - a) * (1 / 2) := by
      refine h.fix ⟨N, k - 1, by rw [abs_of_nonneg (by positivity)]; exact hN53, ?_⟩
      rw [hab, zpow_sub_one₀ (by norm_num)]; push_cast; ring
    have em : Rounded.exactMid fl a b = fl (a + (b - a) * (1 / 2)) := by rw [Rounded.exactMid, fixD, fixH]
    have near := (h (a + (b - a) * (1 / 2))).2 y hy
    rw [← em] at near
    have hyc : |y - (a + (b - a) * (1 / 2))| < (b - a) / 2 := by
      rw [abs_lt]; constructor <;> linarith
    have hc := abs_lt.1 (near.trans_lt hyc)
    have c1 : a < Rounded.exactMid fl a b := by linarith [hc.1]
    have c2 : Rounded.exactMid fl a b < b := by linarith [hc.2]
    have hmem : Rounded.exactMid fl a b ∈ Binary64 K := (h _).1
    obtain ⟨z, hz⟩ := hgrid _ hmem c1.le c2.le
    obtain ⟨za, hza⟩ := hgrid a ha le_rfl hab'
    obtain ⟨zb, hzb⟩ := hgrid b hb hab' le_rfl
    set e := Rounded.exactMid fl a b with he
    have hlt : ∀ {u v : ℤ}, (u : K) * 2 ^ k < v * 2 ^ k → u < v := fun {u v} huv => by
      have := lt_of_mul_lt_mul_right huv hg.le
      exact_mod_cast this
    have z1 : za < z := hlt (by rw [← hza, ← hz]; exact c1)
    have z2 : z < zb := hlt (by rw [← hzb, ← hz]; exact c2)
    have zN : zb - za = N := by
      have : ((zb - za : ℤ) : K) * 2 ^ k = (N : K) * 2 ^ k := by rw [← hab, hza, hzb]; push_cast; ring
      have := mul_right_cancel₀ hg.ne' this
      exact_mod_cast this
    obtain ⟨N1, hN1⟩ := Int.eq_ofNat_of_zero_le (show 0 ≤ z - za by omega)
    obtain ⟨N2, hN2⟩ := Int.eq_ofNat_of_zero_le (show 0 ≤ zb - z by omega)
    have hs1 : e - a = N1 * 2 ^ k := by
      have : ((z - za : ℤ) : K) = N1 := by rw [hN1]; simp
      rw [← this, hz, hza]; push_cast; ring
    have hs2 : b - e = N2 * 2 ^ k := by
      have : ((zb - z : ℤ) : K) = N2 := by rw [hN2]; simp
      rw [← this, hz, hzb]; push_cast; ring
    exact ⟨ih N1 (by omega) (by omega) ha hmem hs1 (fun t ht ht' => hpt t ht (ht'.trans c2.le))
        (fun x hx hx1 hx2 => hgrid x hx hx1 (hx2.trans c2.le)),
      ih N2 (by omega) (by omega) hmem hb hs2 (fun t ht ht' => hpt t (c1.le.trans ht) ht')
        (fun x hx hx1 hx2 => hgrid x hx (c1.le.trans hx1) hx2)⟩

theorem ends_double (h : Nearest (Binary64 K) fl) (hset : Settles fl flat tol) (hf : 0 < floor) (hr : ∀ n, 0 ≤ rnd n ∧ rnd n < 1) :
    ∀ (n : ℕ) {a b : K}, a ∈ Binary64 K → b ∈ Binary64 K → a ≤ b → (∀ t, a ≤ t → t ≤ b → ∃ p, pt t = .ok p) →
      (3 / 4) ^ n * (b - a) < floor / 2 → Ends fl flat floor tol rnd pt (n + 130) a b := by
  have hR := C99_nearest h
  have hμ : ((2 : K) ^ 53)⁻¹ ≤ 1 / 256 := by norm_num
  intro n
  induction n with
  | zero =>
    intro a b ha hb hab hpt hlen
    obtain ⟨i1, i2, -, -⟩ := rounded_middle hR hμ (h.fix ha) (h.fix hb) hab (le_max_left |a| |b|) (le_max_right _ _)
    refine (ends_step (k := 0) hR.zero hf hr hab hpt i1 i2 fun hd => absurd ?_ hd).mono (by omega)
    have := (abs_le.1 (hR.err (b - a))).2
    rw [abs_of_nonneg (sub_nonneg.2 hab)] at this
    have : ((2 : K) ^ 53)⁻¹ * (b - a) ≤ 1 / 256 * (b - a) := mul_le_mul_of_nonneg_right hμ (sub_nonneg.2 hab)
    rw [pow_zero, one_mul] at hlen
    linarith
  | succ n ih =>
    intro a b ha hb hab hpt hlen
    rcases hab.eq_or_lt with rfl | hlt
    · obtain ⟨i1, i2, -, -⟩ := rounded_middle hR hμ (h.fix ha) (h.fix hb) hab (le_max_left |a| |a|) (le_max_right _ _)
      refine (ends_step (k := 0) hR.zero hf hr hab hpt i1 i2 fun hd => absurd ?_ hd).mono (by omega)
      rw [sub_self, hR.zero]; exact hf
    by_cases hs : b - a ≤ 32 * (((2 : K) ^ 53)⁻¹ * max |a| |b|)
    · obtain ⟨k, hgrid, hD⟩ := grid_of_small hlt hs
      obtain ⟨za, hza⟩ := hgrid a ha le_rfl hab
      obtain ⟨zb, hzb⟩ := hgrid b hb hab le_rfl
      have hg : (0 : K) < 2 ^ k := zpow_pos (by norm_num) k
      have hz : za < zb := by
        rw [hza, hzb] at hlt
        exact_mod_cast lt_of_mul_lt_mul_right hlt hg.le
      obtain ⟨N, hN⟩ := Int.eq_ofNat_of_zero_le (show 0 ≤ zb - za by omega)
      have e : b - a = N * 2 ^ k := by
        have : ((zb - za : ℤ) : K) = N := by rw [hN]; simp
        rw [← this, hza, hzb]; push_cast; ring
      have hN128 : N ≤ 128 := by
        rw [e] at hD
        have := le_of_mul_le_mul_right hD hg
        exact_mod_cast this
      exact (ends_of_grid h hset hf hr k 128 N hN128 (by norm_num) ha hb e hpt hgrid).mono (by omega)
    · push Not at hs
      obtain ⟨i1, i2, i3, i4⟩ := rounded_middle hR hμ (h.fix ha) (h.fix hb) hab (le_max_left |a| |b|) (le_max_right _ _)
      have hmem : Rounded.exactMid fl a b ∈ Binary64 K := (h _).1
      refine (ends_step (k := n + 130) hR.zero hf hr hab hpt i1 i2 fun hd _ => ?_).mono (by omega)
      have hp : (0 : K) < (3 / 4) ^ n := by positivity
      have key : ∀ y, y ≤ 9 / 16 * (b - a) + ((2 : K) ^ 53)⁻¹ * max |a| |b| → (3 / 4) ^ n * y < floor / 2 := by
        intro y hy
        refine lt_of_le_of_lt ?_ hlen
        rw [pow_succ, mul_assoc]
        refine mul_le_mul_of_nonneg_left ?_ hp.le
        linarith
      exact ⟨ih ha hmem i1.1 (fun t ht ht' => hpt t ht (ht'.trans i1.2)) (key _ i3),
        ih hmem hb i1.2 (fun t ht ht' => hpt t (i1.1.trans ht) ht') (key _ i4)⟩

end double

/-! ### Curves -/

/-- The computed polyline: points at strictly increasing parameters of the domain, each of them the point of the curve at its parameter
    up to the relative error `err` of the largest coordinate. -/
def FollowsCurve (eps err : K) (c : Curve K ((Fin d → K) × K)) (r : Res (List (Fin d → K) × ℕ)) : Prop :=
  ∃ ts pts pos, r = .ok (pts, pos) ∧ ts ≠ [] ∧ ts.Pairwise (· < ·) ∧ (∀ t ∈ ts, c.lo ≤ t ∧ t ≤ c.hi) ∧
    List.Forall₂ (fun t p => ∃ x, c.pointAt eps t = .ok x ∧
      ∀ (i : Fin d) (M : K), (∀ q ∈ c.cps, |q.1 i / q.2| ≤ M) → |p i - x i| ≤ err * M) ts pts

theorem follows_of_drawn (h : Rounds fl μ) {c : Curve K ((Fin d → K) × K)} (hg : c.Good eps) (hw : ∀ q ∈ c.cps, 0 < q.2)
    (hks : ∀ k ∈ c.knots, fl k = k) {r : Res (List (Fin d → K) × ℕ)} (hr : Drawn (Rounded.pointAt fl eps c) c.lo c.hi r) :
    FollowsCurve eps (((1 - μ) ^ (14 * c.degree + 5))⁻¹ - 1) c r := by
  obtain ⟨ts, pts, pos, e, hne, f, hs, hin⟩ := hr
  refine ⟨ts, pts, pos, e, hne, hs, hin, ?_⟩
  clear e hne hs
  induction f with
  | nil => exact .nil
  | cons hp _ ih =>
    refine .cons ?_ (ih fun t ht => hin t (List.mem_cons_of_mem _ ht))
    obtain ⟨t1, t2⟩ := hin _ List.mem_cons_self
    obtain ⟨x, x', e1, e2, e3⟩ := C99_curve h hg hw hks t1 t2
    rw [hp] at e2
    obtain rfl := Except.ok.inj e2
    exact ⟨x, e1, e3⟩

theorem lo_le_hi {V : Type} [AddCommGroup V] [Module K V] {c : Curve K V} (hg : c.Good eps) : c.lo < c.hi := by
  have hpos := hg.cps_pos
  have hle := hg.good.le
  refine hg.good.first.trans_le ?_
  have := hg.good.mono (c.degree + 1) (c.cps.length - 1 + 1) (by omega) (by omega)
  rwa [Nat.sub_add_cancel hpos] at this

theorem lo_mem_knots {V : Type} {c : Curve K V} (hg : c.Good eps) : c.lo ∈ c.knots ∧ c.hi ∈ c.knots := by
  have hpos := hg.cps_pos
  have hlen := hg.knots_len
  constructor
  · rw [Curve.lo, kf, List.getD, List.getElem?_eq_getElem (by omega)]; exact List.getElem_mem _
  · rw [Curve.hi, kf, List.getD, List.getElem?_eq_getElem (by omega)]; exact List.getElem_mem _

/-- **Any rounding**: if the parameters are resolved finer than the parameter floor (`8 μ m ≤ floor` for parameters up to `m`), the
    adaptive tessellation ends, whatever the test of flatness, the tolerance and the random numbers are, after as many levels as it takes
    to get below the floor with steps of `3/4`. -/
theorem C119_any_rounding (h : Rounds fl μ) (hμ : μ ≤ 1 / 256) (hfl : ∀ x, fl (fl x) = fl x) {c : Curve K ((Fin d → K) × K)}
    (hg : c.Good eps) (hw : ∀ q ∈ c.cps, 0 < q.2) (hks : ∀ k ∈ c.knots, fl k = k) (hd : c.degree ≠ 1)
    (flat : (Fin d → K) → (Fin d → K) → (Fin d → K) → K → Bool) {floor : K} (tol : K) {rnd : ℕ → K} (hf : 0 < floor)
    (hr : ∀ n, 0 ≤ rnd n ∧ rnd n < 1) {m : K} (h1 : |c.lo| ≤ m) (h2 : |c.hi| ≤ m) (hm : 8 * (μ * m) ≤ floor) {n : ℕ}
    (hn : (3 / 4) ^ n * (c.hi - c.lo) < floor / 2) {fuel : ℕ} (hfuel : n + 1 ≤ fuel) :
    FollowsCurve eps (((1 - μ) ^ (14 * c.degree + 5))⁻¹ - 1) c (Rounded.tessellateCurve fl flat eps floor rnd fuel c tol) := by
  rw [Rounded.tessellateCurve, if_neg hd, knotsDomain_eq hg, ok_bind]
  refine follows_of_drawn h hg hw hks ?_
  refine ends_of_resolution h hμ hfl hf hr hm n (hks _ (lo_mem_knots hg).1) (hks _ (lo_mem_knots hg).2) (lo_le_hi hg).le h1 h2 ?_ hn fuel hfuel 0
  intro t t1 t2
  obtain ⟨_, x', _, e2, _⟩ := C99_curve h hg hw hks t1 t2
  exact ⟨x', e2⟩

section double
variable [FloorRing K]

theorem follows_double (h : Nearest (Binary64 K) fl) {c : Curve K ((Fin d → K) × K)} (hg : c.Good eps) (hw : ∀ q ∈ c.cps, 0 < q.2)
    (hks : ∀ k ∈ c.knots, k ∈ Binary64 K) (hd : c.degree ≠ 1) {flat : (Fin d → K) → (Fin d → K) → (Fin d → K) → K → Bool} {floor tol : K}
    (hset : Settles fl flat tol) {rnd : ℕ → K} (hf : 0 < floor) (hr : ∀ n, 0 ≤ rnd n ∧ rnd n < 1) {n : ℕ}
    (hn : (3 / 4) ^ n * (c.hi - c.lo) < floor / 2) {fuel : ℕ} (hfuel : n + 130 ≤ fuel) :
    FollowsCurve eps (((1 - ((2 : K) ^ 53)⁻¹) ^ (14 * c.degree + 5))⁻¹ - 1) c (Rounded.tessellateCurve fl flat eps floor rnd fuel c tol) := by
  have hks' : ∀ k ∈ c.knots, fl k = k := fun k hk => h.fix (hks k hk)
  rw [Rounded.tessellateCurve, if_neg hd, knotsDomain_eq hg, ok_bind]
  refine follows_of_drawn (C99_nearest h) hg hw hks' ?_
  refine ends_double h hset hf hr n (hks _ (lo_mem_knots hg).1) (hks _ (lo_mem_knots hg).2) (lo_le_hi hg).le ?_ hn fuel hfuel 0
  intro t t1 t2
  obtain ⟨_, x', _, e2, _⟩ := C99_curve (C99_nearest h) hg hw hks' t1 t2
  exact ⟨x', e2⟩

theorem normSq_zero (h : Rounds fl μ) : Rounded.normSq fl (fun _ : Fin d => 0) = 0 := by
  rw [Rounded.normSq]
  have : ∀ l : List (Fin d), l.foldl (fun acc _ => fl (acc + fl (0 * 0))) (0 : K) = 0 := by
    intro l
    induction l with
    | nil => rfl
    | cons x l ih => rw [List.foldl_cons, show fl ((0 : K) + fl (0 * 0)) = 0 by rw [mul_zero, h.zero, add_zero, h.zero]]; exact ih
  exact this _

theorem settles_of (h : Rounds fl μ) {flat : (Fin d → K) → (Fin d → K) → (Fin d → K) → K → Bool} {tol : K} (ht : 0 < tol)
    (hflat : ∀ p q, flat p p q tol = true ∧ flat p q q tol = true) : Settles fl flat tol := by
  intro p q
  constructor
  · rw [Rounded.divides, (hflat p q).1]
    simp only [sub_self, h.zero, normSq_zero h]
    simp [ht.le]
  · rw [Rounded.divides, (hflat p q).2]
    simp only [Bool.not_true, Bool.or_false, Bool.and_eq_false_iff, decide_eq_false_iff_not]
    rcases lt_or_ge (Rounded.normSq fl fun i => fl (p i - q i)) tol with hlt | hge
    · right; exact not_lt.2 hlt.le
    · left; exact not_lt.2 hge

/-- **Curves of the plane in double precision**: for every curve with positive weights and knots that are doubles, of whatever size, every
    positive tolerance and all random numbers the adaptive tessellation ends.  The depth of the recursion is at most 130 more than the number
    of steps of `3/4` that it takes from the length of the domain to half of the parameter floor.  The computed points are those of the curve at
    strictly increasing parameters, up to `14 p + 5` roundings. -/
theorem C119_plane (h : Nearest (Binary64 K) fl) {c : Curve K ((Fin 2 → K) × K)} (hg : c.Good eps) (hw : ∀ q ∈ c.cps, 0 < q.2)
    (hks : ∀ k ∈ c.knots, k ∈ Binary64 K) (hd : c.degree ≠ 1) {floor tol : K} (ht : 0 < tol) {rnd : ℕ → K} (hf : 0 < floor)
    (hr : ∀ n, 0 ≤ rnd n ∧ rnd n < 1) {n : ℕ} (hn : (3 / 4) ^ n * (c.hi - c.lo) < floor / 2) {fuel : ℕ} (hfuel : n + 130 ≤ fuel) :
    FollowsCurve eps (((1 - ((2 : K) ^ 53)⁻¹) ^ (14 * c.degree + 5))⁻¹ - 1) c
      (Rounded.tessellateCurve fl (Rounded.flat2 fl) eps floor rnd fuel c tol) := by
  have hR := C99_nearest h
  refine follows_double h hg hw hks hd (settles_of hR ht fun p q => ⟨?_, ?_⟩) hf hr hn hfuel
  · simp [Rounded.flat2, hR.zero, ht]
  · simp only [Rounded.flat2, decide_eq_true_eq]
    rw [mul_comm, sub_self, hR.zero, abs_zero]; exact ht

/-- **Curves of space in double precision**, likewise. -/
theorem C119_space (h : Nearest (Binary64 K) fl) {c : Curve K ((Fin 3 → K) × K)} (hg : c.Good eps) (hw : ∀ q ∈ c.cps, 0 < q.2)
    (hks : ∀ k ∈ c.knots, k ∈ Binary64 K) (hd : c.degree ≠ 1) {floor tol : K} (ht : 0 < tol) {rnd : ℕ → K} (hf : 0 < floor)
    (hr : ∀ n, 0 ≤ rnd n ∧ rnd n < 1) {n : ℕ} (hn : (3 / 4) ^ n * (c.hi - c.lo) < floor / 2) {fuel : ℕ} (hfuel : n + 130 ≤ fuel) :
    FollowsCurve eps (((1 - ((2 : K) ^ 53)⁻¹) ^ (14 * c.degree + 5))⁻¹ - 1) c
      (Rounded.tessellateCurve fl (Rounded.flat3 fl) eps floor rnd fuel c tol) := by
  have hR := C99_nearest h
  have z : ∀ v : Fin 3 → K, v = (fun _ => 0) → Rounded.normSq fl v < tol := by
    rintro v rfl
    rw [normSq_zero hR]; exact ht
  refine follows_double h hg hw hks hd (settles_of hR ht fun p q => ⟨?_, ?_⟩) hf hr hn hfuel
  · simp only [Rounded.flat3, decide_eq_true_eq]
    refine z _ (funext fun i => ?_)
    fin_cases i <;> simp [hR.zero]
  · simp only [Rounded.flat3, decide_eq_true_eq]
    refine z _ (funext fun i => ?_)
    fin_cases i <;> simp [mul_comm, hR.zero]

end double

/-! ### Without a positive tolerance -/

/-- An arc whose domain consists of two neighbouring doubles. -/
def exFar : Curve ℚ ((Fin 2 → ℚ) × ℚ) where
  degree := 2
  cps := [(![0, 0], 1), (![1, 1], 1), (![2, 0], 1)]
  knots := [2 ^ 60, 2 ^ 60, 2 ^ 60, 2 ^ 60 + 256, 2 ^ 60 + 256, 2 ^ 60 + 256]

theorem exFar_good : exFar.Good (1/1000) where
  cps_pos := by decide
  knots_len := by decide
  good := by
    refine ⟨by norm_num, by decide, ?_, ?_, ?_, ?_, ?_⟩
    · intro i j hij hj
      exact (by decide +kernel : ∀ i ≤ 5, ∀ j ≤ 5, i ≤ j → kf exFar.knots i ≤ kf exFar.knots j)
        i (by have : j ≤ 5 := hj; omega) j hj hij
    all_goals simp [exFar, kf]
    all_goals norm_num

theorem exFar_lo : exFar.lo = 2 ^ 60 := rfl
theorem exFar_hi : exFar.hi = 2 ^ 60 + 256 := rfl

theorem exFar_knots : ∀ k ∈ exFar.knots, k ∈ Binary64 ℚ := by
  intro k hk
  have : k = 2 ^ 60 ∨ k = 2 ^ 60 + 256 := by
    simp only [exFar, List.mem_cons, List.not_mem_nil, or_false] at hk
    tauto
  rcases this with rfl | rfl
  · exact ⟨1, 60, by norm_num, by norm_num⟩
  · exact ⟨2 ^ 52 + 1, 8, by norm_num, by norm_num⟩

theorem neighbours {x : ℚ} (hx : x ∈ Binary64 ℚ) (h1 : 2 ^ 60 ≤ x) (h2 : x ≤ 2 ^ 60 + 256) : x = 2 ^ 60 ∨ x = 2 ^ 60 + 256 := by
  obtain ⟨M, e, hM, rfl⟩ := hx
  have hM' : (M : ℚ) ≤ 2 ^ 53 := by exact_mod_cast (abs_le.1 hM).2
  have he : (0 : ℚ) < 2 ^ e := zpow_pos (by norm_num) e
  rcases le_or_gt e 7 with h7 | h7
  · left
    have : (2 : ℚ) ^ e ≤ 2 ^ (7 : ℤ) := zpow_le_zpow_right₀ (by norm_num) h7
    refine le_antisymm ?_ h1
    have hM0 : (0 : ℚ) < M := by
      by_contra hc
      have := mul_nonpos_of_nonpos_of_nonneg (not_lt.1 hc) he.le
      linarith [show (0 : ℚ) < 2 ^ 60 by norm_num]
    calc (M : ℚ) * 2 ^ e ≤ 2 ^ 53 * 2 ^ (7 : ℤ) := mul_le_mul hM' this he.le (by norm_num)
      _ = 2 ^ 60 := by norm_num
  · obtain ⟨n, hn⟩ := Int.eq_ofNat_of_zero_le (show 0 ≤ e - 8 by omega)
    have : (M : ℚ) * 2 ^ e = ((M * 2 ^ n : ℤ) : ℚ) * 256 := by
      rw [show e = (n : ℤ) + 8 by omega, zpow_add₀ (by norm_num), zpow_natCast]
      push_cast; ring
    rw [this] at h1 h2 ⊢
    have g1 : (2 : ℤ) ^ 52 ≤ M * 2 ^ n := by
      have : ((2 ^ 52 : ℤ) : ℚ) ≤ ((M * 2 ^ n : ℤ) : ℚ) := by push_cast at h1 ⊢; linarith
      exact_mod_cast this
    have g2 : M * 2 ^ n ≤ (2 : ℤ) ^ 52 + 1 := by
      have : ((M * 2 ^ n : ℤ) : ℚ) ≤ ((2 ^ 52 + 1 : ℤ) : ℚ) := by push_cast at h2 ⊢; linarith
      exact_mod_cast this
    rcases (show M * 2 ^ n = 2 ^ 52 ∨ M * 2 ^ n = 2 ^ 52 + 1 by omega) with g | g
    · left; rw [g]; norm_num
    · right; rw [g]; norm_num

/-- **The tolerance has to be positive**: with the tolerance zero (or a negative one) the recursion of this curve never ends, whatever ties
    are rounded to and whatever the random numbers are.  In exact arithmetic it ends (`C44_increasing`). -/
theorem C119_zero_tolerance {fl : ℚ → ℚ} (h : Nearest (Binary64 ℚ) fl) {rnd : ℕ → ℚ} (hr : ∀ n, 0 ≤ rnd n ∧ rnd n < 1) {tol : ℚ} (ht : tol ≤ 0)
    (fuel : ℕ) : Rounded.tessellateCurve fl (Rounded.flat2 fl) (1/1000) (1/10^8) rnd fuel exFar tol = .error .diverge := by
  have hR := C99_nearest h
  have hks : ∀ k ∈ exFar.knots, fl k = k := fun k hk => h.fix (exFar_knots k hk)
  have hpt : ∀ t, (2 : ℚ) ^ 60 ≤ t → t ≤ 2 ^ 60 + 256 → ∃ p, Rounded.pointAt fl (1/1000) exFar t = .ok p := by
    intro t h1 h2
    obtain ⟨_, x', _, e2, _⟩ := C99_curve hR exFar_good (by simp [exFar]) hks (t := t) h1 h2
    exact ⟨x', e2⟩
  have hdv : ∀ p1 p2 p3 : Fin 2 → ℚ, Rounded.divides fl (Rounded.flat2 fl) tol p1 p2 p3 = true := by
    intro p1 p2 p3
    have : Rounded.flat2 fl p1 p2 p3 tol = false := by
      rw [Rounded.flat2]
      simp only [decide_eq_false_iff_not]
      exact not_lt.2 (ht.trans (abs_nonneg _))
    rw [Rounded.divides, this]; simp
  obtain ⟨i1, i2, -, -⟩ := rounded_middle hR (by norm_num) (a := 2 ^ 60) (b := 2 ^ 60 + 256) (hks _ (by simp [exFar])) (hks _ (by simp [exFar])) (by norm_num)
    (le_max_left |_| |_|) (le_max_right _ _)
  have hmid := neighbours (h _).1 i1.1 i1.2
  have hfl : fl ((2 : ℚ) ^ 60 + 256 - 2 ^ 60) = 256 := by
    rw [show (2 : ℚ) ^ 60 + 256 - 2 ^ 60 = 256 by norm_num]
    exact h.fix ⟨1, 8, by norm_num, by norm_num⟩
  obtain ⟨p1, e1⟩ := hpt (2 ^ 60) le_rfl (by norm_num)
  obtain ⟨p3, e3⟩ := hpt (2 ^ 60 + 256) (by norm_num) le_rfl
  have main : ∀ fuel pos, Rounded.adaptive fl (Rounded.flat2 fl) (1/10^8) rnd (Rounded.pointAt fl (1/1000) exFar) tol fuel (2 ^ 60) (2 ^ 60 + 256) pos =
      .error .diverge := by
    intro fuel
    induction fuel with
    | zero => intro pos; rfl
    | succ fuel ih =>
      intro pos
      obtain ⟨p2, e2⟩ := hpt _ (i2 _ (hr pos).1 (hr pos).2).1 (i2 _ (hr pos).1 (hr pos).2).2
      rw [Rounded.adaptive]
      simp only [e1, e3, e2, ok_bind, hdv, if_true]
      rw [if_neg (by rw [hfl]; norm_num)]
      rcases hmid with hmid | hmid
      · rw [show Rounded.exactMid fl (2 ^ 60) (2 ^ 60 + 256) = 2 ^ 60 from hmid]
        cases fuel with
        | zero => rfl
        | succ n =>
          conv_lhs =>
            arg 1
            rw [Rounded.adaptive]
          simp only [e1, ok_bind, sub_self, hR.zero]
          rw [if_pos (by norm_num)]
          show (_ : Res _) = _
          simp only [pure_bind]
          rw [ih]
          rfl
      · rw [show Rounded.exactMid fl (2 ^ 60) (2 ^ 60 + 256) = 2 ^ 60 + 256 from hmid, ih]
        rfl
  rw [Rounded.tessellateCurve, if_neg (by decide), knotsDomain_eq exFar_good, ok_bind]
  exact main fuel 0

/-! ### Examples -/

/-- With a positive tolerance the same curve is no problem. -/
example (rnd : ℕ → ℚ) (hr : ∀ n, 0 ≤ rnd n ∧ rnd n < 1) :
    FollowsCurve (1/1000) (((1 - ((2 : ℚ) ^ 53)⁻¹) ^ 33)⁻¹ - 1) exFar
      (Rounded.tessellateCurve fl64 (Rounded.flat2 fl64) (1/1000) (1/10^8) rnd 220 exFar (1/1000)) :=
  C119_plane fl64_nearest exFar_good (by simp [exFar]) exFar_knots (by decide) (by norm_num) (by norm_num) hr (n := 90)
    (by rw [exFar_lo, exFar_hi]; norm_num) (by norm_num)

/-- For parameters of ordinary size nothing but the resolution matters. -/
example (flat : (Fin 2 → ℚ) → (Fin 2 → ℚ) → (Fin 2 → ℚ) → ℚ → Bool) (tol : ℚ) (rnd : ℕ → ℚ) (hr : ∀ n, 0 ≤ rnd n ∧ rnd n < 1) :
    FollowsCurve (1/1000) (((1 - ((2 : ℚ) ^ 53)⁻¹) ^ 33)⁻¹ - 1) exNoise
      (Rounded.tessellateCurve fl64 flat (1/1000) (1/10^8) rnd 90 exNoise tol) := by
  refine C119_any_rounding (C99_nearest fl64_nearest) (by norm_num) (fun x => fl64_nearest.fix (fl64_nearest x).1) exNoise_good (by simp [exNoise])
    ?_ (by decide) flat tol (by norm_num) hr (m := 2) ?_ ?_ (by norm_num) (n := 80) ?_ (by norm_num)
  · intro k hk
    refine fl64_nearest.fix ?_
    simp only [exNoise, List.mem_cons, List.not_mem_nil, or_false] at hk
    rcases hk with rfl | rfl | rfl | rfl | rfl | rfl | rfl
    · exact ⟨0, 0, by norm_num, by norm_num⟩
    · exact ⟨0, 0, by norm_num, by norm_num⟩
    · exact ⟨0, 0, by norm_num, by norm_num⟩
    · exact ⟨1, 0, by norm_num, by norm_num⟩
    · exact ⟨2, 0, by norm_num, by norm_num⟩
    · exact ⟨2, 0, by norm_num, by norm_num⟩
    · exact ⟨2, 0, by norm_num, by norm_num⟩
  all_goals simp [Curve.lo, Curve.hi, exNoise, kf]
  all_goals norm_num

end Curvo.Props

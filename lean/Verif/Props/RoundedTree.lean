/-
  C122: dividing curves into pieces (bounding box trees) in floating point arithmetic.
-/
import Verif.Model.RoundedTree
import Verif.Props.Traverse
import Verif.Props.RoundedRefine
import Verif.Props.RoundedBox

set_option linter.unusedSectionVars false
set_option linter.unusedSimpArgs false

namespace Curvo.Props

open Curvo Curvo.Spec

variable {K : Type} [Field K] [LinearOrder K] [IsStrictOrderedRing K] {d : ℕ} {fl : K → K} {μ eps big : K} {rnd : ℕ → K}

/-! ### Specification -/

/-- Dividing the curve, and the pieces, as long as they are to be divided, stops after at most `n` divisions one below the other,
    without a failure and whatever random numbers are drawn. -/
def DivisionEnds (fl : K → K) (eps : K) (rnd : ℕ → K) : ℕ → CurveTree K d → Prop
  | 0, t => Rounded.isDividable fl t = .ok false
  | n + 1, t => Rounded.isDividable fl t = .ok false ∨ Rounded.isDividable fl t = .ok true ∧
      ∀ pos, ∃ a b pos', Rounded.tryDivide fl eps rnd t pos = .ok ((a, b), pos') ∧ DivisionEnds fl eps rnd n a ∧ DivisionEnds fl eps rnd n b

/-- No random split lands on a knot, or closer than `eps` to one. -/
def RoundedGeneric (fl : K → K) (eps big : K) (rnd : ℕ → K) (t0 : CurveTree K d) : Prop :=
  ∀ t pos, Reach (Rounded.tree fl eps big rnd) t0 t → Rounded.isDividable fl t = .ok true →
    ∀ y ∈ t.curve.knots, y ≠ Rounded.splitParam fl t.curve.lo t.curve.hi (rnd pos) ∧
      eps ≤ |y - Rounded.splitParam fl t.curve.lo t.curve.hi (rnd pos)|

/-! ### Without rounding -/

/-- **Without rounding** this is the tree of the exact model. -/
theorem C122_exact (eps : K) (rnd : ℕ → K) (t : CurveTree K d) (c : Curve K ((Fin d → K) × K)) (tol : Option K) (pos : ℕ) :
    Rounded.isDividable (fun x => x) t = t.isDividable ∧
    Rounded.tryDivide (fun x => x) eps rnd t pos = t.tryDivide eps rnd pos ∧
    Rounded.newTree (fun x => x) c tol = CurveTree.new c tol := by
  refine ⟨rfl, ?_, by cases tol <;> rfl⟩
  rw [Rounded.tryDivide, CurveTree.tryDivide]
  have : ∀ (c : Curve K ((Fin d → K) × K)) u, Rounded.trySplit (fun x => x) eps c u = c.trySplit eps u := fun c u => (C100_exact eps c [] u).2
  simp only [this]
  rfl

/-! ### One division -/

theorem isDividable_rounded {t : CurveTree K d} (h : t.curve.Good eps) : Rounded.isDividable fl t =
    .ok (decide (t.tolerance < fl (t.curve.hi - t.curve.lo)) || (decide (t.curve.degree = 1) &&
      (decide (fl (1 / 10000) ≤ fl (t.curve.hi - t.curve.lo)) && decide (3 ≤ t.curve.cps.length)))) := by
  rw [Rounded.isDividable, knotsDomain_eq h, ok_bind]
  by_cases h1 : t.tolerance < fl (t.curve.hi - t.curve.lo)
  · simp [h1]
  · by_cases h2 : t.curve.degree = 1
    · simp [h1, h2]
    · simp [h1, h2]

theorem good_congr {c c' : Curve K ((Fin d → K) × K)} (hg : c.Good eps) (h1 : c'.degree = c.degree) (h2 : c'.knots = c.knots)
    (h3 : c'.cps.length = c.cps.length) : c'.Good eps ∧ c'.lo = c.lo ∧ c'.hi = c.hi := by
  refine ⟨⟨by rw [h3]; exact hg.cps_pos, by rw [h1, h2, h3]; exact hg.knots_len, by rw [h1, h2, h3]; exact hg.good⟩, ?_, ?_⟩
  · rw [Curve.lo, Curve.lo, h1, h2]
  · rw [Curve.hi, Curve.hi, h2, h3]

/-- What splitting in floating point arithmetic does to the knots. -/
theorem rounded_split (h : Rounds fl μ) (h1 : fl 1 = 1) (heps : fl eps = eps) {c : Curve K ((Fin d → K) × K)} (hg : c.Good eps)
    (hks : ∀ k ∈ c.knots, fl k = k) {u : K} (hu1 : c.lo ≤ u) (hu2 : u ≤ c.hi) (hsep : ∀ y ∈ c.knots, |y - u| < eps → y = u) :
    ∃ l r, Rounded.trySplit fl eps c u = .ok (l, r) ∧ l.degree = c.degree ∧ r.degree = c.degree ∧
      (∀ y, y ∈ l.knots ∨ y ∈ r.knots → y = u ∨ y ∈ c.knots) ∧
      ((u ∈ c.knots → u = c.hi) → l.Good eps ∧ l.lo = c.lo ∧ l.hi = u) ∧
      (u < c.hi → r.Good eps ∧ r.lo = u ∧ r.hi = c.hi) := by
  obtain ⟨l, r, l', r', e, e', d1, k1, d2, k2, w1, w2, -⟩ := C100_split (M := fun i => (c.cps.map fun q => |hcoord i q|).sum) h h1 heps
    (fun i q hq => List.single_le_sum (by
      intro x hx
      obtain ⟨q, -, rfl⟩ := List.mem_map.1 hx
      exact abs_nonneg _) _ (List.mem_map_of_mem hq)) hg hks hu1 hu2 hsep
  obtain ⟨s, c', l0, r0, e0, hs⟩ := split_pieces hg hu1 hu2 hsep
  rw [e] at e0
  obtain ⟨rfl, rfl⟩ := Prod.mk.inj (Except.ok.inj e0)
  refine ⟨l', r', e', d1.trans hs.ld, d2.trans hs.rd, ?_, ?_, ?_⟩
  · intro y hy
    rw [k1, k2, hs.lk, hs.rk] at hy
    simp only [List.mem_append, List.mem_replicate] at hy
    rcases hy with (h | h) | (h | h)
    · exact Or.inr (List.mem_of_mem_take h)
    · exact Or.inl h.2
    · exact Or.inl h.2
    · exact Or.inr (List.mem_of_mem_drop h)
  · intro hnew
    obtain ⟨l1, r1, e1, g1, q1, q2, -⟩ := C21_left_piece hg hu1 hu2 hsep hnew
    rw [e] at e1
    obtain ⟨rfl, rfl⟩ := Prod.mk.inj (Except.ok.inj e1)
    obtain ⟨a, b, c⟩ := good_congr g1 d1 k1 w1.1
    exact ⟨a, b.trans q1, c.trans q2⟩
  · intro hlt
    obtain ⟨l1, r1, e1, g1, q1, q2, -⟩ := C21_right_piece hg hu1 hlt hsep
    rw [e] at e1
    obtain ⟨rfl, rfl⟩ := Prod.mk.inj (Except.ok.inj e1)
    obtain ⟨a, b, c⟩ := good_congr g1 d2 k2 w2.1
    exact ⟨a, b.trans q1, c.trans q2⟩

/-- The rounded split parameter stays near the middle, if the parameters are resolved fine enough. -/
theorem rounded_splitParam (h : Rounds fl μ) (hμ : μ ≤ 1 / 1000) {mn mx x M : K} (hlt : mn < mx) (h0 : 0 ≤ x) (h1 : x ≤ 1)
    (hmn : |mn| ≤ M) (hmx : |mx| ≤ M) (hres : 100 * μ * M ≤ mx - mn) :
    39 / 100 * (mx - mn) ≤ Rounded.splitParam fl mn mx x - mn ∧ 39 / 100 * (mx - mn) ≤ mx - Rounded.splitParam fl mn mx x := by
  have hμ0 := h.nonneg
  have hM0 : 0 ≤ M := (abs_nonneg _).trans hmn
  obtain ⟨L, hL⟩ : ∃ L, L = mx - mn := ⟨_, rfl⟩
  have hL0 : 0 < L := by rw [hL]; linarith
  have hLM : L ≤ 2 * M := by rw [hL]; linarith [(abs_le.1 hmn).1, (abs_le.1 hmx).2]
  have hμM : 0 ≤ μ * M := mul_nonneg hμ0 hM0
  -- the middle
  have es : |fl (mn + mx) - (mn + mx)| ≤ 2 * (μ * M) := by
    refine (h.err _).trans ?_
    have : |mn + mx| ≤ 2 * M := (abs_add_le _ _).trans (by linarith)
    calc μ * |mn + mx| ≤ μ * (2 * M) := mul_le_mul_of_nonneg_left this hμ0
      _ = _ := by ring
  have hs : |fl (mn + mx)| ≤ 3 * M := by
    have : |mn + mx| ≤ 2 * M := (abs_add_le _ _).trans (by linarith)
    have h2 := abs_sub_abs_le_abs_sub (fl (mn + mx)) (mn + mx)
    nlinarith
  have em : |fl (fl (mn + mx) / 2) - fl (mn + mx) / 2| ≤ 3 / 2 * (μ * M) := by
    refine (h.err _).trans ?_
    rw [abs_div, abs_two]
    calc μ * (|fl (mn + mx)| / 2) ≤ μ * (3 * M / 2) := mul_le_mul_of_nonneg_left (by linarith) hμ0
      _ = _ := by ring
  obtain ⟨m, hm⟩ : ∃ m, m = fl (fl (mn + mx) / 2) := ⟨_, rfl⟩
  rw [← hm] at em
  have em' : |m - (mn + mx) / 2| ≤ 5 / 2 * (μ * M) := by
    have e : m - (mn + mx) / 2 = (m - fl (mn + mx) / 2) + (fl (mn + mx) - (mn + mx)) / 2 := by ring
    rw [e]
    refine (abs_add_le _ _).trans ?_
    rw [abs_div, abs_two]
    linarith
  have hmM : |m| ≤ 2 * M := by
    have h1 : |(mn + mx) / 2| ≤ M := by
      rw [abs_div, abs_two]
      linarith [abs_add_le mn mx]
    have h2 := abs_sub_abs_le_abs_sub m ((mn + mx) / 2)
    nlinarith
  -- the random offset
  have grow : ∀ z : K, |fl z| ≤ 1001 / 1000 * |z| := by
    intro z
    have e := h.err z
    have h2 := abs_sub_abs_le_abs_sub (fl z) z
    have : μ * |z| ≤ 1 / 1000 * |z| := mul_le_mul_of_nonneg_right hμ (abs_nonneg _)
    linarith
  have hb : |fl (x - 1 / 2)| ≤ 1001 / 2000 := by
    have : |x - 1 / 2| ≤ 1 / 2 := by rw [abs_le]; constructor <;> linarith
    linarith [grow (x - 1 / 2)]
  have ha : |fl (1 / 10 : K)| ≤ 1001 / 10000 := by
    have := grow (1 / 10)
    rw [abs_of_pos (by norm_num : (0 : K) < 1 / 10)] at this
    linarith
  have hg : |fl (fl (1 / 10) * fl (x - 1 / 2))| ≤ 51 / 1000 := by
    refine (grow _).trans ?_
    rw [abs_mul]
    have := mul_le_mul ha hb (abs_nonneg _) (by norm_num : (0 : K) ≤ 1001 / 10000)
    linarith
  have hlen : |fl (mx - mn)| ≤ 1001 / 1000 * L := by
    have := grow (mx - mn)
    rwa [abs_of_pos (show 0 < mx - mn by linarith), show 1001 / 1000 * (mx - mn) = 1001 / 1000 * L by rw [hL]] at this
  obtain ⟨r, hr⟩ : ∃ r, r = fl (fl (mx - mn) * fl (fl (1 / 10) * fl (x - 1 / 2))) := ⟨_, rfl⟩
  have hr1 : |r| ≤ 3 / 50 * L := by
    rw [hr]
    refine (grow _).trans ?_
    rw [abs_mul]
    have := mul_le_mul hlen hg (abs_nonneg _) (by positivity : (0 : K) ≤ 1001 / 1000 * L)
    nlinarith
  have eu : |fl (m + r) - (m + r)| ≤ 5 / 2 * (μ * M) := by
    refine (h.err _).trans ?_
    have : |m + r| ≤ 5 / 2 * M := (abs_add_le _ _).trans (by linarith)
    calc μ * |m + r| ≤ μ * (5 / 2 * M) := mul_le_mul_of_nonneg_left this hμ0
      _ = _ := by ring
  have hres' : 100 * (μ * M) ≤ L := by rw [hL]; linarith
  have a1 := abs_le.1 eu
  have a2 := abs_le.1 em'
  have a3 := abs_le.1 hr1
  rw [Rounded.splitParam, ← hm, ← hr, ← hL]
  constructor <;> linarith [a1.1, a1.2, a2.1, a2.2, a3.1, a3.2]

theorem splitParam_fixed (hi : ∀ x, fl (fl x) = fl x) (mn mx x : K) : fl (Rounded.splitParam fl mn mx x) = Rounded.splitParam fl mn mx x := hi _

/-! ### Fine parameters: the division ends -/

/-- The lengths of the pieces that are divided are not below this bound. -/
theorem dividable_long (h : Rounds fl μ) (hμ : μ ≤ 1 / 1000) {t : CurveTree K d} (hg : t.curve.Good eps)
    (hd : Rounded.isDividable fl t = .ok true) : min t.tolerance (1 / 20000) < 2 * (t.curve.hi - t.curve.lo) := by
  have hL := sub_pos.2 hg.pre.dom
  have e := abs_le.1 (h.err (t.curve.hi - t.curve.lo))
  rw [abs_of_pos hL] at e
  have hb : μ * (t.curve.hi - t.curve.lo) ≤ 1 / 1000 * (t.curve.hi - t.curve.lo) := mul_le_mul_of_nonneg_right hμ hL.le
  rw [isDividable_rounded hg] at hd
  have hd := Except.ok.inj hd
  simp only [Bool.or_eq_true, Bool.and_eq_true, decide_eq_true_eq] at hd
  rcases hd with hd | ⟨-, hd, -⟩
  · exact (min_le_left _ _).trans_lt (by linarith [e.2])
  · have e2 := abs_le.1 (h.err (1 / 10000))
    rw [abs_of_pos (by norm_num : (0 : K) < 1 / 10000)] at e2
    exact (min_le_right _ _).trans_lt (by linarith [e.2, e2.1])

/-- What holds on all pieces. -/
structure PieceInv (fl : K → K) (eps big : K) (rnd : ℕ → K) (M : K) (t0 t : CurveTree K d) : Prop where
  reach : Reach (Rounded.tree fl eps big rnd) t0 t
  good : t.curve.Good eps
  stored : ∀ k ∈ t.curve.knots, fl k = k
  tol : t.tolerance = t0.tolerance
  lo : |t.curve.lo| ≤ M
  hi : |t.curve.hi| ≤ M

theorem divide_piece (h : Rounds fl μ) (hμ : μ ≤ 1 / 1000) (hi : ∀ x, fl (fl x) = fl x) (h1 : fl 1 = 1) (heps : fl eps = eps) {M : K}
    (hr : ∀ n, 0 ≤ rnd n ∧ rnd n ≤ 1) {t0 t : CurveTree K d} (hres : 200 * μ * M ≤ min t0.tolerance (1 / 20000))
    (hp : PieceInv fl eps big rnd M t0 t) (hd : Rounded.isDividable fl t = .ok true) (pos : ℕ)
    (hgen : ∀ y ∈ t.curve.knots, y ≠ Rounded.splitParam fl t.curve.lo t.curve.hi (rnd pos) ∧
      eps ≤ |y - Rounded.splitParam fl t.curve.lo t.curve.hi (rnd pos)|) :
    ∃ a b, Rounded.tryDivide fl eps rnd t pos = .ok ((a, b), pos + 1) ∧ PieceInv fl eps big rnd M t0 a ∧ PieceInv fl eps big rnd M t0 b ∧
      a.curve.hi - a.curve.lo ≤ 61 / 100 * (t.curve.hi - t.curve.lo) ∧ b.curve.hi - b.curve.lo ≤ 61 / 100 * (t.curve.hi - t.curve.lo) ∧
      a.curve.lo = t.curve.lo ∧ a.curve.hi = b.curve.lo ∧ b.curve.hi = t.curve.hi ∧
      (∀ y, y ∈ a.curve.knots ∨ y ∈ b.curve.knots → y = a.curve.hi ∨ y ∈ t.curve.knots) := by
  obtain ⟨u, hu⟩ : ∃ u, u = Rounded.splitParam fl t.curve.lo t.curve.hi (rnd pos) := ⟨_, rfl⟩
  have hlong := dividable_long h hμ hp.good hd
  rw [hp.tol] at hlong
  have hdom := hp.good.pre.dom
  obtain ⟨b1, b2⟩ := rounded_splitParam h hμ hdom (hr pos).1 (hr pos).2 hp.lo hp.hi (by linarith)
  have hL := sub_pos.2 hdom
  rw [← hu] at b1 b2 hgen
  have u1 : t.curve.lo < u := by linarith
  have u2 : u < t.curve.hi := by linarith
  have hsep : ∀ y ∈ t.curve.knots, |y - u| < eps → y = u := fun y hy hlt => absurd hlt (not_lt.2 (hgen y hy).2)
  obtain ⟨l, r, e, d1, d2, hk, hl, hrr⟩ := rounded_split h h1 heps hp.good hp.stored u1.le u2.le hsep
  obtain ⟨gl, l1, l2⟩ := hl fun hm => absurd rfl (hgen u hm).1
  obtain ⟨gr, r1, r2⟩ := hrr u2
  have hudef : fl u = u := by rw [hu]; exact splitParam_fixed hi _ _ _
  have hst : ∀ k, k ∈ l.knots ∨ k ∈ r.knots → fl k = k := by
    intro k hk'
    rcases hk k hk' with rfl | hm
    · exact hudef
    · exact hp.stored k hm
  have huM : |u| ≤ M := by
    rw [abs_le]
    exact ⟨(abs_le.1 hp.lo).1.trans u1.le, u2.le.trans (abs_le.1 hp.hi).2⟩
  have e' : Rounded.tryDivide fl eps rnd t pos = .ok ((⟨l, t.tolerance⟩, ⟨r, t.tolerance⟩), pos + 1) := by
    rw [Rounded.tryDivide, knotsDomain_eq hp.good, ok_bind]
    simp only
    rw [← hu, e, ok_bind]
    rfl
  refine ⟨_, _, e', ⟨hp.reach.left hd e', gl, fun k hk' => hst k (Or.inl hk'), hp.tol, by rw [l1]; exact hp.lo, by rw [l2]; exact huM⟩,
    ⟨hp.reach.right hd e', gr, fun k hk' => hst k (Or.inr hk'), hp.tol, by rw [r1]; exact huM, by rw [r2]; exact hp.hi⟩, ?_, ?_, l1, ?_, r2, ?_⟩
  · rw [l1, l2]; linarith
  · rw [r1, r2]; linarith
  · rw [l2, r1]
  · intro y hy
    rw [l2]
    exact hk y hy

theorem ok_false_of {r : Res Bool} {v : Bool} (e : r = .ok v) (h : r ≠ .ok true) : r = .ok false := by
  cases v
  · exact e
  · exact absurd e h

theorem division_ends (h : Rounds fl μ) (hμ : μ ≤ 1 / 1000) (hi : ∀ x, fl (fl x) = fl x) (h1 : fl 1 = 1) (heps : fl eps = eps) {M : K}
    (hr : ∀ n, 0 ≤ rnd n ∧ rnd n ≤ 1) {t0 : CurveTree K d} (hres : 200 * μ * M ≤ min t0.tolerance (1 / 20000))
    (hgen : RoundedGeneric fl eps big rnd t0) : ∀ (n : ℕ) (t : CurveTree K d), PieceInv fl eps big rnd M t0 t →
      2 * (t.curve.hi - t.curve.lo) * (61 / 100) ^ n ≤ min t0.tolerance (1 / 20000) → DivisionEnds fl eps rnd n t
  | 0, t, hp, hn => by
    have e := isDividable_rounded (fl := fl) hp.good
    rw [DivisionEnds]
    by_cases hd : Rounded.isDividable fl t = .ok true
    · have := dividable_long h hμ hp.good hd
      rw [hp.tol] at this
      rw [pow_zero, mul_one] at hn
      exact absurd hn (not_le.2 this)
    · exact ok_false_of e hd
  | n + 1, t, hp, hn => by
    have e := isDividable_rounded (fl := fl) hp.good
    rw [DivisionEnds]
    by_cases hd : Rounded.isDividable fl t = .ok true
    · refine Or.inr ⟨hd, fun pos => ?_⟩
      obtain ⟨a, b, e', pa, pb, la, lb, -⟩ := divide_piece h hμ hi h1 heps hr hres hp hd pos (hgen t pos hp.reach hd)
      have hpow : (0 : K) ≤ (61 / 100) ^ n := by positivity
      have step : ∀ l, l ≤ 61 / 100 * (t.curve.hi - t.curve.lo) → 2 * l * (61 / 100) ^ n ≤ min t0.tolerance (1 / 20000) := by
        intro l hl
        refine le_trans ?_ hn
        calc 2 * l * (61 / 100) ^ n ≤ 2 * (61 / 100 * (t.curve.hi - t.curve.lo)) * (61 / 100) ^ n :=
              mul_le_mul_of_nonneg_right (by linarith) hpow
          _ = _ := by rw [pow_succ]; ring
      exact ⟨a, b, pos + 1, e', division_ends h hμ hi h1 heps hr hres hgen n a pa (step _ la),
        division_ends h hμ hi h1 heps hr hres hgen n b pb (step _ lb)⟩
    · exact Or.inl (ok_false_of e hd)

/-- **The division ends in floating point arithmetic** if the parameters of the curve are resolved finer than 1/200 of the tolerance
    (and of 1/20000), with an explicit number of steps, for all random numbers that do not split closer than `eps` to a knot. -/
theorem C122_ends (h : Rounds fl μ) (hμ : μ ≤ 1 / 1000) (hi : ∀ x, fl (fl x) = fl x) (h1 : fl 1 = 1) (heps : fl eps = eps) {M : K}
    (hr : ∀ n, 0 ≤ rnd n ∧ rnd n ≤ 1) {t : CurveTree K d} (hg : t.curve.Good eps) (hks : ∀ k ∈ t.curve.knots, fl k = k)
    (hlo : |t.curve.lo| ≤ M) (hhi : |t.curve.hi| ≤ M) (hres : 200 * μ * M ≤ min t.tolerance (1 / 20000))
    (hgen : RoundedGeneric fl eps big rnd t) {n : ℕ} (hn : 2 * (t.curve.hi - t.curve.lo) * (61 / 100) ^ n ≤ min t.tolerance (1 / 20000)) :
    DivisionEnds fl eps rnd n t :=
  division_ends h hμ hi h1 heps hr hres hgen n t ⟨.root, hg, hks, rfl, hlo, hhi⟩ hn

/-- For curves without knots strictly inside of the domain the random numbers do not matter. -/
theorem C122_bezier (h : Rounds fl μ) (hμ : μ ≤ 1 / 1000) (hi : ∀ x, fl (fl x) = fl x) (h1 : fl 1 = 1) (heps : fl eps = eps) {M : K}
    (hr : ∀ n, 0 ≤ rnd n ∧ rnd n ≤ 1) {t : CurveTree K d} (hg : t.curve.Good eps) (hks : ∀ k ∈ t.curve.knots, fl k = k)
    (hlo : |t.curve.lo| ≤ M) (hhi : |t.curve.hi| ≤ M) (hres : 200 * μ * M ≤ min t.tolerance (1 / 20000))
    (hends : ∀ y ∈ t.curve.knots, y ≤ t.curve.lo ∨ t.curve.hi ≤ y) (hsmall : 6 * eps ≤ min t.tolerance (1 / 20000))
    {n : ℕ} (hn : 2 * (t.curve.hi - t.curve.lo) * (61 / 100) ^ n ≤ min t.tolerance (1 / 20000)) : DivisionEnds fl eps rnd n t := by
  have key : ∀ x, PieceInv fl eps 0 rnd M t x → (∀ y ∈ x.curve.knots, y ≤ x.curve.lo ∨ x.curve.hi ≤ y) →
      Rounded.isDividable fl x = .ok true → ∀ pos, ∀ y ∈ x.curve.knots, y ≠ Rounded.splitParam fl x.curve.lo x.curve.hi (rnd pos) ∧
      eps ≤ |y - Rounded.splitParam fl x.curve.lo x.curve.hi (rnd pos)| := by
    intro x hx he hd pos y hy
    have hlong := dividable_long h hμ hx.good hd
    rw [hx.tol] at hlong
    have hdom := hx.good.pre.dom
    obtain ⟨b1, b2⟩ := rounded_splitParam h hμ hdom (hr pos).1 (hr pos).2 hx.lo hx.hi (by linarith)
    have hL := sub_pos.2 hdom
    rcases he y hy with hy | hy
    · refine ⟨by intro hc; rw [← hc] at b1; linarith, ?_⟩
      rw [abs_sub_comm]
      refine le_trans ?_ (le_abs_self _)
      linarith
    · refine ⟨by intro hc; rw [← hc] at b2; linarith, ?_⟩
      refine le_trans ?_ (le_abs_self _)
      linarith
  have all : ∀ x, Reach (Rounded.tree fl eps 0 rnd) t x → PieceInv fl eps 0 rnd M t x ∧ ∀ y ∈ x.curve.knots, y ≤ x.curve.lo ∨ x.curve.hi ≤ y := by
    intro x hx
    have hsplit : ∀ (x : CurveTree K d) (pos : ℕ) (y z : CurveTree K d) (pos' : ℕ), PieceInv fl eps 0 rnd M t x →
        (∀ y ∈ x.curve.knots, y ≤ x.curve.lo ∨ x.curve.hi ≤ y) → Rounded.isDividable fl x = .ok true →
        Rounded.tryDivide fl eps rnd x pos = .ok ((y, z), pos') →
        (PieceInv fl eps 0 rnd M t y ∧ ∀ k ∈ y.curve.knots, k ≤ y.curve.lo ∨ y.curve.hi ≤ k) ∧
        (PieceInv fl eps 0 rnd M t z ∧ ∀ k ∈ z.curve.knots, k ≤ z.curve.lo ∨ z.curve.hi ≤ k) := by
      intro x pos y z pos' hp he hd e
      obtain ⟨a, b, e', pa, pb, -, -, q1, q2, q3, hk⟩ := divide_piece h hμ hi h1 heps hr hres hp hd pos (key x hp he hd pos)
      rw [e'] at e
      obtain ⟨e1, -⟩ := Prod.mk.inj (Except.ok.inj e)
      obtain ⟨rfl, rfl⟩ := Prod.mk.inj e1
      have da := pa.good.pre.dom
      have db := pb.good.pre.dom
      refine ⟨⟨pa, fun k hk' => ?_⟩, ⟨pb, fun k hk' => ?_⟩⟩
      · rcases hk k (Or.inl hk') with rfl | hm
        · exact Or.inr le_rfl
        · rcases he k hm with hc | hc
          · left; rw [q1]; exact hc
          · right; rw [← q3] at hc; exact (q2.le.trans db.le).trans hc
      · rcases hk k (Or.inr hk') with rfl | hm
        · left; exact q2.le
        · rcases he k hm with hc | hc
          · left; rw [← q1] at hc; exact hc.trans (da.le.trans q2.le)
          · right; rw [q3]; exact hc
    induction hx with
    | root => exact ⟨⟨.root, hg, hks, rfl, hlo, hhi⟩, hends⟩
    | @left x y z r r' _ hd e ih => exact (hsplit x r y z r' ih.1 ih.2 hd e).1
    | @right x y z r r' _ hd e ih => exact (hsplit x r y z r' ih.1 ih.2 hd e).2
  exact C122_ends (big := 0) h hμ hi h1 heps hr hg hks hlo hhi hres (fun x pos hx hd => key x (all x hx).1 (all x hx).2 hd pos) hn

/-! ### Coarse parameters: the division never ends -/

/-- The clamped parameter. -/
theorem rounded_trySplit_clamp {c : Curve K ((Fin d → K) × K)} (hg : c.Good eps) (u : K) :
    ∃ v, c.lo ≤ v ∧ v ≤ c.hi ∧ (v = u ∨ v = c.lo ∨ v = c.hi) ∧ Rounded.trySplit fl eps c u = Rounded.trySplit fl eps c v := by
  have hdom := hg.pre.dom
  have hcl : ∀ u, Knots.clamp c.knots c.degree u = .ok (if u < c.lo then c.lo else if c.hi < u then c.hi else u) := by
    intro u
    have := knotsDomain_eq hg
    rw [Curve.knotsDomain] at this
    rw [Knots.clamp, this, ok_bind]
    rfl
  obtain ⟨v, hv⟩ : ∃ v, v = (if u < c.lo then c.lo else if c.hi < u then c.hi else u) := ⟨_, rfl⟩
  have hb : c.lo ≤ v ∧ v ≤ c.hi ∧ (v = u ∨ v = c.lo ∨ v = c.hi) := by
    rw [hv]
    split_ifs with h1 h2
    · exact ⟨le_rfl, hdom.le, Or.inr (Or.inl rfl)⟩
    · exact ⟨hdom.le, le_rfl, Or.inr (Or.inr rfl)⟩
    · exact ⟨not_lt.1 h1, not_lt.1 h2, Or.inl rfl⟩
  refine ⟨v, hb.1, hb.2.1, hb.2.2, ?_⟩
  unfold Rounded.trySplit
  rw [hcl u, hcl v, ok_bind, ok_bind, ← hv, if_neg (not_lt.2 hb.1), if_neg (not_lt.2 hb.2.1)]

/-- **Coarse parameters: the division never ends.**  If any two different numbers of the format in the range of the knots are at least
    twice the tolerance (and the snapping distance `eps`) apart, there is no bound on the divisions one below the other, whatever the
    random numbers are. -/
theorem C122_never_ends (h : Rounds fl μ) (hμ : μ ≤ 1 / 1000) (hi : ∀ x, fl (fl x) = fl x) (h1 : fl 1 = 1) (heps : fl eps = eps) {A B tol : K}
    (htol : 0 < tol) (hgap : ∀ x y, fl x = x → fl y = y → A ≤ x → x < y → y ≤ B → 2 * tol ≤ y - x ∧ eps ≤ y - x) :
    ∀ (n : ℕ) (t : CurveTree K d), t.curve.Good eps → (∀ k ∈ t.curve.knots, fl k = k ∧ A ≤ k ∧ k ≤ B) → t.tolerance = tol →
      ¬ DivisionEnds fl eps rnd n t := by
  have dividable : ∀ t : CurveTree K d, t.curve.Good eps → (∀ k ∈ t.curve.knots, fl k = k ∧ A ≤ k ∧ k ≤ B) → t.tolerance = tol →
      Rounded.isDividable fl t = .ok true := by
    intro t hg hks ht
    have hl := hg.knots_len
    have hlo : t.curve.lo ∈ t.curve.knots := by
      rw [Curve.lo, kf_eq (by have := hg.cps_pos; omega)]; exact List.getElem_mem _
    have hhi : t.curve.hi ∈ t.curve.knots := by
      rw [Curve.hi, kf_eq (by omega)]; exact List.getElem_mem _
    have hL := hgap _ _ (hks _ hlo).1 (hks _ hhi).1 (hks _ hlo).2.1 hg.pre.dom (hks _ hhi).2.2
    have e := abs_le.1 (h.err (t.curve.hi - t.curve.lo))
    have hL0 : 0 < t.curve.hi - t.curve.lo := sub_pos.2 hg.pre.dom
    rw [abs_of_pos hL0] at e
    have hb : μ * (t.curve.hi - t.curve.lo) ≤ 1 / 1000 * (t.curve.hi - t.curve.lo) := mul_le_mul_of_nonneg_right hμ hL0.le
    rw [isDividable_rounded hg, ht]
    have : tol < fl (t.curve.hi - t.curve.lo) := by linarith [e.1, hL.1]
    simp [this]
  intro n
  induction n with
  | zero =>
    intro t hg hks ht hE
    rw [DivisionEnds, dividable t hg hks ht] at hE
    cases hE
  | succ n ih =>
    intro t hg hks ht hE
    have hdv := dividable t hg hks ht
    rw [DivisionEnds, hdv] at hE
    rcases hE with hE | ⟨-, hE⟩
    · cases hE
    · obtain ⟨a, b, pos', e, ea, eb⟩ := hE 0
      have hl := hg.knots_len
      have hlo : t.curve.lo ∈ t.curve.knots := by
        rw [Curve.lo, kf_eq (by have := hg.cps_pos; omega)]; exact List.getElem_mem _
      have hhi : t.curve.hi ∈ t.curve.knots := by
        rw [Curve.hi, kf_eq (by omega)]; exact List.getElem_mem _
      obtain ⟨v, v1, v2, v3, ev⟩ := rounded_trySplit_clamp (fl := fl) hg (Rounded.splitParam fl t.curve.lo t.curve.hi (rnd 0))
      have hv : fl v = v := by
        rcases v3 with rfl | rfl | rfl
        · exact splitParam_fixed hi _ _ _
        · exact (hks _ hlo).1
        · exact (hks _ hhi).1
      have hvA : A ≤ v := (hks _ hlo).2.1.trans v1
      have hvB : v ≤ B := v2.trans (hks _ hhi).2.2
      have hsep : ∀ y ∈ t.curve.knots, |y - v| < eps → y = v := by
        intro y hy hlt
        obtain ⟨y1, y2, y3⟩ := hks y hy
        rcases lt_trichotomy y v with hc | hc | hc
        · have := (hgap y v y1 hv y2 hc hvB).2
          rw [abs_sub_comm, abs_of_pos (sub_pos.2 hc)] at hlt
          exact absurd hlt (not_lt.2 this)
        · exact hc
        · have := (hgap v y hv y1 hvA hc y3).2
          rw [abs_of_pos (sub_pos.2 hc)] at hlt
          exact absurd hlt (not_lt.2 this)
      obtain ⟨l, r, es, d1, d2, hk, hlg, hrg⟩ := rounded_split h h1 heps hg (fun k hk => (hks k hk).1) v1 v2 hsep
      rw [Rounded.tryDivide, knotsDomain_eq hg, ok_bind] at e
      simp only at e
      rw [ev, es, ok_bind] at e
      obtain ⟨e1, -⟩ := Prod.mk.inj (Except.ok.inj e)
      obtain ⟨rfl, rfl⟩ := Prod.mk.inj e1
      have hst : ∀ k, k ∈ l.knots ∨ k ∈ r.knots → fl k = k ∧ A ≤ k ∧ k ≤ B := by
        intro k hk'
        rcases hk k hk' with rfl | hm
        · exact ⟨hv, hvA, hvB⟩
        · exact hks k hm
      rcases v2.eq_or_lt with hc | hc
      · exact ih ⟨l, t.tolerance⟩ (hlg fun _ => hc).1 (fun k hk' => hst k (Or.inl hk')) ht ea
      · exact ih ⟨r, t.tolerance⟩ (hrg hc).1 (fun k hk' => hst k (Or.inr hk')) ht eb

/-! ### Double precision -/

section double

variable [FloorRing K]

theorem one_fixed {fl : K → K} (h : Nearest (Binary64 K) fl) : fl 1 = 1 := h.fix ⟨1, 0, by norm_num, by simp⟩

theorem mu_small : ((2 : K) ^ 53)⁻¹ ≤ 1 / 1000 := by
  rw [inv_le_comm₀ (by positivity) (by norm_num)]
  norm_num

/-- Doubles from `2^60` on are multiples of `2^7`. -/
theorem large_doubles {x : K} (hx : x ∈ Binary64 K) (h : 2 ^ 60 ≤ x) : ∃ k : ℤ, x = k * 2 ^ 7 := by
  obtain ⟨m, e, hm, rfl⟩ := hx
  have he : 7 ≤ e := by
    by_contra hc
    push Not at hc
    have h1 : (m : K) ≤ 2 ^ 53 := by
      have := (le_abs_self m).trans hm
      exact_mod_cast this
    have h2 : (2 : K) ^ e ≤ 2 ^ (6 : ℤ) := zpow_le_zpow_right₀ (by norm_num) (by omega)
    have h3 : (m : K) * 2 ^ e ≤ 2 ^ 53 * 2 ^ (6 : ℤ) := mul_le_mul h1 h2 (zpow_nonneg (by norm_num) _) (by norm_num)
    have h4 : (2 : K) ^ 53 * 2 ^ (6 : ℤ) < 2 ^ 60 := by norm_num
    linarith
  obtain ⟨j, rfl⟩ : ∃ j : ℕ, e = 7 + j := ⟨(e - 7).toNat, by omega⟩
  refine ⟨m * 2 ^ j, ?_⟩
  rw [zpow_add₀ (by norm_num)]
  push_cast
  rw [zpow_natCast]
  norm_num
  ring

theorem large_gap {x y : K} (hx : x ∈ Binary64 K) (hy : y ∈ Binary64 K) (h : 2 ^ 60 ≤ x) (hxy : x < y) : 128 ≤ y - x := by
  obtain ⟨k, rfl⟩ := large_doubles hx h
  obtain ⟨l, rfl⟩ := large_doubles hy (h.trans hxy.le)
  have hkl : (k : K) < l := lt_of_mul_lt_mul_right hxy (by positivity)
  have hkl' : k + 1 ≤ l := by exact_mod_cast hkl
  have : (k : K) + 1 ≤ l := by exact_mod_cast hkl'
  nlinarith

/-- **In double precision with the default tolerance**: every well formed curve with a domain of length up to 4096 and knots between
    `2^60` and `2^61` is divided again and again without end. -/
theorem C122_default_tolerance {fl : K → K} (h : Nearest (Binary64 K) fl) (heps : eps ∈ Binary64 K) (heps' : eps ≤ 128)
    {c : Curve K ((Fin d → K) × K)} (hg : c.Good eps) (hks : ∀ k ∈ c.knots, k ∈ Binary64 K ∧ 2 ^ 60 ≤ k ∧ k ≤ 2 ^ 61)
    (hlen : c.hi - c.lo ≤ 4096) : ∃ t, Rounded.newTree fl c none = .ok t ∧ ∀ n, ¬ DivisionEnds fl eps rnd n t := by
  have hR := C99_nearest h
  refine ⟨⟨c, fl (fl (c.hi - c.lo) / 64)⟩, by rw [Rounded.newTree, knotsDomain_eq hg]; rfl, fun n => ?_⟩
  have hL := sub_pos.2 hg.pre.dom
  have hl : 0 < fl (c.hi - c.lo) := (hR.rel hL.le).pos hR.rho_pos hL
  have ht0 : 0 < fl (fl (c.hi - c.lo) / 64) := (hR.rel (by positivity)).pos hR.rho_pos (by positivity)
  have ht1 : fl (fl (c.hi - c.lo) / 64) ≤ 64 := by
    have e1 : fl (4096 : K) = 4096 := h.fix ⟨4096, 0, by norm_num, by norm_num⟩
    have e2 : fl (64 : K) = 64 := h.fix ⟨64, 0, by norm_num, by norm_num⟩
    rw [← e2]
    have := hR.mono _ _ hlen
    rw [e1] at this
    exact hR.mono _ _ (by rw [e2]; linarith)
  refine C122_never_ends (A := 2 ^ 60) (B := 2 ^ 61) hR mu_small (fun x => h.fix (h x).1) (one_fixed h) (h.fix heps) ht0 ?_ n _ hg
    (fun k hk => ⟨h.fix (hks k hk).1, (hks k hk).2⟩) rfl
  intro x y hx hy hA hxy _
  have := large_gap (K := K) (by rw [← hx]; exact (h x).1) (by rw [← hy]; exact (h y).1) hA hxy
  exact ⟨by linarith, heps'.trans this⟩

end double

/-! ### Witnesses -/

theorem exBezA_good' : exBezA.Good (1 / 2 ^ 52) where
  cps_pos := by decide
  knots_len := by decide
  good := by
    refine ⟨by norm_num, by decide, ?_, ?_, ?_, ?_, ?_⟩
    · intro i j hij hj
      exact (by decide +kernel : ∀ i ≤ 5, ∀ j ≤ 5, i ≤ j → kf exBezA.knots i ≤ kf exBezA.knots j)
        i (by have : j ≤ 5 := hj; omega) j hj hij
    all_goals simp [exBezA, kf]; try norm_num

/-- The parabola of `exBezA` with the default tolerance `1 / 64`: at most 22 divisions one below the other. -/
example {rnd : ℕ → ℚ} (hr : ∀ n, 0 ≤ rnd n ∧ rnd n ≤ 1) : DivisionEnds fl64 (1 / 2 ^ 52) rnd 22 (⟨exBezA, 1 / 64⟩ : CurveTree ℚ 2) := by
  have hlo : exBezA.lo = 0 := by decide +kernel
  have hhi : exBezA.hi = 1 := by decide +kernel
  have hk : ∀ k ∈ exBezA.knots, k = 0 ∨ k = 1 := by decide +kernel
  refine C122_bezier (M := 1) (C99_nearest fl64_nearest) mu_small fl64_idem (one_fixed fl64_nearest)
    (fl64_nearest.fix ⟨1, -52, by norm_num, by norm_num⟩) hr exBezA_good' ?_ (by simp [hlo]) (by simp [hhi]) ?_ ?_ ?_ ?_
  · intro k hk'
    rcases hk k hk' with rfl | rfl
    · exact fl64_nearest.fix ⟨0, 0, by norm_num, by norm_num⟩
    · exact one_fixed fl64_nearest
  · norm_num
  · intro k hk'
    simp only [hlo, hhi]
    rcases hk k hk' with rfl | rfl
    · exact Or.inl le_rfl
    · exact Or.inr le_rfl
  · norm_num
  · simp only [hlo, hhi]; norm_num

/-- A segment far out in its parameters. -/
def exCoarse : Curve ℚ ((Fin 2 → ℚ) × ℚ) where
  degree := 1
  cps := [(![0, 0], 1), (![4, 1], 1)]
  knots := [2 ^ 60, 2 ^ 60, 2 ^ 60 + 4096, 2 ^ 60 + 4096]

theorem exCoarse_good : exCoarse.Good (1 / 2 ^ 52) where
  cps_pos := by decide
  knots_len := by decide
  good := by
    refine ⟨by norm_num, by decide, ?_, ?_, ?_, ?_, ?_⟩
    · intro i j hij hj
      exact (by decide +kernel : ∀ i ≤ 3, ∀ j ≤ 3, i ≤ j → kf exCoarse.knots i ≤ kf exCoarse.knots j)
        i (by have : j ≤ 3 := hj; omega) j hj hij
    all_goals simp [exCoarse, kf]; try norm_num

example {rnd : ℕ → ℚ} : ∃ t, Rounded.newTree fl64 exCoarse none = .ok t ∧ ∀ n, ¬ DivisionEnds fl64 (1 / 2 ^ 52) rnd n t := by
  refine C122_default_tolerance fl64_nearest ⟨1, -52, by norm_num, by norm_num⟩ (by norm_num) exCoarse_good ?_ ?_
  · intro k hk
    have : k = 2 ^ 60 ∨ k = 2 ^ 60 + 4096 := by revert k; decide +kernel
    rcases this with rfl | rfl
    · exact ⟨⟨1, 60, by norm_num, by norm_num⟩, by norm_num, by norm_num⟩
    · exact ⟨⟨2 ^ 48 + 1, 12, by norm_num, by norm_num⟩, by norm_num, by norm_num⟩
  · have hlo : exCoarse.lo = 2 ^ 60 := by decide +kernel
    have hhi : exCoarse.hi = 2 ^ 60 + 4096 := by decide +kernel
    rw [hlo, hhi]; norm_num

end Curvo.Props

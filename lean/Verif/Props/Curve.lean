/-
  Property theorems about curve construction, evaluation and simple edits:
  C08, C09, C11, C12, C13, C14, C15, C16, C60, C61.
-/
import Mathlib.Data.List.Sort
import Mathlib.Algebra.BigOperators.Pi
import Mathlib.Algebra.Order.BigOperators.Group.Finset
import Verif.Lemmas.Curve

set_option linter.unusedSectionVars false

namespace Curvo.Props

open Curvo Curvo.Knots Curvo.Spec Curvo.Curve

variable {K : Type} [Field K] [LinearOrder K] [IsStrictOrderedRing K]
variable {V W : Type} [AddCommGroup V] [Module K V] [AddCommGroup W] [Module K W]

/-- Witness: a rational quadratic plane curve with a double interior knot. -/
def exCurve : Curve ℚ ((ℚ × ℚ) × ℚ) where
  degree := 2
  cps := [((0, 0), 1), ((2, 4), 2), ((3, 1), 1), ((4, 4), 1/2), ((5, 0), 1), ((6, 3), 3)]
  knots := exKnots

theorem exCurve_good : exCurve.Good (1/1000) where
  cps_pos := by simp [exCurve]
  knots_len := by simp [exCurve, exKnots]
  good := exKnots_good

theorem exCurve_cont : ContKnots (kf exCurve.knots) exCurve.degree (exCurve.cps.length - 1) := by
  intro i h1 h2
  have h1' : 2 < i := h1
  have h2' : i + 2 ≤ 5 := h2
  obtain rfl : i = 3 := by omega
  norm_num [exCurve, kf, exKnots]

theorem exCurve_lo : exCurve.lo = 0 := by norm_num [exCurve, Curve.lo, kf, exKnots]
theorem exCurve_hi : exCurve.hi = 3 := by norm_num [exCurve, Curve.hi, kf, exKnots]

/-! ### C08 -/

/-- Construction succeeds exactly on well sized input (any other input is an error, not a panic). -/
theorem C08_try_new_iff (degree : ℕ) (cps : List V) (knots : List K) :
    ((∃ c, tryNew degree cps knots = .ok c) ↔
      degree < cps.length ∧ knots.length = cps.length + degree + 1) ∧
    (¬ (degree < cps.length ∧ knots.length = cps.length + degree + 1) →
      tryNew degree cps knots = .error .err) := by
  unfold tryNew
  constructor
  · constructor
    · rintro ⟨c, h⟩
      split at h
      · simp at h
      · split at h
        · simp at h
        · rename_i h1 h2; exact ⟨by simpa using h1, by simpa using h2⟩
    · rintro ⟨h1, h2⟩
      exact ⟨_, by rw [if_neg (by simpa using h1), if_neg (by simpa using h2)]; rfl⟩
  · intro h
    split
    · rfl
    · rename_i h1
      rw [if_pos]
      intro h2
      exact h ⟨by simpa using h1, h2⟩

/-- The constructed curve keeps degree and control points, and its knots are the given ones sorted. -/
theorem C08_try_new_result {degree : ℕ} {cps : List V} {knots : List K} {c : Curve K V}
    (h : tryNew degree cps knots = .ok c) :
    c.degree = degree ∧ c.cps = cps ∧ c.knots.Perm knots ∧ c.knots.Pairwise (· ≤ ·) ∧
      c.degree < c.cps.length ∧ c.knots.length = c.cps.length + c.degree + 1 := by
  have hsz := (C08_try_new_iff degree cps knots).1.1 ⟨c, h⟩
  unfold tryNew at h
  rw [if_neg (by simpa using hsz.1), if_neg (by simpa using hsz.2)] at h
  have h := (Except.ok.inj h).symm
  subst h
  have hperm := List.mergeSort_perm knots (fun a b => decide (a ≤ b))
  refine ⟨rfl, rfl, hperm, ?_, hsz.1, by simpa using hsz.2⟩
  have := List.pairwise_mergeSort (le := fun a b : K => decide (a ≤ b))
    (fun a b c => by simpa using le_trans) (fun a b => by simpa using le_total a b) knots
  exact this.imp (by simp)

example : ∃ c, tryNew 1 [(0 : ℚ), 5, 7] [(0 : ℚ), 2, 1, 0, 2] = .ok c ∧ c.knots.Pairwise (· ≤ ·) := by
  obtain ⟨c, h⟩ := (C08_try_new_iff 1 [(0 : ℚ), 5, 7] [(0 : ℚ), 2, 1, 0, 2]).1.2 (by simp)
  exact ⟨c, h, (C08_try_new_result h).2.2.2.1⟩

/-! ### C09 -/

/-- Homogeneous evaluation is the B-spline sum over all control points; no panic, nothing non finite. -/
theorem C09_point_is_bspline_sum {eps : K} {c : Curve K V} {u : K} (h : c.Good eps) (h1 : c.lo ≤ u)
    (h2 : u ≤ c.hi) :
    c.point eps u = .ok ((Finset.range c.cps.length).sum fun i =>
      N (kf c.knots) c.hi c.degree i u • c.cps.getD i 0) := by
  rw [point_eq_eval h h1 h2, eval, curve, hi_eq h, Nat.sub_add_cancel h.cps_pos]

/-- The affine point is that sum divided by its weight; it panics exactly when the weight is zero. -/
theorem C09_point_at {eps : K} {c : Curve K (W × K)} {u : K} (h : c.Good eps) (h1 : c.lo ≤ u)
    (h2 : u ≤ c.hi) :
    c.pointAt eps u = if (c.eval u).2 = 0 then .error .panic else .ok ((c.eval u).2⁻¹ • (c.eval u).1) := by
  rw [pointAt, point_eq_eval h h1 h2]
  simp only [ok_bind, dehomogenize]
  split <;> simp_all [unwrapR]

theorem eval_weight_pos {eps : K} {c : Curve K (W × K)} {u : K} (h : c.Good eps) (h1 : c.lo ≤ u)
    (h2 : u ≤ c.hi) (hw : ∀ p ∈ c.cps, 0 < p.2) : 0 < (c.eval u).2 := by
  obtain ⟨s, _, hps, hsn, hin⟩ := h.exists_span h1 h2
  have hpos := h.cps_pos
  rw [eval_eq_span h hps hsn hin, Prod.snd_sum]
  have hnn : ∀ r ∈ Finset.range (c.degree + 1),
      0 ≤ NS (kf c.knots) s c.degree (s - c.degree + r) u := by
    intro r hr
    have := Finset.mem_range.1 hr
    exact NS_nonneg h.good.mono (inSpan_le hin).1 (inSpan_le hin).2 _ _ (by omega)
  have hsum := NS_sum_eq_one (k := kf c.knots) u c.degree hps
    (fun i j hi hj hj' => ne_across h.good.mono (inSpan_lt hin) i j hi hj (by omega))
  have hwr : ∀ r ∈ Finset.range (c.degree + 1), 0 < (c.cps.getD (s - c.degree + r) 0).2 := by
    intro r hr
    have := Finset.mem_range.1 hr
    have hlt : s - c.degree + r < c.cps.length := by omega
    rw [List.getD_eq_getElem?_getD, List.getElem?_eq_getElem hlt]
    exact hw _ (List.getElem_mem _)
  have hex : ∃ r ∈ Finset.range (c.degree + 1), 0 < NS (kf c.knots) s c.degree (s - c.degree + r) u := by
    by_contra hcon
    push Not at hcon
    have : (Finset.range (c.degree + 1)).sum (fun r => NS (kf c.knots) s c.degree (s - c.degree + r) u) ≤ 0 :=
      Finset.sum_nonpos hcon
    rw [hsum] at this
    exact absurd this (not_le.2 one_pos)
  apply Finset.sum_pos'
  · intro r hr
    simpa using mul_nonneg (hnn r hr) (hwr r hr).le
  · obtain ⟨r, hr, hr'⟩ := hex
    exact ⟨r, hr, by simpa using mul_pos hr' (hwr r hr)⟩

/-- With positive weights evaluation always succeeds. -/
theorem C09_point_at_positive_weights {eps : K} {c : Curve K (W × K)} {u : K} (h : c.Good eps)
    (hw : ∀ p ∈ c.cps, 0 < p.2) (h1 : c.lo ≤ u) (h2 : u ≤ c.hi) :
    c.pointAt eps u = .ok ((c.eval u).2⁻¹ • (c.eval u).1) ∧ 0 < (c.eval u).2 := by
  have := eval_weight_pos h h1 h2 hw
  exact ⟨by rw [C09_point_at h h1 h2, if_neg this.ne'], this⟩

theorem exCurve_weights : ∀ p ∈ exCurve.cps, 0 < p.2 := by
  simp [exCurve]

example : ∃ q, exCurve.pointAt (1/1000) (5/2) = .ok q :=
  ⟨_, (C09_point_at_positive_weights exCurve_good exCurve_weights
    (by rw [exCurve_lo]; norm_num) (by rw [exCurve_hi]; norm_num)).1⟩

/-! ### C11 -/

/-- A curve whose first `degree + 1` knots coincide starts at its first control point. -/
theorem C11_clamped_start {eps : K} {c : Curve K V} (h : c.Good eps)
    (hclamp : kf c.knots 0 = kf c.knots c.degree) :
    c.point eps c.lo = .ok (c.cps.getD 0 0) := by
  have hpos := h.cps_pos
  have hle := h.good.le
  have hlohi : c.lo < c.hi := by
    refine lt_of_lt_of_le h.good.first ?_
    rw [← hi_eq h]; exact h.good.mono _ _ (by omega) (by omega)
  rw [point_eq_eval h (le_refl _) hlohi.le]
  have hin : InSpan (kf c.knots) c.hi c.lo c.degree := by
    rw [InSpan, if_neg hlohi.ne]; exact ⟨le_refl _, h.good.first⟩
  rw [eval_eq_NS h h.good.le hin]
  have hd : ∀ i, NS (kf c.knots) c.degree c.degree i c.lo = if i + c.degree = c.degree then 1 else 0 :=
    NS_right_delta (m := c.degree + 1) (fun j _ hj => by
      apply le_antisymm
      · exact h.good.mono _ _ hj (by omega)
      · show kf c.knots c.degree ≤ _
        rw [← hclamp]; exact h.good.mono _ _ (by omega) (by omega))
      h.good.first.ne' _ (by omega) (le_refl _)
  simp only [hd, Nat.add_eq_right]
  rw [Finset.sum_eq_single 0]
  · simp
  · intro i _ hi; simp [hi]
  · intro h0; exact absurd (Finset.mem_range.2 hpos) h0

/-- A curve whose last `degree + 1` knots coincide ends at its last control point. -/
theorem C11_clamped_end {eps : K} {c : Curve K V} (h : c.Good eps)
    (hclamp : kf c.knots c.cps.length = kf c.knots (c.cps.length + c.degree)) :
    c.point eps c.hi = .ok (c.cps.getD (c.cps.length - 1) 0) := by
  have hpos := h.cps_pos
  have hlohi : c.lo ≤ c.hi := by
    have := h.good.le
    rw [← hi_eq h]; exact h.good.mono _ _ (by omega) (by omega)
  have hlast : kf c.knots (c.cps.length - 1) < c.hi := by
    have := h.good.last; rwa [hi_eq h] at this
  rw [point_eq_eval h hlohi (le_refl _)]
  have hin : InSpan (kf c.knots) c.hi c.hi (c.cps.length - 1) := by
    rw [InSpan, if_pos rfl, hi_eq h]
    exact ⟨hlast, le_refl _⟩
  rw [eval_eq_NS h (le_refl _) hin]
  have hd : ∀ i, NS (kf c.knots) (c.cps.length - 1) c.degree i c.hi =
      if i = c.cps.length - 1 then 1 else 0 :=
    NS_left_delta (m := c.degree + 1) (fun j hj hj' => by
      apply le_antisymm
      · show _ ≤ kf c.knots c.cps.length
        rw [hclamp]; exact h.good.mono _ _ (by omega) (by omega)
      · exact h.good.mono _ _ (by omega) (by omega))
      hlast.ne _ (by omega)
  simp only [hd]
  rw [Finset.sum_eq_single (c.cps.length - 1)]
  · simp
  · intro i _ hi; simp [hi]
  · intro h0; exact absurd (Finset.mem_range.2 (by omega)) h0

example : exCurve.point (1/1000) exCurve.lo = .ok ((0, 0), 1) ∧
    exCurve.point (1/1000) exCurve.hi = .ok ((6, 3), 3) :=
  ⟨C11_clamped_start exCurve_good (by norm_num [exCurve, kf, exKnots]),
   C11_clamped_end exCurve_good (by norm_num [exCurve, kf, exKnots])⟩

/-! ### C12 -/

/-- Replacing control point `j` does not change the curve outside its knot interval. -/
theorem C12_local_control {eps : K} {c : Curve K V} {u : K} (h : c.Good eps) (h1 : c.lo ≤ u)
    (h2 : u ≤ c.hi) (j : ℕ) (q : V)
    (hout : u < kf c.knots j ∨ (kf c.knots (j + c.degree + 1) ≤ u ∧ u ≠ c.hi) ∨
      kf c.knots (j + c.degree + 1) < u) (hj : j < c.cps.length) :
    ({ c with cps := c.cps.set j q } : Curve K V).point eps u = c.point eps u := by
  obtain ⟨c', hc'⟩ : ∃ c', c' = ({ c with cps := c.cps.set j q } : Curve K V) := ⟨_, rfl⟩
  have hlen : c'.cps.length = c.cps.length := by rw [hc']; simp
  have hk : c'.knots = c.knots := by rw [hc']
  have hd : c'.degree = c.degree := by rw [hc']
  have hhi : c'.hi = c.hi := by rw [hi, hi, hlen, hk]
  have hg : c'.Good eps := by
    constructor
    · rw [hlen]; exact h.cps_pos
    · rw [hlen, hk, hd]; exact h.knots_len
    · rw [hlen, hk, hd]; exact h.good
  obtain ⟨s, _, hps, hsn, hin⟩ := h.exists_span h1 h2
  have hpos := h.cps_pos
  rw [← hc', point_eq_eval h h1 h2, point_eq_eval hg (by rw [lo, hk, hd]; exact h1) (by rw [hhi]; exact h2),
    eval_eq_NS h hsn hin, eval_eq_NS hg (s := s) (by rw [hlen]; exact hsn) (by rw [hk, hhi]; exact hin), hlen, hk, hd]
  congr 1
  apply Finset.sum_congr rfl
  intro i hi
  have hil := Finset.mem_range.1 hi
  by_cases hij : i = j
  · subst hij
    have hzero : NS (kf c.knots) s c.degree i u = 0 := by
      have hle := inSpan_le hin
      rcases hout with ho | ho | ho
      · apply NS_eq_zero_right
        by_contra hc
        have := h.good.mono i s (by omega) (by omega)
        exact absurd (lt_of_le_of_lt (le_trans this hle.1) ho) (lt_irrefl _)
      · apply NS_eq_zero_left
        rw [InSpan, if_neg ho.2] at hin
        by_contra hc
        have := h.good.mono (s + 1) (i + c.degree + 1) (by omega) (by omega)
        exact absurd (lt_of_lt_of_le hin.2 (le_trans this ho.1)) (lt_irrefl _)
      · apply NS_eq_zero_left
        by_contra hc
        have := h.good.mono (s + 1) (i + c.degree + 1) (by omega) (by omega)
        exact absurd (lt_of_le_of_lt (le_trans hle.2 this) ho) (lt_irrefl _)
    rw [hzero]; simp
  · congr 1
    rw [hc']
    simp only [List.getD_eq_getElem?_getD]
    rw [List.getElem?_set_ne (Ne.symm hij)]

example : ({ exCurve with cps := exCurve.cps.set 1 ((9, 9), 5) } : Curve ℚ _).point (1/1000) 2 =
    exCurve.point (1/1000) 2 :=
  C12_local_control exCurve_good (by rw [exCurve_lo]; norm_num) (by rw [exCurve_hi]; norm_num) 1 _
    (Or.inr (Or.inl ⟨by norm_num [exCurve, kf, exKnots], by rw [exCurve_hi]; norm_num⟩)) (by simp [exCurve])

/-! ### C13 -/

/-- Inverting succeeds, keeps well-formedness, and mirrors the parametrisation. -/
theorem C13_invert_reverses {eps : K} {c : Curve K V} (h : c.Good eps)
    (hcont : ContKnots (kf c.knots) c.degree (c.cps.length - 1)) :
    ∃ c', c.invert = .ok c' ∧ c'.Good eps ∧ c'.degree = c.degree ∧
      (let m := kf c.knots 0 + kf c.knots (c.knots.length - 1)
       c'.lo = m - c.hi ∧ c'.hi = m - c.lo ∧
       ∀ u, c.lo ≤ u → u ≤ c.hi → c'.point eps (m - u) = c.point eps u) := by
  have hpos := h.cps_pos
  have hkl := h.knots_len
  have hne : c.knots ≠ [] := by intro he; rw [he] at hkl; simp at hkl
  have hinv := C07_invert_mirror hne
  obtain ⟨ks', hks'⟩ : ∃ ks', Knots.invert c.knots = .ok ks' := ⟨_, hinv⟩
  obtain ⟨hlen, hidx⟩ := C07_invert_index hks'
  obtain ⟨c', hc'⟩ : ∃ c', c' = ({ c with cps := c.cps.reverse, knots := ks' } : Curve K V) := ⟨_, rfl⟩
  have hk : c'.knots = ks' := by rw [hc']
  have hd : c'.degree = c.degree := by rw [hc']
  have hcl : c'.cps.length = c.cps.length := by rw [hc']; simp
  generalize hm : kf c.knots 0 + kf c.knots (c.knots.length - 1) = m at hidx
  have hle := h.good.le
  have hg : c'.Good eps := by
    refine ⟨by omega, by rw [hk, hcl, hd, hlen, hkl], ?_⟩
    rw [hk, hd, hcl]
    have e0 : c.cps.length - 1 + c.degree + 1 = c.knots.length - 1 := by omega
    refine ⟨h.good.eps_nonneg, h.good.le, ?_, ?_, ?_, ?_, ?_⟩
    · intro i j hij hj
      rw [hidx i (by omega), hidx j (by omega)]
      have := h.good.mono (c.knots.length - 1 - j) (c.knots.length - 1 - i) (by omega) (by omega)
      linarith
    · rw [hidx _ (by omega), hidx _ (by omega)]
      have := h.good.last
      have e1 : c.knots.length - 1 - c.degree = c.cps.length - 1 + 1 := by omega
      have e2 : c.knots.length - 1 - (c.degree + 1) = c.cps.length - 1 := by omega
      rw [e1, e2]; linarith
    · rw [hidx _ (by omega), hidx _ (by omega)]
      have := h.good.first
      have e1 : c.knots.length - 1 - (c.cps.length - 1) = c.degree + 1 := by omega
      have e2 : c.knots.length - 1 - (c.cps.length - 1 + 1) = c.degree := by omega
      rw [e1, e2]; linarith
    · rw [hidx _ (by omega), hidx _ (by omega)]
      have := h.good.last_gap
      have e1 : c.knots.length - 1 - c.degree = c.cps.length - 1 + 1 := by omega
      have e2 : c.knots.length - 1 - (c.degree + 1) = c.cps.length - 1 := by omega
      rw [e1, e2]; linarith
    · rw [hidx _ (by omega), hidx _ (by omega)]
      have := h.good.first_gap
      have e1 : c.knots.length - 1 - (c.cps.length - 1) = c.degree + 1 := by omega
      have e2 : c.knots.length - 1 - (c.cps.length - 1 + 1) = c.degree := by omega
      rw [e1, e2]; linarith
  have hcont' : ContKnots (kf c'.knots) c'.degree (c'.cps.length - 1) := by
    rw [hk, hd, hcl]
    intro i h1 h2
    rw [hidx _ (by omega), hidx _ (by omega)]
    have := hcont (c.knots.length - 1 - (i + c.degree)) (by omega) (by omega)
    have e : c.knots.length - 1 - (i + c.degree) + c.degree = c.knots.length - 1 - i := by omega
    rw [e] at this
    linarith
  have hlo' : c'.lo = m - c.hi := by
    rw [lo, hk, hd, hidx _ (by omega), hi]
    have : c.knots.length - 1 - c.degree = c.cps.length := by omega
    rw [this]
  have hhi' : c'.hi = m - c.lo := by
    rw [hi, hk, hcl, hidx _ (by omega), lo]
    have : c.knots.length - 1 - c.cps.length = c.degree := by omega
    rw [this]
  refine ⟨c', by rw [Curve.invert, hks', hc']; rfl, hg, hd, hlo', hhi', ?_⟩
  intro u h1 h2
  rw [point_eq_eval h h1 h2, point_eq_eval hg (by rw [hlo']; linarith) (by rw [hhi']; linarith)]
  obtain ⟨s, _, hps, hsn, hin⟩ := h.exists_span h1 h2
  have hs1 := inSpan_le hin
  have hs2 := inSpan_lt hin
  have hidx' : ∀ j, j ≤ c.knots.length - 1 → kf ks' j = m - kf c.knots (c.knots.length - 1 - j) :=
    fun j hj => hidx j (by omega)
  have ea : c.knots.length - 1 - (c.knots.length - 1 - 1 - s) = s + 1 := by omega
  have eb : c.knots.length - 1 - (c.knots.length - 1 - 1 - s + 1) = s := by omega
  rw [eval_eq_closed_span hg hcont' (s := c.knots.length - 1 - 1 - s) (by omega) (by omega)
    (by rw [hk, hidx _ (by omega), hidx _ (by omega), ea, eb]; linarith)
    (by rw [hk, hidx _ (by omega), ea]; linarith) (by rw [hk, hidx _ (by omega), eb]; linarith),
    eval_eq_NS h hsn hin, hcl, ← Finset.sum_range_reflect]
  congr 1
  apply Finset.sum_congr rfl
  intro i hi
  have hil := Finset.mem_range.1 hi
  rw [hk, hd, NS_mirror hidx' (by omega) c.degree _ (by omega)]
  have e1 : c.knots.length - 1 - 1 - c.degree - (c.cps.length - 1 - i) = i := by omega
  rw [e1]
  congr 1
  rw [hc']
  simp only [List.getD_eq_getElem?_getD]
  rw [List.getElem?_reverse (by omega)]
  congr 2; omega

/-- Inverting twice gives back the curve. -/
theorem C13_invert_involutive {c c' : Curve K V} (h : c.invert = .ok c') : c'.invert = .ok c := by
  rw [Curve.invert, bind_eq_ok] at h
  obtain ⟨ks', h1, h2⟩ := h
  have h2 := (Except.ok.inj h2).symm
  subst h2
  rw [Curve.invert]
  simp only [C07_invert_involutive h1, ok_bind, pure_eq_ok, List.reverse_reverse]

example : ∃ c', exCurve.invert = .ok c' ∧ c'.point (1/1000) (0 + 3 - 1/2) = exCurve.point (1/1000) (1/2) := by
  obtain ⟨c', h1, _, _, _, _, h2⟩ := C13_invert_reverses exCurve_good exCurve_cont
  refine ⟨c', h1, ?_⟩
  have := h2 (1/2) (by rw [exCurve_lo]; norm_num) (by rw [exCurve_hi]; norm_num)
  rw [← this]
  norm_num [exCurve, kf, exKnots]

end Curvo.Props

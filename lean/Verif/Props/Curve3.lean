/-
  Property theorems about polylines and periodic curves: C17, C18.
-/
import Mathlib.Tactic.Module
import Verif.Props.Curve2

set_option linter.unusedSectionVars false

namespace Curvo.Props

open Curvo.Knots Curvo.Spec Curvo.Curve

variable {K : Type} [Field K] [LinearOrder K]
variable {W : Type} [AddCommGroup W] [Module K W]

/-! ### C17 -/

/-- Chord length from the first vertex to vertex `i` (specification). -/
def chordLength (dist : W → W → K) (pts : List W) (i : ℕ) : K :=
  (Finset.range i).sum fun j => dist (pts.getD j 0) (pts.getD (j + 1) 0)

theorem chordGo_length (dist : W → W → K) : ∀ (pts : List W) (acc : K),
    (chordGo dist acc pts).length = pts.length - 1
  | [], _ => rfl
  | [_], _ => rfl
  | p :: q :: rest, acc => by
    rw [chordGo, List.length_cons, chordGo_length dist (q :: rest)]; simp

theorem chordGo_getElem? (dist : W → W → K) : ∀ (pts : List W) (acc : K) (i : ℕ), i + 1 < pts.length →
    (chordGo dist acc pts)[i]? = some (acc + chordLength dist pts (i + 1))
  | [], _, i, h => by simp at h
  | [_], _, i, h => by simp at h
  | p :: q :: rest, acc, 0, _ => by simp [chordGo, chordLength]
  | p :: q :: rest, acc, i + 1, h => by
    rw [chordGo, List.getElem?_cons_succ, chordGo_getElem? dist (q :: rest) _ i (by simpa using h)]
    simp only [chordLength]
    rw [Finset.sum_range_succ' _ (i + 1)]
    simp only [List.getD_cons_succ, List.getD_cons_zero, zero_add]
    congr 1; ring

theorem chordTotal_eq (dist : W → W → K) (pts : List W) (h : 0 < pts.length) :
    chordTotal dist pts = chordLength dist pts (pts.length - 1) := by
  rw [chordTotal, List.getLast_eq_getElem]
  simp only [List.length_cons, chordGo_length, Nat.add_sub_cancel]
  by_cases h1 : pts.length = 1
  · simp [h1, chordLength]
  · have h2 : pts.length - 1 = (pts.length - 2) + 1 := by omega
    have := chordGo_getElem? dist pts 0 (pts.length - 2) (by omega)
    rw [List.getElem?_eq_some_iff] at this
    obtain ⟨hlt, he⟩ := this
    simp only [h2, List.getElem_cons_succ]
    rw [he, zero_add]

theorem polyKnots (dist : W → W → K) (pts : List W) (h : 2 ≤ pts.length) :
    let ks := [0, 0] ++ chordGo dist 0 pts ++ [chordTotal dist pts]
    ks.length = pts.length + 2 ∧ kf ks 0 = 0 ∧
    (∀ i, i < pts.length → kf ks (i + 1) = chordLength dist pts i) ∧
    kf ks (pts.length + 1) = chordLength dist pts (pts.length - 1) := by
  have hl := chordGo_length dist pts 0
  refine ⟨by simp [hl]; omega, by simp [kf], ?_, ?_⟩
  · intro i hi
    cases i with
    | zero => simp [kf, chordLength]
    | succ i =>
      simp only [kf, List.cons_append, List.nil_append, List.getD_cons_succ]
      rw [List.getD_eq_getElem?_getD, List.getElem?_append_left (by omega),
        chordGo_getElem? dist pts 0 i (by omega)]
      simp
  · simp only [kf, List.cons_append, List.nil_append]
    rw [List.getD_cons_succ]
    obtain ⟨m, hm⟩ : ∃ m, pts.length = m + 1 := ⟨pts.length - 1, by omega⟩
    rw [hm, List.getD_cons_succ, List.getD_eq_getElem?_getD, List.getElem?_append_right (by omega)]
    have : m - (chordGo dist 0 pts).length = 0 := by omega
    rw [this]
    simp [chordTotal_eq dist pts (by omega), hm]

variable [IsStrictOrderedRing K]

/-- A degree one curve on strictly increasing knots `τ` is the polygon through its points. -/
theorem poly_eval {eps : K} (he : 0 ≤ eps) {pts : List W} (h2 : 2 ≤ pts.length) {ks : List K}
    {τ : ℕ → K} (hlen : ks.length = pts.length + 2) (hk0 : kf ks 0 = τ 0)
    (hk : ∀ i, i < pts.length → kf ks (i + 1) = τ i) (hke : kf ks (pts.length + 1) = τ (pts.length - 1))
    (hτ : ∀ i, i + 1 < pts.length → τ i < τ (i + 1)) (hg1 : τ 0 + eps ≤ τ 1)
    (hg2 : τ (pts.length - 2) + eps ≤ τ (pts.length - 1)) :
    let c : Curve K (W × K) := { degree := 1, knots := ks, cps := pts.map homogenize }
    c.Good eps ∧ ContKnots (kf c.knots) c.degree (c.cps.length - 1) ∧
      c.lo = τ 0 ∧ c.hi = τ (pts.length - 1) ∧
      ∀ i, i + 1 < pts.length → ∀ u, τ i ≤ u → u ≤ τ (i + 1) →
        c.pointAt eps u = .ok (pts.getD i 0 + ((u - τ i) / (τ (i + 1) - τ i)) •
          (pts.getD (i + 1) 0 - pts.getD i 0)) := by
  intro c
  have hcl : c.cps.length = pts.length := by simp [c]
  have hstep : ∀ i, i + 1 ≤ pts.length + 1 → kf ks i ≤ kf ks (i + 1) := by
    intro i hi
    cases i with
    | zero => rw [hk0, hk 0 (by omega)]
    | succ i =>
      by_cases h : i + 1 < pts.length
      · rw [hk i (by omega), hk (i + 1) h]; exact (hτ i h).le
      · have : i = pts.length - 1 := by omega
        rw [hk i (by omega)]
        have e : i + 1 + 1 = pts.length + 1 := by omega
        rw [e, hke, this]
  have hmono : MonoUpTo (kf ks) (pts.length + 1) := by
    intro i j hij hj
    induction j with
    | zero => have : i = 0 := by omega
              rw [this]
    | succ j ih =>
      rcases Nat.lt_or_eq_of_le hij with h | h
      · exact le_trans (ih (by omega) (by omega)) (hstep j (by omega))
      · rw [h]
  have hg : c.Good eps := by
    refine ⟨by omega, by simp [c, hlen], ?_⟩
    rw [hcl]
    show GoodKnots eps (kf ks) 1 (pts.length - 1)
    have e1 : pts.length - 1 = pts.length - 2 + 1 := by omega
    refine ⟨he, by omega, ?_, ?_, ?_, ?_, ?_⟩
    · have : pts.length - 1 + 1 + 1 = pts.length + 1 := by omega
      rw [this]; exact hmono
    · rw [hk 0 (by omega), hk 1 (by omega)]; exact hτ 0 (by omega)
    · rw [hk (pts.length - 1) (by omega), e1, hk (pts.length - 2) (by omega)]
      exact hτ _ (by omega)
    · rw [hk 0 (by omega), hk 1 (by omega)]; exact hg1
    · rw [hk (pts.length - 1) (by omega)]
      conv_lhs => rw [e1, hk (pts.length - 2) (by omega)]
      exact hg2
  have hcont : ContKnots (kf c.knots) c.degree (c.cps.length - 1) := by
    rw [hcl]
    show ContKnots (kf ks) 1 (pts.length - 1)
    intro i h1 h3
    obtain ⟨j, rfl⟩ : ∃ j, i = j + 1 := ⟨i - 1, by omega⟩
    rw [hk j (by omega), hk (j + 1) (by omega)]
    exact hτ j (by omega)
  have hlo : c.lo = τ 0 := hk 0 (by omega)
  have hhi : c.hi = τ (pts.length - 1) := by
    show kf ks c.cps.length = _
    rw [hcl]
    have : pts.length = pts.length - 1 + 1 := by omega
    conv_lhs => rw [this]
    exact hk _ (by omega)
  refine ⟨hg, hcont, hlo, hhi, ?_⟩
  intro i hi u hu1 hu2
  have hki : kf ks (i + 1) = τ i := hk i (by omega)
  have hki1 : kf ks (i + 1 + 1) = τ (i + 1) := hk (i + 1) hi
  have hlt := hτ i hi
  have hτm : ∀ i j, i ≤ j → j < pts.length → τ i ≤ τ j := by
    intro i j hij hj
    rw [← hk i (by omega), ← hk j hj]; exact hmono _ _ (by omega) (by omega)
  have hev : c.eval u = (pts.getD i 0 + ((u - τ i) / (τ (i + 1) - τ i)) •
          (pts.getD (i + 1) 0 - pts.getD i 0), 1) := by
    rw [eval_eq_closed_span hg hcont (s := i + 1) (by show 1 ≤ _; omega) (by omega)
      (by show kf ks _ < kf ks _; rw [hki, hki1]; exact hlt) (by show kf ks _ ≤ _; rw [hki]; exact hu1)
      (by show _ ≤ kf ks _; rw [hki1]; exact hu2),
      sum_NS_window (fun j => c.cps.getD j 0) (by show 1 ≤ _; omega) (by omega)]
    show (Finset.range 2).sum (fun r => NS (kf ks) (i + 1) 1 (i + 1 - 1 + r) u • c.cps.getD (i + 1 - 1 + r) 0) = _
    rw [Finset.sum_range_succ, Finset.sum_range_succ, Finset.sum_range_zero]
    simp only [Nat.add_sub_cancel, NS, zero_add, add_zero]
    have hget : ∀ j, j < pts.length → c.cps.getD j 0 = (pts.getD j 0, (1 : K)) := by
      intro j hj
      simp [c, List.getD_eq_getElem?_getD, List.getElem?_map, List.getElem?_eq_getElem hj, homogenize]
    rw [hget i (by omega), hget (i + 1) hi, if_neg (by omega), if_pos trivial, if_neg (by omega),
      hki, show i + 2 = i + 1 + 1 by omega, hki1]
    have hne : τ (i + 1) - τ i ≠ 0 := sub_ne_zero.2 hlt.ne'
    have hw : (τ (i + 1) - u) / (τ (i + 1) - τ i) = 1 - (u - τ i) / (τ (i + 1) - τ i) := by
      field_simp; ring
    rw [hw]
    generalize (u - τ i) / (τ (i + 1) - τ i) = t
    apply Prod.ext
    · simp only [Prod.fst_add, Prod.smul_fst, mul_zero, mul_one, zero_add, add_zero, sub_smul, one_smul,
        smul_sub, Prod.fst_sub]
      module
    · simp
  rw [C09_point_at hg (by rw [hlo]; exact le_trans (hτm 0 i (by omega) (by omega)) hu1)
    (by rw [hhi]; exact le_trans hu2 (hτm _ _ (by omega) (by omega))), hev]
  simp

/-- Polyline with chord length knots: on the `i`-th chord interval the curve is the straight segment
    from vertex `i` to vertex `i + 1`; in particular it passes through all vertices. -/
theorem C17_polyline {eps : K} (he : 0 ≤ eps) (dist : W → W → K) {pts : List W} (h2 : 2 ≤ pts.length)
    (hpos : ∀ i, i + 1 < pts.length → 0 < dist (pts.getD i 0) (pts.getD (i + 1) 0))
    (hg1 : eps ≤ dist (pts.getD 0 0) (pts.getD 1 0))
    (hg2 : eps ≤ dist (pts.getD (pts.length - 2) 0) (pts.getD (pts.length - 1) 0)) :
    ∃ c, polyline dist pts false = .ok c ∧ c.Good eps ∧ c.lo = 0 ∧
      c.hi = chordLength dist pts (pts.length - 1) ∧
      (∀ i, i + 1 < pts.length → ∀ u, chordLength dist pts i ≤ u → u ≤ chordLength dist pts (i + 1) →
        c.pointAt eps u = .ok (pts.getD i 0 +
          ((u - chordLength dist pts i) / (chordLength dist pts (i + 1) - chordLength dist pts i)) •
          (pts.getD (i + 1) 0 - pts.getD i 0))) ∧
      ∀ i, i < pts.length → c.pointAt eps (chordLength dist pts i) = .ok (pts.getD i 0) := by
  obtain ⟨h1, h3, h4, h5⟩ := polyKnots dist pts h2
  have hsucc : ∀ i, chordLength dist pts (i + 1) =
      chordLength dist pts i + dist (pts.getD i 0) (pts.getD (i + 1) 0) := by
    intro i; simp [chordLength, Finset.sum_range_succ]
  have hτ : ∀ i, i + 1 < pts.length → chordLength dist pts i < chordLength dist pts (i + 1) := by
    intro i hi; rw [hsucc]; have := hpos i hi; linarith
  obtain ⟨k1, k2, k3, k4, k5⟩ := poly_eval (W := W) he h2 h1 (τ := chordLength dist pts)
    (by rw [h3]; simp [chordLength]) h4 h5 hτ
    (by rw [hsucc 0]; simpa [chordLength] using hg1)
    (by
      have e : pts.length - 1 = pts.length - 2 + 1 := by omega
      rw [e, hsucc]; rw [e] at hg2; linarith)
  refine ⟨_, by rw [polyline, subR_eq_ok (by omega)]; rfl, k1, by rw [k3]; simp [chordLength], k4, k5, ?_⟩
  intro i hi
  by_cases hlast : i + 1 < pts.length
  · rw [k5 i hlast _ (le_refl _) (hτ i hlast).le]; simp
  · obtain ⟨j, rfl⟩ : ∃ j, i = j + 1 := ⟨i - 1, by omega⟩
    have hne := sub_ne_zero.2 (hτ j hi).ne'
    rw [k5 j hi _ (hτ j hi).le (le_refl _), div_self hne]; simp

/-- Normalised polyline: the same with all parameters divided by the total chord length. -/
theorem C17_polyline_normalized {eps : K} (he : 0 ≤ eps) (dist : W → W → K) {pts : List W}
    (h2 : 2 ≤ pts.length)
    (hpos : ∀ i, i + 1 < pts.length → 0 < dist (pts.getD i 0) (pts.getD (i + 1) 0))
    (hg1 : eps * chordLength dist pts (pts.length - 1) ≤ dist (pts.getD 0 0) (pts.getD 1 0))
    (hg2 : eps * chordLength dist pts (pts.length - 1) ≤
      dist (pts.getD (pts.length - 2) 0) (pts.getD (pts.length - 1) 0)) :
    ∃ c, polyline dist pts true = .ok c ∧ c.Good eps ∧ c.lo = 0 ∧ c.hi = 1 ∧
      ∀ i, i < pts.length →
        c.pointAt eps (chordLength dist pts i / chordLength dist pts (pts.length - 1)) =
          .ok (pts.getD i 0) := by
  obtain ⟨h1, h3, h4, h5⟩ := polyKnots dist pts h2
  have hsucc : ∀ i, chordLength dist pts (i + 1) =
      chordLength dist pts i + dist (pts.getD i 0) (pts.getD (i + 1) 0) := by
    intro i; simp [chordLength, Finset.sum_range_succ]
  have hτ : ∀ i, i + 1 < pts.length → chordLength dist pts i < chordLength dist pts (i + 1) := by
    intro i hi; rw [hsucc]; have := hpos i hi; linarith
  have htot : 0 < chordLength dist pts (pts.length - 1) := by
    apply Finset.sum_pos
    · intro j hj; exact hpos j (by have := Finset.mem_range.1 hj; omega)
    · exact ⟨0, Finset.mem_range.2 (by omega)⟩
  generalize hT : chordLength dist pts (pts.length - 1) = tot at *
  have hct : chordTotal dist pts = tot := by rw [chordTotal_eq dist pts (by omega), hT]
  rw [hct] at h1 h3 h4 h5
  have hlen : (([0, 0] ++ chordGo dist 0 pts ++ [tot]).map (fun k => k / tot)).length = pts.length + 2 := by
    rw [List.length_map]; exact h1
  have hmap : ∀ j, j < pts.length + 2 →
      kf (([0, 0] ++ chordGo dist 0 pts ++ [tot]).map (fun k => k / tot)) j =
        kf ([0, 0] ++ chordGo dist 0 pts ++ [tot]) j / tot := by
    intro j hj; rw [kf_map (fun k => k / tot) (by rw [h1]; exact hj)]
  have hτ' : ∀ i, i + 1 < pts.length → chordLength dist pts i / tot < chordLength dist pts (i + 1) / tot :=
    fun i hi => div_lt_div_of_pos_right (hτ i hi) htot
  obtain ⟨k1, k2, k3, k4, k5⟩ := poly_eval (W := W) he h2 hlen (τ := fun i => chordLength dist pts i / tot)
    (by rw [hmap 0 (by omega), h3]; simp [chordLength])
    (fun i hi => by rw [hmap _ (by omega), h4 i hi])
    (by rw [hmap _ (by omega), h5]; simp only [hT]) hτ'
    (by
      rw [← le_sub_iff_add_le', ← sub_div, le_div_iff₀ htot, hsucc 0]
      simpa [chordLength] using hg1)
    (by
      have e : pts.length - 1 = pts.length - 2 + 1 := by omega
      rw [← le_sub_iff_add_le', ← sub_div, le_div_iff₀ htot, e, hsucc]
      rw [e] at hg2; linarith)
  refine ⟨_, ?_, k1, by rw [k3]; simp [chordLength],
    by rw [k4]; simp only [hT]; exact div_self htot.ne', fun i hi => ?_⟩
  · rw [polyline, subR_eq_ok (by omega)]
    simp only [ok_bind, if_true, hct]
    rw [mapM_ok (g := fun k => k / tot) (fun x _ => divR_eq_ok htot.ne')]
    rfl
  · by_cases hlast : i + 1 < pts.length
    · rw [k5 i hlast _ (le_refl _) (hτ' i hlast).le]; simp
    · obtain ⟨j, rfl⟩ : ∃ j, i = j + 1 := ⟨i - 1, by omega⟩
      have hne := sub_ne_zero.2 (hτ' j hi).ne'
      rw [k5 j hi _ (hτ' j hi).le (le_refl _), div_self hne]; simp

/-- No points: panic. All points equal: normalising divides by zero. -/
theorem C17_degenerate (dist : W → W → K) :
    polyline dist [] true = .error .panic ∧ polyline dist [] false = .error .panic ∧
    ∀ pts : List W, pts ≠ [] → chordLength dist pts (pts.length - 1) = 0 →
      polyline dist pts true = .error .nonfinite := by
  refine ⟨rfl, rfl, ?_⟩
  intro pts hne h0
  have hpos := List.length_pos_of_ne_nil hne
  rw [polyline, subR_eq_ok (by omega)]
  simp only [ok_bind, if_true, chordTotal_eq dist pts hpos, h0]
  rw [mapM_error (e := .nonfinite) (by simp) (fun x _ => by simp [divR])]
  rfl

/-- Witness: taxicab distances of a three point polyline. -/
example : ∃ c, polyline (fun a b : ℚ => |b - a|) [0, 3, 1] false = .ok c ∧
    c.pointAt (1/1000) 3 = .ok 3 ∧ c.pointAt (1/1000) 5 = .ok 1 := by
  obtain ⟨c, h1, _, _, _, _, h2⟩ := C17_polyline (W := ℚ) (eps := (1/1000 : ℚ)) (by norm_num)
    (fun a b : ℚ => |b - a|) (pts := [0, 3, 1]) (by simp)
    (by
      intro i hi
      have : i = 0 ∨ i = 1 := by simp at hi; omega
      rcases this with rfl | rfl <;> norm_num)
    (by norm_num) (by norm_num)
  refine ⟨c, h1, ?_, ?_⟩
  · have := h2 1 (by simp); norm_num [chordLength, Finset.sum_range_succ] at this; exact this
  · have := h2 2 (by simp); norm_num [chordLength, Finset.sum_range_succ] at this; exact this

/-! ### C18 -/

theorem kf_natRange {m j : ℕ} (hj : j < m) :
    kf ((List.range m).map (fun i : ℕ => (i : K))) j = j := by
  rw [kf_eq (by simpa using hj)]; simp

theorem NS_nat_shift (n : ℕ) {s p i : ℕ} (u : K) :
    NS (fun j => (j : K)) (s + n) p (i + n) (u + n) = NS (fun j => (j : K)) s p i u := by
  rw [← NS_shift (k := fun j => (j : K)) (d := n)]
  have := NS_affine (k := fun j => (j : K)) (s := s) (u := u) (a := 1) (b := (n : K)) one_ne_zero p i
  simp only [one_mul] at this
  rw [← this]
  congr 1
  funext j; push_cast; ring

/-- Construction is rejected exactly for too few points. -/
theorem C18_periodic_iff (pts : List W) (degree : ℕ) :
    ((∃ c : Curve K (W × K), tryPeriodic pts degree = .ok c) ↔ degree + 1 ≤ pts.length) ∧
    (pts.length < degree + 1 → (tryPeriodic pts degree : Res (Curve K (W × K))) = .error .err) := by
  have hok : degree + 1 ≤ pts.length → ∀ i ∈ List.range (pts.length + degree),
      getR pts (i % pts.length) = .ok (pts.getD (i % pts.length) 0) := by
    intro h i _
    exact getR_eq_getD 0 (Nat.mod_lt _ (by omega))
  refine ⟨⟨?_, ?_⟩, ?_⟩
  · rintro ⟨c, hc⟩
    by_contra h
    simp only [tryPeriodic] at hc
    rw [if_pos (by omega)] at hc; simp at hc
  · intro h
    exact ⟨_, by simp only [tryPeriodic]; rw [if_neg (by omega), mapM_ok (hok h)]; rfl⟩
  · intro h; simp only [tryPeriodic]; rw [if_pos h]

/-- The periodic curve is good, is defined on `[degree, degree + n]`, all its weights are one, and
    evaluation at both ends of the domain gives the same point. -/
theorem C18_periodic_closed {eps : K} (he : 0 ≤ eps) (he1 : eps ≤ 1) {pts : List W} {degree : ℕ}
    (hd : 1 ≤ degree) (hn : degree + 1 ≤ pts.length) :
    ∃ c : Curve K (W × K), tryPeriodic pts degree = .ok c ∧ c.Good eps ∧
      c.lo = degree ∧ c.hi = degree + pts.length ∧
      ∃ q, c.pointAt eps c.lo = .ok q ∧ c.pointAt eps c.hi = .ok q := by
  have hok : ∀ i ∈ List.range (pts.length + degree),
      getR pts (i % pts.length) = .ok (pts.getD (i % pts.length) 0) := by
    intro i _
    exact getR_eq_getD 0 (Nat.mod_lt _ (by omega))
  obtain ⟨c, hc⟩ : ∃ c, c = ({
      degree := degree,
      cps := ((List.range (pts.length + degree)).map fun i => pts.getD (i % pts.length) 0).map homogenize,
      knots := (List.range (pts.length + 1 + degree * 2)).map (fun i : ℕ => (i : K)) } : Curve K (W × K)) :=
    ⟨_, rfl⟩
  have htp : tryPeriodic pts degree = .ok c := by
    simp only [tryPeriodic]; rw [if_neg (by omega), mapM_ok hok, hc]; rfl
  have hcl : c.cps.length = pts.length + degree := by rw [hc]; simp
  have hkl : c.knots.length = pts.length + 1 + degree * 2 := by rw [hc]; simp
  have hdeg : c.degree = degree := by rw [hc]
  have hk : ∀ j, j < pts.length + 1 + degree * 2 → kf c.knots j = j := by
    intro j hj; rw [hc]; exact kf_natRange hj
  have hg : c.Good eps := by
    refine ⟨by omega, by rw [hkl, hcl, hdeg]; omega, ?_⟩
    rw [hdeg, hcl]
    refine ⟨he, by omega, ?_, ?_, ?_, ?_, ?_⟩
    · intro i j hij hj
      rw [hk _ (by omega), hk _ (by omega)]; exact_mod_cast hij
    · rw [hk _ (by omega), hk _ (by omega)]; push_cast; linarith
    · rw [hk _ (by omega), hk _ (by omega)]; push_cast; linarith
    · rw [hk _ (by omega), hk _ (by omega)]; push_cast; linarith
    · rw [hk _ (by omega), hk _ (by omega)]; push_cast; linarith
  have hlo : c.lo = degree := by rw [lo, hdeg, hk _ (by omega)]
  have hhi : c.hi = degree + pts.length := by rw [hi, hcl, hk _ (by omega)]; push_cast; ring
  have hw : ∀ p ∈ c.cps, 0 < p.2 := by
    intro p hp
    rw [hc] at hp
    simp only [List.map_map, List.mem_map] at hp
    obtain ⟨i, _, rfl⟩ := hp
    simp [homogenize]
  have hlohi : c.lo < c.hi := by
    rw [hlo, hhi]
    have : (0 : K) < pts.length := by exact_mod_cast (by omega : 0 < pts.length)
    linarith
  have hget : ∀ j, j < pts.length + degree → c.cps.getD j 0 = (pts.getD (j % pts.length) 0, (1 : K)) := by
    intro j hj
    rw [hc]
    simp only [List.map_map]
    rw [List.getD_eq_getElem?_getD, List.getElem?_map, List.getElem?_range hj]
    rfl
  refine ⟨c, htp, hg, hlo, hhi, ?_⟩
  have heq : c.eval c.lo = c.eval c.hi := by
    have hin1 : InSpan (kf c.knots) c.hi c.lo degree := by
      rw [InSpan, if_neg hlohi.ne, hk _ (by omega), hk _ (by omega), hlo]
      push_cast
      exact ⟨le_refl _, by linarith⟩
    have hin2 : InSpan (kf c.knots) c.hi c.hi (pts.length + degree - 1) := by
      rw [InSpan, if_pos rfl, hk _ (by omega), hk _ (by omega), hhi]
      have e : pts.length + degree - 1 + 1 = pts.length + degree := by omega
      rw [e]
      rw [Nat.cast_sub (by omega)]
      push_cast
      constructor <;> linarith
    rw [eval_eq_NS hg (by rw [hcl]; omega) hin1, eval_eq_NS hg (s := pts.length + degree - 1) (by rw [hcl]) hin2,
      hdeg, hcl, hhi, hlo,
      sum_NS_window (fun j => c.cps.getD j 0) (le_refl _) (by omega),
      sum_NS_window (fun j => c.cps.getD j 0) (by omega) (by omega)]
    have hcong : ∀ s i u, i + degree + 1 < pts.length + 1 + degree * 2 →
        NS (kf c.knots) s degree i u = NS (fun j => (j : K)) s degree i u := by
      intro s i u hi
      exact NS_congr _ _ (fun j _ hj => hk j (by omega))
    -- the sum on the right, written with the first span shifted by one period
    have hcont : ∀ i, NS (fun j => (j : K)) (pts.length + degree - 1) degree i (degree + pts.length) =
        NS (fun j => (j : K)) (degree + pts.length) degree i ((degree : K) + pts.length) := by
      intro i
      symm
      apply NS_cont
      · omega
      · intro j h1 h2
        have : j = degree + pts.length := by omega
        rw [this]; push_cast; rfl
      · intro he
        have : ((pts.length + degree - 1 : ℕ) : K) = ((degree + pts.length : ℕ) : K) := by
          rw [he]; push_cast; rfl
        have := Nat.cast_injective (R := K) this
        omega
      · intro he
        have : ((degree + pts.length + 1 : ℕ) : K) = ((degree + pts.length : ℕ) : K) := by
          rw [he]; push_cast; rfl
        have := Nat.cast_injective (R := K) this
        omega
      · omega
    have hfirst : ((Finset.range (degree + 1)).sum fun r =>
        NS (kf c.knots) degree degree (degree - degree + r) (degree : K) • c.cps.getD (degree - degree + r) 0) =
        ((Finset.range (degree + 1)).sum fun r =>
          NS (fun j => (j : K)) (degree + pts.length) degree (r + pts.length) ((degree : K) + pts.length) •
            ((pts.getD (r % pts.length) 0, (1 : K)) : W × K)) := by
      apply Finset.sum_congr rfl
      intro r hr
      have := Finset.mem_range.1 hr
      rw [NS_nat_shift, Nat.sub_self, zero_add, hcong _ _ _ (by omega), hget r (by omega)]
    have hsecond : ((Finset.range (degree + 1)).sum fun r =>
        NS (kf c.knots) (pts.length + degree - 1) degree (pts.length + degree - 1 - degree + r)
          ((degree : K) + pts.length) • c.cps.getD (pts.length + degree - 1 - degree + r) 0) =
        ((Finset.range (degree + 1)).sum fun r =>
          NS (fun j => (j : K)) (degree + pts.length) degree (pts.length + r - 1) ((degree : K) + pts.length) •
            ((pts.getD ((pts.length + r - 1) % pts.length) 0, (1 : K)) : W × K)) := by
      apply Finset.sum_congr rfl
      intro r hr
      have := Finset.mem_range.1 hr
      have e : pts.length + degree - 1 - degree + r = pts.length + r - 1 := by omega
      rw [e, hcong _ _ _ (by omega), hcont, hget _ (by omega)]
    rw [hfirst, hsecond, Finset.sum_range_succ (n := degree), Finset.sum_range_succ' (n := degree)]
    have z1 : NS (fun j => (j : K)) (degree + pts.length) degree (degree + pts.length)
        ((degree : K) + pts.length) = 0 := by
      rw [← hcont]; exact NS_eq_zero_right _ _ _ _ _ (by omega)
    have z2 : NS (fun j => (j : K)) (degree + pts.length) degree (pts.length + 0 - 1)
        ((degree : K) + pts.length) = 0 := NS_eq_zero_left _ _ _ _ _ (by omega)
    rw [z1, z2]
    simp only [zero_smul, add_zero]
    apply Finset.sum_congr rfl
    intro r hr
    have := Finset.mem_range.1 hr
    have e1 : pts.length + (r + 1) - 1 = r + pts.length := by omega
    rw [e1, Nat.add_mod_right]
  have hs := C09_point_at_positive_weights hg hw (le_refl _) hlohi.le
  have ht := C09_point_at_positive_weights hg hw hlohi.le (le_refl _)
  exact ⟨_, hs.1, by rw [ht.1, heq]⟩

example : ∃ c : Curve ℚ ((ℚ × ℚ) × ℚ), tryPeriodic [(0, 0), (1, 0), (1, 1), (0, 1)] 3 = .ok c ∧
    ∃ q, c.pointAt (1/1000) c.lo = .ok q ∧ c.pointAt (1/1000) c.hi = .ok q := by
  obtain ⟨c, h1, _, _, _, h2⟩ := C18_periodic_closed (K := ℚ) (eps := 1/1000) (by norm_num) (by norm_num)
    (pts := [((0 : ℚ), (0 : ℚ)), (1, 0), (1, 1), (0, 1)]) (degree := 3) (by norm_num) (by simp)
  exact ⟨c, h1, h2⟩

end Curvo.Props

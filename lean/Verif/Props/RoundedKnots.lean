/-
  C121: the knot vectors computed from data points, in floating point arithmetic.
-/
import Verif.Model.RoundedKnots
import Verif.Props.Periodic
import Verif.Props.RoundedBox

set_option linter.unusedSectionVars false
set_option linter.unusedSimpArgs false

namespace Curvo.Props

open Curvo Curvo.Knots Curvo.Spec

variable {K : Type} [Field K] [LinearOrder K] [IsStrictOrderedRing K] {fl : K → K} {μ : K}
variable {W : Type} [AddCommGroup W] [Module K W]

/-! ### Specification -/

/-- The rounded running sum of `d 0, d 1, …` starting with `acc`. -/
def runSum (fl : K → K) (d : ℕ → K) (acc : K) : ℕ → K
  | 0 => acc
  | i + 1 => fl (runSum fl d acc i + d i)

/-- A knot vector on the unit interval with full multiplicity at both ends: sorted, `p + 1` knots exactly 0, then knots between 0 and
    1, then `p + 1` knots exactly 1. -/
structure UnitKnots (ks : List K) (p n : ℕ) : Prop where
  length : ks.length = n + p + 1
  sorted : ks.Pairwise (· ≤ ·)
  mem : ∀ k ∈ ks, 0 ≤ k ∧ k ≤ 1
  start : ∀ i, i ≤ p → ks[i]? = some 0
  stop : ∀ i, n ≤ i → i ≤ n + p → ks[i]? = some 1

/-! ### Running sums -/

theorem runSum_shift (d : ℕ → K) (acc : K) : ∀ i, runSum fl d acc (i + 1) = runSum fl (fun j => d (j + 1)) (fl (acc + d 0)) i
  | 0 => rfl
  | i + 1 => by rw [runSum, runSum_shift d acc i]; rfl

theorem runSum_id (d : ℕ → K) (acc : K) : ∀ i, runSum (fun x => x) d acc i = acc + (Finset.range i).sum d
  | 0 => by simp [runSum]
  | i + 1 => by rw [runSum, runSum_id d acc i, Finset.sum_range_succ, add_assoc]

theorem runSum_fix (hi : ∀ x, fl (fl x) = fl x) (d : ℕ → K) {acc : K} (ha : fl acc = acc) : ∀ i, fl (runSum fl d acc i) = runSum fl d acc i
  | 0 => ha
  | _ + 1 => hi _

theorem runSum_le_succ (h : Rounds fl μ) (hi : ∀ x, fl (fl x) = fl x) {d : ℕ → K} {acc : K} (ha : fl acc = acc) {i : ℕ} (hd : 0 ≤ d i) :
    runSum fl d acc i ≤ runSum fl d acc (i + 1) := by
  have := h.mono _ _ (show runSum fl d acc i ≤ runSum fl d acc i + d i by linarith)
  rwa [runSum_fix hi d ha i] at this

theorem runSum_mono (h : Rounds fl μ) (hi : ∀ x, fl (fl x) = fl x) {d : ℕ → K} {acc : K} (ha : fl acc = acc) {n : ℕ}
    (hd : ∀ i, i < n → 0 ≤ d i) {i j : ℕ} (hij : i ≤ j) (hj : j ≤ n) : runSum fl d acc i ≤ runSum fl d acc j := by
  induction j, hij using Nat.le_induction with
  | base => exact le_rfl
  | succ j hij ih => exact (ih (by omega)).trans (runSum_le_succ h hi ha (hd j (by omega)))

theorem runSum_le (h : Rounds fl μ) {d d' : ℕ → K} (acc : K) : ∀ n, (∀ i, i < n → d i ≤ d' i) → runSum fl d acc n ≤ runSum fl d' acc n
  | 0, _ => le_rfl
  | n + 1, hd => h.mono _ _ (add_le_add (runSum_le h acc n fun i hi => hd i (by omega)) (hd n (by omega)))

theorem runSum_nat (h : Rounds fl μ) {d : ℕ → K} : ∀ n : ℕ, (∀ m : ℕ, m ≤ n → fl (m : K) = m) → (∀ i, i < n → d i ≤ 1) →
    runSum fl d 0 n ≤ n
  | 0, _, _ => by simp [runSum]
  | n + 1, hN, hd => by
    rw [runSum, ← hN (n + 1) le_rfl]
    refine h.mono _ _ ?_
    push_cast
    exact add_le_add (runSum_nat h n (fun m hm => hN m (by omega)) fun i hi => hd i (by omega)) (hd n (by omega))

theorem runSum_rel (h : Rounds fl μ) {d : ℕ → K} : ∀ n : ℕ, (∀ i, i < n → 0 ≤ d i) → Rel (1 - μ) n ((Finset.range n).sum d) (runSum fl d 0 n)
  | 0, _ => by simpa [runSum] using (Rel.refl (ρ := 1 - μ) le_rfl : Rel (1 - μ) 0 (0 : K) 0)
  | n + 1, hd => by
    rw [Finset.sum_range_succ, runSum]
    refine Rel.round h (Rel.add (runSum_rel h n fun i hi => hd i (by omega)) ?_)
    exact (Rel.refl (hd n (by omega))).mono h.rho_pos h.rho_le (Nat.zero_le n)

/-- The running sum is positive as soon as one term is. -/
theorem runSum_pos (h : Rounds fl μ) {d : ℕ → K} {n : ℕ} (hd : ∀ i, i < n → 0 ≤ d i) (hp : ∃ i, i < n ∧ 0 < d i) : 0 < runSum fl d 0 n := by
  obtain ⟨i, hi, hpi⟩ := hp
  refine (runSum_rel h n hd).pos h.rho_pos ?_
  exact Finset.sum_pos' (fun j hj => hd j (Finset.mem_range.1 hj)) ⟨i, Finset.mem_range.2 hi, hpi⟩

theorem rounded_prefixSums (fl : K → K) (d : ℕ → K) : ∀ (n : ℕ) (acc : K),
    Rounded.prefixSums fl acc ((List.range n).map d) = (List.range n).map fun i => runSum fl d acc (i + 1)
  | 0, _ => rfl
  | n + 1, acc => by
    rw [List.range_succ_eq_map, List.map_cons, Rounded.prefixSums, List.map_map, List.map_cons, List.map_map]
    congr 1
    rw [show (d ∘ Nat.succ) = fun j => d (j + 1) from rfl, rounded_prefixSums fl (fun j => d (j + 1)) n]
    refine List.map_congr_left fun i _ => ?_
    rw [Function.comp, Nat.succ_eq_add_one, runSum_shift d acc (i + 1)]

/-- The distance of the points `i` and `i + 1`. -/
def step (dist : W → W → K) (pts : List W) (i : ℕ) : K := dist (pts.getD i 0) (pts.getD (i + 1) 0)

theorem rounded_chordGo (fl : K → K) (dist : W → W → K) : ∀ (pts : List W) (acc : K),
    Rounded.chordGo fl dist acc pts = (List.range (pts.length - 1)).map fun i => runSum fl (step dist pts) acc (i + 1)
  | [], _ => rfl
  | [_], _ => rfl
  | p :: q :: rest, acc => by
    rw [Rounded.chordGo, rounded_chordGo fl dist (q :: rest)]
    rw [show (p :: q :: rest).length - 1 = rest.length + 1 by simp, List.range_succ_eq_map, List.map_cons, List.map_map]
    congr 1
    rw [show (q :: rest).length - 1 = rest.length by simp]
    refine List.map_congr_left fun i _ => ?_
    rw [Function.comp, Nat.succ_eq_add_one, runSum_shift _ acc (i + 1)]
    rfl

theorem rounded_chords (fl : K → K) (dist : W → W → K) {pts : List W} (hp : 0 < pts.length) :
    0 :: Rounded.chordGo fl dist 0 pts = (List.range pts.length).map (runSum fl (step dist pts) 0) := by
  obtain ⟨n, hn⟩ : ∃ n, pts.length = n + 1 := ⟨pts.length - 1, by omega⟩
  rw [rounded_chordGo, hn, List.range_succ_eq_map, List.map_cons, List.map_map]
  rfl

theorem rounded_total (fl : K → K) (dist : W → W → K) {pts : List W} (hp : 0 < pts.length) :
    Rounded.chordTotal fl dist pts = runSum fl (step dist pts) 0 (pts.length - 1) := by
  unfold Rounded.chordTotal
  simp only [rounded_chords fl dist hp]
  rw [List.getLast_eq_getElem]
  simp

theorem quotient_ok {k acc : K} (h : acc ≠ 0) : Rounded.quotient fl k acc = .ok (fl (k / acc)) := by
  rw [Rounded.quotient, divR_eq_ok h]; rfl

/-! ### Without rounding -/

/-- **Without rounding** these are the knot vectors of the exact model. -/
theorem C121_exact {V : Type} (dist : W → W → K) (pts : List W) (normalize : Bool) (us : List K) (p n : ℕ) (c : Curve K V) :
    (Curve.polyline dist pts normalize).map (·.knots) = Rounded.polylineKnots (fun x => x) dist pts normalize ∧
    Interp.chordParams dist pts = Rounded.chordParams (fun x => x) dist pts ∧
    Interp.averageKnots us p = Rounded.averageKnots (fun x => x) us p ∧
    Interp.periodicKnots us n p = Rounded.periodicKnots (fun x => x) us n p ∧
    c.normalizeKnots = Rounded.normalizeKnots (fun x => x) c := by
  have hq : ∀ k a : K, Rounded.quotient (fun x => x) k a = divR k a := by
    intro k a; rw [Rounded.quotient]; cases divR k a <;> rfl
  have hc : ∀ (l : List W) (acc : K), Rounded.chordGo (fun x => x) dist acc l = Curve.chordGo dist acc l := by
    intro l
    induction l with
    | nil => intro acc; rfl
    | cons a l ih =>
      intro acc
      cases l with
      | nil => rfl
      | cons b l => rw [Rounded.chordGo, Curve.chordGo, ih]
  have hs : ∀ (l : List K) (acc : K), Rounded.prefixSums (fun x => x) acc l = Interp.prefixSums acc l := by
    intro l
    induction l with
    | nil => intro acc; rfl
    | cons a l ih => intro acc; rw [Rounded.prefixSums, Interp.prefixSums, ih]
  refine ⟨?_, ?_, ?_, ?_, ?_⟩
  · unfold Curve.polyline Rounded.polylineKnots Rounded.chordTotal Curve.chordTotal
    simp only [hc, hq]
    cases subR pts.length 1 with
    | error e => rfl
    | ok m =>
      cases normalize with
      | false => rfl
      | true =>
        have key : ∀ x : Res (List K), Except.map (·.knots)
            (x >>= fun ks => (pure { degree := 1, knots := ks, cps := pts.map Curve.homogenize } : Res (Curve K (W × K)))) = x := by
          intro x; cases x <;> rfl
        exact key _
  · simp only [Interp.chordParams, Rounded.chordParams, Interp.chords, hc, hq]
  · simp only [Interp.averageKnots, Rounded.averageKnots, Interp.averageKnot, Rounded.averageKnot, hq]
  · simp only [Interp.periodicKnots, Rounded.periodicKnots, hs]
  · simp only [Curve.normalizeKnots, Rounded.normalizeKnots, hq]

/-! ### Polylines -/

theorem pairwise_map_range {f : ℕ → K} {n : ℕ} (h : ∀ i j, i ≤ j → j < n → f i ≤ f j) : ((List.range n).map f).Pairwise (· ≤ ·) := by
  rw [List.pairwise_map]
  refine (List.pairwise_lt_range (n := n)).imp_of_mem ?_
  intro a b _ hb hab
  exact h a b hab.le (List.mem_range.1 hb)

/-- The normalised running sums lie between 0 and 1, from exactly 0 to exactly 1. -/
theorem runSum_unit (h : Rounds fl μ) (hi : ∀ x, fl (fl x) = fl x) (h1 : fl 1 = 1) {d : ℕ → K} {n : ℕ} (hd : ∀ i, i < n → 0 ≤ d i)
    (hp : ∃ i, i < n ∧ 0 < d i) :
    (∀ i j, i ≤ j → j ≤ n → fl (runSum fl d 0 i / runSum fl d 0 n) ≤ fl (runSum fl d 0 j / runSum fl d 0 n)) ∧
    fl (runSum fl d 0 0 / runSum fl d 0 n) = 0 ∧ fl (runSum fl d 0 n / runSum fl d 0 n) = 1 := by
  have hpos := runSum_pos h hd hp
  refine ⟨fun i j hij hj => h.mono _ _ ?_, ?_, ?_⟩
  · exact div_le_div_of_nonneg_right (runSum_mono h hi h.zero hd hij hj) hpos.le
  · simp [runSum, h.zero]
  · rw [div_self hpos.ne', h1]

theorem unit_mem {f : ℕ → K} {n : ℕ} (hm : ∀ i j, i ≤ j → j ≤ n → f i ≤ f j) (h0 : f 0 = 0) (h1 : f n = 1) {i : ℕ} (hi : i ≤ n) :
    0 ≤ f i ∧ f i ≤ 1 := ⟨h0 ▸ hm 0 i (by omega) hi, h1 ▸ hm i n hi le_rfl⟩

/-- **Polylines** in floating point arithmetic.  The knots are sorted, for any points; the normalised knots run from exactly 0 to
    exactly 1 and none lies outside, if two neighbouring points differ. -/
theorem C121_polyline (h : Rounds fl μ) (hi : ∀ x, fl (fl x) = fl x) (h1 : fl 1 = 1) (dist : W → W → K) {pts : List W}
    (hp : 0 < pts.length) (hd : ∀ a b, 0 ≤ dist a b) :
    (∃ ks, Rounded.polylineKnots fl dist pts false = .ok ks ∧ ks.length = pts.length + 2 ∧ ks.Pairwise (· ≤ ·) ∧ ∀ k ∈ ks, 0 ≤ k) ∧
    ((∃ i, i + 1 < pts.length ∧ 0 < dist (pts.getD i 0) (pts.getD (i + 1) 0)) →
      ∃ ks, Rounded.polylineKnots fl dist pts true = .ok ks ∧ UnitKnots ks 1 pts.length) := by
  have hd' : ∀ i, i < pts.length - 1 → 0 ≤ step dist pts i := fun i _ => hd _ _
  have hshape : ([0, 0] ++ Rounded.chordGo fl dist 0 pts ++ [Rounded.chordTotal fl dist pts] : List K) =
      (List.range (pts.length + 2)).map fun i => runSum fl (step dist pts) 0 (min (i - 1) (pts.length - 1)) := by
    obtain ⟨n, hn⟩ : ∃ n, pts.length = n + 1 := ⟨pts.length - 1, by omega⟩
    rw [rounded_total fl dist hp, show ([0, 0] ++ Rounded.chordGo fl dist 0 pts : List K) = 0 :: (0 :: Rounded.chordGo fl dist 0 pts) from rfl,
      rounded_chords fl dist hp, hn, show List.range (n + 1 + 2) = 0 :: ((List.range (n + 1)).map Nat.succ ++ [n + 2]) by
        rw [List.range_succ_eq_map, List.range_succ (n := n + 1)]; simp]
    simp only [List.map_append, List.map_cons, List.map_map, List.cons_append, List.map_nil]
    congr 2
    · refine List.map_congr_left fun i hi => ?_
      have := List.mem_range.1 hi
      rw [Function.comp]
      congr 1
      omega
    · congr 2
      omega
  have hm : ∀ i j, i ≤ j → j < pts.length + 2 → runSum fl (step dist pts) 0 (min (i - 1) (pts.length - 1)) ≤
      runSum fl (step dist pts) 0 (min (j - 1) (pts.length - 1)) := fun i j hij hj =>
    runSum_mono h hi h.zero hd' (by omega) (by omega)
  constructor
  · refine ⟨_, by rw [Rounded.polylineKnots, subR_eq_ok (by omega), ok_bind]; rfl, ?_, ?_, ?_⟩
    · rw [hshape]; simp
    · rw [hshape]; exact pairwise_map_range hm
    · rw [hshape]
      intro k hk
      obtain ⟨i, -, rfl⟩ := List.mem_map.1 hk
      exact runSum_mono h hi h.zero hd' (Nat.zero_le _) (by omega)
  · rintro ⟨i, hi', hpi⟩
    have hpp : ∃ i, i < pts.length - 1 ∧ 0 < step dist pts i := ⟨i, by omega, hpi⟩
    have hpos := runSum_pos h hd' hpp
    obtain ⟨u1, u2, u3⟩ := runSum_unit h hi h1 hd' hpp
    refine ⟨_, by
      rw [Rounded.polylineKnots, subR_eq_ok (by omega), ok_bind]
      simp only [if_true]
      rw [hshape, rounded_total fl dist hp, mapM_ok (fun k _ => quotient_ok hpos.ne'), List.map_map], ?_⟩
    refine ⟨by simp, pairwise_map_range fun i j hij hj => u1 _ _ (by omega) (by omega), ?_, ?_, ?_⟩
    · intro k hk
      obtain ⟨i, -, rfl⟩ := List.mem_map.1 hk
      exact unit_mem u1 u2 u3 (by omega)
    · intro i hi
      rw [List.getElem?_map, List.getElem?_range (by omega), Option.map_some, Function.comp]
      rw [show min (i - 1) (pts.length - 1) = 0 by omega, u2]
    · intro i hi1 hi2
      rw [List.getElem?_map, List.getElem?_range (by omega), Option.map_some, Function.comp]
      rw [show min (i - 1) (pts.length - 1) = pts.length - 1 by omega, u3]

/-! ### Interpolation -/

theorem rounded_params (h : Rounds fl μ) (dist : W → W → K) {pts : List W} (hd : ∀ a b, 0 ≤ dist a b)
    (hpp : ∃ i, i + 1 < pts.length ∧ 0 < dist (pts.getD i 0) (pts.getD (i + 1) 0)) :
    Rounded.chordParams fl dist pts = .ok ((List.range pts.length).map fun i =>
      fl (runSum fl (step dist pts) 0 i / runSum fl (step dist pts) 0 (pts.length - 1))) := by
  obtain ⟨i, hi, hpi⟩ := hpp
  have hpos := runSum_pos h (d := step dist pts) (n := pts.length - 1) (fun i _ => hd _ _) ⟨i, by omega, hpi⟩
  rw [Rounded.chordParams]
  simp only [rounded_chords fl dist (show 0 < pts.length by omega)]
  rw [subR_eq_ok (by simp; omega), ok_bind, getR_ok_iff.2 (show _ = some (runSum fl (step dist pts) 0 (pts.length - 1)) by
      rw [List.getElem?_map, List.getElem?_range (by simp; omega)]; simp), ok_bind, mapM_ok (fun k _ => quotient_ok hpos.ne'), List.map_map]
  rfl

theorem rounded_average {f : ℕ → K} {n p i : ℕ} (hp : 1 ≤ p) (hi : i + p ≤ n) :
    Rounded.averageKnot fl ((List.range n).map f) p i = .ok (fl (runSum fl (fun j => f (i + j)) 0 p / p)) := by
  rw [Rounded.averageKnot, foldlM_ok (g := fun w j => fl (w + f (i + j)))]
  · rw [ok_bind, quotient_ok (by positivity)]
    congr 3
    have : ∀ m, (List.range m).foldl (fun w j => fl (w + f (i + j))) 0 = runSum fl (fun j => f (i + j)) 0 m := by
      intro m
      induction m with
      | zero => rfl
      | succ m ih => rw [List.range_succ, List.foldl_append, ih]; rfl
    exact this p
  · intro w j hj
    have := List.mem_range.1 hj
    rw [getR_ok_iff.2 (show _ = some (f (i + j)) by rw [List.getElem?_map, List.getElem?_range (by omega)]; rfl)]
    rfl

/-- **Interpolation** in floating point arithmetic: the parameters given to the points run from exactly 0 to exactly 1 and are sorted,
    and so are the knots, which have full multiplicity at both ends and never leave the unit interval. -/
theorem C121_interpolate (h : Rounds fl μ) (hi : ∀ x, fl (fl x) = fl x) {p : ℕ} (hp : 1 ≤ p) (hN : ∀ m : ℕ, m ≤ p → fl (m : K) = m)
    (dist : W → W → K) {pts : List W} (hn : p + 1 ≤ pts.length) (hd : ∀ a b, 0 ≤ dist a b)
    (hpp : ∃ i, i + 1 < pts.length ∧ 0 < dist (pts.getD i 0) (pts.getD (i + 1) 0)) :
    ∃ us ks, Rounded.chordParams fl dist pts = .ok us ∧ us.length = pts.length ∧ us.Pairwise (· ≤ ·) ∧ us[0]? = some 0 ∧
      us[pts.length - 1]? = some 1 ∧ Rounded.averageKnots fl us p = .ok ks ∧ UnitKnots ks p pts.length := by
  have h1 : fl 1 = 1 := by simpa using hN 1 hp
  have hpp' : ∃ i, i < pts.length - 1 ∧ 0 < step dist pts i := by
    obtain ⟨i, a, b⟩ := hpp; exact ⟨i, by omega, b⟩
  obtain ⟨u1, u2, u3⟩ := runSum_unit (n := pts.length - 1) h hi h1 (d := step dist pts) (fun i _ => hd _ _) hpp'
  obtain ⟨f, hf⟩ : ∃ f : ℕ → K, f = fun i => fl (runSum fl (step dist pts) 0 i / runSum fl (step dist pts) 0 (pts.length - 1)) := ⟨_, rfl⟩
  have hfm : ∀ i j, i ≤ j → j ≤ pts.length - 1 → f i ≤ f j := by rw [hf]; exact u1
  have hfu : ∀ i, i ≤ pts.length - 1 → 0 ≤ f i ∧ f i ≤ 1 := fun i hi => unit_mem hfm (by rw [hf]; exact u2) (by rw [hf]; exact u3) hi
  have hp0 : (0 : K) < p := by positivity
  have hA0 : ∀ i, i + p ≤ pts.length → 0 ≤ fl (runSum fl (fun j => f (i + j)) 0 p / p) ∧ fl (runSum fl (fun j => f (i + j)) 0 p / p) ≤ 1 := by
    intro i hip
    constructor
    · exact h.nonneg_of (div_nonneg ((runSum_rel h p fun j hj => (hfu _ (by omega)).1).nonneg h.rho_pos) hp0.le)
    · rw [← h1]
      exact h.mono _ _ ((div_le_one hp0).2 (runSum_nat h p hN fun j hj => (hfu _ (by omega)).2))
  have hAm : ∀ i j, i ≤ j → j + p ≤ pts.length → fl (runSum fl (fun k => f (i + k)) 0 p / p) ≤ fl (runSum fl (fun k => f (j + k)) 0 p / p) :=
    fun i j hij hj => h.mono _ _ (div_le_div_of_nonneg_right (runSum_le h 0 p fun k hk => hfm _ _ (by omega) (by omega)) hp0.le)
  refine ⟨_, List.replicate (p + 1) 0 ++ (List.range (pts.length - p - 1)).map
      (fun k => fl (runSum fl (fun j => f (k + 1 + j)) 0 p / p)) ++ List.replicate (p + 1) 1, rounded_params h dist hd hpp, by simp, pairwise_map_range fun i j hij hj => u1 i j hij (by omega), ?_, ?_, ?_, ?_⟩
  · rw [List.getElem?_map, List.getElem?_range (by omega), Option.map_some, u2]
  · rw [List.getElem?_map, List.getElem?_range (by omega), Option.map_some, u3]
  · rw [Rounded.averageKnots, subR_eq_ok (by simp; omega), ok_bind, ← hf]
    rw [mapM_ok (g := fun k => fl (runSum fl (fun j => f (k + 1 + j)) 0 p / p)), ok_bind]
    · simp
    · intro k hk
      have := List.mem_range.1 hk
      simp only [List.length_map, List.length_range] at this
      exact rounded_average hp (by omega)
  · refine ⟨by simp; omega, ?_, ?_, ?_, ?_⟩
    · rw [List.pairwise_append, List.pairwise_append]
      refine ⟨⟨by simp [List.pairwise_replicate], pairwise_map_range fun i j hij hj => hAm _ _ (by omega) (by omega), ?_⟩,
        by simp [List.pairwise_replicate], ?_⟩
      · intro a ha b hb
        obtain ⟨i, hi, rfl⟩ := List.mem_map.1 hb
        have := List.mem_range.1 hi
        rw [List.eq_of_mem_replicate ha]
        exact (hA0 _ (by omega)).1
      · intro a ha b hb
        rw [List.eq_of_mem_replicate hb]
        rcases List.mem_append.1 ha with ha | ha
        · rw [List.eq_of_mem_replicate ha]; exact zero_le_one
        · obtain ⟨i, hi, rfl⟩ := List.mem_map.1 ha
          have := List.mem_range.1 hi
          exact (hA0 _ (by omega)).2
    · intro k hk
      rcases List.mem_append.1 hk with hk | hk
      · rcases List.mem_append.1 hk with hk | hk
        · rw [List.eq_of_mem_replicate hk]; exact ⟨le_rfl, zero_le_one⟩
        · obtain ⟨i, hi, rfl⟩ := List.mem_map.1 hk
          have := List.mem_range.1 hi
          exact hA0 _ (by omega)
      · rw [List.eq_of_mem_replicate hk]; exact ⟨zero_le_one, le_rfl⟩
    · intro i hi
      rw [List.getElem?_append_left (by simp; omega), List.getElem?_append_left (by simp; omega), List.getElem?_replicate, if_pos (by omega)]
    · intro i h1 h2
      rw [List.getElem?_append_right (by simp; omega), List.getElem?_replicate, if_pos (by simp; omega)]

/-- **Accuracy** of the parameters: the one of point `i` has a relative error of at most `i + n` roundings, where the distances of the
    points are the computed ones. -/
theorem C121_accuracy (h : Rounds fl μ) (dist : W → W → K) {l : List W} (hd : ∀ a b, 0 ≤ dist a b)
    (hpp : ∃ i, i + 1 < l.length ∧ 0 < dist (l.getD i 0) (l.getD (i + 1) 0)) :
    ∃ us, Rounded.chordParams fl dist l = .ok us ∧ ∀ i, i < l.length → Rel (1 - μ) (i + l.length) (chordParam dist l i) (us.getD i 0) := by
  refine ⟨_, rounded_params h dist hd hpp, fun i hi => ?_⟩
  rw [List.getD_eq_getElem?_getD, List.getElem?_map, List.getElem?_range hi, Option.map_some, Option.getD_some]
  obtain ⟨j, hj, hpj⟩ := hpp
  have hr : ∀ k, Rel (1 - μ) k (chordLength dist l k) (runSum fl (step dist l) 0 k) := fun k => runSum_rel h k fun i _ => hd _ _
  have hpos : 0 < chordLength dist l (l.length - 1) :=
    Finset.sum_pos' (fun k _ => hd _ _) ⟨j, Finset.mem_range.2 (by omega), hpj⟩
  have := Rel.round h ((hr i).div h.rho_pos (hr (l.length - 1)) hpos)
  rwa [show i + (l.length - 1) + 1 = i + l.length by omega] at this

/-! ### Periodic interpolation -/

theorem list_as_map (l : List K) : l = (List.range l.length).map fun i => l.getD i 0 := by
  apply List.ext_getElem?
  intro i
  by_cases hi : i < l.length
  · rw [List.getElem?_map, List.getElem?_range hi, Option.map_some, List.getD_eq_getElem?_getD, List.getElem?_eq_getElem hi]; rfl
  · rw [List.getElem?_eq_none (by omega), List.getElem?_eq_none (by simp; omega)]

/-- **Periodic interpolation** in floating point arithmetic: the knots are sorted for any lengths given to the segments, and a closed
    curve of degree `p` through `n` points gets `n + 2 p + 1` of them. -/
theorem C121_periodic (h : Rounds fl μ) (hi : ∀ x, fl (fl x) = fl x) {params : List K} {p : ℕ} (hp : 1 ≤ p) (hn : p + 1 ≤ params.length)
    (hd : ∀ x ∈ params, 0 ≤ x) :
    ∃ ks, Rounded.periodicKnots fl params params.length p = .ok ks ∧ ks.length = params.length + 2 * p + 1 ∧ ks.Pairwise (· ≤ ·) := by
  obtain ⟨l, hl⟩ : ∃ l, l = (params.take params.length).drop (params.length - p + 1) ++ params ++ (params.take (p - 1)).drop 0 := ⟨_, rfl⟩
  have hlen : l.length = params.length + 2 * (p - 1) := by rw [hl]; simp; omega
  have hmem : ∀ x ∈ l, 0 ≤ x := by
    rw [hl]
    intro x hx
    simp only [List.mem_append] at hx
    rcases hx with (hx | hx) | hx
    · exact hd x (List.mem_of_mem_take (List.mem_of_mem_drop hx))
    · exact hd x hx
    · exact hd x (List.mem_of_mem_take (List.mem_of_mem_drop hx))
  obtain ⟨d, hdd⟩ : ∃ d : ℕ → K, d = fun i => l.getD i 0 := ⟨_, rfl⟩
  have hd0 : ∀ i, i < l.length → 0 ≤ d i := by
    intro i hi
    rw [hdd]
    simp only [List.getD_eq_getElem?_getD, List.getElem?_eq_getElem hi, Option.getD_some]
    exact hmem _ (List.getElem_mem hi)
  have hk : (0 : K) :: Rounded.prefixSums fl 0 l = (List.range (l.length + 1)).map (runSum fl d 0) := by
    conv_lhs => rw [list_as_map l]
    rw [rounded_prefixSums, List.range_succ_eq_map, List.map_cons, List.map_map, hdd]
    rfl
  have hm : ∀ i j, i ≤ j → j ≤ l.length → runSum fl d 0 i ≤ runSum fl d 0 j := fun i j => runSum_mono h hi h.zero hd0
  have hget : ∀ i, i ≤ l.length → getR ((List.range (l.length + 1)).map (runSum fl d 0)) i = .ok (runSum fl d 0 i) := fun i hi =>
    getR_ok_iff.2 (by rw [List.getElem?_map, List.getElem?_range (by omega)]; rfl)
  have hdiff : ∀ i j, i ≤ j → j ≤ l.length → 0 ≤ fl (runSum fl d 0 j - runSum fl d 0 i) := fun i j hij hj =>
    h.nonneg_of (sub_nonneg.2 (hm i j hij hj))
  have hfin : ∀ k0 k1 : K, k0 ≤ 0 → runSum fl d 0 l.length ≤ k1 →
      ([k0] ++ (List.range (l.length + 1)).map (runSum fl d 0) ++ [k1]).length = params.length + 2 * p + 1 ∧
      ([k0] ++ (List.range (l.length + 1)).map (runSum fl d 0) ++ [k1]).Pairwise (· ≤ ·) := by
    intro k0 k1 h0 h1
    refine ⟨by simp; omega, ?_⟩
    rw [List.pairwise_append, List.pairwise_append]
    refine ⟨⟨by simp, pairwise_map_range fun i j hij hj => hm i j hij (by omega), ?_⟩, by simp, ?_⟩
    · intro a ha b hb
      obtain ⟨i, hi, rfl⟩ := List.mem_map.1 hb
      have := List.mem_range.1 hi
      rw [List.mem_singleton.1 ha]
      exact h0.trans (hm 0 i (by omega) (by omega))
    · intro a ha b hb
      rw [List.mem_singleton.1 hb]
      rcases List.mem_append.1 ha with ha | ha
      · rw [List.mem_singleton.1 ha]
        exact (h0.trans (hm 0 l.length (by omega) le_rfl)).trans h1
      · obtain ⟨i, hi, rfl⟩ := List.mem_map.1 ha
        have := List.mem_range.1 hi
        exact (hm i l.length (by omega) le_rfl).trans h1
  rw [Rounded.periodicKnots, subR_eq_ok hp, ok_bind, sliceR_eq_ok (by omega) (by omega), ok_bind, subR_eq_ok (by omega), ok_bind,
    sliceR_eq_ok (by omega) (le_refl _), ok_bind, ← hl]
  simp only [hk]
  by_cases h2 : p > 2
  · rw [if_pos h2, hget 0 (by omega), ok_bind, hget _ (by omega), ok_bind, hget _ (by omega), ok_bind]
    simp only [pure_bind]
    rw [subR_eq_ok (by simp), ok_bind, if_pos h2, hget _ (by simp), ok_bind, hget _ (by omega), ok_bind, hget _ (by omega), ok_bind]
    refine ⟨_, rfl, hfin _ _ ?_ ?_⟩
    · refine h.nonpos_of ?_
      rw [runSum, zero_sub, neg_nonpos]
      exact hdiff _ _ (by omega) (by omega)
    · have := h.mono _ _ (show runSum fl d 0 l.length ≤ runSum fl d 0 l.length + fl (runSum fl d 0 (p + 1) - runSum fl d 0 p) by
        linarith [hdiff p (p + 1) (by omega) (by omega)])
      rw [runSum_fix hi d h.zero] at this
      simpa using this
  · rw [if_neg h2, hget 0 (by omega), ok_bind, subR_eq_ok (by simp), ok_bind, if_neg h2, hget _ (by simp), ok_bind]
    refine ⟨_, rfl, hfin _ _ le_rfl ?_⟩
    simp

/-! ### Normalised knots -/

/-- **Normalising the knots** in floating point arithmetic: the domain becomes exactly `[0, 1]`, sorted knots stay sorted, and no knot
    of the domain leaves the unit interval. -/
theorem C121_normalize {V : Type} (h : Rounds fl μ) (h1 : fl 1 = 1) {c : Curve K V} {a b : K} (hdom : c.knotsDomain = .ok (a, b))
    (hab : a < b) :
    ∃ c', Rounded.normalizeKnots fl c = .ok c' ∧ c'.degree = c.degree ∧ c'.cps = c.cps ∧ c'.knots.length = c.knots.length ∧
      c'.knotsDomain = .ok (0, 1) ∧ (c.knots.Pairwise (· ≤ ·) → c'.knots.Pairwise (· ≤ ·)) ∧
      ∀ i, i < c.knots.length → a ≤ c.knots.getD i 0 → c.knots.getD i 0 ≤ b →
        0 ≤ c'.knots.getD i 0 ∧ c'.knots.getD i 0 ≤ 1 ∧
        Rel (1 - μ) 3 ((c.knots.getD i 0 - a) / (b - a)) (c'.knots.getD i 0) := by
  have hs : 0 < fl (b - a) := (h.rel (sub_nonneg.2 hab.le)).pos h.rho_pos (sub_pos.2 hab)
  obtain ⟨g, hg⟩ : ∃ g : K → K, g = fun k => fl (fl (k - a) / fl (b - a)) := ⟨_, rfl⟩
  have hmono : ∀ x y, x ≤ y → g x ≤ g y := by
    intro x y hxy
    rw [hg]
    exact h.mono _ _ (div_le_div_of_nonneg_right (h.mono _ _ (by linarith)) hs.le)
  have ha : g a = 0 := by rw [hg]; simp [h.zero]
  have hb : g b = 1 := by rw [hg]; simp only; rw [div_self hs.ne', h1]
  have hget : ∀ (i : ℕ) (x : K), c.knots[i]? = some x → (c.knots.map g)[i]? = some (g x) := by
    intro i x hx; rw [List.getElem?_map, hx]; rfl
  refine ⟨{ c with knots := c.knots.map g }, ?_, rfl, rfl, by simp, ?_, ?_, ?_⟩
  · rw [Rounded.normalizeKnots, hdom, ok_bind]
    simp only
    rw [mapM_ok (fun k _ => quotient_ok hs.ne'), ok_bind, ← hg]
    rfl
  · rw [Curve.knotsDomain, Knots.domain] at hdom ⊢
    obtain ⟨x, hx, hdom⟩ := bind_eq_ok.1 hdom
    obtain ⟨y, hy, hdom⟩ := bind_eq_ok.1 hdom
    obtain ⟨z, hz, hdom⟩ := bind_eq_ok.1 hdom
    obtain ⟨w, hw, hdom⟩ := bind_eq_ok.1 hdom
    obtain ⟨rfl, rfl⟩ := Prod.mk.inj (Except.ok.inj hdom)
    simp only [List.length_map]
    rw [getR_ok_iff.2 (hget _ _ (getR_ok_iff.1 hx)), ok_bind, hy, ok_bind, hz, ok_bind, getR_ok_iff.2 (hget _ _ (getR_ok_iff.1 hw)), ha, hb]
    rfl
  · intro hsort
    rw [List.pairwise_map]
    exact hsort.imp fun hxy => hmono _ _ hxy
  · intro i hi hk1 hk2
    have e : (c.knots.map g).getD i 0 = g (c.knots.getD i 0) := by
      rw [List.getD_eq_getElem?_getD, List.getD_eq_getElem?_getD, List.getElem?_map, List.getElem?_eq_getElem hi]; rfl
    show 0 ≤ (c.knots.map g).getD i 0 ∧ (c.knots.map g).getD i 0 ≤ 1 ∧ Rel _ _ _ ((c.knots.map g).getD i 0)
    rw [e]
    refine ⟨ha.symm.le.trans (hmono _ _ hk1), (hmono _ _ hk2).trans hb.le, ?_⟩
    rw [hg]
    exact Rel.round h ((h.rel (sub_nonneg.2 hk1)).div h.rho_pos (h.rel (sub_nonneg.2 hab.le)) (sub_pos.2 hab))

/-! ### Double precision -/

section double

theorem nat_fixed {fl : K → K} (h : Nearest (Binary64 K) fl) {m : ℕ} (hm : m ≤ 2 ^ 53) : fl (m : K) = m :=
  h.fix ⟨m, 0, by rw [abs_of_nonneg (by positivity)]; exact_mod_cast hm, by simp⟩

/-- **Double precision** meets the assumptions: the knots of an interpolating curve of degree up to `2 ^ 53`. -/
theorem C121_double [FloorRing K] {fl : K → K} (h : Nearest (Binary64 K) fl) {p : ℕ} (hp : 1 ≤ p) (hp' : p ≤ 2 ^ 53)
    (dist : W → W → K) {pts : List W} (hn : p + 1 ≤ pts.length) (hd : ∀ a b, 0 ≤ dist a b)
    (hpp : ∃ i, i + 1 < pts.length ∧ 0 < dist (pts.getD i 0) (pts.getD (i + 1) 0)) :
    ∃ us ks, Rounded.chordParams fl dist pts = .ok us ∧ us.length = pts.length ∧ us.Pairwise (· ≤ ·) ∧ us[0]? = some 0 ∧
      us[pts.length - 1]? = some 1 ∧ Rounded.averageKnots fl us p = .ok ks ∧ UnitKnots ks p pts.length :=
  C121_interpolate (C99_nearest h) (fun x => h.fix (h x).1) hp (fun _ hm => nat_fixed h (hm.trans hp')) dist hn hd hpp

/-- The distance of two points of the plane on a common horizontal or vertical line. -/
def gridDist (a b : ℚ × ℚ) : ℚ := |a.1 - b.1| + |a.2 - b.2|

/-- **Segments can vanish**: the polyline through the three different points `(0, 0)`, `(2^55, 0)`, `(2^55, 1)` gets no interval of
    parameters for its second segment, since adding 1 to the running length does not change it. -/
theorem C121_vanishing_segment {fl : ℚ → ℚ} (h : Nearest (Binary64 ℚ) fl) :
    Rounded.polylineKnots fl gridDist [(0, 0), (2 ^ 55, 0), (2 ^ 55, 1)] false = .ok [0, 0, 2 ^ 55, 2 ^ 55, 2 ^ 55] := by
  have e1 : fl (0 + gridDist (0, 0) (2 ^ 55, 0)) = 2 ^ 55 := by
    rw [show (0 : ℚ) + gridDist (0, 0) (2 ^ 55, 0) = 2 ^ 55 by simp [gridDist]]
    exact h.fix ⟨1, 55, by norm_num, by norm_num⟩
  have e2 : fl (2 ^ 55 + gridDist (2 ^ 55, 0) (2 ^ 55, 1)) = 2 ^ 55 := by
    rw [show (2 : ℚ) ^ 55 + gridDist (2 ^ 55, 0) (2 ^ 55, 1) = 2 ^ 55 + 1 by simp [gridDist]]
    have := h.eq_of_near (m := 2 ^ 53) (e := 2) (x := (2 : ℚ) ^ 55 + 1) (by norm_num) (by norm_num) (by norm_num)
    rw [this]; norm_num
  rw [Rounded.polylineKnots, subR_eq_ok (by simp), ok_bind]
  simp only [Rounded.chordTotal, Rounded.chordGo, e1, e2]
  rfl

/-! ### Witnesses -/

def exGrid : List (ℚ × ℚ) := [(0, 0), (1, 0), (1, 7 / 4), (4, 7 / 4), (4, 3)]

theorem gridDist_nonneg (a b : ℚ × ℚ) : 0 ≤ gridDist a b := by unfold gridDist; positivity

theorem exGrid_moves : ∃ i, i + 1 < exGrid.length ∧ 0 < gridDist (exGrid.getD i 0) (exGrid.getD (i + 1) 0) :=
  ⟨0, by simp [exGrid], by norm_num [exGrid, gridDist]⟩

example : ∃ ks, Rounded.polylineKnots fl64 gridDist exGrid true = .ok ks ∧ UnitKnots ks 1 5 :=
  (C121_polyline (C99_nearest fl64_nearest) fl64_idem (by simpa using nat_fixed (fl64_nearest (K := ℚ)) (m := 1) (by norm_num)) gridDist
    (pts := exGrid) (by simp [exGrid]) gridDist_nonneg).2 exGrid_moves

example : ∃ us ks, Rounded.chordParams fl64 gridDist exGrid = .ok us ∧ us.length = 5 ∧ us.Pairwise (· ≤ ·) ∧ us[0]? = some 0 ∧
    us[4]? = some 1 ∧ Rounded.averageKnots fl64 us 3 = .ok ks ∧ UnitKnots ks 3 5 :=
  C121_double fl64_nearest (by norm_num) (by norm_num) gridDist (pts := exGrid) (by simp [exGrid]) gridDist_nonneg exGrid_moves

example : ∃ us, Rounded.chordParams fl64 gridDist exGrid = .ok us ∧
    ∀ i, i < 5 → Rel (1 - ((2 : ℚ) ^ 53)⁻¹) (i + 5) (chordParam gridDist exGrid i) (us.getD i 0) :=
  C121_accuracy (C99_nearest fl64_nearest) gridDist gridDist_nonneg exGrid_moves

example : ∃ ks : List ℚ, Rounded.periodicKnots fl64 [1, 2 / 3, 3, 1 / 7, 5] 5 3 = .ok ks ∧ ks.length = 12 ∧ ks.Pairwise (· ≤ ·) :=
  C121_periodic (C99_nearest fl64_nearest) fl64_idem (params := ([1, 2 / 3, 3, 1 / 7, 5] : List ℚ)) (p := 3) (by norm_num) (by simp)
    (by intro x hx; fin_cases hx <;> norm_num)

example : ∃ c', Rounded.normalizeKnots fl64 ({ degree := 1, cps := [0, 1, 5], knots := [1, 1, 3, 8, 8] } : Curve ℚ ℚ) = .ok c' ∧
    c'.knotsDomain = .ok (0, 1) := by
  obtain ⟨c', e, -, -, -, hd, -⟩ := C121_normalize (c := ({ degree := 1, cps := [0, 1, 5], knots := [1, 1, 3, 8, 8] } : Curve ℚ ℚ))
    (C99_nearest fl64_nearest) (by simpa using nat_fixed (fl64_nearest (K := ℚ)) (m := 1) (by norm_num)) (a := 1) (b := 8) rfl (by norm_num)
  exact ⟨c', e, hd⟩

end double

end Curvo.Props

/-
  Regular sampling and regular tessellation converge to the curve and the surface: C114.
-/
import Verif.Props.Edits
import Verif.Props.CurveLength
import Verif.Props.Curve2
import Verif.Props.Tessellate
import Verif.Props.SurfaceSmooth

set_option linter.unusedSectionVars false
set_option linter.unusedSimpArgs false

namespace Curvo.Props

open Curvo Curvo.Knots Curvo.Spec Curvo.Curve Curvo.Surface

variable {K : Type} [Field K] [LinearOrder K] [IsStrictOrderedRing K]
variable {W : Type} [AddCommGroup W] [Module K W]

/-! ### Knot averages -/

/-- The sum of the `p` knots inside of the support of basis function `i`. -/
def knotSum (k : ℕ → K) (p i : ℕ) : K := (Finset.range p).sum fun r => k (i + r + 1)

theorem knotSum_succ (k : ℕ → K) (p i : ℕ) : knotSum k (p + 1) i = knotSum k p i + k (i + p + 1) := Finset.sum_range_succ _ _

theorem knotSum_shift (k : ℕ → K) (p i : ℕ) : knotSum k (p + 1) i = knotSum k p (i + 1) + k (i + 1) := by
  unfold knotSum
  rw [Finset.sum_range_succ']
  congr 1
  apply Finset.sum_congr rfl
  intro r _
  congr 1; omega

/-- The knot sums are the coefficients of `p` times the parameter. -/
theorem NS_knotSum {k : ℕ → K} {s : ℕ} (u : K) : ∀ p, p ≤ s → (∀ i j, i ≤ s → s < j → j ≤ s + p → k j ≠ k i) →
    ((Finset.range (s + 1)).sum fun i => NS k s p i u) = 1 ∧ ((Finset.range (s + 1)).sum fun i => NS k s p i u * knotSum k p i) = p * u := by
  intro p
  induction p with
  | zero =>
    intro _ _
    simp [NS, knotSum]
  | succ p ih =>
    intro hp hk
    obtain ⟨i1, i2⟩ := ih (by omega) fun i j h1 h2 h3 => hk i j h1 h2 (by omega)
    have sh : ∀ f : ℕ → K, ((Finset.range (s + 1)).sum fun i => NS k s p (i + 1) u * f (i + 1)) = (Finset.range (s + 1)).sum fun i => NS k s p i u * f i := by
      intro f
      rw [Finset.sum_range_succ (fun i => NS k s p (i + 1) u * f (i + 1)), NS_eq_zero_right k s u p (s + 1) (by omega), zero_mul, add_zero,
        Finset.sum_range_succ' (fun i => NS k s p i u * f i), NS_eq_zero_left k s u p 0 (by omega), zero_mul, add_zero]
    have ex : ∀ g h : ℕ → K, (∀ i, h (i + 1) = g i) → ((Finset.range (s + 1)).sum fun i => NS k s (p + 1) i u * g i) =
        (Finset.range (s + 1)).sum fun i => NS k s p i u * (((u - k i) * g i + (k (i + p + 1) - u) * h i) / (k (i + p + 1) - k i)) := by
      intro g h hg
      have e : ((Finset.range (s + 1)).sum fun i => NS k s (p + 1) i u * g i) =
          ((Finset.range (s + 1)).sum fun i => NS k s p i u * ((u - k i) / (k (i + p + 1) - k i) * g i)) +
          (Finset.range (s + 1)).sum fun i => NS k s p (i + 1) u * ((fun j => (k (j + p + 1) - u) / (k (j + p + 1) - k j) * h j) (i + 1)) := by
        rw [← Finset.sum_add_distrib]
        apply Finset.sum_congr rfl
        intro i _
        simp only []
        rw [NS, hg i, show i + 1 + p + 1 = i + p + 2 by omega]
        ring
      rw [e, sh (fun j => (k (j + p + 1) - u) / (k (j + p + 1) - k j) * h j), ← Finset.sum_add_distrib]
      apply Finset.sum_congr rfl
      intro i _
      ring
    have cancel : ∀ f g : ℕ → K, (∀ i, f i = (k (i + p + 1) - k i) * g i) →
        ((Finset.range (s + 1)).sum fun i => NS k s p i u * (f i / (k (i + p + 1) - k i))) = (Finset.range (s + 1)).sum fun i => NS k s p i u * g i := by
      intro f g hfg
      apply Finset.sum_congr rfl
      intro i hi
      have hi := Finset.mem_range.1 hi
      by_cases h1 : s ≤ i + p
      · have : k (i + p + 1) - k i ≠ 0 := sub_ne_zero.2 (hk i (i + p + 1) (by omega) (by omega) (by omega))
        rw [hfg, mul_div_cancel_left₀ _ this]
      · rw [NS_eq_zero_left k s u p i (by omega), zero_mul, zero_mul]
    constructor
    · have := ex (fun _ => 1) (fun _ => 1) (fun _ => rfl)
      simp only [mul_one] at this
      rw [this, cancel _ (fun _ => 1) (fun i => by ring)]
      simpa using i1
    · have := ex (knotSum k (p + 1)) (fun i => knotSum k p i + k i) (fun i => (knotSum_shift k p i).symm)
      rw [this, cancel _ (fun i => knotSum k p i + u) (fun i => by rw [knotSum_succ]; ring)]
      simp only [mul_add, Finset.sum_add_distrib, i2, ← Finset.sum_mul, i1]
      push_cast
      ring

/-- The whole sum over the control points. -/
theorem N_knotSum {V : Type} [AddCommGroup V] [Module K V] {c : Curve K V} (h : c.Pre) {u : K} (h1 : c.lo ≤ u) (h2 : u ≤ c.hi) :
    ((Finset.range c.cps.length).sum fun i => N (kf c.knots) c.hi c.degree i u) = 1 ∧
    ((Finset.range c.cps.length).sum fun i => N (kf c.knots) c.hi c.degree i u * knotSum (kf c.knots) c.degree i) = c.degree * u := by
  obtain ⟨s, hps, hs, hin⟩ := h.exists_span h1 h2
  have hm := h.mono
  have hlt := Curve.inSpan_lt hin
  have hw : ∀ f : ℕ → K, ((Finset.range c.cps.length).sum fun i => N (kf c.knots) c.hi c.degree i u * f i) =
      (Finset.range (s + 1)).sum fun i => NS (kf c.knots) s c.degree i u * f i := by
    intro f
    rw [Finset.sum_congr rfl (g := fun i => NS (kf c.knots) s c.degree i u * f i) fun i hi => by
      rw [N_eq_NS hm (by omega) hin c.degree i (by have := Finset.mem_range.1 hi; omega)]]
    symm
    apply Finset.sum_subset
    · intro i hi; exact Finset.mem_range.2 (by have := Finset.mem_range.1 hi; omega)
    · intro i _ hi
      rw [NS_eq_zero_right _ _ _ _ _ (by by_contra hh; exact hi (Finset.mem_range.2 (by omega))), zero_mul]
  obtain ⟨a, b⟩ := NS_knotSum (k := kf c.knots) (s := s) u c.degree hps fun i j a1 a2 a3 =>
    (lt_of_le_of_lt (hm i s a1 (by omega)) (lt_of_lt_of_le hlt (hm (s + 1) j (by omega) (by omega)))).ne'
  constructor
  · have := hw fun _ => 1
    simp only [mul_one] at this
    rw [this, a]
  · rw [hw, b]

/-! ### A Lipschitz constant -/

/-- The curve with one more coordinate, the knot averages. -/
def withAverages (c : Curve K (W × K)) : Curve K ((W × K) × K) :=
  { degree := c.degree, knots := c.knots,
    cps := (List.range c.cps.length).map fun i =>
      (((c.cps.getD i 0).1, (c.cps.getD i 0).2 * (knotSum (kf c.knots) c.degree i / c.degree)), (c.cps.getD i 0).2) }

theorem withAverages_len (c : Curve K (W × K)) : (withAverages c).cps.length = c.cps.length := by simp [withAverages]

theorem withAverages_get (c : Curve K (W × K)) {i : ℕ} (hi : i < c.cps.length) : (withAverages c).cps.getD i 0 =
    (((c.cps.getD i 0).1, (c.cps.getD i 0).2 * (knotSum (kf c.knots) c.degree i / c.degree)), (c.cps.getD i 0).2) := by
  simp only [withAverages]
  rw [List.getD_eq_getElem?_getD, List.getElem?_map, List.getElem?_range hi]
  rfl

theorem withAverages_good {eps : K} {c : Curve K (W × K)} (h : c.Good eps) : (withAverages c).Good eps :=
  ⟨by rw [withAverages_len]; exact h.cps_pos, by rw [withAverages_len]; exact h.knots_len, by rw [withAverages_len]; exact h.good⟩

theorem withAverages_weights {c : Curve K (W × K)} (hw : ∀ p ∈ c.cps, 0 < p.2) : ∀ p ∈ (withAverages c).cps, 0 < p.2 := by
  intro p hp
  simp only [withAverages, List.mem_map, List.mem_range] at hp
  obtain ⟨l, hl, rfl⟩ := hp
  exact weight_mem hw hl

theorem withAverages_eval {eps : K} {c : Curve K (W × K)} (h : c.Good eps) (hp : 1 ≤ c.degree) {w : K} (hw : ∀ p ∈ c.cps, p.2 = w) {u : K}
    (h1 : c.lo ≤ u) (h2 : u ≤ c.hi) : (withAverages c).eval u = (((c.eval u).1, w * u), w) ∧ (c.eval u).2 = w := by
  have hn : c.cps.length - 1 + 1 = c.cps.length := by have := h.cps_pos; omega
  obtain ⟨a, b⟩ := N_knotSum h.pre h1 h2
  have hd : (c.degree : K) ≠ 0 := by exact_mod_cast (by omega : c.degree ≠ 0)
  have hwi : ∀ i, i < c.cps.length → (c.cps.getD i 0).2 = w := fun i hi => hw _ (by rw [getD_eq_getElem hi]; exact List.getElem_mem _)
  have e2 : (c.eval u).2 = w := by
    unfold Curve.eval Spec.curve
    rw [Prod.snd_sum, hn, Finset.sum_congr rfl (g := fun i => N (kf c.knots) c.hi c.degree i u * w) fun i hi => by
      rw [Prod.smul_snd, hwi i (Finset.mem_range.1 hi)]; rfl, ← Finset.sum_mul, a, one_mul]
  refine ⟨?_, e2⟩
  have e : (withAverages c).eval u = (Finset.range c.cps.length).sum fun i => N (kf c.knots) c.hi c.degree i u •
      (((c.cps.getD i 0).1, w * (knotSum (kf c.knots) c.degree i / c.degree)), w) := by
    unfold Curve.eval Spec.curve
    rw [withAverages_len, hn]
    apply Finset.sum_congr rfl
    intro i hi
    have hi := Finset.mem_range.1 hi
    simp only []
    rw [withAverages_get c hi, hwi i hi]
    rfl
  rw [e]
  ext
  · rw [Prod.fst_sum, Prod.fst_sum]
    unfold Curve.eval Spec.curve
    rw [Prod.fst_sum, hn]
    rfl
  · rw [Prod.fst_sum, Prod.snd_sum]
    rw [Finset.sum_congr rfl (g := fun i => w / c.degree * (N (kf c.knots) c.hi c.degree i u * knotSum (kf c.knots) c.degree i)) fun i hi => by
      simp only [Prod.smul_fst, Prod.smul_snd, smul_eq_mul]; ring, ← Finset.mul_sum, b]
    field_simp
  · rw [Prod.snd_sum]
    simp only [Prod.smul_snd, smul_eq_mul]
    rw [← Finset.sum_mul, a, one_mul]

/-- **C114**: a curve with equal weights whose control points lie at the averages of `degree` consecutive knots returns the parameter itself. -/
theorem C114_averages {eps : K} {c : Curve K (K × K)} (h : c.Good eps) (hp : 1 ≤ c.degree) {w : K} (hw0 : 0 < w)
    (hc : ∀ i, i < c.cps.length → c.cps.getD i 0 = homog (((Finset.range c.degree).sum fun r => kf c.knots (i + r + 1)) / c.degree) w)
    {u : K} (h1 : c.lo ≤ u) (h2 : u ≤ c.hi) : c.pointAt eps u = .ok u := by
  have hn : c.cps.length - 1 + 1 = c.cps.length := by have := h.cps_pos; omega
  have hwp : ∀ p ∈ c.cps, p.2 = w := by
    intro p hp'
    obtain ⟨i, hi, rfl⟩ := List.mem_iff_getElem.1 hp'
    rw [← getD_eq_getElem (d := 0) hi, hc i hi]; rfl
  have hwp' : ∀ p ∈ c.cps, 0 < p.2 := fun p hp' => by rw [hwp p hp']; exact hw0
  obtain ⟨a, b⟩ := N_knotSum h.pre h1 h2
  have hd : (c.degree : K) ≠ 0 := by exact_mod_cast (by omega : c.degree ≠ 0)
  have e2 := (withAverages_eval h hp hwp h1 h2).2
  have e1 : (c.eval u).1 = w * u := by
    unfold Curve.eval Spec.curve
    rw [Prod.fst_sum, hn, Finset.sum_congr rfl (g := fun i => w / c.degree * (N (kf c.knots) c.hi c.degree i u * knotSum (kf c.knots) c.degree i)) fun i hi => by
      simp only []
      rw [hc i (Finset.mem_range.1 hi), ← knotSum]
      show N (kf c.knots) (kf c.knots c.cps.length) c.degree i u * (w * (knotSum (kf c.knots) c.degree i / c.degree)) = _
      unfold Curve.hi
      ring, ← Finset.mul_sum, b]
    field_simp
  rw [(C09_point_at_positive_weights h hwp' h1 h2).1, e1, e2, smul_eq_mul, inv_mul_cancel_left₀ hw0.ne']

/-- **C114**: where every leg of the control polygon is at most `L / degree` times the `degree` knot intervals it belongs to, the points of a
curve with equal weights move at most by `L` times the difference of the parameters. -/
theorem C114_lipschitz {ν : W → K} (hν : Sublinear ν) {eps : K} {c : Curve K (W × K)} (h : c.Good eps) (hp : 1 ≤ c.degree) {w : K} (hw0 : 0 < w)
    (hw : ∀ p ∈ c.cps, p.2 = w) {L : K}
    (hL : ∀ i, i + 1 < c.cps.length → c.degree * ν (proj (c.cps.getD (i + 1) 0) - proj (c.cps.getD i 0)) ≤
      L * (kf c.knots (i + 1 + c.degree) - kf c.knots (i + 1)))
    {u v : K} (h1 : c.lo ≤ u) (h2 : u ≤ v) (h3 : v ≤ c.hi) :
    ∃ p q, c.pointAt eps u = .ok p ∧ c.pointAt eps v = .ok q ∧ ν (q - p) ≤ L * (v - u) := by
  have hwp : ∀ p ∈ c.cps, 0 < p.2 := fun p hp' => by rw [hw p hp']; exact hw0
  have hd0 : 0 < (c.degree : K) := by exact_mod_cast hp
  have hd : (c.degree : K) ≠ 0 := hd0.ne'
  obtain ⟨S, hS1, hS2, hS3⟩ := C95_legs (withAverages_good h) hp (withAverages_weights hwp)
  have hlo : (withAverages c).lo = c.lo := rfl
  have hhi : (withAverages c).hi = c.hi := by unfold Curve.hi; rw [withAverages_len]; rfl
  rw [hlo, hhi] at hS1 hS2 hS3
  have hpt : ∀ t, c.lo ≤ t → t ≤ c.hi → c.pointAt eps t = .ok (proj (c.eval t)) ∧
      (withAverages c).pointAt eps t = .ok (proj (c.eval t), t) := by
    intro t ht1 ht2
    refine ⟨(C09_point_at_positive_weights h hwp ht1 ht2).1, ?_⟩
    rw [(C09_point_at_positive_weights (u := t) (withAverages_good h) (withAverages_weights hwp) (by rw [hlo]; exact ht1) (by rw [hhi]; exact ht2)).1]
    obtain ⟨a, b⟩ := withAverages_eval h hp hw ht1 ht2
    rw [a]
    congr 1
    ext
    · simp [proj, b]
    · simp [hw0.ne']
  have h12 := h2.trans h3
  have h13 := h1.trans h2
  refine ⟨_, _, (hpt u h1 h12).1, (hpt v h13 h3).1, ?_⟩
  have eu := (hpt u h1 h12).2.symm.trans (hS3 u h1 h12)
  have ev := (hpt v h13 h3).2.symm.trans (hS3 v h13 h3)
  injection eu with eu
  injection ev with ev
  have hdiff : (proj (c.eval v), v) - (proj (c.eval u), u) = (Finset.range (c.cps.length - 1)).sum fun i =>
      (S i v - S i u) • (proj ((withAverages c).cps.getD (i + 1) 0) - proj ((withAverages c).cps.getD i 0)) := by
    rw [eu, ev, withAverages_len, add_sub_add_left_eq_sub, ← Finset.sum_sub_distrib]
    exact Finset.sum_congr rfl fun i _ => (sub_smul _ _ _).symm
  have hleg : ∀ i, i < c.cps.length - 1 → proj ((withAverages c).cps.getD (i + 1) 0) - proj ((withAverages c).cps.getD i 0) =
      (proj (c.cps.getD (i + 1) 0) - proj (c.cps.getD i 0), (kf c.knots (i + 1 + c.degree) - kf c.knots (i + 1)) / c.degree) := by
    intro i hi
    have hwi : ∀ i, i < c.cps.length → (c.cps.getD i 0).2 = w := fun i hi => hw _ (by rw [getD_eq_getElem hi]; exact List.getElem_mem _)
    rw [withAverages_get c (by omega), withAverages_get c (by omega)]
    ext
    · simp [proj]
    · simp only [proj, Prod.snd_sub, Prod.smul_snd, smul_eq_mul, hwi i (by omega), hwi (i + 1) (by omega), inv_mul_cancel_left₀ hw0.ne']
      rw [← sub_div]
      congr 1
      have e1 := knotSum_succ (kf c.knots) c.degree i
      have e2 := knotSum_shift (kf c.knots) c.degree i
      rw [show i + 1 + c.degree = i + c.degree + 1 by omega]
      linarith
  have hA : proj (c.eval v) - proj (c.eval u) = (Finset.range (c.cps.length - 1)).sum fun i =>
      (S i v - S i u) • (proj (c.cps.getD (i + 1) 0) - proj (c.cps.getD i 0)) := by
    have := congrArg Prod.fst hdiff
    rw [Prod.fst_sum] at this
    rw [← show ((proj (c.eval v), v) - (proj (c.eval u), u)).1 = proj (c.eval v) - proj (c.eval u) from rfl, this]
    exact Finset.sum_congr rfl fun i hi => by rw [hleg i (Finset.mem_range.1 hi)]; rfl
  have hB : v - u = (Finset.range (c.cps.length - 1)).sum fun i =>
      (S i v - S i u) * ((kf c.knots (i + 1 + c.degree) - kf c.knots (i + 1)) / c.degree) := by
    have := congrArg Prod.snd hdiff
    rw [Prod.snd_sum] at this
    rw [← show ((proj (c.eval v), v) - (proj (c.eval u), u)).2 = v - u from rfl, this]
    exact Finset.sum_congr rfl fun i hi => by rw [hleg i (Finset.mem_range.1 hi)]; rfl
  rw [hA, hB, Finset.mul_sum]
  have hsum : ∀ (I : Finset ℕ) (a : ℕ → K) (x : ℕ → W) (b : ℕ → K), (∀ i ∈ I, 0 ≤ a i ∧ ν (x i) ≤ L * b i) →
      ν (I.sum fun i => a i • x i) ≤ I.sum fun i => L * (a i * b i) := by
    classical
    intro I a x b
    induction I using Finset.induction_on with
    | empty =>
      intro _
      have := hν.smul 0 0 le_rfl
      simp only [zero_smul, zero_mul] at this
      simp [this]
    | insert i I hi ih =>
      intro hh
      rw [Finset.sum_insert hi, Finset.sum_insert hi]
      refine le_trans (hν.add _ _) (add_le_add ?_ (ih fun k hk => hh k (Finset.mem_insert_of_mem hk)))
      obtain ⟨g1, g2⟩ := hh i (Finset.mem_insert_self _ _)
      rw [hν.smul _ _ g1]
      have := mul_le_mul_of_nonneg_left g2 g1
      linarith
  refine hsum _ _ _ _ fun i hi => ?_
  have hi := Finset.mem_range.1 hi
  refine ⟨sub_nonneg.2 (hS1 i u v h1 h2 h3), ?_⟩
  have := hL i (by omega)
  rw [← mul_div_assoc, le_div_iff₀ hd0]
  linarith

/-- **C114**: the polyline through `n` regular samples of such a curve stays within `L` times the parameter step of the curve: every point of
the `i`th segment and every point of the curve between samples `i` and `i + 1` are at most so far apart. -/
theorem C114_samples {ν : W → K} (hν : Sublinear ν) (hsym : ∀ x, ν (-x) = ν x) {eps : K} {c : Curve K (W × K)} (h : c.Good eps) (hp : 1 ≤ c.degree)
    {w : K} (hw0 : 0 < w) (hw : ∀ p ∈ c.cps, p.2 = w) {L : K} (hL0 : 0 ≤ L)
    (hL : ∀ i, i + 1 < c.cps.length → c.degree * ν (proj (c.cps.getD (i + 1) 0) - proj (c.cps.getD i 0)) ≤
      L * (kf c.knots (i + 1 + c.degree) - kf c.knots (i + 1)))
    {start stop : K} (h1 : c.lo ≤ start) (h2 : start ≤ stop) (h3 : stop ≤ c.hi) {n : ℕ} (hn : 2 ≤ n) :
    ∃ r, c.sampleRegularRange eps start stop n = .ok r ∧ r.length = n ∧ ∀ i, i + 1 < n → ∀ u, start + i * ((stop - start) / ((n : K) - 1)) ≤ u →
      u ≤ start + ((i : K) + 1) * ((stop - start) / ((n : K) - 1)) → ∃ q, c.pointAt eps u = .ok q ∧
        ∀ a b, r[i]? = some a → r[i + 1]? = some b → ∀ t : K, 0 ≤ t → t ≤ 1 → ν (a + t • (b - a) - q) ≤ L * ((stop - start) / ((n : K) - 1)) := by
  have hwp : ∀ p ∈ c.cps, 0 < p.2 := fun p hp' => by rw [hw p hp']; exact hw0
  obtain ⟨r, er⟩ := C61_samples_succeed h hwp h1 h2 h3 hn
  obtain ⟨hl, hr, -, -⟩ := C61_samples hn er
  have hn' : (2 : K) ≤ n := by exact_mod_cast hn
  have hden : (0 : K) < (n : K) - 1 := by linarith
  set s := (stop - start) / ((n : K) - 1) with hs
  have hs0 : 0 ≤ s := div_nonneg (sub_nonneg.2 h2) hden.le
  have hse : s * ((n : K) - 1) = stop - start := div_mul_cancel₀ _ hden.ne'
  refine ⟨r, er, hl, ?_⟩
  intro i hi u hu1 hu2
  have hi' : (i : K) + 1 ≤ (n : K) - 1 := by
    have : ((i + 2 : ℕ) : K) ≤ n := by exact_mod_cast hi
    push_cast at this; linarith
  have hi0 : (0 : K) ≤ i := Nat.cast_nonneg i
  have g1 : c.lo ≤ start + i * s := h1.trans (by have := mul_nonneg hi0 hs0; linarith)
  have g2 : start + ((i : K) + 1) * s ≤ c.hi := by
    have := mul_le_mul_of_nonneg_right hi' hs0
    linarith
  obtain ⟨pa, pu, ea, eu, b1⟩ := C114_lipschitz hν h hp hw0 hw hL g1 hu1 (hu2.trans g2)
  obtain ⟨pu', pb, eu', eb, b2⟩ := C114_lipschitz hν h hp hw0 hw hL (g1.trans hu1) hu2 g2
  have : pu' = pu := by rw [eu] at eu'; injection eu' with e; exact e.symm
  subst this
  refine ⟨pu', eu, ?_⟩
  intro a b ha hb t ht0 ht1
  have fa : a = pa := by
    obtain ⟨hi1, e⟩ := List.getElem?_eq_some_iff.1 ha
    have := hr i hi1
    rw [e, ea] at this; injection this with e; exact e.symm
  have fb : b = pb := by
    obtain ⟨hi1, e⟩ := List.getElem?_eq_some_iff.1 hb
    have := hr (i + 1) hi1
    push_cast at this
    rw [e, eb] at this; injection this with e; exact e.symm
  subst fa fb
  have e : a + t • (b - a) - pu' = (1 - t) • (-(pu' - a)) + t • (b - pu') := by module
  rw [e]
  refine le_trans (hν.add _ _) ?_
  rw [hν.smul _ _ (by linarith), hν.smul _ _ ht0, hsym]
  have c1 := mul_le_mul_of_nonneg_left b1 (by linarith : (0 : K) ≤ 1 - t)
  have c2 := mul_le_mul_of_nonneg_left b2 ht0
  have d1 : L * (u - (start + i * s)) ≤ L * s := mul_le_mul_of_nonneg_left (by linarith) hL0
  have d2 : L * (start + ((i : K) + 1) * s - u) ≤ L * s := mul_le_mul_of_nonneg_left (by linarith) hL0
  have d3 := mul_le_mul_of_nonneg_left d1 (by linarith : (0 : K) ≤ 1 - t)
  have d4 := mul_le_mul_of_nonneg_left d2 ht0
  linarith

/-! ### Convergence for all weights -/

section real
variable {X : Type} [NormedAddCommGroup X] [NormedSpace ℝ X]

/-- **C114**: with positive weights and inner knots of multiplicity at most the degree, the polylines through `n` regular samples converge to the
curve: for every tolerance there is a number of samples from which on every point of a segment is within the tolerance of all the points of
the curve between its two samples. -/
theorem C114_converges {eps : ℝ} {c : Curve ℝ (X × ℝ)} (h : c.Good eps) (hμ : MultAtMost c c.degree) (hw : ∀ p ∈ c.cps, 0 < p.2) {δ : ℝ} (hδ : 0 < δ) :
    ∃ n₀, ∀ n, n₀ ≤ n → ∃ r, c.sampleRegularRange eps c.lo c.hi n = .ok r ∧ r.length = n ∧ ∀ i, i + 1 < n →
      ∀ u, c.lo + i * ((c.hi - c.lo) / ((n : ℝ) - 1)) ≤ u → u ≤ c.lo + ((i : ℝ) + 1) * ((c.hi - c.lo) / ((n : ℝ) - 1)) →
      ∃ q, c.pointAt eps u = .ok q ∧ ∀ a b, r[i]? = some a → r[i + 1]? = some b → ∀ t : ℝ, 0 ≤ t → t ≤ 1 → ‖a + t • (b - a) - q‖ ≤ δ := by
  have hpos : ∀ u ∈ Set.Icc c.lo c.hi, (c.eval u).2 ≠ 0 := fun u hu => (C09_point_at_positive_weights h hw hu.1 hu.2).2.ne'
  have hcont := (C94_points h hμ le_rfl hpos).1.continuousOn
  have huc := (isCompact_Icc (a := c.lo) (b := c.hi)).uniformContinuousOn_of_continuous hcont
  obtain ⟨η, hη, hclose⟩ := Metric.uniformContinuousOn_iff.1 huc δ hδ
  have hdom := h.pre.dom
  obtain ⟨m, hm⟩ := exists_nat_gt ((c.hi - c.lo) / η)
  refine ⟨m + 2, ?_⟩
  intro n hn
  have hn2 : 2 ≤ n := by omega
  obtain ⟨r, er⟩ := C61_samples_succeed h hw le_rfl hdom.le le_rfl hn2
  obtain ⟨hl, hr, -, -⟩ := C61_samples hn2 er
  have hn' : (m : ℝ) + 2 ≤ n := by exact_mod_cast hn
  have hm0 : (0 : ℝ) ≤ m := Nat.cast_nonneg m
  have hden : (0 : ℝ) < (n : ℝ) - 1 := by linarith
  have hsη : (c.hi - c.lo) / ((n : ℝ) - 1) < η := by
    rw [div_lt_iff₀ hη] at hm
    rw [div_lt_iff₀ hden]
    nlinarith
  set s := (c.hi - c.lo) / ((n : ℝ) - 1) with hs
  have hs0 : 0 ≤ s := div_nonneg (sub_nonneg.2 hdom.le) hden.le
  have hse : s * ((n : ℝ) - 1) = c.hi - c.lo := div_mul_cancel₀ _ hden.ne'
  refine ⟨r, er, hl, ?_⟩
  intro i hi u hu1 hu2
  have hi' : (i : ℝ) + 1 ≤ (n : ℝ) - 1 := by
    have : ((i + 2 : ℕ) : ℝ) ≤ n := by exact_mod_cast hi
    push_cast at this; linarith
  have hi0 : (0 : ℝ) ≤ i := Nat.cast_nonneg i
  have g1 : c.lo ≤ c.lo + i * s := by have := mul_nonneg hi0 hs0; linarith
  have g2 : c.lo + ((i : ℝ) + 1) * s ≤ c.hi := by
    have := mul_le_mul_of_nonneg_right hi' hs0
    linarith
  have mu : u ∈ Set.Icc c.lo c.hi := ⟨g1.trans hu1, hu2.trans g2⟩
  have ma : c.lo + i * s ∈ Set.Icc c.lo c.hi := ⟨g1, by linarith⟩
  have mb : c.lo + ((i : ℝ) + 1) * s ∈ Set.Icc c.lo c.hi := ⟨by linarith, g2⟩
  refine ⟨_, (C09_point_at_positive_weights h hw mu.1 mu.2).1, ?_⟩
  intro a b ha hb t ht0 ht1
  have fa : (c.eval (c.lo + i * s)).2⁻¹ • (c.eval (c.lo + i * s)).1 = a := by
    obtain ⟨hi1, e⟩ := List.getElem?_eq_some_iff.1 ha
    have := hr i hi1
    rw [e, (C09_point_at_positive_weights h hw ma.1 ma.2).1] at this; injection this
  have fb : (c.eval (c.lo + ((i : ℝ) + 1) * s)).2⁻¹ • (c.eval (c.lo + ((i : ℝ) + 1) * s)).1 = b := by
    obtain ⟨hi1, e⟩ := List.getElem?_eq_some_iff.1 hb
    have := hr (i + 1) hi1
    push_cast at this
    rw [e, (C09_point_at_positive_weights h hw mb.1 mb.2).1] at this; injection this
  have d1 := hclose _ ma u mu (by rw [Real.dist_eq, abs_sub_lt_iff]; constructor <;> linarith)
  have d2 := hclose _ mb u mu (by rw [Real.dist_eq, abs_sub_lt_iff]; constructor <;> linarith)
  rw [fa, dist_eq_norm] at d1
  rw [fb, dist_eq_norm] at d2
  generalize (c.eval u).2⁻¹ • (c.eval u).1 = q at d1 d2 ⊢
  have e : a + t • (b - a) - q = (1 - t) • (a - q) + t • (b - q) := by module
  rw [e]
  refine le_trans (norm_add_le _ _) ?_
  rw [norm_smul, norm_smul, Real.norm_of_nonneg (by linarith : (0 : ℝ) ≤ 1 - t), Real.norm_of_nonneg ht0]
  nlinarith [mul_le_mul_of_nonneg_left d1.le (by linarith : (0 : ℝ) ≤ 1 - t), mul_le_mul_of_nonneg_left d2.le ht0]

/-- **C114**: with positive weights and inner knots of multiplicity at most the degree, the meshes of the regular tessellation converge to the
surface: for every tolerance there is a number of divisions from which on every point of a triangle is within the tolerance of all the
points of the surface over its grid cell, and every place of the domain lies in the cell of a triangle. -/
theorem C114_mesh_converges {cross : X → X → X} {normalize : X → X} {eps : ℝ} {S : Surface ℝ (X × ℝ)} (h : S.Good eps)
    (hμ : MultAtMost (S.col 0) S.uDegree) (hν : MultAtMost (S.row 0) S.vDegree) (hpu : 0 < S.uDegree) (hpv : 0 < S.vDegree)
    (hw : ∀ row ∈ S.cps, ∀ p ∈ row, 0 < p.2) {δ : ℝ} (hδ : 0 < δ) :
    ∃ n₀, ∀ du dv, n₀ ≤ du → n₀ ≤ dv → ∃ T, S.regularTessellate cross normalize eps du dv = .ok T ∧
      (∀ a b c, (a, b, c) ∈ T.faces → ∃ u₀ u₁ v₀ v₁, S.ulo ≤ u₀ ∧ u₀ < u₁ ∧ u₁ ≤ S.uhi ∧ S.vlo ≤ v₀ ∧ v₀ < v₁ ∧ v₁ ≤ S.vhi ∧
        ∃ pa pb pc, T.points[a]? = some pa ∧ T.points[b]? = some pb ∧ T.points[c]? = some pc ∧
        ∀ u v, u₀ ≤ u → u ≤ u₁ → v₀ ≤ v → v ≤ v₁ → ∃ q, S.pointAt eps u v = .ok q ∧
          ∀ x y z : ℝ, 0 ≤ x → 0 ≤ y → 0 ≤ z → x + y + z = 1 → ‖x • pa + y • pb + z • pc - q‖ ≤ δ) ∧
      (∀ u v, S.ulo ≤ u → u ≤ S.uhi → S.vlo ≤ v → v ≤ S.vhi → ∃ q, S.pointAt eps u v = .ok q ∧ ∃ a b c, (a, b, c) ∈ T.faces ∧
        ∃ pa pb pc, T.points[a]? = some pa ∧ T.points[b]? = some pb ∧ T.points[c]? = some pc ∧
        ∀ x y z : ℝ, 0 ≤ x → 0 ≤ y → 0 ≤ z → x + y + z = 1 → ‖x • pa + y • pb + z • pc - q‖ ≤ δ) := by
  have hpos : ∀ u ∈ Set.Icc S.ulo S.uhi, ∀ v ∈ Set.Icc S.vlo S.vhi, (S.eval u v).2 ≠ 0 := fun u hu v hv =>
    (C28_point_at h hw hu.1 hu.2 hv.1 hv.2).2.ne'
  have hcont := (C94_surface_points (r := 0) h hμ hν (by omega) (by omega) hpos).continuousOn
  have huc := ((isCompact_Icc (a := S.ulo) (b := S.uhi)).prod (isCompact_Icc (a := S.vlo) (b := S.vhi))).uniformContinuousOn_of_continuous hcont
  obtain ⟨η, hη, hclose⟩ := Metric.uniformContinuousOn_iff.1 huc δ hδ
  have hdu : S.ulo < S.uhi := by have := (h.col 0).pre.dom; rwa [col_hi] at this
  have hdv : S.vlo < S.vhi := by have := (h.isoU 0).pre.dom; rwa [isoU_hi] at this
  obtain ⟨m, hm⟩ := exists_nat_gt (((S.uhi - S.ulo) + (S.vhi - S.vlo)) / η)
  refine ⟨m + 1, ?_⟩
  intro du dv hdu' hdv'
  obtain ⟨T, eT, -, -, -, hF, hV⟩ := C34_vertices (cross := cross) (normalize := normalize) h hw (show 0 < du by omega) (show 0 < dv by omega) hpu hpv
  have hm0 : (0 : ℝ) ≤ m := Nat.cast_nonneg m
  have hum : (m : ℝ) + 1 ≤ du := by exact_mod_cast hdu'
  have hvm : (m : ℝ) + 1 ≤ dv := by exact_mod_cast hdv'
  rw [div_lt_iff₀ hη] at hm
  have hsu : (S.uhi - S.ulo) / du < η := by
    rw [div_lt_iff₀ (by linarith)]
    nlinarith
  have hsv : (S.vhi - S.vlo) / dv < η := by
    rw [div_lt_iff₀ (by linarith)]
    nlinarith
  set su := (S.uhi - S.ulo) / du with hsud
  set sv := (S.vhi - S.vlo) / dv with hsvd
  have hsu0 : 0 < su := div_pos (by linarith) (by linarith)
  have hsv0 : 0 < sv := div_pos (by linarith) (by linarith)
  have hsue : su * du = S.uhi - S.ulo := div_mul_cancel₀ _ (by linarith)
  have hsve : sv * dv = S.vhi - S.vlo := div_mul_cancel₀ _ (by linarith)
  have hnode : ∀ i j : ℕ, i ≤ du → j ≤ dv → (S.ulo ≤ S.ulo + i * su ∧ S.ulo + i * su ≤ S.uhi) ∧ (S.vlo ≤ S.vlo + j * sv ∧ S.vlo + j * sv ≤ S.vhi) := by
    intro i j hi hj
    have a1 : (i : ℝ) ≤ du := by exact_mod_cast hi
    have a2 : (j : ℝ) ≤ dv := by exact_mod_cast hj
    have a3 : (0 : ℝ) ≤ i := Nat.cast_nonneg i
    have a4 : (0 : ℝ) ≤ j := Nat.cast_nonneg j
    have := mul_le_mul_of_nonneg_right a1 hsu0.le
    have := mul_le_mul_of_nonneg_right a2 hsv0.le
    have := mul_nonneg a3 hsu0.le
    have := mul_nonneg a4 hsv0.le
    refine ⟨⟨?_, ?_⟩, ?_, ?_⟩ <;> linarith
  -- a vertex of a cell is near to every point over the cell
  have near : ∀ i j i' j' : ℕ, i < du → j < dv → (i' = i ∨ i' = i + 1) → (j' = j ∨ j' = j + 1) → ∃ p, T.points[i' * (dv + 1) + j']? = some p ∧
      ∀ u v, S.ulo + i * su ≤ u → u ≤ S.ulo + ((i : ℝ) + 1) * su → S.vlo + j * sv ≤ v → v ≤ S.vlo + ((j : ℝ) + 1) * sv →
      ‖p - (S.eval u v).2⁻¹ • (S.eval u v).1‖ < δ := by
    intro i j i' j' hi hj hi' hj'
    have hi2 : i' ≤ du := by omega
    have hj2 : j' ≤ dv := by omega
    obtain ⟨u', v', p, n, rfl, rfl, -, hp, ep, -, -⟩ := hV i' j' hi2 hj2
    obtain ⟨⟨n1, n2⟩, n3, n4⟩ := hnode i' j' hi2 hj2
    refine ⟨p, hp, ?_⟩
    intro u v u1 u2 v1 v2
    obtain ⟨⟨m1, -⟩, m3, -⟩ := hnode i j (by omega) (by omega)
    obtain ⟨⟨-, m2⟩, -, m4⟩ := hnode (i + 1) (j + 1) (by omega) (by omega)
    push_cast at m2 m4
    have := hclose (S.ulo + i' * su, S.vlo + j' * sv) ⟨⟨n1, n2⟩, n3, n4⟩ (u, v) ⟨⟨m1.trans u1, u2.trans m2⟩, m3.trans v1, v2.trans m4⟩ (by
      rw [Prod.dist_eq, max_lt_iff, Real.dist_eq, Real.dist_eq, abs_sub_lt_iff, abs_sub_lt_iff]
      rcases hi' with rfl | rfl <;> rcases hj' with rfl | rfl <;> push_cast <;> refine ⟨⟨?_, ?_⟩, ?_, ?_⟩ <;> linarith)
    rw [dist_eq_norm] at this
    rw [(C28_point_at h hw n1 n2 n3 n4).1] at ep
    injection ep with ep
    rw [← ep]
    exact this
  have hull : ∀ (pa pb pc q : X), ‖pa - q‖ < δ → ‖pb - q‖ < δ → ‖pc - q‖ < δ →
      ∀ x y z : ℝ, 0 ≤ x → 0 ≤ y → 0 ≤ z → x + y + z = 1 → ‖x • pa + y • pb + z • pc - q‖ ≤ δ := by
    intro pa pb pc q ha hb hc x y z hx hy hz hxyz
    have e : x • pa + y • pb + z • pc - q = x • (pa - q) + y • (pb - q) + z • (pc - q) := by
      have : q = (x + y + z) • q := by rw [hxyz, one_smul]
      conv_lhs => rw [this]
      module
    rw [e]
    refine le_trans (norm_add_le _ _) (le_trans (add_le_add (norm_add_le _ _) le_rfl) ?_)
    rw [norm_smul, norm_smul, norm_smul, Real.norm_of_nonneg hx, Real.norm_of_nonneg hy, Real.norm_of_nonneg hz]
    have := mul_le_mul_of_nonneg_left ha.le hx
    have := mul_le_mul_of_nonneg_left hb.le hy
    have := mul_le_mul_of_nonneg_left hc.le hz
    have : x * δ + y * δ + z * δ = δ := by rw [← add_mul, ← add_mul, hxyz, one_mul]
    linarith
  refine ⟨T, eT, ?_, ?_⟩
  · intro a b c hf
    rw [hF] at hf
    obtain ⟨i, j, hi, hj, hf⟩ := mem_gridFaces.1 hf
    obtain ⟨⟨m1, -⟩, m3, -⟩ := hnode i j (by omega) (by omega)
    obtain ⟨⟨-, m2⟩, -, m4⟩ := hnode (i + 1) (j + 1) (by omega) (by omega)
    push_cast at m2 m4
    refine ⟨S.ulo + i * su, S.ulo + ((i : ℝ) + 1) * su, S.vlo + j * sv, S.vlo + ((j : ℝ) + 1) * sv, m1, by linarith, m2, m3, by linarith, m4, ?_⟩
    obtain ⟨p00, e00, h00⟩ := near i j i j hi hj (Or.inl rfl) (Or.inl rfl)
    obtain ⟨p01, e01, h01⟩ := near i j i (j + 1) hi hj (Or.inl rfl) (Or.inr rfl)
    obtain ⟨p10, e10, h10⟩ := near i j (i + 1) j hi hj (Or.inr rfl) (Or.inl rfl)
    obtain ⟨p11, e11, h11⟩ := near i j (i + 1) (j + 1) hi hj (Or.inr rfl) (Or.inr rfl)
    have fin : ∀ pa pb pc, (∀ u v, S.ulo + i * su ≤ u → u ≤ S.ulo + ((i : ℝ) + 1) * su → S.vlo + j * sv ≤ v → v ≤ S.vlo + ((j : ℝ) + 1) * sv →
        ‖pa - (S.eval u v).2⁻¹ • (S.eval u v).1‖ < δ ∧ ‖pb - (S.eval u v).2⁻¹ • (S.eval u v).1‖ < δ ∧ ‖pc - (S.eval u v).2⁻¹ • (S.eval u v).1‖ < δ) →
        ∀ u v, S.ulo + i * su ≤ u → u ≤ S.ulo + ((i : ℝ) + 1) * su → S.vlo + j * sv ≤ v → v ≤ S.vlo + ((j : ℝ) + 1) * sv →
        ∃ q, S.pointAt eps u v = .ok q ∧ ∀ x y z : ℝ, 0 ≤ x → 0 ≤ y → 0 ≤ z → x + y + z = 1 → ‖x • pa + y • pb + z • pc - q‖ ≤ δ := by
      intro pa pb pc hh u v u1 u2 v1 v2
      obtain ⟨a1, a2, a3⟩ := hh u v u1 u2 v1 v2
      exact ⟨_, (C28_point_at h hw (m1.trans u1) (u2.trans m2) (m3.trans v1) (v2.trans m4)).1, hull _ _ _ _ a1 a2 a3⟩
    rcases hf with hf | hf <;> simp only [Prod.mk.injEq] at hf <;> obtain ⟨rfl, rfl, rfl⟩ := hf
    · exact ⟨p00, p11, p01, e00, e11, e01, fin _ _ _ fun u v u1 u2 v1 v2 => ⟨h00 u v u1 u2 v1 v2, h11 u v u1 u2 v1 v2, h01 u v u1 u2 v1 v2⟩⟩
    · exact ⟨p00, p10, p11, e00, e10, e11, fin _ _ _ fun u v u1 u2 v1 v2 => ⟨h00 u v u1 u2 v1 v2, h10 u v u1 u2 v1 v2, h11 u v u1 u2 v1 v2⟩⟩
  · intro u v u1 u2 v1 v2
    refine ⟨_, (C28_point_at h hw u1 u2 v1 v2).1, ?_⟩
    obtain ⟨i, hi, ia, ib⟩ := exists_cell (d := du) (x := (u - S.ulo) / su) (by omega) (div_nonneg (by linarith) hsu0.le) (by
      rw [div_le_iff₀ hsu0]; linarith)
    obtain ⟨j, hj, ja, jb⟩ := exists_cell (d := dv) (x := (v - S.vlo) / sv) (by omega) (div_nonneg (by linarith) hsv0.le) (by
      rw [div_le_iff₀ hsv0]; linarith)
    rw [le_div_iff₀ hsu0] at ia
    rw [div_le_iff₀ hsu0] at ib
    rw [le_div_iff₀ hsv0] at ja
    rw [div_le_iff₀ hsv0] at jb
    obtain ⟨p00, e00, h00⟩ := near i j i j hi hj (Or.inl rfl) (Or.inl rfl)
    obtain ⟨p01, e01, h01⟩ := near i j i (j + 1) hi hj (Or.inl rfl) (Or.inr rfl)
    obtain ⟨p11, e11, h11⟩ := near i j (i + 1) (j + 1) hi hj (Or.inr rfl) (Or.inr rfl)
    refine ⟨_, _, _, by rw [hF]; exact mem_gridFaces.2 ⟨i, j, hi, hj, Or.inl rfl⟩, p00, p11, p01, e00, e11, e01, ?_⟩
    exact hull _ _ _ _ (h00 u v (by linarith) (by linarith) (by linarith) (by linarith)) (h11 u v (by linarith) (by linarith) (by linarith) (by linarith))
      (h01 u v (by linarith) (by linarith) (by linarith) (by linarith))

end real

/-! ### Witnesses -/

theorem MultAtMost.mono {X : Type} [NormedAddCommGroup X] [NormedSpace ℝ X] {c : Curve ℝ X} {eps : ℝ} (h : c.Good eps) {μ μ' : ℕ} (hμ : MultAtMost c μ)
    (hle : μ ≤ μ') : MultAtMost c μ' := by
  intro j hj h1 h2
  have hs : kf c.knots (j + μ) ≤ kf c.knots (j + μ') := h.pre.mono _ _ (by omega) (by have := h.knots_len; have := h.cps_pos; omega)
  exact lt_of_lt_of_le (hμ j (by omega) h1 (lt_of_le_of_lt hs h2)) hs

/-- A curve with equal weights. -/
def exLevel : Curve ℚ ((ℚ × ℚ) × ℚ) := { exCurve with cps := [((0, 0), 2), ((2, 4), 2), ((3, 1), 2), ((4, 4), 2), ((5, 0), 2), ((6, 3), 2)] }

theorem exLevel_good : exLevel.Good (1/1000) where
  cps_pos := by decide
  knots_len := exCurve_good.knots_len
  good := exCurve_good.good

theorem exLevel_legs : ∀ i, i + 1 < exLevel.cps.length →
    (exLevel.degree : ℚ) * (fun x : ℚ × ℚ => |x.1| + |x.2|) (proj (exLevel.cps.getD (i + 1) 0) - proj (exLevel.cps.getD i 0)) ≤
      6 * (kf exLevel.knots (i + 1 + exLevel.degree) - kf exLevel.knots (i + 1)) := by
  intro i hi
  have hi' : i < 5 := by simp [exLevel] at hi; omega
  exact (by decide +kernel : ∀ i < 5, (exLevel.degree : ℚ) * (fun x : ℚ × ℚ => |x.1| + |x.2|) (proj (exLevel.cps.getD (i + 1) 0) - proj (exLevel.cps.getD i 0)) ≤
      6 * (kf exLevel.knots (i + 1 + exLevel.degree) - kf exLevel.knots (i + 1))) i hi'

example : ∃ p q : ℚ × ℚ, exLevel.pointAt (1/1000) (1/2) = .ok p ∧ exLevel.pointAt (1/1000) (5/2) = .ok q ∧ |(q - p).1| + |(q - p).2| ≤ 6 * (5/2 - 1/2) :=
  C114_lipschitz taxi_sublinear exLevel_good (by decide) (w := 2) (by norm_num) (by decide +kernel) exLevel_legs (by decide +kernel) (by norm_num) (by decide +kernel)

/-- With 61 samples over `[0, 3]` the polyline is within `6 / 20` of the curve. -/
example : ∃ r, exLevel.sampleRegularRange (1/1000) 0 3 61 = .ok r ∧ ∀ u : ℚ, 0 ≤ u → u ≤ 1/20 → ∃ q, exLevel.pointAt (1/1000) u = .ok q ∧
    ∀ a b : ℚ × ℚ, r[0]? = some a → r[1]? = some b → |(a + (1/2 : ℚ) • (b - a) - q).1| + |(a + (1/2 : ℚ) • (b - a) - q).2| ≤ 3/10 := by
  obtain ⟨r, er, -, hr⟩ := C114_samples (n := 61) (start := 0) (stop := 3) taxi_sublinear (fun x => by simp) exLevel_good (by decide) (w := 2) (by norm_num)
    (by decide +kernel) (by norm_num) exLevel_legs (by decide +kernel) (by norm_num) (by decide +kernel) (by norm_num)
  refine ⟨r, er, fun u h1 h2 => ?_⟩
  obtain ⟨q, eq, hq⟩ := hr 0 (by norm_num) u (by norm_num; exact h1) (by norm_num; linarith)
  exact ⟨q, eq, fun a b ha hb => le_trans (hq a b ha hb (1/2) (by norm_num) (by norm_num)) (by norm_num)⟩

/-- The parameter itself as a quadratic curve: the control points are the knot averages. -/
example {u : ℚ} (h1 : 0 ≤ u) (h2 : u ≤ 2) :
    ({ degree := 2, cps := [(0, 1), (1/2, 1), (3/2, 1), (2, 1)], knots := [0, 0, 0, 1, 2, 2, 2] } : Curve ℚ (ℚ × ℚ)).pointAt (1/1000) u = .ok u := by
  refine C114_averages (w := 1) ⟨by decide, by decide, ?_⟩ (by decide) (by norm_num) ?_ (by exact h1) (by exact h2)
  · exact exSurf_good.u_good
  · intro i hi
    have hi' : i < 4 := hi
    exact (by decide +kernel : ∀ i < 4, [((0 : ℚ), (1 : ℚ)), (1/2, 1), (3/2, 1), (2, 1)].getD i 0 =
      homog (((Finset.range 2).sum fun r => kf ([0, 0, 0, 1, 2, 2, 2] : List ℚ) (i + r + 1)) / (2 : ℕ)) 1) i hi'

example {δ : ℝ} (hδ : 0 < δ) : ∃ n₀, ∀ n, n₀ ≤ n → ∃ r, exSmooth.sampleRegularRange (1/1000) exSmooth.lo exSmooth.hi n = .ok r ∧ r.length = n := by
  obtain ⟨n₀, hn⟩ := C114_converges exSmooth_good (exSmooth_mult.mono exSmooth_good (by decide)) (by simp [exSmooth]) hδ
  exact ⟨n₀, fun n h => by obtain ⟨r, e, l, -⟩ := hn n h; exact ⟨r, e, l⟩⟩

example (cross : (ℝ × ℝ × ℝ) → (ℝ × ℝ × ℝ) → ℝ × ℝ × ℝ) (normalize : (ℝ × ℝ × ℝ) → ℝ × ℝ × ℝ) {δ : ℝ} (hδ : 0 < δ) : ∃ n₀, ∀ du dv, n₀ ≤ du → n₀ ≤ dv →
    ∃ T, exVault.regularTessellate cross normalize (1/1000) du dv = .ok T ∧ ∃ q, exVault.pointAt (1/1000) (1/3) (1/7) = .ok q ∧
      ∃ a b c, (a, b, c) ∈ T.faces ∧ ∃ pa, T.points[a]? = some pa ∧ ‖pa - q‖ ≤ δ := by
  obtain ⟨n₀, hn⟩ := C114_mesh_converges (cross := cross) (normalize := normalize) exVault_good
    (exVault_mult.1.mono (exVault_good.col 0) (by simp [exVault])) (exVault_mult.2.mono (exVault_good.row exVault_good.rows_pos) (by simp [exVault]))
    (by simp [exVault]) (by simp [exVault]) exVault_weights hδ
  refine ⟨n₀, fun du dv h1 h2 => ?_⟩
  obtain ⟨T, eT, -, hc⟩ := hn du dv h1 h2
  obtain ⟨q, eq, a, b, c, hf, pa, pb, pc, ea, -, -, hb⟩ := hc (1/3) (1/7) (by norm_num [exVault, Surface.ulo, kf]) (by norm_num [exVault, Surface.uhi, kf])
    (by norm_num [exVault, Surface.vlo, kf]) (by norm_num [exVault, Surface.vhi, Surface.cols, kf])
  have := hb 1 0 0 (by norm_num) (by norm_num) (by norm_num) (by norm_num)
  simp only [one_smul, zero_smul, add_zero] at this
  exact ⟨T, eT, q, eq, a, b, c, hf, pa, ea, this⟩

end Curvo.Props

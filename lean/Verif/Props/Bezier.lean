/-
  Property theorems about the decomposition into Bezier segments: C23.
-/
import Verif.Props.AddKnot

set_option linter.unusedSectionVars false

namespace Curvo.Props

open Curvo Curvo.Knots Curvo.Spec Curvo.Curve

variable {K : Type} [Field K] [LinearOrder K] [IsStrictOrderedRing K]
variable {W : Type} [AddCommGroup W] [Module K W]

/-! ### C23 -/

theorem sep_of {eps : K} {ks : List K} (hsep : ∀ x ∈ ks, ∀ y ∈ ks, x ≠ y → eps < |x - y|) {x y : K}
    (hx : x ∈ ks) (hy : y ∈ ks) (h : |y - x| < eps) : y = x := by
  by_contra hne
  exact absurd h (not_lt.2 (hsep y hy x hx hne).le)

/-- The refinement loop raises the multiplicity of every listed knot. -/
theorem decompose_fold {eps : K} {req : ℕ} {ks : List K} {a b : K}
    (hsep : ∀ x ∈ ks, ∀ y ∈ ks, x ≠ y → eps < |x - y|) :
    ∀ (ms : List (K × ℕ)) (c : Curve K (W × K)), c.Good eps → c.lo = a → c.hi = b →
      (∀ y ∈ c.knots, y ∈ ks) → (∀ m ∈ ms, m.2 < req → m.1 ∈ ks ∧ a < m.1 ∧ m.1 < b) →
      ∃ c', ms.foldlM (decomposeRefine eps req) c = .ok c' ∧ c'.Good eps ∧
        Refines c c' (ms.flatMap fun m => List.replicate (req - m.2) m.1) ∧ Hull c c' := by
  intro ms
  induction ms with
  | nil => intro c h _ _ _ _; exact ⟨c, rfl, h, by simpa using Refines.refl h.pre, Hull.refl _⟩
  | cons m ms ih =>
    intro c h hlo hhi hk hm
    rw [List.foldlM_cons, List.flatMap_cons]
    by_cases hlt : m.2 < req
    · obtain ⟨h1, h2, h3⟩ := hm m (by simp) hlt
      have hin : ∀ x ∈ List.replicate (req - m.2) m.1, x = m.1 := fun x hx => List.eq_of_mem_replicate hx
      have hs1 : ∀ x ∈ List.replicate (req - m.2) m.1,
          ∀ y ∈ List.replicate (req - m.2) m.1 ++ c.knots, |y - x| < eps → y = x := by
        intro x hx y hy hd
        rw [hin x hx] at hd ⊢
        rcases List.mem_append.1 hy with hy | hy
        · exact hin y hy
        · exact sep_of hsep h1 (hk y hy) hd
      obtain ⟨c1, e1, r1, u1⟩ := tryRefineKnot_refines_hull h (xs := List.replicate (req - m.2) m.1)
        (by simp [List.pairwise_replicate]) (by intro x hx; rw [hin x hx, hlo, hhi]; exact ⟨h2.le, h3.le⟩) hs1
      have g1 : c1.Good eps := r1.good h (by intro x hx; rw [hin x hx, hlo, hhi]; exact ⟨h2, h3⟩)
        (fun x hx y hy => hs1 x hx y (List.mem_append_right _ hy))
      obtain ⟨c2, e2, g2, r2, u2⟩ := ih c1 g1 (by rw [r1.lo, hlo]) (by rw [r1.hi, hhi])
        (by
          intro y hy
          rcases List.mem_append.1 (r1.knots.subset hy) with hy | hy
          · rw [hin y hy]; exact h1
          · exact hk y hy) (fun m' hm' => hm m' (by simp [hm']))
      refine ⟨c2, ?_, g2, r1.trans r2, u1.trans u2⟩
      rw [decomposeRefine, if_pos hlt, e1, ok_bind, e2]
    · obtain ⟨c2, e2, g2, r2, u2⟩ := ih c h hlo hhi hk (fun m' hm' => hm m' (by simp [hm']))
      refine ⟨c2, ?_, g2, ?_, u2⟩
      · rw [decomposeRefine, if_neg hlt, pure_eq_ok, ok_bind, e2]
      · rw [show req - m.2 = 0 by omega]; simpa using r2

/-- Every knot repeated `req` times. -/
def blowUp (req : ℕ) (xs : List K) : List K := xs.flatMap fun x => List.replicate req x

theorem blowUp_length (req : ℕ) (xs : List K) : (blowUp req xs).length = xs.length * req := by
  induction xs with
  | nil => simp [blowUp]
  | cons x xs ih => simp only [blowUp, List.flatMap_cons, List.length_append] at ih ⊢; rw [ih]; simp; ring

theorem blowUp_get (req : ℕ) : ∀ (xs : List K) (i r : ℕ), i < xs.length → r < req →
    kf (blowUp req xs) (i * req + r) = kf xs i
  | [], i, r, h, _ => by simp at h
  | x :: xs, 0, r, _, hr => by
    simp [blowUp, kf, hr, List.getElem?_append_left]
  | x :: xs, i + 1, r, h, hr => by
    have ih := blowUp_get req xs i r (by simpa using h) hr
    simp only [blowUp, kf, List.flatMap_cons] at ih ⊢
    rw [getD_append_right (by simp; nlinarith), List.length_replicate,
      show (i + 1) * req + r - req = i * req + r by rw [Nat.succ_mul]; omega, ih]
    simp

theorem blowUp_perm {req : ℕ} : ∀ {ms : List (K × ℕ)}, (∀ m ∈ ms, m.2 ≤ req) →
    ((ms.flatMap fun m => List.replicate (req - m.2) m.1) ++ expandRuns ms).Perm
      (blowUp req (ms.map Prod.fst))
  | [], _ => by simp [expandRuns, blowUp]
  | m :: ms, h => by
    have ih := blowUp_perm (ms := ms) (fun x hx => h x (by simp [hx]))
    have hm := h m (by simp)
    simp only [expandRuns, blowUp, List.flatMap_cons, List.map_cons] at ih ⊢
    have e : List.replicate req m.1 = List.replicate (req - m.2) m.1 ++ List.replicate m.2 m.1 := by
      rw [List.replicate_append_replicate]; congr 1; omega
    rw [e, List.append_assoc, List.append_assoc]
    refine List.Perm.append_left _ ?_
    rw [← List.append_assoc]
    refine (List.perm_append_comm.append_right _).trans ?_
    rw [List.append_assoc]
    exact ih.append_left _

theorem blowUp_sorted {req : ℕ} : ∀ {xs : List K}, xs.Pairwise (· < ·) → (blowUp req xs).Pairwise (· ≤ ·)
  | [], _ => by simp [blowUp]
  | x :: xs, h => by
    have h' := List.pairwise_cons.1 h
    have ih := blowUp_sorted (req := req) h'.2
    simp only [blowUp, List.flatMap_cons] at ih ⊢
    rw [List.pairwise_append]
    refine ⟨by simp [List.pairwise_replicate], ih, ?_⟩
    intro a ha b hb
    obtain ⟨y, hy, hb⟩ := List.mem_flatMap.1 hb
    rw [List.eq_of_mem_replicate ha, List.eq_of_mem_replicate hb]
    exact (h'.1 y hy).le

/-- In a sorted list whose first element occurs more than `j` times, index `j` holds it. -/
theorem head_run {ks : List K} (hne : ks ≠ []) (hs : ks.Pairwise (· ≤ ·)) {j : ℕ}
    (h : j + 1 ≤ ks.count (ks.head hne)) : kf ks j = ks.head hne := by
  have hj : j < ks.length := lt_of_lt_of_le h List.count_le_length
  have hle : ∀ y ∈ ks, ks.head hne ≤ y := by
    obtain ⟨a, l, rfl⟩ := List.exists_cons_of_ne_nil hne
    intro y hy
    rcases List.mem_cons.1 hy with rfl | hy
    · exact le_refl _
    · exact (List.pairwise_cons.1 hs).1 y hy
  have hP : ∀ a b : K, a ≤ b → decide (b ≤ ks.head hne) = true → decide (a ≤ ks.head hne) = true := by
    intro a b hab hb; simp only [decide_eq_true_eq] at hb ⊢; exact le_trans hab hb
  have e := (sorted_countP hP hs hj).2 (lt_of_lt_of_le h (by
    rw [List.count]
    apply List.countP_mono_left
    intro y _ hy
    simp only [beq_iff_eq] at hy
    simp [hy]))
  rw [kf_eq hj]
  exact le_antisymm (by simpa using e) (hle _ (List.getElem_mem _))

/-- In a sorted list whose last element occurs more than `j` times, the index `j` from the end holds it. -/
theorem last_run {ks : List K} (hne : ks ≠ []) (hs : ks.Pairwise (· ≤ ·)) {j : ℕ}
    (h : j + 1 ≤ ks.count (ks.getLast hne)) : kf ks (ks.length - 1 - j) = ks.getLast hne := by
  have hj : j < ks.length := lt_of_lt_of_le h List.count_le_length
  have hle : ∀ y ∈ ks, y ≤ ks.getLast hne := by
    intro y hy
    obtain ⟨i, hi, rfl⟩ := List.mem_iff_getElem.1 hy
    rw [List.getLast_eq_getElem]
    rcases Nat.lt_or_eq_of_le (show i ≤ ks.length - 1 by omega) with hlt | heq
    · exact List.pairwise_iff_getElem.1 hs i (ks.length - 1) hi (by omega) hlt
    · simp [heq]
  have hP : ∀ a b : K, a ≤ b → decide (b < ks.getLast hne) = true → decide (a < ks.getLast hne) = true := by
    intro a b hab hb; simp only [decide_eq_true_eq] at hb ⊢; exact lt_of_le_of_lt hab hb
  have hcount : ks.countP (fun y => decide (y < ks.getLast hne)) + ks.count (ks.getLast hne) = ks.length := by
    have := List.length_eq_countP_add_countP (fun y => decide (y < ks.getLast hne)) (l := ks)
    rw [this]
    congr 1
    rw [List.count]
    apply List.countP_congr
    intro y hy
    simp only [beq_iff_eq, decide_eq_true_eq, Bool.decide_eq_true, decide_not, Bool.not_eq_true',
      decide_eq_false_iff_not, not_lt]
    exact ⟨fun e => e ▸ le_refl _, fun e => le_antisymm (hle y hy) e⟩
  have hidx : ks.length - 1 - j < ks.length := by omega
  have e := (sorted_countP hP hs hidx).not.2 (by omega)
  rw [kf_eq hidx]
  exact le_antisymm (hle _ (List.getElem_mem _)) (by simpa using e)


/-- The `i`-th slice of a refined curve. -/
def segOf (c : Curve K (W × K)) (degree i : ℕ) : Curve K (W × K) where
  degree := degree
  cps := (c.cps.take (i * (degree + 1) + (degree + 1))).drop (i * (degree + 1))
  knots := (c.knots.take (i * (degree + 1) + (degree + 1) * 2)).drop (i * (degree + 1))

/-- What the decomposition of a clamped curve computes. -/
theorem decompose_spec {eps : K} {c : Curve K (W × K)} (h : c.Good eps)
    (hsep : ∀ x ∈ c.knots, ∀ y ∈ c.knots, x ≠ y → eps < |x - y|)
    (hclamped : c.isClamped eps = .ok true) (hcount : ∀ x ∈ c.knots, c.knots.count x ≤ c.degree + 1) :
    ∃ (c' : Curve K (W × K)) (xs ys : List K) (k : ℕ),
      c.tryDecomposeBezierSegments eps = .ok ((List.range k).map (segOf c' c.degree)) ∧
      (Refines c c' ys ∧ Hull c c') ∧ c'.knots = blowUp (c.degree + 1) xs ∧ xs.length = k + 1 ∧ 1 ≤ k ∧
      xs.Pairwise (· < ·) ∧ (∀ x, x ∈ xs ↔ x ∈ c.knots) ∧ kf xs 0 = c.lo ∧ kf xs k = c.hi := by
  have hpre := h.pre
  have hl := hpre.knots_len
  have hd := hpre.deg_lt
  have heps := h.good.eps_nonneg
  have hne : c.knots ≠ [] := by intro e; rw [e] at hl; simp at hl
  obtain ⟨ms, em, hrun, hinc, hpos⟩ := C06_multiplicity_runs heps hne hpre.sorted hsep
  obtain ⟨b, eb, hb⟩ := C06_is_clamped heps hne hpre.sorted hsep c.degree
  have hbt : b = true := by
    have : (Except.ok b : Res Bool) = .ok true := eb.symm.trans hclamped
    simpa using this
  obtain ⟨hc1, hc2⟩ := hb.1 hbt
  have hfirst := head_run hne hpre.sorted hc1
  have hlast := last_run hne hpre.sorted hc2
  rw [show c.knots.length - 1 - c.degree = c.cps.length by omega] at hlast
  have hlo : c.lo = c.knots.head hne := hfirst
  have hhi : c.hi = c.knots.getLast hne := hlast
  have hmem : ∀ x, x ∈ ms.map Prod.fst ↔ x ∈ c.knots := by
    intro x
    rw [← hrun]
    simp only [expandRuns, List.mem_map, List.mem_flatMap, List.mem_replicate]
    constructor
    · rintro ⟨m, hm, rfl⟩; exact ⟨m, hm, by have := hpos m hm; omega, rfl⟩
    · rintro ⟨m, hm, _, rfl⟩; exact ⟨m, hm, rfl⟩
  have hcnt : ∀ m ∈ ms, c.knots.count m.1 = m.2 := by
    intro m hm; have := count_expandRuns hinc m hm; rwa [hrun] at this
  have hmk : ∀ m ∈ ms, m.1 ∈ c.knots := fun m hm => (hmem _).1 (List.mem_map_of_mem hm)
  have hbnd : ∀ x ∈ c.knots, c.knots.head hne ≤ x ∧ x ≤ c.knots.getLast hne := by
    intro x hx
    obtain ⟨i, hi, rfl⟩ := List.mem_iff_getElem.1 hx
    have hm := mono_of_sorted (m := c.knots.length - 1) hpre.sorted (by omega)
    rw [List.head_eq_getElem, List.getLast_eq_getElem, ← kf_eq, ← kf_eq, ← kf_eq]
    exact ⟨hm _ _ (by omega) (by omega), hm _ _ (by omega) (by omega)⟩
  obtain ⟨c', e', g', r', hull'⟩ := decompose_fold (req := c.degree + 1) (a := c.lo) (b := c.hi) hsep ms c h rfl rfl
    (fun _ hy => hy) (by
      intro m hm hlt
      have hmk := hmk m hm
      have hmc := hcnt m hm
      refine ⟨hmk, ?_, ?_⟩
      · refine lt_of_le_of_ne (by rw [hlo]; exact (hbnd _ hmk).1) ?_
        intro e; rw [hlo] at e; rw [e] at hc1; omega
      · refine lt_of_le_of_ne (by rw [hhi]; exact (hbnd _ hmk).2) ?_
        intro e; rw [hhi] at e; rw [← e] at hc2; omega)
  have hk' : c'.knots = blowUp (c.degree + 1) (ms.map Prod.fst) := by
    apply sorted_ext r'.pre.sorted (blowUp_sorted hinc)
    refine r'.knots.trans ?_
    have := blowUp_perm (req := c.degree + 1) (ms := ms) (by
      intro m hm; rw [← hcnt m hm]; exact hcount _ (hmk m hm))
    rwa [hrun] at this
  have hlen' : c'.knots.length = ms.length * (c.degree + 1) := by rw [hk', blowUp_length, List.length_map]
  have hl' := r'.pre.knots_len
  have hdeg' := r'.degree
  have hd' := r'.pre.deg_lt
  obtain ⟨k, hk⟩ : ∃ k, ms.length = k + 1 := by
    refine ⟨ms.length - 1, ?_⟩
    have : ms.length ≠ 0 := by intro e; rw [e] at hlen'; omega
    omega
  have hcps : c'.cps.length = k * (c.degree + 1) := by
    rw [hk, Nat.succ_mul] at hlen'; omega
  have hk1 : 1 ≤ k := by
    rcases Nat.eq_zero_or_pos k with e | e
    · rw [e] at hcps; omega
    · exact e
  have hxl : (ms.map Prod.fst).length = k + 1 := by simp [hk]
  refine ⟨c', ms.map Prod.fst, _, k, ?_, ⟨r', hull'⟩, hk', hxl, hk1, hinc, hmem, ?_, ?_⟩
  · unfold tryDecomposeBezierSegments
    have edeg : c'.degree = c.degree := hdeg'
    rw [hclamped]
    simp only [ok_bind, if_true, pure_eq_ok]
    rw [em]
    simp only [ok_bind]
    rw [e']
    simp only [ok_bind]
    rw [hlen', Nat.mul_div_cancel _ (Nat.succ_pos _), hk, subR_eq_ok (by omega)]
    simp only [ok_bind, Nat.add_sub_cancel]
    rw [mapM_ok (g := segOf c' c.degree)]
    · simp only [ok_bind, List.length_map, List.length_range]
      by_cases hk2 : k ≤ 1
      · have : k = 1 := by omega
        subst this
        rw [if_pos (le_refl _)]
        congr 1
        simp only [List.range_one, List.map_cons, List.map_nil]
        congr 1
        rw [Nat.one_mul] at hcps
        rw [hk] at hlen'
        simp only [segOf, Nat.zero_mul, Nat.zero_add, List.drop_zero]
        rw [List.take_of_length_le (by omega), List.take_of_length_le (by omega), ← edeg]
      · rw [if_neg hk2]
    · intro i hi
      have hi := List.mem_range.1 hi
      have hi' : (i + 1) * (c.degree + 1) ≤ k * (c.degree + 1) := Nat.mul_le_mul_right _ hi
      rw [Nat.succ_mul] at hi'
      rw [hk, Nat.succ_mul] at hlen'
      rw [sliceR_eq_ok (by omega) (by omega), sliceR_eq_ok (by omega) (by omega)]
      rfl
  · have : kf c'.knots (0 * (c.degree + 1) + c.degree) = kf (ms.map Prod.fst) 0 := by
      rw [hk']; exact blowUp_get _ _ _ _ (by omega) (by omega)
    rw [← this, Nat.zero_mul, Nat.zero_add, ← r'.lo, ← hdeg']; rfl
  · have : kf c'.knots (k * (c.degree + 1) + 0) = kf (ms.map Prod.fst) k := by
      rw [hk']; exact blowUp_get _ _ _ _ (by omega) (by omega)
    rw [← this, ← r'.hi, Nat.add_zero, ← hcps]; rfl

theorem segOf_spec {eps : K} {c' : Curve K (W × K)} {xs : List K} {p k i : ℕ} (hp : c'.Pre)
    (heps : 0 ≤ eps) (hdeg : c'.degree = p) (hk : c'.knots = blowUp (p + 1) xs) (hx : xs.length = k + 1)
    (hi : i < k) (hgap : kf xs i + eps ≤ kf xs (i + 1)) (hlt : kf xs i < kf xs (i + 1)) :
    (segOf c' p i).cps.length = p + 1 ∧
    (segOf c' p i).knots = List.replicate (p + 1) (kf xs i) ++ List.replicate (p + 1) (kf xs (i + 1)) ∧
    Sub c' (segOf c' p i) (i * (p + 1)) ∧ (segOf c' p i).Good eps := by
  have hl := hp.knots_len
  have hlk : c'.knots.length = (k + 1) * (p + 1) := by rw [hk, blowUp_length, hx]
  rw [Nat.succ_mul] at hlk
  have hi' : (i + 1) * (p + 1) ≤ k * (p + 1) := Nat.mul_le_mul_right _ hi
  rw [Nat.succ_mul] at hi'
  have h1 : (segOf c' p i).cps.length = p + 1 := by simp only [segOf]; simp; omega
  have hkl : (segOf c' p i).knots.length = 2 * (p + 1) := by simp only [segOf]; simp; omega
  have h2k : ∀ j, j < 2 * (p + 1) → kf (segOf c' p i).knots j = kf c'.knots (j + i * (p + 1)) := by
    intro j hj
    simp only [kf, segOf]
    rw [getD_drop, getD_take (by omega), Nat.add_comm]
  have h3 : ∀ j, j < p + 1 → kf (segOf c' p i).knots j = kf xs i := by
    intro j hj
    rw [h2k j (by omega), hk, Nat.add_comm j, blowUp_get _ _ _ _ (by omega) hj]
  have h4 : ∀ j, p + 1 ≤ j → j < 2 * (p + 1) → kf (segOf c' p i).knots j = kf xs (i + 1) := by
    intro j hj1 hj2
    have := blowUp_get (p + 1) xs (i + 1) (j - (p + 1)) (by omega) (by omega)
    rw [h2k j (by omega), hk, ← this]
    congr 1; rw [Nat.succ_mul]; omega
  refine ⟨h1, ?_, ⟨hdeg.symm, ?_, ?_, by omega⟩, ⟨by omega, by show _ = _ + p + 1; omega, ?_⟩⟩
  · apply ext_getD (d := 0) (by rw [hkl]; simp; omega)
    intro t htl
    rw [hkl] at htl
    by_cases ht : t < p + 1
    · rw [getD_append_left (by simpa using ht)]
      refine (h3 t ht).trans ?_
      simp [ht]
    · rw [getD_append_right (by simpa using ht)]
      refine (h4 t (by omega) htl).trans ?_
      have : t - (p + 1) < p + 1 := by omega
      simp [this]
  · intro j hj
    have hj : j ≤ (segOf c' p i).cps.length + p := hj
    exact h2k j (by omega)
  · intro j hj
    simp only [segOf]
    rw [getD_drop, getD_take (by omega), Nat.add_comm]
  · rw [h1]
    refine ⟨heps, by show p ≤ p; omega, ?_, ?_, ?_, ?_, ?_⟩
    · intro a b hab hb
      have hb : b ≤ p + 1 - 1 + p + 1 := hb
      by_cases hb' : b < p + 1
      · rw [h3 a (by omega), h3 b hb']
      · rw [h4 b (by omega) (by omega)]
        by_cases ha : a < p + 1
        · rw [h3 a ha]; exact hlt.le
        · rw [h4 a (by omega) (by omega)]
    · show kf _ p < kf _ (p + 1)
      rw [h3 p (by omega), h4 (p + 1) (by omega) (by omega)]; exact hlt
    · show kf _ p < kf _ (p + 1)
      rw [h3 p (by omega), h4 (p + 1) (by omega) (by omega)]; exact hlt
    · show kf _ p + eps ≤ kf _ (p + 1)
      rw [h3 p (by omega), h4 (p + 1) (by omega) (by omega)]; exact hgap
    · show kf _ p + eps ≤ kf _ (p + 1)
      rw [h3 p (by omega), h4 (p + 1) (by omega) (by omega)]; exact hgap

/-- Decomposing a clamped curve whose knots are equal or more than `eps` apart and occur at most
    `degree + 1` times: there is one segment between any two consecutive knot values, each is the Bezier
    form (`degree + 1` control points, two knots of multiplicity `degree + 1`), can be evaluated, and gives
    the points of the curve on its half open interval; the last one also at the end of the domain. -/
theorem C23_segments {eps : K} {c : Curve K (W × K)} (h : c.Good eps)
    (hsep : ∀ x ∈ c.knots, ∀ y ∈ c.knots, x ≠ y → eps < |x - y|)
    (hclamped : c.isClamped eps = .ok true) (hcount : ∀ x ∈ c.knots, c.knots.count x ≤ c.degree + 1) :
    ∃ (segs : List (Curve K (W × K))) (xs : List K),
      c.tryDecomposeBezierSegments eps = .ok segs ∧ xs.Pairwise (· < ·) ∧ (∀ x, x ∈ xs ↔ x ∈ c.knots) ∧
      xs.length = segs.length + 1 ∧ kf xs 0 = c.lo ∧ kf xs segs.length = c.hi ∧
      ∀ i (hi : i < segs.length), segs[i].degree = c.degree ∧ segs[i].cps.length = c.degree + 1 ∧
        segs[i].knots = List.replicate (c.degree + 1) (kf xs i) ++
          List.replicate (c.degree + 1) (kf xs (i + 1)) ∧
        segs[i].Good eps ∧ segs[i].lo = kf xs i ∧ segs[i].hi = kf xs (i + 1) ∧
        ∀ u, kf xs i ≤ u → (u < kf xs (i + 1) ∨ u = c.hi ∧ i + 1 = segs.length ∨
            u = kf xs (i + 1) ∧ ContKnots (kf c.knots) c.degree (c.cps.length - 1)) →
          segs[i].point eps u = c.point eps u := by
  obtain ⟨c', xs, ys, k, e, ⟨hr, _⟩, hk, hx, hk1, hinc, hmem, hx0, hxk⟩ := decompose_spec h hsep hclamped hcount
  refine ⟨_, xs, e, hinc, hmem, by simp [hx], hx0, by simpa using hxk, ?_⟩
  intro i hi
  have hik : i < k := by simpa using hi
  simp only [List.getElem_map, List.getElem_range, List.length_map, List.length_range]
  have hlt : kf xs i < kf xs (i + 1) := by
    rw [kf_eq (by omega), kf_eq (by omega)]
    exact List.pairwise_iff_getElem.1 hinc i (i + 1) (by omega) (by omega) (by omega)
  have hmemi : ∀ j, j ≤ k → kf xs j ∈ c.knots := by
    intro j hj
    rw [← hmem, kf_eq (by omega)]; exact List.getElem_mem _
  have hgap : kf xs i + eps ≤ kf xs (i + 1) := by
    have := hsep _ (hmemi (i + 1) (by omega)) _ (hmemi i (by omega)) hlt.ne'
    rw [abs_of_pos (sub_pos.2 hlt)] at this
    linarith
  obtain ⟨s1, s2, s3, s4⟩ := segOf_spec (eps := eps) hr.pre h.good.eps_nonneg hr.degree hk hx hik hgap hlt
  have hslo : (segOf c' c.degree i).lo = kf xs i := by
    show kf (segOf c' c.degree i).knots c.degree = _
    rw [s2]; simp only [kf]; rw [getD_append_left (by simp)]; simp
  have hshi : (segOf c' c.degree i).hi = kf xs (i + 1) := by
    show kf (segOf c' c.degree i).knots (segOf c' c.degree i).cps.length = _
    rw [s2, s1]; simp only [kf]; rw [getD_append_right (by simp)]; simp
  refine ⟨rfl, s1, s2, s4, hslo, hshi, ?_⟩
  have hxmono : ∀ a b, a ≤ b → b ≤ k → kf xs a ≤ kf xs b := by
    intro a b hab hb
    rcases Nat.lt_or_eq_of_le hab with hl | rfl
    · rw [kf_eq (by omega), kf_eq (by omega)]
      exact (List.pairwise_iff_getElem.1 hinc a b (by omega) (by omega) hl).le
    · exact le_refl _
  intro u hu1 hu2
  have hule : u ≤ kf xs (i + 1) := by
    rcases hu2 with hu | ⟨hu, hl⟩ | ⟨hu, _⟩
    · exact hu.le
    · rw [hu, hl, hxk]
    · exact hu.le
  have hcl : c.lo ≤ u := by rw [← hx0]; exact le_trans (hxmono 0 i (by omega) (by omega)) hu1
  have hch : u ≤ c.hi := by rw [← hxk]; exact le_trans hule (hxmono _ _ (by omega) (by omega))
  rw [point_eq_eval s4 (by rw [hslo]; exact hu1) (by rw [hshi]; exact hule), point_eq_eval h hcl hch]
  congr 1
  have hsin : InSpan (kf (segOf c' c.degree i).knots) (segOf c' c.degree i).hi u c.degree := by
    have ha : kf (segOf c' c.degree i).knots c.degree = kf xs i := hslo
    have hb : kf (segOf c' c.degree i).knots (c.degree + 1) = kf xs (i + 1) := by rw [← s1]; exact hshi
    rw [InSpan, ha, hb, hshi]
    split
    · rename_i he; exact ⟨by rw [he]; exact hlt, hule⟩
    · rename_i he; exact ⟨hu1, lt_of_le_of_ne hule he⟩
  rw [eval_eq_evalB (by omega), (s3.evalB hr.pre.mono (le_refl _) (by rw [s1]; show c.degree < _; omega) hsin).2,
    hshi]
  have hd := h.pre.deg_lt
  have hl := h.knots_len
  rcases lt_or_eq_of_le hule with hult | hueq
  · obtain ⟨s, hps, hs, hin⟩ := h.pre.exists_span hcl hch
    have hin' : InSpan (kf c.knots) (kf xs (i + 1)) u s := by
      refine inSpan_congr ?_ hin
      constructor
      · intro e'
        have := hxmono (i + 1) k (by omega) (by omega)
        rw [hxk, ← e'] at this
        exact absurd hult (not_lt.2 this)
      · intro e'; exact absurd e' hult.ne
    rw [(hr.evalB _ _ s hps hs hin').2, eval_eq_evalB h.cps_pos, evalB_congr h.pre.mono hs hin' hin]
  · rw [← hueq]
    have hulo : c.lo < u := by
      rw [hueq, ← hx0]
      exact lt_of_le_of_lt (hxmono 0 i (by omega) (by omega)) hlt
    obtain ⟨s, hps, hs, hP, hnP⟩ := exists_step (P := fun j => kf c.knots j < u) (p := c.degree)
      (q := c.cps.length) hd.le hulo (not_lt.2 hch)
    have hin : InSpan (kf c.knots) u u s := by
      rw [InSpan, if_pos rfl]; exact ⟨hP, not_lt.1 hnP⟩
    rw [(hr.evalB _ _ s hps (by omega) hin).2]
    have hcase : u = c.hi ∨ ContKnots (kf c.knots) c.degree (c.cps.length - 1) := by
      rcases hu2 with hu | ⟨hu, _⟩ | ⟨_, hu⟩
      · exact absurd hueq hu.ne
      · exact Or.inl hu
      · exact Or.inr hu
    rcases hcase with hu | hcont
    · rw [eval_eq_evalB h.cps_pos, ← hu]
    · rw [evalB_eq_NS h.pre.mono (by omega) hin]
      exact (eval_eq_closed_span h hcont hps (by omega) (lt_of_lt_of_le hP (not_lt.1 hnP)) hP.le
        (not_lt.1 hnP)).symm

/-- The control points of the segments are convex combinations of those of the curve. In particular positive
    weights stay positive. -/
theorem C23_segments_hull {eps : K} {c : Curve K (W × K)} (h : c.Good eps)
    (hsep : ∀ x ∈ c.knots, ∀ y ∈ c.knots, x ≠ y → eps < |x - y|)
    (hclamped : c.isClamped eps = .ok true) (hcount : ∀ x ∈ c.knots, c.knots.count x ≤ c.degree + 1) :
    ∃ segs, c.tryDecomposeBezierSegments eps = .ok segs ∧ ∀ s ∈ segs, Hull c s := by
  obtain ⟨c', xs, ys, k, e, ⟨_, hu⟩, _⟩ := decompose_spec h hsep hclamped hcount
  refine ⟨_, e, ?_⟩
  intro s hs
  obtain ⟨i, _, rfl⟩ := List.mem_map.1 hs
  intro Q hQ hc p hp
  exact hu Q hQ hc p (List.mem_of_mem_take (List.mem_of_mem_drop hp))

/-- For continuous curves (no interior knot of multiplicity above the degree) every segment agrees with
    the curve on its whole closed interval. -/
theorem C23_segments_closed {eps : K} {c : Curve K (W × K)} (h : c.Good eps)
    (hsep : ∀ x ∈ c.knots, ∀ y ∈ c.knots, x ≠ y → eps < |x - y|)
    (hclamped : c.isClamped eps = .ok true) (hcount : ∀ x ∈ c.knots, c.knots.count x ≤ c.degree + 1)
    (hcont : ContKnots (kf c.knots) c.degree (c.cps.length - 1)) :
    ∃ segs, c.tryDecomposeBezierSegments eps = .ok segs ∧
      (∀ i (hi : i < segs.length), ∀ u, segs[i].lo ≤ u → u ≤ segs[i].hi →
        segs[i].point eps u = c.point eps u) ∧
      ∀ u, c.lo ≤ u → u ≤ c.hi → ∃ s ∈ segs, s.lo ≤ u ∧ u ≤ s.hi ∧ s.point eps u = c.point eps u := by
  obtain ⟨segs, xs, e, hinc, hmem, hx, hx0, hxk, hseg⟩ := C23_segments h hsep hclamped hcount
  have hall : ∀ i (hi : i < segs.length), ∀ u, segs[i].lo ≤ u → u ≤ segs[i].hi →
        segs[i].point eps u = c.point eps u := by
    intro i hi u h1 h2
    obtain ⟨_, _, _, _, hlo, hhi, hpt⟩ := hseg i hi
    rw [hlo] at h1
    rw [hhi] at h2
    apply hpt u h1
    rcases lt_or_eq_of_le h2 with h3 | h3
    · exact Or.inl h3
    · exact Or.inr (Or.inr ⟨h3, hcont⟩)
  refine ⟨segs, e, hall, ?_⟩
  intro u h1 h2
  obtain ⟨i, _, hi, hP⟩ : ∃ i, 0 ≤ i ∧ i + 1 ≤ segs.length ∧ kf xs i ≤ u ∧ u ≤ kf xs (i + 1) := by
    rcases lt_or_eq_of_le h2 with h3 | h3
    · obtain ⟨i, a, b, c1, c2⟩ := exists_step (P := fun j => kf xs j ≤ u) (p := 0) (q := segs.length)
        (by omega) (by rw [hx0]; exact h1) (by rw [hxk]; exact not_le.2 h3)
      exact ⟨i, a, b, c1, (not_le.1 c2).le⟩
    · have hpos : 0 < segs.length := by
        rcases Nat.eq_zero_or_pos segs.length with e0 | e0
        · rw [e0, hx0] at hxk; exact absurd hxk h.pre.dom.ne
        · exact e0
      refine ⟨segs.length - 1, by omega, by omega, ?_, ?_⟩
      · rw [h3, ← hxk]
        have : kf xs (segs.length - 1) < kf xs segs.length := by
          rw [kf_eq (by omega), kf_eq (by omega)]
          exact List.pairwise_iff_getElem.1 hinc _ _ (by omega) (by omega) (by omega)
        exact this.le
      · rw [Nat.sub_add_cancel hpos, hxk, h3]
  have hi' : i < segs.length := hi
  obtain ⟨_, _, _, _, hlo, hhi, _⟩ := hseg i hi'
  refine ⟨segs[i], List.getElem_mem _, by rw [hlo]; exact hP.1, by rw [hhi]; exact hP.2, ?_⟩
  exact hall i hi' u (by rw [hlo]; exact hP.1) (by rw [hhi]; exact hP.2)

example : ∃ segs, exCurve.tryDecomposeBezierSegments (1/1000) = .ok segs ∧
    (∀ i (hi : i < segs.length), ∀ u, segs[i].lo ≤ u → u ≤ segs[i].hi →
      segs[i].point (1/1000) u = exCurve.point (1/1000) u) ∧
    ∀ u, exCurve.lo ≤ u → u ≤ exCurve.hi → ∃ s ∈ segs, s.lo ≤ u ∧ u ≤ s.hi ∧
      s.point (1/1000) u = exCurve.point (1/1000) u :=
  C23_segments_closed exCurve_good exKnots_sep (by decide +kernel) (by decide +kernel) exCurve_cont

/-- Witness: an unclamped linear curve with domain [1, 3]. -/
def exUnclamped : Curve ℚ ((ℚ × ℚ) × ℚ) where
  degree := 1
  cps := [((0, 0), 1), ((1, 2), 1), ((3, 3), 1)]
  knots := [0, 1, 2, 3, 4]

/-- For an unclamped curve the segments do not tile the domain: clamping goes to the first and last
    knot, so the segments also cover the parts of the knot range outside the domain. -/
theorem C23_unclamped_covers_more :
    exUnclamped.lo = 1 ∧ exUnclamped.hi = 3 ∧
    ∃ segs, exUnclamped.tryDecomposeBezierSegments (1/1000) = .ok segs ∧
      segs.map (fun s => (s.lo, s.hi)) = [(0, 1), (1, 2), (2, 3), (3, 4)] := by
  refine ⟨by decide +kernel, by decide +kernel, ?_⟩
  have key : (do
      let segs ← exUnclamped.tryDecomposeBezierSegments (1/1000)
      pure (segs.map (fun s => (s.lo, s.hi))) : Res (List (ℚ × ℚ))) =
        .ok [(0, 1), (1, 2), (2, 3), (3, 4)] := by decide +kernel
  obtain ⟨segs, h1, h2⟩ := bind_eq_ok.1 key
  exact ⟨segs, h1, by simpa using h2⟩

end Curvo.Props

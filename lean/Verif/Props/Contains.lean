/-
  C78: points inside closed curves.
-/
import Verif.Props.TraverseParams
import Verif.Model.Contains
import Verif.Props.Curve4
import Verif.Props.LengthReal
import Mathlib.Topology.Order.IntermediateValue
import Mathlib.Topology.Instances.Real.Lemmas
import Mathlib.Data.Set.Card
import Mathlib.Tactic.FinCases
import Mathlib.Tactic.IntervalCases

set_option linter.unusedSectionVars false

namespace Curvo.Props

open Curvo Curvo.Spec Curvo.Contains

/-! ### The pieces a curve is cut into along a ray -/

section cells
variable {K : Type} [Field K] [LinearOrder K] [IsStrictOrderedRing K] {d : ℕ} {eps big : K} {rnd : ℕ → K}

/-- Adjacent pieces, last first, from `hi` down to `lo`. -/
def Desc (lo hi : K) : List (CurveTree K d × Bool) → Prop
  | [] => lo = hi
  | x :: xs => x.1.curve.hi = hi ∧ Desc lo x.1.curve.lo xs

theorem Desc.append {lo m hi : K} : ∀ {xs ys : List (CurveTree K d × Bool)}, Desc m hi xs → Desc lo m ys →
    Desc lo hi (xs ++ ys) := by
  intro xs
  induction xs generalizing hi with
  | nil => intro ys h h'; exact (show m = hi from h) ▸ h'
  | cons x xs ih => intro ys h h'; exact ⟨h.1, ih h.2 h'⟩

/-- A piece is kept (and then short) or is discarded because its box misses the box of `b`. -/
structure Cell (eps big : K) (rnd : ℕ → K) (t0 b : CurveTree K d) (x : CurveTree K d × Bool) : Prop where
  inv : CurveInv eps big rnd t0 x.1
  kept : x.2 = true → x.1.isDividable = .ok false
  away : x.2 = false → ∃ ba bb, x.1.boundingBox big = .ok ba ∧ b.boundingBox big = .ok bb ∧ Box.intersects 0 ba bb = false

theorem traverse_leaf {t0 b : CurveTree K d} (hg : Generic eps big rnd t0) (hr : ∀ n, 0 ≤ rnd n ∧ rnd n ≤ 1)
    (hb : b.isDividable = .ok false) :
    ∀ (fuel : ℕ) (trees : List (CurveTree K d × CurveTree K d)) (pos : ℕ) (pairs : List (CurveTree K d × CurveTree K d)),
      (∀ e ∈ trees, CurveInv eps big rnd t0 e.1 ∧ e.2 = b) →
      traverse (CurveTree.tree eps big rnd) (CurveTree.tree eps big rnd) fuel trees pos = .ok pairs →
      ∃ css : List (List (CurveTree K d × Bool)),
        List.Forall₂ (fun e cs => Desc e.1.curve.lo e.1.curve.hi cs ∧ ∀ x ∈ cs, Cell eps big rnd t0 b x) trees css ∧
        pairs = (css.flatten.filter (·.2)).map fun x => (x.1, b) := by
  intro fuel
  induction fuel with
  | zero =>
    intro trees pos pairs _ h
    cases trees with
    | nil => rw [traverse] at h; obtain rfl := Except.ok.inj h; exact ⟨[], .nil, rfl⟩
    | cons e trees => cases h
  | succ fuel ih =>
    intro trees pos pairs hinv h
    cases trees with
    | nil => rw [traverse] at h; obtain rfl := Except.ok.inj h; exact ⟨[], .nil, rfl⟩
    | cons e trees =>
      obtain ⟨a, b'⟩ := e
      obtain ⟨ia, rfl⟩ := hinv (a, b') (by simp)
      have hrest : ∀ e ∈ trees, CurveInv eps big rnd t0 e.1 ∧ e.2 = b' := fun e he => hinv e (List.mem_cons_of_mem _ he)
      rw [traverse] at h
      obtain ⟨ba, eba, h⟩ := bind_eq_ok.1 h
      obtain ⟨bb, ebb, h⟩ := bind_eq_ok.1 h
      by_cases hi : Box.intersects 0 ba bb = true
      · rw [if_neg (by simpa using hi)] at h
        obtain ⟨va, eva, h⟩ := bind_eq_ok.1 h
        have hb' : (CurveTree.tree eps big rnd).isDividable b' = .ok false := hb
        rw [hb', ok_bind] at h
        cases va
        · simp only at h
          obtain ⟨rest, hr', h⟩ := bind_eq_ok.1 h
          obtain rfl := Except.ok.inj h
          obtain ⟨css, h1, h2⟩ := ih trees pos rest hrest hr'
          refine ⟨[(a, true)] :: css, .cons ⟨⟨rfl, rfl⟩, ?_⟩ h1, by simp [h2]⟩
          intro x hx
          rw [List.mem_singleton.1 hx]
          exact ⟨ia, fun _ => eva, fun h => by cases h⟩
        · simp only at h
          obtain ⟨l, r, ed, g1, g2, w1, w2, q1, q2, q3, q4, -⟩ := split_node (hg a pos ia.reach eva) hr ia.good ia.weights
          have ed' : (CurveTree.tree eps big rnd).tryDivide a pos = .ok ((⟨l, a.tolerance⟩, ⟨r, a.tolerance⟩), pos + 1) := ed
          rw [ed', ok_bind] at h
          obtain ⟨css, h1, h2⟩ := ih _ _ _ (by
            intro e he
            simp only [List.mem_cons] at he
            rcases he with rfl | rfl | he
            · exact ⟨⟨ia.reach.right eva ed', g2, w2, ia.tol⟩, rfl⟩
            · exact ⟨⟨ia.reach.left eva ed', g1, w1, ia.tol⟩, rfl⟩
            · exact hrest e he) h
          obtain ⟨c1, css1, k1, h3, rfl⟩ := List.forall₂_cons_left_iff.1 h1
          obtain ⟨c2, css, k2, h4, rfl⟩ := List.forall₂_cons_left_iff.1 h3
          refine ⟨(c1 ++ c2) :: css, .cons ⟨?_, ?_⟩ h4, ?_⟩
          · have k1 := k1.1
            have k2 := k2.1
            simp only [q3, q4] at k1
            simp only [q1, q2] at k2
            exact k1.append k2
          · intro x hx
            rcases List.mem_append.1 hx with hx | hx
            · exact k1.2 x hx
            · exact k2.2 x hx
          · rw [h2]; simp
      · rw [if_pos (by simpa using hi)] at h
        obtain ⟨css, h1, h2⟩ := ih trees pos pairs hrest h
        refine ⟨[(a, false)] :: css, .cons ⟨⟨rfl, rfl⟩, ?_⟩ h1, by simp [h2]⟩
        intro x hx
        rw [List.mem_singleton.1 hx]
        exact ⟨ia, fun h => (by cases h), fun _ => ⟨ba, bb, eba, ebb, by simpa using hi⟩⟩

end cells

/-! ### Crossing a level -/

section level

/-- The function passes from negative to positive at `z`. -/
def Rises (f : ℝ → ℝ) (z : ℝ) : Prop :=
  ∃ r > 0, (∀ s, z - r < s → s < z → f s < 0) ∧ ∀ s, z < s → s < z + r → 0 < f s

/-- The function passes from positive to negative at `z`. -/
def Falls (f : ℝ → ℝ) (z : ℝ) : Prop :=
  ∃ r > 0, (∀ s, z - r < s → s < z → 0 < f s) ∧ ∀ s, z < s → s < z + r → f s < 0

theorem Rises.not_falls {f : ℝ → ℝ} {z : ℝ} (h : Rises f z) : ¬ Falls f z := by
  rintro ⟨r', h', -, b⟩
  obtain ⟨r, hr, -, a⟩ := h
  have hm : 0 < min r r' := lt_min hr h'
  have h1 := a (z + min r r' / 2) (by linarith) (by have := min_le_left r r'; linarith)
  have h2 := b (z + min r r' / 2) (by linarith) (by have := min_le_right r r'; linarith)
  linarith

theorem Falls.neg {f : ℝ → ℝ} {z : ℝ} (h : Falls f z) : Rises (fun s => - f s) z := by
  obtain ⟨r, hr, a, b⟩ := h
  exact ⟨r, hr, fun s h1 h2 => by have := a s h1 h2; linarith, fun s h1 h2 => by have := b s h1 h2; linarith⟩

theorem sign_const {f : ℝ → ℝ} {a b : ℝ} (hab : a ≤ b) (hc : ContinuousOn f (Set.Icc a b))
    (hz : ∀ s, a ≤ s → s ≤ b → f s ≠ 0) : (0 < f a ↔ 0 < f b) := by
  constructor
  · intro h
    by_contra h'
    obtain ⟨s, hs, e⟩ := intermediate_value_Icc' hab hc (show (0 : ℝ) ∈ Set.Icc (f b) (f a) from ⟨not_lt.1 h', h.le⟩)
    exact hz s hs.1 hs.2 e
  · intro h
    by_contra h'
    obtain ⟨s, hs, e⟩ := intermediate_value_Icc hab hc (show (0 : ℝ) ∈ Set.Icc (f a) (f b) from ⟨not_lt.1 h', h.le⟩)
    exact hz s hs.1 hs.2 e

/-- Left of a rise, up to the next zero, the function is negative. -/
theorem Rises.left {f : ℝ → ℝ} {a z : ℝ} (h : Rises f z) (haz : a < z) (hc : ContinuousOn f (Set.Icc a z))
    (hz : ∀ s, a ≤ s → s < z → f s ≠ 0) : f a < 0 := by
  obtain ⟨r, hr, hl, -⟩ := h
  have hs : ∃ s, a ≤ s ∧ s < z ∧ f s < 0 := by
    refine ⟨max a (z - r / 2), le_max_left _ _, max_lt haz (by linarith), hl _ ?_ (max_lt haz (by linarith))⟩
    exact lt_of_lt_of_le (by linarith) (le_max_right _ _)
  obtain ⟨s, h1, h2, h3⟩ := hs
  have := sign_const h1 (hc.mono (Set.Icc_subset_Icc_right h2.le)) (fun t h1 h2' => hz t h1 (lt_of_le_of_lt h2' h2))
  have ha : ¬ 0 < f a := fun h => absurd (this.1 h) (not_lt.2 h3.le)
  exact lt_of_le_of_ne (not_lt.1 ha) (hz a le_rfl haz)

/-- Right of a rise, up to the next zero, the function is positive. -/
theorem Rises.right {f : ℝ → ℝ} {b z : ℝ} (h : Rises f z) (hzb : z < b) (hc : ContinuousOn f (Set.Icc z b))
    (hz : ∀ s, z < s → s ≤ b → f s ≠ 0) : 0 < f b := by
  obtain ⟨r, hr, -, hl⟩ := h
  have hs : ∃ s, s ≤ b ∧ z < s ∧ 0 < f s := by
    refine ⟨min b (z + r / 2), min_le_left _ _, lt_min hzb (by linarith), hl _ (lt_min hzb (by linarith)) ?_⟩
    exact lt_of_le_of_lt (min_le_right _ _) (by linarith)
  obtain ⟨s, h1, h2, h3⟩ := hs
  exact (sign_const h1 (hc.mono (Set.Icc_subset_Icc_left h2.le)) (fun t h1' h2' => hz t (lt_of_lt_of_le h2 h1') h2')).1 h3

theorem Falls.left {f : ℝ → ℝ} {a z : ℝ} (h : Falls f z) (haz : a < z) (hc : ContinuousOn f (Set.Icc a z))
    (hz : ∀ s, a ≤ s → s < z → f s ≠ 0) : 0 < f a := by
  have := h.neg.left haz hc.neg (fun s h1 h2 => neg_ne_zero.2 (hz s h1 h2))
  linarith

theorem Falls.right {f : ℝ → ℝ} {b z : ℝ} (h : Falls f z) (hzb : z < b) (hc : ContinuousOn f (Set.Icc z b))
    (hz : ∀ s, z < s → s ≤ b → f s ≠ 0) : f b < 0 := by
  have := h.neg.right hzb hc.neg (fun s h1 h2 => neg_ne_zero.2 (hz s h1 h2))
  linarith

/-- The piece `[a, b]` to which a zero belongs: a rise belongs to the piece starting there, a fall to the piece ending
    there. -/
def Owns (f : ℝ → ℝ) (a b z : ℝ) : Prop := (Rises f z ∧ a ≤ z ∧ z < b) ∨ (Falls f z ∧ a < z ∧ z ≤ b)

theorem Owns.mem {f : ℝ → ℝ} {a b z : ℝ} (h : Owns f a b z) : a ≤ z ∧ z ≤ b := by
  rcases h with ⟨-, h1, h2⟩ | ⟨-, h1, h2⟩
  · exact ⟨h1, h2.le⟩
  · exact ⟨h1.le, h2⟩

/-- On a piece with at most one zero, a crossing, the sign test of the code finds exactly the zero that belongs to it. -/
theorem flip_iff {f : ℝ → ℝ} {a b : ℝ} (hab : a < b) (hc : ContinuousOn f (Set.Icc a b))
    (hone : ∀ s t, a ≤ s → s ≤ b → f s = 0 → a ≤ t → t ≤ b → f t = 0 → s = t)
    (hcr : ∀ s, a ≤ s → s ≤ b → f s = 0 → Rises f s ∨ Falls f s) :
    ((0 < f a ↔ 0 < f b) ↔ ∀ z, f z = 0 → ¬ Owns f a b z) ∧
      (¬ (0 < f a ↔ 0 < f b) → ∃ z, f z = 0 ∧ Owns f a b z) := by
  by_cases hex : ∃ z, a ≤ z ∧ z ≤ b ∧ f z = 0
  · obtain ⟨z, h1, h2, h0⟩ := hex
    have hno : ∀ s, a ≤ s → s ≤ b → s ≠ z → f s ≠ 0 := fun s k1 k2 hne e => hne (hone s z k1 k2 e h1 h2 h0)
    have cl : ContinuousOn f (Set.Icc a z) := hc.mono (Set.Icc_subset_Icc_right h2)
    have cr : ContinuousOn f (Set.Icc z b) := hc.mono (Set.Icc_subset_Icc_left h1)
    have hl : ∀ s, a ≤ s → s < z → f s ≠ 0 := fun s k1 k2 => hno s k1 (k2.le.trans h2) k2.ne
    have hr : ∀ s, z < s → s ≤ b → f s ≠ 0 := fun s k1 k2 => hno s (h1.trans k1.le) k2 k1.ne'
    have key : ¬ (0 < f a ↔ 0 < f b) ↔ Owns f a b z := by
      rcases hcr z h1 h2 h0 with h | h
      · have e : Owns f a b z ↔ z < b := by
          constructor
          · rintro (⟨-, -, h⟩ | ⟨h', -⟩)
            · exact h
            · exact absurd h' h.not_falls
          · exact fun h' => Or.inl ⟨h, h1, h'⟩
        rw [e]
        have fa : f a ≤ 0 := by
          rcases eq_or_lt_of_le h1 with rfl | h1
          · exact h0.le
          · exact (h.left h1 cl hl).le
        rcases eq_or_lt_of_le h2 with rfl | h2
        · simp [h0, fa]
        · have := h.right h2 cr hr
          simp [this, fa, h2]
      · have e : Owns f a b z ↔ a < z := by
          constructor
          · rintro (⟨h', -⟩ | ⟨-, h, -⟩)
            · exact absurd h h'.not_falls
            · exact h
          · exact fun h' => Or.inr ⟨h, h', h2⟩
        rw [e]
        have fb : f b ≤ 0 := by
          rcases eq_or_lt_of_le h2 with rfl | h2
          · exact h0.le
          · exact (h.right h2 cr hr).le
        rcases eq_or_lt_of_le h1 with rfl | h1
        · simp [h0, fb]
        · have := h.left h1 cl hl
          simp [this, fb, h1]
    constructor
    · constructor
      · intro hf w hw how
        obtain rfl : w = z := hone w z how.mem.1 how.mem.2 hw h1 h2 h0
        exact key.2 how hf
      · intro h
        by_contra hf
        exact h z h0 (key.1 hf)
    · exact fun hf => ⟨z, h0, key.1 hf⟩
  · have hno : ∀ s, a ≤ s → s ≤ b → f s ≠ 0 := fun s h1 h2 h0 => hex ⟨s, h1, h2, h0⟩
    have := sign_const hab.le hc hno
    exact ⟨⟨fun _ z hz ho => hno z ho.mem.1 ho.mem.2 hz, fun _ => this⟩, fun h => absurd this h⟩

end level

/-! ### The search on a piece -/

section search
variable {eps : ℝ} {c : Curve ℝ ((Fin 2 → ℝ) × ℝ)} {γ : ℝ → Fin 2 → ℝ}

/-- The search ends within `n + 1` steps on a point of the piece that is close to the level. -/
theorem bisect_spec {y md L : ℝ} (hL : 0 ≤ L) {forward : Bool} : ∀ (n : ℕ) (mn mx : ℝ), mn < mx →
    (∀ s, mn ≤ s → s ≤ mx → c.pointAt eps s = .ok (γ s)) →
    (∀ s t, mn ≤ s → s ≤ mx → mn ≤ t → t ≤ mx → |γ s 1 - γ t 1| ≤ L * |s - t|) →
    (if forward then γ mn 1 ≤ y ∧ y < γ mx 1 else γ mx 1 ≤ y ∧ y < γ mn 1) →
    L * (mx - mn) < md * 2 ^ (n + 1) →
    ∃ t, mn ≤ t ∧ t ≤ mx ∧ |γ t 1 - y| < md ∧ bisect eps c y md forward (n + 1) mn mx = .ok (some (γ t, t)) := by
  intro n
  induction n with
  | zero =>
    intro mn mx hm hp hl hs hw
    have t1 : mn ≤ (mn + mx) / 2 := by linarith
    have t2 : (mn + mx) / 2 ≤ mx := by linarith
    refine ⟨(mn + mx) / 2, t1, t2, ?_, ?_⟩
    all_goals
      have e1 := hl _ mn t1 t2 le_rfl hm.le
      have e2 := hl mx _ hm.le le_rfl t1 t2
      rw [abs_of_nonneg (show (0 : ℝ) ≤ (mn + mx) / 2 - mn by linarith)] at e1
      rw [abs_of_nonneg (show (0 : ℝ) ≤ mx - (mn + mx) / 2 by linarith)] at e2
      have e1' := abs_le.1 e1
      have e2' := abs_le.1 e2
      have hw' : L * (mx - mn) < md * 2 := by simpa using hw
      have f1 : L * ((mn + mx) / 2 - mn) < md := by linarith
      have f2 : L * (mx - (mn + mx) / 2) < md := by linarith
      have key : |γ ((mn + mx) / 2) 1 - y| < md := by
        rw [abs_lt]
        cases forward <;> simp only [if_true, Bool.false_eq_true, if_false] at hs <;> constructor <;>
          linarith [hs.1, hs.2, e1'.1, e1'.2, e2'.1, e2'.2]
    · exact key
    · rw [bisect]
      simp only [hp _ t1 t2, ok_bind, if_pos key]; rfl
  | succ n ih =>
    intro mn mx hm hp hl hs hw
    have t1 : mn < (mn + mx) / 2 := by linarith
    have t2 : (mn + mx) / 2 < mx := by linarith
    rw [bisect]
    simp only [hp _ t1.le t2.le, ok_bind]
    by_cases key : |γ ((mn + mx) / 2) 1 - y| < md
    · rw [if_pos key]
      exact ⟨_, t1.le, t2.le, key, rfl⟩
    · rw [if_neg key]
      have hlo := ih mn ((mn + mx) / 2) t1 (fun s h1 h2 => hp s h1 (h2.trans t2.le))
        (fun s t h1 h2 h3 h4 => hl s t h1 (h2.trans t2.le) h3 (h4.trans t2.le))
      have hhi := ih ((mn + mx) / 2) mx t2 (fun s h1 h2 => hp s (t1.le.trans h1) h2)
        (fun s t h1 h2 h3 h4 => hl s t (t1.le.trans h1) h2 (t1.le.trans h3) h4)
      have w1 : L * ((mn + mx) / 2 - mn) < md * 2 ^ (n + 1) := by
        rw [pow_succ] at hw; nlinarith
      have w2 : L * (mx - (mn + mx) / 2) < md * 2 ^ (n + 1) := by
        rw [pow_succ] at hw; nlinarith
      cases forward
      · simp only [Bool.false_eq_true, if_false] at hs hlo hhi ⊢
        by_cases ho : 0 < γ ((mn + mx) / 2) 1 - y
        · simp only [ho, decide_true, Bool.not_true, Bool.false_eq_true, if_false]
          obtain ⟨t, k1, k2, k3, k4⟩ := hhi ⟨hs.1, by linarith⟩ w2
          exact ⟨t, t1.le.trans k1, k2, k3, k4⟩
        · simp only [ho, decide_false, Bool.not_false, if_true]
          obtain ⟨t, k1, k2, k3, k4⟩ := hlo ⟨by linarith, hs.2⟩ w1
          exact ⟨t, k1, k2.trans t2.le, k3, k4⟩
      · simp only [if_true] at hs hlo hhi ⊢
        by_cases ho : 0 < γ ((mn + mx) / 2) 1 - y
        · simp only [ho, decide_true, if_true]
          obtain ⟨t, k1, k2, k3, k4⟩ := hlo ⟨hs.1, by linarith⟩ w1
          exact ⟨t, k1, k2.trans t2.le, k3, k4⟩
        · simp only [ho, decide_false, Bool.false_eq_true, if_false]
          obtain ⟨t, k1, k2, k3, k4⟩ := hhi ⟨by linarith, hs.2⟩ w2
          exact ⟨t, t1.le.trans k1, k2, k3, k4⟩

/-- What happens on a piece, in terms of the signs at its ends. -/
theorem pieceHit_spec {o : Options ℝ} {p : Fin 2 → ℝ} {L : ℝ} (hL : 0 ≤ L) (hc : c.Good eps)
    (hp : ∀ s, c.lo ≤ s → s ≤ c.hi → c.pointAt eps s = .ok (γ s))
    (hl : ∀ s t, c.lo ≤ s → s ≤ c.hi → c.lo ≤ t → t ≤ c.hi → |γ s 1 - γ t 1| ≤ L * |s - t|)
    (hi : 1 ≤ o.maxIters) (hw : L * (c.hi - c.lo) < o.minDist * 2 ^ o.maxIters) :
    ∃ h, pieceHit eps o p c = .ok h ∧
      (∀ x, h = some x → ∃ t, c.lo ≤ t ∧ t ≤ c.hi ∧ x = (γ t, t) ∧ |γ t 1 - p 1| < o.minDist) ∧
      (h.isSome ↔ ¬ (γ c.lo 0 < p 0 ∧ γ c.hi 0 < p 0) ∧ ¬ (0 < γ c.lo 1 - p 1 ↔ 0 < γ c.hi 1 - p 1)) := by
  have hd : c.lo < c.hi := hc.pre.dom
  obtain ⟨n, hn⟩ : ∃ n, o.maxIters = n + 1 := ⟨o.maxIters - 1, by omega⟩
  rw [hn] at hw
  rw [pieceHit, knotsDomain_eq hc, ok_bind, hp _ le_rfl hd.le, ok_bind, hp _ hd.le le_rfl, ok_bind]
  by_cases hx : γ c.lo 0 < p 0 ∧ γ c.hi 0 < p 0
  · rw [if_pos hx]
    exact ⟨none, rfl, by simp, by simp [hx]⟩
  · rw [if_neg hx]
    by_cases h1 : p 1 < γ c.lo 1 <;> by_cases h2 : p 1 < γ c.hi 1
    · refine ⟨none, by simp only [h1, h2, decide_true]; rfl, by simp, by simp [h1, h2]⟩
    · obtain ⟨t, k1, k2, k3, k4⟩ := bisect_spec (forward := false) hL n c.lo c.hi hd hp hl (by simpa using ⟨not_lt.1 h2, h1⟩) hw
      refine ⟨_, by simp only [h1, h2, decide_true, decide_false, hn]; exact k4, ?_, ?_⟩
      · rintro x hx; obtain rfl := Option.some.inj hx; exact ⟨t, k1, k2, rfl, k3⟩
      · simpa [h1, h2] using hx
    · obtain ⟨t, k1, k2, k3, k4⟩ := bisect_spec (forward := true) hL n c.lo c.hi hd hp hl (by simpa using ⟨not_lt.1 h1, h2⟩) hw
      refine ⟨_, by simp only [h1, h2, decide_true, decide_false, hn]; exact k4, ?_, ?_⟩
      · rintro x hx; obtain rfl := Option.some.inj hx; exact ⟨t, k1, k2, rfl, k3⟩
      · simpa [h1, h2] using hx
    · refine ⟨none, by simp only [h1, h2, decide_false]; rfl, by simp, by simp [h1, h2]⟩

end search

/-! ### Counting -/

section count

/-- **Specification**: the parameters at which the curve `γ` over `[lo, hi]` meets the horizontal ray from `p` to the right. -/
def rightCrossings (γ : ℝ → Fin 2 → ℝ) (lo hi : ℝ) (p : Fin 2 → ℝ) : Set ℝ :=
  {z | lo ≤ z ∧ z ≤ hi ∧ γ z 1 = p 1 ∧ p 0 ≤ γ z 0}

/-- A ray in general position at the scale `δ` (the length of the pieces) and `md` (the tolerance): the ends of the curve
    are off the line of the ray, the curve passes through the line wherever it meets it, the parameters where it does are
    more than `δ` apart, within `δ` of each of them the curve stays on one side of `p`, and near different crossings it
    keeps the distance `md`. -/
structure RayGeneral (γ : ℝ → Fin 2 → ℝ) (lo hi δ md : ℝ) (nrm : (Fin 2 → ℝ) → ℝ) (p : Fin 2 → ℝ) : Prop where
  start : γ lo 1 ≠ p 1
  stop : γ hi 1 ≠ p 1
  crosses : ∀ z, lo ≤ z → z ≤ hi → γ z 1 = p 1 → Rises (fun s => γ s 1 - p 1) z ∨ Falls (fun s => γ s 1 - p 1) z
  apart : ∀ z w, lo ≤ z → z ≤ hi → γ z 1 = p 1 → lo ≤ w → w ≤ hi → γ w 1 = p 1 → z ≠ w → δ < |z - w|
  side : ∀ z, lo ≤ z → z ≤ hi → γ z 1 = p 1 → (∀ s, lo ≤ s → s ≤ hi → |s - z| ≤ δ → p 0 ≤ γ s 0) ∨
    ∀ s, lo ≤ s → s ≤ hi → |s - z| ≤ δ → γ s 0 < p 0
  separate : ∀ z w, z ∈ rightCrossings γ lo hi p → w ∈ rightCrossings γ lo hi p → z ≠ w → ∀ s t, lo ≤ s → s ≤ hi →
    lo ≤ t → t ≤ hi → |s - z| ≤ δ → |t - w| ≤ δ → md ≤ nrm (γ s - γ t)

theorem owns_split {f : ℝ → ℝ} {a m b z : ℝ} (h1 : a ≤ m) (h2 : m ≤ b) : Owns f a b z ↔ Owns f a m z ∨ Owns f m b z := by
  constructor
  · rintro (⟨h, k1, k2⟩ | ⟨h, k1, k2⟩)
    · rcases lt_or_ge z m with hm | hm
      · exact Or.inl (Or.inl ⟨h, k1, hm⟩)
      · exact Or.inr (Or.inl ⟨h, hm, k2⟩)
    · rcases le_or_gt z m with hm | hm
      · exact Or.inl (Or.inr ⟨h, k1, hm⟩)
      · exact Or.inr (Or.inr ⟨h, hm, k2⟩)
  · rintro ((⟨h, k1, k2⟩ | ⟨h, k1, k2⟩) | (⟨h, k1, k2⟩ | ⟨h, k1, k2⟩))
    · exact Or.inl ⟨h, k1, k2.trans_le h2⟩
    · exact Or.inr ⟨h, k1, k2.trans h2⟩
    · exact Or.inl ⟨h, h1.trans k1, k2⟩
    · exact Or.inr ⟨h, h1.trans_lt k1, k2⟩

theorem owns_disjoint {f : ℝ → ℝ} {a m b z : ℝ} (h : Owns f a m z) (h' : Owns f m b z) : False := by
  rcases h with ⟨h, k1, k2⟩ | ⟨h, k1, k2⟩ <;> rcases h' with ⟨h', l1, l2⟩ | ⟨h', l1, l2⟩
  · linarith
  · exact h.not_falls h'
  · exact h'.not_falls h
  · linarith

theorem Desc.le : ∀ {cs : List (CurveTree ℝ 2 × Bool)} {lo hi : ℝ}, Desc lo hi cs →
    (∀ x ∈ cs, x.1.curve.lo < x.1.curve.hi) → lo ≤ hi := by
  intro cs
  induction cs with
  | nil => intro lo hi h _; exact (show lo = hi from h).le
  | cons x xs ih =>
    intro lo hi h hx
    have h1 := hx x (by simp)
    have h2 := ih h.2 (fun y hy => hx y (by simp [hy]))
    have h3 := h.1
    linarith

/-- What a piece contributes to the list of hits. -/
structure Contributes (γ : ℝ → Fin 2 → ℝ) (lo hi δ : ℝ) (p : Fin 2 → ℝ) (a b : ℝ) (h : Option ((Fin 2 → ℝ) × ℝ)) : Prop where
  none : h = .none → ∀ z ∈ rightCrossings γ lo hi p, ¬ Owns (fun s => γ s 1 - p 1) a b z
  some : ∀ x, h = .some x → ∃ z ∈ rightCrossings γ lo hi p, Owns (fun s => γ s 1 - p 1) a b z ∧
    (∀ w ∈ rightCrossings γ lo hi p, Owns (fun s => γ s 1 - p 1) a b w → w = z) ∧
    ∃ s, lo ≤ s ∧ s ≤ hi ∧ |s - z| ≤ δ ∧ x = (γ s, s)

/-- The hits of adjacent pieces are as many as the crossings that belong to them, and no two of them are close. -/
theorem count_cells {γ : ℝ → Fin 2 → ℝ} {lo hi δ md : ℝ} {nrm : (Fin 2 → ℝ) → ℝ} {p : Fin 2 → ℝ}
    (hgen : RayGeneral γ lo hi δ md nrm p) {contrib : CurveTree ℝ 2 × Bool → Option ((Fin 2 → ℝ) × ℝ)} :
    ∀ (cs : List (CurveTree ℝ 2 × Bool)) (a b : ℝ), Desc a b cs → (∀ x ∈ cs, x.1.curve.lo < x.1.curve.hi) →
      (∀ x ∈ cs, Contributes γ lo hi δ p x.1.curve.lo x.1.curve.hi (contrib x)) →
      (rightCrossings γ lo hi p ∩ {z | Owns (fun s => γ s 1 - p 1) a b z}).Finite ∧
      (rightCrossings γ lo hi p ∩ {z | Owns (fun s => γ s 1 - p 1) a b z}).ncard = (cs.filterMap contrib).length ∧
      (∀ h ∈ cs.filterMap contrib, ∃ z ∈ rightCrossings γ lo hi p, Owns (fun s => γ s 1 - p 1) a b z ∧
        ∃ s, lo ≤ s ∧ s ≤ hi ∧ |s - z| ≤ δ ∧ h = (γ s, s)) ∧
      (cs.filterMap contrib).Pairwise (fun h h' => md ≤ nrm (h.1 - h'.1) ∧ md ≤ nrm (h'.1 - h.1)) := by
  intro cs
  induction cs with
  | nil =>
    intro a b h _ _
    have h : a = b := h
    have e : rightCrossings γ lo hi p ∩ {z | Owns (fun s => γ s 1 - p 1) a b z} = ∅ := by
      ext z
      simp only [Set.mem_inter_iff, Set.mem_ofPred_eq, Set.mem_empty_iff_false, iff_false, not_and]
      rintro - (⟨-, h1, h2⟩ | ⟨-, h1, h2⟩) <;> linarith
    rw [e]
    simp
  | cons x xs ih =>
    intro a b h hlt hcon
    obtain ⟨hb, hd⟩ := h
    have hx := hlt x (by simp)
    have hlt' : ∀ y ∈ xs, y.1.curve.lo < y.1.curve.hi := fun y hy => hlt y (by simp [hy])
    obtain ⟨f1, f2, f3, f4⟩ := ih a x.1.curve.lo hd hlt' (fun y hy => hcon y (by simp [hy]))
    have ha := hd.le hlt'
    have hs : ∀ z, Owns (fun s => γ s 1 - p 1) a b z ↔ Owns (fun s => γ s 1 - p 1) a x.1.curve.lo z ∨
        Owns (fun s => γ s 1 - p 1) x.1.curve.lo x.1.curve.hi z := fun z => by
      rw [← hb]; exact owns_split ha hx.le
    have hc := hcon x (by simp)
    cases hcx : contrib x with
    | none =>
      have e : rightCrossings γ lo hi p ∩ {z | Owns (fun s => γ s 1 - p 1) a b z} =
          rightCrossings γ lo hi p ∩ {z | Owns (fun s => γ s 1 - p 1) a x.1.curve.lo z} := by
        ext z
        simp only [Set.mem_inter_iff, Set.mem_ofPred_eq, hs]
        have := hc.none hcx z
        tauto
      rw [e, List.filterMap_cons_none hcx]
      refine ⟨f1, f2, fun h hh => ?_, f4⟩
      obtain ⟨z, k1, k2, k3⟩ := f3 h hh
      exact ⟨z, k1, (hs z).2 (Or.inl k2), k3⟩
    | some v =>
      obtain ⟨z, k1, k2, k3, s, k4, k5, k6, k7⟩ := hc.some v hcx
      have hnot : z ∉ rightCrossings γ lo hi p ∩ {z | Owns (fun s => γ s 1 - p 1) a x.1.curve.lo z} :=
        fun hz => owns_disjoint hz.2 k2
      have e : rightCrossings γ lo hi p ∩ {z | Owns (fun s => γ s 1 - p 1) a b z} =
          insert z (rightCrossings γ lo hi p ∩ {z | Owns (fun s => γ s 1 - p 1) a x.1.curve.lo z}) := by
        ext w
        simp only [Set.mem_inter_iff, Set.mem_ofPred_eq, hs, Set.mem_insert_iff]
        constructor
        · rintro ⟨h1, h2 | h2⟩
          · exact Or.inr ⟨h1, h2⟩
          · exact Or.inl (k3 w h1 h2)
        · rintro (rfl | ⟨h1, h2⟩)
          · exact ⟨k1, Or.inr k2⟩
          · exact ⟨h1, Or.inl h2⟩
      rw [e, List.filterMap_cons_some hcx, Set.ncard_insert_of_notMem hnot f1, f2]
      refine ⟨f1.insert z, by simp, ?_, List.pairwise_cons.2 ⟨?_, f4⟩⟩
      · intro h hh
        rcases List.mem_cons.1 hh with rfl | hh
        · exact ⟨z, k1, (hs z).2 (Or.inr k2), s, k4, k5, k6, k7⟩
        · obtain ⟨z, k1, k2, k3⟩ := f3 h hh
          exact ⟨z, k1, (hs z).2 (Or.inl k2), k3⟩
      · intro h hh
        obtain ⟨w, l1, l2, t, l4, l5, l6, l7⟩ := f3 h hh
        have hne : z ≠ w := by rintro rfl; exact owns_disjoint l2 k2
        rw [k7, l7]
        exact ⟨hgen.separate z w k1 l1 hne s t k4 k5 l4 l5 k6 l6, hgen.separate w z l1 k1 hne.symm t s l4 l5 k4 k5 l6 k6⟩

theorem coalesceGo_pairwise {H : Type} {near : H → H → Bool} : ∀ (t : List H) (x : H), (x :: t).Pairwise (fun a b => near a b = false) →
    Contains.coalesceGo near x t = x :: t := by
  intro t
  induction t with
  | nil => intro x _; rfl
  | cons y t ih =>
    intro x h
    rw [List.pairwise_cons] at h
    rw [Contains.coalesceGo, h.1 y (by simp)]
    simp only [Bool.false_eq_true, if_false]
    rw [ih y h.2]

theorem coalesce_pairwise {H : Type} {near : H → H → Bool} {l : List H} (h : l.Pairwise (fun a b => near a b = false)) :
    Contains.coalesce near l = l := by
  cases l with
  | nil => rfl
  | cons x t => exact coalesceGo_pairwise t x h

end count

/-! ### The ray -/

section ray
variable {eps big : ℝ} {rnd : ℕ → ℝ}

theorem cont_of_lip {f : ℝ → ℝ} {a b L : ℝ} (hL : 0 ≤ L)
    (hl : ∀ s t, a ≤ s → s ≤ b → a ≤ t → t ≤ b → |f s - f t| ≤ L * |s - t|) : ContinuousOn f (Set.Icc a b) := by
  refine LipschitzOnWith.continuousOn (K := ⟨L, hL⟩) (LipschitzOnWith.of_dist_le_mul fun s hs t ht => ?_)
  rw [Real.dist_eq, Real.dist_eq]
  exact hl s t hs.1 hs.2 ht.1 ht.2

/-- A short piece contributes its crossing. -/
theorem kept_contributes {γ : ℝ → Fin 2 → ℝ} {lo hi δ md L : ℝ} {nrm : (Fin 2 → ℝ) → ℝ} {p : Fin 2 → ℝ}
    (hgen : RayGeneral γ lo hi δ md nrm p) (hL : 0 ≤ L)
    (hl : ∀ s t, lo ≤ s → s ≤ hi → lo ≤ t → t ≤ hi → |γ s 1 - γ t 1| ≤ L * |s - t|) {a b : ℝ} (hab : a < b) (ha : lo ≤ a)
    (hb : b ≤ hi) (hδ : b - a ≤ δ) {h : Option ((Fin 2 → ℝ) × ℝ)}
    (h1 : ∀ x, h = some x → ∃ t, a ≤ t ∧ t ≤ b ∧ x = (γ t, t) ∧ |γ t 1 - p 1| < md)
    (h2 : h.isSome ↔ ¬ (γ a 0 < p 0 ∧ γ b 0 < p 0) ∧ ¬ (0 < γ a 1 - p 1 ↔ 0 < γ b 1 - p 1)) :
    Contributes γ lo hi δ p a b (h.filter fun x => decide (p 0 ≤ x.1 0)) := by
  have hcont : ContinuousOn (fun s => γ s 1 - p 1) (Set.Icc a b) := cont_of_lip hL fun s t k1 k2 k3 k4 => by
    rw [sub_sub_sub_cancel_right]
    exact hl s t (ha.trans k1) (k2.trans hb) (ha.trans k3) (k4.trans hb)
  have hclose : ∀ s t, a ≤ s → s ≤ b → a ≤ t → t ≤ b → |s - t| ≤ δ := fun s t k1 k2 k3 k4 => by
    rw [abs_le]; constructor <;> linarith
  have hone : ∀ s t, a ≤ s → s ≤ b → γ s 1 - p 1 = 0 → a ≤ t → t ≤ b → γ t 1 - p 1 = 0 → s = t := by
    intro s t k1 k2 k3 k4 k5 k6
    by_contra hne
    exact absurd (hclose s t k1 k2 k4 k5) (not_le.2 (hgen.apart s t (ha.trans k1) (k2.trans hb) (sub_eq_zero.1 k3) (ha.trans k4)
      (k5.trans hb) (sub_eq_zero.1 k6) hne))
  obtain ⟨f1, f2⟩ := flip_iff hab hcont hone (fun s k1 k2 k3 => hgen.crosses s (ha.trans k1) (k2.trans hb) (sub_eq_zero.1 k3))
  refine ⟨fun hnone z hz how => ?_, fun x hx => ?_⟩
  · obtain ⟨z1, z2, z3, z4⟩ := hz
    obtain ⟨m1, m2⟩ := how.mem
    have hright : ∀ s, lo ≤ s → s ≤ hi → |s - z| ≤ δ → p 0 ≤ γ s 0 := by
      rcases hgen.side z z1 z2 z3 with h | h
      · exact h
      · exact absurd (h z z1 z2 (hclose z z m1 m2 m1 m2)) (not_lt.2 z4)
    have hflip : ¬ (0 < γ a 1 - p 1 ↔ 0 < γ b 1 - p 1) := fun hf => f1.1 hf z (sub_eq_zero.2 z3) how
    have hleft : ¬ (γ a 0 < p 0 ∧ γ b 0 < p 0) := fun hh =>
      absurd hh.1 (not_lt.2 (hright a ha (hab.le.trans hb) (hclose a z le_rfl hab.le m1 m2)))
    obtain ⟨x, hx⟩ := Option.isSome_iff_exists.1 (h2.2 ⟨hleft, hflip⟩)
    obtain ⟨t, t1, t2, rfl, -⟩ := h1 x hx
    rw [hx] at hnone
    have := hright t (ha.trans t1) (t2.trans hb) (hclose t z t1 t2 m1 m2)
    simp [Option.filter, this] at hnone
  · obtain ⟨hh, hp⟩ := Option.filter_eq_some_iff.1 hx
    obtain ⟨t, t1, t2, rfl, -⟩ := h1 x hh
    have hp : p 0 ≤ γ t 0 := by simpa using hp
    obtain ⟨-, hflip⟩ := h2.1 (by rw [hh]; rfl)
    obtain ⟨z, z0, how⟩ := f2 hflip
    obtain ⟨m1, m2⟩ := how.mem
    have z0' := sub_eq_zero.1 z0
    refine ⟨z, ⟨ha.trans m1, m2.trans hb, z0', ?_⟩, how, fun w hw hw' => ?_, t, ha.trans t1, t2.trans hb,
      hclose t z t1 t2 m1 m2, rfl⟩
    · rcases hgen.side z (ha.trans m1) (m2.trans hb) z0' with h | h
      · exact h z (ha.trans m1) (m2.trans hb) (hclose z z m1 m2 m1 m2)
      · exact absurd (h t (ha.trans t1) (t2.trans hb) (hclose t z t1 t2 m1 m2)) (not_lt.2 hp)
    · exact hone w z hw'.mem.1 hw'.mem.2 (sub_eq_zero.2 hw.2.2.1) m1 m2 z0

/-- The ray as a curve. -/
noncomputable def rayCurve (p : Fin 2 → ℝ) (len : ℝ) : Curve ℝ ((Fin 2 → ℝ) × ℝ) where
  degree := 1
  cps := [(p, 1), (p + len • ![1, 0], 1)]
  knots := [0, 0, 1, 1]

theorem ray_polyline {nrm : (Fin 2 → ℝ) → ℝ} (hn : ∀ v, nrm v = 0 → v = 0) {p : Fin 2 → ℝ} {len : ℝ} (hlen : 0 < len) :
    Curve.polyline (fun p q => nrm (p - q)) [p, p + len • ![1, 0]] true = .ok (rayCurve p len) := by
  have h0 : nrm (p - (p + len • ![1, 0])) ≠ 0 := by
    intro h
    have := congrFun (hn _ h) 0
    simp [Matrix.vecHead] at this
    linarith
  have hd : ∀ k : ℝ, divR k (nrm (p - (p + len • ![1, 0]))) = .ok (k / nrm (p - (p + len • ![1, 0]))) := fun k => divR_eq_ok h0
  rw [Curve.polyline, subR_eq_ok (by simp), ok_bind]
  simp only [Curve.chordTotal, Curve.chordGo, List.getLast_cons_cons, List.getLast_singleton, zero_add, if_true,
    List.cons_append, List.nil_append]
  rw [mapM_ok (g := fun k => k / nrm (p - (p + len • ![1, 0]))) (fun k _ => hd k), ok_bind]
  simp only [List.map_cons, List.map_nil, zero_div, div_self h0]
  rfl

theorem ray_good (he : 0 ≤ eps) (he1 : eps ≤ 1) (p : Fin 2 → ℝ) (len : ℝ) : (rayCurve p len).Good eps where
  cps_pos := by simp [rayCurve]
  knots_len := by simp [rayCurve]
  good := by
    refine ⟨he, by simp [rayCurve], ?_, ?_, ?_, ?_, ?_⟩
    · intro i j hij hj
      have hj : j ≤ 3 := hj
      interval_cases j <;> interval_cases i <;> simp [rayCurve, kf]
    all_goals simp [rayCurve, kf]; try linarith

theorem ray_tree (he : 0 ≤ eps) (he1 : eps ≤ 1) (p : Fin 2 → ℝ) (len : ℝ) : (⟨rayCurve p len, 1⟩ : CurveTree ℝ 2).isDividable = .ok false := by
  rw [isDividable_ok (ray_good he he1 p len)]
  simp [rayCurve, Curve.hi, Curve.lo, kf]

theorem ray_box (p : Fin 2 → ℝ) (len : ℝ) : ∃ b, (⟨rayCurve p len, 1⟩ : CurveTree ℝ 2).boundingBox big = .ok b ∧
    ∀ q : Fin 2 → ℝ, q 1 = p 1 → p 0 ≤ q 0 → q 0 ≤ p 0 + len → b.contains q = true := by
  refine ⟨_, by
    show Box.ofCurve big (rayCurve p len) = _
    rw [Box.ofCurve, dehomogenizedCps_eq (by simp [rayCurve])]; rfl, fun q h1 h2 h3 => ?_⟩
  rw [contains_iff]
  intro i
  fin_cases i <;> simp [Box.ofPoints, Box.extend, rayCurve, h1, h2, h3, Matrix.vecHead]

theorem pipeline {A H : Type} (g : A → Option H) (P : H → Bool) : ∀ cs : List (A × Bool),
    (((cs.filter (·.2)).map fun x => g x.1).filterMap id).filter P =
      cs.filterMap fun x => if x.2 then (g x.1).filter P else none := by
  intro cs
  induction cs with
  | nil => rfl
  | cons x xs ih =>
    obtain ⟨t, b⟩ := x
    cases b
    · simpa using ih
    · cases hgt : g t with
      | none => simpa [hgt] using ih
      | some v =>
        by_cases hv : P v = true
        · simpa [hgt, hv, Option.filter] using ih
        · simpa [hgt, hv, Option.filter] using ih

/-- **C78**: for a ray in general position the number of reported hits is the number of crossings to the right of the
    point, for every sequence of random numbers. -/
theorem C78_ray {c : Curve ℝ ((Fin 2 → ℝ) × ℝ)} (hc : c.Good eps) (he1 : eps ≤ 1) (hw : ∀ q ∈ c.cps, 0 < q.2)
    (hr : ∀ n, 0 ≤ rnd n ∧ rnd n ≤ 1) {o : Options ℝ} (hdiv : 1 ≤ o.division) (hit : 1 ≤ o.maxIters)
    {γ : ℝ → Fin 2 → ℝ} (hγ : ∀ s, c.lo ≤ s → s ≤ c.hi → c.pointAt eps s = .ok (γ s))
    {nrm : (Fin 2 → ℝ) → ℝ} (hn : ∀ v, nrm v = 0 → v = 0) {p : Fin 2 → ℝ} {len : ℝ} (hlen : 0 < len)
    (hreach : ∀ s, c.lo ≤ s → s ≤ c.hi → γ s 0 ≤ p 0 + len) {L : ℝ} (hL : 0 ≤ L)
    (hl : ∀ s t, c.lo ≤ s → s ≤ c.hi → c.lo ≤ t → t ≤ c.hi → |γ s 1 - γ t 1| ≤ L * |s - t|)
    (hLδ : L * ((c.hi - c.lo) / o.division) < o.minDist * 2 ^ o.maxIters)
    (hG : Generic eps big rnd ⟨c, (c.hi - c.lo) / o.division⟩)
    (hgen : RayGeneral γ c.lo c.hi ((c.hi - c.lo) / o.division) o.minDist nrm p) :
    (rightCrossings γ c.lo c.hi p).Finite ∧
    ∃ N, ∀ fuel, N ≤ fuel → ∀ pos, ∃ hits, rayIntersection eps big nrm rnd pos fuel o c p len = .ok hits ∧
      hits.length = (rightCrossings γ c.lo c.hi p).ncard := by
  have he := hc.good.eps_nonneg
  have hdom := hc.pre.dom
  have hdiv' : (0 : ℝ) < o.division := by exact_mod_cast hdiv
  have hδ : 0 < (c.hi - c.lo) / o.division := div_pos (by linarith) hdiv'
  obtain ⟨ta, hta⟩ : ∃ ta : CurveTree ℝ 2, ta = ⟨c, (c.hi - c.lo) / o.division⟩ := ⟨_, rfl⟩
  obtain ⟨tb, htb⟩ : ∃ tb : CurveTree ℝ 2, tb = ⟨rayCurve p len, 1⟩ := ⟨_, rfl⟩
  have hbd : tb.isDividable = .ok false := by rw [htb]; exact ray_tree he he1 p len
  obtain ⟨bb, ebb, hbb⟩ := ray_box (big := big) p len
  rw [← htb] at ebb
  rw [← hta] at hG
  have ia : CurveInv eps big rnd ta ta := ⟨.root, by rw [hta]; exact hc, by rw [hta]; exact hw, rfl⟩
  have hcov := C37_curve_covers hG hr
  have hcb : Covers (CurveTree.tree eps big rnd) (fun (_ : CurveTree ℝ 2) q => bb.contains q = true) (· = tb) :=
    ⟨fun x hx => ⟨bb, by rw [hx]; exact ebb, fun q hq => hq⟩, fun x hx => ⟨false, by rw [hx]; exact hbd⟩,
      fun x r hx h => by
        rw [hx] at h
        have h' : tb.isDividable = .ok true := h
        rw [hbd] at h'; cases h'⟩
  have hrb : Ranked (CurveTree.tree eps big rnd) (· = tb) (fun _ => 0) := fun x r y z r' hx h => by
    rw [hx] at h
    have h' : tb.isDividable = .ok true := h
    rw [hbd] at h'; cases h'
  have hsub : ∀ {x : CurveTree ℝ 2}, CurveInv eps big rnd ta x → c.lo ≤ x.curve.lo ∧ x.curve.hi ≤ c.hi ∧
      ∀ s, x.curve.lo ≤ s → s ≤ x.curve.hi → x.curve.pointAt eps s = .ok (γ s) := by
    intro x hx
    obtain ⟨a1, a2, a3⟩ := reach_piece hG hr ia hx.reach
    rw [hta] at a1 a2 a3
    exact ⟨a1, a2, fun s h1 h2 => by rw [a3 s h1 h2]; exact hγ s (a1.trans h1) (h2.trans a2)⟩
  have hfull : ∀ cs : List (CurveTree ℝ 2 × Bool), Desc c.lo c.hi cs → (∀ x ∈ cs, Cell eps big rnd ta tb x) →
      ∃ g : CurveTree ℝ 2 → Option ((Fin 2 → ℝ) × ℝ), (∀ x ∈ cs, x.2 = true → pieceHit eps o p x.1.curve = .ok (g x.1)) ∧
        ∀ x ∈ cs, Contributes γ c.lo c.hi ((c.hi - c.lo) / o.division) p x.1.curve.lo x.1.curve.hi
          (if x.2 then (g x.1).filter fun h => decide (p 0 ≤ h.1 0) else none) := by
    intro cs _ hcell
    have hg : ∀ t : CurveTree ℝ 2, ∃ h, (t, true) ∈ cs → pieceHit eps o p t.curve = .ok h ∧
      Contributes γ c.lo c.hi ((c.hi - c.lo) / o.division) p t.curve.lo t.curve.hi (h.filter fun h => decide (p 0 ≤ h.1 0)) := by
      intro t
      by_cases ht : (t, true) ∈ cs
      · have hcl := hcell _ ht
        obtain ⟨a1, a2, a3⟩ := hsub hcl.inv
        have hshort : t.curve.hi - t.curve.lo ≤ (c.hi - c.lo) / o.division := by
          have := short_of_undividable hcl.inv (hcl.kept rfl)
          rw [hta] at this; exact this
        obtain ⟨h, e, h1, h2⟩ := pieceHit_spec (o := o) (p := p) hL hcl.inv.good a3
          (fun s t k1 k2 k3 k4 => hl s t (a1.trans k1) (k2.trans a2) (a1.trans k3) (k4.trans a2)) hit
          (lt_of_le_of_lt (mul_le_mul_of_nonneg_left hshort hL) hLδ)
        exact ⟨h, fun _ => ⟨e, kept_contributes hgen hL hl hcl.inv.good.pre.dom a1 a2 hshort h1 h2⟩⟩
      · exact ⟨none, fun h => absurd h ht⟩
    choose g hg using hg
    refine ⟨g, fun x hx hx2 => ?_, fun x hx => ?_⟩
    · obtain ⟨t, b⟩ := x
      obtain rfl : b = true := hx2
      exact (hg t hx).1
    · obtain ⟨t, b⟩ := x
      cases b
      · simp only [Bool.false_eq_true, if_false]
        refine ⟨fun _ z hz how => ?_, fun x hx => by cases hx⟩
        have hcl := hcell _ hx
        obtain ⟨a1, a2, a3⟩ := hsub hcl.inv
        obtain ⟨m1, m2⟩ := how.mem
        obtain ⟨ba, bb', e1, e2, e3⟩ := hcl.away rfl
        rw [ebb] at e2
        obtain rfl := Except.ok.inj e2
        obtain ⟨ba', e4, e5⟩ := hcov.box t hcl.inv
        have e4 : t.boundingBox big = .ok ba' := e4
        rw [e1] at e4
        obtain rfl := Except.ok.inj e4
        have := C36_common_point (le_refl (0 : ℝ)) (e5 (γ z) ⟨z, m1, m2, a3 z m1 m2⟩)
          (hbb (γ z) hz.2.2.1 hz.2.2.2 (hreach z hz.1 hz.2.1))
        rw [e3] at this; cases this
      · simp only [if_true]
        exact (hg t hx).2
  have hall : rightCrossings γ c.lo c.hi p ∩ {z | Owns (fun s => γ s 1 - p 1) c.lo c.hi z} = rightCrossings γ c.lo c.hi p := by
    ext z
    simp only [Set.mem_inter_iff, Set.mem_ofPred_eq, and_iff_left_iff_imp]
    rintro ⟨z1, z2, z3, -⟩
    have n1 : c.lo < z := lt_of_le_of_ne z1 (by rintro rfl; exact hgen.start z3)
    have n2 : z < c.hi := lt_of_le_of_ne z2 (by rintro rfl; exact hgen.stop z3)
    rcases hgen.crosses z z1 z2 z3 with h | h
    · exact Or.inl ⟨h, z1, n2⟩
    · exact Or.inr ⟨h, n1, z2⟩
  have hrun : ∀ fuel, 5 ^ (curveRank ta ta + 0) ≤ fuel → ∀ pos, (rightCrossings γ c.lo c.hi p).Finite ∧
      ∃ hits, rayIntersection eps big nrm rnd pos fuel o c p len = .ok hits ∧
      hits.length = (rightCrossings γ c.lo c.hi p).ncard := by
    intro fuel hfuel pos
    obtain ⟨pairs, hpairs⟩ := traverse_total hcov hcb (curve_ranked hG hr (by rw [hta]; exact hδ)) hrb fuel [(ta, tb)] pos
      (by intro e he; rw [List.mem_singleton.1 he]; exact ⟨ia, rfl⟩) (by simpa [cost] using hfuel)
    obtain ⟨css, h1, h2⟩ := traverse_leaf hG hr hbd fuel _ pos pairs
      (by intro e he; rw [List.mem_singleton.1 he]; exact ⟨ia, rfl⟩) hpairs
    obtain ⟨cs, css', ⟨k1, k2⟩, k3, rfl⟩ := List.forall₂_cons_left_iff.1 h1
    obtain rfl := List.forall₂_nil_left_iff.1 k3
    rw [hta] at k1
    have k1 : Desc c.lo c.hi cs := k1
    obtain ⟨g, hg1, hg2⟩ := hfull cs k1 k2
    obtain ⟨f1, f2, -, f4⟩ := count_cells hgen cs c.lo c.hi k1 (fun x hx => (k2 x hx).inv.good.pre.dom) hg2
    rw [hall] at f1 f2
    refine ⟨f1, ?_⟩
    obtain ⟨hits, hhits⟩ : ∃ hits, hits = cs.filterMap fun x =>
      (if x.2 then (g x.1).filter fun h => decide (p 0 ≤ h.1 0) else none) := ⟨_, rfl⟩
    have hfound : (pairs.mapM fun e => pieceHit eps o p e.1.curve) = .ok (pairs.map fun e => g e.1) := by
      refine mapM_ok fun e he => ?_
      rw [h2] at he
      obtain ⟨x, hx, rfl⟩ := List.mem_map.1 he
      simp only [List.flatten_cons, List.flatten_nil, List.append_nil, List.mem_filter] at hx
      exact hg1 x hx.1 hx.2
    have hlist : ((pairs.map fun e => g e.1).filterMap id).filter (fun h => decide (p 0 ≤ h.1 0)) = hits := by
      rw [hhits, h2]
      simp only [List.flatten_cons, List.flatten_nil, List.append_nil, List.map_map]
      exact pipeline g _ cs
    rw [← hhits] at f2 f4
    have hsorted : (hits.mergeSort (fun x y => decide (x.2 ≤ y.2))).Pairwise
        (fun h h' => (decide (nrm (h.1 - h'.1) < o.minDist)) = false) := by
      have := (List.mergeSort_perm hits (fun x y => decide (x.2 ≤ y.2))).symm.pairwise f4 (fun {a b} h => ⟨h.2, h.1⟩)
      exact this.imp fun h => by simpa using h.1
    refine ⟨((hits.mergeSort (fun x y => decide (x.2 ≤ y.2)))).map (·.1), ?_, by
      rw [List.length_map, List.length_mergeSort, f2]⟩
    have hrl : (rayCurve p len).lo = 0 ∧ (rayCurve p len).hi = 1 := by simp [rayCurve, Curve.lo, Curve.hi, kf]
    rw [rayIntersection, ray_polyline hn hlen, ok_bind, knotsDomain_eq hc, ok_bind, divR_eq_ok hdiv'.ne', ok_bind]
    simp only [CurveTree.new, pure_bind, knotsDomain_eq (ray_good he he1 p len), ok_bind, hrl.1, hrl.2, sub_zero, div_one]
    rw [← hta, ← htb, hpairs, ok_bind, hfound, ok_bind, hlist, coalesce_pairwise hsorted]
    rfl
  exact ⟨(hrun _ le_rfl 0).1, _, fun fuel hf pos => (hrun fuel hf pos).2⟩

/-- On an interval whose ends are no zeros the number of crossings is even exactly if the signs at the ends agree. -/
theorem parity_of_crossings {f : ℝ → ℝ} {a : ℝ} : ∀ (n : ℕ) (b : ℝ), a ≤ b → ContinuousOn f (Set.Icc a b) → f a ≠ 0 → f b ≠ 0 →
    (∀ z, a ≤ z → z ≤ b → f z = 0 → Rises f z ∨ Falls f z) → {z | a ≤ z ∧ z ≤ b ∧ f z = 0}.Finite →
    {z | a ≤ z ∧ z ≤ b ∧ f z = 0}.ncard = n → ((0 < f a ↔ 0 < f b) ↔ n % 2 = 0) := by
  intro n
  induction n with
  | zero =>
    intro b hab hc _ _ _ hfin hn
    rw [Set.ncard_eq_zero hfin] at hn
    have := sign_const hab hc (fun s h1 h2 h0 => by
      have : s ∈ {z | a ≤ z ∧ z ≤ b ∧ f z = 0} := ⟨h1, h2, h0⟩
      rw [hn] at this; exact this)
    simp [this]
  | succ n ih =>
    intro b hab hc ha hb hcr hfin hn
    have hne : {z | a ≤ z ∧ z ≤ b ∧ f z = 0}.Nonempty := by
      rw [Set.nonempty_iff_ne_empty]; intro e; rw [e] at hn; simp at hn
    obtain ⟨z, hz, hmax⟩ := Set.exists_max_image _ id hfin hne
    obtain ⟨z1, z2, z0⟩ := hz
    have hza : a < z := lt_of_le_of_ne z1 (by rintro rfl; exact ha z0)
    have hzb : z < b := lt_of_le_of_ne z2 (by rintro rfl; exact hb z0)
    obtain ⟨m, m1, m2, m3⟩ : ∃ m, a ≤ m ∧ m < z ∧ ∀ w, m ≤ w → w < z → f w ≠ 0 := by
      have hfin' : ({z | a ≤ z ∧ z ≤ b ∧ f z = 0} \ {z}).Finite := hfin.subset Set.sdiff_subset
      rcases Set.eq_empty_or_nonempty ({z | a ≤ z ∧ z ≤ b ∧ f z = 0} \ {z}) with he | he
      · refine ⟨a, le_rfl, hza, fun w h1 h2 h0 => ?_⟩
        have : w ∈ {z | a ≤ z ∧ z ≤ b ∧ f z = 0} \ {z} := ⟨⟨h1, h2.le.trans z2, h0⟩, h2.ne⟩
        rw [he] at this; exact this
      · obtain ⟨v, ⟨⟨v1, v2, v0⟩, vne⟩, vmax⟩ := Set.exists_max_image _ id hfin' he
        have hvz : v < z := lt_of_le_of_ne (hmax v ⟨v1, v2, v0⟩) vne
        refine ⟨(v + z) / 2, by linarith, by linarith, fun w h1 h2 h0 => ?_⟩
        have : w ≤ v := vmax w ⟨⟨by linarith, h2.le.trans z2, h0⟩, h2.ne⟩
        linarith
    have hset : {w | a ≤ w ∧ w ≤ b ∧ f w = 0} = insert z {w | a ≤ w ∧ w ≤ m ∧ f w = 0} := by
      ext w
      simp only [Set.mem_ofPred_eq, Set.mem_insert_iff]
      constructor
      · rintro ⟨h1, h2, h0⟩
        rcases lt_trichotomy w z with h | h | h
        · right
          refine ⟨h1, ?_, h0⟩
          by_contra hm
          exact m3 w (not_le.1 hm).le h h0
        · exact Or.inl h
        · exact absurd (hmax w ⟨h1, h2, h0⟩) (not_le.2 h)
      · rintro (rfl | ⟨h1, h2, h0⟩)
        · exact ⟨z1, z2, z0⟩
        · exact ⟨h1, h2.trans (m2.le.trans z2), h0⟩
    have hnot : z ∉ {w | a ≤ w ∧ w ≤ m ∧ f w = 0} := fun h => absurd h.2.1 (not_le.2 m2)
    have hfin' : {w | a ≤ w ∧ w ≤ m ∧ f w = 0}.Finite := hfin.subset (by rw [hset]; exact Set.subset_insert _ _)
    rw [hset, Set.ncard_insert_of_notMem hnot hfin'] at hn
    have hmb : m ≤ b := m2.le.trans z2
    have h1 := ih m m1 (hc.mono (Set.Icc_subset_Icc_right hmb)) ha (m3 m le_rfl m2)
      (fun w k1 k2 => hcr w k1 (k2.trans hmb)) hfin' (by omega)
    have cl : ContinuousOn f (Set.Icc m z) := hc.mono (Set.Icc_subset_Icc m1 z2)
    have cr : ContinuousOn f (Set.Icc z b) := hc.mono (Set.Icc_subset_Icc_left z1)
    have hr : ∀ s, z < s → s ≤ b → f s ≠ 0 := fun s k1 k2 k0 => absurd (hmax s ⟨z1.trans k1.le, k2, k0⟩) (not_le.2 k1)
    have h2 : ¬ (0 < f m ↔ 0 < f b) := by
      rcases hcr z z1 z2 z0 with h | h
      · have k1 := h.left m2 cl m3
        have k2 := h.right hzb cr hr
        simp [k2, k1.le]
      · have k1 := h.left m2 cl m3
        have k2 := h.right hzb cr hr
        simp [k1, k2.le]
    constructor
    · intro h
      have : ¬ (n % 2 = 0) := fun hn => h2 ((h1.2 hn).symm.trans h)
      omega
    · intro hn'
      have h3 : ¬ (0 < f a ↔ 0 < f m) := fun h => by have := h1.1 h; omega
      tauto

/-- **C78** Even-odd rule: for a closed curve and a point in general position, not found to be on the curve, the answer is
    whether the ray to the right meets the curve an odd number of times, for every sequence of random numbers. -/
theorem C78_even_odd {c : Curve ℝ ((Fin 2 → ℝ) × ℝ)} (hc : c.Good eps) (he1 : eps ≤ 1) (hw : ∀ q ∈ c.cps, 0 < q.2)
    (hr : ∀ n, 0 ≤ rnd n ∧ rnd n ≤ 1) {opt : Option (Options ℝ)} {o : Options ℝ} (ho : opt.getD .default = o)
    (hdiv : 1 ≤ o.division) (hit : 1 ≤ o.maxIters)
    {γ : ℝ → Fin 2 → ℝ} (hγ : ∀ s, c.lo ≤ s → s ≤ c.hi → c.pointAt eps s = .ok (γ s)) (hcl : γ c.lo 1 = γ c.hi 1)
    {s₁ s₂ : ℝ} (hs₁ : c.lo ≤ s₁ ∧ s₁ ≤ c.hi) (hs₂ : c.lo ≤ s₂ ∧ s₂ ≤ c.hi) (hwide : γ s₁ 0 ≠ γ s₂ 0)
    {nrm : (Fin 2 → ℝ) → ℝ} (hn : ∀ v, nrm v = 0 → v = 0) (hclosed : c.isClosed eps (fun p q => nrm (p - q)) = .ok true)
    {p : Fin 2 → ℝ} {closest : (Fin 2 → ℝ) → Res (Fin 2 → ℝ)} (hon : onBoundary nrm opt p (closest p) = .ok false)
    {L : ℝ} (hL : 0 ≤ L)
    (hl : ∀ s t, c.lo ≤ s → s ≤ c.hi → c.lo ≤ t → t ≤ c.hi → |γ s 1 - γ t 1| ≤ L * |s - t|)
    (hLδ : L * ((c.hi - c.lo) / o.division) < o.minDist * 2 ^ o.maxIters)
    (hG : Generic eps big rnd ⟨c, (c.hi - c.lo) / o.division⟩)
    (hgen : RayGeneral γ c.lo c.hi ((c.hi - c.lo) / o.division) o.minDist nrm p) :
    (rightCrossings γ c.lo c.hi p).Finite ∧
    ∃ N, ∀ fuel, N ≤ fuel → ∀ pos, curveContains eps big nrm closest rnd pos fuel opt c p =
      .ok (decide ((rightCrossings γ c.lo c.hi p).ncard % 2 = 1)) := by
  have hdom := hc.pre.dom
  obtain ⟨bx, q, hbx, -⟩ := C10_in_bounding_box (big := big) hc hw le_rfl hdom.le
  have hin : ∀ s, c.lo ≤ s → s ≤ c.hi → ∀ i, bx.min i ≤ γ s i ∧ γ s i ≤ bx.max i := by
    intro s h1 h2
    obtain ⟨bx', q, e1, e2, e3⟩ := C10_in_bounding_box (big := big) hc hw h1 h2
    rw [hbx] at e1
    obtain rfl := Except.ok.inj e1
    rw [hγ s h1 h2] at e2
    obtain rfl := Except.ok.inj e2
    exact contains_iff.1 e3
  have hsize : 0 < bx.max 0 - bx.min 0 := by
    have k1 := hin s₁ hs₁.1 hs₁.2 0
    have k2 := hin s₂ hs₂.1 hs₂.2 0
    rcases lt_or_gt_of_ne hwide with h | h <;> linarith
  have hhead : ∀ fuel pos, curveContains eps big nrm closest rnd pos fuel opt c p =
      if bx.contains p = true then do
        let its ← rayIntersection eps big nrm rnd pos fuel o c p (bx.size 0 * 2)
        pure (decide (its.length % 2 = 1))
      else .ok false := by
    intro fuel pos
    rw [curveContains, hclosed, ok_bind, hbx, ho]
    by_cases hb : bx.contains p = true
    · simp [hb, ok_bind, hon]
    · simp [hb, ok_bind]
  have hray := fun (len : ℝ) (h0 : 0 < len) (h1 : ∀ s, c.lo ≤ s → s ≤ c.hi → γ s 0 ≤ p 0 + len) =>
    C78_ray hc he1 hw hr hdiv hit hγ hn h0 h1 hL hl hLδ hG hgen
  have hcont : ContinuousOn (fun s => γ s 1 - p 1) (Set.Icc c.lo c.hi) := cont_of_lip hL fun s t k1 k2 k3 k4 => by
    rw [sub_sub_sub_cancel_right]
    exact hl s t k1 k2 k3 k4
  by_cases hb : bx.contains p = true
  · have hb' := contains_iff.1 hb
    obtain ⟨hfin, N, hN⟩ := hray (bx.size 0 * 2) (by simp only [Box.size]; linarith) (fun s h1 h2 => by
      have k1 := hin s h1 h2 0
      have k2 := hb' 0
      simp only [Box.size]; linarith)
    refine ⟨hfin, N, fun fuel hf pos => ?_⟩
    obtain ⟨hits, e1, e2⟩ := hN fuel hf pos
    rw [hhead, if_pos hb, e1, ok_bind, e2]; rfl
  · have hfin : (rightCrossings γ c.lo c.hi p).Finite := by
      refine (hray (max 1 (bx.max 0 - p 0)) (lt_of_lt_of_le one_pos (le_max_left _ _)) (fun s h1 h2 => ?_)).1
      have := (hin s h1 h2 0).2
      have := le_max_right 1 (bx.max 0 - p 0)
      linarith
    refine ⟨hfin, 0, fun fuel _ pos => ?_⟩
    rw [hhead, if_neg hb]
    congr 1
    rw [eq_comm, decide_eq_false_iff_not]
    have heven : (rightCrossings γ c.lo c.hi p).ncard % 2 = 0 := by
      by_cases hx : p 0 < bx.min 0
      · have hset : rightCrossings γ c.lo c.hi p = {z | c.lo ≤ z ∧ z ≤ c.hi ∧ γ z 1 - p 1 = 0} := by
          ext z
          simp only [rightCrossings, Set.mem_ofPred_eq, sub_eq_zero]
          constructor
          · rintro ⟨a, b, e, -⟩; exact ⟨a, b, e⟩
          · rintro ⟨a, b, e⟩; exact ⟨a, b, e, hx.le.trans (hin z a b 0).1⟩
        rw [hset] at hfin ⊢
        refine (parity_of_crossings _ c.hi hdom.le hcont (sub_ne_zero.2 hgen.start) (sub_ne_zero.2 hgen.stop)
          (fun z h1 h2 h0 => hgen.crosses z h1 h2 (sub_eq_zero.1 h0)) hfin rfl).1 ?_
        rw [hcl]
      · have : rightCrossings γ c.lo c.hi p = ∅ := by
          ext z
          simp only [Set.mem_empty_iff_false, iff_false]
          rintro ⟨z1, z2, z3, z4⟩
          apply hb
          rw [contains_iff]
          have k0 := hin z z1 z2 0
          have k1 := hin z z1 z2 1
          intro i
          fin_cases i
          · exact ⟨not_lt.1 hx, z4.trans k0.2⟩
          · change bx.min 1 ≤ p 1 ∧ p 1 ≤ bx.max 1
            rw [← z3]; exact k1
        rw [this]; simp
    omega

/-! ### Several spans -/

theorem mapM_exists {A B C : Type} {f : A → Res B} {g : B → C} {h : A → C} : ∀ {l : List A},
    (∀ x ∈ l, ∃ y, f x = .ok y ∧ g y = h x) → ∃ ys, l.mapM f = .ok ys ∧ ys.map g = l.map h
  | [], _ => ⟨[], rfl, rfl⟩
  | a :: l, H => by
    obtain ⟨y, e1, e2⟩ := H a (by simp)
    obtain ⟨ys, e3, e4⟩ := mapM_exists (l := l) fun x hx => H x (List.mem_cons_of_mem _ hx)
    exact ⟨y :: ys, by rw [List.mapM_cons, e1, ok_bind, e3]; rfl, by simp [e2, e4]⟩

theorem exists_bound {A : Type} {P : A → ℕ → Prop} : ∀ {l : List A}, (∀ x ∈ l, ∃ N, ∀ n, N ≤ n → P x n) →
    ∃ N, ∀ n, N ≤ n → ∀ x ∈ l, P x n
  | [], _ => ⟨0, fun _ _ x hx => by cases hx⟩
  | a :: l, H => by
    obtain ⟨N, hN⟩ := H a (by simp)
    obtain ⟨M, hM⟩ := exists_bound (l := l) fun x hx => H x (List.mem_cons_of_mem _ hx)
    refine ⟨max N M, fun n hn x hx => ?_⟩
    rcases List.mem_cons.1 hx with rfl | hx
    · exact hN n ((le_max_left _ _).trans hn)
    · exact hM n ((le_max_right _ _).trans hn) x hx

theorem compoundBox_ok {spans : List (Curve ℝ ((Fin 2 → ℝ) × ℝ))} (hw : ∀ c ∈ spans, ∀ q ∈ c.cps, 0 < q.2) :
    ∃ bx, compoundBox big spans = .ok bx ∧ ∀ c ∈ spans, c.Good eps → ∀ s, c.lo ≤ s → s ≤ c.hi → ∀ q,
      c.pointAt eps s = .ok q → bx.contains q = true := by
  refine ⟨_, by rw [compoundBox, mapM_ok (fun c hc => dehomogenizedCps_eq (hw c hc))]; rfl, ?_⟩
  intro c hc hg s h1 h2 q hq
  obtain ⟨box, q', e1, e2, e3⟩ := C10_in_bounding_box (big := big) hg (hw c hc) h1 h2
  rw [hq] at e2
  obtain rfl := Except.ok.inj e2
  rw [Box.ofCurve, dehomogenizedCps_eq (hw c hc)] at e1
  obtain rfl := Except.ok.inj e1
  rw [contains_iff] at e3 ⊢
  intro i
  obtain ⟨_, m1, _, _⟩ := foldl_extend ((spans.map fun c : Curve ℝ ((Fin 2 → ℝ) × ℝ) => c.cps.map fun p => p.2⁻¹ • p.1).flatten)
    (⟨fun _ => big, fun _ => -big⟩ : Box ℝ 2)
  obtain ⟨p1, hp1, hl1⟩ := C10_half_space hg (hw c hc) h1 h2 (-coord i)
    (-(Box.ofPoints big ((spans.map fun c : Curve ℝ ((Fin 2 → ℝ) × ℝ) => c.cps.map fun p => p.2⁻¹ • p.1).flatten)).min i) (by
      intro p hp
      rw [LinearMap.neg_apply]
      exact neg_le_neg (m1 _ (List.mem_flatten.2 ⟨_, List.mem_map_of_mem hc, List.mem_map_of_mem hp⟩) i).1)
  obtain ⟨p2, hp2, hl2⟩ := C10_half_space hg (hw c hc) h1 h2 (coord i)
    ((Box.ofPoints big ((spans.map fun c : Curve ℝ ((Fin 2 → ℝ) × ℝ) => c.cps.map fun p => p.2⁻¹ • p.1).flatten)).max i) (by
      intro p hp
      exact (m1 _ (List.mem_flatten.2 ⟨_, List.mem_map_of_mem hc, List.mem_map_of_mem hp⟩) i).2)
  rw [hq] at hp1 hp2
  obtain rfl := Except.ok.inj hp1
  obtain rfl := Except.ok.inj hp2
  rw [LinearMap.neg_apply] at hl1
  exact ⟨neg_le_neg_iff.1 hl1, hl2⟩

/-- **C78** For a compound curve and a point in its box, in general position for every span and not found to be on the
    curve, the answer is whether the ray meets the spans an odd number of times in total. -/
theorem C78_compound {spans : List (Curve ℝ ((Fin 2 → ℝ) × ℝ))} (hc : ∀ c ∈ spans, c.Good eps) (he1 : eps ≤ 1)
    (hw : ∀ c ∈ spans, ∀ q ∈ c.cps, 0 < q.2) {rnd : ℕ → ℕ → ℝ} (hr : ∀ i n, 0 ≤ rnd i n ∧ rnd i n ≤ 1)
    {opt : Option (Options ℝ)} {o : Options ℝ} (ho : opt.getD .default = o) (hdiv : 1 ≤ o.division) (hit : 1 ≤ o.maxIters)
    {γ : ℕ → ℝ → Fin 2 → ℝ}
    (hγ : ∀ e ∈ spans.zipIdx, ∀ s, e.1.lo ≤ s → s ≤ e.1.hi → e.1.pointAt eps s = .ok (γ e.2 s))
    {nrm : (Fin 2 → ℝ) → ℝ} (hn : ∀ v, nrm v = 0 → v = 0) {bx : Box ℝ 2} (hbx : compoundBox big spans = .ok bx)
    (hwide : 0 < bx.size 0) {p : Fin 2 → ℝ} (hp : bx.contains p = true)
    {closest : (Fin 2 → ℝ) → Res (Fin 2 → ℝ)} (hon : onBoundary nrm opt p (closest p) = .ok false)
    {L : ℝ} (hL : 0 ≤ L)
    (hl : ∀ e ∈ spans.zipIdx, ∀ s t, e.1.lo ≤ s → s ≤ e.1.hi → e.1.lo ≤ t → t ≤ e.1.hi → |γ e.2 s 1 - γ e.2 t 1| ≤ L * |s - t|)
    (hLδ : ∀ c ∈ spans, L * ((c.hi - c.lo) / o.division) < o.minDist * 2 ^ o.maxIters)
    (hG : ∀ e ∈ spans.zipIdx, Generic eps big (rnd e.2) ⟨e.1, (e.1.hi - e.1.lo) / o.division⟩)
    (hgen : ∀ e ∈ spans.zipIdx, RayGeneral (γ e.2) e.1.lo e.1.hi ((e.1.hi - e.1.lo) / o.division) o.minDist nrm p) :
    ∃ N, ∀ fuel, N ≤ fuel → ∀ pos, compoundContains eps big nrm closest rnd pos fuel opt spans p =
      .ok (decide ((spans.zipIdx.map fun e => (rightCrossings (γ e.2) e.1.lo e.1.hi p).ncard).sum % 2 = 1)) := by
  obtain ⟨bx', e1, hin⟩ := compoundBox_ok (eps := eps) (big := big) hw
  rw [hbx] at e1
  obtain rfl := Except.ok.inj e1
  have hmem : ∀ e ∈ spans.zipIdx, e.1 ∈ spans := fun e he => (List.mem_zipIdx he).2.2 ▸ List.getElem_mem _
  have hb' := contains_iff.1 hp
  have hrun : ∀ e ∈ spans.zipIdx, ∃ N, ∀ fuel, N ≤ fuel → ∀ pos, ∃ hits,
      rayIntersection eps big nrm (rnd e.2) pos fuel o e.1 p (bx.size 0 * 2) = .ok hits ∧
      hits.length = (rightCrossings (γ e.2) e.1.lo e.1.hi p).ncard := by
    intro e he
    refine (C78_ray (hc _ (hmem e he)) he1 (hw _ (hmem e he)) (hr e.2) hdiv hit (hγ e he) hn (by linarith) (fun s h1 h2 => ?_)
      hL (hl e he) (hLδ _ (hmem e he)) (hG e he) (hgen e he)).2
    have k1 := (contains_iff.1 (hin e.1 (hmem e he) (hc _ (hmem e he)) s h1 h2 _ (hγ e he s h1 h2)) 0)
    have k2 := hb' 0
    simp only [Box.size] at hwide ⊢; linarith
  obtain ⟨N, hN⟩ := exists_bound hrun
  refine ⟨N, fun fuel hf pos => ?_⟩
  obtain ⟨its, e1, e2⟩ := mapM_exists (l := spans.zipIdx) (f := fun e => rayIntersection eps big nrm (rnd e.2) pos fuel o e.1 p (bx.size 0 * 2))
    (g := List.length) (h := fun e => (rightCrossings (γ e.2) e.1.lo e.1.hi p).ncard) fun e he => hN fuel hf e he pos
  rw [compoundContains, hbx, ok_bind, ho]
  simp only [hp, not_true, if_false, hon, ok_bind, Bool.false_eq_true, e1, e2]
  rfl

end ray

/-! ### The other answers -/

section others
variable {K : Type} [Field K] [LinearOrder K] {eps big : K} {nrm : (Fin 2 → K) → K} {rnd : ℕ → K}
  {closest : (Fin 2 → K) → Res (Fin 2 → K)} {pos fuel : ℕ} {opt : Option (Options K)} {c : Curve K ((Fin 2 → K) × K)} {p : Fin 2 → K}

/-- **C78** An open curve is rejected. -/
theorem C78_open (h : c.isClosed eps (fun p q => nrm (p - q)) = .ok false) :
    curveContains eps big nrm closest rnd pos fuel opt c p = .error .err := by
  rw [curveContains, h]; rfl

/-- **C78** No point outside the bounding box is contained. -/
theorem C78_outside_box (h : c.isClosed eps (fun p q => nrm (p - q)) = .ok true) {bx : Box K 2} (hb : Box.ofCurve big c = .ok bx)
    (hp : bx.contains p = false) : curveContains eps big nrm closest rnd pos fuel opt c p = .ok false := by
  rw [curveContains, h, ok_bind, hb]
  simp only [ok_bind, hp]
  rfl

/-- **C78** A point of the box within the tolerance of the point found closest is contained, wherever it lies. -/
theorem C78_on_boundary (h : c.isClosed eps (fun p q => nrm (p - q)) = .ok true) {bx : Box K 2} (hb : Box.ofCurve big c = .ok bx)
    (hp : bx.contains p = true) {q : Fin 2 → K} (hq : closest p = .ok q)
    (hd : nrm (q - p) < (match opt with | some o => o.minDist | none => 1 / 1000000)) :
    curveContains eps big nrm closest rnd pos fuel opt c p = .ok true := by
  have hon : onBoundary nrm opt p (closest p) = .ok true := by
    rw [hq, onBoundary]
    cases opt <;> simp only [Option.map_none, Option.map_some, Option.getD_none, Option.getD_some] at hd ⊢ <;> rw [decide_eq_true hd] <;> rfl
  rw [curveContains, h, ok_bind, hb]
  simp only [ok_bind, hp, hon]
  rfl

end others

section sound
variable {K : Type} [Field K] [LinearOrder K] [IsStrictOrderedRing K] {eps big : K} {rnd : ℕ → K}

theorem bisect_sound {c : Curve K ((Fin 2 → K) × K)} {y md : K} {fwd : Bool} : ∀ (n : ℕ) (mn mx : K) (r : (Fin 2 → K) × K),
    mn ≤ mx → bisect eps c y md fwd n mn mx = .ok (some r) →
    mn ≤ r.2 ∧ r.2 ≤ mx ∧ c.pointAt eps r.2 = .ok r.1 ∧ |r.1 1 - y| < md := by
  intro n
  induction n with
  | zero => intro mn mx r _ h; cases h
  | succ n ih =>
    intro mn mx r hm h
    rw [bisect] at h
    obtain ⟨q, eq, h⟩ := bind_eq_ok.1 h
    have t1 : mn ≤ (mn + mx) / 2 := by linarith
    have t2 : (mn + mx) / 2 ≤ mx := by linarith
    simp only at h
    by_cases h1 : |q 1 - y| < md
    · rw [if_pos h1] at h
      obtain rfl := Option.some.inj (Except.ok.inj h)
      exact ⟨t1, t2, eq, h1⟩
    · rw [if_neg h1] at h
      generalize (if fwd = true then decide (0 < q 1 - y) else !decide (0 < q 1 - y)) = over at h
      cases over
      · obtain ⟨k1, k2, k3⟩ := ih _ _ _ t2 h
        exact ⟨t1.trans k1, k2, k3⟩
      · obtain ⟨k1, k2, k3⟩ := ih _ _ _ t1 h
        exact ⟨k1, k2.trans t2, k3⟩

theorem forall₂_mem_right {A B : Type} {R : A → B → Prop} : ∀ {l : List A} {r : List B}, List.Forall₂ R l r → ∀ {y}, y ∈ r →
    ∃ x ∈ l, R x y
  | _, _, .nil, _, h => by cases h
  | _, _, .cons h1 h2, y, h => by
    rcases List.mem_cons.1 h with rfl | h
    · exact ⟨_, by simp, h1⟩
    · obtain ⟨x, hx, hr⟩ := forall₂_mem_right h2 h
      exact ⟨x, List.mem_cons_of_mem _ hx, hr⟩

theorem coalesceGo_mem {H : Type} {near : H → H → Bool} : ∀ (t : List H) (x y : H), y ∈ coalesceGo near x t → y ∈ x :: t
  | [], x, y, h => h
  | a :: t, x, y, h => by
    rw [coalesceGo] at h
    split_ifs at h
    · rcases List.mem_cons.1 (coalesceGo_mem t x y h) with rfl | h <;> simp [*]
    · rcases List.mem_cons.1 h with rfl | h
      · simp
      · exact List.mem_cons_of_mem _ (coalesceGo_mem t a y h)

theorem coalesce_mem {H : Type} {near : H → H → Bool} {l : List H} {y : H} (h : y ∈ coalesce near l) : y ∈ l := by
  cases l with
  | nil => exact h
  | cons a t => exact coalesceGo_mem t a y h

/-- **C78** Whatever the position of the ray, every hit is a point of the curve to the right of the point, at its
    height up to the tolerance. -/
theorem C78_hits_sound {c : Curve K ((Fin 2 → K) × K)} (hc : c.Good eps) (hw : ∀ q ∈ c.cps, 0 < q.2)
    (hr : ∀ n, 0 ≤ rnd n ∧ rnd n ≤ 1) {o : Options K} (hG : Generic eps big rnd ⟨c, (c.hi - c.lo) / o.division⟩)
    {nrm : (Fin 2 → K) → K} {pos fuel : ℕ} {p : Fin 2 → K} {len : K} {hits : List (Fin 2 → K)}
    (h : rayIntersection eps big nrm rnd pos fuel o c p len = .ok hits) :
    ∀ q ∈ hits, p 0 ≤ q 0 ∧ |q 1 - p 1| < o.minDist ∧ ∃ t, c.lo ≤ t ∧ t ≤ c.hi ∧ c.pointAt eps t = .ok q := by
  rw [rayIntersection] at h
  obtain ⟨ray, -, h⟩ := bind_eq_ok.1 h
  rw [knotsDomain_eq hc, ok_bind] at h
  obtain ⟨tol, htol, h⟩ := bind_eq_ok.1 h
  simp only [CurveTree.new, pure_bind] at h
  obtain ⟨rd, -, h⟩ := bind_eq_ok.1 h
  obtain ⟨pairs, hpairs, h⟩ := bind_eq_ok.1 h
  obtain ⟨found, hfound, h⟩ := bind_eq_ok.1 h
  obtain rfl := Except.ok.inj h
  have htol : tol = (c.hi - c.lo) / o.division := by
    rw [divR] at htol
    split_ifs at htol
    exact (Except.ok.inj htol).symm
  rw [htol] at hpairs
  have ia : CurveInv eps big rnd ⟨c, (c.hi - c.lo) / o.division⟩ ⟨c, (c.hi - c.lo) / o.division⟩ := ⟨.root, hc, hw, rfl⟩
  intro q hq
  obtain ⟨x, hx, rfl⟩ := List.mem_map.1 hq
  have hx := (List.mergeSort_perm _ _).mem_iff.1 (coalesce_mem hx)
  rw [List.mem_filter] at hx
  obtain ⟨hx, hright⟩ := hx
  obtain ⟨y, hy, rfl⟩ := List.mem_filterMap.1 hx
  obtain ⟨e, he, hhit⟩ := forall₂_mem_right (mapM_ok_inv hfound) hy
  obtain ⟨hreach, -⟩ := C37_sound hpairs e he
  obtain ⟨a1, a2, a3⟩ := reach_piece hG hr ia hreach
  have hinv := reach_inv hG hr ia hreach
  have hd := hinv.good.pre.dom
  rw [pieceHit, knotsDomain_eq hinv.good, ok_bind] at hhit
  obtain ⟨ps, eps', hhit⟩ := bind_eq_ok.1 hhit
  obtain ⟨pe, epe, hhit⟩ := bind_eq_ok.1 hhit
  have key : ∃ fwd, bisect eps e.1.curve (p 1) o.minDist fwd o.maxIters e.1.curve.lo e.1.curve.hi = .ok (some x) := by
    split_ifs at hhit
    · cases hhit
    · split at hhit
      · cases hhit
      · cases hhit
      · exact ⟨_, hhit⟩
      · exact ⟨_, hhit⟩
  obtain ⟨fwd, key⟩ := key
  obtain ⟨k1, k2, k3, k4⟩ := bisect_sound _ _ _ _ hd.le key
  exact ⟨by simpa using hright, k4, x.2, a1.trans k1, k2.trans a2, by rw [← a3 _ k1 k2]; exact k3⟩

/-- **C78** The code does not meet the even-odd rule when the curve is not subdivided: with `knot_domain_division = 1` a
    closed curve of degree at least two has no hits, whatever the ray. -/
theorem C78_undivided {c : Curve K ((Fin 2 → K) × K)} (hc : c.Good eps) (hdeg : c.degree ≠ 1) {q : Fin 2 → K}
    (hs : c.pointAt eps c.lo = .ok q) (he : c.pointAt eps c.hi = .ok q) {o : Options K} (hdiv : o.division = 1)
    {nrm : (Fin 2 → K) → K} {pos fuel : ℕ} {p : Fin 2 → K} {len : K} {hits : List (Fin 2 → K)}
    (h : rayIntersection eps big nrm rnd pos fuel o c p len = .ok hits) : hits = [] := by
  rw [rayIntersection] at h
  obtain ⟨ray, -, h⟩ := bind_eq_ok.1 h
  rw [knotsDomain_eq hc, ok_bind, hdiv, Nat.cast_one, divR_eq_ok one_ne_zero, ok_bind, div_one] at h
  simp only [CurveTree.new, pure_bind] at h
  obtain ⟨rd, -, h⟩ := bind_eq_ok.1 h
  obtain ⟨pairs, hpairs, h⟩ := bind_eq_ok.1 h
  obtain ⟨found, hfound, h⟩ := bind_eq_ok.1 h
  obtain rfl := Except.ok.inj h
  have hleaf : ∀ x, Reach (CurveTree.tree eps big rnd) ⟨c, c.hi - c.lo⟩ x → x = ⟨c, c.hi - c.lo⟩ := by
    have hd : (CurveTree.tree eps big rnd).isDividable ⟨c, c.hi - c.lo⟩ = .ok false := by
      show CurveTree.isDividable _ = _
      rw [isDividable_ok hc]
      simp [hdeg]
    intro x hx
    induction hx with
    | root => rfl
    | left _ h1 _ ih => rw [ih, hd] at h1; cases h1
    | right _ h1 _ ih => rw [ih, hd] at h1; cases h1
  have hnone : ∀ y ∈ found, y = none := by
    intro y hy
    obtain ⟨e, he', hhit⟩ := forall₂_mem_right (mapM_ok_inv hfound) hy
    rw [hleaf _ (C37_sound hpairs e he').1, pieceHit] at hhit
    simp only [knotsDomain_eq hc, ok_bind, hs, he] at hhit
    split_ifs at hhit
    · exact (Except.ok.inj hhit).symm
    · cases hq : decide (p 1 < q 1) <;> rw [hq] at hhit <;> exact (Except.ok.inj hhit).symm
  have : found.filterMap id = [] := by
    rw [List.filterMap_eq_nil_iff]
    intro y hy; rw [hnone y hy]; rfl
  rw [this, List.filter_nil, List.mergeSort_nil]; rfl

end sound

/-! ### Witness: a closed cubic with a point inside and one outside -/

/-- Witness: the curve `x = 49 t (1 - t)`, `y = 343 t (1 - t) (2 t - 1)`, closed at the origin. -/
noncomputable def exTear : Curve ℝ ((Fin 2 → ℝ) × ℝ) where
  degree := 3
  cps := [(![0, 0], 1), (![49/3, -343/3], 1), (![49/3, 343/3], 1), (![0, 0], 1)]
  knots := [0, 0, 0, 0, 1, 1, 1, 1]

theorem exTear_good : exTear.Good (1/1000000) where
  cps_pos := by simp [exTear]
  knots_len := by simp [exTear]
  good := by
    refine ⟨by norm_num, by simp [exTear], ?_, ?_, ?_, ?_, ?_⟩
    · exact mono_of_sorted (by norm_num [exTear]) (by simp [exTear])
    all_goals norm_num [exTear, kf]

theorem exTear_lo : exTear.lo = 0 := by simp [exTear, Curve.lo, kf]

theorem exTear_hi : exTear.hi = 1 := by simp [exTear, Curve.hi, kf]

noncomputable def tearAt (t : ℝ) : Fin 2 → ℝ := ![49 * t * (1 - t), 343 * t * (1 - t) * (2 * t - 1)]

theorem exTear_point {t : ℝ} (h0 : 0 ≤ t) (h1 : t ≤ 1) : exTear.pointAt (1/1000000) t = .ok (tearAt t) := by
  have hpt := (C09_point_at_positive_weights exTear_good (by simp [exTear]) (u := t) (by rw [exTear_lo]; exact h0)
    (by rw [exTear_hi]; exact h1)).1
  have hspan := Bezier.span (s := exTear) (eps := 1/1000000) ⟨exTear_good, rfl, by simp [exTear]⟩
  rw [exTear_lo, exTear_hi] at hspan
  have hin' : Spec.InSpan (kf ([0, 0, 0, 0, 1, 1, 1, 1] : List ℝ)) 1 t 3 := by
    have : t ∈ Set.Icc (0 : ℝ) 1 := ⟨h0, h1⟩
    rw [← hspan] at this
    exact this
  have hno : ∀ k ∈ [0, 1, 2, 4, 5, 6], ¬ Spec.InSpan (kf ([0, 0, 0, 0, 1, 1, 1, 1] : List ℝ)) 1 t k := by
    intro k hk h
    have := Curve.inSpan_lt h
    fin_cases hk <;> simp [kf] at this
  have e : exTear.eval t = Spec.N (kf ([0, 0, 0, 0, 1, 1, 1, 1] : List ℝ)) 1 3 0 t • ((![0, 0] : Fin 2 → ℝ), (1 : ℝ)) +
      (Spec.N (kf ([0, 0, 0, 0, 1, 1, 1, 1] : List ℝ)) 1 3 1 t • ((![49/3, -343/3] : Fin 2 → ℝ), (1 : ℝ)) +
      (Spec.N (kf ([0, 0, 0, 0, 1, 1, 1, 1] : List ℝ)) 1 3 2 t • ((![49/3, 343/3] : Fin 2 → ℝ), (1 : ℝ)) +
      Spec.N (kf ([0, 0, 0, 0, 1, 1, 1, 1] : List ℝ)) 1 3 3 t • ((![0, 0] : Fin 2 → ℝ), (1 : ℝ)))) := by
    simp [Curve.eval, Spec.curve, exTear, Finset.sum_range_succ, kf, add_assoc]
  have e2 : exTear.eval t = (tearAt t, 1) := by
    rw [e]
    simp only [Spec.N, if_neg (hno 0 (by simp)), if_neg (hno 1 (by simp)), if_neg (hno 2 (by simp)), if_neg (hno 4 (by simp)),
      if_neg (hno 5 (by simp)), if_neg (hno 6 (by simp)), if_pos hin']
    simp only [kf, List.getD_cons_zero, List.getD_cons_succ, List.getD_eq_getElem?_getD, tearAt]
    ext i
    · fin_cases i <;> simp <;> ring
    · simp; ring
  rw [hpt, e2]; simp

theorem tear_height (t : ℝ) : tearAt t 1 - 30 = -686 * (t - 5/7) * (t - 6/7) * (t + 1/14) := by
  simp only [tearAt, Matrix.cons_val_one, Matrix.cons_val_fin_one]; ring

theorem tear_zero {t : ℝ} (h0 : 0 ≤ t) : tearAt t 1 = 30 ↔ t = 5/7 ∨ t = 6/7 := by
  rw [← sub_eq_zero, tear_height]
  constructor
  · intro h
    rcases mul_eq_zero.1 h with h | h
    · rcases mul_eq_zero.1 h with h | h
      · rcases mul_eq_zero.1 h with h | h
        · norm_num at h
        · left; linarith
      · right; linarith
    · linarith
  · rintro (rfl | rfl) <;> norm_num

theorem tear_x (t : ℝ) : tearAt t 0 = 49 * t * (1 - t) := rfl

theorem tear_near_first {t : ℝ} (h : |t - 5/7| ≤ 1/64) : 9 ≤ tearAt t 0 := by
  rw [tear_x]
  obtain ⟨h1, h2⟩ := abs_le.1 h
  nlinarith

theorem tear_near_second {t : ℝ} (h : |t - 6/7| ≤ 1/64) : 5 ≤ tearAt t 0 ∧ tearAt t 0 < 7 := by
  rw [tear_x]
  obtain ⟨h1, h2⟩ := abs_le.1 h
  constructor <;> nlinarith

theorem tear_general {a : ℝ} (ha : a ≤ 5 ∨ 7 ≤ a ∧ a ≤ 9) :
    RayGeneral tearAt 0 1 (1/64) (1/100000) (fun v => |v 0| + |v 1|) ![a, 30] where
  start := by norm_num [tearAt]
  stop := by norm_num [tearAt]
  crosses := by
    intro z h0 _ hz
    have hz : tearAt z 1 = 30 := by simpa using hz
    have hf : (fun s => tearAt s 1 - (![a, 30] : Fin 2 → ℝ) 1) = fun s => -686 * (s - 5/7) * (s - 6/7) * (s + 1/14) := by
      funext s; rw [← tear_height]; simp
    rw [hf]
    rcases (tear_zero h0).1 hz with rfl | rfl
    · left
      refine ⟨1/64, by norm_num, fun s h1 h2 => ?_, fun s h1 h2 => ?_⟩
      · have := mul_pos (mul_pos (sub_pos.2 h2) (show 0 < 6/7 - s by linarith)) (show 0 < s + 1/14 by linarith)
        nlinarith
      · have := mul_pos (mul_pos (sub_pos.2 h1) (show 0 < 6/7 - s by linarith)) (show 0 < s + 1/14 by linarith)
        nlinarith
    · right
      refine ⟨1/64, by norm_num, fun s h1 h2 => ?_, fun s h1 h2 => ?_⟩
      · have := mul_pos (mul_pos (sub_pos.2 h2) (show 0 < s - 5/7 by linarith)) (show 0 < s + 1/14 by linarith)
        nlinarith
      · have := mul_pos (mul_pos (sub_pos.2 h1) (show 0 < s - 5/7 by linarith)) (show 0 < s + 1/14 by linarith)
        nlinarith
  apart := by
    intro z w h0 _ hz k0 _ hw hne
    have hz : tearAt z 1 = 30 := by simpa using hz
    have hw : tearAt w 1 = 30 := by simpa using hw
    rcases (tear_zero h0).1 hz with rfl | rfl <;> rcases (tear_zero k0).1 hw with rfl | rfl
    · exact absurd rfl hne
    · norm_num [abs_of_neg]
    · norm_num
    · exact absurd rfl hne
  side := by
    intro z h0 _ hz
    have hz : tearAt z 1 = 30 := by simpa using hz
    simp only [Matrix.cons_val_zero]
    rcases (tear_zero h0).1 hz with rfl | rfl
    · left
      intro s _ _ hs
      have := tear_near_first hs
      rcases ha with ha | ha <;> linarith
    · rcases ha with ha | ha
      · left
        intro s _ _ hs
        linarith [(tear_near_second hs).1]
      · right
        intro s _ _ hs
        linarith [(tear_near_second hs).2]
  separate := by
    intro z w hz hw hne s t _ _ _ _ hs ht
    have hz1 : tearAt z 1 = 30 := by simpa using hz.2.2.1
    have hw1 : tearAt w 1 = 30 := by simpa using hw.2.2.1
    have key : ∀ {s t : ℝ}, |s - 5/7| ≤ 1/64 → |t - 6/7| ≤ 1/64 → 2 ≤ |(tearAt s - tearAt t) 0| := by
      intro s t hs ht
      have k1 := tear_near_first hs
      have k2 := (tear_near_second ht).2
      rw [Pi.sub_apply]
      exact le_trans (by linarith) (le_abs_self _)
    show 1/100000 ≤ |(tearAt s - tearAt t) 0| + |(tearAt s - tearAt t) 1|
    have habs := abs_nonneg ((tearAt s - tearAt t) 1)
    rcases (tear_zero hz.1).1 hz1 with rfl | rfl <;> rcases (tear_zero hw.1).1 hw1 with rfl | rfl
    · exact absurd rfl hne
    · linarith [key hs ht]
    · have := key ht hs
      rw [Pi.sub_apply, abs_sub_comm, ← Pi.sub_apply] at this
      linarith
    · exact absurd rfl hne

theorem tear_lip {s t : ℝ} (hs0 : 0 ≤ s) (hs1 : s ≤ 1) (ht0 : 0 ≤ t) (ht1 : t ≤ 1) : |tearAt s 1 - tearAt t 1| ≤ 343 * |s - t| := by
  have : tearAt s 1 - tearAt t 1 = 343 * ((-2 * (s^2 + s*t + t^2) + 3 * (s + t) - 1) * (s - t)) := by
    simp only [tearAt, Matrix.cons_val_one, Matrix.cons_val_fin_one]; ring
  rw [this, abs_mul, abs_mul, abs_of_pos (show (0 : ℝ) < 343 by norm_num)]
  have hq : |(-2 * (s^2 + s*t + t^2) + 3 * (s + t) - 1)| ≤ 1 := by
    rw [abs_le]
    constructor
    · nlinarith [mul_nonneg hs0 (sub_nonneg.2 hs1), mul_nonneg ht0 (sub_nonneg.2 ht1), mul_nonneg hs0 (sub_nonneg.2 ht1),
        mul_nonneg ht0 (sub_nonneg.2 hs1)]
    · nlinarith [sq_nonneg (s + t - 1), sq_nonneg (s - t)]
  nlinarith [abs_nonneg (s - t)]

theorem tear_closed : exTear.isClosed (1/1000000) (fun p q => |(p - q) 0| + |(p - q) 1|) = .ok true := by
  obtain ⟨a, b, h1, h2, h3⟩ := C67_is_closed exTear_good (by simp [exTear]) (by
    intro x hx y hy hne
    simp only [exTear, List.mem_cons, List.not_mem_nil, or_false] at hx hy
    rcases hx with rfl | rfl | rfl | rfl | rfl | rfl | rfl | rfl <;> rcases hy with rfl | rfl | rfl | rfl | rfl | rfl | rfl | rfl <;>
      first | exact absurd rfl hne | norm_num) (fun p q => |(p - q) 0| + |(p - q) 1|)
  rw [h3]
  rw [Curve.firstPoint, knotsDomain_eq exTear_good, ok_bind, exTear_lo, exTear_point le_rfl zero_le_one] at h1
  rw [Curve.endPoint, knotsDomain_eq exTear_good, ok_bind, exTear_hi, exTear_point zero_le_one le_rfl] at h2
  obtain rfl := Except.ok.inj h1
  obtain rfl := Except.ok.inj h2
  norm_num [tearAt]

theorem l1_zero (v : Fin 2 → ℝ) (hv : |v 0| + |v 1| = 0) : v = 0 := by
  have h1 := abs_nonneg (v 0)
  have h2 := abs_nonneg (v 1)
  have h3 : |v 0| = 0 := by linarith
  have h4 : |v 1| = 0 := by linarith
  ext i; fin_cases i
  · exact abs_eq_zero.1 h3
  · exact abs_eq_zero.1 h4

theorem tear_contains {a : ℝ} (ha : a ≤ 5 ∨ 7 ≤ a ∧ a ≤ 9) {rnd : ℕ → ℝ} (hr : ∀ n, 0 ≤ rnd n ∧ rnd n ≤ 1) :
    ∃ N, ∀ fuel, N ≤ fuel → ∀ pos, curveContains (1/1000000) 1000 (fun v => |v 0| + |v 1|) (fun _ => .ok ![0, 0]) rnd pos fuel none
      exTear ![a, 30] = .ok (decide ((rightCrossings tearAt 0 1 ![a, 30]).ncard % 2 = 1)) := by
  have hδ : (exTear.hi - exTear.lo) / ((Options.default : Options ℝ).division : ℝ) = 1/64 := by
    rw [exTear_lo, exTear_hi]; norm_num [Options.default]
  have := (C78_even_odd (eps := 1/1000000) (big := 1000) (rnd := rnd) (c := exTear) exTear_good (by norm_num) (by simp [exTear]) hr
    (opt := none) (o := Options.default) rfl (by decide) (by decide) (γ := tearAt)
    (fun s h1 h2 => exTear_point (by rwa [exTear_lo] at h1) (by rwa [exTear_hi] at h2))
    (by rw [exTear_lo, exTear_hi]; norm_num [tearAt]) (s₁ := 0) (s₂ := 1/2) (by rw [exTear_lo, exTear_hi]; norm_num)
    (by rw [exTear_lo, exTear_hi]; norm_num) (by norm_num [tearAt]) (nrm := fun v => |v 0| + |v 1|)
    l1_zero
    tear_closed (p := ![a, 30]) (closest := fun _ => .ok ![0, 0])
    (by
      simp only [onBoundary, Option.map_none, Option.getD_none]
      have h1 : ¬ (|((![0, 0] : Fin 2 → ℝ) - ![a, 30]) 0| + |((![0, 0] : Fin 2 → ℝ) - ![a, 30]) 1| < 1 / 1000000) := by
        have := abs_nonneg (((![0, 0] : Fin 2 → ℝ) - ![a, 30]) 0)
        have h2 : |((![0, 0] : Fin 2 → ℝ) - ![a, 30]) 1| = 30 := by norm_num
        rw [h2]; intro h; linarith
      rw [decide_eq_false h1]; rfl)
    (L := 343) (by norm_num)
    (fun s t h1 h2 h3 h4 => tear_lip (by rwa [exTear_lo] at h1) (by rwa [exTear_hi] at h2) (by rwa [exTear_lo] at h3)
      (by rwa [exTear_hi] at h4))
    (by rw [hδ]; norm_num [Options.default])
    (generic_of_ends hr exTear_good (by simp [exTear]) (by rw [exTear_lo, exTear_hi]; simp [exTear]) (by rw [hδ]; norm_num) (by norm_num))
    (by rw [hδ, exTear_lo, exTear_hi]; exact tear_general ha)).2
  rwa [exTear_lo, exTear_hi] at this

/-- Witness: (8, 30) is inside, its ray meets the curve at `t = 5/7` only. -/
example {rnd : ℕ → ℝ} (hr : ∀ n, 0 ≤ rnd n ∧ rnd n ≤ 1) : ∃ N, ∀ fuel, N ≤ fuel → ∀ pos,
    curveContains (1/1000000) 1000 (fun v => |v 0| + |v 1|) (fun _ => .ok ![0, 0]) rnd pos fuel none exTear ![8, 30] = .ok true := by
  have : rightCrossings tearAt 0 1 ![8, 30] = {5/7} := by
    ext z
    simp only [rightCrossings, Matrix.cons_val_zero, Matrix.cons_val_one, Matrix.cons_val_fin_one, Set.mem_ofPred_eq, Set.mem_singleton_iff]
    constructor
    · rintro ⟨h1, -, h3, h4⟩
      rcases (tear_zero h1).1 h3 with h | rfl
      · exact h
      · rw [tear_x] at h4; norm_num at h4
    · rintro rfl
      refine ⟨by norm_num, by norm_num, (tear_zero (by norm_num)).2 (Or.inl rfl), ?_⟩
      rw [tear_x]; norm_num
  have h := tear_contains (a := 8) (by norm_num) hr
  rw [this, Set.ncard_singleton] at h
  exact h

/-- Witness: (5, 30) is outside, its ray meets the curve at `t = 5/7` and `t = 6/7`. -/
example {rnd : ℕ → ℝ} (hr : ∀ n, 0 ≤ rnd n ∧ rnd n ≤ 1) : ∃ N, ∀ fuel, N ≤ fuel → ∀ pos,
    curveContains (1/1000000) 1000 (fun v => |v 0| + |v 1|) (fun _ => .ok ![0, 0]) rnd pos fuel none exTear ![5, 30] = .ok false := by
  have : rightCrossings tearAt 0 1 ![5, 30] = {5/7, 6/7} := by
    ext z
    simp only [rightCrossings, Matrix.cons_val_zero, Matrix.cons_val_one, Matrix.cons_val_fin_one, Set.mem_ofPred_eq, Set.mem_insert_iff,
      Set.mem_singleton_iff]
    constructor
    · rintro ⟨h1, -, h3, h4⟩
      exact (tear_zero h1).1 h3
    · rintro (rfl | rfl)
      · refine ⟨by norm_num, by norm_num, (tear_zero (by norm_num)).2 (Or.inl rfl), ?_⟩
        rw [tear_x]; norm_num
      · refine ⟨by norm_num, by norm_num, (tear_zero (by norm_num)).2 (Or.inr rfl), ?_⟩
        rw [tear_x]; norm_num
  have h := tear_contains (a := 5) (by norm_num) hr
  rw [this, Set.ncard_pair (by norm_num)] at h
  exact h

/-- Without subdivision (8, 30) is not found to be inside. -/
example {rnd : ℕ → ℝ} {pos fuel : ℕ} {hits} (h : rayIntersection (1/1000000) 1000 (fun v => |v 0| + |v 1|) rnd pos fuel ⟨1/100000, 1, 200⟩
    exTear ![8, 30] 100 = .ok hits) : hits = [] :=
  C78_undivided exTear_good (by decide) (q := tearAt 0) (by rw [exTear_lo]; exact exTear_point le_rfl zero_le_one)
    (by rw [exTear_hi, exTear_point zero_le_one le_rfl]; norm_num [tearAt]) rfl h

/-! ### A point the code misses -/

theorem divide_degree {d : ℕ} {eps : ℝ} {rnd : ℕ → ℝ} {t a b : CurveTree ℝ d} {pos pos' : ℕ}
    (h : CurveTree.tryDivide eps rnd t pos = .ok ((a, b), pos')) : a.curve.degree = t.curve.degree ∧ b.curve.degree = t.curve.degree := by
  have hnew : ∀ {n : ℕ} {cps : List ((Fin d → ℝ) × ℝ)} {ks : List ℝ} {c : Curve ℝ ((Fin d → ℝ) × ℝ)},
      Curve.tryNew n cps ks = .ok c → c.degree = n := by
    intro n cps ks c hc
    rw [Curve.tryNew] at hc
    split_ifs at hc
    exact (congrArg Curve.degree (Except.ok.inj hc)).symm
  rw [CurveTree.tryDivide] at h
  obtain ⟨dom, -, h⟩ := bind_eq_ok.1 h
  obtain ⟨⟨l, r⟩, hs, h⟩ := bind_eq_ok.1 h
  obtain ⟨h1, -⟩ := Prod.mk.inj (Except.ok.inj h)
  obtain ⟨rfl, rfl⟩ := Prod.mk.inj h1
  rw [Curve.trySplit] at hs
  obtain ⟨_, -, hs⟩ := bind_eq_ok.1 hs
  obtain ⟨_, -, hs⟩ := bind_eq_ok.1 hs
  obtain ⟨_, -, hs⟩ := bind_eq_ok.1 hs
  obtain ⟨_, -, hs⟩ := bind_eq_ok.1 hs
  obtain ⟨_, -, hs⟩ := bind_eq_ok.1 hs
  obtain ⟨_, -, hs⟩ := bind_eq_ok.1 hs
  obtain ⟨_, -, hs⟩ := bind_eq_ok.1 hs
  obtain ⟨_, -, hs⟩ := bind_eq_ok.1 hs
  obtain ⟨l', hl, hs⟩ := bind_eq_ok.1 hs
  obtain ⟨r', hr, hs⟩ := bind_eq_ok.1 hs
  obtain ⟨rfl, rfl⟩ := Prod.mk.inj (Except.ok.inj hs)
  exact ⟨hnew hl, hnew hr⟩

/-- Witness: a stream of random numbers. -/
noncomputable def quarter : ℕ → ℝ := fun _ => 1/4

theorem quarter_range (n : ℕ) : 0 ≤ quarter n ∧ quarter n ≤ 1 := by norm_num [quarter]

theorem tear_generic : Generic (1/1000000) 1000 quarter ⟨exTear, 1/64⟩ :=
  generic_of_ends quarter_range exTear_good (by simp [exTear]) (by rw [exTear_lo, exTear_hi]; simp [exTear]) (by norm_num) (by norm_num)

theorem tear_root : CurveInv (1/1000000) 1000 quarter ⟨exTear, 1/64⟩ ⟨exTear, 1/64⟩ :=
  ⟨.root, exTear_good, by simp [exTear], rfl⟩

/-- With the random number 1/4 in every draw no piece ends near the tip of the curve. -/
theorem tear_reach {t : CurveTree ℝ 2} (h : Reach (CurveTree.tree (1/1000000) 1000 quarter) ⟨exTear, 1/64⟩ t) :
    t.curve.degree = 3 ∧ (t.curve.hi ≤ 499/1000 ∨ 501/1000 ≤ t.curve.lo ∨ (t.curve.lo = 0 ∧ t.curve.hi = 1) ∨
      (t.curve.lo = 19/40 ∧ (t.curve.hi = 1 ∨ t.curve.hi = 1159/1600 ∨ t.curve.hi = 37981/64000 ∨ t.curve.hi = 1360039/2560000 ∨
        t.curve.hi = 51376741/102400000)) ∨ (t.curve.lo = 1997598079/4096000000 ∧ t.curve.hi = 51376741/102400000)) := by
  have main : ∀ (x y z : CurveTree ℝ 2) (r r' : ℕ), Reach (CurveTree.tree (1/1000000) 1000 quarter) ⟨exTear, 1/64⟩ x →
      x.curve.degree = 3 → (CurveTree.tree (1/1000000) 1000 quarter).isDividable x = .ok true →
      (CurveTree.tree (1/1000000) 1000 quarter).tryDivide x r = .ok ((y, z), r') →
      (y.curve.degree = 3 ∧ y.curve.lo = x.curve.lo ∧ y.curve.hi = (21 * x.curve.lo + 19 * x.curve.hi) / 40) ∧
      (z.curve.degree = 3 ∧ z.curve.lo = (21 * x.curve.lo + 19 * x.curve.hi) / 40 ∧ z.curve.hi = x.curve.hi) ∧
      1/64 < x.curve.hi - x.curve.lo ∧ x.curve.lo < x.curve.hi := by
    intro x y z r r' hx hdeg hdv ed
    have hinv := reach_inv tear_generic quarter_range tear_root hx
    obtain ⟨a, b, e, g1, g2, w1, w2, q1, q2, q3, q4, -⟩ := split_node (tear_generic x r hx hdv) quarter_range hinv.good hinv.weights
    have ed' : CurveTree.tryDivide (1/1000000) quarter x r = .ok ((y, z), r') := ed
    obtain ⟨d1, d2⟩ := divide_degree ed'
    rw [e] at ed'
    obtain ⟨h1, -⟩ := Prod.mk.inj (Except.ok.inj ed')
    obtain ⟨rfl, rfl⟩ := Prod.mk.inj h1
    have hdv' : x.isDividable = .ok true := hdv
    rw [isDividable_ok hinv.good] at hdv'
    have hdv' := Except.ok.inj hdv'
    have hp : paramOf quarter x r = (21 * x.curve.lo + 19 * x.curve.hi) / 40 := by
      simp only [paramOf, CurveTree.splitParam, quarter]; ring
    refine ⟨⟨d1.trans hdeg, q1, q2.trans hp⟩, ⟨d2.trans hdeg, q3.trans hp, q4⟩, ?_, hinv.good.pre.dom⟩
    simp only [hdeg, hinv.tol] at hdv'
    simpa using hdv'
  induction h with
  | root =>
    refine ⟨rfl, Or.inr (Or.inr (Or.inl ⟨exTear_lo, exTear_hi⟩))⟩
  | @left x y z r r' hx hdv ed ih =>
    obtain ⟨⟨d1, e1, e2⟩, -, hlen, hlt⟩ := main x y z r r' hx ih.1 hdv ed
    refine ⟨d1, ?_⟩
    rw [e1, e2]
    rcases ih.2 with h | h | ⟨h1, h2⟩ | ⟨h1, h2 | h2 | h2 | h2 | h2⟩ | ⟨h1, h2⟩
    · left; linarith
    · right; left; exact h
    all_goals
      rw [h1, h2] at hlen ⊢
      first | (norm_num; done) | (norm_num at hlen; done)
  | @right x y z r r' hx hdv ed ih =>
    obtain ⟨-, ⟨d1, e1, e2⟩, hlen, hlt⟩ := main x y z r r' hx ih.1 hdv ed
    refine ⟨d1, ?_⟩
    rw [e1, e2]
    rcases ih.2 with h | h | ⟨h1, h2⟩ | ⟨h1, h2 | h2 | h2 | h2 | h2⟩ | ⟨h1, h2⟩
    · left; exact h
    · right; left; linarith
    all_goals
      rw [h1, h2] at hlen ⊢
      first | (norm_num; done) | (norm_num at hlen; done)

theorem tear_left {t : ℝ} (h : t ≤ 499/1000 ∨ 501/1000 ≤ t) : tearAt t 0 < 122499/10000 + 6/100000 := by
  rw [tear_x]
  rcases h with h | h <;> nlinarith

/-- **C78** The code does not meet the even-odd rule for points just inside a bulge to the right, even with the default
    options: the ray from the point meets the curve once, but the ends of the piece with the crossing are both to the left
    of the point, so that the crossing is dropped and the point counts as outside. -/
theorem C78_bulge_missed : ∃ (c : Curve ℝ ((Fin 2 → ℝ) × ℝ)) (γ : ℝ → Fin 2 → ℝ) (p : Fin 2 → ℝ) (rnd : ℕ → ℝ), c.Good (1/1000000) ∧
    (∀ n, 0 ≤ rnd n ∧ rnd n ≤ 1) ∧ (∀ s, c.lo ≤ s → s ≤ c.hi → c.pointAt (1/1000000) s = .ok (γ s)) ∧
    c.isClosed (1/1000000) (fun p q => |(p - q) 0| + |(p - q) 1|) = .ok true ∧
    (rightCrossings γ c.lo c.hi p).ncard = 1 ∧
    ∃ N, ∀ fuel, N ≤ fuel → ∀ pos q, onBoundary (fun v => |v 0| + |v 1|) none p (.ok q) = .ok false →
      curveContains (1/1000000) 1000 (fun v => |v 0| + |v 1|) (fun _ => .ok q) rnd pos fuel none c p = .ok false := by
  refine ⟨exTear, tearAt, ![12249960/1000000, 0], quarter, exTear_good, quarter_range,
    fun s h1 h2 => exTear_point (by rwa [exTear_lo] at h1) (by rwa [exTear_hi] at h2), tear_closed, ?_, ?_⟩
  · have : rightCrossings tearAt exTear.lo exTear.hi ![12249960/1000000, 0] = {1/2} := by
      ext z
      rw [exTear_lo, exTear_hi]
      simp only [rightCrossings, Matrix.cons_val_zero, Matrix.cons_val_one, Matrix.cons_val_fin_one, Set.mem_ofPred_eq, Set.mem_singleton_iff]
      constructor
      · rintro ⟨h1, h2, h3, h4⟩
        rw [tear_x] at h4
        simp only [tearAt, Matrix.cons_val_one, Matrix.cons_val_fin_one] at h3
        rcases mul_eq_zero.1 h3 with h | h
        · rcases mul_eq_zero.1 h with h | h
          · have : z = 0 := by linarith
            rw [this] at h4; norm_num at h4
          · have : z = 1 := by linarith
            rw [this] at h4; norm_num at h4
        · linarith
      · rintro rfl
        norm_num [tearAt]
    rw [this, Set.ncard_singleton]
  · obtain ⟨p, hp⟩ : ∃ p : Fin 2 → ℝ, p = ![12249960/1000000, 0] := ⟨_, rfl⟩
    have hp0 : p 0 = 12249960/1000000 := by rw [hp]; rfl
    rw [← hp]
    obtain ⟨bx, q0, hbx, hq0, hin0⟩ := C10_in_bounding_box (eps := 1/1000000) (big := 1000) exTear_good (by simp [exTear])
      (u := 0) (by rw [exTear_lo]) (by rw [exTear_hi]; norm_num)
    obtain ⟨bx', q1, hbx', hq1, hin1⟩ := C10_in_bounding_box (eps := 1/1000000) (big := 1000) exTear_good (by simp [exTear])
      (u := 1/2) (by rw [exTear_lo]; norm_num) (by rw [exTear_hi]; norm_num)
    rw [hbx] at hbx'
    obtain rfl := Except.ok.inj hbx'
    rw [exTear_point (by norm_num) (by norm_num)] at hq0 hq1
    obtain rfl := Except.ok.inj hq0
    obtain rfl := Except.ok.inj hq1
    have hsize : 0 < bx.size 0 * 2 := by
      have k1 := (contains_iff.1 hin0 0).1
      have k2 := (contains_iff.1 hin1 0).2
      rw [tear_x] at k1 k2
      simp only [Box.size]
      norm_num at k1 k2
      linarith
    obtain ⟨tb, htb⟩ : ∃ tb : CurveTree ℝ 2, tb = ⟨rayCurve p (bx.size 0 * 2), 1⟩ := ⟨_, rfl⟩
    have hbd : tb.isDividable = .ok false := by rw [htb]; exact ray_tree (eps := 1/1000000) (by norm_num) (by norm_num) p _
    obtain ⟨bb, ebb, hbb⟩ := ray_box (big := 1000) p (bx.size 0 * 2)
    rw [← htb] at ebb
    have hr := quarter_range
    have hcov := C37_curve_covers tear_generic hr
    have hcb : Covers (CurveTree.tree (1/1000000) 1000 quarter) (fun (_ : CurveTree ℝ 2) q => bb.contains q = true) (· = tb) :=
      ⟨fun x hx => ⟨bb, by rw [hx]; exact ebb, fun q hq => hq⟩, fun x hx => ⟨false, by rw [hx]; exact hbd⟩,
        fun x r hx h => by
          rw [hx] at h
          have h' : tb.isDividable = .ok true := h
          rw [hbd] at h'; cases h'⟩
    have hrb : Ranked (CurveTree.tree (1/1000000) 1000 quarter) (· = tb) (fun _ => 0) := fun x r y z r' hx h => by
      rw [hx] at h
      have h' : tb.isDividable = .ok true := h
      rw [hbd] at h'; cases h'
    refine ⟨5 ^ (curveRank ⟨exTear, 1/64⟩ ⟨exTear, 1/64⟩ + 0), fun fuel hfuel pos q hon => ?_⟩
    rw [curveContains, tear_closed, ok_bind, hbx]
    by_cases hb : bx.contains p = true
    · obtain ⟨pairs, hpairs⟩ := traverse_total hcov hcb (curve_ranked tear_generic hr (by norm_num)) hrb fuel [(⟨exTear, 1/64⟩, tb)] pos
        (by intro e he; rw [List.mem_singleton.1 he]; exact ⟨tear_root, rfl⟩) (by simpa [cost] using hfuel)
      have hfound : (pairs.mapM fun e => pieceHit (1/1000000) Options.default p e.1.curve) = .ok (pairs.map fun _ => none) := by
        refine mapM_ok fun e he => ?_
        obtain ⟨hreach, -, hund, -⟩ := C37_sound hpairs e he
        obtain ⟨a1, a2, a3⟩ := reach_piece tear_generic hr tear_root hreach
        have hinv := reach_inv tear_generic hr tear_root hreach
        have hd := hinv.good.pre.dom
        have a1 : (0 : ℝ) ≤ e.1.curve.lo := by have := a1; rwa [exTear_lo] at this
        have a2 : e.1.curve.hi ≤ (1 : ℝ) := by have := a2; rwa [exTear_hi] at this
        have hpt : ∀ s, e.1.curve.lo ≤ s → s ≤ e.1.curve.hi → e.1.curve.pointAt (1/1000000) s = .ok (tearAt s) := fun s k1 k2 => by
          rw [a3 s k1 k2]; exact exTear_point (a1.trans k1) (k2.trans a2)
        have hfar : (e.1.curve.lo ≤ 499/1000 ∨ 501/1000 ≤ e.1.curve.lo) ∧ (e.1.curve.hi ≤ 499/1000 ∨ 501/1000 ≤ e.1.curve.hi) := by
          rcases (tear_reach hreach).2 with h | h | ⟨h1, h2⟩ | ⟨h1, h2 | h2 | h2 | h2 | h2⟩ | ⟨h1, h2⟩
          · exact ⟨Or.inl (hd.le.trans h), Or.inl h⟩
          · exact ⟨Or.inr h, Or.inr (h.trans hd.le)⟩
          all_goals rw [h1, h2]; norm_num
        rw [pieceHit, knotsDomain_eq hinv.good, ok_bind, hpt _ le_rfl hd.le, ok_bind, hpt _ hd.le le_rfl, ok_bind, if_pos]
        · rfl
        · have k1 := tear_left hfar.1
          have k2 := tear_left hfar.2
          rw [hp0]
          constructor <;> linarith
      have hray : rayIntersection (1/1000000) 1000 (fun v => |v 0| + |v 1|) quarter pos fuel Options.default exTear p (bx.size 0 * 2) = .ok [] := by
        have hrl : (rayCurve p (bx.size 0 * 2)).lo = 0 ∧ (rayCurve p (bx.size 0 * 2)).hi = 1 := by simp [rayCurve, Curve.lo, Curve.hi, kf]
        rw [rayIntersection, ray_polyline l1_zero hsize, ok_bind, knotsDomain_eq exTear_good, ok_bind, exTear_lo, exTear_hi,
          divR_eq_ok (by norm_num [Options.default]), ok_bind]
        simp only [CurveTree.new, pure_bind, knotsDomain_eq (ray_good (eps := 1/1000000) (by norm_num) (by norm_num) p (bx.size 0 * 2)), ok_bind,
          hrl.1, hrl.2, sub_zero, div_one]
        rw [← htb, show (1 : ℝ) / ((Options.default : Options ℝ).division : ℝ) = 1/64 by norm_num [Options.default], hpairs, ok_bind, hfound,
          ok_bind]
        have : (pairs.map fun _ => (none : Option ((Fin 2 → ℝ) × ℝ))).filterMap id = [] := by
          rw [List.filterMap_eq_nil_iff]
          intro y hy
          obtain ⟨_, -, rfl⟩ := List.mem_map.1 hy
          rfl
        rw [this, List.filter_nil, List.mergeSort_nil]; rfl
      simp only [ok_bind, hb, not_true, if_false, hon, Bool.false_eq_true, Option.getD_none, hray]
      rfl
    · simp [ok_bind, hb]

end Curvo.Props

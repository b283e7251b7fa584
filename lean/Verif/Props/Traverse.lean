/-
  Property theorems about the traversal of bounding box trees: C37.
-/
import Mathlib.Algebra.Order.Archimedean.Basic
import Mathlib.Tactic.Linarith
import Verif.Props.BBox
import Verif.Props.Refine

set_option linter.unusedSectionVars false

namespace Curvo.Props

open Curvo Curvo.Curve Curvo.Spec

variable {K : Type} [Field K] [LinearOrder K] [IsStrictOrderedRing K] {d : ℕ}

/-! ### Specification -/

/-- Nodes that can come up when dividing the root `x0`, whatever the random generator does. -/
inductive Reach {Rng X : Type} (T : BoxTree K d Rng X) (x0 : X) : X → Prop
  | root : Reach T x0 x0
  | left {x y z : X} {r r' : Rng} : Reach T x0 x → T.isDividable x = .ok true →
      T.tryDivide x r = .ok ((y, z), r') → Reach T x0 y
  | right {x y z : X} {r r' : Rng} : Reach T x0 x → T.isDividable x = .ok true →
      T.tryDivide x r = .ok ((y, z), r') → Reach T x0 z

/-- What is needed of a tree whose nodes `x` denote the point sets `den x`: on the nodes satisfying `Inv`
    no operation fails, boxes contain what the node denotes, and dividing covers exactly the node. -/
structure Covers {Rng X : Type} (T : BoxTree K d Rng X) (den : X → (Fin d → K) → Prop) (Inv : X → Prop) : Prop where
  box : ∀ x, Inv x → ∃ b, T.boundingBox x = .ok b ∧ ∀ p, den x p → b.contains p = true
  dividable : ∀ x, Inv x → ∃ v, T.isDividable x = .ok v
  divide : ∀ x r, Inv x → T.isDividable x = .ok true → ∃ y z r', T.tryDivide x r = .ok ((y, z), r') ∧
    Inv y ∧ Inv z ∧ ∀ p, den x p ↔ den y p ∨ den z p

variable {Rng A B : Type} {TA : BoxTree K d Rng A} {TB : BoxTree K d Rng B}
  {denA : A → (Fin d → K) → Prop} {denB : B → (Fin d → K) → Prop} {InvA : A → Prop} {InvB : B → Prop}

theorem traverse_no_miss (hA : Covers TA denA InvA) (hB : Covers TB denB InvB) {p : Fin d → K} :
    ∀ (fuel : ℕ) (trees : List (A × B)) (rng : Rng) (pairs : List (A × B)),
      (∀ e ∈ trees, InvA e.1 ∧ InvB e.2) → traverse TA TB fuel trees rng = .ok pairs →
      (∃ e ∈ trees, denA e.1 p ∧ denB e.2 p) → ∃ e ∈ pairs, denA e.1 p ∧ denB e.2 p := by
  intro fuel
  induction fuel with
  | zero =>
    intro trees rng pairs _ h he
    cases trees with
    | nil => obtain ⟨_, hm, _⟩ := he; cases hm
    | cons e trees => cases h
  | succ fuel ih =>
    intro trees rng pairs hinv h he
    cases trees with
    | nil => obtain ⟨_, hm, _⟩ := he; cases hm
    | cons e trees =>
      obtain ⟨a, b⟩ := e
      obtain ⟨ia, ib⟩ := hinv (a, b) (by simp)
      have hrest : ∀ e ∈ trees, InvA e.1 ∧ InvB e.2 := fun e he => hinv e (List.mem_cons_of_mem _ he)
      obtain ⟨ba, eba, cba⟩ := hA.box a ia
      obtain ⟨bb, ebb, cbb⟩ := hB.box b ib
      rw [traverse, eba, ok_bind, ebb, ok_bind] at h
      have hmem : (denA a p ∧ denB b p) ∨ ∃ e ∈ trees, denA e.1 p ∧ denB e.2 p := by
        obtain ⟨e, hm, hp⟩ := he
        rcases List.mem_cons.1 hm with rfl | hm
        · exact Or.inl hp
        · exact Or.inr ⟨e, hm, hp⟩
      by_cases hi : Box.intersects 0 ba bb = true
      · rw [if_neg (by simpa using hi)] at h
        obtain ⟨va, eva⟩ := hA.dividable a ia
        obtain ⟨vb, evb⟩ := hB.dividable b ib
        rw [eva, ok_bind, evb, ok_bind] at h
        cases va <;> cases vb
        · obtain ⟨rest, hr, hp⟩ := bind_eq_ok.1 h
          have hp := (Except.ok.inj hp).symm
          subst hp
          rcases hmem with hm | hm
          · exact ⟨(a, b), by simp, hm⟩
          · obtain ⟨e, hm, hp⟩ := ih trees rng rest hrest hr hm
            exact ⟨e, List.mem_cons_of_mem _ hm, hp⟩
        · obtain ⟨b0, b1, r', ed, i0, i1, hc⟩ := hB.divide b rng ib evb
          simp only [ed, ok_bind] at h
          refine ih _ _ _ ?_ h ?_
          · intro e he
            simp only [List.mem_cons] at he
            rcases he with rfl | rfl | he
            · exact ⟨ia, i1⟩
            · exact ⟨ia, i0⟩
            · exact hrest e he
          · rcases hmem with hm | ⟨e, hm, hp⟩
            · rcases (hc p).1 hm.2 with h' | h'
              · exact ⟨(a, b0), by simp, hm.1, h'⟩
              · exact ⟨(a, b1), by simp, hm.1, h'⟩
            · exact ⟨e, by simp [hm], hp⟩
        · obtain ⟨a0, a1, r', ed, i0, i1, hc⟩ := hA.divide a rng ia eva
          simp only [ed, ok_bind] at h
          refine ih _ _ _ ?_ h ?_
          · intro e he
            simp only [List.mem_cons] at he
            rcases he with rfl | rfl | he
            · exact ⟨i1, ib⟩
            · exact ⟨i0, ib⟩
            · exact hrest e he
          · rcases hmem with hm | ⟨e, hm, hp⟩
            · rcases (hc p).1 hm.1 with h' | h'
              · exact ⟨(a0, b), by simp, h', hm.2⟩
              · exact ⟨(a1, b), by simp, h', hm.2⟩
            · exact ⟨e, by simp [hm], hp⟩
        · obtain ⟨a0, a1, r', ed, i0, i1, hc⟩ := hA.divide a rng ia eva
          obtain ⟨b0, b1, r'', ed', j0, j1, hc'⟩ := hB.divide b r' ib evb
          simp only [ed, ed', ok_bind] at h
          refine ih _ _ _ ?_ h ?_
          · intro e he
            simp only [List.mem_cons] at he
            rcases he with rfl | rfl | rfl | rfl | he
            · exact ⟨i1, j1⟩
            · exact ⟨i0, j1⟩
            · exact ⟨i1, j0⟩
            · exact ⟨i0, j0⟩
            · exact hrest e he
          · rcases hmem with hm | ⟨e, hm, hp⟩
            · rcases (hc p).1 hm.1 with h1 | h1 <;> rcases (hc' p).1 hm.2 with h2 | h2
              · exact ⟨(a0, b0), by simp, h1, h2⟩
              · exact ⟨(a0, b1), by simp, h1, h2⟩
              · exact ⟨(a1, b0), by simp, h1, h2⟩
              · exact ⟨(a1, b1), by simp, h1, h2⟩
            · exact ⟨e, by simp [hm], hp⟩
      · rw [if_pos (by simpa using hi)] at h
        refine ih trees rng pairs hrest h ?_
        rcases hmem with hm | hm
        · exact absurd (C36_common_point (le_refl 0) (cba p hm.1) (cbb p hm.2)) hi
        · exact hm

/-- No intersection is missed: every common point of the two roots lies in a reported pair, for every
    sequence of random numbers. -/
theorem C37_no_miss (hA : Covers TA denA InvA) (hB : Covers TB denB InvB) {a : A} {b : B} (ha : InvA a)
    (hb : InvB b) {fuel : ℕ} {rng : Rng} {pairs : List (A × B)}
    (h : traverse TA TB fuel [(a, b)] rng = .ok pairs) {p : Fin d → K} (hpa : denA a p) (hpb : denB b p) :
    ∃ e ∈ pairs, denA e.1 p ∧ denB e.2 p :=
  traverse_no_miss hA hB fuel _ _ _ (by intro e he; rw [List.mem_singleton.1 he]; exact ⟨ha, hb⟩) h
    ⟨(a, b), by simp, hpa, hpb⟩

theorem traverse_sound {a : A} {b : B} :
    ∀ (fuel : ℕ) (trees : List (A × B)) (rng : Rng) (pairs : List (A × B)),
      (∀ e ∈ trees, Reach TA a e.1 ∧ Reach TB b e.2) → traverse TA TB fuel trees rng = .ok pairs →
      ∀ e ∈ pairs, Reach TA a e.1 ∧ Reach TB b e.2 ∧ TA.isDividable e.1 = .ok false ∧
        TB.isDividable e.2 = .ok false ∧ ∃ ba bb, TA.boundingBox e.1 = .ok ba ∧ TB.boundingBox e.2 = .ok bb ∧
          Box.intersects 0 ba bb = true := by
  intro fuel
  induction fuel with
  | zero =>
    intro trees rng pairs _ h
    cases trees with
    | nil => cases h; simp
    | cons e trees => cases h
  | succ fuel ih =>
    intro trees rng pairs hr h
    cases trees with
    | nil => cases h; simp
    | cons e trees =>
      obtain ⟨a', b'⟩ := e
      obtain ⟨ra, rb⟩ := hr (a', b') (by simp)
      have hrest : ∀ e ∈ trees, Reach TA a e.1 ∧ Reach TB b e.2 := fun e he => hr e (List.mem_cons_of_mem _ he)
      rw [traverse] at h
      obtain ⟨ba, eba, h⟩ := bind_eq_ok.1 h
      obtain ⟨bb, ebb, h⟩ := bind_eq_ok.1 h
      by_cases hi : Box.intersects 0 ba bb = true
      · rw [if_neg (by simpa using hi)] at h
        obtain ⟨va, eva, h⟩ := bind_eq_ok.1 h
        obtain ⟨vb, evb, h⟩ := bind_eq_ok.1 h
        cases va <;> cases vb
        · obtain ⟨rest, hr, hp⟩ := bind_eq_ok.1 h
          have hp := (Except.ok.inj hp).symm
          subst hp
          intro e he
          rcases List.mem_cons.1 he with rfl | he
          · exact ⟨ra, rb, eva, evb, ba, bb, eba, ebb, hi⟩
          · exact ih trees rng rest hrest hr e he
        · obtain ⟨⟨⟨b0, b1⟩, r'⟩, ed, h⟩ := bind_eq_ok.1 h
          refine ih _ _ _ ?_ h
          intro e he
          simp only [List.mem_cons] at he
          rcases he with rfl | rfl | he
          · exact ⟨ra, rb.right evb ed⟩
          · exact ⟨ra, rb.left evb ed⟩
          · exact hrest e he
        · obtain ⟨⟨⟨a0, a1⟩, r'⟩, ed, h⟩ := bind_eq_ok.1 h
          refine ih _ _ _ ?_ h
          intro e he
          simp only [List.mem_cons] at he
          rcases he with rfl | rfl | he
          · exact ⟨ra.right eva ed, rb⟩
          · exact ⟨ra.left eva ed, rb⟩
          · exact hrest e he
        · obtain ⟨⟨⟨a0, a1⟩, r'⟩, ed, h⟩ := bind_eq_ok.1 h
          obtain ⟨⟨⟨b0, b1⟩, r''⟩, ed', h⟩ := bind_eq_ok.1 h
          refine ih _ _ _ ?_ h
          intro e he
          simp only [List.mem_cons] at he
          rcases he with rfl | rfl | rfl | rfl | he
          · exact ⟨ra.right eva ed, rb.right evb ed'⟩
          · exact ⟨ra.left eva ed, rb.right evb ed'⟩
          · exact ⟨ra.right eva ed, rb.left evb ed'⟩
          · exact ⟨ra.left eva ed, rb.left evb ed'⟩
          · exact hrest e he
      · rw [if_pos (by simpa using hi)] at h
        exact ih trees rng pairs hrest h

/-- Every reported pair consists of undividable nodes below the two roots with overlapping boxes. -/
theorem C37_sound {a : A} {b : B} {fuel : ℕ} {rng : Rng} {pairs : List (A × B)}
    (h : traverse TA TB fuel [(a, b)] rng = .ok pairs) :
    ∀ e ∈ pairs, Reach TA a e.1 ∧ Reach TB b e.2 ∧ TA.isDividable e.1 = .ok false ∧
      TB.isDividable e.2 = .ok false ∧ ∃ ba bb, TA.boundingBox e.1 = .ok ba ∧ TB.boundingBox e.2 = .ok bb ∧
        Box.intersects 0 ba bb = true :=
  traverse_sound fuel _ _ _ (by intro e he; rw [List.mem_singleton.1 he]; exact ⟨.root, .root⟩) h

/-- Iterations needed for a pair of nodes with `n` levels below them. -/
def cost (n : ℕ) : ℕ := 5 ^ n

theorem cost_step {m n : ℕ} (h : m < n) : 4 * cost m + 1 ≤ cost n := by
  unfold cost
  have : 5 ^ (m + 1) ≤ 5 ^ n := Nat.pow_le_pow_right (by norm_num) h
  have : 1 ≤ 5 ^ m := Nat.one_le_pow _ _ (by norm_num)
  rw [pow_succ] at *
  omega

/-- `rank` bounds the depth of the tree below a node. -/
def Ranked {Rng X : Type} (T : BoxTree K d Rng X) (Inv : X → Prop) (rank : X → ℕ) : Prop :=
  ∀ x r y z r', Inv x → T.isDividable x = .ok true → T.tryDivide x r = .ok ((y, z), r') →
    rank y < rank x ∧ rank z < rank x

theorem traverse_total (hA : Covers TA denA InvA) (hB : Covers TB denB InvB) {ra : A → ℕ} {rb : B → ℕ}
    (hra : Ranked TA InvA ra) (hrb : Ranked TB InvB rb) :
    ∀ (fuel : ℕ) (trees : List (A × B)) (rng : Rng), (∀ e ∈ trees, InvA e.1 ∧ InvB e.2) →
      (trees.map fun e => cost (ra e.1 + rb e.2)).sum ≤ fuel →
      ∃ pairs, traverse TA TB fuel trees rng = .ok pairs := by
  intro fuel
  induction fuel with
  | zero =>
    intro trees rng _ hs
    cases trees with
    | nil => exact ⟨[], rfl⟩
    | cons e trees =>
      exfalso
      have : 1 ≤ cost (ra e.1 + rb e.2) := Nat.one_le_pow _ _ (by norm_num)
      simp only [List.map_cons, List.sum_cons] at hs
      omega
  | succ fuel ih =>
    intro trees rng hinv hs
    cases trees with
    | nil => exact ⟨[], rfl⟩
    | cons e trees =>
      obtain ⟨a, b⟩ := e
      obtain ⟨ia, ib⟩ := hinv (a, b) (by simp)
      have hrest : ∀ e ∈ trees, InvA e.1 ∧ InvB e.2 := fun e he => hinv e (List.mem_cons_of_mem _ he)
      obtain ⟨ba, eba, _⟩ := hA.box a ia
      obtain ⟨bb, ebb, _⟩ := hB.box b ib
      have hc1 : 1 ≤ cost (ra a + rb b) := Nat.one_le_pow _ _ (by norm_num)
      simp only [List.map_cons, List.sum_cons] at hs
      rw [traverse, eba, ok_bind, ebb, ok_bind]
      by_cases hi : Box.intersects 0 ba bb = true
      · rw [if_neg (by simpa using hi)]
        obtain ⟨va, eva⟩ := hA.dividable a ia
        obtain ⟨vb, evb⟩ := hB.dividable b ib
        rw [eva, ok_bind, evb, ok_bind]
        cases va <;> cases vb
        · obtain ⟨rest, hr⟩ := ih trees rng hrest (by omega)
          exact ⟨(a, b) :: rest, by simp only [hr, ok_bind]; rfl⟩
        · obtain ⟨b0, b1, r', ed, i0, i1, _⟩ := hB.divide b rng ib evb
          obtain ⟨k0, k1⟩ := hrb b rng b0 b1 r' ib evb ed
          simp only [ed, ok_bind]
          have c0 := cost_step (m := ra a + rb b0) (n := ra a + rb b) (by omega)
          have c1 := cost_step (m := ra a + rb b1) (n := ra a + rb b) (by omega)
          refine ih _ _ ?_ ?_
          · intro e he
            simp only [List.mem_cons] at he
            rcases he with rfl | rfl | he
            · exact ⟨ia, i1⟩
            · exact ⟨ia, i0⟩
            · exact hrest e he
          · simp only [List.map_cons, List.sum_cons]; omega
        · obtain ⟨a0, a1, r', ed, i0, i1, _⟩ := hA.divide a rng ia eva
          obtain ⟨k0, k1⟩ := hra a rng a0 a1 r' ia eva ed
          simp only [ed, ok_bind]
          have c0 := cost_step (m := ra a0 + rb b) (n := ra a + rb b) (by omega)
          have c1 := cost_step (m := ra a1 + rb b) (n := ra a + rb b) (by omega)
          refine ih _ _ ?_ ?_
          · intro e he
            simp only [List.mem_cons] at he
            rcases he with rfl | rfl | he
            · exact ⟨i1, ib⟩
            · exact ⟨i0, ib⟩
            · exact hrest e he
          · simp only [List.map_cons, List.sum_cons]; omega
        · obtain ⟨a0, a1, r', ed, i0, i1, _⟩ := hA.divide a rng ia eva
          obtain ⟨b0, b1, r'', ed', j0, j1, _⟩ := hB.divide b r' ib evb
          obtain ⟨k0, k1⟩ := hra a rng a0 a1 r' ia eva ed
          obtain ⟨l0, l1⟩ := hrb b r' b0 b1 r'' ib evb ed'
          simp only [ed, ed', ok_bind]
          have c0 := cost_step (m := ra a0 + rb b0) (n := ra a + rb b) (by omega)
          have c1 := cost_step (m := ra a1 + rb b0) (n := ra a + rb b) (by omega)
          have c2 := cost_step (m := ra a0 + rb b1) (n := ra a + rb b) (by omega)
          have c3 := cost_step (m := ra a1 + rb b1) (n := ra a + rb b) (by omega)
          refine ih _ _ ?_ ?_
          · intro e he
            simp only [List.mem_cons] at he
            rcases he with rfl | rfl | rfl | rfl | he
            · exact ⟨i1, j1⟩
            · exact ⟨i0, j1⟩
            · exact ⟨i1, j0⟩
            · exact ⟨i0, j0⟩
            · exact hrest e he
          · simp only [List.map_cons, List.sum_cons]; omega
      · rw [if_pos (by simpa using hi)]
        exact ih trees rng hrest (by omega)

/-- The traversal terminates without a fault, within a number of iterations that does not depend on the
    random numbers. -/
theorem C37_terminates (hA : Covers TA denA InvA) (hB : Covers TB denB InvB) {ra : A → ℕ} {rb : B → ℕ}
    (hra : Ranked TA InvA ra) (hrb : Ranked TB InvB rb) {a : A} {b : B} (ha : InvA a) (hb : InvB b) (rng : Rng) :
    ∃ pairs, traverse TA TB (5 ^ (ra a + rb b)) [(a, b)] rng = .ok pairs :=
  traverse_total hA hB hra hrb _ _ _ (by intro e he; rw [List.mem_singleton.1 he]; exact ⟨ha, hb⟩)
    (by simp [cost])

/-! ### The tree of a curve -/

section curve
variable {eps big : K} {rnd : ℕ → K}

/-- The points of the curve of a node. -/
def curveDen (eps : K) (t : CurveTree K d) (p : Fin d → K) : Prop :=
  ∃ u, t.curve.lo ≤ u ∧ u ≤ t.curve.hi ∧ t.curve.pointAt eps u = .ok p

/-- The split parameter the code would use on this node. -/
def paramOf (rnd : ℕ → K) (t : CurveTree K d) (pos : ℕ) : K :=
  CurveTree.splitParam t.curve.lo t.curve.hi (rnd pos)

/-- Nodes below `t0` with a well formed curve of positive weights. -/
structure CurveInv (eps big : K) (rnd : ℕ → K) (t0 t : CurveTree K d) : Prop where
  reach : Reach (CurveTree.tree eps big rnd) t0 t
  good : t.curve.Good eps
  weights : ∀ p ∈ t.curve.cps, 0 < p.2
  tol : t.tolerance = t0.tolerance

/-- No random split lands on a knot, or closer than `eps` to one. -/
def Generic (eps big : K) (rnd : ℕ → K) (t0 : CurveTree K d) : Prop :=
  ∀ t pos, Reach (CurveTree.tree eps big rnd) t0 t → t.isDividable = .ok true →
    ∀ y ∈ t.curve.knots, y ≠ paramOf rnd t pos ∧ eps ≤ |y - paramOf rnd t pos|

theorem splitParam_bounds {mn mx x : K} (h : mn < mx) (h0 : 0 ≤ x) (h1 : x ≤ 1) :
    mn < CurveTree.splitParam mn mx x ∧ CurveTree.splitParam mn mx x < mx ∧
      CurveTree.splitParam mn mx x - mn ≤ 11 / 20 * (mx - mn) ∧
      mx - CurveTree.splitParam mn mx x ≤ 11 / 20 * (mx - mn) ∧
      9 / 20 * (mx - mn) ≤ CurveTree.splitParam mn mx x - mn ∧
      9 / 20 * (mx - mn) ≤ mx - CurveTree.splitParam mn mx x := by
  have hd := sub_pos.2 h
  have e : CurveTree.splitParam mn mx x = mn + (mx - mn) * (9 / 20 + x / 10) := by
    unfold CurveTree.splitParam; ring
  have k0 : (mx - mn) * (9 / 20) ≤ (mx - mn) * (9 / 20 + x / 10) :=
    mul_le_mul_of_nonneg_left (by linarith) hd.le
  have k1 : (mx - mn) * (9 / 20 + x / 10) ≤ (mx - mn) * (11 / 20) :=
    mul_le_mul_of_nonneg_left (by linarith) hd.le
  rw [e]
  refine ⟨by linarith, by linarith, by linarith, by linarith, by linarith, by linarith⟩

theorem split_node {t : CurveTree K d} {pos : ℕ}
    (hgen : ∀ y ∈ t.curve.knots, y ≠ paramOf rnd t pos ∧ eps ≤ |y - paramOf rnd t pos|)
    (hr : ∀ n, 0 ≤ rnd n ∧ rnd n ≤ 1) (hgood : t.curve.Good eps) (hw : ∀ p ∈ t.curve.cps, 0 < p.2) :
    ∃ l r, CurveTree.tryDivide eps rnd t pos = .ok ((⟨l, t.tolerance⟩, ⟨r, t.tolerance⟩), pos + 1) ∧
      l.Good eps ∧ r.Good eps ∧ (∀ p ∈ l.cps, 0 < p.2) ∧ (∀ p ∈ r.cps, 0 < p.2) ∧
      l.lo = t.curve.lo ∧ l.hi = paramOf rnd t pos ∧ r.lo = paramOf rnd t pos ∧ r.hi = t.curve.hi ∧
      (∀ x, t.curve.lo ≤ x → x ≤ paramOf rnd t pos → l.point eps x = t.curve.point eps x) ∧
      (∀ x, paramOf rnd t pos ≤ x → x ≤ t.curve.hi → r.point eps x = t.curve.point eps x) ∧
      (∀ y, y ∈ l.knots ∨ y ∈ r.knots → y = paramOf rnd t pos ∨ y ∈ t.curve.knots) := by
  have hdom := hgood.pre.dom
  obtain ⟨b1, b2, _⟩ := splitParam_bounds hdom (hr pos).1 (hr pos).2
  have hsep : ∀ y ∈ t.curve.knots, |y - paramOf rnd t pos| < eps → y = paramOf rnd t pos :=
    fun y hy hlt => absurd hlt (not_lt.2 (hgen y hy).2)
  obtain ⟨s, c', l, r, e, hs⟩ := split_pieces hgood b1.le b2.le hsep
  obtain ⟨l1, r1, e1, g1, q1, q2, q3⟩ := C21_left_piece hgood b1.le b2.le hsep
    (fun hm => absurd rfl (hgen _ hm).1)
  obtain ⟨l2, r2, e2, g2, w1, w2, w3⟩ := C21_right_piece hgood b1.le b2 hsep
  rw [e] at e1 e2
  cases e1; cases e2
  have hpos : ∀ (p q : (Fin d → K) × K) (t : K), 0 ≤ t → t ≤ 1 → 0 < p.2 → 0 < q.2 → 0 < (t • p + (1 - t) • q).2 := by
    intro p q t t0 t1 hp hq
    simp only [Prod.snd_add, Prod.smul_snd, smul_eq_mul]
    rcases eq_or_lt_of_le t0 with h | h
    · rw [← h]; simpa using hq
    · exact add_pos_of_pos_of_nonneg (mul_pos h hp) (mul_nonneg (sub_nonneg.2 t1) hq.le)
  refine ⟨l, r, ?_, g1, g2, hs.lhull _ hpos hw, hs.rhull _ hpos hw, q1, q2, w1, w2, q3, w3, ?_⟩
  · rw [CurveTree.tryDivide, knotsDomain_eq hgood, ok_bind]
    show (t.curve.trySplit eps (paramOf rnd t pos) >>= _) = _
    rw [show t.curve.trySplit eps (paramOf rnd t pos) = .ok (l, r) from e, ok_bind]
    rfl
  · intro y hy
    rw [hs.lk, hs.rk] at hy
    simp only [List.mem_append, List.mem_replicate] at hy
    rcases hy with (h | h) | (h | h)
    · exact Or.inr (List.mem_of_mem_take h)
    · exact Or.inl h.2
    · exact Or.inl h.2
    · exact Or.inr (List.mem_of_mem_drop h)

theorem isDividable_ok {t : CurveTree K d} (h : t.curve.Good eps) : t.isDividable =
    .ok (decide (t.tolerance < t.curve.hi - t.curve.lo) || (decide (t.curve.degree = 1) &&
      (decide ((1 : K) / 10000 ≤ t.curve.hi - t.curve.lo) && decide (3 ≤ t.curve.cps.length)))) := by
  rw [CurveTree.isDividable, knotsDomain_eq h, ok_bind]
  by_cases h1 : t.tolerance < t.curve.hi - t.curve.lo
  · simp [h1]
  · by_cases h2 : t.curve.degree = 1
    · simp [h1, h2]
    · simp [h1, h2]

/-- The tree of a well formed curve with positive weights covers the curve. -/
theorem C37_curve_covers {t0 : CurveTree K d} (hg : Generic eps big rnd t0) (hr : ∀ n, 0 ≤ rnd n ∧ rnd n ≤ 1) :
    Covers (CurveTree.tree eps big rnd) (curveDen eps) (CurveInv eps big rnd t0) where
  box := by
    intro t ht
    refine ⟨_, by
      show Box.ofCurve big t.curve = _
      rw [Box.ofCurve, dehomogenizedCps_eq ht.weights]; rfl, ?_⟩
    rintro p ⟨u, h1, h2, e⟩
    obtain ⟨box, q, eb, eq, hc⟩ := C10_in_bounding_box (big := big) ht.good ht.weights h1 h2
    rw [Box.ofCurve, dehomogenizedCps_eq ht.weights] at eb
    rw [e] at eq
    cases eq; cases eb
    exact hc
  dividable := fun t ht => ⟨_, isDividable_ok ht.good⟩
  divide := by
    intro t pos ht hdv
    obtain ⟨l, r, e, g1, g2, w1, w2, q1, q2, q3, q4, p1, p2, _⟩ := split_node (hg t pos ht.reach hdv) hr ht.good ht.weights
    have hdom := ht.good.pre.dom
    obtain ⟨b1, b2, _⟩ := splitParam_bounds hdom (hr pos).1 (hr pos).2
    have b1 : t.curve.lo < paramOf rnd t pos := b1
    have b2 : paramOf rnd t pos < t.curve.hi := b2
    refine ⟨_, _, _, e, ⟨ht.reach.left hdv e, g1, w1, ht.tol⟩, ⟨ht.reach.right hdv e, g2, w2, ht.tol⟩, ?_⟩
    intro p
    unfold curveDen
    simp only [q1, q2, q3, q4]
    constructor
    · rintro ⟨u, h1, h2, ep⟩
      rcases le_total u (paramOf rnd t pos) with h | h
      · left; exact ⟨u, h1, h, by rw [pointAt, p1 u h1 h, ← pointAt]; exact ep⟩
      · right; exact ⟨u, h, h2, by rw [pointAt, p2 u h h2, ← pointAt]; exact ep⟩
    · rintro (⟨u, h1, h2, ep⟩ | ⟨u, h1, h2, ep⟩)
      · exact ⟨u, h1, le_trans h2 b2.le, by rw [pointAt, ← p1 u h1 h2, ← pointAt]; exact ep⟩
      · exact ⟨u, le_trans b1.le h1, h2, by rw [pointAt, ← p2 u h1 h2, ← pointAt]; exact ep⟩

/-- For a curve without knots strictly inside its domain (a Bezier curve), every split is generic as soon as
    the tolerance is a few times `eps`. -/
theorem generic_of_ends {t0 : CurveTree K d} (hr : ∀ n, 0 ≤ rnd n ∧ rnd n ≤ 1) (hgood : t0.curve.Good eps)
    (hw : ∀ p ∈ t0.curve.cps, 0 < p.2) (hends : ∀ y ∈ t0.curve.knots, y ≤ t0.curve.lo ∨ t0.curve.hi ≤ y)
    (htol : eps ≤ 9 / 20 * t0.tolerance) (heps : eps ≤ 9 / 20 * (1 / 10000)) : Generic eps big rnd t0 := by
  have main : ∀ t : CurveTree K d, t.curve.Good eps → t.tolerance = t0.tolerance →
      (∀ y ∈ t.curve.knots, y ≤ t.curve.lo ∨ t.curve.hi ≤ y) → t.isDividable = .ok true → ∀ pos,
      ∀ y ∈ t.curve.knots, y ≠ paramOf rnd t pos ∧ eps ≤ |y - paramOf rnd t pos| := by
    intro t hg ht he hdv pos y hy
    have hdom := hg.pre.dom
    obtain ⟨b1, b2, _, _, b5, b6⟩ := splitParam_bounds hdom (hr pos).1 (hr pos).2
    have hbig : eps ≤ 9 / 20 * (t.curve.hi - t.curve.lo) := by
      rw [isDividable_ok hg] at hdv
      have hdv := Except.ok.inj hdv
      simp only [Bool.or_eq_true, Bool.and_eq_true, decide_eq_true_eq] at hdv
      rcases hdv with h | ⟨_, h, _⟩
      · rw [ht] at h; linarith
      · linarith
    unfold paramOf
    rcases he y hy with h | h
    · refine ⟨by linarith [h, b1] |> fun (hh : y < _) => hh.ne, ?_⟩
      rw [abs_sub_comm, abs_of_pos (by linarith)]
      linarith
    · refine ⟨by linarith [h, b2] |> fun (hh : _ < y) => hh.ne', ?_⟩
      rw [abs_of_pos (by linarith)]
      linarith
  have inv : ∀ t, Reach (CurveTree.tree eps big rnd) t0 t → t.curve.Good eps ∧ (∀ p ∈ t.curve.cps, 0 < p.2) ∧
      t.tolerance = t0.tolerance ∧ ∀ y ∈ t.curve.knots, y ≤ t.curve.lo ∨ t.curve.hi ≤ y := by
    intro t ht
    induction ht with
    | root => exact ⟨hgood, hw, rfl, hends⟩
    | @left x y z r r' _ hdv e ih =>
      obtain ⟨g, w, ht, he⟩ := ih
      obtain ⟨l, rr, e', g1, g2, w1, w2, q1, q2, q3, q4, _, _, hk⟩ := split_node (main x g ht he hdv r) hr g w
      have e : CurveTree.tryDivide eps rnd x _ = _ := e
      rw [e'] at e
      cases e
      obtain ⟨b1, b2, _⟩ := splitParam_bounds g.pre.dom (hr r).1 (hr r).2
      refine ⟨g1, w1, ht, fun y hy => ?_⟩
      rw [q1, q2]
      rcases hk y (Or.inl hy) with rfl | h
      · exact Or.inr le_rfl
      · exact (he y h).imp_right (le_trans b2.le)
    | @right x y z r r' _ hdv e ih =>
      obtain ⟨g, w, ht, he⟩ := ih
      obtain ⟨l, rr, e', g1, g2, w1, w2, q1, q2, q3, q4, _, _, hk⟩ := split_node (main x g ht he hdv r) hr g w
      have e : CurveTree.tryDivide eps rnd x _ = _ := e
      rw [e'] at e
      cases e
      obtain ⟨b1, b2, _⟩ := splitParam_bounds g.pre.dom (hr r).1 (hr r).2
      refine ⟨g2, w2, ht, fun y hy => ?_⟩
      rw [q3, q4]
      rcases hk y (Or.inr hy) with rfl | h
      · exact Or.inl le_rfl
      · exact (he y h).imp_left (fun h => le_trans h b1.le)
  intro t pos ht hdv
  obtain ⟨g, w, ht', he⟩ := inv t ht
  exact main t g ht' he hdv pos

variable [Archimedean K]

theorem exists_rank (m i : K) (hm : 0 < m) : ∃ n : ℕ, i * (11 / 20) ^ n ≤ m := by
  rcases le_or_gt i 0 with h | h
  · exact ⟨0, by simpa using le_trans h hm.le⟩
  · obtain ⟨n, hn⟩ := exists_pow_lt_of_lt_one (div_pos hm h) (by norm_num : (11 / 20 : K) < 1)
    refine ⟨n, ?_⟩
    rw [mul_comm]
    exact ((lt_div_iff₀ h).1 hn).le

open Classical in
/-- Number of halvings until a node is no longer divided. -/
noncomputable def curveRank (t0 t : CurveTree K d) : ℕ :=
  if hm : 0 < t0.tolerance then
    Nat.find (exists_rank (min t0.tolerance (1 / 20000)) (t.curve.hi - t.curve.lo) (lt_min hm (by norm_num)))
  else 0

theorem curve_ranked {t0 : CurveTree K d} (hg : Generic eps big rnd t0) (hr : ∀ n, 0 ≤ rnd n ∧ rnd n ≤ 1)
    (ht0 : 0 < t0.tolerance) :
    Ranked (CurveTree.tree eps big rnd) (CurveInv eps big rnd t0) (curveRank t0) := by
  classical
  intro t pos y z r' ht hdv ed
  obtain ⟨l, r, e, g1, g2, w1, w2, q1, q2, q3, q4, p1, p2, _⟩ := split_node (hg t pos ht.reach hdv) hr ht.good ht.weights
  have ed' : CurveTree.tryDivide eps rnd t pos = .ok ((y, z), r') := ed
  rw [e] at ed'
  cases ed'
  have hdom := ht.good.pre.dom
  obtain ⟨_, _, b3, b4, _⟩ := splitParam_bounds hdom (hr pos).1 (hr pos).2
  have b3 : paramOf rnd t pos - t.curve.lo ≤ 11 / 20 * (t.curve.hi - t.curve.lo) := b3
  have b4 : t.curve.hi - paramOf rnd t pos ≤ 11 / 20 * (t.curve.hi - t.curve.lo) := b4
  have hbig : min t0.tolerance (1 / 20000) < t.curve.hi - t.curve.lo := by
    have hdv' : t.isDividable = .ok true := hdv
    rw [isDividable_ok ht.good] at hdv'
    have hdv' := Except.ok.inj hdv'
    simp only [Bool.or_eq_true, Bool.and_eq_true, decide_eq_true_eq] at hdv'
    rcases hdv' with h | ⟨_, h, _⟩
    · rw [ht.tol] at h; exact lt_of_le_of_lt (min_le_left _ _) h
    · exact lt_of_le_of_lt (min_le_right _ _) (lt_of_lt_of_le (by norm_num) h)
  have hm : 0 < min t0.tolerance (1 / 20000) := lt_min ht0 (by norm_num)
  have step : ∀ i : K, i ≤ 11 / 20 * (t.curve.hi - t.curve.lo) →
      Nat.find (exists_rank _ i hm) < Nat.find (exists_rank _ (t.curve.hi - t.curve.lo) hm) := by
    intro i hi
    have hs := Nat.find_spec (exists_rank _ (t.curve.hi - t.curve.lo) hm)
    set n := Nat.find (exists_rank _ (t.curve.hi - t.curve.lo) hm) with hn
    cases hcase : n with
    | zero => rw [hcase, pow_zero, mul_one] at hs; exact absurd hs (not_le.2 hbig)
    | succ k =>
      rw [hcase, pow_succ] at hs
      refine Nat.lt_succ_of_le (Nat.find_min' _ ?_)
      have hp : (0 : K) ≤ (11 / 20) ^ k := pow_nonneg (by norm_num) _
      calc i * (11 / 20) ^ k ≤ 11 / 20 * (t.curve.hi - t.curve.lo) * (11 / 20) ^ k :=
            mul_le_mul_of_nonneg_right hi hp
        _ = (t.curve.hi - t.curve.lo) * ((11 / 20) ^ k * (11 / 20)) := by ring
        _ ≤ _ := hs
  constructor
  · simp only [curveRank, dif_pos ht0, q1, q2]
    exact step _ b3
  · simp only [curveRank, dif_pos ht0, q3, q4]
    exact step _ b4

/-- Curve–curve traversal: it terminates for every sequence of random numbers (in a number of iterations
    that does not depend on it), and every common point of the two curves lies on a reported pair of
    pieces. -/
theorem C37_curve_curve {a b : CurveTree K d} (ha : a.curve.Good eps) (hb : b.curve.Good eps)
    (wa : ∀ p ∈ a.curve.cps, 0 < p.2) (wb : ∀ p ∈ b.curve.cps, 0 < p.2)
    (ta : 0 < a.tolerance) (tb : 0 < b.tolerance) (hr : ∀ n, 0 ≤ rnd n ∧ rnd n ≤ 1)
    (ga : Generic eps big rnd a) (gb : Generic eps big rnd b) (pos : ℕ) :
    ∃ pairs, traverse (CurveTree.tree eps big rnd) (CurveTree.tree eps big rnd)
        (5 ^ (curveRank a a + curveRank b b)) [(a, b)] pos = .ok pairs ∧
      ∀ u v p, a.curve.lo ≤ u → u ≤ a.curve.hi → b.curve.lo ≤ v → v ≤ b.curve.hi →
        a.curve.pointAt eps u = .ok p → b.curve.pointAt eps v = .ok p →
        ∃ e ∈ pairs, ∃ u' v', e.1.curve.lo ≤ u' ∧ u' ≤ e.1.curve.hi ∧ e.2.curve.lo ≤ v' ∧ v' ≤ e.2.curve.hi ∧
          e.1.curve.pointAt eps u' = .ok p ∧ e.2.curve.pointAt eps v' = .ok p := by
  have ia : CurveInv eps big rnd a a := ⟨.root, ha, wa, rfl⟩
  have ib : CurveInv eps big rnd b b := ⟨.root, hb, wb, rfl⟩
  obtain ⟨pairs, hp⟩ := C37_terminates (C37_curve_covers ga hr) (C37_curve_covers gb hr)
    (curve_ranked ga hr ta) (curve_ranked gb hr tb) ia ib pos
  refine ⟨pairs, hp, ?_⟩
  intro u v p h1 h2 h3 h4 e1 e2
  obtain ⟨e, he, ⟨u', k1, k2, k3⟩, v', k4, k5, k6⟩ := C37_no_miss (C37_curve_covers ga hr) (C37_curve_covers gb hr)
    ia ib hp ⟨u, h1, h2, e1⟩ ⟨v, h3, h4, e2⟩
  exact ⟨e, he, u', v', k1, k2, k4, k5, k3, k6⟩

end curve

/-- Witness: two Bezier curves in the plane that cross. -/
def exBezA : Curve ℚ ((Fin 2 → ℚ) × ℚ) where
  degree := 2
  cps := [(![0, 0], 1), (![2, 4], 2), (![4, 0], 1)]
  knots := [0, 0, 0, 1, 1, 1]

def exBezB : Curve ℚ ((Fin 2 → ℚ) × ℚ) where
  degree := 1
  cps := [(![0, 1], 1), (![4, 1], 1)]
  knots := [0, 0, 1, 1]

theorem exBezA_good : exBezA.Good (1/1000000) where
  cps_pos := by decide
  knots_len := by decide
  good := by
    refine ⟨by norm_num, by decide, ?_, ?_, ?_, ?_, ?_⟩
    · intro i j hij hj
      exact (by decide +kernel : ∀ i ≤ 5, ∀ j ≤ 5, i ≤ j → kf exBezA.knots i ≤ kf exBezA.knots j)
        i (by have : j ≤ 5 := hj; omega) j hj hij
    all_goals simp [exBezA, kf]; try norm_num

theorem exBezB_good : exBezB.Good (1/1000000) where
  cps_pos := by decide
  knots_len := by decide
  good := by
    refine ⟨by norm_num, by decide, ?_, ?_, ?_, ?_, ?_⟩
    · intro i j hij hj
      exact (by decide +kernel : ∀ i ≤ 3, ∀ j ≤ 3, i ≤ j → kf exBezB.knots i ≤ kf exBezB.knots j)
        i (by have : j ≤ 3 := hj; omega) j hj hij
    all_goals simp [exBezB, kf]; try norm_num

/-- For every random stream the traversal of these two curves reports all their intersections. -/
example (rnd : ℕ → ℚ) (hr : ∀ n, 0 ≤ rnd n ∧ rnd n ≤ 1) (pos : ℕ) := by
  refine C37_curve_curve (eps := 1/1000000) (big := 1000000) (a := ⟨exBezA, 1/64⟩) (b := ⟨exBezB, 1/64⟩)
    exBezA_good exBezB_good (by simp [exBezA]) (by simp [exBezB]) (by norm_num) (by norm_num) hr
    (generic_of_ends hr exBezA_good (by simp [exBezA]) (by simp [exBezA, Curve.lo, Curve.hi, kf]) (by norm_num)
      (by norm_num))
    (generic_of_ends hr exBezB_good (by simp [exBezB]) (by simp [exBezB, Curve.lo, Curve.hi, kf]) (by norm_num)
      (by norm_num)) pos

end Curvo.Props

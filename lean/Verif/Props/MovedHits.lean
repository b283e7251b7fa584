/-
  Property theorems: intersections and containment of moved curves, C115.
-/
import Verif.Props.MovedMeasure
import Verif.Props.Pieces
import Verif.Model.Bfgs
import Verif.Model.Intersect
import Verif.Model.Contains
import Verif.Model.Compound2

set_option linter.unusedSectionVars false
set_option linter.unusedSimpArgs false

namespace Curvo.Props

open Curvo Curvo.Curve Curvo.Spec Curvo.Intersect Curvo.Bfgs

variable {K : Type} [Field K] [LinearOrder K] [IsStrictOrderedRing K] {d : ℕ}

/-! ### Motions that keep the axes -/

/-- Linear maps that permute the axes and reverse some of them: the identity, quarterTurn turns about an axis, mirrors. -/
def AxisMap (A : (Fin d → K) →ₗ[K] (Fin d → K)) : Prop :=
  ∃ (π : Equiv.Perm (Fin d)) (s : Fin d → K), (∀ i, s i = 1 ∨ s i = -1) ∧ ∀ x i, A x i = s i * x (π i)

theorem AxisMap.id : AxisMap (LinearMap.id : (Fin d → K) →ₗ[K] (Fin d → K)) :=
  ⟨1, fun _ => 1, fun _ => Or.inl rfl, fun x i => by simp⟩

/-- All points before and after the motion have coordinates that the number type can represent. -/
def Room (big : K) (A : (Fin d → K) →ₗ[K] (Fin d → K)) (t : Fin d → K) (pts : List (Fin d → K)) : Prop :=
  ∀ p ∈ pts, ∀ i, |p i| ≤ big ∧ |(A p + t) i| ≤ big

theorem inBox_ofPoints {big : K} {pts : List (Fin d → K)} (hne : pts ≠ []) (hb : ∀ p ∈ pts, ∀ i, |p i| ≤ big) (p : Fin d → K) :
    InBox 0 (Box.ofPoints big pts) p ↔ ∀ i, (∃ q ∈ pts, q i ≤ p i) ∧ ∃ q ∈ pts, p i ≤ q i := by
  obtain ⟨h1, h2, -, -⟩ := C36_points_box hne hb
  constructor
  · intro h i
    obtain ⟨⟨q, hq, e⟩, q', hq', e'⟩ := h2 i
    have := h i
    exact ⟨⟨q, hq, by rw [← e]; linarith [this.1]⟩, q', hq', by rw [← e']; linarith [this.2]⟩
  · intro h i
    obtain ⟨⟨q, hq, e⟩, q', hq', e'⟩ := h i
    have a := contains_iff.1 (h1 q hq) i
    have b := contains_iff.1 (h1 q' hq') i
    exact ⟨by linarith [a.1], by linarith [b.2]⟩

theorem inBox_moved {big : K} {A : (Fin d → K) →ₗ[K] (Fin d → K)} (hA : AxisMap A) {t : Fin d → K} {pts : List (Fin d → K)}
    (hne : pts ≠ []) (hb : Room big A t pts) (p : Fin d → K) :
    InBox 0 (Box.ofPoints big (pts.map fun x => A x + t)) (A p + t) ↔ InBox 0 (Box.ofPoints big pts) p := by
  obtain ⟨π, s, hs, hA⟩ := hA
  rw [inBox_ofPoints (by simpa using hne) (by
    intro q hq i
    obtain ⟨x, hx, rfl⟩ := List.mem_map.1 hq
    exact (hb x hx i).2), inBox_ofPoints hne fun q hq i => (hb q hq i).1]
  simp only [List.mem_map, exists_exists_and_eq_and, Pi.add_apply, hA, add_le_add_iff_right]
  have key : ∀ i, ((∃ a ∈ pts, s i * a (π i) ≤ s i * p (π i)) ∧ ∃ a ∈ pts, s i * p (π i) ≤ s i * a (π i)) ↔
      (∃ a ∈ pts, a (π i) ≤ p (π i)) ∧ ∃ a ∈ pts, p (π i) ≤ a (π i) := by
    intro i
    rcases hs i with h | h
    · simp only [h, one_mul]
    · simp only [h, neg_mul, one_mul, neg_le_neg_iff]
      exact and_comm
  constructor
  · intro h i
    have := (key (π.symm i)).1 (h _)
    simpa using this
  · intro h i
    exact (key i).2 (h _)

theorem AxisMap.surjective {A : (Fin d → K) →ₗ[K] (Fin d → K)} (hA : AxisMap A) (y : Fin d → K) : ∃ x, A x = y := by
  obtain ⟨π, s, hs, hA⟩ := hA
  refine ⟨fun j => s (π.symm j) * y (π.symm j), ?_⟩
  funext i
  rw [hA]
  simp only [Equiv.symm_apply_apply]
  rcases hs i with h | h <;> rw [h] <;> ring

/-- Moving two boxes of points together does not change whether they overlap. -/
theorem intersects_moved {big : K} {A : (Fin d → K) →ₗ[K] (Fin d → K)} (hA : AxisMap A) {t : Fin d → K} {pa pb : List (Fin d → K)}
    (ha : pa ≠ []) (hb : pb ≠ []) (ra : Room big A t pa) (rb : Room big A t pb) :
    Box.intersects 0 (Box.ofPoints big (pa.map fun x => A x + t)) (Box.ofPoints big (pb.map fun x => A x + t)) =
      Box.intersects 0 (Box.ofPoints big pa) (Box.ofPoints big pb) := by
  have rm : ∀ {l : List (Fin d → K)}, Room big A t l → ∀ p ∈ l.map fun x => A x + t, ∀ i, |p i| ≤ big := by
    intro l hl q hq i
    obtain ⟨x, hx, rfl⟩ := List.mem_map.1 hq
    exact (hl x hx i).2
  rw [Bool.eq_iff_iff,
    C36_intersects_iff (le_refl 0) (C36_points_box (by simpa using ha) (rm ra)).2.2.1 (C36_points_box (by simpa using hb) (rm rb)).2.2.1,
    C36_intersects_iff (le_refl 0) (C36_points_box ha fun p hp i => (ra p hp i).1).2.2.1
      (C36_points_box hb fun p hp i => (rb p hp i).1).2.2.1]
  constructor
  · rintro ⟨p, h1, h2⟩
    obtain ⟨x, hx⟩ := hA.surjective (p - t)
    have e : p = A x + t := by rw [hx]; simp
    rw [e] at h1 h2
    exact ⟨x, (inBox_moved hA ha ra x).1 h1, (inBox_moved hA hb rb x).1 h2⟩
  · rintro ⟨p, h1, h2⟩
    exact ⟨A p + t, (inBox_moved hA ha ra p).2 h1, (inBox_moved hA hb rb p).2 h2⟩

/-! ### Traversal -/

section traverse
variable {Rng X Y X' Y' : Type} {TA : BoxTree K d Rng X} {TB : BoxTree K d Rng Y} {TA' : BoxTree K d Rng X'} {TB' : BoxTree K d Rng Y'}

/-- What relates a tree and the tree of the moved object. -/
structure TreeMap (T : BoxTree K d Rng X) (T' : BoxTree K d Rng X') (f : X → X') (Inv : X → Prop) : Prop where
  dividable : ∀ x, Inv x → T'.isDividable (f x) = T.isDividable x
  divide : ∀ x r, Inv x → T'.tryDivide (f x) r = Except.map (fun y => ((f y.1.1, f y.1.2), y.2)) (T.tryDivide x r)
  inv : ∀ x y z r r', Inv x → T.isDividable x = .ok true → T.tryDivide x r = .ok ((y, z), r') → Inv y ∧ Inv z

theorem traverse_moved {f : X → X'} {g : Y → Y'} {InvA : X → Prop} {InvB : Y → Prop} (hA : TreeMap TA TA' f InvA)
    (hB : TreeMap TB TB' g InvB)
    (hbox : ∀ a b, InvA a → InvB b → ∃ ba bb ba' bb', TA.boundingBox a = .ok ba ∧ TB.boundingBox b = .ok bb ∧
      TA'.boundingBox (f a) = .ok ba' ∧ TB'.boundingBox (g b) = .ok bb' ∧ Box.intersects 0 ba' bb' = Box.intersects 0 ba bb) :
    ∀ (fuel : ℕ) (trees : List (X × Y)) (rng : Rng), (∀ e ∈ trees, InvA e.1 ∧ InvB e.2) →
      traverse TA' TB' fuel (trees.map (Prod.map f g)) rng = Except.map (List.map (Prod.map f g)) (traverse TA TB fuel trees rng) := by
  intro fuel
  induction fuel with
  | zero =>
    intro trees rng _
    cases trees <;> rfl
  | succ fuel ih =>
    intro trees rng hinv
    cases trees with
    | nil => rfl
    | cons e trees =>
      obtain ⟨a, b⟩ := e
      obtain ⟨ia, ib⟩ := hinv (a, b) (by simp)
      have hrest : ∀ e ∈ trees, InvA e.1 ∧ InvB e.2 := fun e he => hinv e (List.mem_cons_of_mem _ he)
      obtain ⟨ba, bb, ba', bb', e1, e2, e3, e4, e5⟩ := hbox a b ia ib
      rw [List.map_cons, Prod.map_apply, traverse, traverse, e1, e2, e3, e4]
      simp only [ok_bind]
      rw [e5]
      by_cases hi : Box.intersects 0 ba bb = true
      · rw [if_neg (by simpa using hi), if_neg (by simpa using hi), hA.dividable a ia, hB.dividable b ib]
        cases eva : TA.isDividable a with
        | error e => rfl
        | ok va =>
          cases evb : TB.isDividable b with
          | error e => rfl
          | ok vb =>
            simp only [ok_bind]
            cases va <;> cases vb
            · simp only []
              rw [ih trees rng hrest, bind_map', map_bind']
              rfl
            · simp only []
              rw [hB.divide b rng ib]
              cases ed : TB.tryDivide b rng with
              | error e => rfl
              | ok y =>
                obtain ⟨⟨b0, b1⟩, r⟩ := y
                obtain ⟨i0, i1⟩ := hB.inv b b0 b1 rng r ib evb ed
                simp only [map_ok', ok_bind]
                exact ih ((a, b1) :: (a, b0) :: trees) r (by
                  intro e he
                  simp only [List.mem_cons] at he
                  rcases he with rfl | rfl | he
                  exacts [⟨ia, i1⟩, ⟨ia, i0⟩, hrest e he])
            · simp only []
              rw [hA.divide a rng ia]
              cases ed : TA.tryDivide a rng with
              | error e => rfl
              | ok y =>
                obtain ⟨⟨b0, b1⟩, r⟩ := y
                obtain ⟨i0, i1⟩ := hA.inv a b0 b1 rng r ia eva ed
                simp only [map_ok', ok_bind]
                exact ih ((b1, b) :: (b0, b) :: trees) r (by
                  intro e he
                  simp only [List.mem_cons] at he
                  rcases he with rfl | rfl | he
                  exacts [⟨i1, ib⟩, ⟨i0, ib⟩, hrest e he])
            · simp only []
              rw [hA.divide a rng ia]
              cases ed : TA.tryDivide a rng with
              | error e => rfl
              | ok y =>
                obtain ⟨⟨a0, a1⟩, r⟩ := y
                obtain ⟨i0, i1⟩ := hA.inv a a0 a1 rng r ia eva ed
                simp only [map_ok', ok_bind]
                rw [hB.divide b r ib]
                cases ed' : TB.tryDivide b r with
                | error e => rfl
                | ok y =>
                  obtain ⟨⟨b0, b1⟩, r'⟩ := y
                  obtain ⟨j0, j1⟩ := hB.inv b b0 b1 r r' ib evb ed'
                  simp only [map_ok', ok_bind]
                  exact ih ((a1, b1) :: (a0, b1) :: (a1, b0) :: (a0, b0) :: trees) r' (by
                    intro e he
                    simp only [List.mem_cons] at he
                    rcases he with rfl | rfl | rfl | rfl | he
                    exacts [⟨i1, j1⟩, ⟨i0, j1⟩, ⟨i1, j0⟩, ⟨i0, j0⟩, hrest e he])
      · rw [if_pos (by simpa using hi), if_pos (by simpa using hi)]
        exact ih trees rng hrest

end traverse

/-! ### The trees of curves -/

section curves
variable {A : (Fin d → K) →ₗ[K] (Fin d → K)} {t : Fin d → K} {eps big : K} {rnd : ℕ → K}

/-- The node of the moved curve. -/
def movedNode (A : (Fin d → K) →ₗ[K] (Fin d → K)) (t : Fin d → K) (x : CurveTree K d) : CurveTree K d :=
  ⟨x.curve.mapCps (affHom A t), x.tolerance⟩

theorem curve_treeMap (A : (Fin d → K) →ₗ[K] (Fin d → K)) (t : Fin d → K) (eps big : K) (rnd : ℕ → K) (t0 : CurveTree K d) :
    TreeMap (CurveTree.tree eps big rnd) (CurveTree.tree eps big rnd) (movedNode A t) (Reach (CurveTree.tree eps big rnd) t0) where
  dividable x _ := by
    show CurveTree.isDividable _ = CurveTree.isDividable _
    simp only [CurveTree.isDividable, movedNode, mapCps, knotsDomain, List.length_map]
  divide x r _ := by
    show CurveTree.tryDivide _ _ _ _ = Except.map _ (CurveTree.tryDivide _ _ _ _)
    rw [CurveTree.tryDivide, CurveTree.tryDivide, map_bind']
    refine bind_congr fun dom => ?_
    show ((x.curve.mapCps (affHom A t)).trySplit eps _ >>= _) = _
    rw [trySplit_map, bind_map', map_bind']
    rfl
  inv x y z r r' hx hd e := ⟨.left hx hd e, .right hx hd e⟩

/-- A curve that can be moved: well formed, with positive weights, with coordinates in range before and after, and no random split next
    to a knot. -/
structure Movable (eps big : K) (rnd : ℕ → K) (A : (Fin d → K) →ₗ[K] (Fin d → K)) (t : Fin d → K) (x : CurveTree K d) : Prop where
  good : x.curve.Good eps
  pos : ∀ q ∈ x.curve.cps, 0 < q.2
  room : ∀ q ∈ x.curve.cps, ∀ i, |(q.2⁻¹ • q.1) i| ≤ big ∧ |(A (q.2⁻¹ • q.1) + t) i| ≤ big
  generic : Generic eps big rnd x

theorem abs_convex {big x y s : K} (s0 : 0 ≤ s) (s1 : s ≤ 1) (hx : |x| ≤ big) (hy : |y| ≤ big) : |s * x + (1 - s) * y| ≤ big := by
  have s1' : 0 ≤ 1 - s := sub_nonneg.2 s1
  obtain ⟨a, b⟩ := abs_le.1 hx
  obtain ⟨a', b'⟩ := abs_le.1 hy
  rw [abs_le]
  constructor
  · nlinarith [mul_le_mul_of_nonneg_left a s0, mul_le_mul_of_nonneg_left a' s1']
  · nlinarith [mul_le_mul_of_nonneg_left b s0, mul_le_mul_of_nonneg_left b' s1']

theorem Movable.boxes (hr : ∀ n, 0 ≤ rnd n ∧ rnd n ≤ 1) {x0 x : CurveTree K d} (h : Movable eps big rnd A t x0)
    (hx : Reach (CurveTree.tree eps big rnd) x0 x) :
    ∃ pts, pts ≠ [] ∧ Room big A t pts ∧ x.boundingBox big = .ok (Box.ofPoints big pts) ∧
      (movedNode A t x).boundingBox big = .ok (Box.ofPoints big (pts.map fun p => A p + t)) := by
  obtain ⟨hin, -⟩ := C104_tree (big := big) h.good h.pos hr h.generic hx
  obtain ⟨pts, pts', e, e', hP⟩ := hin.points
  have epts : pts = x0.curve.cps.map fun q => q.2⁻¹ • q.1 := by
    rw [dehomogenizedCps_eq h.pos] at e; exact (Except.ok.inj e).symm
  have epts' : pts' = x.curve.cps.map fun q => q.2⁻¹ • q.1 := by
    rw [dehomogenizedCps_eq hin.pos] at e'; exact (Except.ok.inj e').symm
  have hgx : x.curve.cps ≠ [] := List.ne_nil_of_length_pos (reach_inv h.generic hr ⟨.root, h.good, h.pos, rfl⟩ hx).good.cps_pos
  refine ⟨pts', by rw [epts']; simpa using hgx, ?_, ?_, ?_⟩
  · refine hP (fun p => ∀ i, |p i| ≤ big ∧ |(A p + t) i| ≤ big) ?_ ?_
    · intro p q s s0 s1 hp hq i
      refine ⟨by simpa using abs_convex s0 s1 (hp i).1 (hq i).1, ?_⟩
      have e : (A (s • p + (1 - s) • q) + t) i = s * (A p + t) i + (1 - s) * (A q + t) i := by
        simp only [map_add, map_smul, Pi.add_apply, Pi.smul_apply, smul_eq_mul]; ring
      rw [e]
      exact abs_convex s0 s1 (hp i).2 (hq i).2
    · intro p hp
      rw [epts] at hp
      obtain ⟨q, hq, rfl⟩ := List.mem_map.1 hp
      exact h.room q hq
  · rw [CurveTree.boundingBox, Box.ofCurve, e']; rfl
  · rw [CurveTree.boundingBox, Box.ofCurve, movedNode, dehomogenizedCps_moved, e']; rfl

/-- The traversal of two moved curves reports the moved pairs. -/
theorem traverse_curves_moved (hA : AxisMap A) (hr : ∀ n, 0 ≤ rnd n ∧ rnd n ≤ 1) {a b : CurveTree K d} (ha : Movable eps big rnd A t a)
    (hb : Movable eps big rnd A t b) (fuel pos : ℕ) :
    traverse (CurveTree.tree eps big rnd) (CurveTree.tree eps big rnd) fuel [(movedNode A t a, movedNode A t b)] pos =
      Except.map (List.map (Prod.map (movedNode A t) (movedNode A t)))
        (traverse (CurveTree.tree eps big rnd) (CurveTree.tree eps big rnd) fuel [(a, b)] pos) := by
  refine traverse_moved (curve_treeMap A t eps big rnd a) (curve_treeMap A t eps big rnd b) ?_ fuel [(a, b)] pos (by
    intro e he
    rw [List.mem_singleton.1 he]
    exact ⟨.root, .root⟩)
  intro x y hx hy
  obtain ⟨p, p1, p2, p3, p4⟩ := ha.boxes hr hx
  obtain ⟨q, q1, q2, q3, q4⟩ := hb.boxes hr hy
  exact ⟨_, _, _, _, p3, q3, p4, q4, intersects_moved hA p1 q1 p2 q2⟩

/-! ### The solver -/

theorem pairCost_moved {W : Type} [AddCommGroup W] [Module K W] {W' : Type} [AddCommGroup W'] [Module K W'] {A : W →ₗ[K] W'} {t : W'}
    {f : W → K} {f' : W' → K} (h : ∀ x, f' (A x) = f x) (p q : W × K) :
    pairCost f' (affHom A t p) (affHom A t q) = pairCost f p q := by
  unfold pairCost
  have e1 : affHom A t p = (A p.1 + p.2 • t, p.2) := rfl
  have e2 : affHom A t q = (A q.1 + q.2 • t, q.2) := rfl
  rw [e1, e2]
  by_cases hw : p.2 ≠ 0 ∧ q.2 ≠ 0
  · rw [if_pos hw, if_pos hw]
    have : p.2⁻¹ • (A p.1 + p.2 • t) - q.2⁻¹ • (A q.1 + q.2 • t) = A (p.2⁻¹ • p.1 - q.2⁻¹ • q.1) := by
      rw [smul_add, smul_add, smul_smul, smul_smul, inv_mul_cancel₀ hw.1, inv_mul_cancel₀ hw.2, one_smul, map_sub, map_smul, map_smul]
      abel
    simp only [this, h]
  · rw [if_neg hw, if_neg hw]

section solver
variable {W W' : Type} [AddCommGroup W] [Module K W] [AddCommGroup W'] [Module K W'] {A : W →ₗ[K] W'} {t : W'} {dot : W → W → K}
  {dot' : W' → W' → K}

/-- The problem the solver sees is the same. -/
theorem curveProblem_moved (hd : ∀ x y, dot' (A x) (A y) = dot x y) (eps : K) (a b : Curve K (W × K)) :
    curveProblem dot' eps (a.mapCps (affHom A t)) (b.mapCps (affHom A t)) = curveProblem dot eps a b := by
  have hc : (curveProblem dot' eps (a.mapCps (affHom A t)) (b.mapCps (affHom A t))).cost = (curveProblem dot eps a b).cost := by
    funext x
    simp only [curveProblem, point_mapCps, bind_map']
    exact bind_congr fun p => bind_congr fun q => pairCost_moved (fun x => hd x x) p q
  have hg : (curveProblem dot' eps (a.mapCps (affHom A t)) (b.mapCps (affHom A t))).gradient = (curveProblem dot eps a b).gradient := by
    funext x
    simp only [curveProblem, C105_derivatives, bind_map']
    refine bind_congr fun du => bind_congr fun dv => ?_
    rw [getR_movedDers_zero, getR_movedDers_zero, getR_movedDers_one, getR_movedDers_one]
    simp only [bind_map']
    refine bind_congr fun p => bind_congr fun q => bind_congr fun r => bind_congr fun s => ?_
    have : A p + t - (A q + t) = A (p - q) := by rw [map_sub]; abel
    rw [this, hd, hd]
  cases h1 : curveProblem dot' eps (a.mapCps (affHom A t)) (b.mapCps (affHom A t)) with
  | mk c g =>
    cases h2 : curveProblem dot eps a b with
    | mk c' g' =>
      rw [h1, h2] at hc hg
      simp only at hc hg
      rw [hc, hg]

theorem solveCurves_moved (hd : ∀ x y, dot' (A x) (A y) = dot x y) (nrm : (Fin 2 → K) → K) (eps stepTol costTol : K) (maxIters : ℕ)
    (a b : Curve K (W × K)) :
    solveCurves dot' nrm eps stepTol costTol maxIters (a.mapCps (affHom A t)) (b.mapCps (affHom A t)) =
      solveCurves dot nrm eps stepTol costTol maxIters a b := by
  unfold solveCurves
  rw [curveProblem_moved hd]
  rfl

end solver

/-! ### Sorting and grouping -/

section post
variable {H H' : Type} {f : H → H'}

theorem coalesce_map {near : H → H → Bool} {near' : H' → H' → Bool} (hn : ∀ x y, near' (f x) (f y) = near x y) :
    ∀ (l cur : List H), coalesce near' (cur.map f) (l.map f) = Except.map (List.map (List.map f)) (coalesce near cur l)
  | [], cur => rfl
  | h :: t, cur => by
    rw [List.map_cons, coalesce, coalesce, List.length_map, map_bind']
    refine bind_congr fun i => ?_
    rw [getR_map, bind_map', map_bind']
    refine bind_congr fun x0 => ?_
    rw [hn, map_ite']
    have e1 := coalesce_map hn t (cur ++ [h])
    have e2 := coalesce_map hn t [h]
    rw [List.map_append] at e1
    rw [List.map_singleton] at e1 e2
    rw [e1, e2, bind_map', map_bind']
    rfl

theorem groups_map {near : H → H → Bool} {near' : H' → H' → Bool} (hn : ∀ x y, near' (f x) (f y) = near x y) (l : List H) :
    groups near' (l.map f) = Except.map (List.map (List.map f)) (groups near l) := by
  cases l with
  | nil => rfl
  | cons h t => exact coalesce_map hn t [h]

theorem minBy_map (f : H → H') : ∀ (l : List (K × H)) (b : K × H),
    Compound.minBy (b.1, f b.2) (l.map fun x => (x.1, f x.2)) = ((Compound.minBy b l).1, f (Compound.minBy b l).2)
  | [], b => rfl
  | x :: l, b => by
    rw [List.map_cons, Compound.minBy, Compound.minBy, ← minBy_map f l]
    split <;> rfl

theorem pick_map {res : H → K} {res' : H' → K} (hr : ∀ x, res' (f x) = res x) (l : List H) :
    pick res' (l.map f) = (pick res l).map f := by
  match l with
  | [] => rfl
  | [h] => rfl
  | h :: x :: l =>
    have e : ((x :: l).map f).map (fun x => (res' x, x)) = ((x :: l).map fun x => (res x, x)).map fun y => (y.1, f y.2) := by
      rw [List.map_map, List.map_map]
      exact List.map_congr_left fun y _ => by simp [hr]
    show some (Compound.minBy (res' (f h), f h) (((x :: l).map f).map fun x => (res' x, x))).2 = _
    rw [e, hr]
    have := minBy_map f ((x :: l).map fun x => (res x, x)) (res h, h)
    rw [this]
    rfl

theorem post_map {key res : H → K} {key' res' : H' → K} {near : H → H → Bool} {near' : H' → H' → Bool} (hk : ∀ x, key' (f x) = key x)
    (hr : ∀ x, res' (f x) = res x) (hn : ∀ x y, near' (f x) (f y) = near x y) (l : List H) :
    post key' res' near' (l.map f) = Except.map (List.map f) (post key res near l) := by
  have e : (l.map f).mergeSort (fun x y => decide (key' x ≤ key' y)) = (l.mergeSort fun x y => decide (key x ≤ key y)).map f :=
    (List.map_mergeSort fun a _ b _ => by rw [hk, hk]).symm
  rw [post, post, e]
  rw [groups_map hn, bind_map', map_bind']
  refine bind_congr fun gs => ?_
  simp only [pure_eq_ok, Except.map]
  rw [List.filterMap_map, List.map_filterMap]
  congr 1
  refine List.filterMap_congr fun g _ => ?_
  rw [Function.comp_apply, pick_map hr]

end post

/-! ### Intersections -/

variable {dot : (Fin d → K) → (Fin d → K) → K} {norm normSq : (Fin d → K) → K}

/-- An intersection after the motion: the points are moved, the parameters are the same. -/
def movedHit {P Q : Type} (A : (Fin d → K) →ₗ[K] (Fin d → K)) (t : Fin d → K) (h : Hit (Fin d → K) P Q) : Hit (Fin d → K) P Q :=
  ⟨(A h.a.1 + t, h.a.2), (A h.b.1 + t, h.b.2)⟩

theorem filterMap_moved {α β : Type} (f : α → β) (l : List (Option α)) :
    (l.map (Option.map f)).filterMap id = (l.filterMap id).map f := by
  rw [List.filterMap_map, List.map_filterMap]
  rfl

theorem filter_moved {α β : Type} {f : α → β} {p : β → Bool} {q : α → Bool} (h : ∀ x, p (f x) = q x) (l : List α) :
    (l.map f).filter p = (l.filter q).map f := by
  rw [List.filter_map]
  congr 1
  exact List.filter_congr fun x _ => h x

theorem candidate_moved {solve : Curve K ((Fin d → K) × K) → Curve K ((Fin d → K) × K) → Option (K × K)}
    (hs : ∀ a b, solve (a.mapCps (affHom A t)) (b.mapCps (affHom A t)) = solve a b) (a b : Curve K ((Fin d → K) × K)) (da db : K × K)
    (e : CurveTree K d × CurveTree K d) :
    candidate eps solve (a.mapCps (affHom A t)) (b.mapCps (affHom A t)) da db (Prod.map (movedNode A t) (movedNode A t) e) =
      Except.map (Option.map (movedHit A t)) (candidate eps solve a b da db e) := by
  unfold candidate
  have : solve (Prod.map (movedNode A t) (movedNode A t) e).1.curve (Prod.map (movedNode A t) (movedNode A t) e).2.curve =
      solve e.1.curve e.2.curve := hs _ _
  rw [this]
  cases solve e.1.curve e.2.curve with
  | none => rfl
  | some p =>
    simp only []
    rw [map_ite', pointAt_affine, pointAt_affine, bind_map', map_bind']
    split
    · refine bind_congr fun x => ?_
      rw [bind_map', map_bind']
      rfl
    · rfl

/-- **Intersections of curves do not depend on where the curves are**: moved together by a motion that keeps the axes, two curves have
    the same intersections, at the same parameters and at the moved points, for every random stream; failures are the same. -/
theorem C115_curves (hA : AxisMap A) (hd : ∀ x y, dot (A x) (A y) = dot x y) (hn : ∀ x, norm (A x) = norm x)
    (hn2 : ∀ x, normSq (A x) = normSq x) (hr : ∀ n, 0 ≤ rnd n ∧ rnd n ≤ 1) {a b : Curve K ((Fin d → K) × K)} {division : ℕ}
    (ha : Movable eps big rnd A t ⟨a, (a.hi - a.lo) / division⟩) (hb : Movable eps big rnd A t ⟨b, (b.hi - b.lo) / division⟩)
    (nrm2 : (Fin 2 → K) → K) (pos fuel : ℕ) (minDist stepTol costTol : K) (maxIters : ℕ) :
    curveCurve eps big rnd pos fuel norm normSq division minDist (solveCurves dot nrm2 eps stepTol costTol maxIters)
        (a.mapCps (affHom A t)) (b.mapCps (affHom A t)) =
      Except.map (List.map (movedHit A t)) (curveCurve eps big rnd pos fuel norm normSq division minDist
        (solveCurves dot nrm2 eps stepTol costTol maxIters) a b) := by
  have ea : (a.mapCps (affHom A t)).knotsDomain = a.knotsDomain := rfl
  have eb : (b.mapCps (affHom A t)).knotsDomain = b.knotsDomain := rfl
  rw [curveCurve, curveCurve, ea, eb, knotsDomain_eq ha.good, knotsDomain_eq hb.good]
  simp only [ok_bind, CurveTree.new, pure_eq_ok]
  unfold divR
  split
  · rfl
  simp only [ok_bind, pure_eq_ok]
  have e := traverse_curves_moved hA hr ha hb fuel pos
  simp only [movedNode] at e
  rw [e, bind_map', map_bind']
  refine bind_congr fun pairs => ?_
  rw [mapM_map' (Option.map (movedHit A t)) (fun e => candidate_moved (fun a b => solveCurves_moved hd nrm2 eps stepTol costTol maxIters a b)
    a b _ _ e) pairs, bind_map', map_bind']
  refine bind_congr fun cands => ?_
  have key : ∀ h : Hit (Fin d → K) K K, (movedHit A t h).a.1 - (movedHit A t h).b.1 = A (h.a.1 - h.b.1) := by
    intro h
    simp only [movedHit, map_sub]; abel
  rw [filterMap_moved, filter_moved (q := fun h => decide (norm (h.a.1 - h.b.1) < minDist)) fun h => by rw [key, hn]]
  exact post_map (fun _ => rfl) (fun h => by rw [key, hn2]) (fun _ _ => rfl) _

end curves

/-! ### Compound curves -/

section compound
variable {V V' P P' B : Type} {f : Curve K V → Curve K V'} {g : P → P'}

/-- A hit whose points are moved by `g`. -/
def mapHit (g : P → P') (h : Hit P K B) : Hit P' K B := ⟨(g h.a.1, h.a.2), (g h.b.1, h.b.2)⟩

theorem cullStep_map (g : P → P') (ends : List (K × K)) (res : List (List (Hit P K B))) (w : ℕ × ℕ) :
    cullStep ends (res.map (List.map (mapHit g))) w = Except.map (List.map (List.map (mapHit g))) (cullStep ends res w) := by
  unfold cullStep
  rw [map_ite', getR_map, getR_map]
  split
  · rw [bind_map', map_bind']
    refine bind_congr fun ra => ?_
    rw [bind_map', map_bind']
    refine bind_congr fun rb => ?_
    rw [List.getLast?_map, List.head?_map]
    cases ra.getLast? with
    | none => rfl
    | some ia =>
      cases rb.head? with
      | none => rfl
      | some ib =>
        simp only [Option.map_some, map_bind']
        refine bind_congr fun ea => bind_congr fun eb => ?_
        rw [map_ite', ← List.map_dropLast, setR_map]
        rfl
  · rfl

theorem cull_map (g : P → P') (ends : List (K × K)) (res : List (List (Hit P K B))) :
    cull ends (res.map (List.map (mapHit g))) = Except.map (List.map (mapHit g)) (cull ends res) := by
  unfold cull
  rw [List.length_map, foldlM_map' (List.map (List.map (mapHit g))) (fun s w => cullStep_map g ends s w), bind_map', map_bind']
  refine bind_congr fun r => ?_
  simp [pure_eq_ok, Except.map, List.map_flatten]

theorem compoundCurve_map {find : Curve K V → Res (List (Hit P K B))} {find' : Curve K V' → Res (List (Hit P' K B))} {spans : List (Curve K V)}
    (hf : ∀ s ∈ spans, find' (f s) = Except.map (List.map (mapHit g)) (find s)) (hk : ∀ s, (f s).knotsDomain = s.knotsDomain) :
    compoundCurve find' (spans.map f) = Except.map (List.map (mapHit g)) (compoundCurve find spans) := by
  unfold compoundCurve
  have e1 : (spans.map f).mapM find' = Except.map (List.map (List.map (mapHit g))) (spans.mapM find) := by
    clear hk
    induction spans with
    | nil => rfl
    | cons s l ih =>
      rw [List.map_cons, List.mapM_cons, List.mapM_cons, hf s (by simp), ih fun x hx => hf x (by simp [hx]), bind_map', map_bind']
      refine bind_congr fun x => ?_
      rw [bind_map', map_bind']
      rfl
  have e2 : ((spans.map f).mapM fun s => s.knotsDomain) = spans.mapM fun s => s.knotsDomain := by
    rw [List.mapM_map]
    congr 1
    funext s
    exact hk s
  rw [e1, e2, bind_map', map_bind']
  refine bind_congr fun res => ?_
  rw [map_bind']
  exact bind_congr fun ends => cull_map g ends res

end compound

/-- **Compound curves**: the intersections of moved compound curves are the moved intersections. -/
theorem C115_compound {A : (Fin d → K) →ₗ[K] (Fin d → K)} {t : Fin d → K} {eps big : K} {rnd : ℕ → K}
    {dot : (Fin d → K) → (Fin d → K) → K} {norm normSq : (Fin d → K) → K} (hA : AxisMap A) (hd : ∀ x y, dot (A x) (A y) = dot x y)
    (hn : ∀ x, norm (A x) = norm x) (hn2 : ∀ x, normSq (A x) = normSq x) (hr : ∀ n, 0 ≤ rnd n ∧ rnd n ≤ 1)
    {spans others : List (Curve K ((Fin d → K) × K))} {division : ℕ}
    (ha : ∀ a ∈ spans, Movable eps big rnd A t ⟨a, (a.hi - a.lo) / division⟩)
    (hb : ∀ b ∈ others, Movable eps big rnd A t ⟨b, (b.hi - b.lo) / division⟩)
    (nrm2 : (Fin 2 → K) → K) (pos fuel : ℕ) (minDist stepTol costTol : K) (maxIters : ℕ) :
    compoundCompound (curveCurve eps big rnd pos fuel norm normSq division minDist (solveCurves dot nrm2 eps stepTol costTol maxIters))
        (spans.map (mapCps (affHom A t))) (others.map (mapCps (affHom A t))) =
      Except.map (List.map (movedHit A t)) (compoundCompound
        (curveCurve eps big rnd pos fuel norm normSq division minDist (solveCurves dot nrm2 eps stepTol costTol maxIters)) spans others) := by
  unfold compoundCompound
  have key : ∀ l : List (Curve K ((Fin d → K) × K)), (∀ o ∈ l, o ∈ others) →
      (l.map (mapCps (affHom A t))).mapM (fun o => compoundCurve (fun s => curveCurve eps big rnd pos fuel norm normSq division minDist
        (solveCurves dot nrm2 eps stepTol costTol maxIters) s o) (spans.map (mapCps (affHom A t)))) =
      Except.map (List.map (List.map (movedHit A t))) (l.mapM fun o => compoundCurve (fun s => curveCurve eps big rnd pos fuel norm normSq
        division minDist (solveCurves dot nrm2 eps stepTol costTol maxIters) s o) spans) := by
    intro l
    induction l with
    | nil => intro _; rfl
    | cons o l ih =>
      intro hl
      have e : compoundCurve (fun s => curveCurve eps big rnd pos fuel norm normSq division minDist
          (solveCurves dot nrm2 eps stepTol costTol maxIters) s (o.mapCps (affHom A t))) (spans.map (mapCps (affHom A t))) =
          Except.map (List.map (movedHit A t)) (compoundCurve (fun s => curveCurve eps big rnd pos fuel norm normSq
            division minDist (solveCurves dot nrm2 eps stepTol costTol maxIters) s o) spans) :=
        compoundCurve_map (g := fun p => A p + t) (f := mapCps (affHom A t)) (fun s hs => C115_curves hA hd hn hn2 hr (ha s hs)
          (hb o (hl o (by simp))) nrm2 pos fuel minDist stepTol costTol maxIters) fun _ => rfl
      rw [List.map_cons, List.mapM_cons, List.mapM_cons, e, ih fun x hx => hl x (by simp [hx]), bind_map', map_bind']
      refine bind_congr fun x => ?_
      rw [bind_map', map_bind']
      rfl
  rw [key others fun _ h => h, bind_map', map_bind']
  refine bind_congr fun r => ?_
  simp [pure_eq_ok, Except.map, List.map_flatten]

/-! ### Containment -/

section contains
open Curvo.Contains Curvo.Closest

variable {t : Fin 2 → K} {eps big : K} {rnd : ℕ → K} {nrm : (Fin 2 → K) → K} {dot : (Fin 2 → K) → (Fin 2 → K) → K}

/-- The curve shifted by `t`. -/
abbrev shiftedCurve (t : Fin 2 → K) (c : Curve K ((Fin 2 → K) × K)) : Curve K ((Fin 2 → K) × K) := c.mapCps (affHom LinearMap.id t)

theorem pointAt_shifted (c : Curve K ((Fin 2 → K) × K)) (u : K) :
    (shiftedCurve t c).pointAt eps u = Except.map (· + t) (c.pointAt eps u) := pointAt_affine LinearMap.id t eps c u

theorem bisect_shifted (c : Curve K ((Fin 2 → K) × K)) (y minDist : K) (forward : Bool) : ∀ (n : ℕ) (mn mx : K),
    bisect eps (shiftedCurve t c) (y + t 1) minDist forward n mn mx =
      Except.map (Option.map fun h => (h.1 + t, h.2)) (bisect eps c y minDist forward n mn mx)
  | 0, _, _ => rfl
  | n + 1, mn, mx => by
    rw [bisect, bisect]
    simp only []
    rw [pointAt_shifted, bind_map', map_bind']
    refine bind_congr fun p => ?_
    have e : (p + t) 1 - (y + t 1) = p 1 - y := by simp
    rw [e, map_ite', bisect_shifted c y minDist forward n, bisect_shifted c y minDist forward n, map_ite']
    rfl

theorem pieceHit_shifted (o : Options K) (point : Fin 2 → K) (c : Curve K ((Fin 2 → K) × K)) :
    pieceHit eps o (point + t) (shiftedCurve t c) = Except.map (Option.map fun h => (h.1 + t, h.2)) (pieceHit eps o point c) := by
  unfold pieceHit
  rw [map_bind']
  refine bind_congr fun dom => ?_
  rw [pointAt_shifted, bind_map', map_bind']
  refine bind_congr fun ps => ?_
  rw [pointAt_shifted, bind_map', map_bind']
  refine bind_congr fun pe => ?_
  simp only [Pi.add_apply, add_lt_add_iff_right]
  rw [map_ite']
  congr 1
  cases decide (point 1 < ps 1) <;> cases decide (point 1 < pe 1) <;> first | rfl | exact bisect_shifted c _ _ _ _ _ _

theorem polyline_shifted (p q : Fin 2 → K) (b : Bool) :
    Curve.polyline (fun p q => nrm (p - q)) [p + t, q + t] b =
      Except.map (shiftedCurve t) (Curve.polyline (fun p q => nrm (p - q)) [p, q] b) := by
  unfold Curve.polyline
  have e : chordGo (fun p q => nrm (p - q)) 0 [p + t, q + t] = chordGo (fun p q => nrm (p - q)) 0 [p, q] := by
    simp [chordGo]
  have e' : chordTotal (fun p q => nrm (p - q)) [p + t, q + t] = chordTotal (fun p q => nrm (p - q)) [p, q] := by
    simp [chordTotal, chordGo]
  rw [e, e', map_bind']
  refine bind_congr fun _ => ?_
  simp only []
  cases b
  · simp [pure_eq_ok, Except.map, shiftedCurve, mapCps, homogenize, affHom]
  · simp only [if_true]
    rw [map_bind']
    refine bind_congr fun ks => ?_
    simp [pure_eq_ok, Except.map, shiftedCurve, mapCps, homogenize, affHom]

theorem ray_not_dividable {ray : Curve K ((Fin 2 → K) × K)} {p q : Fin 2 → K}
    (h : Curve.polyline (fun p q => nrm (p - q)) [p, q] true = .ok ray) {rdom : K × K} (hr : ray.knotsDomain = .ok rdom) :
    CurveTree.isDividable (⟨ray, (rdom.2 - rdom.1) / 1⟩ : CurveTree K 2) = .ok false := by
  unfold Curve.polyline at h
  obtain ⟨_, _, h⟩ := bind_eq_ok.1 h
  simp only [if_true] at h
  obtain ⟨ks, _, h⟩ := bind_eq_ok.1 h
  have h := (Except.ok.inj h).symm
  rw [CurveTree.isDividable, hr, ok_bind]
  simp only [div_one, lt_irrefl, if_false]
  rw [h]
  simp [pure_eq_ok]

theorem ray_box_room {ray : Curve K ((Fin 2 → K) × K)} {p q : Fin 2 → K}
    (h : Curve.polyline (fun p q => nrm (p - q)) [p, q] true = .ok ray) : ray.dehomogenizedCps = .ok [p, q] := by
  unfold Curve.polyline at h
  obtain ⟨_, _, h⟩ := bind_eq_ok.1 h
  simp only [if_true] at h
  obtain ⟨ks, _, h⟩ := bind_eq_ok.1 h
  rw [← Except.ok.inj h, dehomogenizedCps_eq (by simp [homogenize])]
  simp [homogenize]

theorem coalesceGo_map {H H' : Type} {f : H → H'} {near : H → H → Bool} {near' : H' → H' → Bool}
    (hn : ∀ x y, near' (f x) (f y) = near x y) : ∀ (l : List H) (cur : H),
    coalesceGo near' (f cur) (l.map f) = (coalesceGo near cur l).map f
  | [], _ => rfl
  | h :: l, cur => by
    rw [List.map_cons, coalesceGo, coalesceGo, hn, coalesceGo_map hn l, coalesceGo_map hn l]
    split <;> rfl

theorem coalesce_shifted {H H' : Type} {f : H → H'} {near : H → H → Bool} {near' : H' → H' → Bool}
    (hn : ∀ x y, near' (f x) (f y) = near x y) (l : List H) :
    Contains.coalesce near' (l.map f) = (Contains.coalesce near l).map f := by
  cases l with
  | nil => rfl
  | cons h l => exact coalesceGo_map hn l h

/-- The crossings of the ray with the shifted curve are the shifted crossings. -/
theorem rayIntersection_shifted (hr : ∀ n, 0 ≤ rnd n ∧ rnd n ≤ 1) {o : Options K} {c : Curve K ((Fin 2 → K) × K)}
    (hc : Movable eps big rnd LinearMap.id t ⟨c, (c.hi - c.lo) / o.division⟩) {point : Fin 2 → K} {len : K}
    (hp : Room big LinearMap.id t [point, point + len • ![1, 0]]) (pos fuel : ℕ) :
    rayIntersection eps big nrm rnd pos fuel o (shiftedCurve t c) (point + t) len =
      Except.map (List.map (· + t)) (rayIntersection eps big nrm rnd pos fuel o c point len) := by
  unfold rayIntersection
  have e0 : point + t + len • ![(1 : K), 0] = (point + len • ![1, 0]) + t := by abel
  rw [e0, polyline_shifted, bind_map', map_bind']
  cases eray : Curve.polyline (fun p q => nrm (p - q)) [point, point + len • ![1, 0]] true with
  | error e => rfl
  | ok ray =>
    simp only [ok_bind]
    have ek : (shiftedCurve t c).knotsDomain = c.knotsDomain := rfl
    have er : (shiftedCurve t ray).knotsDomain = ray.knotsDomain := rfl
    rw [ek, er, knotsDomain_eq hc.good]
    simp only [ok_bind, CurveTree.new, pure_eq_ok]
    unfold divR
    split
    · rfl
    simp only [ok_bind, pure_eq_ok]
    cases erd : ray.knotsDomain with
    | error e => rfl
    | ok rdom =>
      simp only [ok_bind]
      have hnd := ray_not_dividable eray erd
      have hT : TreeMap (CurveTree.tree eps big rnd) (CurveTree.tree eps big rnd) (movedNode LinearMap.id t)
          (fun x : CurveTree K 2 => x = ⟨ray, (rdom.2 - rdom.1) / 1⟩) :=
        { dividable := fun x hx => (curve_treeMap LinearMap.id t eps big rnd x).dividable x .root
          divide := fun x r hx => (curve_treeMap LinearMap.id t eps big rnd x).divide x r .root
          inv := fun x y z r r' hx hd _ => by
            subst hx
            have hd : CurveTree.isDividable _ = .ok true := hd
            rw [hnd] at hd; cases hd }
      have e := traverse_moved (curve_treeMap LinearMap.id t eps big rnd ⟨c, (c.hi - c.lo) / o.division⟩) hT (by
        rintro x y hx rfl
        obtain ⟨p, p1, p2, p3, p4⟩ := hc.boxes hr hx
        refine ⟨_, Box.ofPoints big [point, point + len • ![1, 0]], _,
          Box.ofPoints big ([point, point + len • ![1, 0]].map fun x => LinearMap.id x + t), p3, ?_, p4, ?_,
          intersects_moved AxisMap.id p1 (by simp) p2 hp⟩
        · show Box.ofCurve big ray = _
          rw [Box.ofCurve, ray_box_room eray]; rfl
        · show Box.ofCurve big (ray.mapCps (affHom LinearMap.id t)) = _
          rw [Box.ofCurve, dehomogenizedCps_moved, ray_box_room eray]; rfl) fuel
        [(⟨c, (c.hi - c.lo) / o.division⟩, ⟨ray, (rdom.2 - rdom.1) / 1⟩)] pos (by
          intro e he
          rw [List.mem_singleton.1 he]
          exact ⟨.root, rfl⟩)
      simp only [List.map_cons, List.map_nil, Prod.map_apply, movedNode] at e
      rw [e, bind_map', map_bind']
      refine bind_congr fun pairs => ?_
      rw [mapM_map' (Option.map fun h : (Fin 2 → K) × K => (h.1 + t, h.2)) (f := fun e : CurveTree K 2 × CurveTree K 2 => pieceHit eps o point e.1.curve)
        (f' := fun e : CurveTree K 2 × CurveTree K 2 => pieceHit eps o (point + t) e.1.curve) (g := Prod.map (movedNode LinearMap.id t) (movedNode LinearMap.id t))
        (fun e => pieceHit_shifted o point e.1.curve) pairs, bind_map', map_bind']
      refine bind_congr fun found => ?_
      rw [filterMap_moved, filter_moved (q := fun h => decide (point 0 ≤ h.1 0)) fun h => by simp]
      simp only [pure_eq_ok, Except.map]
      congr 1
      rw [← List.map_mergeSort (r := fun x y : (Fin 2 → K) × K => decide (x.2 ≤ y.2)) fun a _ b _ => rfl,
        coalesce_shifted (near := fun x y : (Fin 2 → K) × K => decide (nrm (x.1 - y.1) < o.minDist)) fun x y => by simp, List.map_map, List.map_map]
      rfl

theorem box_shifted {pts : List (Fin 2 → K)} (hne : pts ≠ []) (hr : Room big LinearMap.id t pts) (i : Fin 2) :
    (Box.ofPoints big (pts.map (· + t))).min i = (Box.ofPoints big pts).min i + t i ∧
    (Box.ofPoints big (pts.map (· + t))).max i = (Box.ofPoints big pts).max i + t i := by
  obtain ⟨a1, a2, -, -⟩ := C36_points_box hne fun p hp i => (hr p hp i).1
  obtain ⟨b1, b2, -, -⟩ := C36_points_box (big := big) (pts := pts.map (· + t)) (by simpa using hne) (by
    intro q hq i
    obtain ⟨x, hx, rfl⟩ := List.mem_map.1 hq
    exact (hr x hx i).2)
  obtain ⟨⟨p, hp, e⟩, p', hp', e'⟩ := a2 i
  obtain ⟨⟨q, hq, f⟩, q', hq', f'⟩ := b2 i
  obtain ⟨x, hx, rfl⟩ := List.mem_map.1 hq
  obtain ⟨x', hx', rfl⟩ := List.mem_map.1 hq'
  have h1 := (contains_iff.1 (a1 x hx) i).1
  have h2 := (contains_iff.1 (a1 x' hx') i).2
  have h3 := (contains_iff.1 (b1 _ (List.mem_map_of_mem hp)) i).1
  have h4 := (contains_iff.1 (b1 _ (List.mem_map_of_mem hp')) i).2
  simp only [Pi.add_apply] at *
  constructor
  · refine le_antisymm ?_ ?_ <;> linarith
  · refine le_antisymm ?_ ?_ <;> linarith

/-- The ray of the query has its coordinates in range if those of the box are below a fifth of the range. -/
theorem ray_room {pts : List (Fin 2 → K)} (hne : pts ≠ []) (hr : Room (big / 5) LinearMap.id t pts) {point : Fin 2 → K}
    (hin : (Box.ofPoints big pts).contains point = true) :
    Room big LinearMap.id t [point, point + ((Box.ofPoints big pts).size 0 * 2) • ![1, 0]] := by
  have hb : 0 ≤ big := by
    obtain ⟨q, hq⟩ := List.exists_mem_of_ne_nil _ hne
    have := (abs_nonneg _).trans (hr q hq 0).1
    linarith
  have hr' : ∀ p ∈ pts, ∀ i, |p i| ≤ big := fun p hp i => (hr p hp i).1.trans (by linarith)
  obtain ⟨-, a2, -, -⟩ := C36_points_box hne hr'
  have key : ∀ i, |point i| ≤ big / 5 ∧ |point i + t i| ≤ big / 5 ∧ 0 ≤ (Box.ofPoints big pts).size i ∧
      (Box.ofPoints big pts).size i ≤ 2 * (big / 5) := by
    intro i
    obtain ⟨⟨p, hp, e⟩, p', hp', e'⟩ := a2 i
    have h := contains_iff.1 hin i
    rw [e, e'] at h
    have b := hr p hp i
    have b' := hr p' hp' i
    simp only [LinearMap.id_coe, id_eq, Pi.add_apply, abs_le] at b b'
    rw [abs_le, abs_le, Box.size, e, e']
    refine ⟨⟨?_, ?_⟩, ⟨?_, ?_⟩, ?_, ?_⟩ <;> linarith [b.1.1, b.1.2, b.2.1, b.2.2, b'.1.1, b'.1.2, b'.2.1, b'.2.2]
  intro p hp i
  simp only [List.mem_cons, List.not_mem_nil, or_false] at hp
  obtain ⟨k1, k2, -, -⟩ := key i
  obtain ⟨-, -, k3, k4⟩ := key 0
  rcases hp with rfl | rfl
  · exact ⟨k1.trans (by linarith), (by simpa using k2 : |(LinearMap.id p + t) i| ≤ big / 5).trans (by linarith)⟩
  · simp only [LinearMap.id_coe, id_eq, Pi.add_apply, Pi.smul_apply, smul_eq_mul]
    rw [abs_le] at k1 k2
    fin_cases i
    · simp only [Fin.zero_eta, Fin.isValue, Matrix.cons_val_zero, mul_one, abs_le] at *
      refine ⟨⟨?_, ?_⟩, ?_, ?_⟩ <;> linarith [k1.1, k1.2, k2.1, k2.2]
    · simp only [Fin.mk_one, Fin.isValue, Matrix.cons_val_one, Matrix.cons_val_fin_one, mul_zero, add_zero, abs_le] at *
      refine ⟨⟨?_, ?_⟩, ?_, ?_⟩ <;> linarith [k1.1, k1.2, k2.1, k2.2]

theorem box_contains_shifted {pts : List (Fin 2 → K)} (hne : pts ≠ []) (hr : Room big LinearMap.id t pts) (point : Fin 2 → K) :
    (Box.ofPoints big (pts.map (· + t))).contains (point + t) = (Box.ofPoints big pts).contains point := by
  rw [Bool.eq_iff_iff, contains_iff, contains_iff]
  refine forall_congr' fun i => ?_
  obtain ⟨e1, e2⟩ := box_shifted hne hr i
  rw [e1, e2]
  simp

theorem onBoundary_shifted (opt : Option (Options K)) (point : Fin 2 → K) (r : Res (Fin 2 → K)) :
    onBoundary nrm opt (point + t) (Except.map (· + t) r) = onBoundary nrm opt point r := by
  cases r with
  | error e => cases e <;> rfl
  | ok q => simp [onBoundary, Except.map]

theorem Room.mono {big big' : K} (h : big ≤ big') {A : (Fin d → K) →ₗ[K] (Fin d → K)} {t : Fin d → K} {pts : List (Fin d → K)}
    (hr : Room big A t pts) : Room big' A t pts := fun p hp i => ⟨(hr p hp i).1.trans h, (hr p hp i).2.trans h⟩

/-- **Containment does not depend on where the curve is**: shifted together, a closed curve and a point give the same answer (and the
    same failure), for every random stream, with the closest point search of the library. -/
theorem C115_contains (hr : ∀ n, 0 ≤ rnd n ∧ rnd n ≤ 1) (opt : Option (Options K)) {c : Curve K ((Fin 2 → K) × K)}
    (hc : Movable eps big rnd LinearMap.id t ⟨c, (c.hi - c.lo) / (opt.getD .default).division⟩)
    (hroom : ∀ q ∈ c.cps, ∀ i, |(q.2⁻¹ • q.1) i| ≤ big / 5 ∧ |(q.2⁻¹ • q.1) i + t i| ≤ big / 5) (point : Fin 2 → K) (pos fuel : ℕ) :
    curveContains eps big nrm (findClosestPoint nrm dot eps (shiftedCurve t c)) rnd pos fuel opt (shiftedCurve t c) (point + t) =
      curveContains eps big nrm (findClosestPoint nrm dot eps c) rnd pos fuel opt c point := by
  have hne : c.cps.map (fun q => q.2⁻¹ • q.1) ≠ [] := by
    simpa using List.ne_nil_of_length_pos hc.good.cps_pos
  have hR : Room (big / 5) LinearMap.id t (c.cps.map fun q => q.2⁻¹ • q.1) := by
    intro p hp i
    obtain ⟨q, hq, rfl⟩ := List.mem_map.1 hp
    exact hroom q hq i
  have hb : 0 ≤ big := by
    obtain ⟨q, hq⟩ := List.exists_mem_of_ne_nil _ hne
    have := (abs_nonneg _).trans (hR q hq 0).1
    linarith
  have hR' := hR.mono (by linarith : big / 5 ≤ big)
  have hclosed : (shiftedCurve t c).isClosed eps (fun p q => nrm (p - q)) = c.isClosed eps (fun p q => nrm (p - q)) :=
    isClosed_isometry (fun _ => rfl) eps c
  have e1 : Box.ofCurve big c = .ok (Box.ofPoints big (c.cps.map fun q => q.2⁻¹ • q.1)) := by
    rw [Box.ofCurve, dehomogenizedCps_eq hc.pos]; rfl
  have e2 : Box.ofCurve big (shiftedCurve t c) = .ok (Box.ofPoints big ((c.cps.map fun q => q.2⁻¹ • q.1).map (· + t))) := by
    rw [Box.ofCurve, shiftedCurve, dehomogenizedCps_moved, dehomogenizedCps_eq hc.pos]; rfl
  unfold curveContains
  rw [hclosed, e1, e2]
  refine bind_congr fun closed => ?_
  congr 1
  simp only [ok_bind]
  rw [box_contains_shifted hne hR' point]
  by_cases hin : (Box.ofPoints big (c.cps.map fun q => q.2⁻¹ • q.1)).contains point = true
  · rw [if_neg (by simpa using hin), if_neg (by simpa using hin)]
    have e3 : findClosestPoint nrm dot eps (shiftedCurve t c) (point + t) = Except.map (· + t) (findClosestPoint nrm dot eps c point) :=
      C105_closest_point (A := LinearMap.id) (fun _ => rfl) (fun _ _ => rfl) eps c point
    have e4 : (Box.ofPoints big ((c.cps.map fun q => q.2⁻¹ • q.1).map (· + t))).size 0 =
        (Box.ofPoints big (c.cps.map fun q => q.2⁻¹ • q.1)).size 0 := by
      obtain ⟨f1, f2⟩ := box_shifted hne hR' 0
      rw [Box.size, Box.size, f1, f2]; ring
    rw [e3, onBoundary_shifted, e4, rayIntersection_shifted hr hc (ray_room hne hR hin), bind_map']
    simp only [List.length_map]
  · rw [if_pos (by simpa using hin), if_pos (by simpa using hin)]

/-- The same for a closed compound curve, whatever closest point search is used, as long as it commutes with the shift. -/
theorem C115_contains_compound {rnd : ℕ → ℕ → K} (hr : ∀ s n, 0 ≤ rnd s n ∧ rnd s n ≤ 1) (opt : Option (Options K))
    {spans : List (Curve K ((Fin 2 → K) × K))} (hne : spans ≠ [])
    (hc : ∀ s c, (c, s) ∈ spans.zipIdx → Movable eps big (rnd s) LinearMap.id t ⟨c, (c.hi - c.lo) / (opt.getD .default).division⟩)
    (hroom : ∀ c ∈ spans, ∀ q ∈ c.cps, ∀ i, |(q.2⁻¹ • q.1) i| ≤ big / 5 ∧ |(q.2⁻¹ • q.1) i + t i| ≤ big / 5)
    {closest closest' : (Fin 2 → K) → Res (Fin 2 → K)} (hcl : ∀ x, closest' (x + t) = Except.map (· + t) (closest x))
    (point : Fin 2 → K) (pos fuel : ℕ) :
    compoundContains eps big nrm closest' rnd pos fuel opt (spans.map (shiftedCurve t)) (point + t) =
      compoundContains eps big nrm closest rnd pos fuel opt spans point := by
  have hmem : ∀ c ∈ spans, ∃ s, Movable eps big (rnd s) LinearMap.id t ⟨c, (c.hi - c.lo) / (opt.getD .default).division⟩ := by
    intro c hcm
    obtain ⟨s, hs, e⟩ := List.mem_iff_getElem.1 hcm
    refine ⟨s, hc s c ?_⟩
    rw [List.mem_zipIdx_iff_getElem?]
    simp [← e]
  let pts := (spans.map fun c => c.cps.map fun q => q.2⁻¹ • q.1).flatten
  have hp1 : (spans.mapM fun s => s.dehomogenizedCps) = .ok (spans.map fun c => c.cps.map fun q => q.2⁻¹ • q.1) :=
    mapM_ok fun c hcm => by
      obtain ⟨s, hs⟩ := hmem c hcm
      exact dehomogenizedCps_eq hs.pos
  have hp2 : ((spans.map (shiftedCurve t)).mapM fun s => s.dehomogenizedCps) =
      .ok ((spans.map fun c => c.cps.map fun q => q.2⁻¹ • q.1).map (List.map (· + t))) := by
    rw [mapM_map' (f := fun s : Curve K ((Fin 2 → K) × K) => s.dehomogenizedCps) (g := shiftedCurve t) (List.map (· + t))
      (fun c => dehomogenizedCps_moved LinearMap.id t c) spans, hp1]
    rfl
  have e1 : compoundBox big spans = .ok (Box.ofPoints big pts) := by rw [compoundBox, hp1]; rfl
  have e2 : compoundBox big (spans.map (shiftedCurve t)) = .ok (Box.ofPoints big (pts.map (· + t))) := by
    rw [compoundBox, hp2, ok_bind, ← List.map_flatten]; rfl
  have hptne : pts ≠ [] := by
    obtain ⟨c, hcm⟩ := List.exists_mem_of_ne_nil _ hne
    obtain ⟨s, hs⟩ := hmem c hcm
    obtain ⟨q, hq⟩ := List.exists_mem_of_ne_nil _ (List.ne_nil_of_length_pos hs.good.cps_pos)
    exact List.ne_nil_of_mem (List.mem_flatten.2 ⟨_, List.mem_map_of_mem hcm, List.mem_map_of_mem hq⟩)
  have hR : Room (big / 5) LinearMap.id t pts := by
    intro p hp i
    obtain ⟨l, hl, hp⟩ := List.mem_flatten.1 hp
    obtain ⟨c, hcm, rfl⟩ := List.mem_map.1 hl
    obtain ⟨q, hq, rfl⟩ := List.mem_map.1 hp
    exact hroom c hcm q hq i
  have hb : 0 ≤ big := by
    obtain ⟨q, hq⟩ := List.exists_mem_of_ne_nil _ hptne
    have := (abs_nonneg _).trans (hR q hq 0).1
    linarith
  have hR' := hR.mono (by linarith : big / 5 ≤ big)
  unfold compoundContains
  rw [e1, e2]
  simp only [ok_bind]
  rw [box_contains_shifted hptne hR' point]
  by_cases hin : (Box.ofPoints big pts).contains point = true
  · rw [if_neg (by simpa using hin), if_neg (by simpa using hin)]
    have e4 : (Box.ofPoints big (pts.map (· + t))).size 0 = (Box.ofPoints big pts).size 0 := by
      obtain ⟨f1, f2⟩ := box_shifted hptne hR' 0
      rw [Box.size, Box.size, f1, f2]; ring
    rw [hcl, onBoundary_shifted, e4]
    refine bind_congr fun on => ?_
    congr 1
    have hz : (spans.map (shiftedCurve t)).zipIdx = spans.zipIdx.map fun s => (shiftedCurve t s.1, s.2) := by
      rw [List.zipIdx_map]; rfl
    have key : ∀ l : List (Curve K ((Fin 2 → K) × K) × ℕ), (∀ s ∈ l, s ∈ spans.zipIdx) →
        ((l.map fun s => (shiftedCurve t s.1, s.2)).mapM fun s => rayIntersection eps big nrm (rnd s.2) pos fuel (opt.getD .default) s.1
          (point + t) ((Box.ofPoints big pts).size 0 * 2)) = Except.map (List.map (List.map (· + t)))
        (l.mapM fun s => rayIntersection eps big nrm (rnd s.2) pos fuel (opt.getD .default) s.1
          point ((Box.ofPoints big pts).size 0 * 2)) := by
      intro l
      induction l with
      | nil => intro _; rfl
      | cons s l ih =>
        intro hl
        rw [List.map_cons, List.mapM_cons, List.mapM_cons, ih fun x hx => hl x (by simp [hx]),
          rayIntersection_shifted (hr s.2) (hc s.2 s.1 (hl s (by simp))) (ray_room hptne hR hin), bind_map', map_bind']
        refine bind_congr fun x => ?_
        rw [bind_map', map_bind']
        rfl
    rw [hz, key _ fun _ h => h, bind_map']
    refine bind_congr fun its => ?_
    simp [List.map_map, Function.comp_def]
  · rw [if_pos (by simpa using hin), if_pos (by simpa using hin)]

/-- The closest point search of compound curves commutes with every isometry, so it can be used there. -/
theorem compound_closest_shifted {normSq : (Fin 2 → K) → K} (spans : List (Curve K ((Fin 2 → K) × K))) (x : Fin 2 → K) :
    Compound.findClosestPoint nrm normSq dot eps (spans.map (shiftedCurve t)) (x + t) =
      Except.map (· + t) (Compound.findClosestPoint nrm normSq dot eps spans x) := by
  unfold Compound.findClosestPoint
  rw [mapM_map' (f := fun s : Curve K ((Fin 2 → K) × K) => findClosestPoint nrm dot eps s x) (g := shiftedCurve t) (· + t)
    (fun c => C105_closest_point (A := LinearMap.id) (fun _ => rfl) (fun _ _ => rfl) eps c x) spans, bind_map', map_bind']
  refine bind_congr fun res => ?_
  cases res with
  | nil => rfl
  | cons q res =>
    have e : (res.map (· + t)).map (fun q => (normSq (q - (x + t)), q)) = (res.map fun q => (normSq (q - x), q)).map fun y => (y.1, y.2 + t) := by
      rw [List.map_map, List.map_map]
      exact List.map_congr_left fun y _ => by simp
    simp only [List.map_cons, pure_eq_ok, Except.map]
    rw [e]
    have := minBy_map (· + t) (res.map fun q => (normSq (q - x), q)) (normSq (q - x), q)
    have e2 : normSq (q + t - (x + t)) = normSq (q - x) := by simp
    rw [e2, this]

end contains

/-! ### Witnesses -/

/-- The quarterTurn turn of the plane. -/
def quarterTurn : (Fin 2 → ℚ) →ₗ[ℚ] (Fin 2 → ℚ) where
  toFun x := ![-x 1, x 0]
  map_add' x y := by funext i; fin_cases i <;> simp; ring
  map_smul' a x := by funext i; fin_cases i <;> simp

theorem quarter_axis : AxisMap quarterTurn := by
  refine ⟨Equiv.swap 0 1, ![-1, 1], fun i => ?_, fun x i => ?_⟩
  · fin_cases i <;> simp
  · fin_cases i <;> simp [quarterTurn]

theorem exBezA_movable (rnd : ℕ → ℚ) (hr : ∀ n, 0 ≤ rnd n ∧ rnd n ≤ 1) :
    Movable (1/1000000) 1000000 rnd quarterTurn ![7, -3] ⟨exBezA, (exBezA.hi - exBezA.lo) / (64 : ℕ)⟩ where
  good := exBezA_good
  pos := by simp [exBezA]
  room := by decide +kernel
  generic := generic_of_ends hr exBezA_good (by simp [exBezA]) (by decide +kernel) (by decide +kernel) (by norm_num)

theorem exBezB_movable (rnd : ℕ → ℚ) (hr : ∀ n, 0 ≤ rnd n ∧ rnd n ≤ 1) :
    Movable (1/1000000) 1000000 rnd quarterTurn ![7, -3] ⟨exBezB, (exBezB.hi - exBezB.lo) / (64 : ℕ)⟩ where
  good := exBezB_good
  pos := by simp [exBezB]
  room := by decide +kernel
  generic := generic_of_ends hr exBezB_good (by simp [exBezB]) (by decide +kernel) (by decide +kernel) (by norm_num)

/-- The two Bezier curves of C37, turned by a quarter turn and shifted. -/
example (rnd : ℕ → ℚ) (hr : ∀ n, 0 ≤ rnd n ∧ rnd n ≤ 1) (pos fuel maxIters : ℕ) :=
  C115_curves (dot := fun x y => x 0 * y 0 + x 1 * y 1) (norm := fun x => |x 0| + |x 1|) (normSq := fun x => x 0 * x 0 + x 1 * x 1)
    quarter_axis (by intro x y; simp [quarterTurn]; ring) (by intro x; simp [quarterTurn]; ring) (by intro x; simp [quarterTurn]; ring) hr
    (exBezA_movable rnd hr) (exBezB_movable rnd hr) (fun x => |x 0| + |x 1|) pos fuel (1/100000) (1/1000000) (1/1000000) maxIters

/-- Chains of them. -/
example (rnd : ℕ → ℚ) (hr : ∀ n, 0 ≤ rnd n ∧ rnd n ≤ 1) (pos fuel maxIters : ℕ) :=
  C115_compound (dot := fun x y => x 0 * y 0 + x 1 * y 1) (norm := fun x => |x 0| + |x 1|) (normSq := fun x => x 0 * x 0 + x 1 * x 1)
    (spans := [exBezA, exBezB]) (others := [exBezB])
    quarter_axis (by intro x y; simp [quarterTurn]; ring) (by intro x; simp [quarterTurn]; ring) (by intro x; simp [quarterTurn]; ring) hr
    (by intro a ha; simp only [List.mem_cons, List.not_mem_nil, or_false] at ha
        rcases ha with rfl | rfl
        exacts [exBezA_movable rnd hr, exBezB_movable rnd hr])
    (by intro a ha; rw [List.mem_singleton.1 ha]; exact exBezB_movable rnd hr) (fun x => |x 0| + |x 1|) pos fuel
    (1/100000) (1/1000000) (1/1000000) maxIters

/-- A closed cubic with a hump. -/
def exDrop : Curve ℚ ((Fin 2 → ℚ) × ℚ) where
  degree := 3
  cps := [(![0, 0], 1), (![4, 3], 1), (![-4, 3], 1), (![0, 0], 1)]
  knots := [0, 0, 0, 0, 1, 1, 1, 1]

theorem exDrop_good : exDrop.Good (1/1000000) where
  cps_pos := by decide
  knots_len := by decide
  good := by
    refine ⟨by norm_num, by decide, ?_, ?_, ?_, ?_, ?_⟩
    · intro i j hij hj
      exact (by decide +kernel : ∀ i ≤ 7, ∀ j ≤ 7, i ≤ j → kf exDrop.knots i ≤ kf exDrop.knots j)
        i (by have : j ≤ 7 := hj; omega) j hj hij
    all_goals simp [exDrop, kf]; try norm_num

theorem exDrop_movable (rnd : ℕ → ℚ) (hr : ∀ n, 0 ≤ rnd n ∧ rnd n ≤ 1) :
    Movable (1/1000000) 1000000 rnd LinearMap.id ![7, -3] ⟨exDrop, (exDrop.hi - exDrop.lo) / (64 : ℕ)⟩ where
  good := exDrop_good
  pos := by simp [exDrop]
  room := by decide +kernel
  generic := generic_of_ends hr exDrop_good (by simp [exDrop]) (by decide +kernel) (by decide +kernel) (by norm_num)

/-- Any point and the closed cubic, shifted. -/
example (rnd : ℕ → ℚ) (hr : ∀ n, 0 ≤ rnd n ∧ rnd n ≤ 1) (point : Fin 2 → ℚ) (pos fuel : ℕ) :=
  C115_contains (nrm := fun x => |x 0| + |x 1|) (dot := fun x y => x 0 * y 0 + x 1 * y 1) hr none (exDrop_movable rnd hr)
    (by decide +kernel) point pos fuel

/-- Two of them as a compound curve. -/
example (rnd : ℕ → ℕ → ℚ) (hr : ∀ s n, 0 ≤ rnd s n ∧ rnd s n ≤ 1) (point : Fin 2 → ℚ) (pos fuel : ℕ) :=
  C115_contains_compound (nrm := fun x => |x 0| + |x 1|) hr none (spans := [exDrop, exDrop]) (by simp) (by
    intro s c h
    have : c = exDrop := by
      have := List.fst_mem_of_mem_zipIdx h
      simpa using this
    subst this
    exact exDrop_movable (rnd s) (hr s)) (by decide +kernel)
    (compound_closest_shifted (eps := 1/1000000) (nrm := fun x => |x 0| + |x 1|) (dot := fun x y => x 0 * y 0 + x 1 * y 1)
      (normSq := fun x => x 0 * x 0 + x 1 * x 1) [exDrop, exDrop]) point pos fuel

end Curvo.Props

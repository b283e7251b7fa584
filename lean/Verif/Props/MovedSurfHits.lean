/-
  Property theorems: intersections of moved surfaces and curves, C115.
-/
import Verif.Props.MovedHits
import Verif.Props.SurfMoved
import Verif.Props.SurfPieces
import Verif.Props.Intersect

set_option linter.unusedSectionVars false
set_option linter.unusedSimpArgs false

namespace Curvo.Props

open Curvo Curvo.Curve Curvo.Surface Curvo.Spec Curvo.Intersect Curvo.Bfgs

variable {K : Type} [Field K] [LinearOrder K] [IsStrictOrderedRing K] {d : ℕ}

variable {A : (Fin d → K) →ₗ[K] (Fin d → K)} {t : Fin d → K} {eps big : K} {rnd : ℕ → K}

/-- The node of the moved surface. -/
def movedSurfNode (A : (Fin d → K) →ₗ[K] (Fin d → K)) (t : Fin d → K) (x : SurfTree K d) : SurfTree K d :=
  ⟨mapNet (affHom A t) x.surface, x.tolerance, x.direction⟩

theorem surface_treeMap (Rng : Type) (A : (Fin d → K) →ₗ[K] (Fin d → K)) (t : Fin d → K) (eps big : K) (t0 : SurfTree K d) :
    TreeMap (SurfTree.tree Rng eps big) (SurfTree.tree Rng eps big) (movedSurfNode A t) (Reach (SurfTree.tree Rng eps big) t0) where
  dividable x _ := rfl
  divide x r _ := by
    show SurfTree.tryDivide _ _ _ = Except.map _ (SurfTree.tryDivide _ _ _)
    rw [SurfTree.tryDivide, SurfTree.tryDivide, map_bind']
    refine bind_congr fun dom => ?_
    show ((mapNet (affHom A t) x.surface).trySplit eps _ _ >>= _) = _
    rw [Surface.trySplit_map, bind_map', map_bind']
    rfl
  inv x y z r r' hx hd e := ⟨.left hx hd e, .right hx hd e⟩

/-- A surface that can be moved. -/
structure SurfMovable (eps big : K) (A : (Fin d → K) →ₗ[K] (Fin d → K)) (t : Fin d → K) (x : SurfTree K d) : Prop where
  good : x.surface.Good eps
  pos : ∀ row ∈ x.surface.cps, ∀ q ∈ row, 0 < q.2
  room : ∀ row ∈ x.surface.cps, ∀ q ∈ row, ∀ i, |(q.2⁻¹ • q.1) i| ≤ big ∧ |(A (q.2⁻¹ • q.1) + t) i| ≤ big
  generic : SurfGeneric ℕ eps big x

theorem SurfMovable.boxes {x0 x : SurfTree K d} (h : SurfMovable eps big A t x0)
    (hx : Reach (SurfTree.tree ℕ eps big) x0 x) :
    ∃ pts, pts ≠ [] ∧ Room big A t pts ∧ x.surface.boundingBox big = .ok (Box.ofPoints big pts) ∧
      (movedSurfNode A t x).surface.boundingBox big = .ok (Box.ofPoints big (pts.map fun p => A p + t)) := by
  obtain ⟨hin, -⟩ := C104_surface_tree (big := big) h.good h.pos h.generic hx
  obtain ⟨pts, pts', e, e', hP⟩ := hin.points
  have epts : pts = x0.surface.cps.map (List.map fun q => q.2⁻¹ • q.1) := by
    rw [surf_dehomogenizedCps_eq h.pos] at e; exact (Except.ok.inj e).symm
  have epts' : pts' = x.surface.cps.map (List.map fun q => q.2⁻¹ • q.1) := by
    rw [surf_dehomogenizedCps_eq hin.pos] at e'; exact (Except.ok.inj e').symm
  have hg := (surf_reach h.generic ⟨.root, h.good, h.pos, rfl⟩ hx).1.good
  refine ⟨pts'.flatten, ?_, ?_, ?_, ?_⟩
  · obtain ⟨row, hrow⟩ := List.exists_mem_of_length_pos hg.rows_pos
    obtain ⟨q, hq⟩ := List.exists_mem_of_length_pos (by rw [hg.rect row hrow]; exact hg.cols_pos)
    refine List.ne_nil_of_mem (a := q.2⁻¹ • q.1) ?_
    rw [epts']
    exact List.mem_flatten.2 ⟨_, List.mem_map.2 ⟨row, hrow, rfl⟩, List.mem_map.2 ⟨q, hq, rfl⟩⟩
  · have := hP (fun p => ∀ i, |p i| ≤ big ∧ |(A p + t) i| ≤ big) (by
      intro p q s s0 s1 hp hq i
      refine ⟨by simpa using abs_convex s0 s1 (hp i).1 (hq i).1, ?_⟩
      have e : (A (s • p + (1 - s) • q) + t) i = s * (A p + t) i + (1 - s) * (A q + t) i := by
        simp only [map_add, map_smul, Pi.add_apply, Pi.smul_apply, smul_eq_mul]; ring
      rw [e]
      exact abs_convex s0 s1 (hp i).2 (hq i).2) (by
      intro row hr p hp
      rw [epts] at hr
      obtain ⟨row', hr', rfl⟩ := List.mem_map.1 hr
      obtain ⟨q, hq, rfl⟩ := List.mem_map.1 hp
      exact h.room row' hr' q hq)
    intro p hp
    obtain ⟨row, hr, hp⟩ := List.mem_flatten.1 hp
    exact this row hr p hp
  · rw [Surface.boundingBox, e']; rfl
  · rw [Surface.boundingBox, movedSurfNode, surf_dehomogenizedCps_moved, e', map_ok', ok_bind, List.map_flatten]; rfl

/-- The traversal of a moved surface and a moved curve reports the moved pairs. -/
theorem traverse_surface_moved (hA : AxisMap A) (hr : ∀ n, 0 ≤ rnd n ∧ rnd n ≤ 1) {a : SurfTree K d} {b : CurveTree K d}
    (ha : SurfMovable eps big A t a) (hb : Movable eps big rnd A t b) (fuel pos : ℕ) :
    traverse (SurfTree.tree ℕ eps big) (CurveTree.tree eps big rnd) fuel [(movedSurfNode A t a, movedNode A t b)] pos =
      Except.map (List.map (Prod.map (movedSurfNode A t) (movedNode A t)))
        (traverse (SurfTree.tree ℕ eps big) (CurveTree.tree eps big rnd) fuel [(a, b)] pos) := by
  refine traverse_moved (surface_treeMap ℕ A t eps big a) (curve_treeMap A t eps big rnd b) ?_ fuel [(a, b)] pos (by
    intro e he
    rw [List.mem_singleton.1 he]
    exact ⟨.root, .root⟩)
  intro x y hx hy
  obtain ⟨p, p1, p2, p3, p4⟩ := ha.boxes hx
  obtain ⟨q, q1, q2, q3, q4⟩ := hb.boxes hr hy
  exact ⟨_, _, _, _, p3, q3, p4, q4, intersects_moved hA p1 q1 p2 q2⟩

section solver
variable {W W' : Type} [AddCommGroup W] [Module K W] [AddCommGroup W'] [Module K W'] {A : W →ₗ[K] W'} {t : W'} {dot : W → W → K}
  {dot' : W' → W' → K}

/-- The problem the solver sees is the same. -/
theorem surfaceProblem_moved (hd : ∀ x y, dot' (A x) (A y) = dot x y) (eps : K) (S : Surface K (W × K)) (c : Curve K (W × K)) :
    surfaceProblem dot' eps (mapNet (affHom A t) S) (c.mapCps (affHom A t)) = surfaceProblem dot eps S c := by
  have hc : (surfaceProblem dot' eps (mapNet (affHom A t) S) (c.mapCps (affHom A t))).cost = (surfaceProblem dot eps S c).cost := by
    funext x
    simp only [surfaceProblem, surf_point_map, point_mapCps, bind_map']
    exact bind_congr fun p => bind_congr fun q => pairCost_moved (fun x => hd x x) p q
  have hg : (surfaceProblem dot' eps (mapNet (affHom A t) S) (c.mapCps (affHom A t))).gradient =
      (surfaceProblem dot eps S c).gradient := by
    funext x
    simp only [surfaceProblem, C105_derivatives, C106_derivatives, bind_map']
    refine bind_congr fun dc => bind_congr fun ds => ?_
    rw [get2R_moved, get2R_moved, get2R_moved, movedEntry_left, movedEntry_right, getR_movedDers_zero, getR_movedDers_one]
    simp only [bind_map', movedEntry_zero]
    refine bind_congr fun p => bind_congr fun q => bind_congr fun r => bind_congr fun s => bind_congr fun w => ?_
    have : A p + t - (A q + t) = A (p - q) := by rw [map_sub]; abel
    rw [this, ← map_neg, hd, hd, hd]
  cases h1 : surfaceProblem dot' eps (mapNet (affHom A t) S) (c.mapCps (affHom A t)) with
  | mk c1 g =>
    cases h2 : surfaceProblem dot eps S c with
    | mk c' g' =>
      rw [h1, h2] at hc hg
      simp only at hc hg
      rw [hc, hg]

theorem solveSurface_moved (hd : ∀ x y, dot' (A x) (A y) = dot x y) (nrm : (Fin 3 → K) → K) (eps stepTol costTol : K) (maxIters : ℕ)
    (S : Surface K (W × K)) (c : Curve K (W × K)) :
    solveSurface dot' nrm eps stepTol costTol maxIters (mapNet (affHom A t) S) (c.mapCps (affHom A t)) =
      solveSurface dot nrm eps stepTol costTol maxIters S c := by
  unfold solveSurface
  rw [surfaceProblem_moved hd]
  rfl

end solver

variable {dot : (Fin d → K) → (Fin d → K) → K} {norm normSq : (Fin d → K) → K}

theorem candidateSurface_moved {solve : Surface K ((Fin d → K) × K) → Curve K ((Fin d → K) × K) → Option (K × K × K)}
    (hs : ∀ S c, solve (mapNet (affHom A t) S) (c.mapCps (affHom A t)) = solve S c) (S : Surface K ((Fin d → K) × K))
    (c : Curve K ((Fin d → K) × K)) (du dv dc : K × K) (e : SurfTree K d × CurveTree K d) :
    candidateSurface eps solve (mapNet (affHom A t) S) (c.mapCps (affHom A t)) du dv dc
        (Prod.map (movedSurfNode A t) (movedNode A t) e) =
      Except.map (Option.map (movedHit A t)) (candidateSurface eps solve S c du dv dc e) := by
  unfold candidateSurface
  have : solve (Prod.map (movedSurfNode A t) (movedNode A t) e).1.surface (Prod.map (movedSurfNode A t) (movedNode A t) e).2.curve =
      solve e.1.surface e.2.curve := hs _ _
  rw [this]
  cases solve e.1.surface e.2.curve with
  | none => rfl
  | some p =>
    obtain ⟨x, y, z⟩ := p
    simp only []
    rw [map_ite', surf_pointAt_affine, pointAt_affine, bind_map', map_bind']
    split
    · refine bind_congr fun x => ?_
      rw [bind_map', map_bind']
      rfl
    · rfl

/-- **Intersections of a surface and a curve do not depend on where they are**: moved together by a motion that keeps the axes, the
    intersections have the same parameters and the moved points, for every random stream; failures are the same. -/
theorem C115_surface_curve (hA : AxisMap A) (hd : ∀ x y, dot (A x) (A y) = dot x y) (hn : ∀ x, norm (A x) = norm x)
    (hn2 : ∀ x, normSq (A x) = normSq x) (hr : ∀ n, 0 ≤ rnd n ∧ rnd n ≤ 1) {S : Surface K ((Fin d → K) × K)}
    {c : Curve K ((Fin d → K) × K)} {division : ℕ} (hS : SurfMovable eps big A t (rootSurf division S))
    (hc : Movable eps big rnd A t (rootCurve division c)) (nrm3 : (Fin 3 → K) → K) (pos fuel : ℕ) (minDist stepTol costTol : K)
    (maxIters : ℕ) :
    surfaceCurve eps big rnd pos fuel norm normSq division minDist (solveSurface dot nrm3 eps stepTol costTol maxIters)
        (mapNet (affHom A t) S) (c.mapCps (affHom A t)) =
      Except.map (List.map (movedHit A t)) (surfaceCurve eps big rnd pos fuel norm normSq division minDist
        (solveSurface dot nrm3 eps stepTol costTol maxIters) S c) := by
  have eu : (mapNet (affHom A t) S).uDomain = S.uDomain := rfl
  have ev : (mapNet (affHom A t) S).vDomain = S.vDomain := rfl
  have ec : (c.mapCps (affHom A t)).knotsDomain = c.knotsDomain := rfl
  have gS : S.Good eps := hS.good
  have gc : c.Good eps := hc.good
  rw [surfaceCurve, surfaceCurve, eu, ev, ec, (surf_domains gS).1, (surf_domains gS).2, knotsDomain_eq gc]
  simp only [ok_bind, CurveTree.new, SurfTree.new, pure_eq_ok]
  unfold divR
  split
  · rfl
  simp only [ok_bind, pure_eq_ok]
  have e := traverse_surface_moved hA hr hS hc fuel pos
  simp only [movedNode, movedSurfNode, rootSurf, rootCurve] at e ⊢
  rw [e, bind_map', map_bind']
  refine bind_congr fun pairs => ?_
  rw [mapM_map' (Option.map (movedHit A t)) (fun e => candidateSurface_moved
    (fun S c => solveSurface_moved hd nrm3 eps stepTol costTol maxIters S c) S c _ _ _ e) pairs, bind_map', map_bind']
  refine bind_congr fun cands => ?_
  have key : ∀ h : Hit (Fin d → K) (K × K) K, (movedHit A t h).a.1 - (movedHit A t h).b.1 = A (h.a.1 - h.b.1) := by
    intro h
    simp only [movedHit, map_sub]; abel
  rw [filterMap_moved, filter_moved (q := fun h => decide (norm (h.a.1 - h.b.1) < minDist)) fun h => by rw [key, hn]]
  exact post_map (fun _ => rfl) (fun h => by rw [key, hn2]) (fun _ _ => rfl) _

/-- A turn about the diagonal of space. -/
def thirdTurn : (Fin 3 → ℚ) →ₗ[ℚ] (Fin 3 → ℚ) where
  toFun x := ![x 2, x 0, x 1]
  map_add' x y := by funext i; fin_cases i <;> simp
  map_smul' a x := by funext i; fin_cases i <;> simp

theorem thirdTurn_axis : AxisMap thirdTurn := by
  refine ⟨(finRotate 3).symm, fun _ => 1, fun i => Or.inl rfl, fun x i => ?_⟩
  fin_cases i  <;> (simp [thirdTurn]; try rfl)

theorem exSaddle_movable : SurfMovable (1/1000000) 1000000 thirdTurn ![7, -3, 2] (rootSurf 64 exSaddle) where
  good := exSaddle_good
  pos := by decide
  room := by decide +kernel
  generic := surf_generic_of_ends (δ := 1/64) exSaddle_good (by decide) rfl (by decide +kernel) (by decide +kernel)
    (by decide +kernel) (by decide +kernel) (by decide +kernel) (by decide +kernel)

theorem exNeedle_movable (rnd : ℕ → ℚ) (hr : ∀ n, 0 ≤ rnd n ∧ rnd n ≤ 1) :
    Movable (1/1000000) 1000000 rnd thirdTurn ![7, -3, 2] (rootCurve 64 exNeedle) where
  good := exNeedle_good
  pos := by decide
  room := by decide +kernel
  generic := generic_of_ends hr exNeedle_good (by decide) (by decide +kernel) (by decide +kernel) (by norm_num)

/-- The saddle and the line through it, turned and shifted. -/
example (rnd : ℕ → ℚ) (hr : ∀ n, 0 ≤ rnd n ∧ rnd n ≤ 1) (pos fuel maxIters : ℕ) :=
  C115_surface_curve (dot := fun x y => x 0 * y 0 + x 1 * y 1 + x 2 * y 2) (norm := fun x => |x 0| + |x 1| + |x 2|)
    (normSq := fun x => x 0 * x 0 + x 1 * x 1 + x 2 * x 2)
    thirdTurn_axis (by intro x y; simp [thirdTurn]; ring) (by intro x; simp [thirdTurn]; ring) (by intro x; simp [thirdTurn]; ring) hr
    exSaddle_movable (exNeedle_movable rnd hr) (fun x => |x 0| + |x 1| + |x 2|) pos fuel (1/100000) (1/1000000) (1/1000000) maxIters

end Curvo.Props

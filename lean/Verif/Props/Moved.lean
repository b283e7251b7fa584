/-
  Property theorems: the operations on curves and surfaces commute with transformations, C103.
-/
import Verif.Lemmas.SurfNat
import Verif.Props.Pieces
import Verif.Props.AddKnot

set_option linter.unusedSectionVars false

namespace Curvo.Props

open Curvo Curvo.Curve Curvo.Spec

section linear
variable {K : Type} [Field K] [LinearOrder K] {V V' : Type} [AddCommGroup V] [Module K V] [AddCommGroup V'] [Module K V']
  (L : V →ₗ[K] V')

/-- **Every linear map of the homogeneous control points commutes with refinement, splitting, trimming, degree elevation, reversal and
    unification**, on every curve, well formed or not; failures included. -/
theorem C103_linear (eps : K) (c : Curve K V) :
    (∀ xs, (c.mapCps L).tryRefineKnot eps xs = (c.tryRefineKnot eps xs).map (mapCps L)) ∧
    (∀ u, (c.mapCps L).trySplit eps u = (c.trySplit eps u).map fun r => (r.1.mapCps L, r.2.mapCps L)) ∧
    (∀ a b, (c.mapCps L).tryTrimRange eps a b = (c.tryTrimRange eps a b).map (List.map (mapCps L))) ∧
    (∀ n, (c.mapCps L).tryElevateDegree n = (c.tryElevateDegree n).map (mapCps L)) ∧
    (c.mapCps L).invert = c.invert.map (mapCps L) ∧
    ∀ cs : List (Curve K V), tryUnify eps (cs.map (mapCps L)) = (tryUnify eps cs).map (List.map (mapCps L)) :=
  ⟨tryRefineKnot_map L eps c, trySplit_map L eps c, tryTrimRange_map L eps c, tryElevateDegree_map L c, invert_map L c,
    tryUnify_map L eps⟩

/-- The same for refinement, splitting, isocurves, boundary curves, flips and reversal of surfaces. -/
theorem C103_linear_surface (eps : K) (S : Surface K V) :
    (∀ xs dir, (mapNet L S).tryRefineKnot eps xs dir = (S.tryRefineKnot eps xs dir).map (mapNet L)) ∧
    (∀ t dir, (mapNet L S).trySplit eps t dir = (S.trySplit eps t dir).map fun r => (mapNet L r.1, mapNet L r.2)) ∧
    (∀ t dir, (mapNet L S).tryIsocurve eps t dir = (S.tryIsocurve eps t dir).map (mapCps L)) ∧
    (mapNet L S).tryBoundaryCurves eps = (S.tryBoundaryCurves eps).map (List.map (mapCps L)) ∧
    (∀ dir, (mapNet L S).flip dir = (S.flip dir).map (mapNet L)) ∧
    (mapNet L S).invert = S.invert.map (mapNet L) :=
  ⟨Surface.tryRefineKnot_map L eps S, Surface.trySplit_map L eps S, Surface.tryIsocurve_map L eps S,
    Surface.tryBoundaryCurves_map L eps S, Surface.flip_map L S, Surface.invert_map L S⟩

end linear

section affine
variable {K : Type} [Field K] [LinearOrder K] [IsStrictOrderedRing K] {W : Type} [AddCommGroup W] [Module K W]

/-- Transforming by an affine matrix maps the homogeneous control points linearly. -/
theorem transform_eq {m : Matrix4 K W} (hc : m.c = 0) (hd : m.d ≠ 0) {c : Curve K (W × K)} (hw : ∀ p ∈ c.cps, p.2 ≠ 0) :
    c.transform m = .ok (c.mapCps (affineMap m)) := by
  rw [transform, mapM_ok (g := affineMap m) fun p hp => transformPoint_affine m hc hd (hw p hp)]
  rfl

theorem surface_transform_eq {m : Matrix4 K W} (hc : m.c = 0) (hd : m.d ≠ 0) {S : Surface K (W × K)}
    (hw : ∀ row ∈ S.cps, ∀ p ∈ row, p.2 ≠ 0) : S.transform m = .ok (mapNet (affineMap m) S) := by
  rw [Surface.transform, mapM_ok (g := fun row => row.map (affineMap m)) (fun row hrow =>
    mapM_ok (g := affineMap m) fun p hp => transformPoint_affine m hc hd (hw row hrow p hp))]
  rfl

/-- **Operations on a transformed curve fail exactly when they fail on the curve**, in the same way, and otherwise give the transformed
    results (transforming a result needs its weights not to vanish). -/
theorem C103_transform {m : Matrix4 K W} (hc : m.c = 0) (hd : m.d ≠ 0) (eps : K) {c : Curve K (W × K)} (hw : ∀ p ∈ c.cps, p.2 ≠ 0) :
    ∃ t, c.transform m = .ok t ∧
      (∀ xs e, c.tryRefineKnot eps xs = .error e → t.tryRefineKnot eps xs = .error e) ∧
      (∀ u e, c.trySplit eps u = .error e → t.trySplit eps u = .error e) ∧
      (∀ n e, c.tryElevateDegree n = .error e → t.tryElevateDegree n = .error e) ∧
      (∀ xs c', c.tryRefineKnot eps xs = .ok c' → (∀ p ∈ c'.cps, p.2 ≠ 0) →
        ∃ t', c'.transform m = .ok t' ∧ t.tryRefineKnot eps xs = .ok t') ∧
      (∀ u l r, c.trySplit eps u = .ok (l, r) → (∀ p ∈ l.cps, p.2 ≠ 0) → (∀ p ∈ r.cps, p.2 ≠ 0) →
        ∃ tl tr, l.transform m = .ok tl ∧ r.transform m = .ok tr ∧ t.trySplit eps u = .ok (tl, tr)) ∧
      (∀ n c', c.tryElevateDegree n = .ok c' → (∀ p ∈ c'.cps, p.2 ≠ 0) →
        ∃ t', c'.transform m = .ok t' ∧ t.tryElevateDegree n = .ok t') ∧
      (∀ c', c.invert = .ok c' → ∃ t', c'.transform m = .ok t' ∧ t.invert = .ok t') := by
  refine ⟨_, transform_eq hc hd hw, fun xs e h => ?_, fun u e h => ?_, fun n e h => ?_, fun xs c' h hw' => ?_,
    fun u l r h hl hr => ?_, fun n c' h hw' => ?_, fun c' h => ?_⟩
  · rw [tryRefineKnot_map, h]; rfl
  · rw [trySplit_map, h]; rfl
  · rw [tryElevateDegree_map, h]; rfl
  · exact ⟨_, transform_eq hc hd hw', by rw [tryRefineKnot_map, h]; rfl⟩
  · exact ⟨_, _, transform_eq hc hd hl, transform_eq hc hd hr, by rw [trySplit_map, h]; rfl⟩
  · exact ⟨_, transform_eq hc hd hw', by rw [tryElevateDegree_map, h]; rfl⟩
  · refine ⟨_, transform_eq hc hd ?_, by rw [invert_map, h]; rfl⟩
    obtain ⟨ks, hks, h⟩ := bind_eq_ok.1 h
    rw [← Except.ok.inj h]
    intro p hp
    exact hw p (List.mem_reverse.1 hp)

/-- **Surfaces**: refinement, splitting and isocurves of the transformed surface. -/
theorem C103_transform_surface {m : Matrix4 K W} (hc : m.c = 0) (hd : m.d ≠ 0) (eps : K) {S : Surface K (W × K)}
    (hw : ∀ row ∈ S.cps, ∀ p ∈ row, p.2 ≠ 0) :
    ∃ T, S.transform m = .ok T ∧
      (∀ xs dir S', S.tryRefineKnot eps xs dir = .ok S' → (∀ row ∈ S'.cps, ∀ p ∈ row, p.2 ≠ 0) →
        ∃ T', S'.transform m = .ok T' ∧ T.tryRefineKnot eps xs dir = .ok T') ∧
      (∀ t dir S0 S1, S.trySplit eps t dir = .ok (S0, S1) → (∀ row ∈ S0.cps, ∀ p ∈ row, p.2 ≠ 0) →
        (∀ row ∈ S1.cps, ∀ p ∈ row, p.2 ≠ 0) →
        ∃ T0 T1, S0.transform m = .ok T0 ∧ S1.transform m = .ok T1 ∧ T.trySplit eps t dir = .ok (T0, T1)) ∧
      (∀ t dir c, S.tryIsocurve eps t dir = .ok c → (∀ p ∈ c.cps, p.2 ≠ 0) →
        ∃ c', c.transform m = .ok c' ∧ T.tryIsocurve eps t dir = .ok c') := by
  refine ⟨_, surface_transform_eq hc hd hw, fun xs dir S' h hw' => ?_, fun t dir S0 S1 h h0 h1 => ?_, fun t dir c h hw' => ?_⟩
  · exact ⟨_, surface_transform_eq hc hd hw', by rw [Surface.tryRefineKnot_map, h]; rfl⟩
  · exact ⟨_, _, surface_transform_eq hc hd h0, surface_transform_eq hc hd h1, by rw [Surface.trySplit_map, h]; rfl⟩
  · exact ⟨_, transform_eq hc hd hw', by rw [Surface.tryIsocurve_map, h]; rfl⟩

end affine

section ordered
variable {K : Type} [Field K] [LinearOrder K] [IsStrictOrderedRing K] {W : Type} [AddCommGroup W] [Module K W]

/-- **Positive weights**: nothing has to be assumed about the results. -/
theorem C103_positive {m : Matrix4 K W} (hc : m.c = 0) (hd : m.d ≠ 0) {eps : K} {c : Curve K (W × K)} (h : c.Good eps)
    (hw : ∀ p ∈ c.cps, 0 < p.2) :
    ∃ t, c.transform m = .ok t ∧ t.Good eps ∧
      (∀ xs, xs.Pairwise (· ≤ ·) → (∀ x ∈ xs, c.lo ≤ x ∧ x ≤ c.hi) → (∀ x ∈ xs, ∀ y ∈ xs ++ c.knots, |y - x| < eps → y = x) →
        ∃ c' t', c.tryRefineKnot eps xs = .ok c' ∧ c'.transform m = .ok t' ∧ t.tryRefineKnot eps xs = .ok t') ∧
      (∀ u, c.lo ≤ u → u ≤ c.hi → (∀ y ∈ c.knots, |y - u| < eps → y = u) →
        ∃ l r tl tr, c.trySplit eps u = .ok (l, r) ∧ l.transform m = .ok tl ∧ r.transform m = .ok tr ∧ t.trySplit eps u = .ok (tl, tr)) ∧
      ((∀ x ∈ c.knots, ∀ y ∈ c.knots, x ≠ y → eps < |x - y|) → c.isClamped eps = .ok true →
        (∀ x ∈ c.knots, c.knots.count x ≤ c.degree + 1) →
        ∃ segs tsegs, c.tryDecomposeBezierSegments eps = .ok segs ∧ segs.mapM (transform m) = .ok tsegs ∧
          t.tryDecomposeBezierSegments eps = .ok tsegs) := by
  refine ⟨_, transform_eq hc hd fun p hp => (hw p hp).ne', ⟨by simpa [mapCps] using h.cps_pos, by simpa [mapCps] using h.knots_len, by
    simpa [mapCps] using h.good⟩, fun xs h1 h2 h3 => ?_, fun u h1 h2 h3 => ?_, fun h1 h2 h3 => ?_⟩
  · obtain ⟨c', e, hi⟩ := C104_refine h hw h1 h2 h3
    exact ⟨c', _, e, transform_eq hc hd fun p hp => (hi.pos p hp).ne', by rw [tryRefineKnot_map, e]; rfl⟩
  · obtain ⟨l, r, e, hl, hr⟩ := C104_split h hw h1 h2 h3
    exact ⟨l, r, _, _, e, transform_eq hc hd fun p hp => (hl.pos p hp).ne', transform_eq hc hd fun p hp => (hr.pos p hp).ne', by
      rw [trySplit_map, e]; rfl⟩
  · obtain ⟨segs, e, hs⟩ := C104_segments h hw h1 h2 h3
    exact ⟨segs, _, e, mapM_ok fun s hs' => transform_eq hc hd fun p hp => ((hs s hs').pos p hp).ne', by
      rw [tryDecompose_map _ _ _ h2, e]; rfl⟩

/-- The witness curve, rotated and translated, then split at `5/2`. -/
example : ∃ t l r tl tr, exCurve.transform exAffine = .ok t ∧ exCurve.trySplit (1/1000) (5/2) = .ok (l, r) ∧
    l.transform exAffine = .ok tl ∧ r.transform exAffine = .ok tr ∧ t.trySplit (1/1000) (5/2) = .ok (tl, tr) := by
  obtain ⟨t, h1, -, -, h2, -⟩ := C103_positive (m := exAffine) rfl (by norm_num [exAffine]) exCurve_good exCurve_weights
  obtain ⟨l, r, tl, tr, h3, h4, h5, h6⟩ := h2 (5/2) (by rw [exCurve_lo]; norm_num) (by rw [exCurve_hi]; norm_num) (by decide +kernel)
  exact ⟨t, l, r, tl, tr, h1, h3, h4, h5, h6⟩

end ordered

/-! ### Knot insertion by `try_add_knot` -/

/-- Translation by three. -/
def exShift : Matrix4 ℚ ℚ := { A := LinearMap.id, b := 3, c := 0, d := 1 }

/-- A rational segment. -/
def exWeighted : Curve ℚ (ℚ × ℚ) := { degree := 1, cps := [(0, 1), (2, 2)], knots := [0, 0, 1, 1] }

/-- **C103** (defect): `try_add_knot` blends the points but not the weights of a rational curve (C20), so it does not commute with
    translations: the translated result and the result of the translated segment differ. -/
theorem C103_add_knot : ∃ c t ct tc, exWeighted.tryAddKnot (1/2) = .ok c ∧ c.transform exShift = .ok ct ∧
    exWeighted.transform exShift = .ok t ∧ t.tryAddKnot (1/2) = .ok tc ∧ ct.cps ≠ tc.cps := by
  have key : (do
      let c ← exWeighted.tryAddKnot (1/2)
      let ct ← c.transform exShift
      let t ← exWeighted.transform exShift
      let tc ← t.tryAddKnot (1/2)
      pure (decide (ct.cps = tc.cps)) : Res Bool) = .ok false := by decide +kernel
  obtain ⟨c, h1, key⟩ := bind_eq_ok.1 key
  obtain ⟨ct, h2, key⟩ := bind_eq_ok.1 key
  obtain ⟨t, h3, key⟩ := bind_eq_ok.1 key
  obtain ⟨tc, h4, key⟩ := bind_eq_ok.1 key
  exact ⟨c, t, ct, tc, h1, h2, h3, h4, by simpa using Except.ok.inj key⟩

end Curvo.Props

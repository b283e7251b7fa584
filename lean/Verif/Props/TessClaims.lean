/-
  Property theorems about the adaptive surface tessellation: C45, C46, C63 and C68 for surfaces.
-/
import Verif.Props.TessMesh
import Verif.Props.Surface
import Verif.Props.Curve2

set_option linter.unusedSectionVars false

namespace Curvo.Props

open Curvo Curvo.Tess Curvo.Spec

variable {K : Type} [Field K] [LinearOrder K] [IsStrictOrderedRing K] {W : Type} [AddCommGroup W] [Module K W]

/-- Knot conditions for the grid of one direction: degree at least two, or degree one with simple inner knots. -/
def GridDegrees (S : Surface K (W × K)) : Prop :=
  (2 ≤ S.uDegree ∨ (S.uDegree = 1 ∧ ∀ i, 1 ≤ i → i < S.cps.length → kf S.uKnots i < kf S.uKnots (i + 1))) ∧
  (2 ≤ S.vDegree ∨ (S.vDegree = 1 ∧ ∀ i, 1 ≤ i → i < S.cols → kf S.vKnots i < kf S.vKnots (i + 1)))

/-- The surface tessellation succeeds, with or without subdivision, with or without boundary constraints, and gives a
    valid mesh: equal array lengths, vertices on the surface at their parameters, existing vertices in the faces. -/
theorem C45_mesh_valid {M : Metric K W} {eps : K} {S : Surface K (W × K)} (h : S.Good eps)
    (hw : ∀ row ∈ S.cps, ∀ p ∈ row, 0 < p.2) (hd : GridDegrees S)
    (c : Option (Constraints K)) (hc : ∀ cs, c = some cs → ConstraintsOK S cs) (opts : Option (Options K))
    (dflt : Options K) :
    ∃ t, (∀ fuel, (∀ o, opts = some o → max o.minDepth o.maxDepth < fuel) →
      tessellateSurface M eps fuel S c opts dflt = .ok t) ∧ MeshOK (surfPoint S) (domRect S) t := by
  obtain ⟨nodes, N, du, dv, rss, top, e, e', h1, h2, -⟩ := surface_tree (M := M) h hw hd.1 hd.2 c hc (opts.getD dflt)
  have hb : ∃ b, optMapM (BoundaryEval.new M eps S) c = .ok b ∧
      ∀ b', b = some b' → BoundaryOK (surfPoint S) (domRect S) b' := by
    cases c with
    | none => exact ⟨none, rfl, by simp⟩
    | some c =>
      obtain ⟨b, eb, hb⟩ := boundaryEval_ok (M := M) h hw (hc c rfl)
      exact ⟨some b, by rw [optMapM, eb, ok_bind]; rfl, fun b' hb' => by rw [← Option.some.inj hb']; exact hb⟩
  obtain ⟨b, eb, hb⟩ := hb
  cases opts with
  | none =>
    obtain ⟨t, et, ht⟩ := triangulateAll_ok (M := M) h.u_good.eps_nonneg h1
      (fun x hx => evaluateSurface_ok (M := M) h hw x hx) hb
    refine ⟨t, fun fuel _ => ?_, ht⟩
    rw [tessellateSurface, e, ok_bind]
    simp only [Option.isSome_none, Bool.false_eq_true, if_false]
    rw [show (pure nodes : Res (List (Node K W))) = .ok nodes from rfl, ok_bind, eb, ok_bind, et]
  | some o =>
    obtain ⟨t, et, ht⟩ := triangulateAll_ok (M := M) h.u_good.eps_nonneg h2
      (fun x hx => evaluateSurface_ok (M := M) h hw x hx) hb
    refine ⟨t, fun fuel hf => ?_, ht⟩
    rw [tessellateSurface, e, ok_bind]
    simp only [Option.isSome_some, if_true]
    rw [e' fuel (hf o rfl), ok_bind, eb, ok_bind, et]

/-- The subdivision terminates with a tree that does not depend on the bound of the recursion. Each leaf results from a cell
    of the grid by a number of halvings between `min_depth` and `max(min_depth, max_depth)`. -/
theorem C46_depth {M : Metric K W} {eps : K} {S : Surface K (W × K)} (h : S.Good eps)
    (hw : ∀ row ∈ S.cps, ∀ p ∈ row, 0 < p.2) (hd : GridDegrees S)
    (c : Option (Constraints K)) (hc : ∀ cs, c = some cs → ConstraintsOK S cs) (o : Options K) :
    ∃ (nodes N : List (Node K W)) (du dv : ℕ) (rss : List (List (Rect K))),
      adaptiveGrid M eps S c o = .ok (nodes, du, dv) ∧
      (∀ fuel, max o.minDepth o.maxDepth < fuel →
        divideAll M (evaluateSurface M eps S) o S.uDegree fuel du dv nodes = .ok N) ∧
      List.Forall₂ (Halvings o.minDepth (max o.minDepth o.maxDepth) 0) (leafRects nodes) rss ∧
      (leafRects N).Perm rss.flatten ∧
      (∀ r ∈ leafRects N, ∃ g ∈ leafRects nodes, ∃ k, o.minDepth ≤ k ∧ k ≤ max o.minDepth o.maxDepth ∧
        r.Sub g ∧ r.area * 2 ^ k = g.area) ∧
      (leafRects N).length ≤ du * dv * 2 ^ max o.minDepth o.maxDepth := by
  obtain ⟨nodes, N, du, dv, rss, top, e, e', h1, h2, t1, t2, hl, f, pm, -⟩ := surface_tree (M := M) h hw hd.1 hd.2 c hc o
  refine ⟨nodes, N, du, dv, rss, e, e', f, pm, ?_, ?_⟩
  · intro r hr
    obtain ⟨rs, hrs, hr⟩ := List.mem_flatten.1 (pm.mem_iff.1 hr)
    obtain ⟨k, hk, rfl⟩ := List.getElem_of_mem hrs
    have hk' : k < (leafRects nodes).length := by rw [f.length_eq]; exact hk
    have hh := f.get hk' hk
    simp only [List.get_eq_getElem] at hh
    obtain ⟨j, j1, j2, j3⟩ := hh.area r hr
    rw [Nat.zero_add] at j1 j2
    exact ⟨_, List.getElem_mem hk', j, j1, j2, (hh.tiles (t1.pos _ (List.getElem_mem hk'))).sub r hr, j3⟩
  · rw [pm.length_eq, List.length_flatten]
    have : ∀ (a : List (Rect K)) (b : List (List (Rect K))),
        List.Forall₂ (Halvings o.minDepth (max o.minDepth o.maxDepth) 0) a b →
          (b.map List.length).sum ≤ a.length * 2 ^ max o.minDepth o.maxDepth := by
      intro a b hab
      induction hab with
      | nil => simp
      | cons hx _ ih =>
        rw [List.map_cons, List.sum_cons, List.length_cons, Nat.succ_mul]
        have := hx.length_le.2
        rw [Nat.sub_zero] at this
        omega
    rw [← hl]
    exact this _ _ f

/-- The leaves of the initial grid, and of the tree after the subdivision, tile the domain of the surface. -/
theorem C63_leaves_tile {M : Metric K W} {eps : K} {S : Surface K (W × K)} (h : S.Good eps)
    (hw : ∀ row ∈ S.cps, ∀ p ∈ row, 0 < p.2) (hd : GridDegrees S)
    (c : Option (Constraints K)) (hc : ∀ cs, c = some cs → ConstraintsOK S cs) (o : Options K) :
    ∃ (nodes N : List (Node K W)) (du dv : ℕ), adaptiveGrid M eps S c o = .ok (nodes, du, dv) ∧
      (∀ fuel, max o.minDepth o.maxDepth < fuel →
        divideAll M (evaluateSurface M eps S) o S.uDegree fuel du dv nodes = .ok N) ∧
      Tiles (domRect S) (leafRects nodes) ∧ Tiles (domRect S) (leafRects N) ∧
      ∀ n ∈ N, n.children = none →
        (∀ e, (n.corners e).uv = (nodeRect n).corner e ∧ (n.corners e).point = surfPoint S ((nodeRect n).corner e)) := by
  obtain ⟨nodes, N, du, dv, rss, top, e, e', h1, h2, t1, t2, -⟩ := surface_tree (M := M) h hw hd.1 hd.2 c hc o
  refine ⟨nodes, N, du, dv, e, e', t1, t2, ?_⟩
  intro n hn _ e
  obtain ⟨i, hi⟩ := List.mem_iff_getElem?.1 hn
  exact ⟨(h2 i n hi).corner e, (h2 i n hi).point e⟩

/-- No T-junctions: a corner of a leaf that lies strictly inside (by more than the tolerance) an edge of another leaf is a
    vertex of the polygon of that leaf, with the same parameter and the same point.  The exception are the western edges
    (not on the boundary of the domain) of leaves in the top row of the grid, see `C68_crack`. -/
theorem C68_no_t_junction {M : Metric K W} {eps : K} {S : Surface K (W × K)} (h : S.Good eps)
    (hw : ∀ row ∈ S.cps, ∀ p ∈ row, 0 < p.2) (hd : GridDegrees S)
    (c : Option (Constraints K)) (hc : ∀ cs, c = some cs → ConstraintsOK S cs) (o : Options K) :
    ∃ (nodes N : List (Node K W)) (du dv : ℕ) (top : K), adaptiveGrid M eps S c o = .ok (nodes, du, dv) ∧
      (∀ fuel, max o.minDepth o.maxDepth < fuel →
        divideAll M (evaluateSurface M eps S) o S.uDegree fuel du dv nodes = .ok N) ∧
      (top < S.vhi ∧ ∀ r ∈ leafRects nodes, r.v1 = S.vhi → r.v0 = top) ∧
      ∀ n ∈ N, n.children = none → ∃ l : Fin 4 → List (SPoint K W),
        (∀ e, getAllCorners eps N n e = .ok (n.corners e :: l e)) ∧
        ∀ m ∈ N, m.children = none → ∀ e f : Fin 4,
          (e = 3 → (nodeRect n).v0 < top ∨ (nodeRect n).u0 = S.ulo) →
          Rect.across e (m.corners f).uv = (nodeRect n).line e →
          (nodeRect n).lo e + eps < Rect.along e (m.corners f).uv →
          Rect.along e (m.corners f).uv < (nodeRect n).hi e - eps →
          ∃ v ∈ l e, v.uv = (m.corners f).uv ∧ v.point = (m.corners f).point := by
  obtain ⟨nodes, N, du, dv, rss, top, e, e', h1, h2, t1, t2, hl, f, pm, ht, -⟩ := surface_tree (M := M) h hw hd.1 hd.2 c hc o
  refine ⟨nodes, N, du, dv, top, e, e', ht, ?_⟩
  intro n hn hnl
  obtain ⟨i, hi⟩ := List.mem_iff_getElem?.1 hn
  have hall := fun e => all_corners h.u_good.eps_nonneg h2 hi e
  choose l hl' _ _ using hall
  refine ⟨l, hl', ?_⟩
  intro m hm hml e f hex g1 g2 g3
  obtain ⟨k, hk⟩ := List.mem_iff_getElem?.1 hm
  obtain ⟨l', a1, v, a2, a3⟩ := no_t_junction h.u_good.eps_nonneg h2 (leavesDisjoint_of_tiles t2) hi hk hnl hml e f (by
    rintro ⟨rfl, b1, b2⟩
    rcases (h2 i n hi).boundary 3 b1 with b3 | ⟨-, b3⟩
    · exact b2 b3
    · rcases hex rfl with b4 | b4
      · exact absurd b3 (not_le.2 b4)
      · exact b2 b4) (by rw [← g1]; fin_cases e <;> rfl) (by convert g2 using 1; fin_cases e <;> rfl)
      (by convert g3 using 1; fin_cases e <;> rfl)
  have := hl' e
  rw [a1] at this
  have := (List.cons.inj (Except.ok.inj this)).2
  rw [this] at a2
  exact ⟨v, a2, a3⟩

/-! ### Witnesses -/

/-- A sheet of two bilinear patches, the first one twisted. -/
def exSheet : Surface ℚ ((ℚ × ℚ × ℚ) × ℚ) where
  uDegree := 1
  vDegree := 1
  uKnots := [0, 0, 1, 2, 2]
  vKnots := [0, 0, 1, 1]
  cps := [[((0, 0, 0), 1), ((0, 1, 1), 1)], [((1, 0, 0), 1), ((1, 1, 0), 1)], [((2, 0, 0), 1), ((2, 1, 0), 1)]]

/-- Vectors of space, without normalisation. -/
def spaceMetric : Metric ℚ (ℚ × ℚ × ℚ) where
  cross := fun a b => (a.2.1 * b.2.2 - a.2.2 * b.2.1, a.2.2 * b.1 - a.1 * b.2.2, a.1 * b.2.1 - a.2.1 * b.1)
  normalize := id
  normSq := fun v => v.1 * v.1 + v.2.1 * v.2.1 + v.2.2 * v.2.2
  flat := fun _ _ _ _ => true

theorem exSheet_good : exSheet.Good (1/1000) where
  rows_pos := by decide
  u_len := by decide
  u_good := ⟨by norm_num, by decide, mono_of_sorted (by decide +kernel) (by decide), by decide +kernel, by decide +kernel,
    by decide +kernel, by decide +kernel⟩
  cols_pos := by decide
  v_good := ⟨by norm_num, by decide, mono_of_sorted (by decide +kernel) (by decide), by decide +kernel, by decide +kernel,
    by decide +kernel, by decide +kernel⟩
  rect := by decide

theorem exSheet_weights : ∀ row ∈ exSheet.cps, ∀ p ∈ row, 0 < p.2 := by decide +kernel

theorem exSheet_degrees : GridDegrees exSheet := by
  refine ⟨.inr ⟨rfl, ?_⟩, .inr ⟨rfl, ?_⟩⟩
  · intro i h1 h2
    replace h2 : i < 3 := h2
    rcases i with _ | _ | _ | i <;> first | omega | decide +kernel
  · intro i h1 h2
    replace h2 : i < 2 := h2
    rcases i with _ | _ | _ | i <;> first | omega | decide +kernel

def exConstraints : Constraints ℚ := { uAtVMin := some [0, 1/2, 2], vAtUMax := some [1/3] }

theorem exConstraints_ok : ConstraintsOK exSheet exConstraints := by
  constructor
  · rintro l (hl | hl)
    · obtain rfl := Option.some.inj hl
      exact ⟨by simp, by decide +kernel, by decide +kernel⟩
    · cases hl
  · rintro l (hl | hl)
    · cases hl
    · obtain rfl := Option.some.inj hl
      exact ⟨by simp, by decide +kernel, by decide +kernel⟩

example (o dflt : Options ℚ) := C45_mesh_valid (M := spaceMetric) exSheet_good exSheet_weights exSheet_degrees
  (some exConstraints) (fun cs h => by rw [← Option.some.inj h]; exact exConstraints_ok) (some o) dflt
example (o : Options ℚ) := C46_depth (M := spaceMetric) exSheet_good exSheet_weights exSheet_degrees none (by simp) o
example (o : Options ℚ) := C63_leaves_tile (M := spaceMetric) exSheet_good exSheet_weights exSheet_degrees none (by simp) o
example (o : Options ℚ) := C68_no_t_junction (M := spaceMetric) exSheet_good exSheet_weights exSheet_degrees none (by simp) o

/-- The hypotheses of `C45_leaf` hold for the leaves of the tree of the sheet. -/
example (o : Options ℚ) : ∃ (N : List (Node ℚ (ℚ × ℚ × ℚ))) (n : Node ℚ (ℚ × ℚ × ℚ))
    (t' : Surface.Tessellation ℚ (ℚ × ℚ × ℚ)) (k : ℕ), n ∈ N ∧
    triangulate spaceMetric (1/1000) (evaluateSurface spaceMetric (1/1000) exSheet) N none ⟨[], [], [], []⟩ n = .ok t' ∧
    4 ≤ k ∧ t'.faces.length = 0 + (if k ≤ 5 then k - 2 else k) := by
  obtain ⟨nodes, N, du, dv, rss, top, e, e', h1, h2, t1, t2, -⟩ := surface_tree (M := spaceMetric) exSheet_good
    exSheet_weights exSheet_degrees.1 exSheet_degrees.2 none (by simp) o
  obtain ⟨r, hr, -⟩ := t2.cover (0, 0) (by unfold Rect.Mem domRect; decide +kernel)
  rw [leafRects, List.mem_map] at hr
  obtain ⟨n, hn, rfl⟩ := hr
  obtain ⟨hn, hl⟩ := List.mem_filter.1 hn
  obtain ⟨i, hi⟩ := List.mem_iff_getElem?.1 hn
  obtain ⟨t', k, a, -, b, -, c⟩ := C45_leaf (M := spaceMetric) (eps := 1/1000) (b := none) (t := ⟨[], [], [], []⟩)
    (by norm_num) h2 hi (by simpa [Node.isLeaf] using hl)
    (fun x hx => evaluateSurface_ok (M := spaceMetric) exSheet_good exSheet_weights x hx) (by simp)
    ⟨rfl, rfl, rfl, by simp, by simp⟩
  exact ⟨N, n, t', k, hn, a, b, c⟩

/-- The exception of `C68_no_t_junction` occurs: in the tessellation of the sheet the first cell is divided, the second one
    is not, and the triangle `(0, 1, 3)` of the second cell has an edge from `(1, 0)` to `(1, 1)` although the mesh has the
    vertex `(1, 1/2)`. -/
theorem C68_crack : ∃ t, tessellateSurface spaceMetric (1/1000) 3 exSheet none
      (some { normTolerance := 1/100, maxDepth := 2 }) { normTolerance := 1/100 } = .ok t ∧
    (0, 1, 3) ∈ t.faces ∧ t.uvs[0]? = some (1, 0) ∧ t.uvs[1]? = some (2, 0) ∧ t.uvs[3]? = some (1, 1) ∧
    (1, 1/2) ∈ t.uvs := by
  have h : (tessellateSurface spaceMetric (1/1000) 3 exSheet none
      (some { normTolerance := 1/100, maxDepth := 2 }) { normTolerance := 1/100 }).map (fun t => (t.uvs, t.faces)) =
    .ok ([(1, 0), (2, 0), (2, 1), (1, 1), (0, 0), (1/2, 0), (1/2, 1/2), (0, 1/2), (0, 1/2), (1/2, 1/2), (1/2, 1), (0, 1),
      (1/2, 0), (1, 0), (1, 1/2), (1/2, 1/2), (1/2, 1/2), (1, 1/2), (1, 1), (1/2, 1)],
      [(0, 1, 3), (3, 1, 2), (4, 5, 7), (7, 5, 6), (8, 9, 11), (11, 9, 10), (12, 13, 15), (15, 13, 14), (16, 17, 19),
      (19, 17, 18)]) := by decide +kernel
  cases ht : tessellateSurface spaceMetric (1/1000) 3 exSheet none
      (some { normTolerance := 1/100, maxDepth := 2 }) { normTolerance := 1/100 } with
  | error e => rw [ht] at h; cases h
  | ok t =>
    rw [ht] at h
    have := Except.ok.inj h
    have h1 : t.uvs = _ := congrArg Prod.fst this
    have h2 : t.faces = _ := congrArg Prod.snd this
    refine ⟨t, rfl, ?_⟩
    rw [h1, h2]
    refine ⟨by simp, rfl, rfl, rfl, by decide +kernel⟩

end Curvo.Props

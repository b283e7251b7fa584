/-
  Property theorems about the mesh of the adaptive surface tessellation: C45 (indices), C46, C63, C68.
-/
import Verif.Props.TessSurface
import Verif.Lemmas.Net
import Verif.Props.Isocurve

set_option linter.unusedSectionVars false

namespace Curvo.Props

open Curvo Curvo.Tess Curvo.Spec

variable {K : Type} [Field K] [LinearOrder K] [IsStrictOrderedRing K] {W : Type} [AddCommGroup W]

/-- A valid mesh of the parametrised surface `pt` over `dom`: the arrays have equal lengths, the vertices are the points at
    their parameters, the parameters lie in `dom`, the faces refer to existing vertices. -/
structure MeshOK (pt : K × K → W) (dom : Rect K) (t : Surface.Tessellation K W) : Prop where
  normals : t.normals.length = t.points.length
  uvs : t.uvs.length = t.points.length
  points : t.points = t.uvs.map pt
  inside : ∀ x ∈ t.uvs, dom.Mem x
  faces : ∀ f ∈ t.faces, f.1 < t.points.length ∧ f.2.1 < t.points.length ∧ f.2.2 < t.points.length

theorem polygonFaces_length {base n s : ℕ} (hn : 4 ≤ n) :
    (polygonFaces base n s).length = if n ≤ 5 then n - 2 else n := by
  unfold polygonFaces
  split_ifs <;> simp <;> omega

theorem polygonFaces_range {base n s : ℕ} (hn : 4 ≤ n) (hs : n = 5 → s < 5) :
    ∀ f ∈ polygonFaces base n s, f.1 < base + (if n ≤ 5 then n else n + 1) ∧
      f.2.1 < base + (if n ≤ 5 then n else n + 1) ∧ f.2.2 < base + (if n ≤ 5 then n else n + 1) := by
  intro f hf
  unfold polygonFaces at hf
  split_ifs at hf with h1 h2
  · subst h1
    simp only [List.mem_cons, List.not_mem_nil, or_false] at hf
    rcases hf with rfl | rfl <;> simp
  · subst h2
    have hs := hs rfl
    simp only [List.mem_cons, List.not_mem_nil, or_false] at hf
    have m1 := Nat.mod_lt (s + 1) (show 0 < 5 by omega)
    have m2 := Nat.mod_lt (s + 2) (show 0 < 5 by omega)
    have m3 := Nat.mod_lt (s + 3) (show 0 < 5 by omega)
    have m4 := Nat.mod_lt (s + 4) (show 0 < 5 by omega)
    rw [if_pos (le_refl 5)]
    rcases hf with rfl | rfl | rfl
    · exact ⟨by simp only []; omega, by simp only []; omega, by simp only []; omega⟩
    · exact ⟨by simp only []; omega, by simp only []; omega, by simp only []; omega⟩
    · exact ⟨by simp only []; omega, by simp only []; omega, by simp only []; omega⟩
  · obtain ⟨i, hi, rfl⟩ := List.mem_map.1 hf
    have hi := List.mem_range.1 hi
    rw [if_neg (show ¬ n ≤ 5 by omega)]
    refine ⟨by simp only []; omega, ?_, by simp only []; omega⟩
    simp only []
    split_ifs <;> omega

theorem splitId_lt {α : Type} (cs : List (List α)) (h : cs.length = 4) : splitId cs < 5 := by
  unfold splitId
  split
  · rename_i i hi
    have := (List.findIdx?_eq_some_iff_findIdx_eq.1 hi).1
    omega
  · omega

/-- A surface point that lies on the surface, at a parameter of the domain. -/
def OnSurface (pt : K × K → W) (dom : Rect K) (p : SPoint K W) : Prop := p.point = pt p.uv ∧ dom.Mem p.uv

/-- All lists of a boundary evaluation are non empty lists of points of the surface. -/
def BoundaryOK (pt : K × K → W) (dom : Rect K) (b : BoundaryEval K W) : Prop :=
  ∀ l, (b.uAtVMin = some l ∨ b.uAtVMax = some l ∨ b.vAtUMin = some l ∨ b.vAtUMax = some l) →
    l ≠ [] ∧ ∀ q ∈ l, OnSurface pt dom q

theorem minBy_mem {α : Type} (key : α → K) {l : List α} {a : α} (h : minBy key l = some a) : a ∈ l := by
  cases l with
  | nil => cases h
  | cons b l =>
    obtain rfl := Option.some.inj h
    have : ∀ (l : List α) (b : α), l.foldl (fun best x => if key x < key best then x else best) b ∈ b :: l := by
      intro l
      induction l with
      | nil => intro b; simp
      | cons c l ih =>
        intro b
        rw [List.foldl_cons]
        have := ih (if key c < key b then c else b)
        split_ifs at this ⊢ with hc
        · exact List.mem_cons_of_mem _ this
        · rcases List.mem_cons.1 this with h | h
          · rw [h]; simp
          · simp [h]
    exact this l b

theorem closestPoint_ok {M : Metric K W} {p : SPoint K W} {l : List (SPoint K W)} (h : l ≠ []) :
    ∃ q, closestPoint M p l = .ok q ∧ q ∈ l := by
  cases l with
  | nil => exact absurd rfl h
  | cons a l => exact ⟨_, rfl, minBy_mem (fun q : SPoint K W => M.normSq (q.point - p.point)) rfl⟩

theorem snap_ok {pt : K × K → W} {dom : Rect K} {M : Metric K W} {b : BoundaryEval K W} (hb : BoundaryOK pt dom b)
    {p : SPoint K W} (hp : OnSurface pt dom p) : ∃ q, snap M b p = .ok q ∧ OnSurface pt dom q := by
  have aux : ∀ (c : Bool) (o : Option (List (SPoint K W))) (l : List (SPoint K W)),
      (if c then o else none) = some l → o = some l := by
    intro c o l h
    split_ifs at h
    exact h
  have aux' : ∀ l, (b.uAtVMin = some l ∨ b.uAtVMax = some l ∨ b.vAtUMin = some l ∨ b.vAtUMax = some l) →
      ∃ q, closestPoint M p l = .ok q ∧ OnSurface pt dom q := by
    intro l hl
    obtain ⟨h1, h2⟩ := hb l hl
    obtain ⟨q, e, hq⟩ := closestPoint_ok (M := M) (p := p) h1
    exact ⟨q, e, h2 q hq⟩
  unfold snap
  split
  · rename_i ps h
    exact aux' _ (.inl (aux _ _ _ h))
  · split
    · rename_i ps h
      exact aux' _ (.inr (.inl (aux _ _ _ h)))
    · split
      · rename_i ps h
        exact aux' _ (.inr (.inr (.inl (aux _ _ _ h))))
      · split
        · rename_i ps h
          exact aux' _ (.inr (.inr (.inr (aux _ _ _ h))))
        · exact ⟨p, rfl, hp⟩

/-- The vertices of a leaf before snapping: the four corners with the vertices of the edges between them. -/
def leafPolygon (n : Node K W) (l : Fin 4 → List (SPoint K W)) : List (SPoint K W) :=
  (n.corners 0 :: l 0) ++ ((n.corners 1 :: l 1) ++ ((n.corners 2 :: l 2) ++ (n.corners 3 :: l 3)))

theorem leafPolygon_on {pt : K × K → W} {dom : Rect K} {top eps : K} (he : 0 ≤ eps) {N : List (Node K W)} {i : ℕ}
    {n : Node K W} (hn : NodeOK pt dom top N i n) {l : Fin 4 → List (SPoint K W)}
    (hl : ∀ e, EdgeVertices pt eps N n e (l e)) : ∀ p ∈ leafPolygon n l, OnSurface pt dom p := by
  obtain ⟨p1, p2⟩ := hn.pos
  obtain ⟨s1, s2, s3, s4⟩ := hn.sub
  have hc : ∀ e, OnSurface pt dom (n.corners e) := by
    intro e
    refine ⟨by rw [hn.point, hn.corner], ?_⟩
    rw [hn.corner]
    fin_cases e
    · exact ⟨s1, p1.le.trans s2, s3, p2.le.trans s4⟩
    · exact ⟨s1.trans p1.le, s2, s3, p2.le.trans s4⟩
    · exact ⟨s1.trans p1.le, s2, s3.trans p2.le, s4⟩
    · exact ⟨s1, p1.le.trans s2, s3.trans p2.le, s4⟩
  have hv : ∀ e, ∀ p ∈ l e, OnSurface pt dom p := by
    intro e p hp
    refine ⟨(hl e).point p hp, ?_⟩
    have a := (hl e).line p hp
    obtain ⟨b, c⟩ := (hl e).inside p hp
    fin_cases e
    · replace a : p.uv.2 = (nodeRect n).v0 := a
      replace b : (nodeRect n).u0 + eps < p.uv.1 := b
      replace c : p.uv.1 < (nodeRect n).u1 - eps := c
      exact ⟨by linarith, by linarith, by linarith, by linarith⟩
    · replace a : p.uv.1 = (nodeRect n).u1 := a
      replace b : (nodeRect n).v0 + eps < p.uv.2 := b
      replace c : p.uv.2 < (nodeRect n).v1 - eps := c
      exact ⟨by linarith, by linarith, by linarith, by linarith⟩
    · replace a : p.uv.2 = (nodeRect n).v1 := a
      replace b : (nodeRect n).u0 + eps < p.uv.1 := b
      replace c : p.uv.1 < (nodeRect n).u1 - eps := c
      exact ⟨by linarith, by linarith, by linarith, by linarith⟩
    · replace a : p.uv.1 = (nodeRect n).u0 := a
      replace b : (nodeRect n).v0 + eps < p.uv.2 := b
      replace c : p.uv.2 < (nodeRect n).v1 - eps := c
      exact ⟨by linarith, by linarith, by linarith, by linarith⟩
  intro p hp
  simp only [leafPolygon, List.mem_append, List.mem_cons] at hp
  rcases hp with (rfl | h) | (rfl | h) | (rfl | h) | rfl | h
  exacts [hc 0, hv 0 p h, hc 1, hv 1 p h, hc 2, hv 2 p h, hc 3, hv 3 p h]

/-- The triangulation of one leaf. -/
theorem triangulate_leaf {pt : K × K → W} {dom : Rect K} {top eps : K} (he : 0 ≤ eps) {M : Metric K W}
    {ev : K × K → Res (SPoint K W)} {N : List (Node K W)} (hN : TreeOK pt dom top N) {i : ℕ} {n : Node K W}
    (hi : N[i]? = some n) (hl : n.children = none)
    (hev : ∀ x, dom.Mem x → ∃ p, ev x = .ok p ∧ p.uv = x ∧ p.point = pt x)
    {b : Option (BoundaryEval K W)} (hb : ∀ b', b = some b' → BoundaryOK pt dom b') (t : Surface.Tessellation K W) :
    ∃ (l : Fin 4 → List (SPoint K W)) (pts : List (SPoint K W)) (c : SPoint K W) (t' : Surface.Tessellation K W) (s : ℕ),
      (∀ e, getAllCorners eps N n e = .ok (n.corners e :: l e) ∧ EdgeVertices pt eps N n e (l e)) ∧
      pts.length = (leafPolygon n l).length ∧ (b = none → pts = leafPolygon n l) ∧ (∀ p ∈ pts, OnSurface pt dom p) ∧
      s = splitId ([0, 1, 2, 3].map fun e : Fin 4 => n.corners e :: l e) ∧
      c.uv = n.uvCenter ∧ OnSurface pt dom c ∧
      triangulate M eps ev N b t n = .ok t' ∧
      t'.points = t.points ++ (pts ++ if pts.length ≤ 5 then [] else [c]).map SPoint.point ∧
      t'.normals = t.normals ++ (pts ++ if pts.length ≤ 5 then [] else [c]).map SPoint.normal ∧
      t'.uvs = t.uvs ++ (pts ++ if pts.length ≤ 5 then [] else [c]).map SPoint.uv ∧
      t'.faces = t.faces ++ polygonFaces t.points.length pts.length s := by
  have hn := hN i n hi
  have hall := fun e => all_corners he hN hi e
  choose l h1 h2 _ using hall
  obtain ⟨s, hs⟩ : ∃ s, s = splitId ([0, 1, 2, 3].map fun e : Fin 4 => n.corners e :: l e) := ⟨_, rfl⟩
  have hs5 : s < 5 := by rw [hs]; exact splitId_lt _ rfl
  obtain ⟨m1, m2, m3, m4⟩ := Rect.mid_lt hn.pos
  obtain ⟨s1, s2, s3, s4⟩ := hn.sub
  have hcm : dom.Mem n.uvCenter := by
    rw [hn.center]
    exact ⟨s1.trans m1.le, m2.le.trans s2, s3.trans m3.le, m4.le.trans s4⟩
  obtain ⟨c, ec, ec1, ec2⟩ := hev n.uvCenter hcm
  have ec2 : OnSurface pt dom c := ⟨by rw [ec2, ec1], by rw [ec1]; exact hcm⟩
  have hon := leafPolygon_on he hn h2
  have hmap : ([0, 1, 2, 3] : List (Fin 4)).mapM (fun e => getAllCorners eps N n e) =
      .ok ([0, 1, 2, 3].map fun e : Fin 4 => n.corners e :: l e) := mapM_ok fun e _ => h1 e
  have hflat : ([0, 1, 2, 3].map fun e : Fin 4 => n.corners e :: l e).flatten = leafPolygon n l := by
    simp [leafPolygon]
  have hpts : ∃ pts : List (SPoint K W), snapAll M b (leafPolygon n l) = .ok pts ∧ pts.length = (leafPolygon n l).length ∧
      (b = none → pts = leafPolygon n l) ∧ ∀ p ∈ pts, OnSurface pt dom p := by
    cases b with
    | none => exact ⟨_, rfl, rfl, fun _ => rfl, hon⟩
    | some b =>
      obtain ⟨ys, e, f⟩ := mapM_exists (f := snap M b) (P := fun _ q => OnSurface pt dom q)
        (l := leafPolygon n l) (fun p hp => snap_ok (hb b rfl) (hon p hp))
      refine ⟨ys, e, f.length_eq.symm, fun h => by simp at h, ?_⟩
      intro q hq
      obtain ⟨k, hk, rfl⟩ := List.getElem_of_mem hq
      exact f.get (by rw [f.length_eq]; exact hk) hk
  obtain ⟨pts, e1, e2, e3, e4⟩ := hpts
  have hlen : 4 ≤ pts.length := by
    rw [e2, leafPolygon]
    simp only [List.length_append, List.length_cons]
    omega
  have hleaf : n.isLeaf = true := by simp [Node.isLeaf, hl]
  by_cases hk : pts.length = 4 ∨ pts.length = 5
  · refine ⟨l, pts, c, ⟨t.points ++ pts.map SPoint.point, t.normals ++ pts.map SPoint.normal,
        t.faces ++ polygonFaces t.points.length pts.length s, t.uvs ++ pts.map SPoint.uv⟩, s,
      fun e => ⟨h1 e, h2 e⟩, e2, e3, e4, hs, ec1, ec2, ?_, ?_, ?_, ?_, rfl⟩
    · rw [triangulate, if_pos hleaf, hmap, ok_bind]
      simp only [hflat]
      rw [e1, ok_bind]
      simp only [← hs]
      rw [if_pos hk, if_neg (by omega)]
      rfl
    all_goals simp only [if_pos (show pts.length ≤ 5 by omega), List.append_nil]
  · refine ⟨l, pts, c, ⟨t.points ++ pts.map SPoint.point ++ [c.point],
        t.normals ++ pts.map SPoint.normal ++ [c.normal],
        t.faces ++ polygonFaces t.points.length pts.length s, t.uvs ++ pts.map SPoint.uv ++ [c.uv]⟩, s,
      fun e => ⟨h1 e, h2 e⟩, e2, e3, e4, hs, ec1, ec2, ?_, ?_, ?_, ?_, rfl⟩
    · rw [triangulate, if_pos hleaf, hmap, ok_bind]
      simp only [hflat]
      rw [e1, ok_bind]
      simp only [← hs]
      rw [if_neg hk, ec, ok_bind, subR_eq_ok (by omega), ok_bind]
      rfl
    all_goals simp only [if_neg (show ¬ pts.length ≤ 5 by omega), List.map_append, List.map_cons, List.map_nil,
      List.append_assoc]

/-- Triangulating a leaf keeps a mesh valid; a leaf with `k` vertices gives `k - 2` triangles for `k ≤ 5` and `k` triangles
    around a centre otherwise. -/
theorem C45_leaf {pt : K × K → W} {dom : Rect K} {top eps : K} (he : 0 ≤ eps) {M : Metric K W}
    {ev : K × K → Res (SPoint K W)} {N : List (Node K W)} (hN : TreeOK pt dom top N) {i : ℕ} {n : Node K W}
    (hi : N[i]? = some n) (hl : n.children = none)
    (hev : ∀ x, dom.Mem x → ∃ p, ev x = .ok p ∧ p.uv = x ∧ p.point = pt x)
    {b : Option (BoundaryEval K W)} (hb : ∀ b', b = some b' → BoundaryOK pt dom b') {t : Surface.Tessellation K W}
    (ht : MeshOK pt dom t) :
    ∃ (t' : Surface.Tessellation K W) (k : ℕ), triangulate M eps ev N b t n = .ok t' ∧ MeshOK pt dom t' ∧ 4 ≤ k ∧
      t'.points.length = t.points.length + (if k ≤ 5 then k else k + 1) ∧
      t'.faces.length = t.faces.length + (if k ≤ 5 then k - 2 else k) := by
  obtain ⟨l, pts, c, t', s, -, e2, -, hon, hs, -, hcon, e, p1, p2, p3, p4⟩ := triangulate_leaf (M := M) he hN hi hl hev hb t
  have hlen : 4 ≤ pts.length := by
    rw [e2, leafPolygon]
    simp only [List.length_append, List.length_cons]
    omega
  have hs5 : s < 5 := by rw [hs]; exact splitId_lt _ rfl
  have hq : (pts ++ if pts.length ≤ 5 then [] else [c]).length = if pts.length ≤ 5 then pts.length else pts.length + 1 := by
    split_ifs <;> simp
  have l1 : t'.points.length = t.points.length + (if pts.length ≤ 5 then pts.length else pts.length + 1) := by
    rw [p1, List.length_append, List.length_map, hq]
  have hall : ∀ p ∈ pts ++ (if pts.length ≤ 5 then [] else [c]), OnSurface pt dom p := by
    intro p hp
    rcases List.mem_append.1 hp with h | h
    · exact hon p h
    · split_ifs at h
      · simp at h
      · rw [List.mem_singleton.1 h]; exact hcon
  refine ⟨t', pts.length, e, ⟨?_, ?_, ?_, ?_, ?_⟩, hlen, l1, ?_⟩
  · rw [l1, p2, List.length_append, List.length_map, hq, ht.normals]
  · rw [l1, p3, List.length_append, List.length_map, hq, ht.uvs]
  · rw [p1, p3, ht.points, List.map_append (f := pt), List.map_map]
    congr 1
    apply List.map_congr_left
    intro p hp
    exact (hall p hp).1
  · intro x hx
    rw [p3, List.mem_append, List.mem_map] at hx
    rcases hx with hx | ⟨p, hp, rfl⟩
    · exact ht.inside x hx
    · exact (hall p hp).2
  · intro f hf
    rw [p4] at hf
    rcases List.mem_append.1 hf with hf | hf
    · obtain ⟨a, b, c⟩ := ht.faces f hf
      rw [l1]
      exact ⟨by omega, by omega, by omega⟩
    · rw [l1]
      exact polygonFaces_range hlen (fun _ => hs5) f hf
  · rw [p4, List.length_append, polygonFaces_length hlen]

/-- Triangulating all nodes. -/
theorem triangulateAll_ok {pt : K × K → W} {dom : Rect K} {top eps : K} (he : 0 ≤ eps) {M : Metric K W}
    {ev : K × K → Res (SPoint K W)} {N : List (Node K W)} (hN : TreeOK pt dom top N)
    (hev : ∀ x, dom.Mem x → ∃ p, ev x = .ok p ∧ p.uv = x ∧ p.point = pt x)
    {b : Option (BoundaryEval K W)} (hb : ∀ b', b = some b' → BoundaryOK pt dom b') :
    ∃ t, triangulateAll M eps ev N b = .ok t ∧ MeshOK pt dom t := by
  have key : ∀ (L : List (Node K W)) (t : Surface.Tessellation K W), (∀ n ∈ L, n ∈ N) → MeshOK pt dom t →
      ∃ t', L.foldlM (triangulate M eps ev N b) t = .ok t' ∧ MeshOK pt dom t' := by
    intro L
    induction L with
    | nil => intro t _ ht; exact ⟨t, rfl, ht⟩
    | cons n L ih =>
      intro t hL ht
      have hstep : ∃ t', triangulate M eps ev N b t n = .ok t' ∧ MeshOK pt dom t' := by
        cases hc : n.children with
        | some c =>
          refine ⟨t, ?_, ht⟩
          have : ¬ n.isLeaf = true := by simp [Node.isLeaf, hc]
          rw [triangulate, if_neg this]
          rfl
        | none =>
          obtain ⟨i, hi⟩ := List.mem_iff_getElem?.1 (hL n (by simp))
          obtain ⟨t', -, e, h', -⟩ := C45_leaf (M := M) he hN hi hc hev hb ht
          exact ⟨t', e, h'⟩
      obtain ⟨t1, e1, h1⟩ := hstep
      obtain ⟨t2, e2, h2⟩ := ih t1 (fun m hm => hL m (List.mem_cons_of_mem _ hm)) h1
      exact ⟨t2, by rw [List.foldlM_cons, e1, ok_bind, e2], h2⟩
  exact key N _ (fun _ h => h) ⟨rfl, rfl, rfl, by simp, by simp⟩

/-! ### Surfaces -/

/-- The recursion does not depend on the fuel. -/
theorem iterate_mono {M : Metric K W} {ev : K × K → Res (SPoint K W)} {o : Options K} : ∀ {fuel : ℕ} {N N' : List (Node K W)}
    {id depth : ℕ} {dir : UV}, iterate M ev o fuel N id depth dir = .ok N' → ∀ fuel', fuel ≤ fuel' →
      iterate M ev o fuel' N id depth dir = .ok N'
  | 0, _, _, _, _, _, h, _, _ => by cases h
  | fuel + 1, N, N', id, depth, dir, h, 0, hf => by omega
  | fuel + 1, N, N', id, depth, dir, h, fuel' + 1, hf => by
    rw [iterate] at h ⊢
    obtain ⟨node, e1, h⟩ := bind_eq_ok.1 h
    rw [e1, ok_bind]
    generalize node.shouldDivide M o depth = r at h ⊢
    obtain ⟨node', d⟩ := r
    cases d with
    | none => exact h
    | some d =>
      obtain ⟨cc, e2, h⟩ := bind_eq_ok.1 h
      obtain ⟨N1, e3, h⟩ := bind_eq_ok.1 h
      obtain ⟨N2, e4, h⟩ := bind_eq_ok.1 h
      simp only []
      rw [e2, ok_bind, e3, ok_bind, iterate_mono e4 fuel' (by omega), ok_bind]
      exact iterate_mono h fuel' (by omega)

theorem divideAll_mono {M : Metric K W} {ev : K × K → Res (SPoint K W)} {o : Options K} {p fuel du dv : ℕ}
    {N N' : List (Node K W)} (h : divideAll M ev o p fuel du dv N = .ok N') {fuel' : ℕ} (hf : fuel ≤ fuel') :
    divideAll M ev o p fuel' du dv N = .ok N' := by
  rw [divideAll_eq] at h ⊢
  generalize List.range (dv * du) = L at h ⊢
  induction L generalizing N with
  | nil => exact h
  | cons i L ih =>
    rw [List.foldlM_cons] at h ⊢
    obtain ⟨N1, e, h⟩ := bind_eq_ok.1 h
    rw [show divide M ev o p fuel' N i = .ok N1 from iterate_mono e fuel' hf, ok_bind]
    exact ih h

section surface
variable [Module K W]

/-- Boundary constraints that make sense for a surface: non empty strictly increasing lists of parameters of the domain. -/
def ConstraintsOK (S : Surface K (W × K)) (c : Constraints K) : Prop :=
  (∀ l, (c.uAtVMin = some l ∨ c.uAtVMax = some l) → l ≠ [] ∧ l.Pairwise (· < ·) ∧ ∀ x ∈ l, S.ulo ≤ x ∧ x ≤ S.uhi) ∧
  (∀ l, (c.vAtUMin = some l ∨ c.vAtUMax = some l) → l ≠ [] ∧ l.Pairwise (· < ·) ∧ ∀ x ∈ l, S.vlo ≤ x ∧ x ≤ S.vhi)

theorem sortedParameters_ok {mn mx : Option (List K)} {lo hi : K}
    (h : ∀ l, (mn = some l ∨ mx = some l) → l ≠ [] ∧ l.Pairwise (· < ·) ∧ ∀ x ∈ l, lo ≤ x ∧ x ≤ hi) :
    ∀ l, sortedParameters mn mx = some l → l.Pairwise (· < ·) ∧ ∀ x ∈ l, lo ≤ x ∧ x ≤ hi := by
  intro l hl
  match mn, mx with
  | none, none => cases hl
  | none, some ma =>
    obtain rfl := Option.some.inj hl
    exact (h _ (.inr rfl)).2
  | some mi, none =>
    obtain rfl := Option.some.inj hl
    exact (h _ (.inl rfl)).2
  | some mi, some ma =>
    obtain ⟨l', e, h1, h2⟩ := C48_both_sides mi ma
    rw [e] at hl
    obtain rfl := Option.some.inj hl
    refine ⟨h1, fun x hx => ?_⟩
    rcases (h2 x).1 hx with hx | hx
    · exact (h _ (.inl rfl)).2.2 x hx
    · exact (h _ (.inr rfl)).2.2 x hx

theorem evaluateBoundary_ok {M : Metric K W} {eps : K} {S : Surface K (W × K)} (h : S.Good eps)
    (hw : ∀ row ∈ S.cps, ∀ p ∈ row, 0 < p.2) (x : K × K) (hx : (domRect S).Mem x) :
    ∃ p, evaluateBoundary M eps S x = .ok p ∧ OnSurface (surfPoint S) (domRect S) p := by
  obtain ⟨a, b, e⟩ := first_derivatives h hw hx
  have e' : evaluateBoundary M eps S x = .ok (⟨x, surfPoint S x, M.cross a b,
      decide (M.normSq (M.cross a b) < eps), false, false, false, false, false, false⟩ : SPoint K W) := by
    rw [evaluateBoundary, e, ok_bind]
    rfl
  exact ⟨_, e', rfl, hx⟩

theorem boundary_list {M : Metric K W} {eps : K} {S : Surface K (W × K)} (h : S.Good eps)
    (hw : ∀ row ∈ S.cps, ∀ p ∈ row, 0 < p.2) (f : K → K × K) (o : Option (List K))
    (ho : ∀ l, o = some l → l ≠ [] ∧ ∀ x ∈ l, (domRect S).Mem (f x)) :
    ∃ r, optMapM (fun us : List K => us.mapM fun u => evaluateBoundary M eps S (f u)) o = .ok r ∧
      ∀ l, r = some l → l ≠ [] ∧ ∀ q ∈ l, OnSurface (surfPoint S) (domRect S) q := by
  cases o with
  | none => exact ⟨none, rfl, by simp⟩
  | some us =>
    obtain ⟨h1, h2⟩ := ho us rfl
    obtain ⟨ys, e, g⟩ := mapM_exists (f := fun u => evaluateBoundary M eps S (f u))
      (P := fun _ q => OnSurface (surfPoint S) (domRect S) q) (l := us)
      (fun x hx => evaluateBoundary_ok h hw (f x) (h2 x hx))
    refine ⟨some ys, by rw [optMapM, e, ok_bind]; rfl, ?_⟩
    intro l hl
    obtain rfl := Option.some.inj hl
    refine ⟨?_, ?_⟩
    · rintro rfl
      have := g.length_eq
      exact h1 (List.length_eq_zero_iff.1 this)
    · intro q hq
      obtain ⟨k, hk, rfl⟩ := List.getElem_of_mem hq
      exact g.get (by rw [g.length_eq]; exact hk) hk

theorem dom_le {eps : K} {k : ℕ → K} {p n m : ℕ} (h : GoodKnots eps k p n) (hm : n + 1 = m) : k p ≤ k m := by
  subst hm
  exact h.mono _ _ (by have := h.le; omega) (by omega)

theorem boundaryEval_ok {M : Metric K W} {eps : K} {S : Surface K (W × K)} (h : S.Good eps)
    (hw : ∀ row ∈ S.cps, ∀ p ∈ row, 0 < p.2) {c : Constraints K} (hc : ConstraintsOK S c) :
    ∃ b, BoundaryEval.new M eps S c = .ok b ∧ BoundaryOK (surfPoint S) (domRect S) b := by
  have du : S.uDomain = .ok (S.ulo, S.uhi) := u_domain_eq h
  have dv : S.vDomain = .ok (S.vlo, S.vhi) := v_domain_eq h
  have hu : S.ulo ≤ S.uhi := dom_le h.u_good (by have := h.rows_pos; omega)
  have hv : S.vlo ≤ S.vhi := dom_le h.v_good (by have := h.cols_pos; omega)
  obtain ⟨r1, e1, h1⟩ := boundary_list (M := M) h hw (fun u => (u, S.vlo)) c.uAtVMin
    (fun l hl => ⟨(hc.1 l (.inl hl)).1, fun x hx => ⟨((hc.1 l (.inl hl)).2.2 x hx).1, ((hc.1 l (.inl hl)).2.2 x hx).2, le_refl _, hv⟩⟩)
  obtain ⟨r2, e2, h2⟩ := boundary_list (M := M) h hw (fun u => (u, S.vhi)) c.uAtVMax
    (fun l hl => ⟨(hc.1 l (.inr hl)).1, fun x hx => ⟨((hc.1 l (.inr hl)).2.2 x hx).1, ((hc.1 l (.inr hl)).2.2 x hx).2, hv, le_refl _⟩⟩)
  obtain ⟨r3, e3, h3⟩ := boundary_list (M := M) h hw (fun v => (S.ulo, v)) c.vAtUMin
    (fun l hl => ⟨(hc.2 l (.inl hl)).1, fun x hx => ⟨le_refl _, hu, ((hc.2 l (.inl hl)).2.2 x hx).1, ((hc.2 l (.inl hl)).2.2 x hx).2⟩⟩)
  obtain ⟨r4, e4, h4⟩ := boundary_list (M := M) h hw (fun v => (S.uhi, v)) c.vAtUMax
    (fun l hl => ⟨(hc.2 l (.inr hl)).1, fun x hx => ⟨hu, le_refl _, ((hc.2 l (.inr hl)).2.2 x hx).1, ((hc.2 l (.inr hl)).2.2 x hx).2⟩⟩)
  refine ⟨⟨r1, r2, r3, r4⟩, ?_, ?_⟩
  · rw [BoundaryEval.new, du, ok_bind]
    simp only []
    rw [dv, ok_bind]
    simp only []
    rw [e1, ok_bind, e2, ok_bind, e3, ok_bind, e4, ok_bind]
    rfl
  · rintro l (hl | hl | hl | hl)
    exacts [h1 l hl, h2 l hl, h3 l hl, h4 l hl]

/-- The grid of a surface and the tree of its subdivision. -/
theorem surface_tree {M : Metric K W} {eps : K} {S : Surface K (W × K)} (h : S.Good eps)
    (hw : ∀ row ∈ S.cps, ∀ p ∈ row, 0 < p.2)
    (hpu : 2 ≤ S.uDegree ∨ (S.uDegree = 1 ∧ ∀ i, 1 ≤ i → i < S.cps.length → kf S.uKnots i < kf S.uKnots (i + 1)))
    (hpv : 2 ≤ S.vDegree ∨ (S.vDegree = 1 ∧ ∀ i, 1 ≤ i → i < S.cols → kf S.vKnots i < kf S.vKnots (i + 1)))
    (c : Option (Constraints K)) (hc : ∀ cs, c = some cs → ConstraintsOK S cs) (o : Options K) :
    ∃ (nodes N : List (Node K W)) (du dv : ℕ) (rss : List (List (Rect K))) (top : K),
      adaptiveGrid M eps S c o = .ok (nodes, du, dv) ∧
      (∀ fuel, max o.minDepth o.maxDepth < fuel →
        divideAll M (evaluateSurface M eps S) o S.uDegree fuel du dv nodes = .ok N) ∧
      TreeOK (surfPoint S) (domRect S) top nodes ∧ TreeOK (surfPoint S) (domRect S) top N ∧
      Tiles (domRect S) (leafRects nodes) ∧ Tiles (domRect S) (leafRects N) ∧
      (leafRects nodes).length = du * dv ∧
      List.Forall₂ (Halvings o.minDepth (max o.minDepth o.maxDepth) 0) (leafRects nodes) rss ∧
      (leafRects N).Perm rss.flatten ∧
      (top < S.vhi ∧ ∀ r ∈ leafRects nodes, r.v1 = S.vhi → r.v0 = top) ∧
      ((leafRects nodes).map Rect.area).sum = (domRect S).area := by
  obtain ⟨U, V, P, du, dv, e, hdu, hdv, hU, hV, hP, u0, u1, v0, v1, -⟩ := adaptiveGrid_ok (M := M) h hw hpu hpv c
    (fun cs hcs => ⟨sortedParameters_ok (hc cs hcs).1, sortedParameters_ok (hc cs hcs).2⟩) o
  have hdom : (⟨U 0, U du, V 0, V dv⟩ : Rect K) = domRect S := by rw [u0, u1, v0, v1]; rfl
  have hleaf : leafRects (cellNodes P du dv) = cells U V du dv := by
    rw [← cellNodes_rects hP, leafRects]
    congr 1
    rw [List.filter_eq_self]
    intro n hn
    simp only [cellNodes, List.mem_flatMap, List.mem_map] at hn
    obtain ⟨_, _, _, _, rfl⟩ := hn
    rfl
  obtain ⟨N, rss, e', t, f, pm, ti⟩ := grid_divided (M := M) (o := o) (p := S.uDegree) (pt := surfPoint S)
    (ev := evaluateSurface M eps S) (fuel := max o.minDepth o.maxDepth + 1) hdu hdv hU hV hP
    (by rw [hdom]; exact fun x hx => evaluateSurface_ok h hw x hx) (Nat.lt_succ_self _)
  have hg := grid_ok hdu hdv hU hV hP
  have hti := cells_tile hdu hdv hU hV
  rw [hdom] at t ti hg hti
  refine ⟨cellNodes P du dv, N, du, dv, rss, V (dv - 1), e, fun fuel hf => divideAll_mono e' hf, hg, t, ?_, ti, ?_, ?_, pm, ⟨?_, ?_⟩, ?_⟩
  · rw [hleaf]; exact hti
  · rw [hleaf, cells_length, Nat.mul_comm]
  · rw [hleaf]; exact f
  · rw [← v1]
    have := hV (dv - 1) (by omega)
    rwa [show dv - 1 + 1 = dv by omega] at this
  · intro r hr hrv
    rw [hleaf] at hr
    simp only [cells, List.mem_flatMap, List.mem_map, List.mem_range] at hr
    obtain ⟨iv, hiv, iu, hiu, rfl⟩ := hr
    replace hrv : V (dv - iv) = S.vhi := hrv
    show V (dv - iv - 1) = V (dv - 1)
    by_cases h0 : iv = 0
    · rw [h0, Nat.sub_zero]
    · exfalso
      have h1 : V (dv - iv) ≤ V (dv - 1) := mono_le hV (by omega) (by omega)
      have h2 := hV (dv - 1) (by omega)
      rw [show dv - 1 + 1 = dv by omega, v1] at h2
      rw [hrv] at h1
      exact absurd h2 (not_lt.2 h1)
  · rw [hleaf, cells_area, ← hdom]
    rfl

end surface

end Curvo.Props

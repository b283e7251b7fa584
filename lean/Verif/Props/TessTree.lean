/-
  Property theorems about the subdivision of the adaptive surface tessellation: C46 (depth), C63 (tiling).
-/
import Verif.Model.Tess
import Verif.Spec.Tiling
import Verif.Lemmas.Res
import Mathlib.Tactic.FinCases
import Mathlib.Tactic.Abel
import Mathlib.Algebra.Order.Group.Multiset

set_option linter.unusedSectionVars false

namespace Curvo.Props

open Curvo Curvo.Tess Curvo.Spec

variable {K : Type} [Field K] [LinearOrder K] {W : Type} [AddCommGroup W]

/-- The parameter rectangle between two opposite corners of a node. -/
def nodeRect (n : Node K W) : Rect K :=
  ⟨(n.corners 0).uv.1, (n.corners 2).uv.1, (n.corners 0).uv.2, (n.corners 2).uv.2⟩

/-- The structural invariant of a node of the tessellation tree: the corners are surface points at the corners of the
    rectangle, the children halve the rectangle, a neighbour covers the edge from the other side, edges without neighbour
    lie on the boundary.  Exceptions for western edges, due to C47: edges of the top row (above `top`) may have no
    neighbour, edges on the boundary may have a neighbour further up. -/
structure NodeOK (pt : K × K → W) (dom : Rect K) (top : K) (N : List (Node K W)) (i : ℕ) (n : Node K W) : Prop where
  corner : ∀ e, (n.corners e).uv = (nodeRect n).corner e
  point : ∀ e, (n.corners e).point = pt ((nodeRect n).corner e)
  center : n.uvCenter = ((nodeRect n).midU, (nodeRect n).midV)
  pos : (nodeRect n).Pos
  sub : (nodeRect n).Sub dom
  kids : ∀ a b, n.children = some (a, b) → i < a ∧ i < b ∧ ∃ na nb, N[a]? = some na ∧ N[b]? = some nb ∧
    ((n.direction = .u ∧ nodeRect na = (nodeRect n).lower ∧ nodeRect nb = (nodeRect n).upper) ∨
     (n.direction = .v ∧ nodeRect na = (nodeRect n).left ∧ nodeRect nb = (nodeRect n).right))
  neighbour : ∀ e j, n.neighbors e = some j → ∃ m, N[j]? = some m ∧
    ((nodeRect n).EdgeIn e (nodeRect m) ∨
      (e = 3 ∧ (nodeRect n).line 3 = dom.line 3 ∧ (nodeRect n).v1 ≤ (nodeRect m).v0))
  boundary : ∀ e, n.neighbors e = none → (nodeRect n).line e = dom.line e ∨ (e = 3 ∧ top ≤ (nodeRect n).v0)

/-- All nodes satisfy the invariant. -/
def TreeOK (pt : K × K → W) (dom : Rect K) (top : K) (N : List (Node K W)) : Prop :=
  ∀ i n, N[i]? = some n → NodeOK pt dom top N i n

/-- The rectangles of the leaves, in the order of the nodes. -/
def leafRects (N : List (Node K W)) : List (Rect K) := (N.filter Node.isLeaf).map nodeRect

section
variable [IsStrictOrderedRing K]

theorem NodeOK.congr {pt : K × K → W} {dom : Rect K} {top : K} {N N' : List (Node K W)} {i : ℕ} {n : Node K W}
    (h : NodeOK pt dom top N i n)
    (hN : ∀ (j : ℕ) (m : Node K W), N[j]? = some m → ∃ m', N'[j]? = some m' ∧ nodeRect m' = nodeRect m) : NodeOK pt dom top N' i n where
  corner := h.corner
  point := h.point
  center := h.center
  pos := h.pos
  sub := h.sub
  kids := by
    intro a b hab
    obtain ⟨ha, hb, na, nb, h1, h2, h3⟩ := h.kids a b hab
    obtain ⟨na', e1, r1⟩ := hN a na h1
    obtain ⟨nb', e2, r2⟩ := hN b nb h2
    exact ⟨ha, hb, na', nb', e1, e2, by rw [r1, r2]; exact h3⟩
  neighbour := by
    intro e j he
    obtain ⟨m, h1, h2⟩ := h.neighbour e j he
    obtain ⟨m', e1, r1⟩ := hN j m h1
    exact ⟨m', e1, by rw [r1]; exact h2⟩
  boundary := h.boundary

/-- Correcting normals changes neither parameters nor points. -/
theorem fixNormal_uv (cs : Fin 4 → SPoint K W) (i e : Fin 4) :
    (fixNormal cs i e).uv = (cs e).uv ∧ (fixNormal cs i e).point = (cs e).point := by
  unfold fixNormal
  split_ifs with h
  · simp only []
    by_cases he : e = i
    · subst he; simp
    · simp [he]
  · exact ⟨rfl, rfl⟩

theorem fixNormals_uv (n : Node K W) (e : Fin 4) :
    (n.fixNormals.corners e).uv = (n.corners e).uv ∧ (n.fixNormals.corners e).point = (n.corners e).point := by
  have key : ∀ (l : List (Fin 4)) (cs : Fin 4 → SPoint K W),
      (l.foldl fixNormal cs e).uv = (cs e).uv ∧ (l.foldl fixNormal cs e).point = (cs e).point := by
    intro l
    induction l with
    | nil => intro cs; exact ⟨rfl, rfl⟩
    | cons i l ih =>
      intro cs
      rw [List.foldl_cons]
      exact ⟨(ih _).1.trans (fixNormal_uv cs i e).1, (ih _).2.trans (fixNormal_uv cs i e).2⟩
  exact key _ _

/-- `shouldDivide` changes only normals. -/
theorem shouldDivide_node (M : Metric K W) (o : Options K) (n : Node K W) (depth : ℕ) :
    let m := (n.shouldDivide M o depth).1
    m.children = n.children ∧ m.neighbors = n.neighbors ∧ m.direction = n.direction ∧ m.uvCenter = n.uvCenter ∧
      nodeRect m = nodeRect n ∧ ∀ e, (m.corners e).uv = (n.corners e).uv ∧ (m.corners e).point = (n.corners e).point := by
  unfold Node.shouldDivide
  split_ifs
  · simp
  · simp
  · refine ⟨rfl, rfl, rfl, rfl, ?_, fixNormals_uv n⟩
    simp only [nodeRect, (fixNormals_uv n _).1]
  · simp

/-- Below the minimal depth a node is divided, at the maximal depth it is not. -/
theorem shouldDivide_depth (M : Metric K W) (o : Options K) (n : Node K W) (depth : ℕ) :
    ((n.shouldDivide M o depth).2 = none → o.minDepth ≤ depth) ∧
    ∀ d, (n.shouldDivide M o depth).2 = some d → depth < max o.minDepth o.maxDepth := by
  unfold Node.shouldDivide
  split_ifs with h1 h2 h3
  · exact ⟨fun h => by simp at h, fun _ _ => lt_max_of_lt_left h1⟩
  · exact ⟨fun _ => not_lt.1 h1, fun d h => by simp at h⟩
  · exact ⟨fun _ => not_lt.1 h1, fun d h => by simp at h⟩
  · exact ⟨fun _ => not_lt.1 h1, fun _ _ => lt_max_of_lt_right (not_le.1 h2)⟩

theorem filter_set_of {α : Type} {N : List α} {i : ℕ} {n : α} (p : α → Bool) (h : N[i]? = some n) (m : α) :
    ((N.set i m).filter p).Perm ((if p m then [m] else []) ++ (N.take i ++ N.drop (i + 1)).filter p) ∧
    (N.filter p).Perm ((if p n then [n] else []) ++ (N.take i ++ N.drop (i + 1)).filter p) := by
  have hi : i < N.length := (List.getElem?_eq_some_iff.1 h).1
  have e1 : N.set i m = N.take i ++ m :: N.drop (i + 1) := List.set_eq_take_append_cons_drop .. |>.trans (by simp [hi])
  have e2 : N = N.take i ++ n :: N.drop (i + 1) := by
    have := (List.getElem?_eq_some_iff.1 h).2
    rw [← this, List.getElem_cons_drop, List.take_append_drop]
  have key : ∀ x : α, ((N.take i ++ x :: N.drop (i + 1)).filter p).Perm
      ((if p x then [x] else []) ++ (N.take i ++ N.drop (i + 1)).filter p) := by
    intro x
    have := (List.perm_middle (a := x) (l₁ := N.take i) (l₂ := N.drop (i + 1))).filter p
    refine this.trans ?_
    rw [List.filter_cons]
    split_ifs <;> simp
  rw [e1]
  refine ⟨key m, ?_⟩
  conv_lhs => rw [e2]
  exact key n

/-- Corners are surface points at the corners of the rectangle. -/
def Box (pt : K × K → W) (r : Rect K) (cs : Fin 4 → SPoint K W) : Prop :=
  ∀ e, (cs e).uv = r.corner e ∧ (cs e).point = pt (r.corner e)

theorem NodeOK.box {pt : K × K → W} {dom : Rect K} {top : K} {N : List (Node K W)} {i : ℕ} {n : Node K W}
    (h : NodeOK pt dom top N i n) : Box pt (nodeRect n) n.corners := fun e => ⟨h.corner e, h.point e⟩

theorem Box.of {pt : K × K → W} {r : Rect K} {a b c d : SPoint K W}
    (ha : a.uv = (r.u0, r.v0) ∧ a.point = pt (r.u0, r.v0)) (hb : b.uv = (r.u1, r.v0) ∧ b.point = pt (r.u1, r.v0))
    (hc : c.uv = (r.u1, r.v1) ∧ c.point = pt (r.u1, r.v1)) (hd : d.uv = (r.u0, r.v1) ∧ d.point = pt (r.u0, r.v1)) :
    Box pt r ![a, b, c, d] := by
  intro e
  fin_cases e
  · exact ha
  · exact hb
  · exact hc
  · exact hd

theorem Box.rect {pt : K × K → W} {r : Rect K} {cs : Fin 4 → SPoint K W} (h : Box pt r cs) (id : ℕ)
    (nb : Fin 4 → Option ℕ) : nodeRect (Node.new id cs nb) = r := by
  unfold nodeRect Node.new
  simp only [(h 0).1, (h 2).1]
  rfl

theorem Box.center {pt : K × K → W} {r : Rect K} {cs : Fin 4 → SPoint K W} (h : Box pt r cs) (id : ℕ)
    (nb : Fin 4 → Option ℕ) : (Node.new id cs nb).uvCenter = (r.midU, r.midV) := by
  unfold Node.new
  simp only [(h 0).1, (h 2).1]
  rfl

theorem nodeOK_new {pt : K × K → W} {dom : Rect K} {top : K} {N : List (Node K W)} {i id : ℕ} {r : Rect K}
    {cs : Fin 4 → SPoint K W} {nb : Fin 4 → Option ℕ} (h : Box pt r cs) (hp : r.Pos) (hs : r.Sub dom)
    (hn : ∀ e j, nb e = some j → ∃ m, N[j]? = some m ∧ (r.EdgeIn e (nodeRect m) ∨
      (e = 3 ∧ r.line 3 = dom.line 3 ∧ r.v1 ≤ (nodeRect m).v0)))
    (hb : ∀ e, nb e = none → r.line e = dom.line e ∨ (e = 3 ∧ top ≤ r.v0)) :
    NodeOK pt dom top N i (Node.new id cs nb) where
  corner := by intro e; rw [h.rect]; exact (h e).1
  point := by intro e; rw [h.rect]; exact (h e).2
  center := by rw [h.rect, h.center]
  pos := by rw [h.rect]; exact hp
  sub := by rw [h.rect]; exact hs
  kids := by intro a b hab; simp [Node.new] at hab
  neighbour := by intro e j he; rw [h.rect]; exact hn e j he
  boundary := by intro e he; rw [h.rect]; exact hb e he

/-- One division: it succeeds if the surface can be evaluated, keeps the invariant and replaces one leaf by its halves. -/
theorem split_ok {pt : K × K → W} {dom : Rect K} {top : K} {ev : K × K → Res (SPoint K W)} {N : List (Node K W)} {i : ℕ}
    {n : Node K W} (hev : ∀ x, dom.Mem x → ∃ p, ev x = .ok p ∧ p.uv = x ∧ p.point = pt x)
    (hN : TreeOK pt dom top N) (hi : i < N.length) (hn : NodeOK pt dom top N i n)
    (hrect : ∀ m, N[i]? = some m → nodeRect m = nodeRect n) (d : UV) :
    ∃ c0 c1, splitNode ev { n with direction := d } N.length (N.length + 1) = .ok (c0, c1) ∧
      c0.children = none ∧ c1.children = none ∧
      ((d = .u ∧ nodeRect c0 = (nodeRect n).lower ∧ nodeRect c1 = (nodeRect n).upper) ∨
       (d = .v ∧ nodeRect c0 = (nodeRect n).left ∧ nodeRect c1 = (nodeRect n).right)) ∧
      TreeOK pt dom top
        (N.set i { n with direction := d, children := some (N.length, N.length + 1) } ++ [c0, c1]) := by
  obtain ⟨m1, m2, m3, m4⟩ := Rect.mid_lt hn.pos
  have hpos := hn.pos
  have hbox := hn.box
  have hcen := hn.center
  obtain ⟨s1, s2, s3, s4⟩ := hn.sub
  obtain ⟨r, hr⟩ : ∃ r, r = nodeRect n := ⟨_, rfl⟩
  have hnn := hn.neighbour
  have hnb := hn.boundary
  rw [← hr] at m1 m2 m3 m4 hpos hbox hcen s1 s2 s3 s4 hnn hnb
  -- lookups in the new list
  have old : ∀ (c0 c1 n' : Node K W), nodeRect n' = r → ∀ (j : ℕ) (m : Node K W), N[j]? = some m →
      ∃ m', (N.set i n' ++ [c0, c1])[j]? = some m' ∧ nodeRect m' = nodeRect m := by
    intro c0 c1 n' hn' j m hj
    have hjl : j < N.length := (List.getElem?_eq_some_iff.1 hj).1
    by_cases hji : j = i
    · subst hji
      refine ⟨n', ?_, by rw [hn', hrect m hj, hr]⟩
      rw [List.getElem?_append_left (by simpa using hjl), List.getElem?_set_self hjl]
    · refine ⟨m, ?_, rfl⟩
      rw [List.getElem?_append_left (by simpa using hjl), List.getElem?_set_ne (Ne.symm hji), hj]
  have new0 : ∀ (c0 c1 n' : Node K W), (N.set i n' ++ [c0, c1])[N.length]? = some c0 := by
    intro c0 c1 n'
    rw [List.getElem?_append_right (by simp)]
    simp
  have new1 : ∀ (c0 c1 n' : Node K W), (N.set i n' ++ [c0, c1])[N.length + 1]? = some c1 := by
    intro c0 c1 n'
    rw [List.getElem?_append_right (by simp)]
    simp
  -- assembling the invariant
  have build : ∀ (c0 c1 : Node K W),
      (∀ N' : List (Node K W), (∀ (j : ℕ) (m : Node K W), N[j]? = some m → ∃ m', N'[j]? = some m' ∧ nodeRect m' = nodeRect m) →
        N'[N.length]? = some c0 → N'[N.length + 1]? = some c1 →
        NodeOK pt dom top N' N.length c0 ∧ NodeOK pt dom top N' (N.length + 1) c1) →
      ((d = .u ∧ nodeRect c0 = r.lower ∧ nodeRect c1 = r.upper) ∨
       (d = .v ∧ nodeRect c0 = r.left ∧ nodeRect c1 = r.right)) →
      TreeOK pt dom top
        (N.set i { n with direction := d, children := some (N.length, N.length + 1) } ++ [c0, c1]) := by
    intro c0 c1 hc hk j m hj
    have hold := old c0 c1 { n with direction := d, children := some (N.length, N.length + 1) } hr.symm
    have h0 := new0 c0 c1 { n with direction := d, children := some (N.length, N.length + 1) }
    have h1 := new1 c0 c1 { n with direction := d, children := some (N.length, N.length + 1) }
    obtain ⟨k0, k1⟩ := hc _ hold h0 h1
    rcases lt_trichotomy j N.length with hjl | rfl | hjl
    · rw [List.getElem?_append_left (by simpa using hjl)] at hj
      by_cases hji : j = i
      · subst hji
        rw [List.getElem?_set_self hjl] at hj
        obtain rfl := Option.some.inj hj
        have base := hn.congr hold
        exact { corner := base.corner, point := base.point, center := base.center, pos := base.pos, sub := base.sub,
                neighbour := base.neighbour, boundary := base.boundary,
                kids := by
                  intro a b hab
                  obtain ⟨rfl, rfl⟩ := Prod.mk.inj (Option.some.inj hab)
                  refine ⟨hi, by omega, c0, c1, h0, h1, ?_⟩
                  rw [hr] at hk
                  exact hk }
      · rw [List.getElem?_set_ne (Ne.symm hji)] at hj
        exact (hN j m hj).congr hold
    · rw [h0] at hj
      obtain rfl := Option.some.inj hj
      exact k0
    · have : j = N.length + 1 := by
        have := (List.getElem?_eq_some_iff.1 hj).1
        simp only [List.length_append, List.length_set, List.length_cons, List.length_nil] at this
        omega
      subst this
      rw [h1] at hj
      obtain rfl := Option.some.inj hj
      exact k1
  have b0 := hbox 0
  have b1 := hbox 1
  have b2 := hbox 2
  have b3 := hbox 3
  cases d with
  | u =>
    obtain ⟨east, he, he'⟩ := hev (r.u1, r.midV) ⟨s1.trans hpos.1.le, s2, s3.trans m3.le, m4.le.trans s4⟩
    obtain ⟨west, hw, hw'⟩ := hev (r.u0, r.midV) ⟨s1, hpos.1.le.trans s2, s3.trans m3.le, m4.le.trans s4⟩
    have bl : Box pt r.lower ![n.corners 0, n.corners 1, east, west] := Box.of b0 b1 he' hw'
    have bu : Box pt r.upper ![west, east, n.corners 2, n.corners 3] := Box.of hw' he' b2 b3
    refine ⟨Node.new N.length ![n.corners 0, n.corners 1, east, west]
        ![n.neighbors 0, n.neighbors 1, some (N.length + 1), n.neighbors 3],
      Node.new (N.length + 1) ![west, east, n.corners 2, n.corners 3]
        ![some N.length, n.neighbors 1, n.neighbors 2, n.neighbors 3], ?_, rfl, rfl, ?_, ?_⟩
    · have e1 : ((n.corners 1).uv.1, n.uvCenter.2) = (r.u1, r.midV) := by rw [b1.1, hcen]; rfl
      have e2 : ((n.corners 0).uv.1, n.uvCenter.2) = (r.u0, r.midV) := by rw [b0.1, hcen]; rfl
      unfold splitNode
      simp only []
      rw [e1, e2, he, ok_bind, hw, ok_bind]
      rfl
    · exact .inl ⟨rfl, by rw [bl.rect, hr], by rw [bu.rect, hr]⟩
    · refine build _ _ ?_ (.inl ⟨rfl, bl.rect _ _, bu.rect _ _⟩)
      intro N' hold h0 h1
      constructor
      · refine nodeOK_new bl ⟨hpos.1, m3⟩ ⟨s1, s2, s3, m4.le.trans s4⟩ ?_ ?_
        · intro e j hj
          fin_cases e
          · obtain ⟨m, q1, q2⟩ := hnn 0 j hj
            obtain ⟨m', q3, q4⟩ := hold j m q1
            refine ⟨m', q3, ?_⟩
            rw [q4]
            rcases q2 with ⟨x, y, z⟩ | ⟨x, -⟩
            · exact .inl ⟨x, y, z⟩
            · exact absurd x (by decide)
          · obtain ⟨m, q1, q2⟩ := hnn 1 j hj
            obtain ⟨m', q3, q4⟩ := hold j m q1
            refine ⟨m', q3, ?_⟩
            rw [q4]
            rcases q2 with ⟨x, y, z⟩ | ⟨x, -⟩
            · exact .inl ⟨x, y, m4.le.trans z⟩
            · exact absurd x (by decide)
          · obtain rfl := Option.some.inj hj
            exact ⟨_, h1, .inl (by rw [bu.rect]; exact ⟨rfl, le_refl _, le_refl _⟩)⟩
          · obtain ⟨m, q1, q2⟩ := hnn 3 j hj
            obtain ⟨m', q3, q4⟩ := hold j m q1
            refine ⟨m', q3, ?_⟩
            rw [q4]
            rcases q2 with ⟨x, y, z⟩ | ⟨x, y, z⟩
            · exact .inl ⟨x, y, m4.le.trans z⟩
            · exact .inr ⟨rfl, y, m4.le.trans z⟩
        · intro e he
          fin_cases e
          · exact (hnb 0 he).imp id (fun h => absurd h.1 (by decide))
          · exact (hnb 1 he).imp id (fun h => absurd h.1 (by decide))
          · exact absurd he (by simp)
          · exact (hnb 3 he).imp id id
      · refine nodeOK_new bu ⟨hpos.1, m4⟩ ⟨s1, s2, s3.trans m3.le, s4⟩ ?_ ?_
        · intro e j hj
          fin_cases e
          · obtain rfl := Option.some.inj hj
            exact ⟨_, h0, .inl (by rw [bl.rect]; exact ⟨rfl, le_refl _, le_refl _⟩)⟩
          · obtain ⟨m, q1, q2⟩ := hnn 1 j hj
            obtain ⟨m', q3, q4⟩ := hold j m q1
            refine ⟨m', q3, ?_⟩
            rw [q4]
            rcases q2 with ⟨x, y, z⟩ | ⟨x, -⟩
            · exact .inl ⟨x, le_trans y m3.le, z⟩
            · exact absurd x (by decide)
          · obtain ⟨m, q1, q2⟩ := hnn 2 j hj
            obtain ⟨m', q3, q4⟩ := hold j m q1
            refine ⟨m', q3, ?_⟩
            rw [q4]
            rcases q2 with ⟨x, y, z⟩ | ⟨x, -⟩
            · exact .inl ⟨x, y, z⟩
            · exact absurd x (by decide)
          · obtain ⟨m, q1, q2⟩ := hnn 3 j hj
            obtain ⟨m', q3, q4⟩ := hold j m q1
            refine ⟨m', q3, ?_⟩
            rw [q4]
            rcases q2 with ⟨x, y, z⟩ | ⟨x, y, z⟩
            · exact .inl ⟨x, le_trans y m3.le, z⟩
            · exact .inr ⟨rfl, y, z⟩
        · intro e he
          fin_cases e
          · exact absurd he (by simp)
          · exact (hnb 1 he).imp id (fun h => absurd h.1 (by decide))
          · exact (hnb 2 he).imp id (fun h => absurd h.1 (by decide))
          · exact (hnb 3 he).imp id (fun h => ⟨h.1, h.2.trans m3.le⟩)
  | v =>
    obtain ⟨south, he, he'⟩ := hev (r.midU, r.v0) ⟨s1.trans m1.le, m2.le.trans s2, s3, hpos.2.le.trans s4⟩
    obtain ⟨north, hw, hw'⟩ := hev (r.midU, r.v1) ⟨s1.trans m1.le, m2.le.trans s2, s3.trans hpos.2.le, s4⟩
    have bl : Box pt r.left ![n.corners 0, south, north, n.corners 3] := Box.of b0 he' hw' b3
    have bu : Box pt r.right ![south, n.corners 1, n.corners 2, north] := Box.of he' b1 b2 hw'
    refine ⟨Node.new N.length ![n.corners 0, south, north, n.corners 3]
        ![n.neighbors 0, some (N.length + 1), n.neighbors 2, n.neighbors 3],
      Node.new (N.length + 1) ![south, n.corners 1, n.corners 2, north]
        ![n.neighbors 0, n.neighbors 1, n.neighbors 2, some N.length], ?_, rfl, rfl, ?_, ?_⟩
    · have e1 : (n.uvCenter.1, (n.corners 0).uv.2) = (r.midU, r.v0) := by rw [b0.1, hcen]; rfl
      have e2 : (n.uvCenter.1, (n.corners 2).uv.2) = (r.midU, r.v1) := by rw [b2.1, hcen]; rfl
      unfold splitNode
      simp only []
      rw [e1, e2, he, ok_bind, hw, ok_bind]
      rfl
    · exact .inr ⟨rfl, by rw [bl.rect, hr], by rw [bu.rect, hr]⟩
    · refine build _ _ ?_ (.inr ⟨rfl, bl.rect _ _, bu.rect _ _⟩)
      intro N' hold h0 h1
      constructor
      · refine nodeOK_new bl ⟨m1, hpos.2⟩ ⟨s1, m2.le.trans s2, s3, s4⟩ ?_ ?_
        · intro e j hj
          fin_cases e
          · obtain ⟨m, q1, q2⟩ := hnn 0 j hj
            obtain ⟨m', q3, q4⟩ := hold j m q1
            refine ⟨m', q3, ?_⟩
            rw [q4]
            rcases q2 with ⟨x, y, z⟩ | ⟨x, -⟩
            · exact .inl ⟨x, y, m2.le.trans z⟩
            · exact absurd x (by decide)
          · obtain rfl := Option.some.inj hj
            exact ⟨_, h1, .inl (by rw [bu.rect]; exact ⟨rfl, le_refl _, le_refl _⟩)⟩
          · obtain ⟨m, q1, q2⟩ := hnn 2 j hj
            obtain ⟨m', q3, q4⟩ := hold j m q1
            refine ⟨m', q3, ?_⟩
            rw [q4]
            rcases q2 with ⟨x, y, z⟩ | ⟨x, -⟩
            · exact .inl ⟨x, y, m2.le.trans z⟩
            · exact absurd x (by decide)
          · obtain ⟨m, q1, q2⟩ := hnn 3 j hj
            obtain ⟨m', q3, q4⟩ := hold j m q1
            refine ⟨m', q3, ?_⟩
            rw [q4]
            rcases q2 with ⟨x, y, z⟩ | ⟨x, y, z⟩
            · exact .inl ⟨x, y, z⟩
            · exact .inr ⟨rfl, y, z⟩
        · intro e he
          fin_cases e
          · exact (hnb 0 he).imp id (fun h => absurd h.1 (by decide))
          · exact absurd he (by simp)
          · exact (hnb 2 he).imp id (fun h => absurd h.1 (by decide))
          · exact (hnb 3 he).imp id id
      · refine nodeOK_new bu ⟨m2, hpos.2⟩ ⟨s1.trans m1.le, s2, s3, s4⟩ ?_ ?_
        · intro e j hj
          fin_cases e
          · obtain ⟨m, q1, q2⟩ := hnn 0 j hj
            obtain ⟨m', q3, q4⟩ := hold j m q1
            refine ⟨m', q3, ?_⟩
            rw [q4]
            rcases q2 with ⟨x, y, z⟩ | ⟨x, -⟩
            · exact .inl ⟨x, le_trans y m1.le, z⟩
            · exact absurd x (by decide)
          · obtain ⟨m, q1, q2⟩ := hnn 1 j hj
            obtain ⟨m', q3, q4⟩ := hold j m q1
            refine ⟨m', q3, ?_⟩
            rw [q4]
            rcases q2 with ⟨x, y, z⟩ | ⟨x, -⟩
            · exact .inl ⟨x, y, z⟩
            · exact absurd x (by decide)
          · obtain ⟨m, q1, q2⟩ := hnn 2 j hj
            obtain ⟨m', q3, q4⟩ := hold j m q1
            refine ⟨m', q3, ?_⟩
            rw [q4]
            rcases q2 with ⟨x, y, z⟩ | ⟨x, -⟩
            · exact .inl ⟨x, le_trans y m1.le, z⟩
            · exact absurd x (by decide)
          · obtain rfl := Option.some.inj hj
            exact ⟨_, h0, .inl (by rw [bl.rect]; exact ⟨rfl, le_refl _, le_refl _⟩)⟩
        · intro e he
          fin_cases e
          · exact (hnb 0 he).imp id (fun h => absurd h.1 (by decide))
          · exact (hnb 1 he).imp id (fun h => absurd h.1 (by decide))
          · exact (hnb 2 he).imp id (fun h => absurd h.1 (by decide))
          · exact absurd he (by simp)

theorem leafRects_set_leaf {N : List (Node K W)} {i : ℕ} {n m : Node K W} (h : N[i]? = some n)
    (hl : n.children = none) (hm : m.children = none) (hr : nodeRect m = nodeRect n) :
    (leafRects (N.set i m)).Perm (leafRects N) := by
  obtain ⟨h1, h2⟩ := filter_set_of Node.isLeaf h m
  have l1 : Node.isLeaf n = true := by simp [Node.isLeaf, hl]
  have l2 : Node.isLeaf m = true := by simp [Node.isLeaf, hm]
  rw [if_pos l2] at h1
  rw [if_pos l1] at h2
  refine (h1.map nodeRect).trans ?_
  refine List.Perm.trans ?_ (h2.map nodeRect).symm
  simp [hr]

theorem leafRects_divide {N : List (Node K W)} {i : ℕ} {n m c0 c1 : Node K W} (h : N[i]? = some n)
    (hl : n.children = none) (hm : m.children ≠ none) (h0 : c0.children = none) (h1 : c1.children = none) :
    (nodeRect n :: leafRects (N.set i m ++ [c0, c1])).Perm (leafRects N ++ [nodeRect c0, nodeRect c1]) := by
  obtain ⟨p1, p2⟩ := filter_set_of Node.isLeaf h m
  have l1 : Node.isLeaf n = true := by simp [Node.isLeaf, hl]
  have l2 : ¬ Node.isLeaf m = true := by simpa [Node.isLeaf] using hm
  have l3 : Node.isLeaf c0 = true := by simp [Node.isLeaf, h0]
  have l4 : Node.isLeaf c1 = true := by simp [Node.isLeaf, h1]
  rw [if_neg l2, List.nil_append] at p1
  rw [if_pos l1] at p2
  have e : leafRects (N.set i m ++ [c0, c1]) = leafRects (N.set i m) ++ [nodeRect c0, nodeRect c1] := by
    simp [leafRects, l3, l4]
  rw [e, ← List.cons_append]
  refine List.Perm.append_right _ ?_
  refine List.Perm.trans ?_ (p2.map nodeRect).symm
  rw [List.map_append, List.map_cons, List.map_nil, List.singleton_append]
  exact (p1.map nodeRect).cons _

/-- The recursion of the subdivision. -/
theorem iterate_spec {pt : K × K → W} {dom : Rect K} {top : K} {ev : K × K → Res (SPoint K W)} {M : Metric K W}
    {o : Options K} (hev : ∀ x, dom.Mem x → ∃ p, ev x = .ok p ∧ p.uv = x ∧ p.point = pt x) :
    ∀ (fuel : ℕ) (N : List (Node K W)) (i depth : ℕ) (dir : UV) (n : Node K W),
      TreeOK pt dom top N → N[i]? = some n → n.children = none → depth ≤ max o.minDepth o.maxDepth →
      max o.minDepth o.maxDepth - depth < fuel →
      ∃ (N' : List (Node K W)) (rs : List (Rect K)), iterate M ev o fuel N i depth dir = .ok N' ∧
        TreeOK pt dom top N' ∧ N'.length = N.length + 2 * (rs.length - 1) ∧
        (∀ j, j < N.length → j ≠ i → N'[j]? = N[j]?) ∧
        (∃ n', N'[i]? = some n' ∧ nodeRect n' = nodeRect n) ∧
        Halvings o.minDepth (max o.minDepth o.maxDepth) depth (nodeRect n) rs ∧
        (nodeRect n :: leafRects N').Perm (leafRects N ++ rs) := by
  intro fuel
  induction fuel with
  | zero => intro N i depth dir n _ _ _ _ h; omega
  | succ fuel ih =>
    intro N i depth dir n hN hi hl hd hf
    obtain ⟨D, hD⟩ : ∃ D, D = max o.minDepth o.maxDepth := ⟨_, rfl⟩
    have hil : i < N.length := (List.getElem?_eq_some_iff.1 hi).1
    obtain ⟨w1, w2, w3, w4, w5, w6⟩ := shouldDivide_node M o n depth
    obtain ⟨g1, g2⟩ := shouldDivide_depth M o n depth
    rw [iterate]
    simp only []
    rw [getR_ok_iff.2 hi, ok_bind]
    obtain ⟨⟨m, dec⟩, hmd⟩ : ∃ q, q = n.shouldDivide M o depth := ⟨_, rfl⟩
    rw [← hmd] at w1 w2 w3 w4 w5 w6 g1 g2 ⊢
    simp only at w1 w2 w3 w4 w5 w6 g1 g2
    have hn := hN i n hi
    have hm : NodeOK pt dom top N i m :=
      { corner := fun e => by rw [(w6 e).1, w5]; exact hn.corner e
        point := fun e => by rw [(w6 e).2, w5]; exact hn.point e
        center := by rw [w4, w5]; exact hn.center
        pos := by rw [w5]; exact hn.pos
        sub := by rw [w5]; exact hn.sub
        kids := by rw [w1, w3, w5]; exact hn.kids
        neighbour := by rw [w2, w5]; exact hn.neighbour
        boundary := by rw [w2, w5]; exact hn.boundary }
    cases dec with
    | none =>
      simp only []
      refine ⟨N.set i m, [nodeRect n], setR_eq_ok hil, ?_, by simp, ?_, ?_, ?_, ?_⟩
      · have old : ∀ (j : ℕ) (x : Node K W), N[j]? = some x → ∃ x', (N.set i m)[j]? = some x' ∧ nodeRect x' = nodeRect x := by
          intro j x hj
          by_cases hji : j = i
          · subst hji
            rw [hi] at hj
            obtain rfl := Option.some.inj hj
            exact ⟨m, List.getElem?_set_self hil, w5⟩
          · exact ⟨x, by rw [List.getElem?_set_ne (Ne.symm hji), hj], rfl⟩
        intro j x hj
        by_cases hji : j = i
        · subst hji
          rw [List.getElem?_set_self hil] at hj
          obtain rfl := Option.some.inj hj
          exact hm.congr old
        · rw [List.getElem?_set_ne (Ne.symm hji)] at hj
          exact (hN j x hj).congr old
      · intro j _ hji
        rw [List.getElem?_set_ne (Ne.symm hji)]
      · exact ⟨m, List.getElem?_set_self hil, w5⟩
      · exact Halvings.stop (g1 rfl) hd
      · refine ((leafRects_set_leaf hi hl (w1.trans hl) w5).cons _).trans ?_
        exact (List.perm_append_singleton _ _).symm
    | some d =>
      have hlt := g2 d rfl
      simp only []
      obtain ⟨c0, c1, hs, k0, k1, hrects, hT⟩ := split_ok hev hN hil hm
        (fun x hx => by rw [hi] at hx; obtain rfl := Option.some.inj hx; exact w5.symm) (d.dir dir)
      rw [hs, ok_bind]
      simp only []
      rw [setR_eq_ok hil, ok_bind]
      obtain ⟨N1, hN1⟩ : ∃ N1 : List (Node K W), N1 = N.set i
        { m with direction := d.dir dir, children := some (N.length, N.length + 1) } ++ [c0, c1] := ⟨_, rfl⟩
      have hlen1 : N1.length = N.length + 2 := by rw [hN1]; simp
      have l0 : N1[N.length]? = some c0 := by
        rw [hN1, List.getElem?_append_right (by simp)]; simp
      have l1 : N1[N.length + 1]? = some c1 := by
        rw [hN1, List.getElem?_append_right (by simp)]; simp
      have lj : ∀ j, j < N.length → j ≠ i → N1[j]? = N[j]? := by
        intro j hj hji
        rw [hN1, List.getElem?_append_left (by simpa using hj), List.getElem?_set_ne (Ne.symm hji)]
      have li : ∃ n', N1[i]? = some n' ∧ nodeRect n' = nodeRect n := by
        refine ⟨{ m with direction := d.dir dir, children := some (N.length, N.length + 1) }, ?_, w5⟩
        rw [hN1, List.getElem?_append_left (by simpa using hil), List.getElem?_set_self hil]
      have p1 : (nodeRect n :: leafRects N1).Perm (leafRects N ++ [nodeRect c0, nodeRect c1]) := by
        rw [hN1]
        exact leafRects_divide hi hl (by simp) k0 k1
      rw [← hN1] at hT ⊢
      obtain ⟨N2, rs0, e2, t2, len2, same2, ⟨c0', a2, b2⟩, h2, p2⟩ :=
        ih N1 N.length (depth + 1) dir.opposite c0 hT l0 k0 (by omega) (by omega)
      rw [e2, ok_bind]
      have l1' : N2[N.length + 1]? = some c1 := by
        rw [same2 _ (by omega) (by omega), l1]
      obtain ⟨N3, rs1, e3, t3, len3, same3, ⟨c1', a3, b3⟩, h3, p3⟩ :=
        ih N2 (N.length + 1) (depth + 1) dir.opposite c1 t2 l1' k1 (by omega) (by omega)
      have q0 := h2.length_le.1
      have q1 := h3.length_le.1
      refine ⟨N3, rs0 ++ rs1, e3, t3, ?_, ?_, ?_, ?_, ?_⟩
      · rw [len3, len2, hlen1, List.length_append]
        omega
      · intro j hj hji
        rw [same3 j (by omega) (by omega), same2 j (by omega) (by omega), lj j hj hji]
      · obtain ⟨n', x1, x2⟩ := li
        exact ⟨n', by rw [same3 i (by omega) (by omega), same2 i (by omega) (by omega), x1], x2⟩
      · rcases hrects with ⟨-, r0, r1⟩ | ⟨-, r0, r1⟩
        · rw [r0, w5] at h2
          rw [r1, w5] at h3
          exact Halvings.cutV h2 h3
        · rw [r0, w5] at h2
          rw [r1, w5] at h3
          exact Halvings.cutU h2 h3
      · rw [← Multiset.coe_eq_coe] at p1 p2 p3 ⊢
        simp only [← Multiset.cons_coe, ← Multiset.coe_add] at p1 p2 p3 ⊢
        have p1' : ({nodeRect n} : Multiset (Rect K)) + (leafRects N1 : Multiset (Rect K)) =
          (leafRects N : Multiset (Rect K)) + ({nodeRect c0} + {nodeRect c1}) := by
          simpa using p1
        have p2' : ({nodeRect c0} : Multiset (Rect K)) + (leafRects N2 : Multiset (Rect K)) =
          (leafRects N1 : Multiset (Rect K)) + rs0 := by simpa using p2
        have p3' : ({nodeRect c1} : Multiset (Rect K)) + (leafRects N3 : Multiset (Rect K)) =
          (leafRects N2 : Multiset (Rect K)) + rs1 := by simpa using p3
        have : ({nodeRect n} : Multiset (Rect K)) + (leafRects N3 : Multiset (Rect K)) + ({nodeRect c0} + {nodeRect c1}) =
            (leafRects N : Multiset (Rect K)) + (rs0 + rs1) + ({nodeRect c0} + {nodeRect c1}) := by
          calc _ = {nodeRect n} + ({nodeRect c0} + ({nodeRect c1} + (leafRects N3 : Multiset (Rect K)))) := by abel
            _ = {nodeRect n} + ({nodeRect c0} + ((leafRects N2 : Multiset (Rect K)) + rs1)) := by rw [p3']
            _ = {nodeRect n} + (({nodeRect c0} + (leafRects N2 : Multiset (Rect K))) + rs1) := by abel
            _ = {nodeRect n} + (((leafRects N1 : Multiset (Rect K)) + rs0) + rs1) := by rw [p2']
            _ = ({nodeRect n} + (leafRects N1 : Multiset (Rect K))) + (rs0 + rs1) := by abel
            _ = ((leafRects N : Multiset (Rect K)) + ({nodeRect c0} + {nodeRect c1})) + (rs0 + rs1) := by rw [p1']
            _ = _ := by abel
        simpa using add_right_cancel this

end

end Curvo.Props

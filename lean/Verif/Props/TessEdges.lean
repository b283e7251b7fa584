/-
  The vertices along the edges of the leaves of the tessellation tree: C68 (no T-junctions).
-/
import Verif.Props.TessTree

set_option linter.unusedSectionVars false

namespace Curvo.Spec.Rect

variable {K : Type} [Field K] [LinearOrder K]

/-- The running coordinate at the start and at the end of an edge. -/
def start (r : Rect K) (e : Fin 4) : K := if e.val < 2 then r.lo e else r.hi e
def stop (r : Rect K) (e : Fin 4) : K := if e.val < 2 then r.hi e else r.lo e

end Curvo.Spec.Rect

namespace Curvo.Props

open Curvo Curvo.Tess Curvo.Spec

variable {K : Type} [Field K] [LinearOrder K] {W : Type} [AddCommGroup W]

/-- The order of running coordinates in the direction of an edge. -/
def Before (e : Fin 4) (x y : K) : Prop := if e.val < 2 then x < y else y < x

/-- The corners found along edge `e` of a rectangle. -/
structure EdgeList (N : List (Node K W)) (e : Fin 4) (r : Rect K) (l : List (SPoint K W)) : Prop where
  leaf : ∀ c ∈ l, ∃ (k : ℕ) (L : Node K W), N[k]? = some L ∧ L.children = none ∧ c = L.corners e ∧
    (nodeRect L).line e = r.line e ∧ r.lo e ≤ (nodeRect L).lo e ∧ (nodeRect L).hi e ≤ r.hi e
  head : ∃ c ∈ l, coord c.uv (e.val % 2) = r.start e
  sorted : l.Pairwise fun c d => Before e (coord c.uv (e.val % 2)) (coord d.uv (e.val % 2))
  stop : ∀ c ∈ l, Before e (coord c.uv (e.val % 2)) (r.stop e)
  start : ∀ c ∈ l, r.start e = coord c.uv (e.val % 2) ∨ Before e (r.start e) (coord c.uv (e.val % 2))
  cover : ∀ x, r.lo e ≤ x → x ≤ r.hi e → (∃ c ∈ l, coord c.uv (e.val % 2) = x) ∨ x = r.stop e ∨
    ∃ (k : ℕ) (L : Node K W), N[k]? = some L ∧ L.children = none ∧ (nodeRect L).line e = r.line e ∧
      (nodeRect L).lo e < x ∧ x < (nodeRect L).hi e

section
variable [IsStrictOrderedRing K]

theorem Before.trans {e : Fin 4} {x y z : K} (h : Before e x y) (h' : Before e y z) : Before e x z := by
  unfold Before at *
  split_ifs at * with he
  · exact h.trans h'
  · exact h'.trans h

theorem EdgeList.congr {N : List (Node K W)} {e : Fin 4} {r s : Rect K} {l : List (SPoint K W)} (h : EdgeList N e r l)
    (h1 : s.line e = r.line e) (h2 : s.lo e = r.lo e) (h3 : s.hi e = r.hi e) : EdgeList N e s l := by
  have e1 : s.start e = r.start e := by unfold Rect.start; rw [h2, h3]
  have e2 : s.stop e = r.stop e := by unfold Rect.stop; rw [h2, h3]
  exact { leaf := by rw [h1, h2, h3]; exact h.leaf
          head := by rw [e1]; exact h.head
          sorted := h.sorted
          stop := by rw [e2]; exact h.stop
          start := by rw [e1]; exact h.start
          cover := by rw [h1, h2, h3, e2]; exact h.cover }

theorem EdgeList.append {N : List (Node K W)} {e : Fin 4} {r x y : Rect K} {l l' : List (SPoint K W)}
    (hx : EdgeList N e x l) (hy : EdgeList N e y l') (h1 : x.line e = r.line e) (h2 : y.line e = r.line e)
    (px : x.lo e < x.hi e) (py : y.lo e < y.hi e)
    (hc : (e.val < 2 ∧ x.lo e = r.lo e ∧ x.hi e = y.lo e ∧ y.hi e = r.hi e) ∨
      (¬ e.val < 2 ∧ x.hi e = r.hi e ∧ x.lo e = y.hi e ∧ y.lo e = r.lo e)) : EdgeList N e r (l ++ l') := by
  have hlo : r.lo e ≤ x.lo e ∧ r.lo e ≤ y.lo e := by
    rcases hc with ⟨-, a, b, c⟩ | ⟨-, a, b, c⟩
    · exact ⟨a.ge, by rw [← a, ← b]; exact px.le⟩
    · exact ⟨by rw [← c, b]; exact py.le, c.ge⟩
  have hhi : x.hi e ≤ r.hi e ∧ y.hi e ≤ r.hi e := by
    rcases hc with ⟨-, a, b, c⟩ | ⟨-, a, b, c⟩
    · exact ⟨by rw [← c, b]; exact py.le, c.le⟩
    · exact ⟨a.le, by rw [← a, ← b]; exact px.le⟩
  have s1 : x.start e = r.start e := by
    unfold Rect.start
    rcases hc with ⟨he, a, b, c⟩ | ⟨he, a, b, c⟩
    · rw [if_pos he, if_pos he, a]
    · rw [if_neg he, if_neg he, a]
  have s2 : x.stop e = y.start e := by
    unfold Rect.start Rect.stop
    rcases hc with ⟨he, a, b, c⟩ | ⟨he, a, b, c⟩
    · rw [if_pos he, if_pos he, b]
    · rw [if_neg he, if_neg he, b]
  have s3 : y.stop e = r.stop e := by
    unfold Rect.stop
    rcases hc with ⟨he, a, b, c⟩ | ⟨he, a, b, c⟩
    · rw [if_pos he, if_pos he, c]
    · rw [if_neg he, if_neg he, c]
  have bx : Before e (x.start e) (x.stop e) := by
    unfold Before Rect.start Rect.stop
    split_ifs <;> exact px
  have by' : Before e (y.start e) (y.stop e) := by
    unfold Before Rect.start Rect.stop
    split_ifs <;> exact py
  have cross : ∀ c ∈ l, ∀ d ∈ l', Before e (coord c.uv (e.val % 2)) (coord d.uv (e.val % 2)) := by
    intro c hc d hd
    have a := hx.stop c hc
    rw [s2] at a
    rcases hy.start d hd with h | h
    · rw [← h]; exact a
    · exact a.trans h
  refine { leaf := ?_, head := ?_, sorted := ?_, stop := ?_, start := ?_, cover := ?_ }
  · intro c hc
    rcases List.mem_append.1 hc with hc | hc
    · obtain ⟨k, L, a, b, c', d, e', f⟩ := hx.leaf c hc
      exact ⟨k, L, a, b, c', d.trans h1, hlo.1.trans e', f.trans hhi.1⟩
    · obtain ⟨k, L, a, b, c', d, e', f⟩ := hy.leaf c hc
      exact ⟨k, L, a, b, c', d.trans h2, hlo.2.trans e', f.trans hhi.2⟩
  · obtain ⟨c, hc, e'⟩ := hx.head
    exact ⟨c, List.mem_append_left _ hc, e'.trans s1⟩
  · rw [List.pairwise_append]
    exact ⟨hx.sorted, hy.sorted, cross⟩
  · intro c hc
    rcases List.mem_append.1 hc with hc | hc
    · have := hx.stop c hc
      rw [s2] at this
      rw [← s3]
      exact this.trans by'
    · rw [← s3]; exact hy.stop c hc
  · intro c hc
    rcases List.mem_append.1 hc with hc | hc
    · rw [← s1]; exact hx.start c hc
    · right
      rw [← s1]
      rw [s2] at bx
      rcases hy.start c hc with h | h
      · rw [← h]; exact bx
      · exact bx.trans h
  · intro z hz1 hz2
    have inx : x.lo e ≤ z → z ≤ x.hi e → _ := hx.cover z
    have iny : y.lo e ≤ z → z ≤ y.hi e → _ := hy.cover z
    have hor : (x.lo e ≤ z ∧ z ≤ x.hi e) ∨ (y.lo e ≤ z ∧ z ≤ y.hi e) := by
      rcases hc with ⟨-, a, b, c⟩ | ⟨-, a, b, c⟩
      · rcases le_total z (x.hi e) with h | h
        · exact .inl ⟨by rw [a]; exact hz1, h⟩
        · exact .inr ⟨by rw [← b]; exact h, by rw [c]; exact hz2⟩
      · rcases le_total (x.lo e) z with h | h
        · exact .inl ⟨h, by rw [a]; exact hz2⟩
        · exact .inr ⟨by rw [c]; exact hz1, by rw [← b]; exact h⟩
    rcases hor with ⟨a, b⟩ | ⟨a, b⟩
    · rcases inx a b with ⟨c, hc', e'⟩ | h | ⟨k, L, q1, q2, q3, q4⟩
      · exact .inl ⟨c, List.mem_append_left _ hc', e'⟩
      · obtain ⟨c, hc', e'⟩ := hy.head
        exact .inl ⟨c, List.mem_append_right _ hc', by rw [e', h, s2]⟩
      · exact .inr (.inr ⟨k, L, q1, q2, q3.trans h1, q4⟩)
    · rcases iny a b with ⟨c, hc', e'⟩ | h | ⟨k, L, q1, q2, q3, q4⟩
      · exact .inl ⟨c, List.mem_append_right _ hc', e'⟩
      · exact .inr (.inl (by rw [h, s3]))
      · exact .inr (.inr ⟨k, L, q1, q2, q3.trans h2, q4⟩)

theorem pos_edge {r : Rect K} (h : r.Pos) (e : Fin 4) : r.lo e < r.hi e := by
  fin_cases e
  · exact h.1
  · exact h.2
  · exact h.1
  · exact h.2

theorem corner_coord (r : Rect K) (e : Fin 4) : coord (r.corner e) (e.val % 2) = r.start e := by
  fin_cases e <;> rfl

/-- Collecting the corners along an edge of a node. -/
theorem edge_spec {pt : K × K → W} {dom : Rect K} {top : K} {N : List (Node K W)} (hN : TreeOK pt dom top N) (e : Fin 4) :
    ∀ (fuel j : ℕ) (m : Node K W), N[j]? = some m → N.length - j < fuel →
      ∃ l, getEdgeCorners N e fuel j = .ok l ∧ EdgeList N e (nodeRect m) l := by
  intro fuel
  induction fuel with
  | zero => intro j m _ h; omega
  | succ fuel ih =>
    intro j m hj hf
    have hm := hN j m hj
    have hjl : j < N.length := (List.getElem?_eq_some_iff.1 hj).1
    obtain ⟨m1, m2, m3, m4⟩ := Rect.mid_lt hm.pos
    rw [getEdgeCorners, getR_ok_iff.2 hj, ok_bind]
    cases hch : m.children with
    | none =>
      refine ⟨[m.corners e], rfl, ?_⟩
      have hlt := pos_edge hm.pos e
      have hcc : coord (m.corners e).uv (e.val % 2) = (nodeRect m).start e := by
        rw [hm.corner e]; exact corner_coord _ e
      refine { leaf := ?_, head := ?_, sorted := by simp, stop := ?_, start := ?_, cover := ?_ }
      · intro c hc
        rw [List.mem_singleton] at hc
        exact ⟨j, m, hj, hch, hc, rfl, le_refl _, le_refl _⟩
      · exact ⟨_, List.mem_singleton.2 rfl, hcc⟩
      · intro c hc
        rw [List.mem_singleton.1 hc, hcc]
        unfold Before Rect.start Rect.stop
        split_ifs <;> exact hlt
      · intro c hc
        rw [List.mem_singleton.1 hc]
        exact .inl hcc.symm
      · intro x h1 h2
        by_cases hs : x = (nodeRect m).start e
        · exact .inl ⟨_, List.mem_singleton.2 rfl, by rw [hcc, hs]⟩
        · by_cases ht : x = (nodeRect m).stop e
          · exact .inr (.inl ht)
          · refine .inr (.inr ⟨j, m, hj, hch, rfl, ?_⟩)
            unfold Rect.start at hs
            unfold Rect.stop at ht
            split_ifs at hs ht
            · exact ⟨lt_of_le_of_ne h1 (Ne.symm hs), lt_of_le_of_ne h2 ht⟩
            · exact ⟨lt_of_le_of_ne h1 (Ne.symm ht), lt_of_le_of_ne h2 hs⟩
    | some ab =>
      obtain ⟨a, b⟩ := ab
      obtain ⟨ha, hb, na, nb, la, lb, hdir⟩ := hm.kids a b hch
      obtain ⟨xs, ea, ela⟩ := ih a na la (by omega)
      obtain ⟨ys, eb, elb⟩ := ih b nb lb (by omega)
      simp only []
      have one : ∀ (c : ℕ) (zs : List (SPoint K W)), getEdgeCorners N e fuel c = .ok zs →
          edgeChildren m.direction e (a, b) = [c] → (do
            let parts ← (edgeChildren m.direction e (a, b)).mapM (getEdgeCorners N e fuel)
            pure parts.flatten : Res _) = .ok zs := by
        intro c zs h1 h2
        rw [h2, List.mapM_cons, h1, ok_bind, List.mapM_nil]
        simp [pure, Except.pure, Bind.bind, Except.bind]
      have two : ∀ (c d : ℕ) (zs ws : List (SPoint K W)), getEdgeCorners N e fuel c = .ok zs →
          getEdgeCorners N e fuel d = .ok ws → edgeChildren m.direction e (a, b) = [c, d] → (do
            let parts ← (edgeChildren m.direction e (a, b)).mapM (getEdgeCorners N e fuel)
            pure parts.flatten : Res _) = .ok (zs ++ ws) := by
        intro c d zs ws h1 h2 h3
        rw [h3, List.mapM_cons, h1, ok_bind, List.mapM_cons, h2, ok_bind, List.mapM_nil]
        simp [pure, Except.pure, Bind.bind, Except.bind]
      have pa := pos_edge (hN a na la).pos e
      have pb := pos_edge (hN b nb lb).pos e
      rcases hdir with ⟨hd, ra, rb⟩ | ⟨hd, ra, rb⟩
      · rw [ra] at ela pa
        rw [rb] at elb pb
        fin_cases e
        · exact ⟨xs, one a xs ea (by rw [hd]; rfl), ela.congr rfl rfl rfl⟩
        · exact ⟨xs ++ ys, two a b xs ys ea eb (by rw [hd]; rfl),
            ela.append elb rfl rfl pa pb (.inl ⟨by decide, rfl, rfl, rfl⟩)⟩
        · exact ⟨ys, one b ys eb (by rw [hd]; rfl), elb.congr rfl rfl rfl⟩
        · exact ⟨ys ++ xs, two b a ys xs eb ea (by rw [hd]; rfl),
            elb.append ela rfl rfl pb pa (.inr ⟨by decide, rfl, rfl, rfl⟩)⟩
      · rw [ra] at ela pa
        rw [rb] at elb pb
        fin_cases e
        · exact ⟨xs ++ ys, two a b xs ys ea eb (by rw [hd]; rfl),
            ela.append elb rfl rfl pa pb (.inl ⟨by decide, rfl, rfl, rfl⟩)⟩
        · exact ⟨ys, one b ys eb (by rw [hd]; rfl), elb.congr rfl rfl rfl⟩
        · exact ⟨ys ++ xs, two b a ys xs eb ea (by rw [hd]; rfl),
            elb.append ela rfl rfl pb pa (.inr ⟨by decide, rfl, rfl, rfl⟩)⟩
        · exact ⟨xs, one a xs ea (by rw [hd]; rfl), ela.congr rfl rfl rfl⟩

theorem corner_line (r : Rect K) (e : Fin 4) : coord (r.corner e) ((e.val + 1) % 2) = r.line e := by
  fin_cases e <;> rfl

/-- A corner is on edge `e` or on the opposite edge, and its running coordinate is an end of the range. -/
theorem corner_cases (r : Rect K) (e f : Fin 4) :
    (coord (r.corner f) ((e.val + 1) % 2) = r.line e ∨ coord (r.corner f) ((e.val + 1) % 2) = r.line (e + 2)) ∧
    (coord (r.corner f) (e.val % 2) = r.lo e ∨ coord (r.corner f) (e.val % 2) = r.hi e) := by
  fin_cases e <;> fin_cases f <;> simp [coord, Rect.corner, Rect.line, Rect.lo, Rect.hi]

theorem uv_ext {p q : K × K} (e : Fin 4) (h1 : coord p (e.val % 2) = coord q (e.val % 2))
    (h2 : coord p ((e.val + 1) % 2) = coord q ((e.val + 1) % 2)) : p = q := by
  fin_cases e <;> simp [coord] at h1 h2 <;> exact Prod.ext (by assumption) (by assumption)

/-- Rectangles on the same side of a line that share an inner point of an edge overlap. -/
theorem overlap {r s : Rect K} (hr : r.Pos) (hs : s.Pos) (e : Fin 4) (hl : s.line e = r.line e) {x : K}
    (h1 : r.lo e < x) (h2 : x < r.hi e) (h3 : s.lo e ≤ x) (h4 : x ≤ s.hi e) : ∃ y, r.Inner y ∧ s.Inner y := by
  have hse := pos_edge hs e
  obtain ⟨t, t1, t2⟩ := exists_between (max_lt (lt_min (h1.trans h2) (lt_of_lt_of_le h1 h4)) (lt_min (lt_of_le_of_lt h3 h2) hse) :
    max (r.lo e) (s.lo e) < min (r.hi e) (s.hi e))
  obtain ⟨a1, a2⟩ := max_lt_iff.1 t1
  obtain ⟨a3, a4⟩ := lt_min_iff.1 t2
  obtain ⟨hr1, hr2⟩ := hr
  obtain ⟨hs1, hs2⟩ := hs
  fin_cases e <;> simp only [Rect.line, Rect.lo, Rect.hi, Fin.zero_eta, Fin.mk_one, Fin.reduceFinMk,
    Matrix.cons_val_zero, Matrix.cons_val_one, Matrix.cons_val] at hl a1 a2 a3 a4
  · obtain ⟨w, w1, w2⟩ := exists_between (lt_min hr2 (by rw [← hl]; exact hs2) : r.v0 < min r.v1 s.v1)
    obtain ⟨w3, w4⟩ := lt_min_iff.1 w2
    exact ⟨(t, w), ⟨a1, a3, w1, w3⟩, a2, a4, by rw [hl]; exact w1, w4⟩
  · obtain ⟨w, w1, w2⟩ := exists_between (max_lt hr1 (by rw [← hl]; exact hs1) : max r.u0 s.u0 < r.u1)
    obtain ⟨w3, w4⟩ := max_lt_iff.1 w1
    exact ⟨(w, t), ⟨w3, w2, a1, a3⟩, w4, by rw [hl]; exact w2, a2, a4⟩
  · obtain ⟨w, w1, w2⟩ := exists_between (max_lt hr2 (by rw [← hl]; exact hs2) : max r.v0 s.v0 < r.v1)
    obtain ⟨w3, w4⟩ := max_lt_iff.1 w1
    exact ⟨(t, w), ⟨a1, a3, w3, w2⟩, a2, a4, w4, by rw [hl]; exact w2⟩
  · obtain ⟨w, w1, w2⟩ := exists_between (lt_min hr1 (by rw [← hl]; exact hs1) : r.u0 < min r.u1 s.u1)
    obtain ⟨w3, w4⟩ := lt_min_iff.1 w2
    exact ⟨(w, t), ⟨w1, w3, a1, a3⟩, by rw [hl]; exact w1, w4, a2, a4⟩

/-- Two different leaves do not overlap. -/
def LeavesDisjoint (N : List (Node K W)) : Prop :=
  ∀ (i k : ℕ) (n m : Node K W), N[i]? = some n → N[k]? = some m → n.children = none → m.children = none → i ≠ k →
    ∀ x, ¬ ((nodeRect n).Inner x ∧ (nodeRect m).Inner x)

theorem leavesDisjoint_of_tiles {N : List (Node K W)} {dom : Rect K} (h : Tiles dom (leafRects N)) : LeavesDisjoint N := by
  have hp := h.disjoint
  rw [leafRects, List.pairwise_map, List.pairwise_filter, List.pairwise_iff_getElem] at hp
  have key : ∀ (i k : ℕ) (n m : Node K W), N[i]? = some n → N[k]? = some m → n.children = none → m.children = none →
      i < k → ∀ x, ¬ ((nodeRect n).Inner x ∧ (nodeRect m).Inner x) := by
    intro i k n m hi hk hn hm hik
    obtain ⟨li, ei⟩ := List.getElem?_eq_some_iff.1 hi
    obtain ⟨lk, ek⟩ := List.getElem?_eq_some_iff.1 hk
    have := hp i k li lk hik
    rw [ei, ek] at this
    exact this (by simp [Node.isLeaf, hn]) (by simp [Node.isLeaf, hm])
  intro i k n m hi hk hn hm hik x hx
  rcases Nat.lt_or_gt_of_ne hik with h | h
  · exact key i k n m hi hk hn hm h x hx
  · exact key k i m n hk hi hm hn h x hx.symm

/-- The vertices of edge `e` of a leaf: its corner and corners of leaves inside the edge, in the order of the edge. -/
structure EdgeVertices (pt : K × K → W) (eps : K) (N : List (Node K W)) (n : Node K W) (e : Fin 4)
    (l : List (SPoint K W)) : Prop where
  leaf : ∀ c ∈ l, ∃ (k : ℕ) (L : Node K W), N[k]? = some L ∧ L.children = none ∧ c = L.corners (e + 2)
  line : ∀ c ∈ l, coord c.uv ((e.val + 1) % 2) = (nodeRect n).line e
  inside : ∀ c ∈ l, (nodeRect n).lo e + eps < coord c.uv (e.val % 2) ∧ coord c.uv (e.val % 2) < (nodeRect n).hi e - eps
  point : ∀ c ∈ l, c.point = pt c.uv
  sorted : l.Pairwise fun c d => Before e (coord c.uv (e.val % 2)) (coord d.uv (e.val % 2))

theorem all_corners {pt : K × K → W} {dom : Rect K} {top eps : K} (he : 0 ≤ eps) {N : List (Node K W)}
    (hN : TreeOK pt dom top N) {i : ℕ} {n : Node K W} (hi : N[i]? = some n) (e : Fin 4) :
    ∃ l, getAllCorners eps N n e = .ok (n.corners e :: l) ∧ EdgeVertices pt eps N n e l ∧
      ∀ (j : ℕ) (m : Node K W), n.neighbors e = some j → N[j]? = some m → (nodeRect n).EdgeIn e (nodeRect m) →
        ∀ x, (nodeRect n).lo e + eps < x → x < (nodeRect n).hi e - eps →
          (∃ c ∈ l, coord c.uv (e.val % 2) = x) ∨
          ∃ (k : ℕ) (L : Node K W), N[k]? = some L ∧ L.children = none ∧ (nodeRect L).line (e + 2) = (nodeRect n).line e ∧
            (nodeRect L).lo e < x ∧ x < (nodeRect L).hi e := by
  have hn := hN i n hi
  cases hnb : n.neighbors e with
  | none =>
    refine ⟨[], ?_, ⟨by simp, by simp, by simp, by simp, by simp⟩, by simp⟩
    rw [getAllCorners, hnb]
    rfl
  | some j =>
    obtain ⟨m, hj, hor⟩ := hn.neighbour e j hnb
    obtain ⟨l, hl, hel⟩ := edge_spec hN (e + 2) (N.length + 1) j m hj (by omega)
    have e2 : (e + 2).val % 2 = e.val % 2 := by fin_cases e <;> rfl
    have e3 : ((e + 2).val + 1) % 2 = (e.val + 1) % 2 := by fin_cases e <;> rfl
    have e4 : e + 2 + 2 = e := by fin_cases e <;> rfl
    have lo2 : ∀ r : Rect K, r.lo (e + 2) = r.lo e := by intro r; fin_cases e <;> rfl
    have hi2 : ∀ r : Rect K, r.hi (e + 2) = r.hi e := by intro r; fin_cases e <;> rfl
    have bef : ∀ x y : K, Before (e + 2) x y → Before e y x := by
      intro x y h
      fin_cases e <;> exact h
    have c0 : coord (n.corners 0).uv (e.val % 2) = (nodeRect n).lo e := by fin_cases e <;> rfl
    have c2 : coord (n.corners 2).uv (e.val % 2) = (nodeRect n).hi e := by fin_cases e <;> rfl
    have unfolded : getAllCorners eps N n e = .ok (n.corners e :: (l.filter fun c =>
        decide ((nodeRect n).lo e + eps < coord c.uv (e.val % 2) ∧ coord c.uv (e.val % 2) < (nodeRect n).hi e - eps)).reverse) := by
      rw [getAllCorners, hnb]
      simp only []
      rw [hl, ok_bind, c0, c2]
      rfl
    have inl : ∀ c, c ∈ (l.filter fun c => decide ((nodeRect n).lo e + eps < coord c.uv (e.val % 2) ∧
        coord c.uv (e.val % 2) < (nodeRect n).hi e - eps)).reverse ↔
        c ∈ l ∧ (nodeRect n).lo e + eps < coord c.uv (e.val % 2) ∧ coord c.uv (e.val % 2) < (nodeRect n).hi e - eps := by
      intro c
      rw [List.mem_reverse, List.mem_filter, decide_eq_true_eq]
    refine ⟨_, unfolded, ?_, ?_⟩
    · refine ⟨?_, ?_, ?_, ?_, ?_⟩
      · intro c hc
        obtain ⟨k, L, a, b, c', -⟩ := hel.leaf c ((inl c).1 hc).1
        exact ⟨k, L, a, b, c'⟩
      · intro c hc
        obtain ⟨k, L, a, b, c', d, -, f⟩ := hel.leaf c ((inl c).1 hc).1
        rcases hor with ho | ⟨he3, -, hv⟩
        · rw [c', (hN k L a).corner, ← e3, corner_line, d, ho.1]
        · -- nothing passes the filter
          exfalso
          subst he3
          obtain ⟨-, hc1, hc2⟩ := (inl c).1 hc
          have h1 : (nodeRect m).v0 ≤ coord c.uv 1 := by
            rcases hel.start c ((inl c).1 hc).1 with h | h
            · exact h.le
            · exact le_of_lt h
          have h2 : coord c.uv 1 < (nodeRect n).v1 - eps := hc2
          linarith
      · intro c hc
        exact ((inl c).1 hc).2
      · intro c hc
        obtain ⟨k, L, a, b, c', -⟩ := hel.leaf c ((inl c).1 hc).1
        rw [c', (hN k L a).point, (hN k L a).corner]
      · rw [List.pairwise_reverse]
        refine (hel.sorted.filter _).imp ?_
        intro c d h
        rw [e2] at h
        exact bef _ _ h
    · intro j' m' hj' hm' hin x hx1 hx2
      obtain rfl := Option.some.inj hj'
      rw [hj] at hm'
      obtain rfl := Option.some.inj hm'
      obtain ⟨i1, i2, i3⟩ := hin
      have b1 : (nodeRect m).lo e < x := by linarith
      have b2 : x < (nodeRect m).hi e := by linarith
      rcases hel.cover x (by rw [lo2]; exact b1.le) (by rw [hi2]; exact b2.le) with ⟨c, hc, ec⟩ | h | ⟨k, L, q1, q2, q3, q4, q5⟩
      · rw [e2] at ec
        exact .inl ⟨c, (inl c).2 ⟨hc, by rw [ec]; exact ⟨hx1, hx2⟩⟩, ec⟩
      · exfalso
        unfold Rect.stop at h
        rw [lo2, hi2] at h
        split_ifs at h
        · exact b2.ne h
        · exact b1.ne' h
      · rw [lo2] at q4
        rw [hi2] at q5
        exact .inr ⟨k, L, q1, q2, q3.trans i1, q4, q5⟩

/-- No T-junctions: if a corner of a leaf lies inside an edge of another leaf (by more than `eps`), it is one of the
    vertices of that edge.  The exceptions are the western edges in the top row. -/
theorem no_t_junction {pt : K × K → W} {dom : Rect K} {top eps : K} (heps : 0 ≤ eps) {N : List (Node K W)}
    (hN : TreeOK pt dom top N) (hd : LeavesDisjoint N) {i k : ℕ} {n m : Node K W} (hi : N[i]? = some n)
    (hk : N[k]? = some m) (hn : n.children = none) (hm : m.children = none) (e f : Fin 4)
    (hex : ¬ (e = 3 ∧ n.neighbors 3 = none ∧ (nodeRect n).line 3 ≠ dom.line 3))
    (h1 : coord (m.corners f).uv ((e.val + 1) % 2) = (nodeRect n).line e)
    (h2 : (nodeRect n).lo e + eps < coord (m.corners f).uv (e.val % 2))
    (h3 : coord (m.corners f).uv (e.val % 2) < (nodeRect n).hi e - eps) :
    ∃ l, getAllCorners eps N n e = .ok (n.corners e :: l) ∧
      ∃ c ∈ l, c.uv = (m.corners f).uv ∧ c.point = (m.corners f).point := by
  have nok := hN i n hi
  have mok := hN k m hk
  obtain ⟨l, el, vl, comp⟩ := all_corners heps hN hi e
  refine ⟨l, el, ?_⟩
  have hcf := mok.corner f
  obtain ⟨x, hx⟩ : ∃ x, x = coord (m.corners f).uv (e.val % 2) := ⟨_, rfl⟩
  rw [← hx] at h2 h3
  obtain ⟨cl, cr⟩ := corner_cases (nodeRect m) e f
  rw [← hcf] at cl cr
  rw [← hx] at cr
  rw [h1] at cl
  have mlt := pos_edge mok.pos e
  have r1 : (nodeRect m).lo e ≤ x := by rcases cr with h | h <;> rw [h]; exact mlt.le
  have r2 : x ≤ (nodeRect m).hi e := by rcases cr with h | h <;> rw [h]; exact mlt.le
  have in1 : (nodeRect n).lo e < x := by linarith
  have in2 : x < (nodeRect n).hi e := by linarith
  -- the vertex is not on the side of `n`
  have other : (nodeRect n).line e = (nodeRect m).line (e + 2) := by
    rcases cl with h | h
    · exfalso
      obtain ⟨y, y1, y2⟩ := overlap nok.pos mok.pos e h.symm in1 in2 r1 r2
      by_cases hik : i = k
      · subst hik
        rw [hi] at hk
        obtain rfl := Option.some.inj hk
        rcases cr with h | h
        · exact in1.ne' h
        · exact in2.ne h
      · exact hd i k n m hi hk hn hm hik y ⟨y1, y2⟩
    · exact h
  have bnd : (nodeRect n).line e = dom.line e → False := by
    intro hb
    rw [hb] at other
    obtain ⟨s1, s2, s3, s4⟩ := mok.sub
    obtain ⟨p1, p2⟩ := mok.pos
    fin_cases e
    · have : dom.v0 = (nodeRect m).v1 := other
      linarith
    · have : dom.u1 = (nodeRect m).u0 := other
      linarith
    · have : dom.v1 = (nodeRect m).v0 := other
      linarith
    · have : dom.u0 = (nodeRect m).u1 := other
      linarith
  cases hnb : n.neighbors e with
  | none =>
    exfalso
    rcases nok.boundary e hnb with h | ⟨h, -⟩
    · exact bnd h
    · subst h
      exact hex ⟨rfl, hnb, fun h => bnd h⟩
  | some j =>
    obtain ⟨nb, hj, hor⟩ := nok.neighbour e j hnb
    rcases hor with hin | ⟨h, hb, -⟩
    · rcases comp j nb hnb hj hin x h2 h3 with ⟨c, hc, ec⟩ | ⟨k', L, q1, q2, q3, q4, q5⟩
      · have huv : c.uv = (m.corners f).uv := uv_ext e (by rw [ec, hx]) (by rw [vl.line c hc, h1])
        exact ⟨c, hc, huv, by rw [vl.point c hc, huv, mok.point, hcf]⟩
      · exfalso
        have lo2 : ∀ r : Rect K, r.lo (e + 2) = r.lo e := by intro r; fin_cases e <;> rfl
        have hi2 : ∀ r : Rect K, r.hi (e + 2) = r.hi e := by intro r; fin_cases e <;> rfl
        obtain ⟨y, y1, y2⟩ := overlap (hN k' L q1).pos mok.pos (e + 2) (by rw [q3, other])
          (by rw [lo2]; exact q4) (by rw [hi2]; exact q5) (by rw [lo2]; exact r1) (by rw [hi2]; exact r2)
        by_cases hkk : k' = k
        · subst hkk
          rw [q1] at hk
          obtain rfl := Option.some.inj hk
          rcases cr with h | h
          · exact q4.ne' h
          · exact q5.ne h
        · exact hd k' k L m q1 hk q2 hm hkk y ⟨y1, y2⟩
    · subst h
      exact absurd hb fun h => bnd h

end

end Curvo.Props

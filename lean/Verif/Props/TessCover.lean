/-
  C69, continued: the triangles of the adaptive surface tessellation cover the domain and do not overlap.
-/
import Verif.Props.TessArea

set_option linter.unusedSectionVars false

namespace Curvo.Spec

variable {K : Type} [Field K] [LinearOrder K]

/-- A triangle with vertices in counterclockwise order contains a point (on its boundary or inside). -/
def InTri (t : (K × K) × (K × K) × (K × K)) (x : K × K) : Prop :=
  0 ≤ tri2 t.1 t.2.1 x ∧ 0 ≤ tri2 t.2.1 t.2.2 x ∧ 0 ≤ tri2 t.2.2 t.1 x

/-- A point lies strictly inside a triangle with vertices in counterclockwise order. -/
def InsideTri (t : (K × K) × (K × K) × (K × K)) (x : K × K) : Prop :=
  0 < tri2 t.1 t.2.1 x ∧ 0 < tri2 t.2.1 t.2.2 x ∧ 0 < tri2 t.2.2 t.1 x

/-- The triangle of a face of a mesh with the vertices `xs`. -/
def faceTri (xs : List (K × K)) (f : ℕ × ℕ × ℕ) : (K × K) × (K × K) × (K × K) :=
  (xs.getD f.1 0, xs.getD f.2.1 0, xs.getD f.2.2 0)

/-- Triangles without a common inner point. -/
def Apart (s t : (K × K) × (K × K) × (K × K)) : Prop := ∀ x, ¬ (InsideTri s x ∧ InsideTri t x)

end Curvo.Spec

namespace Curvo.Props

open Curvo Curvo.Tess Curvo.Spec

variable {K : Type} [Field K] [LinearOrder K] [IsStrictOrderedRing K] {W : Type} [AddCommGroup W]

theorem apart_symm : Std.Symm (Apart (K := K)) := ⟨fun _ _ h x hx => h x ⟨hx.2, hx.1⟩⟩

/-- The sign of a function changes somewhere along a list. -/
theorem pairs_change {α : Type} (g : α → K) : ∀ (l : List α) (a b : α), 0 ≤ g a → g b ≤ 0 →
    ∃ p ∈ pairs (a :: (l ++ [b])), 0 ≤ g p.1 ∧ g p.2 ≤ 0
  | [], a, b, ha, hb => ⟨(a, b), by simp [pairs], ha, hb⟩
  | c :: l, a, b, ha, hb => by
    rw [List.cons_append, pairs_cons]
    rcases le_total (g c) 0 with h | h
    · exact ⟨(a, c), by simp, ha, h⟩
    · obtain ⟨p, hp, h1, h2⟩ := pairs_change g l c b h hb
      exact ⟨p, List.mem_cons_of_mem _ hp, h1, h2⟩

theorem pairs_pairwise {α : Type} {R : α → α → Prop} : ∀ {l : List α}, l.Pairwise R →
    (pairs l).Pairwise fun p q => p.2 = q.1 ∨ R p.2 q.1
  | [], _ => by simp [pairs]
  | [a], _ => by simp [pairs]
  | a :: b :: l, h => by
    rw [pairs_cons, List.pairwise_cons]
    have h' := (List.pairwise_cons.1 h).2
    refine ⟨fun q hq => ?_, pairs_pairwise h'⟩
    rcases List.mem_cons.1 (pairs_mem hq).1 with e | e
    · exact Or.inl e.symm
    · exact Or.inr ((List.pairwise_cons.1 h').1 _ e)

/-- Along an edge, the side of a point as seen from the centre is monotone. -/
theorem edge_mono {e : Fin 4} {m x p q s : K × K} {c : K} (hp : Rect.across e p = c) (hq : Rect.across e q = c)
    (hs : Rect.across e s = c) (h1 : Before e (Rect.along e p) (Rect.along e q))
    (h2 : q = s ∨ Before e (Rect.along e q) (Rect.along e s)) (hpq : tri2 m q x < tri2 m p x) : tri2 m s x ≤ tri2 m q x := by
  rcases h2 with rfl | h2
  · exact le_rfl
  obtain ⟨p1, p2⟩ := p
  obtain ⟨q1, q2⟩ := q
  obtain ⟨s1, s2⟩ := s
  subst hp
  fin_cases e
  · replace hq : q2 = p2 := hq
    replace hs : s2 = p2 := hs
    replace h1 : p1 < q1 := h1
    replace h2 : q1 < s1 := h2
    subst hq hs
    simp only [tri2] at hpq ⊢
    have : (q1 - p1) * (x.2 - m.2) < 0 := by linarith
    have := (pos_iff_neg_of_mul_neg this).1 (sub_pos.2 h1)
    have := mul_nonpos_of_nonneg_of_nonpos (sub_pos.2 h2).le this.le
    linarith
  · replace hq : q1 = p1 := hq
    replace hs : s1 = p1 := hs
    replace h1 : p2 < q2 := h1
    replace h2 : q2 < s2 := h2
    subst hq hs
    simp only [tri2] at hpq ⊢
    have : (q2 - p2) * (m.1 - x.1) < 0 := by linarith
    have := (pos_iff_neg_of_mul_neg this).1 (sub_pos.2 h1)
    have := mul_nonpos_of_nonneg_of_nonpos (sub_pos.2 h2).le this.le
    linarith
  · replace hq : q2 = p2 := hq
    replace hs : s2 = p2 := hs
    replace h1 : q1 < p1 := h1
    replace h2 : s1 < q1 := h2
    subst hq hs
    simp only [tri2] at hpq ⊢
    have : (p1 - q1) * (m.2 - x.2) < 0 := by linarith
    have := (pos_iff_neg_of_mul_neg this).1 (sub_pos.2 h1)
    have := mul_nonpos_of_nonneg_of_nonpos (sub_pos.2 h2).le this.le
    linarith
  · replace hq : q1 = p1 := hq
    replace hs : s1 = p1 := hs
    replace h1 : q2 < p2 := h1
    replace h2 : s2 < q2 := h2
    subst hq hs
    simp only [tri2] at hpq ⊢
    have : (p2 - q2) * (x.1 - m.1) < 0 := by linarith
    have := (pos_iff_neg_of_mul_neg this).1 (sub_pos.2 h1)
    have := mul_nonpos_of_nonneg_of_nonpos (sub_pos.2 h2).le this.le
    linarith

/-- The same, towards the beginning of the edge. -/
theorem edge_mono' {e : Fin 4} {m x p q s : K × K} {c : K} (hp : Rect.across e p = c) (hq : Rect.across e q = c)
    (hs : Rect.across e s = c) (h1 : Before e (Rect.along e p) (Rect.along e q))
    (h2 : s = p ∨ Before e (Rect.along e s) (Rect.along e p)) (hpq : tri2 m q x < tri2 m p x) : tri2 m p x ≤ tri2 m s x := by
  rcases h2 with rfl | h2
  · exact le_rfl
  by_contra hcon
  push Not at hcon
  obtain ⟨p1, p2⟩ := p
  obtain ⟨q1, q2⟩ := q
  obtain ⟨s1, s2⟩ := s
  subst hp
  fin_cases e
  · replace hq : q2 = p2 := hq
    replace hs : s2 = p2 := hs
    replace h1 : p1 < q1 := h1
    replace h2 : s1 < p1 := h2
    subst hq hs
    simp only [tri2] at hpq hcon
    have : (q1 - p1) * (x.2 - m.2) < 0 := by linarith
    have := (pos_iff_neg_of_mul_neg this).1 (sub_pos.2 h1)
    have := mul_nonpos_of_nonneg_of_nonpos (sub_pos.2 h2).le this.le
    linarith
  · replace hq : q1 = p1 := hq
    replace hs : s1 = p1 := hs
    replace h1 : p2 < q2 := h1
    replace h2 : s2 < p2 := h2
    subst hq hs
    simp only [tri2] at hpq hcon
    have : (q2 - p2) * (m.1 - x.1) < 0 := by linarith
    have := (pos_iff_neg_of_mul_neg this).1 (sub_pos.2 h1)
    have := mul_nonpos_of_nonneg_of_nonpos (sub_pos.2 h2).le this.le
    linarith
  · replace hq : q2 = p2 := hq
    replace hs : s2 = p2 := hs
    replace h1 : q1 < p1 := h1
    replace h2 : p1 < s1 := h2
    subst hq hs
    simp only [tri2] at hpq hcon
    have : (p1 - q1) * (m.2 - x.2) < 0 := by linarith
    have := (pos_iff_neg_of_mul_neg this).1 (sub_pos.2 h1)
    have := mul_nonpos_of_nonneg_of_nonpos (sub_pos.2 h2).le this.le
    linarith
  · replace hq : q1 = p1 := hq
    replace hs : s1 = p1 := hs
    replace h1 : q2 < p2 := h1
    replace h2 : p2 < s2 := h2
    subst hq hs
    simp only [tri2] at hpq hcon
    have : (p2 - q2) * (x.1 - m.1) < 0 := by linarith
    have := (pos_iff_neg_of_mul_neg this).1 (sub_pos.2 h1)
    have := mul_nonpos_of_nonneg_of_nonpos (sub_pos.2 h2).le this.le
    linarith

theorem tri2_swap (a b x : K × K) : tri2 a b x = - tri2 b a x := by
  simp only [tri2]
  ring

/-- A point of the rectangle lies to the left of its edges. -/
theorem edge_left {r : Rect K} {e : Fin 4} {p q x : K × K} (hx : r.Mem x) (hp : Rect.across e p = r.line e)
    (hq : Rect.across e q = r.line e) (h : Before e (Rect.along e p) (Rect.along e q)) : 0 ≤ tri2 p q x := by
  obtain ⟨x1, x2, x3, x4⟩ := hx
  obtain ⟨p1, p2⟩ := p
  obtain ⟨q1, q2⟩ := q
  fin_cases e
  · replace hp : p2 = r.v0 := hp
    replace hq : q2 = r.v0 := hq
    replace h : p1 < q1 := h
    simp only [tri2, hp, hq]
    have := mul_nonneg (sub_pos.2 h).le (sub_nonneg.2 x3)
    linarith
  · replace hp : p1 = r.u1 := hp
    replace hq : q1 = r.u1 := hq
    replace h : p2 < q2 := h
    simp only [tri2, hp, hq]
    have := mul_nonneg (sub_pos.2 h).le (sub_nonneg.2 x2)
    linarith
  · replace hp : p2 = r.v1 := hp
    replace hq : q2 = r.v1 := hq
    replace h : q1 < p1 := h
    simp only [tri2, hp, hq]
    have := mul_nonneg (sub_pos.2 h).le (sub_nonneg.2 x4)
    linarith
  · replace hp : p1 = r.u0 := hp
    replace hq : q1 = r.u0 := hq
    replace h : q2 < p2 := h
    simp only [tri2, hp, hq]
    have := mul_nonneg (sub_pos.2 h).le (sub_nonneg.2 x1)
    linarith

/-- The fan from the centre over an edge covers the triangle of the edge, without overlaps. -/
theorem EdgeChain.cover {r : Rect K} (hr : r.Pos) {e : Fin 4} {l : List (K × K)} (h : EdgeChain r e l) {m x : K × K} (hx : r.Mem x)
    (h0 : 0 ≤ tri2 m (r.corner e) x) (h1 : tri2 m (r.corner (e + 1)) x ≤ 0) :
    ∃ p ∈ pairs (r.corner e :: (l ++ [r.corner (e + 1)])), InTri (m, p.1, p.2) x := by
  obtain ⟨f1, f2⟩ := h.full hr
  obtain ⟨p, hp, a, b⟩ := pairs_change (fun q => tri2 m q x) l _ _ h0 h1
  refine ⟨p, hp, a, edge_left hx (f2 _ (pairs_mem hp).1) (f2 _ (pairs_mem hp).2) (pairs_of_pairwise f1 p hp), ?_⟩
  show 0 ≤ tri2 p.2 m x
  rw [tri2_swap]
  linarith

theorem EdgeChain.apart {r : Rect K} (hr : r.Pos) {e : Fin 4} {l : List (K × K)} (h : EdgeChain r e l) (m : K × K) :
    (pairs (r.corner e :: (l ++ [r.corner (e + 1)]))).Pairwise fun p q => Apart (m, p.1, p.2) (m, q.1, q.2) := by
  obtain ⟨f1, f2⟩ := h.full hr
  refine (List.Pairwise.imp_of_mem ?_ (pairs_pairwise f1))
  rintro p q hp hq hpq x ⟨⟨a1, -, a3⟩, ⟨b1, -, -⟩⟩
  replace a3 : 0 < tri2 p.2 m x := a3
  rw [tri2_swap] at a3
  have a1' : 0 < tri2 m p.1 x := a1
  have b1' : 0 < tri2 m q.1 x := b1
  have := edge_mono (f2 _ (pairs_mem hp).1) (f2 _ (pairs_mem hp).2) (f2 _ (pairs_mem hq).1)
    (pairs_of_pairwise f1 p hp) hpq (show tri2 m p.2 x < tri2 m p.1 x by linarith)
  linarith

/-- A point inside a triangle of the fan over an edge lies between the corners of the edge as seen from the centre. -/
theorem EdgeChain.between {r : Rect K} (hr : r.Pos) {e : Fin 4} {l : List (K × K)} (h : EdgeChain r e l) {m x : K × K}
    {p : (K × K) × (K × K)} (hp : p ∈ pairs (r.corner e :: (l ++ [r.corner (e + 1)]))) (hx : InsideTri (m, p.1, p.2) x) :
    0 < tri2 m (r.corner e) x ∧ tri2 m (r.corner (e + 1)) x < 0 := by
  obtain ⟨f1, f2⟩ := h.full hr
  obtain ⟨a1, -, a3⟩ := hx
  replace a3 : 0 < tri2 p.2 m x := a3
  replace a1 : 0 < tri2 m p.1 x := a1
  rw [tri2_swap] at a3
  have hlt : tri2 m p.2 x < tri2 m p.1 x := by linarith
  have hb := pairs_of_pairwise f1 p hp
  obtain ⟨m1, m2⟩ := pairs_mem hp
  constructor
  · have := edge_mono' (s := r.corner e) (f2 _ m1) (f2 _ m2) (f2 _ List.mem_cons_self) hb (by
      rcases List.mem_cons.1 m1 with e | e
      · exact Or.inl e.symm
      · exact Or.inr ((List.pairwise_cons.1 f1).1 _ e)) hlt
    linarith
  · have := edge_mono (s := r.corner (e + 1)) (f2 _ m1) (f2 _ m2) (f2 _ (by simp)) hb (by
      rw [← List.cons_append] at m2 f1
      rcases List.mem_append.1 m2 with e | e
      · exact Or.inr ((List.pairwise_append.1 f1).2.2 _ e _ (by simp))
      · exact Or.inl (List.mem_singleton.1 e)) hlt
    linarith

/-- The faces of the fan around the last vertex. -/
theorem fan_tris (a c : K × K) (R : List (K × K)) :
    (((List.range (R.length + 1)).map fun i => (0 + (R.length + 1), 0 + (if i = 0 then R.length + 1 - 1 else i - 1), 0 + i)).map
      (faceTri ((a :: R) ++ [c]))).Perm ((pairs ((a :: R) ++ [a])).map fun p => (c, p.1, p.2)) := by
  have hc : ((a :: R) ++ [c]).getD (R.length + 1) 0 = c := by
    rw [List.getD_eq_getElem?_getD, List.getElem?_append_right (by simp)]
    simp
  have hg : ∀ i, i < R.length + 1 → ((a :: R) ++ [c]).getD i 0 = (a :: R).getD i 0 := by
    intro i hi
    rw [List.getD_eq_getElem?_getD, List.getD_eq_getElem?_getD, List.getElem?_append_left (by simpa using hi)]
  have h1 : ((List.range (R.length + 1)).map fun i => (0 + (R.length + 1), 0 + (if i = 0 then R.length + 1 - 1 else i - 1), 0 + i)).map
      (faceTri ((a :: R) ++ [c])) = (c, (a :: R).getD R.length 0, a) ::
        (List.range R.length).map fun i => (c, (a :: R).getD i 0, (a :: R).getD (i + 1) 0) := by
    rw [List.range_succ_eq_map, List.map_cons, List.map_cons, List.map_map, List.map_map]
    congr 1
    · simp only [faceTri, if_true, Nat.zero_add, Nat.add_sub_cancel, hc]
      rw [hg _ (by omega), hg _ (by omega)]
      rfl
    · apply List.map_congr_left
      intro i hi
      have hi := List.mem_range.1 hi
      simp only [Function.comp, faceTri, Nat.succ_eq_add_one, Nat.add_eq_zero_iff, one_ne_zero, and_false, if_false, Nat.zero_add,
        Nat.add_sub_cancel, hc]
      rw [hg _ (by omega), hg _ (by omega)]
  have h2 : (pairs ((a :: R) ++ [a])).map (fun p => (c, p.1, p.2)) =
      ((List.range R.length).map fun i => (c, (a :: R).getD i 0, (a :: R).getD (i + 1) 0)) ++
        [(c, (a :: R).getD R.length 0, a)] := by
    have hg' : ∀ i, i < R.length + 1 → (a :: (R ++ [a])).getD i 0 = (a :: R).getD i 0 := by
      intro i hi
      rw [← List.cons_append, List.getD_eq_getElem?_getD, List.getD_eq_getElem?_getD,
        List.getElem?_append_left (by simpa using hi)]
    rw [List.cons_append, pairs_range 0, List.map_map, List.length_append, List.length_singleton, List.range_succ,
      List.map_append]
    congr 1
    · apply List.map_congr_left
      intro i hi
      have hi := List.mem_range.1 hi
      simp only [Function.comp]
      rw [hg' _ (by omega), hg' _ (by omega)]
    · simp only [List.map_cons, List.map_nil, Function.comp]
      rw [hg' _ (by omega)]
      congr 3
      rw [← List.cons_append, List.getD_eq_getElem?_getD, List.getElem?_append_right (by simp)]
      simp
  rw [h1, h2]
  exact (List.perm_append_singleton _ _).symm

/-- A positive triangle with its vertices in a half plane lies inside of the half plane. -/
theorem half_plane {l1 l2 l3 a b c : K} (h1 : 0 < l1) (h2 : 0 < l2) (h3 : 0 < l3) (ha : 0 ≤ a) (hb : 0 ≤ b) (hc : 0 ≤ c)
    (h : ¬ (a = 0 ∧ b = 0 ∧ c = 0)) : 0 < l1 * a + l2 * b + l3 * c := by
  have p1 := mul_nonneg h1.le ha
  have p2 := mul_nonneg h2.le hb
  have p3 := mul_nonneg h3.le hc
  rcases ha.lt_or_eq with ha | ha
  · have := mul_pos h1 ha; linarith
  rcases hb.lt_or_eq with hb | hb
  · have := mul_pos h2 hb; linarith
  rcases hc.lt_or_eq with hc | hc
  · have := mul_pos h3 hc; linarith
  exact absurd ⟨ha.symm, hb.symm, hc.symm⟩ h

theorem inside_rect {r : Rect K} {t : (K × K) × (K × K) × (K × K)} (h1 : r.Mem t.1) (h2 : r.Mem t.2.1) (h3 : r.Mem t.2.2)
    {x : K × K} (hx : InsideTri t x) : r.Inner x := by
  obtain ⟨⟨a1, a2⟩, ⟨b1, b2⟩, ⟨c1, c2⟩⟩ := t
  obtain ⟨x1, x2⟩ := x
  obtain ⟨i1, i2, i3⟩ := hx
  simp only [Rect.Mem] at h1 h2 h3
  obtain ⟨ha1, ha2, ha3, ha4⟩ := h1
  obtain ⟨hb1, hb2, hb3, hb4⟩ := h2
  obtain ⟨hc1, hc2, hc3, hc4⟩ := h3
  simp only [tri2] at i1 i2 i3
  have hD : 0 < (b1 - a1) * (c2 - a2) - (b2 - a2) * (c1 - a1) := by linarith
  have step : ∀ {y z : K}, ((b1 - a1) * (c2 - a2) - (b2 - a2) * (c1 - a1)) * (y - z) > 0 → z < y := by
    intro y z h
    have := (pos_iff_pos_of_mul_pos h).1 hD
    linarith
  refine ⟨step ?_, step ?_, step ?_, step ?_⟩
  · have := half_plane i2 i3 i1 (sub_nonneg.2 ha1) (sub_nonneg.2 hb1) (sub_nonneg.2 hc1) (by
      rintro ⟨e1, e2, e3⟩
      have e4 : b1 - a1 = 0 := by linarith
      have e5 : c1 - a1 = 0 := by linarith
      rw [e4, e5] at hD
      simp at hD)
    show 0 < _ * (x1 - r.u0)
    calc (0 : K) < _ := this
      _ = _ := by ring
  · have := half_plane i2 i3 i1 (sub_nonneg.2 ha2) (sub_nonneg.2 hb2) (sub_nonneg.2 hc2) (by
      rintro ⟨e1, e2, e3⟩
      have e4 : b1 - a1 = 0 := by linarith
      have e5 : c1 - a1 = 0 := by linarith
      rw [e4, e5] at hD
      simp at hD)
    show 0 < _ * (r.u1 - x1)
    calc (0 : K) < _ := this
      _ = _ := by ring
  · have := half_plane i2 i3 i1 (sub_nonneg.2 ha3) (sub_nonneg.2 hb3) (sub_nonneg.2 hc3) (by
      rintro ⟨e1, e2, e3⟩
      have e4 : b2 - a2 = 0 := by linarith
      have e5 : c2 - a2 = 0 := by linarith
      rw [e4, e5] at hD
      simp at hD)
    show 0 < _ * (x2 - r.v0)
    calc (0 : K) < _ := this
      _ = _ := by ring
  · have := half_plane i2 i3 i1 (sub_nonneg.2 ha4) (sub_nonneg.2 hb4) (sub_nonneg.2 hc4) (by
      rintro ⟨e1, e2, e3⟩
      have e4 : b2 - a2 = 0 := by linarith
      have e5 : c2 - a2 = 0 := by linarith
      rw [e4, e5] at hD
      simp at hD)
    show 0 < _ * (r.v1 - x2)
    calc (0 : K) < _ := this
      _ = _ := by ring

theorem EdgeChain.mem {r : Rect K} (hr : r.Pos) {e : Fin 4} {l : List (K × K)} (h : EdgeChain r e l) : ∀ p ∈ l, r.Mem p := by
  obtain ⟨r1, r2⟩ := hr
  rintro ⟨p1, p2⟩ hp
  have h1 := h.line _ hp
  obtain ⟨h2, h3⟩ := h.inside _ hp
  fin_cases e
  · replace h1 : p2 = r.v0 := h1
    subst h1
    exact ⟨le_of_lt h2, le_of_lt h3, le_rfl, r2.le⟩
  · replace h1 : p1 = r.u1 := h1
    subst h1
    exact ⟨r1.le, le_rfl, le_of_lt h2, le_of_lt h3⟩
  · replace h1 : p2 = r.v1 := h1
    subst h1
    exact ⟨le_of_lt h2, le_of_lt h3, r2.le, le_rfl⟩
  · replace h1 : p1 = r.u0 := h1
    subst h1
    exact ⟨le_rfl, r1.le, le_of_lt h2, le_of_lt h3⟩

theorem corner_mem {r : Rect K} (hr : r.Pos) (e : Fin 4) : r.Mem (r.corner e) := by
  obtain ⟨r1, r2⟩ := hr
  fin_cases e
  exacts [⟨le_rfl, r1.le, le_rfl, r2.le⟩, ⟨r1.le, le_rfl, le_rfl, r2.le⟩, ⟨r1.le, le_rfl, r2.le, le_rfl⟩,
    ⟨le_rfl, r1.le, r2.le, le_rfl⟩]

theorem rectPolygon_mem {r : Rect K} (hr : r.Pos) {x : Fin 4 → List (K × K)} (hx : ∀ e, EdgeChain r e (x e)) :
    ∀ q ∈ rectPolygon r x, r.Mem q := by
  intro q hq
  simp only [rectPolygon, List.mem_append, List.mem_cons] at hq
  rcases hq with (rfl | h) | (rfl | h) | (rfl | h) | (rfl | h)
  exacts [corner_mem hr 0, (hx 0).mem hr q h, corner_mem hr 1, (hx 1).mem hr q h, corner_mem hr 2, (hx 2).mem hr q h,
    corner_mem hr 3, (hx 3).mem hr q h]

/-- The triangles of a polygon cover the rectangle and do not overlap. -/
theorem polygon_cover {r : Rect K} (hr : r.Pos) {x : Fin 4 → List (K × K)} (hx : ∀ e, EdgeChain r e (x e)) {s : ℕ}
    (hs : s = splitId ([0, 1, 2, 3].map fun e : Fin 4 => r.corner e :: x e)) :
    let P := rectPolygon r x
    let Q := P ++ if P.length ≤ 5 then [] else [(r.midU, r.midV)]
    (∀ z, r.Mem z → ∃ t ∈ (polygonFaces 0 P.length s).map (faceTri Q), InTri t z) ∧
    ((polygonFaces 0 P.length s).map (faceTri Q)).Pairwise Apart := by
  intro P Q
  have hlen : P.length = 4 + ((x 0).length + (x 1).length + (x 2).length + (x 3).length) := by
    simp only [P, rectPolygon, List.length_append, List.length_cons]
    omega
  have hr' := hr
  obtain ⟨r1, r2⟩ := hr
  have one : ∀ e, (x e).length = 1 → ∃ p, x e = [p] ∧ Rect.across e p = r.line e ∧ r.lo e < Rect.along e p ∧
      Rect.along e p < r.hi e := by
    intro e h
    obtain ⟨p, hp⟩ := List.length_eq_one_iff.1 h
    exact ⟨p, hp, (hx e).line p (by simp [hp]), (hx e).inside p (by simp [hp])⟩
  -- three triangles in a fan
  have fan3 : ∀ a b c d e : K × K, (∀ z, r.Mem z → 0 ≤ tri2 a b z ∧ 0 ≤ tri2 b c z ∧ 0 ≤ tri2 c d z ∧ 0 ≤ tri2 d e z ∧ 0 ≤ tri2 e a z) →
      (∀ z, 0 < tri2 a b z → 0 < tri2 e a z → 0 < tri2 c a z → 0 < tri2 a d z → False) →
      (∀ z, r.Mem z → ∃ t ∈ [(a, b, c), (a, d, e), (a, c, d)], InTri t z) ∧ [(a, b, c), (a, d, e), (a, c, d)].Pairwise Apart := by
    intro a b c d e h1 h2
    constructor
    · intro z hz
      obtain ⟨z1, z2, z3, z4, z5⟩ := h1 z hz
      rcases le_total (tri2 a c z) 0 with h | h
      · refine ⟨(a, b, c), by simp, z1, z2, ?_⟩
        show 0 ≤ tri2 c a z
        rw [tri2_swap]; linarith
      · rcases le_total (tri2 a d z) 0 with h' | h'
        · refine ⟨(a, c, d), by simp, h, z3, ?_⟩
          show 0 ≤ tri2 d a z
          rw [tri2_swap]; linarith
        · exact ⟨(a, d, e), by simp, h', z4, z5⟩
    · simp only [List.pairwise_cons, List.mem_cons, List.not_mem_nil, or_false, forall_eq_or_imp, forall_eq,
        List.Pairwise.nil, and_true, false_imp_iff, implies_true]
      refine ⟨⟨?_, ?_⟩, ?_⟩
      · rintro z ⟨⟨p1, -, p3⟩, ⟨q1, -, q3⟩⟩
        exact h2 z p1 q3 p3 q1
      · rintro z ⟨⟨-, -, p3⟩, ⟨q1, -, -⟩⟩
        replace p3 : 0 < tri2 c a z := p3
        replace q1 : 0 < tri2 a c z := q1
        rw [tri2_swap] at p3
        linarith
      · rintro z ⟨⟨p1, -, -⟩, ⟨-, -, q3⟩⟩
        replace p1 : 0 < tri2 a d z := p1
        replace q3 : 0 < tri2 d a z := q3
        rw [tri2_swap] at p1
        linarith
  by_cases h4 : P.length = 4
  · have e0 : x 0 = [] := List.length_eq_zero_iff.1 (by omega)
    have e1 : x 1 = [] := List.length_eq_zero_iff.1 (by omega)
    have e2 : x 2 = [] := List.length_eq_zero_iff.1 (by omega)
    have e3 : x 3 = [] := List.length_eq_zero_iff.1 (by omega)
    have hQ : Q = [r.corner 0, r.corner 1, r.corner 2, r.corner 3] := by
      simp only [Q]
      rw [if_pos (by omega)]
      simp [P, rectPolygon, e0, e1, e2, e3]
    rw [polygonFaces, if_pos h4, hQ]
    have hT : ([(0, 0 + 1, 0 + 3), (0 + 3, 0 + 1, 0 + 2)] : List (ℕ × ℕ × ℕ)).map
        (faceTri [r.corner 0, r.corner 1, r.corner 2, r.corner 3]) =
        [(r.corner 0, r.corner 1, r.corner 3), (r.corner 3, r.corner 1, r.corner 2)] := rfl
    rw [hT]
    constructor
    · intro z hz
      obtain ⟨z1, z2, z3, z4⟩ := hz
      have q1 := mul_nonneg (sub_pos.2 r1).le (sub_nonneg.2 z3)
      have q2 := mul_nonneg (sub_pos.2 r1).le (sub_nonneg.2 z4)
      have q3 := mul_nonneg (sub_pos.2 r2).le (sub_nonneg.2 z1)
      have q4 := mul_nonneg (sub_pos.2 r2).le (sub_nonneg.2 z2)
      rcases le_total 0 (tri2 (r.corner 1) (r.corner 3) z) with h | h
      · refine ⟨_, List.mem_cons_self, ?_, h, ?_⟩ <;> simp [tri2, Rect.corner] <;> linarith
      · refine ⟨_, List.mem_cons_of_mem _ List.mem_cons_self, ?_, ?_, ?_⟩
        · show 0 ≤ tri2 (r.corner 3) (r.corner 1) z
          rw [tri2_swap]; linarith
        · simp [tri2, Rect.corner]; linarith
        · simp [tri2, Rect.corner]; linarith
    · simp only [List.pairwise_cons, List.mem_cons, List.not_mem_nil, or_false, forall_eq,
        List.Pairwise.nil, and_true, false_imp_iff, implies_true]
      rintro z ⟨⟨-, p2, -⟩, ⟨q1, -, -⟩⟩
      replace p2 : 0 < tri2 (r.corner 1) (r.corner 3) z := p2
      replace q1 : 0 < tri2 (r.corner 3) (r.corner 1) z := q1
      rw [tri2_swap] at p2
      linarith
  · by_cases h5 : P.length = 5
    · have hsum : (x 0).length + (x 1).length + (x 2).length + (x 3).length = 1 := by omega
      have hQ' : Q = P := by
        simp only [Q]
        rw [if_pos (by omega), List.append_nil]
      rw [polygonFaces, if_neg h4, if_pos h5, hQ', h5]
      have hcases : ((x 0).length = 1 ∧ x 1 = [] ∧ x 2 = [] ∧ x 3 = []) ∨ (x 0 = [] ∧ (x 1).length = 1 ∧ x 2 = [] ∧ x 3 = []) ∨
          (x 0 = [] ∧ x 1 = [] ∧ (x 2).length = 1 ∧ x 3 = []) ∨ (x 0 = [] ∧ x 1 = [] ∧ x 2 = [] ∧ (x 3).length = 1) := by
        simp only [← List.length_eq_zero_iff]
        omega
      rcases hcases with ⟨h, e1, e2, e3⟩ | ⟨e0, h, e2, e3⟩ | ⟨e0, e1, h, e3⟩ | ⟨e0, e1, e2, h⟩
      · obtain ⟨⟨p1, p2⟩, e0, q1, q2, q3⟩ := one 0 h
        replace q1 : p2 = r.v0 := q1
        replace q2 : r.u0 < p1 := q2
        replace q3 : p1 < r.u1 := q3
        have hs1 : s = 1 := by rw [hs]; simp only [List.map_cons, List.map_nil, e0, e1, e2, e3]; rfl
        have hP : P = [r.corner 0, (p1, p2), r.corner 1, r.corner 2, r.corner 3] := by simp [P, rectPolygon, e0, e1, e2, e3]
        rw [hs1, hP]
        refine fan3 (p1, p2) (r.corner 1) (r.corner 2) (r.corner 3) (r.corner 0) ?_ ?_
        · rintro z ⟨z1, z2, z3, z4⟩
          have := mul_nonneg (sub_pos.2 q2).le (sub_nonneg.2 z3)
          have := mul_nonneg (sub_pos.2 q3).le (sub_nonneg.2 z3)
          have := mul_nonneg (sub_pos.2 r1).le (sub_nonneg.2 z4)
          have := mul_nonneg (sub_pos.2 r2).le (sub_nonneg.2 z1)
          have := mul_nonneg (sub_pos.2 r2).le (sub_nonneg.2 z2)
          refine ⟨?_, ?_, ?_, ?_, ?_⟩ <;> simp [tri2, Rect.corner, q1] <;> linarith
        · intro z z1 z2 z3 z4
          simp [tri2, Rect.corner, q1] at z1 z2 z3 z4
          linarith
      · obtain ⟨⟨p1, p2⟩, e1, q1, q2, q3⟩ := one 1 h
        replace q1 : p1 = r.u1 := q1
        replace q2 : r.v0 < p2 := q2
        replace q3 : p2 < r.v1 := q3
        have hs1 : s = 2 := by rw [hs]; simp only [List.map_cons, List.map_nil, e0, e1, e2, e3]; rfl
        have hP : P = [r.corner 0, r.corner 1, (p1, p2), r.corner 2, r.corner 3] := by simp [P, rectPolygon, e0, e1, e2, e3]
        rw [hs1, hP]
        refine fan3 (p1, p2) (r.corner 2) (r.corner 3) (r.corner 0) (r.corner 1) ?_ ?_
        · rintro z ⟨z1, z2, z3, z4⟩
          have := mul_nonneg (sub_pos.2 q2).le (sub_nonneg.2 z2)
          have := mul_nonneg (sub_pos.2 q3).le (sub_nonneg.2 z2)
          have := mul_nonneg (sub_pos.2 r1).le (sub_nonneg.2 z3)
          have := mul_nonneg (sub_pos.2 r1).le (sub_nonneg.2 z4)
          have := mul_nonneg (sub_pos.2 r2).le (sub_nonneg.2 z1)
          refine ⟨?_, ?_, ?_, ?_, ?_⟩ <;> simp [tri2, Rect.corner, q1] <;> linarith
        · intro z z1 z2 z3 z4
          simp [tri2, Rect.corner, q1] at z1 z2 z3 z4
          linarith
      · obtain ⟨⟨p1, p2⟩, e2, q1, q2, q3⟩ := one 2 h
        replace q1 : p2 = r.v1 := q1
        replace q2 : r.u0 < p1 := q2
        replace q3 : p1 < r.u1 := q3
        have hs1 : s = 3 := by rw [hs]; simp only [List.map_cons, List.map_nil, e0, e1, e2, e3]; rfl
        have hP : P = [r.corner 0, r.corner 1, r.corner 2, (p1, p2), r.corner 3] := by simp [P, rectPolygon, e0, e1, e2, e3]
        rw [hs1, hP]
        refine fan3 (p1, p2) (r.corner 3) (r.corner 0) (r.corner 1) (r.corner 2) ?_ ?_
        · rintro z ⟨z1, z2, z3, z4⟩
          have := mul_nonneg (sub_pos.2 q2).le (sub_nonneg.2 z4)
          have := mul_nonneg (sub_pos.2 q3).le (sub_nonneg.2 z4)
          have := mul_nonneg (sub_pos.2 r1).le (sub_nonneg.2 z3)
          have := mul_nonneg (sub_pos.2 r2).le (sub_nonneg.2 z1)
          have := mul_nonneg (sub_pos.2 r2).le (sub_nonneg.2 z2)
          refine ⟨?_, ?_, ?_, ?_, ?_⟩ <;> simp [tri2, Rect.corner, q1] <;> linarith
        · intro z z1 z2 z3 z4
          simp [tri2, Rect.corner, q1] at z1 z2 z3 z4
          linarith
      · obtain ⟨⟨p1, p2⟩, e3, q1, q2, q3⟩ := one 3 h
        replace q1 : p1 = r.u0 := q1
        replace q2 : r.v0 < p2 := q2
        replace q3 : p2 < r.v1 := q3
        have hs1 : s = 4 := by rw [hs]; simp only [List.map_cons, List.map_nil, e0, e1, e2, e3]; rfl
        have hP : P = [r.corner 0, r.corner 1, r.corner 2, r.corner 3, (p1, p2)] := by simp [P, rectPolygon, e0, e1, e2, e3]
        rw [hs1, hP]
        refine fan3 (p1, p2) (r.corner 0) (r.corner 1) (r.corner 2) (r.corner 3) ?_ ?_
        · rintro z ⟨z1, z2, z3, z4⟩
          have := mul_nonneg (sub_pos.2 q2).le (sub_nonneg.2 z1)
          have := mul_nonneg (sub_pos.2 q3).le (sub_nonneg.2 z1)
          have := mul_nonneg (sub_pos.2 r1).le (sub_nonneg.2 z3)
          have := mul_nonneg (sub_pos.2 r1).le (sub_nonneg.2 z4)
          have := mul_nonneg (sub_pos.2 r2).le (sub_nonneg.2 z2)
          refine ⟨?_, ?_, ?_, ?_, ?_⟩ <;> simp [tri2, Rect.corner, q1] <;> linarith
        · intro z z1 z2 z3 z4
          simp [tri2, Rect.corner, q1] at z1 z2 z3 z4
          linarith
    · obtain ⟨R, hR⟩ : ∃ R, P = r.corner 0 :: R := ⟨_, rfl⟩
      have hl : P.length = R.length + 1 := by rw [hR]; rfl
      have hQ' : Q = (r.corner 0 :: R) ++ [(r.midU, r.midV)] := by
        simp only [Q]
        rw [if_neg (by omega), hR]
      have hf := fan_tris (r.corner 0) (r.midU, r.midV) R
      rw [polygonFaces, if_neg h4, if_neg h5, hQ', hl]
      have hpp := polygon_pairs r x
      rw [show rectPolygon r x = r.corner 0 :: R from hR] at hpp
      rw [hpp] at hf
      have o2 : ∀ z, tri2 (r.midU, r.midV) (r.corner 2) z = - tri2 (r.midU, r.midV) (r.corner 0) z := by
        intro z
        simp [tri2, Rect.corner, Rect.midU, Rect.midV]
        ring
      have o3 : ∀ z, tri2 (r.midU, r.midV) (r.corner 3) z = - tri2 (r.midU, r.midV) (r.corner 1) z := by
        intro z
        simp [tri2, Rect.corner, Rect.midU, Rect.midV]
        ring
      constructor
      · intro z hz
        have key : ∃ p ∈ pairs (r.corner 0 :: (x 0 ++ [r.corner 1])) ++ (pairs (r.corner 1 :: (x 1 ++ [r.corner 2])) ++
            (pairs (r.corner 2 :: (x 2 ++ [r.corner 3])) ++ pairs (r.corner 3 :: (x 3 ++ [r.corner 0])))),
            InTri ((r.midU, r.midV), p.1, p.2) z := by
          simp only [List.mem_append]
          rcases le_total 0 (tri2 (r.midU, r.midV) (r.corner 0) z) with h0 | h0 <;>
            rcases le_total 0 (tri2 (r.midU, r.midV) (r.corner 1) z) with h1 | h1
          · obtain ⟨p, hp, h⟩ := (hx 1).cover hr' hz h1 (show tri2 _ (r.corner 2) z ≤ 0 by rw [o2]; linarith)
            exact ⟨p, Or.inr (Or.inl hp), h⟩
          · obtain ⟨p, hp, h⟩ := (hx 0).cover hr' hz h0 (show tri2 _ (r.corner 1) z ≤ 0 from h1)
            exact ⟨p, Or.inl hp, h⟩
          · obtain ⟨p, hp, h⟩ := (hx 2).cover (m := (r.midU, r.midV)) hr' hz (by rw [o2]; linarith)
              (show tri2 _ (r.corner 3) z ≤ 0 by rw [o3]; linarith)
            exact ⟨p, Or.inr (Or.inr (Or.inl hp)), h⟩
          · obtain ⟨p, hp, h⟩ := (hx 3).cover (m := (r.midU, r.midV)) hr' hz (by rw [o3]; linarith)
              (show tri2 _ (r.corner 0) z ≤ 0 from h0)
            exact ⟨p, Or.inr (Or.inr (Or.inr hp)), h⟩
        obtain ⟨p, hp, h⟩ := key
        exact ⟨_, hf.mem_iff.2 (List.mem_map_of_mem hp), h⟩
      · rw [hf.pairwise_iff (fun {_ _} h => apart_symm.symm _ _ h), List.pairwise_map]
        have a0 := (hx 0).apart hr' (r.midU, r.midV)
        have a1 := (hx 1).apart hr' (r.midU, r.midV)
        have a2 := (hx 2).apart hr' (r.midU, r.midV)
        have a3 := (hx 3).apart hr' (r.midU, r.midV)
        have b0 : ∀ p ∈ pairs (r.corner 0 :: (x 0 ++ [r.corner 1])), ∀ z, InsideTri ((r.midU, r.midV), p.1, p.2) z →
            0 < tri2 (r.midU, r.midV) (r.corner 0) z ∧ tri2 (r.midU, r.midV) (r.corner 1) z < 0 :=
          fun p hp z hz => (hx 0).between hr' hp hz
        have b1 : ∀ p ∈ pairs (r.corner 1 :: (x 1 ++ [r.corner 2])), ∀ z, InsideTri ((r.midU, r.midV), p.1, p.2) z →
            0 < tri2 (r.midU, r.midV) (r.corner 1) z ∧ tri2 (r.midU, r.midV) (r.corner 2) z < 0 :=
          fun p hp z hz => (hx 1).between hr' hp hz
        have b2 : ∀ p ∈ pairs (r.corner 2 :: (x 2 ++ [r.corner 3])), ∀ z, InsideTri ((r.midU, r.midV), p.1, p.2) z →
            0 < tri2 (r.midU, r.midV) (r.corner 2) z ∧ tri2 (r.midU, r.midV) (r.corner 3) z < 0 :=
          fun p hp z hz => (hx 2).between hr' hp hz
        have b3 : ∀ p ∈ pairs (r.corner 3 :: (x 3 ++ [r.corner 0])), ∀ z, InsideTri ((r.midU, r.midV), p.1, p.2) z →
            0 < tri2 (r.midU, r.midV) (r.corner 3) z ∧ tri2 (r.midU, r.midV) (r.corner 0) z < 0 :=
          fun p hp z hz => (hx 3).between hr' hp hz
        refine List.pairwise_append.2 ⟨a0, List.pairwise_append.2 ⟨a1, List.pairwise_append.2 ⟨a2, a3, ?_⟩, ?_⟩, ?_⟩
        · rintro p hp q hq z ⟨hz, hz'⟩
          have := b2 p hp z hz
          have := b3 q hq z hz'
          have := o2 z
          have := o3 z
          linarith
        · rintro p hp q hq z ⟨hz, hz'⟩
          have c1 := b1 p hp z hz
          have := o2 z
          have := o3 z
          rcases List.mem_append.1 hq with hq | hq
          · have := b2 q hq z hz'
            linarith
          · have := b3 q hq z hz'
            linarith
        · rintro p hp q hq z ⟨hz, hz'⟩
          have c1 := b0 p hp z hz
          have := o2 z
          have := o3 z
          rcases List.mem_append.1 hq with hq | hq
          · have := b1 q hq z hz'
            linarith
          · rcases List.mem_append.1 hq with hq | hq
            · have := b2 q hq z hz'
              linarith
            · have := b3 q hq z hz'
              linarith

/-! ### The mesh -/

theorem faceTri_shift (A Q : List (K × K)) (f : ℕ × ℕ × ℕ) :
    faceTri (A ++ Q) (A.length + f.1, A.length + f.2.1, A.length + f.2.2) = faceTri Q f := by
  have h : ∀ i, (A ++ Q).getD (A.length + i) 0 = Q.getD i 0 := by
    intro i
    rw [List.getD_eq_getElem?_getD, List.getD_eq_getElem?_getD, List.getElem?_append_right (by omega)]
    simp
  simp only [faceTri, h]

theorem faceTri_append (A Q : List (K × K)) (f : ℕ × ℕ × ℕ) (h1 : f.1 < A.length) (h2 : f.2.1 < A.length)
    (h3 : f.2.2 < A.length) : faceTri (A ++ Q) f = faceTri A f := by
  have h : ∀ i, i < A.length → (A ++ Q).getD i 0 = A.getD i 0 := by
    intro i hi
    rw [List.getD_eq_getElem?_getD, List.getD_eq_getElem?_getD, List.getElem?_append_left hi]
  simp only [faceTri, h _ h1, h _ h2, h _ h3]

/-- The triangles of a mesh cover the rectangles `rs` and do not overlap. -/
structure CoverOK (t : Surface.Tessellation K W) (rs : List (Rect K)) : Prop where
  cover : ∀ r ∈ rs, ∀ x, r.Mem x → ∃ f ∈ t.faces, InTri (faceTri t.uvs f) x
  inner : ∀ f ∈ t.faces, ∃ r ∈ rs, ∀ x, InsideTri (faceTri t.uvs f) x → r.Inner x
  apart : (t.faces.map (faceTri t.uvs)).Pairwise Apart

theorem cover_leaf {pt : K × K → W} {dom : Rect K} {top eps : K} (he : 0 ≤ eps) {M : Metric K W}
    {ev : K × K → Res (SPoint K W)} {N : List (Node K W)} (hN : TreeOK pt dom top N) {i : ℕ} {n : Node K W}
    (hi : N[i]? = some n) (hl : n.children = none)
    (hev : ∀ x, dom.Mem x → ∃ p, ev x = .ok p ∧ p.uv = x ∧ p.point = pt x) {t : Surface.Tessellation K W}
    (ht : MeshOK pt dom t) {rs : List (Rect K)} (hta : CoverOK t rs)
    (hrs : ∀ r ∈ rs, ∀ x, ¬ (r.Inner x ∧ (nodeRect n).Inner x)) :
    ∃ t', triangulate M eps ev N none t n = .ok t' ∧ MeshOK pt dom t' ∧ CoverOK t' (rs ++ [nodeRect n]) := by
  obtain ⟨t1, -, e1, ht1, -⟩ := C45_leaf (M := M) he hN hi hl hev (b := none) (by simp) ht
  obtain ⟨l, pts, c, t', s, hv, -, epts, -, hs, huv, hcon, e, p1, p2, p3, p4⟩ :=
    triangulate_leaf (M := M) he hN hi hl hev (b := none) (by simp) t
  rw [e] at e1
  obtain rfl := Except.ok.inj e1
  refine ⟨t', e, ht1, ?_⟩
  have hn := hN i n hi
  obtain rfl := epts rfl
  obtain ⟨x, hx⟩ : ∃ x : Fin 4 → List (K × K), x = fun e => (l e).map SPoint.uv := ⟨_, rfl⟩
  have hP : (leafPolygon n l).map SPoint.uv = rectPolygon (nodeRect n) x := by
    simp only [leafPolygon, rectPolygon, hx, List.map_append, List.map_cons, hn.corner]
  have hlen : (leafPolygon n l).length = (rectPolygon (nodeRect n) x).length := by rw [← hP, List.length_map]
  have hs' : s = splitId ([0, 1, 2, 3].map fun e : Fin 4 => (nodeRect n).corner e :: x e) := by
    rw [hs, ← splitId_map SPoint.uv]
    simp only [List.map_cons, List.map_nil, hn.corner, hx]
  have hQ : (leafPolygon n l ++ if (leafPolygon n l).length ≤ 5 then [] else [c]).map SPoint.uv =
      rectPolygon (nodeRect n) x ++
        if (rectPolygon (nodeRect n) x).length ≤ 5 then [] else [((nodeRect n).midU, (nodeRect n).midV)] := by
    rw [List.map_append, hP, hlen]
    congr 1
    split_ifs
    · rfl
    · rw [List.map_cons, huv, hn.center]; rfl
  have hch : ∀ e, EdgeChain (nodeRect n) e (x e) := fun e => by rw [hx]; exact edgeChain_of he (hv e).2
  obtain ⟨q1, q2⟩ := polygon_cover hn.pos (x := x) hch hs'
  have hin : ∀ q ∈ rectPolygon (nodeRect n) x ++
        (if (rectPolygon (nodeRect n) x).length ≤ 5 then [] else [((nodeRect n).midU, (nodeRect n).midV)]), (nodeRect n).Mem q := by
    intro q hq
    rcases List.mem_append.1 hq with hq | hq
    · exact rectPolygon_mem hn.pos hch q hq
    · split_ifs at hq
      · simp at hq
      · obtain ⟨m1, m2, m3, m4⟩ := Rect.mid_lt hn.pos
        rw [List.mem_singleton.1 hq]
        exact ⟨m1.le, m2.le, m3.le, m4.le⟩
  have hs5 : (rectPolygon (nodeRect n) x).length = 5 → s < 5 := by
    intro _
    rw [hs', splitId]
    cases hfi : List.findIdx? (fun c : List (K × K) => decide (c.length = 2))
        ([0, 1, 2, 3].map fun e : Fin 4 => (nodeRect n).corner e :: x e) with
    | none => simp
    | some j =>
      have := (List.findIdx?_eq_some_iff_findIdx_eq.1 hfi).1
      simp only [List.length_map, List.length_cons, List.length_nil] at this
      simp only []
      omega
  have hrange := polygonFaces_range (base := 0) (n := (rectPolygon (nodeRect n) x).length) (s := s) (by
    simp only [rectPolygon, List.length_append, List.length_cons]; omega) hs5
  rw [hQ] at p3
  rw [hlen, polygonFaces_shift, ← ht.uvs] at p4
  have hold : ∀ f ∈ t.faces, faceTri t'.uvs f = faceTri t.uvs f := by
    intro f hf
    obtain ⟨f1, f2, f3⟩ := ht.faces f hf
    rw [← ht.uvs] at f1 f2 f3
    rw [p3]
    exact faceTri_append _ _ _ f1 f2 f3
  have hnew : ∀ g ∈ polygonFaces 0 (rectPolygon (nodeRect n) x).length s, ∀ z,
      InsideTri (faceTri t'.uvs (t.uvs.length + g.1, t.uvs.length + g.2.1, t.uvs.length + g.2.2)) z → (nodeRect n).Inner z := by
    intro g hg z hz
    rw [p3, faceTri_shift] at hz
    obtain ⟨g1, g2, g3⟩ := hrange g hg
    have hlenQ : (rectPolygon (nodeRect n) x ++ (if (rectPolygon (nodeRect n) x).length ≤ 5 then [] else
        [((nodeRect n).midU, (nodeRect n).midV)])).length =
        if (rectPolygon (nodeRect n) x).length ≤ 5 then (rectPolygon (nodeRect n) x).length
          else (rectPolygon (nodeRect n) x).length + 1 := by
      rw [List.length_append]
      split_ifs <;> simp
    rw [Nat.zero_add, ← hlenQ] at g1 g2 g3
    have get : ∀ {j}, j < (rectPolygon (nodeRect n) x ++ (if (rectPolygon (nodeRect n) x).length ≤ 5 then [] else
        [((nodeRect n).midU, (nodeRect n).midV)])).length → (nodeRect n).Mem ((rectPolygon (nodeRect n) x ++
        (if (rectPolygon (nodeRect n) x).length ≤ 5 then [] else [((nodeRect n).midU, (nodeRect n).midV)])).getD j 0) := by
      intro j hj
      rw [List.getD_eq_getElem?_getD, List.getElem?_eq_getElem hj]
      exact hin _ (List.getElem_mem hj)
    exact inside_rect (get g1) (get g2) (get g3) hz
  constructor
  · intro r hr z hz
    rcases List.mem_append.1 hr with hr | hr
    · obtain ⟨f, hf, h⟩ := hta.cover r hr z hz
      refine ⟨f, by rw [p4]; exact List.mem_append_left _ hf, ?_⟩
      rw [hold f hf]; exact h
    · rw [List.mem_singleton.1 hr] at hz
      obtain ⟨tr, htr, h⟩ := q1 z hz
      obtain ⟨f, hf, rfl⟩ := List.mem_map.1 htr
      refine ⟨_, by rw [p4]; exact List.mem_append_right _ (List.mem_map_of_mem hf), ?_⟩
      rw [p3, faceTri_shift]; exact h
  · intro f hf
    rw [p4, List.mem_append, List.mem_map] at hf
    rcases hf with hf | ⟨g, hg, rfl⟩
    · obtain ⟨r, hr, h⟩ := hta.inner f hf
      refine ⟨r, List.mem_append_left _ hr, ?_⟩
      rw [hold f hf]; exact h
    · exact ⟨nodeRect n, by simp, hnew g hg⟩
  · rw [p4, List.map_append, List.pairwise_append]
    refine ⟨?_, ?_, ?_⟩
    · rw [List.map_congr_left hold]; exact hta.apart
    · rw [List.map_map]
      rw [show (faceTri t'.uvs ∘ fun f : ℕ × ℕ × ℕ => (t.uvs.length + f.1, t.uvs.length + f.2.1, t.uvs.length + f.2.2)) =
        faceTri (rectPolygon (nodeRect n) x ++
          if (rectPolygon (nodeRect n) x).length ≤ 5 then [] else [((nodeRect n).midU, (nodeRect n).midV)]) from by
          funext f; simp only [Function.comp, p3, faceTri_shift]]
      exact q2
    · rintro a ha b hb z ⟨hz, hz'⟩
      obtain ⟨f, hf, rfl⟩ := List.mem_map.1 ha
      obtain ⟨g', hg', rfl⟩ := List.mem_map.1 hb
      obtain ⟨g, hg, rfl⟩ := List.mem_map.1 hg'
      rw [hold f hf] at hz
      obtain ⟨r, hr, h⟩ := hta.inner f hf
      exact hrs r hr z ⟨h z hz, hnew g hg z hz'⟩

theorem triangulateAll_cover {pt : K × K → W} {dom : Rect K} {top eps : K} (he : 0 ≤ eps) {M : Metric K W}
    {ev : K × K → Res (SPoint K W)} {N : List (Node K W)} (hN : TreeOK pt dom top N)
    (hev : ∀ x, dom.Mem x → ∃ p, ev x = .ok p ∧ p.uv = x ∧ p.point = pt x)
    (hd : (leafRects N).Pairwise fun s t => ∀ x, ¬ (s.Inner x ∧ t.Inner x)) :
    ∃ t, triangulateAll M eps ev N none = .ok t ∧ MeshOK pt dom t ∧ CoverOK t (leafRects N) := by
  have key : ∀ (L : List (Node K W)) (t : Surface.Tessellation K W) (rs : List (Rect K)), (∀ n ∈ L, n ∈ N) → MeshOK pt dom t →
      CoverOK t rs → ((rs ++ leafRects L).Pairwise fun s t => ∀ x, ¬ (s.Inner x ∧ t.Inner x)) →
      ∃ t', L.foldlM (triangulate M eps ev N none) t = .ok t' ∧ MeshOK pt dom t' ∧ CoverOK t' (rs ++ leafRects L) := by
    intro L
    induction L with
    | nil => intro t a _ ht ha _; exact ⟨t, rfl, ht, by simpa [leafRects] using ha⟩
    | cons n L ih =>
      intro t rs hL ht ha hd
      cases hc : n.children with
      | some c =>
        have hnl : ¬ n.isLeaf = true := by simp [Node.isLeaf, hc]
        rw [leafRects, List.filter_cons_of_neg hnl] at hd ⊢
        obtain ⟨t2, e2, h2, a2⟩ := ih t rs (fun m hm => hL m (List.mem_cons_of_mem _ hm)) ht ha hd
        refine ⟨t2, ?_, h2, a2⟩
        rw [List.foldlM_cons, triangulate, if_neg hnl]
        exact e2
      | none =>
        have hnl : n.isLeaf = true := by simp [Node.isLeaf, hc]
        rw [leafRects, List.filter_cons_of_pos hnl, List.map_cons] at hd ⊢
        obtain ⟨i, hi⟩ := List.mem_iff_getElem?.1 (hL n (by simp))
        obtain ⟨t1, e1, h1, a1⟩ := cover_leaf (M := M) he hN hi hc hev ht ha (fun r hr =>
          (List.pairwise_append.1 hd).2.2 r hr _ (by simp))
        rw [List.append_cons] at hd ⊢
        obtain ⟨t2, e2, h2, a2⟩ := ih t1 _ (fun m hm => hL m (List.mem_cons_of_mem _ hm)) h1 a1 hd
        exact ⟨t2, by rw [List.foldlM_cons, e1, ok_bind, e2], h2, a2⟩
  obtain ⟨t, e, h, a⟩ := key N ⟨[], [], [], []⟩ [] (fun _ h => h) ⟨rfl, rfl, rfl, by simp, by simp⟩
    ⟨by simp, by simp, by simp⟩ (by simpa using hd)
  exact ⟨t, e, h, by simpa using a⟩

section surface
variable [Module K W]

/-- Without boundary constraints, every point of the domain of the surface lies in a triangle of the mesh, no point lies
    inside of two of them, and no point outside of the domain lies inside of one. -/
theorem C69_cover {M : Metric K W} {eps : K} {S : Surface K (W × K)} (h : S.Good eps)
    (hw : ∀ row ∈ S.cps, ∀ p ∈ row, 0 < p.2) (hd : GridDegrees S) (opts : Option (Options K)) (dflt : Options K) :
    ∃ t, (∀ fuel, (∀ o, opts = some o → max o.minDepth o.maxDepth < fuel) →
        tessellateSurface M eps fuel S none opts dflt = .ok t) ∧
      (∀ u v, S.ulo ≤ u → u ≤ S.uhi → S.vlo ≤ v → v ≤ S.vhi → ∃ f ∈ t.faces, InTri (faceTri t.uvs f) (u, v)) ∧
      (t.faces.map (faceTri t.uvs)).Pairwise Apart ∧
      ∀ f ∈ t.faces, ∀ x, InsideTri (faceTri t.uvs f) x → S.ulo < x.1 ∧ x.1 < S.uhi ∧ S.vlo < x.2 ∧ x.2 < S.vhi := by
  obtain ⟨nodes, N, du, dv, rss, top, e, e', h1, h2, t1, t2, -, f, pm, -, ar⟩ := surface_tree (M := M) h hw hd.1 hd.2 none
    (by simp) (opts.getD dflt)
  have hev := fun x hx => evaluateSurface_ok (M := M) h hw x hx
  have fin : ∀ {t : Surface.Tessellation K W} {L : List (Rect K)}, Tiles (domRect S) L → CoverOK t L →
      (∀ u v, S.ulo ≤ u → u ≤ S.uhi → S.vlo ≤ v → v ≤ S.vhi → ∃ f ∈ t.faces, InTri (faceTri t.uvs f) (u, v)) ∧
      (t.faces.map (faceTri t.uvs)).Pairwise Apart ∧
      ∀ f ∈ t.faces, ∀ x, InsideTri (faceTri t.uvs f) x → S.ulo < x.1 ∧ x.1 < S.uhi ∧ S.vlo < x.2 ∧ x.2 < S.vhi := by
    intro t L hT hC
    refine ⟨fun u v a b c d => ?_, hC.apart, fun f hf x hx => ?_⟩
    · obtain ⟨r, hr, hm⟩ := hT.cover (u, v) ⟨a, b, c, d⟩
      exact hC.cover r hr _ hm
    · obtain ⟨r, hr, hi⟩ := hC.inner f hf
      obtain ⟨a, b, c, d⟩ := hi x hx
      obtain ⟨a', b', c', d'⟩ := hT.sub r hr
      exact ⟨lt_of_le_of_lt a' a, lt_of_lt_of_le b b', lt_of_le_of_lt c' c, lt_of_lt_of_le d d'⟩
  cases opts with
  | none =>
    obtain ⟨t, et, -, ht⟩ := triangulateAll_cover (M := M) h.u_good.eps_nonneg h1 hev t1.disjoint
    refine ⟨t, fun fuel _ => ?_, fin t1 ht⟩
    rw [tessellateSurface, e, ok_bind]
    simp only [Option.isSome_none, Bool.false_eq_true, if_false]
    rw [show (pure nodes : Res (List (Node K W))) = .ok nodes from rfl, ok_bind]
    exact et
  | some o =>
    obtain ⟨t, et, -, ht⟩ := triangulateAll_cover (M := M) h.u_good.eps_nonneg h2 hev t2.disjoint
    refine ⟨t, fun fuel hf => ?_, fin t2 ht⟩
    rw [tessellateSurface, e, ok_bind]
    simp only [Option.isSome_some, if_true]
    rw [e' fuel (hf o rfl), ok_bind]
    exact et

example (o dflt : Options ℚ) := C69_cover (M := spaceMetric) exSheet_good exSheet_weights exSheet_degrees (some o) dflt

end surface

end Curvo.Props

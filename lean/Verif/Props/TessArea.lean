/-
  C69: the triangles of the adaptive surface tessellation are positively oriented in the parameter plane and their areas add
  up to the area of the domain.
-/
import Verif.Props.TessClaims

set_option linter.unusedSectionVars false

namespace Curvo.Spec

variable {K : Type} [Field K] [LinearOrder K]

/-- Twice the signed area of a triangle. -/
def tri2 (a b c : K × K) : K := (b.1 - a.1) * (c.2 - a.2) - (b.2 - a.2) * (c.1 - a.1)

/-- Twice the signed area of a face of a mesh with the vertices `xs`. -/
def face2 (xs : List (K × K)) (f : ℕ × ℕ × ℕ) : K := tri2 (xs.getD f.1 0) (xs.getD f.2.1 0) (xs.getD f.2.2 0)

end Curvo.Spec

namespace Curvo.Props

open Curvo Curvo.Tess Curvo.Spec

variable {K : Type} [Field K] [LinearOrder K] [IsStrictOrderedRing K] {W : Type} [AddCommGroup W]

/-! ### Consecutive pairs -/

/-- The consecutive pairs of a list. -/
def pairs {α : Type} (l : List α) : List (α × α) := l.zip l.tail

theorem pairs_cons {α : Type} (a b : α) (l : List α) : pairs (a :: b :: l) = (a, b) :: pairs (b :: l) := rfl

theorem pairs_append {α : Type} (l : List α) (b : α) (m : List α) : pairs (l ++ b :: m) = pairs (l ++ [b]) ++ pairs (b :: m) := by
  induction l with
  | nil => rfl
  | cons a l ih =>
    cases l with
    | nil => rfl
    | cons c l =>
      simp only [List.cons_append] at ih ⊢
      rw [pairs_cons, pairs_cons, ih]
      rfl

/-- A sum over consecutive pairs telescopes. -/
theorem pairs_sum {α : Type} (g : α × α → K) (F : α → K) : ∀ (l : List α) (a b : α),
    (∀ p ∈ pairs (a :: (l ++ [b])), g p = F p.2 - F p.1) → ((pairs (a :: (l ++ [b]))).map g).sum = F b - F a
  | [], a, b, h => by
    have := h (a, b) (by simp [pairs])
    simp [pairs, this]
  | c :: l, a, b, h => by
    rw [List.cons_append, pairs_cons] at h ⊢
    rw [List.map_cons, List.sum_cons, h _ (by simp), pairs_sum g F l c b (fun p hp => h p (by simp [hp]))]
    ring

theorem pairs_of_pairwise {α : Type} {R : α → α → Prop} : ∀ {l : List α}, l.Pairwise R → ∀ p ∈ pairs l, R p.1 p.2
  | [], _, p, hp => by simp [pairs] at hp
  | [a], _, p, hp => by simp [pairs] at hp
  | a :: b :: l, h, p, hp => by
    rw [pairs_cons] at hp
    rcases List.mem_cons.1 hp with rfl | hp
    · exact (List.pairwise_cons.1 h).1 b (by simp)
    · exact pairs_of_pairwise (List.pairwise_cons.1 h).2 p hp

theorem pairs_mem {α : Type} {l : List α} {p : α × α} (h : p ∈ pairs l) : p.1 ∈ l ∧ p.2 ∈ l := by
  obtain ⟨a, b⟩ := p
  have := List.of_mem_zip h
  exact ⟨this.1, List.mem_of_mem_tail this.2⟩

/-! ### The boundary of a rectangle -/

/-- Vertices strictly inside an edge of a rectangle, in counterclockwise order. -/
structure EdgeChain (r : Rect K) (e : Fin 4) (x : List (K × K)) : Prop where
  line : ∀ p ∈ x, Rect.across e p = r.line e
  inside : ∀ p ∈ x, r.lo e < Rect.along e p ∧ Rect.along e p < r.hi e
  sorted : x.Pairwise fun p q => Before e (Rect.along e p) (Rect.along e q)

theorem EdgeChain.full {r : Rect K} (hr : r.Pos) {e : Fin 4} {x : List (K × K)} (h : EdgeChain r e x) :
    (r.corner e :: (x ++ [r.corner (e + 1)])).Pairwise (fun p q => Before e (Rect.along e p) (Rect.along e q)) ∧
    ∀ p ∈ r.corner e :: (x ++ [r.corner (e + 1)]), Rect.across e p = r.line e := by
  obtain ⟨r1, r2⟩ := hr
  constructor
  · rw [List.pairwise_cons, List.pairwise_append]
    refine ⟨?_, h.sorted, by simp, ?_⟩
    · intro q hq
      rcases List.mem_append.1 hq with hq | hq
      · obtain ⟨a, b⟩ := h.inside q hq
        fin_cases e <;> first | exact a | exact b
      · rw [List.mem_singleton.1 hq]
        fin_cases e <;> first | exact r1 | exact r2
    · intro p hp q hq
      rw [List.mem_singleton.1 hq]
      obtain ⟨a, b⟩ := h.inside p hp
      fin_cases e <;> first | exact a | exact b
  · intro p hp
    rcases List.mem_cons.1 hp with rfl | hp
    · fin_cases e <;> rfl
    · rcases List.mem_append.1 hp with hp | hp
      · exact h.line p hp
      · rw [List.mem_singleton.1 hp]
        fin_cases e <;> rfl

/-- The triangles from the centre to the pieces of an edge. -/
theorem EdgeChain.fan {r : Rect K} (hr : r.Pos) {e : Fin 4} {x : List (K × K)} (h : EdgeChain r e x) :
    (∀ p ∈ pairs (r.corner e :: (x ++ [r.corner (e + 1)])), 0 < tri2 (r.midU, r.midV) p.1 p.2) ∧
    ((pairs (r.corner e :: (x ++ [r.corner (e + 1)]))).map fun p => tri2 (r.midU, r.midV) p.1 p.2).sum =
      (1 / 2) * r.area := by
  obtain ⟨h1, h2⟩ := h.full hr
  obtain ⟨m1, m2, m3, m4⟩ := Rect.mid_lt hr
  have hp := pairs_of_pairwise h1
  have key : ∀ p ∈ pairs (r.corner e :: (x ++ [r.corner (e + 1)])), Before e (Rect.along e p.1) (Rect.along e p.2) ∧
      Rect.across e p.1 = r.line e ∧ Rect.across e p.2 = r.line e :=
    fun p hp' => ⟨hp p hp', h2 _ (pairs_mem hp').1, h2 _ (pairs_mem hp').2⟩
  fin_cases e
  · have hF : ∀ p ∈ pairs (r.corner 0 :: (x ++ [r.corner 1])), p.1.1 < p.2.1 ∧ p.1.2 = r.v0 ∧ p.2.2 = r.v0 := key
    have hg : ∀ p ∈ pairs (r.corner 0 :: (x ++ [r.corner 1])), tri2 (r.midU, r.midV) p.1 p.2 =
        (r.midV - r.v0) * p.2.1 - (r.midV - r.v0) * p.1.1 := by
      intro p hp'
      obtain ⟨-, a, b⟩ := hF p hp'
      simp only [tri2, a, b]
      ring
    refine ⟨fun p hp' => ?_, ?_⟩
    · rw [hg p hp']
      have := mul_pos (sub_pos.2 m3) (sub_pos.2 (hF p hp').1)
      linarith
    · refine (pairs_sum _ (fun q : K × K => (r.midV - r.v0) * q.1) _ _ _ hg).trans ?_
      show (r.midV - r.v0) * r.u1 - (r.midV - r.v0) * r.u0 = _
      rw [Rect.midV, Rect.area]
      ring
  · have hF : ∀ p ∈ pairs (r.corner 1 :: (x ++ [r.corner 2])), p.1.2 < p.2.2 ∧ p.1.1 = r.u1 ∧ p.2.1 = r.u1 := key
    have hg : ∀ p ∈ pairs (r.corner 1 :: (x ++ [r.corner 2])), tri2 (r.midU, r.midV) p.1 p.2 =
        (r.u1 - r.midU) * p.2.2 - (r.u1 - r.midU) * p.1.2 := by
      intro p hp'
      obtain ⟨-, a, b⟩ := hF p hp'
      simp only [tri2, a, b]
      ring
    refine ⟨fun p hp' => ?_, ?_⟩
    · rw [hg p hp']
      have := mul_pos (sub_pos.2 m2) (sub_pos.2 (hF p hp').1)
      linarith
    · refine (pairs_sum _ (fun q : K × K => (r.u1 - r.midU) * q.2) _ _ _ hg).trans ?_
      show (r.u1 - r.midU) * r.v1 - (r.u1 - r.midU) * r.v0 = _
      rw [Rect.midU, Rect.area]
      ring
  · have hF : ∀ p ∈ pairs (r.corner 2 :: (x ++ [r.corner 3])), p.2.1 < p.1.1 ∧ p.1.2 = r.v1 ∧ p.2.2 = r.v1 := key
    have hg : ∀ p ∈ pairs (r.corner 2 :: (x ++ [r.corner 3])), tri2 (r.midU, r.midV) p.1 p.2 =
        (r.midV - r.v1) * p.2.1 - (r.midV - r.v1) * p.1.1 := by
      intro p hp'
      obtain ⟨-, a, b⟩ := hF p hp'
      simp only [tri2, a, b]
      ring
    refine ⟨fun p hp' => ?_, ?_⟩
    · rw [hg p hp']
      have := mul_pos (sub_pos.2 m4) (sub_pos.2 (hF p hp').1)
      linarith
    · refine (pairs_sum _ (fun q : K × K => (r.midV - r.v1) * q.1) _ _ _ hg).trans ?_
      show (r.midV - r.v1) * r.u0 - (r.midV - r.v1) * r.u1 = _
      rw [Rect.midV, Rect.area]
      ring
  · have hF : ∀ p ∈ pairs (r.corner 3 :: (x ++ [r.corner 0])), p.2.2 < p.1.2 ∧ p.1.1 = r.u0 ∧ p.2.1 = r.u0 := key
    have hg : ∀ p ∈ pairs (r.corner 3 :: (x ++ [r.corner 0])), tri2 (r.midU, r.midV) p.1 p.2 =
        (r.u0 - r.midU) * p.2.2 - (r.u0 - r.midU) * p.1.2 := by
      intro p hp'
      obtain ⟨-, a, b⟩ := hF p hp'
      simp only [tri2, a, b]
      ring
    refine ⟨fun p hp' => ?_, ?_⟩
    · rw [hg p hp']
      have := mul_pos (sub_pos.2 m1) (sub_pos.2 (hF p hp').1)
      linarith
    · refine (pairs_sum _ (fun q : K × K => (r.u0 - r.midU) * q.2) _ _ _ hg).trans ?_
      show (r.u0 - r.midU) * r.v0 - (r.u0 - r.midU) * r.v1 = _
      rw [Rect.midU, Rect.area]
      ring

/-- The boundary polygon of a rectangle with vertices on its edges. -/
def rectPolygon (r : Rect K) (x : Fin 4 → List (K × K)) : List (K × K) :=
  (r.corner 0 :: x 0) ++ ((r.corner 1 :: x 1) ++ ((r.corner 2 :: x 2) ++ (r.corner 3 :: x 3)))

theorem polygon_pairs (r : Rect K) (x : Fin 4 → List (K × K)) : pairs (rectPolygon r x ++ [r.corner 0]) =
    pairs (r.corner 0 :: (x 0 ++ [r.corner 1])) ++ (pairs (r.corner 1 :: (x 1 ++ [r.corner 2])) ++
      (pairs (r.corner 2 :: (x 2 ++ [r.corner 3])) ++ pairs (r.corner 3 :: (x 3 ++ [r.corner 0])))) := by
  have e : rectPolygon r x ++ [r.corner 0] = (r.corner 0 :: x 0) ++ r.corner 1 :: (x 1 ++ r.corner 2 :: (x 2 ++
      r.corner 3 :: (x 3 ++ [r.corner 0]))) := by
    simp [rectPolygon]
  rw [e, pairs_append]
  congr 1
  rw [← List.cons_append, pairs_append]
  congr 1
  rw [← List.cons_append, pairs_append]
  rfl

theorem pairs_range (d : K × K) : ∀ (a : K × K) (R : List (K × K)), pairs (a :: R) =
    (List.range R.length).map fun i => ((a :: R).getD i d, (a :: R).getD (i + 1) d)
  | a, [] => rfl
  | a, b :: R => by
    rw [pairs_cons, pairs_range d b R, List.length_cons, List.range_succ_eq_map, List.map_cons, List.map_map]
    rfl

/-- The closed fan of a list of vertices around the vertex with the last index. -/
theorem fan_faces (a c : K × K) (R : List (K × K)) :
    (((List.range (R.length + 1)).map fun i => (0 + (R.length + 1), 0 + (if i = 0 then R.length + 1 - 1 else i - 1), 0 + i)).map
      (face2 ((a :: R) ++ [c]))).Perm ((pairs ((a :: R) ++ [a])).map fun p => tri2 c p.1 p.2) := by
  have hc : ((a :: R) ++ [c]).getD (R.length + 1) 0 = c := by
    rw [List.getD_eq_getElem?_getD, List.getElem?_append_right (by simp)]
    simp
  have hg : ∀ i, i < R.length + 1 → ((a :: R) ++ [c]).getD i 0 = (a :: R).getD i 0 := by
    intro i hi
    rw [List.getD_eq_getElem?_getD, List.getD_eq_getElem?_getD, List.getElem?_append_left (by simpa using hi)]
  have h1 : ((List.range (R.length + 1)).map fun i => (0 + (R.length + 1), 0 + (if i = 0 then R.length + 1 - 1 else i - 1), 0 + i)).map
      (face2 ((a :: R) ++ [c])) = tri2 c ((a :: R).getD R.length 0) a ::
        (List.range R.length).map fun i => tri2 c ((a :: R).getD i 0) ((a :: R).getD (i + 1) 0) := by
    rw [List.range_succ_eq_map, List.map_cons, List.map_cons, List.map_map, List.map_map]
    congr 1
    · simp only [face2, if_true, Nat.zero_add, Nat.add_sub_cancel, hc]
      rw [hg _ (by omega), hg _ (by omega)]
      rfl
    · apply List.map_congr_left
      intro i hi
      have hi := List.mem_range.1 hi
      simp only [Function.comp, face2, Nat.succ_eq_add_one, Nat.add_eq_zero_iff, one_ne_zero, and_false, if_false, Nat.zero_add,
        Nat.add_sub_cancel, hc]
      rw [hg _ (by omega), hg _ (by omega)]
  have h2 : (pairs ((a :: R) ++ [a])).map (fun p => tri2 c p.1 p.2) =
      ((List.range R.length).map fun i => tri2 c ((a :: R).getD i 0) ((a :: R).getD (i + 1) 0)) ++
        [tri2 c ((a :: R).getD R.length 0) a] := by
    have hg' : ∀ i, i < R.length + 1 → (a :: (R ++ [a])).getD i 0 = (a :: R).getD i 0 := by
      intro i hi
      rw [← List.cons_append, List.getD_eq_getElem?_getD, List.getD_eq_getElem?_getD,
        List.getElem?_append_left (by simpa using hi)]
    rw [List.cons_append, pairs_range 0, List.map_map, List.length_append, List.length_singleton, List.range_succ,
      List.map_append]
    congr 1
    · apply List.map_congr_left
      intro i hi
      have hi := List.mem_range.1 hi
      simp only [Function.comp]
      rw [hg' _ (by omega), hg' _ (by omega)]
    · simp only [List.map_cons, List.map_nil, Function.comp]
      rw [hg' _ (by omega)]
      congr 2
      rw [← List.cons_append, List.getD_eq_getElem?_getD, List.getElem?_append_right (by simp)]
      simp
  rw [h1, h2]
  exact (List.perm_append_singleton _ _).symm

/-! ### Leaves -/

/-- The triangles of a polygon are positively oriented and add up to (twice) the area of the rectangle. -/
theorem polygon_area {r : Rect K} (hr : r.Pos) {x : Fin 4 → List (K × K)} (hx : ∀ e, EdgeChain r e (x e)) {s : ℕ}
    (hs : s = splitId ([0, 1, 2, 3].map fun e : Fin 4 => r.corner e :: x e)) :
    let P := rectPolygon r x
    let Q := P ++ if P.length ≤ 5 then [] else [(r.midU, r.midV)]
    (∀ f ∈ polygonFaces 0 P.length s, 0 < face2 Q f) ∧ ((polygonFaces 0 P.length s).map (face2 Q)).sum = 2 * r.area := by
  intro P Q
  have hlen : P.length = 4 + ((x 0).length + (x 1).length + (x 2).length + (x 3).length) := by
    simp only [P, rectPolygon, List.length_append, List.length_cons]
    omega
  obtain ⟨r1, r2⟩ := hr
  have hA : 0 < (r.u1 - r.u0) * (r.v1 - r.v0) := mul_pos (sub_pos.2 r1) (sub_pos.2 r2)
  have one : ∀ e, (x e).length = 1 → ∃ p, x e = [p] ∧ Rect.across e p = r.line e ∧ r.lo e < Rect.along e p ∧
      Rect.along e p < r.hi e := by
    intro e h
    obtain ⟨p, hp⟩ := List.length_eq_one_iff.1 h
    exact ⟨p, hp, (hx e).line p (by simp [hp]), (hx e).inside p (by simp [hp])⟩
  by_cases h4 : P.length = 4
  · have e0 : x 0 = [] := List.length_eq_zero_iff.1 (by omega)
    have e1 : x 1 = [] := List.length_eq_zero_iff.1 (by omega)
    have e2 : x 2 = [] := List.length_eq_zero_iff.1 (by omega)
    have e3 : x 3 = [] := List.length_eq_zero_iff.1 (by omega)
    have hQ : Q = [r.corner 0, r.corner 1, r.corner 2, r.corner 3] := by
      simp only [Q]
      rw [if_pos (by omega)]
      simp [P, rectPolygon, e0, e1, e2, e3]
    rw [polygonFaces, if_pos h4, hQ]
    simp only [List.forall_mem_cons, List.map_cons, List.map_nil, List.sum_cons, List.sum_nil]
    refine ⟨⟨?_, ?_, by simp⟩, ?_⟩ <;> simp [face2, tri2, Rect.corner, Rect.area] <;> nlinarith
  · by_cases h5 : P.length = 5
    · have hsum : (x 0).length + (x 1).length + (x 2).length + (x 3).length = 1 := by omega
      have hQ' : Q = P := by
        simp only [Q]
        rw [if_pos (by omega), List.append_nil]
      rw [polygonFaces, if_neg h4, if_pos h5, hQ', h5]
      have hcases : ((x 0).length = 1 ∧ x 1 = [] ∧ x 2 = [] ∧ x 3 = []) ∨ (x 0 = [] ∧ (x 1).length = 1 ∧ x 2 = [] ∧ x 3 = []) ∨
          (x 0 = [] ∧ x 1 = [] ∧ (x 2).length = 1 ∧ x 3 = []) ∨ (x 0 = [] ∧ x 1 = [] ∧ x 2 = [] ∧ (x 3).length = 1) := by
        simp only [← List.length_eq_zero_iff]
        omega
      rcases hcases with ⟨h, e1, e2, e3⟩ | ⟨e0, h, e2, e3⟩ | ⟨e0, e1, h, e3⟩ | ⟨e0, e1, e2, h⟩
      · obtain ⟨⟨p1, p2⟩, e0, q1, q2, q3⟩ := one 0 h
        replace q1 : p2 = r.v0 := q1
        replace q2 : r.u0 < p1 := q2
        replace q3 : p1 < r.u1 := q3
        have hs1 : s = 1 := by rw [hs]; simp only [List.map_cons, List.map_nil, e0, e1, e2, e3]; rfl
        have hP : P = [r.corner 0, (p1, p2), r.corner 1, r.corner 2, r.corner 3] := by simp [P, rectPolygon, e0, e1, e2, e3]
        have a1 := mul_pos (sub_pos.2 q2) (sub_pos.2 r2)
        have a2 := mul_pos (sub_pos.2 q3) (sub_pos.2 r2)
        rw [hs1, hP]
        simp only [List.forall_mem_cons, List.map_cons, List.map_nil, List.sum_cons, List.sum_nil]
        refine ⟨⟨?_, ?_, ?_, by simp⟩, ?_⟩ <;> simp [face2, tri2, Rect.corner, Rect.area, q1] <;> nlinarith
      · obtain ⟨⟨p1, p2⟩, e1, q1, q2, q3⟩ := one 1 h
        replace q1 : p1 = r.u1 := q1
        replace q2 : r.v0 < p2 := q2
        replace q3 : p2 < r.v1 := q3
        have hs1 : s = 2 := by rw [hs]; simp only [List.map_cons, List.map_nil, e0, e1, e2, e3]; rfl
        have hP : P = [r.corner 0, r.corner 1, (p1, p2), r.corner 2, r.corner 3] := by simp [P, rectPolygon, e0, e1, e2, e3]
        have a1 := mul_pos (sub_pos.2 q2) (sub_pos.2 r1)
        have a2 := mul_pos (sub_pos.2 q3) (sub_pos.2 r1)
        rw [hs1, hP]
        simp only [List.forall_mem_cons, List.map_cons, List.map_nil, List.sum_cons, List.sum_nil]
        refine ⟨⟨?_, ?_, ?_, by simp⟩, ?_⟩ <;> simp [face2, tri2, Rect.corner, Rect.area, q1] <;> nlinarith
      · obtain ⟨⟨p1, p2⟩, e2, q1, q2, q3⟩ := one 2 h
        replace q1 : p2 = r.v1 := q1
        replace q2 : r.u0 < p1 := q2
        replace q3 : p1 < r.u1 := q3
        have hs1 : s = 3 := by rw [hs]; simp only [List.map_cons, List.map_nil, e0, e1, e2, e3]; rfl
        have hP : P = [r.corner 0, r.corner 1, r.corner 2, (p1, p2), r.corner 3] := by simp [P, rectPolygon, e0, e1, e2, e3]
        have a1 := mul_pos (sub_pos.2 q2) (sub_pos.2 r2)
        have a2 := mul_pos (sub_pos.2 q3) (sub_pos.2 r2)
        rw [hs1, hP]
        simp only [List.forall_mem_cons, List.map_cons, List.map_nil, List.sum_cons, List.sum_nil]
        refine ⟨⟨?_, ?_, ?_, by simp⟩, ?_⟩ <;> simp [face2, tri2, Rect.corner, Rect.area, q1] <;> nlinarith
      · obtain ⟨⟨p1, p2⟩, e3, q1, q2, q3⟩ := one 3 h
        replace q1 : p1 = r.u0 := q1
        replace q2 : r.v0 < p2 := q2
        replace q3 : p2 < r.v1 := q3
        have hs1 : s = 4 := by rw [hs]; simp only [List.map_cons, List.map_nil, e0, e1, e2, e3]; rfl
        have hP : P = [r.corner 0, r.corner 1, r.corner 2, r.corner 3, (p1, p2)] := by simp [P, rectPolygon, e0, e1, e2, e3]
        have a1 := mul_pos (sub_pos.2 q2) (sub_pos.2 r1)
        have a2 := mul_pos (sub_pos.2 q3) (sub_pos.2 r1)
        rw [hs1, hP]
        simp only [List.forall_mem_cons, List.map_cons, List.map_nil, List.sum_cons, List.sum_nil]
        refine ⟨⟨?_, ?_, ?_, by simp⟩, ?_⟩ <;> simp [face2, tri2, Rect.corner, Rect.area, q1] <;> nlinarith
    · obtain ⟨R, hR⟩ : ∃ R, P = r.corner 0 :: R := ⟨_, rfl⟩
      have hl : P.length = R.length + 1 := by rw [hR]; rfl
      have hQ' : Q = (r.corner 0 :: R) ++ [(r.midU, r.midV)] := by
        simp only [Q]
        rw [if_neg (by omega), hR]
      have hf := fan_faces (r.corner 0) (r.midU, r.midV) R
      rw [polygonFaces, if_neg h4, if_neg h5, hQ', hl]
      have hpp := polygon_pairs r x
      rw [show rectPolygon r x = r.corner 0 :: R from hR] at hpp
      rw [hpp] at hf
      have hfan := fun e => (hx e).fan ⟨r1, r2⟩
      refine ⟨?_, ?_⟩
      · intro f hf'
        have := hf.mem_iff.1 (List.mem_map_of_mem hf')
        obtain ⟨p, hp, e⟩ := List.mem_map.1 this
        rw [← e]
        simp only [List.mem_append] at hp
        rcases hp with hp | hp | hp | hp
        exacts [(hfan 0).1 p hp, (hfan 1).1 p hp, (hfan 2).1 p hp, (hfan 3).1 p hp]
      · rw [hf.sum_eq]
        simp only [List.map_append, List.sum_append]
        have s0 : ((pairs (r.corner 0 :: (x 0 ++ [r.corner 1]))).map fun p => tri2 (r.midU, r.midV) p.1 p.2).sum = _ := (hfan 0).2
        have s1 : ((pairs (r.corner 1 :: (x 1 ++ [r.corner 2]))).map fun p => tri2 (r.midU, r.midV) p.1 p.2).sum = _ := (hfan 1).2
        have s2 : ((pairs (r.corner 2 :: (x 2 ++ [r.corner 3]))).map fun p => tri2 (r.midU, r.midV) p.1 p.2).sum = _ := (hfan 2).2
        have s3 : ((pairs (r.corner 3 :: (x 3 ++ [r.corner 0]))).map fun p => tri2 (r.midU, r.midV) p.1 p.2).sum = _ := (hfan 3).2
        rw [s0, s1, s2, s3]
        ring

theorem polygonFaces_shift (b n s : ℕ) :
    polygonFaces b n s = (polygonFaces 0 n s).map fun f => (b + f.1, b + f.2.1, b + f.2.2) := by
  unfold polygonFaces
  split_ifs
  · simp
  · simp
  · rw [List.map_map]
    apply List.map_congr_left
    intro i _
    simp

theorem face2_shift (A Q : List (K × K)) (f : ℕ × ℕ × ℕ) :
    face2 (A ++ Q) (A.length + f.1, A.length + f.2.1, A.length + f.2.2) = face2 Q f := by
  have h : ∀ i, (A ++ Q).getD (A.length + i) 0 = Q.getD i 0 := by
    intro i
    rw [List.getD_eq_getElem?_getD, List.getD_eq_getElem?_getD, List.getElem?_append_right (by omega)]
    simp
  simp only [face2, h]

theorem face2_append (A Q : List (K × K)) (f : ℕ × ℕ × ℕ) (h1 : f.1 < A.length) (h2 : f.2.1 < A.length) (h3 : f.2.2 < A.length) :
    face2 (A ++ Q) f = face2 A f := by
  have h : ∀ i, i < A.length → (A ++ Q).getD i 0 = A.getD i 0 := by
    intro i hi
    rw [List.getD_eq_getElem?_getD, List.getD_eq_getElem?_getD, List.getElem?_append_left hi]
  simp only [face2, h _ h1, h _ h2, h _ h3]

theorem splitId_map {α β : Type} (f : α → β) (cs : List (List α)) : splitId (cs.map (List.map f)) = splitId cs := by
  unfold splitId
  rw [List.findIdx?_map]
  have : ((fun c : List β => decide (c.length = 2)) ∘ List.map f) = fun c : List α => decide (c.length = 2) := by
    funext c
    simp
  rw [this]

/-- The triangles of a mesh are positively oriented and add up to the area `a`. -/
def AreaOK (t : Surface.Tessellation K W) (a : K) : Prop :=
  (∀ f ∈ t.faces, 0 < face2 t.uvs f) ∧ (t.faces.map (face2 t.uvs)).sum = 2 * a

theorem edgeChain_of {pt : K × K → W} {eps : K} (he : 0 ≤ eps) {N : List (Node K W)} {n : Node K W} {e : Fin 4}
    {l : List (SPoint K W)} (h : EdgeVertices pt eps N n e l) : EdgeChain (nodeRect n) e (l.map SPoint.uv) where
  line := by
    intro p hp
    obtain ⟨c, hc, rfl⟩ := List.mem_map.1 hp
    rw [← h.line c hc]
    fin_cases e <;> rfl
  inside := by
    intro p hp
    obtain ⟨c, hc, rfl⟩ := List.mem_map.1 hp
    obtain ⟨a, b⟩ := h.inside c hc
    have hcoord : Rect.along e c.uv = Tess.coord c.uv (e.val % 2) := by fin_cases e <;> rfl
    rw [hcoord]
    exact ⟨by linarith, by linarith⟩
  sorted := by
    rw [List.pairwise_map]
    refine h.sorted.imp ?_
    intro c d hcd
    have hcoord : ∀ x : K × K, Rect.along e x = Tess.coord x (e.val % 2) := by intro x; fin_cases e <;> rfl
    rw [hcoord, hcoord]
    exact hcd

/-- A leaf adds triangles of positive orientation with the area of its rectangle. -/
theorem C69_leaf {pt : K × K → W} {dom : Rect K} {top eps : K} (he : 0 ≤ eps) {M : Metric K W}
    {ev : K × K → Res (SPoint K W)} {N : List (Node K W)} (hN : TreeOK pt dom top N) {i : ℕ} {n : Node K W}
    (hi : N[i]? = some n) (hl : n.children = none)
    (hev : ∀ x, dom.Mem x → ∃ p, ev x = .ok p ∧ p.uv = x ∧ p.point = pt x) {t : Surface.Tessellation K W}
    (ht : MeshOK pt dom t) {a : K} (hta : AreaOK t a) :
    ∃ t', triangulate M eps ev N none t n = .ok t' ∧ MeshOK pt dom t' ∧ AreaOK t' (a + (nodeRect n).area) := by
  obtain ⟨t1, -, e1, ht1, -⟩ := C45_leaf (M := M) he hN hi hl hev (b := none) (by simp) ht
  obtain ⟨l, pts, c, t', s, hv, -, epts, -, hs, huv, hcon, e, p1, p2, p3, p4⟩ :=
    triangulate_leaf (M := M) he hN hi hl hev (b := none) (by simp) t
  rw [e] at e1
  obtain rfl := Except.ok.inj e1
  refine ⟨t', e, ht1, ?_⟩
  have hn := hN i n hi
  obtain rfl := epts rfl
  obtain ⟨x, hx⟩ : ∃ x : Fin 4 → List (K × K), x = fun e => (l e).map SPoint.uv := ⟨_, rfl⟩
  have hP : (leafPolygon n l).map SPoint.uv = rectPolygon (nodeRect n) x := by
    simp only [leafPolygon, rectPolygon, hx, List.map_append, List.map_cons, hn.corner]
  have hlen : (leafPolygon n l).length = (rectPolygon (nodeRect n) x).length := by rw [← hP, List.length_map]
  have hs' : s = splitId ([0, 1, 2, 3].map fun e : Fin 4 => (nodeRect n).corner e :: x e) := by
    rw [hs, ← splitId_map SPoint.uv]
    simp only [List.map_cons, List.map_nil, hn.corner, hx]
  have hQ : (leafPolygon n l ++ if (leafPolygon n l).length ≤ 5 then [] else [c]).map SPoint.uv =
      rectPolygon (nodeRect n) x ++
        if (rectPolygon (nodeRect n) x).length ≤ 5 then [] else [((nodeRect n).midU, (nodeRect n).midV)] := by
    rw [List.map_append, hP, hlen]
    congr 1
    split_ifs
    · rfl
    · rw [List.map_cons, huv, hn.center]; rfl
  obtain ⟨q1, q2⟩ := polygon_area hn.pos (x := x) (fun e => by rw [hx]; exact edgeChain_of he (hv e).2) hs'
  rw [hQ] at p3
  rw [hlen, polygonFaces_shift, ← ht.uvs] at p4
  have hold : ∀ f ∈ t.faces, face2 t'.uvs f = face2 t.uvs f := by
    intro f hf
    obtain ⟨f1, f2, f3⟩ := ht.faces f hf
    rw [← ht.uvs] at f1 f2 f3
    rw [p3]
    exact face2_append _ _ _ f1 f2 f3
  constructor
  · intro f hf
    rw [p4, List.mem_append, List.mem_map] at hf
    rcases hf with hf | ⟨g, hg, rfl⟩
    · rw [hold f hf]; exact hta.1 f hf
    · rw [p3, face2_shift]; exact q1 g hg
  · rw [p4, List.map_append, List.sum_append, List.map_congr_left hold, hta.2, List.map_map]
    rw [show (face2 t'.uvs ∘ fun f : ℕ × ℕ × ℕ => (t.uvs.length + f.1, t.uvs.length + f.2.1, t.uvs.length + f.2.2)) =
      face2 (rectPolygon (nodeRect n) x ++
        if (rectPolygon (nodeRect n) x).length ≤ 5 then [] else [((nodeRect n).midU, (nodeRect n).midV)]) from by
        funext f; simp only [Function.comp, p3, face2_shift]]
    rw [q2]
    ring

theorem triangulateAll_area {pt : K × K → W} {dom : Rect K} {top eps : K} (he : 0 ≤ eps) {M : Metric K W}
    {ev : K × K → Res (SPoint K W)} {N : List (Node K W)} (hN : TreeOK pt dom top N)
    (hev : ∀ x, dom.Mem x → ∃ p, ev x = .ok p ∧ p.uv = x ∧ p.point = pt x) :
    ∃ t, triangulateAll M eps ev N none = .ok t ∧ MeshOK pt dom t ∧ AreaOK t ((leafRects N).map Rect.area).sum := by
  have key : ∀ (L : List (Node K W)) (t : Surface.Tessellation K W) (a : K), (∀ n ∈ L, n ∈ N) → MeshOK pt dom t →
      AreaOK t a → ∃ t', L.foldlM (triangulate M eps ev N none) t = .ok t' ∧ MeshOK pt dom t' ∧
        AreaOK t' (a + ((leafRects L).map Rect.area).sum) := by
    intro L
    induction L with
    | nil => intro t a _ ht ha; exact ⟨t, rfl, ht, by simpa [leafRects] using ha⟩
    | cons n L ih =>
      intro t a hL ht ha
      cases hc : n.children with
      | some c =>
        have hnl : ¬ n.isLeaf = true := by simp [Node.isLeaf, hc]
        obtain ⟨t2, e2, h2, a2⟩ := ih t a (fun m hm => hL m (List.mem_cons_of_mem _ hm)) ht ha
        refine ⟨t2, ?_, h2, ?_⟩
        · rw [List.foldlM_cons, triangulate, if_neg hnl]
          exact e2
        · rw [leafRects, List.filter_cons_of_neg hnl]
          exact a2
      | none =>
        have hnl : n.isLeaf = true := by simp [Node.isLeaf, hc]
        obtain ⟨i, hi⟩ := List.mem_iff_getElem?.1 (hL n (by simp))
        obtain ⟨t1, e1, h1, a1⟩ := C69_leaf (M := M) he hN hi hc hev ht ha
        obtain ⟨t2, e2, h2, a2⟩ := ih t1 _ (fun m hm => hL m (List.mem_cons_of_mem _ hm)) h1 a1
        refine ⟨t2, by rw [List.foldlM_cons, e1, ok_bind, e2], h2, ?_⟩
        rw [leafRects, List.filter_cons_of_pos hnl, List.map_cons, List.map_cons, List.sum_cons, ← add_assoc]
        exact a2
  obtain ⟨t, e, h, a⟩ := key N ⟨[], [], [], []⟩ 0 (fun _ h => h) ⟨rfl, rfl, rfl, by simp, by simp⟩ ⟨by simp, by simp⟩
  exact ⟨t, e, h, by simpa using a⟩

theorem halvings_sum {lo hi d : ℕ} {r : Rect K} {l : List (Rect K)} (h : Halvings lo hi d r l) :
    (l.map Rect.area).sum = r.area := by
  induction h with
  | stop _ _ => simp
  | @cutV d r a b _ _ iha ihb =>
    rw [List.map_append, List.sum_append, iha, ihb]
    simp only [Rect.area, Rect.lower, Rect.upper]
    ring
  | @cutU d r a b _ _ iha ihb =>
    rw [List.map_append, List.sum_append, iha, ihb]
    simp only [Rect.area, Rect.left, Rect.right]
    ring

theorem halvings_area_sum {lo hi d : ℕ} {a : List (Rect K)} {b : List (List (Rect K))}
    (h : List.Forall₂ (Halvings lo hi d) a b) : (b.flatten.map Rect.area).sum = (a.map Rect.area).sum := by
  induction h with
  | nil => rfl
  | cons hx _ ih => rw [List.flatten_cons, List.map_append, List.sum_append, halvings_sum hx, ih, List.map_cons, List.sum_cons]

section surface
variable [Module K W]

/-- Without boundary constraints, the triangles of the mesh are positively oriented in the parameter plane and their areas
    add up to the area of the domain of the surface. -/
theorem C69_orientation_and_area {M : Metric K W} {eps : K} {S : Surface K (W × K)} (h : S.Good eps)
    (hw : ∀ row ∈ S.cps, ∀ p ∈ row, 0 < p.2) (hd : GridDegrees S) (opts : Option (Options K)) (dflt : Options K) :
    ∃ t, (∀ fuel, (∀ o, opts = some o → max o.minDepth o.maxDepth < fuel) →
        tessellateSurface M eps fuel S none opts dflt = .ok t) ∧
      (∀ f ∈ t.faces, 0 < face2 t.uvs f) ∧
      (t.faces.map (face2 t.uvs)).sum = 2 * ((S.uhi - S.ulo) * (S.vhi - S.vlo)) := by
  obtain ⟨nodes, N, du, dv, rss, top, e, e', h1, h2, t1, t2, -, f, pm, -, ar⟩ := surface_tree (M := M) h hw hd.1 hd.2 none
    (by simp) (opts.getD dflt)
  have hev := fun x hx => evaluateSurface_ok (M := M) h hw x hx
  cases opts with
  | none =>
    obtain ⟨t, et, -, ht⟩ := triangulateAll_area (M := M) h.u_good.eps_nonneg h1 hev
    rw [ar] at ht
    refine ⟨t, fun fuel _ => ?_, ht⟩
    rw [tessellateSurface, e, ok_bind]
    simp only [Option.isSome_none, Bool.false_eq_true, if_false]
    rw [show (pure nodes : Res (List (Node K W))) = .ok nodes from rfl, ok_bind]
    exact et
  | some o =>
    obtain ⟨t, et, -, ht⟩ := triangulateAll_area (M := M) h.u_good.eps_nonneg h2 hev
    have : ((leafRects N).map Rect.area).sum = (domRect S).area := by
      rw [(pm.map Rect.area).sum_eq, ← ar]
      exact halvings_area_sum f
    rw [this] at ht
    refine ⟨t, fun fuel hf => ?_, ht⟩
    rw [tessellateSurface, e, ok_bind]
    simp only [Option.isSome_some, if_true]
    rw [e' fuel (hf o rfl), ok_bind]
    exact et

example (o dflt : Options ℚ) := C69_orientation_and_area (M := spaceMetric) exSheet_good exSheet_weights exSheet_degrees
  (some o) dflt

end surface

end Curvo.Props

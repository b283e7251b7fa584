/-
  Property theorems about the adaptive tessellation of a whole surface: C46 (depth), C63 (tiling), C68 (conforming mesh).
-/
import Verif.Props.TessEdges
import Verif.Props.TessParams
import Verif.Props.Tessellate

set_option linter.unusedSectionVars false

namespace Curvo.Props

open Curvo Curvo.Tess Curvo.Spec

variable {K : Type} [Field K] [LinearOrder K] [IsStrictOrderedRing K] {W : Type} [AddCommGroup W]

/-! ### The grid -/

/-- The rectangle of the cell in row `iv` (from the top) and column `iu`. -/
def cell (U V : ℕ → K) (dv iv iu : ℕ) : Rect K := ⟨U iu, U (iu + 1), V (dv - iv - 1), V (dv - iv)⟩

/-- The cells in the order of the nodes. -/
def cells (U V : ℕ → K) (du dv : ℕ) : List (Rect K) :=
  (List.range dv).flatMap fun iv => (List.range du).map fun iu => cell U V dv iv iu

theorem index_split {du dv i : ℕ} (h : i < dv * du) : i / du < dv ∧ i % du < du ∧ i = i / du * du + i % du := by
  have hdu : 0 < du := Nat.pos_of_ne_zero (by rintro rfl; simp at h)
  exact ⟨Nat.div_lt_of_lt_mul (by rwa [Nat.mul_comm]), Nat.mod_lt _ hdu, (Nat.div_add_mod' i du).symm⟩

theorem mono_le {U : ℕ → K} {d : ℕ} (h : ∀ i, i < d → U i < U (i + 1)) {a b : ℕ} (hab : a ≤ b) (hb : b ≤ d) : U a ≤ U b := by
  induction b with
  | zero => rw [Nat.le_zero.1 hab]
  | succ b ih =>
    rcases Nat.lt_or_ge b a with h' | h'
    · rw [show a = b + 1 by omega]
    · exact (ih h' (by omega)).trans (h b (by omega)).le

theorem exists_interval {U : ℕ → K} {d : ℕ} (hd : 0 < d) (_h : ∀ i, i < d → U i < U (i + 1)) {x : K} (h0 : U 0 ≤ x)
    (h1 : x ≤ U d) : ∃ i, i < d ∧ U i ≤ x ∧ x ≤ U (i + 1) := by
  induction d with
  | zero => omega
  | succ d ih =>
    rcases le_total (U d) x with h | h
    · exact ⟨d, by omega, h, h1⟩
    · rcases Nat.eq_zero_or_pos d with rfl | hd'
      · exact ⟨0, by omega, h0, h1⟩
      · obtain ⟨i, a, b⟩ := ih hd' (fun i hi => _h i (by omega)) h
        exact ⟨i, by omega, b⟩

theorem cells_get {U V : ℕ → K} {du dv iv iu : ℕ} (hv : iv < dv) (hu : iu < du) :
    (cells U V du dv)[iv * du + iu]? = some (cell U V dv iv iu) :=
  flatten_getElem (fun iv iu => cell U V dv iv iu) dv du iv iu hv hu

theorem cells_length (U V : ℕ → K) (du dv : ℕ) : (cells U V du dv).length = dv * du :=
  flatMap_length (fun iv iu => cell U V dv iv iu) dv du

theorem row_area (U : ℕ → K) (h : K) (du : ℕ) :
    ((List.range du).map fun i => (U (i + 1) - U i) * h).sum = (U du - U 0) * h := by
  induction du with
  | zero => simp
  | succ du ih =>
    rw [List.range_succ, List.map_append, List.sum_append, ih]
    simp
    ring

theorem cells_area (U V : ℕ → K) (du dv : ℕ) : ((cells U V du dv).map Rect.area).sum = (U du - U 0) * (V dv - V 0) := by
  rw [cells, List.map_flatMap]
  have : ∀ k, k ≤ dv → (((List.range k).flatMap fun iv => ((List.range du).map fun iu => cell U V dv iv iu).map Rect.area)).sum =
      (U du - U 0) * (V dv - V (dv - k)) := by
    intro k
    induction k with
    | zero => simp
    | succ k ih =>
      intro hk
      rw [List.range_succ, List.flatMap_append, List.sum_append, ih (by omega), List.flatMap_singleton, List.map_map]
      have := row_area U (V (dv - k) - V (dv - k - 1)) du
      rw [show (Rect.area ∘ fun iu => cell U V dv k iu) = fun i => (U (i + 1) - U i) * (V (dv - k) - V (dv - k - 1)) from rfl,
        this, show dv - (k + 1) = dv - k - 1 by omega]
      ring
  rw [this dv (le_refl _), Nat.sub_self]

/-- The cells of a grid tile its rectangle. -/
theorem cells_tile {U V : ℕ → K} {du dv : ℕ} (hdu : 0 < du) (hdv : 0 < dv) (hU : ∀ i, i < du → U i < U (i + 1))
    (hV : ∀ i, i < dv → V i < V (i + 1)) : Tiles ⟨U 0, U du, V 0, V dv⟩ (cells U V du dv) where
  pos := by
    intro s hs
    simp only [cells, List.mem_flatMap, List.mem_map, List.mem_range] at hs
    obtain ⟨iv, hiv, iu, hiu, rfl⟩ := hs
    refine ⟨hU iu hiu, ?_⟩
    have := hV (dv - iv - 1) (by omega)
    rwa [show dv - iv - 1 + 1 = dv - iv by omega] at this
  sub := by
    intro s hs
    simp only [cells, List.mem_flatMap, List.mem_map, List.mem_range] at hs
    obtain ⟨iv, hiv, iu, hiu, rfl⟩ := hs
    exact ⟨mono_le hU (by omega) (by omega), mono_le hU (by omega) (by omega), mono_le hV (by omega) (by omega),
      mono_le hV (by omega) (by omega)⟩
  cover := by
    rintro x ⟨h1, h2, h3, h4⟩
    obtain ⟨iu, a1, a2, a3⟩ := exists_interval hdu hU h1 h2
    obtain ⟨jv, b1, b2, b3⟩ := exists_interval hdv hV h3 h4
    refine ⟨cell U V dv (dv - jv - 1) iu, ?_, a2, a3, ?_, ?_⟩
    · simp only [cells, List.mem_flatMap, List.mem_map, List.mem_range]
      exact ⟨dv - jv - 1, by omega, iu, a1, rfl⟩
    · simp only [cell]
      rw [show dv - (dv - jv - 1) - 1 = jv by omega]; exact b2
    · simp only [cell]
      rw [show dv - (dv - jv - 1) = jv + 1 by omega]; exact b3
  disjoint := by
    rw [List.pairwise_iff_getElem]
    intro i k hi hk hik x hx
    rw [cells_length] at hi hk
    obtain ⟨a1, a2, a3⟩ := index_split hi
    obtain ⟨b1, b2, b3⟩ := index_split hk
    have ei : (cells U V du dv)[i]'(by rw [cells_length]; exact hi) = cell U V dv (i / du) (i % du) := by
      have := cells_get (U := U) (V := V) a1 a2
      rw [← a3] at this
      exact (List.getElem?_eq_some_iff.1 this).2
    have ek : (cells U V du dv)[k]'(by rw [cells_length]; exact hk) = cell U V dv (k / du) (k % du) := by
      have := cells_get (U := U) (V := V) b1 b2
      rw [← b3] at this
      exact (List.getElem?_eq_some_iff.1 this).2
    rw [ei, ek] at hx
    clear ei ek
    generalize i / du = iv at *
    generalize i % du = iu at *
    generalize k / du = kv at *
    generalize k % du = ku at *
    obtain ⟨⟨p1, p2, p3, p4⟩, q1, q2, q3, q4⟩ := hx
    simp only [cell] at p1 p2 p3 p4 q1 q2 q3 q4
    rcases lt_trichotomy (iv) (kv) with h | h | h
    · have := mono_le hV (a := dv - kv) (b := dv - iv - 1) (by omega) (by omega)
      linarith
    · have hne : iu ≠ ku := by
        intro h'
        rw [h, h'] at a3
        omega
      rcases Nat.lt_or_gt_of_ne hne with h' | h'
      · have := mono_le hU (a := iu + 1) (b := ku) (by omega) (by omega)
        linarith
      · have := mono_le hU (a := ku + 1) (b := iu) (by omega) (by omega)
        linarith
    · have := mono_le hV (a := dv - iv) (b := dv - kv - 1) (by omega) (by omega)
      linarith

/-- The node of a cell. -/
def cellNode (P : ℕ → ℕ → SPoint K W) (du dv iv iu : ℕ) : Node K W :=
  Node.new (iv * du + iu) ![P (dv - iv - 1) iu, P (dv - iv - 1) (iu + 1), P (dv - iv) (iu + 1), P (dv - iv) iu]
    ![if iv = dv - 1 then none else some (iv * du + iu + du), if iu = du - 1 then none else some (iv * du + iu + 1),
      if iv = 0 then none else some (iv * du + iu - du), if iv = 0 then none else some (iv * du + iu - 1)]

theorem tessNode_eq {P : ℕ → ℕ → SPoint K W} {pts : List (List (SPoint K W))} {du dv iv iu : ℕ}
    (hp : ∀ r c, r ≤ dv → c ≤ du → get2R pts r c = .ok (P r c)) (hv : iv < dv) (hu : iu < du) :
    Tess.gridNode pts du dv iv iu = .ok (cellNode P du dv iv iu) := by
  have hle : iv = 0 ∨ du ≤ iv * du := by
    rcases Nat.eq_zero_or_pos iv with h | h
    · exact .inl h
    · exact .inr (Nat.le_mul_of_pos_left du h)
  have hn : Tess.north (iv * du + iu) iv du = .ok (if iv = 0 then none else some (iv * du + iu - du)) := by
    unfold Tess.north
    split_ifs with h
    · rfl
    · rw [subR_eq_ok (by omega)]; rfl
  have hs : Tess.south (iv * du + iu) iv du dv = .ok (if iv = dv - 1 then none else some (iv * du + iu + du)) := by
    unfold Tess.south
    rw [subR_eq_ok (by omega), ok_bind]
    split_ifs <;> rfl
  have he : Tess.east (iv * du + iu) iu du = .ok (if iu = du - 1 then none else some (iv * du + iu + 1)) := by
    unfold Tess.east
    rw [subR_eq_ok (by omega), ok_bind]
    split_ifs <;> rfl
  have hw : Tess.west (iv * du + iu) iv = .ok (if iv = 0 then none else some (iv * du + iu - 1)) := by
    unfold Tess.west
    split_ifs with h
    · rfl
    · rw [subR_eq_ok (by omega)]; rfl
  rw [Tess.gridNode, subR_eq_ok (by omega), ok_bind, subR_eq_ok (by omega), ok_bind, hp _ _ (by omega) (by omega), ok_bind,
    hp _ _ (by omega) (by omega), ok_bind, hp _ _ (by omega) (by omega), ok_bind, hp _ _ (by omega) (by omega), ok_bind]
  simp only []
  rw [hs, ok_bind, he, ok_bind, hn, ok_bind, hw, ok_bind]
  rfl

/-- The nodes of the grid. -/
def cellNodes (P : ℕ → ℕ → SPoint K W) (du dv : ℕ) : List (Node K W) :=
  (List.range dv).flatMap fun iv => (List.range du).map fun iu => cellNode P du dv iv iu

theorem cellNodes_get {P : ℕ → ℕ → SPoint K W} {du dv iv iu : ℕ} (hv : iv < dv) (hu : iu < du) :
    (cellNodes P du dv)[iv * du + iu]? = some (cellNode P du dv iv iu) :=
  flatten_getElem (fun iv iu => cellNode P du dv iv iu) dv du iv iu hv hu

theorem cellNodes_length (P : ℕ → ℕ → SPoint K W) (du dv : ℕ) : (cellNodes P du dv).length = dv * du :=
  flatMap_length (fun iv iu => cellNode P du dv iv iu) dv du

theorem cellNode_box {pt : K × K → W} {U V : ℕ → K} {P : ℕ → ℕ → SPoint K W} {du dv iv iu : ℕ}
    (hP : ∀ r c, r ≤ dv → c ≤ du → (P r c).uv = (U c, V r) ∧ (P r c).point = pt (U c, V r)) (hv : iv < dv) (hu : iu < du) :
    Box pt (cell U V dv iv iu)
      ![P (dv - iv - 1) iu, P (dv - iv - 1) (iu + 1), P (dv - iv) (iu + 1), P (dv - iv) iu] :=
  Box.of (hP _ _ (by omega) (by omega)) (hP _ _ (by omega) (by omega)) (hP _ _ (by omega) (by omega))
    (hP _ _ (by omega) (by omega))

theorem cellNode_rect {pt : K × K → W} {U V : ℕ → K} {P : ℕ → ℕ → SPoint K W} {du dv iv iu : ℕ}
    (hP : ∀ r c, r ≤ dv → c ≤ du → (P r c).uv = (U c, V r) ∧ (P r c).point = pt (U c, V r)) (hv : iv < dv) (hu : iu < du) :
    nodeRect (cellNode P du dv iv iu) = cell U V dv iv iu := (cellNode_box hP hv hu).rect _ _

theorem cellNodes_rects {pt : K × K → W} {U V : ℕ → K} {P : ℕ → ℕ → SPoint K W} {du dv : ℕ}
    (hP : ∀ r c, r ≤ dv → c ≤ du → (P r c).uv = (U c, V r) ∧ (P r c).point = pt (U c, V r)) :
    (cellNodes P du dv).map nodeRect = cells U V du dv := by
  rw [cellNodes, cells, List.map_flatMap]
  apply List.flatMap_congr
  intro iv hiv
  rw [List.map_map]
  apply List.map_congr_left
  intro iu hiu
  exact cellNode_rect hP (List.mem_range.1 hiv) (List.mem_range.1 hiu)

/-- The nodes of the initial grid satisfy the invariant. -/
theorem grid_ok {pt : K × K → W} {U V : ℕ → K} {P : ℕ → ℕ → SPoint K W} {du dv : ℕ} (hdu : 0 < du) (hdv : 0 < dv)
    (hU : ∀ i, i < du → U i < U (i + 1)) (hV : ∀ i, i < dv → V i < V (i + 1))
    (hP : ∀ r c, r ≤ dv → c ≤ du → (P r c).uv = (U c, V r) ∧ (P r c).point = pt (U c, V r)) :
    TreeOK pt ⟨U 0, U du, V 0, V dv⟩ (V (dv - 1)) (cellNodes P du dv) := by
  intro i n hi
  have hil : i < dv * du := by rw [← cellNodes_length P du dv]; exact (List.getElem?_eq_some_iff.1 hi).1
  obtain ⟨a1, a2, a3⟩ := index_split hil
  obtain ⟨iv, hiv⟩ : ∃ iv, iv = i / du := ⟨_, rfl⟩
  obtain ⟨iu, hiu⟩ : ∃ iu, iu = i % du := ⟨_, rfl⟩
  rw [← hiv] at a1 a3
  rw [← hiu] at a2 a3
  have hget := cellNodes_get (P := P) a1 a2
  rw [← a3, hi] at hget
  obtain rfl := Option.some.inj hget
  have hcell := (cells_tile hdu hdv hU hV)
  have hmem : cell U V dv iv iu ∈ cells U V du dv := by
    simp only [cells, List.mem_flatMap, List.mem_map, List.mem_range]
    exact ⟨iv, a1, iu, a2, rfl⟩
  refine nodeOK_new (cellNode_box hP a1 a2) (hcell.pos _ hmem) (hcell.sub _ hmem) ?_ ?_
  · intro e j hj
    fin_cases e
    · have hj' : (if iv = dv - 1 then none else some (iv * du + iu + du)) = some j := hj
      split_ifs at hj' with h
      obtain rfl := Option.some.inj hj'
      refine ⟨cellNode P du dv (iv + 1) iu, ?_, .inl ?_⟩
      · rw [← cellNodes_get (by omega) a2]
        congr 1; ring
      · rw [cellNode_rect hP (by omega) a2]
        refine ⟨?_, le_refl _, le_refl _⟩
        show V (dv - (iv + 1)) = V (dv - iv - 1)
        congr 1
    · have hj' : (if iu = du - 1 then none else some (iv * du + iu + 1)) = some j := hj
      split_ifs at hj' with h
      obtain rfl := Option.some.inj hj'
      refine ⟨cellNode P du dv iv (iu + 1), ?_, .inl ?_⟩
      · rw [← cellNodes_get a1 (by omega)]
        congr 1
      · rw [cellNode_rect hP a1 (by omega)]
        exact ⟨rfl, le_refl _, le_refl _⟩
    · have hj' : (if iv = 0 then none else some (iv * du + iu - du)) = some j := hj
      split_ifs at hj' with h
      obtain rfl := Option.some.inj hj'
      refine ⟨cellNode P du dv (iv - 1) iu, ?_, .inl ?_⟩
      · rw [← cellNodes_get (by omega) a2]
        congr 1
        obtain ⟨k, rfl⟩ : ∃ k, iv = k + 1 := ⟨iv - 1, by omega⟩
        rw [Nat.succ_mul, Nat.add_sub_cancel]
        omega
      · rw [cellNode_rect hP (by omega) a2]
        refine ⟨?_, le_refl _, le_refl _⟩
        show V (dv - (iv - 1) - 1) = V (dv - iv)
        congr 1; omega
    · have hj' : (if iv = 0 then none else some (iv * du + iu - 1)) = some j := hj
      split_ifs at hj' with h
      obtain rfl := Option.some.inj hj'
      rcases Nat.eq_zero_or_pos iu with h0 | h0
      · refine ⟨cellNode P du dv (iv - 1) (du - 1), ?_, .inr ⟨rfl, ?_, ?_⟩⟩
        · rw [← cellNodes_get (by omega) (by omega)]
          congr 1
          obtain ⟨k, rfl⟩ : ∃ k, iv = k + 1 := ⟨iv - 1, by omega⟩
          rw [Nat.succ_mul, Nat.add_sub_cancel]
          omega
        · show U iu = U 0
          rw [h0]
        · rw [cellNode_rect hP (by omega) (by omega)]
          show V (dv - iv) ≤ V (dv - (iv - 1) - 1)
          rw [show dv - (iv - 1) - 1 = dv - iv by omega]
      · refine ⟨cellNode P du dv iv (iu - 1), ?_, .inl ?_⟩
        · rw [← cellNodes_get a1 (by omega)]
          congr 1; omega
        · rw [cellNode_rect hP a1 (by omega)]
          refine ⟨?_, le_refl _, le_refl _⟩
          show U (iu - 1 + 1) = U iu
          congr 1; omega
  · intro e he
    fin_cases e
    · have he' : (if iv = dv - 1 then none else some (iv * du + iu + du)) = none := he
      split_ifs at he' with h
      left
      show V (dv - iv - 1) = V 0
      congr 1; omega
    · have he' : (if iu = du - 1 then none else some (iv * du + iu + 1)) = none := he
      split_ifs at he' with h
      left
      show U (iu + 1) = U du
      congr 1; omega
    · have he' : (if iv = 0 then none else some (iv * du + iu - du)) = none := he
      split_ifs at he' with h
      left
      show V (dv - iv) = V dv
      congr 1; omega
    · have he' : (if iv = 0 then none else some (iv * du + iu - 1)) = none := he
      split_ifs at he' with h
      right
      refine ⟨rfl, ?_⟩
      show V (dv - 1) ≤ V (dv - iv - 1)
      rw [h, Nat.sub_zero]

end Curvo.Props

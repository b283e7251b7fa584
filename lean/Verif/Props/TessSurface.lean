/-
  Property theorems about the adaptive tessellation of a whole surface: C46 (depth), C63 (tiling), C68 (conforming mesh).
-/
import Verif.Props.TessGrid

set_option linter.unusedSectionVars false

namespace Curvo.Props

open Curvo Curvo.Tess Curvo.Spec

variable {K : Type} [Field K] [LinearOrder K] [IsStrictOrderedRing K] {W : Type} [AddCommGroup W]

/-! ### Dividing all cells -/

theorem forall₂_imp_mem {α β : Type} {R S : α → β → Prop} {l : List α} {l' : List β}
    (H : ∀ a b, a ∈ l → b ∈ l' → R a b → S a b) (h : List.Forall₂ R l l') : List.Forall₂ S l l' := by
  induction h with
  | nil => exact .nil
  | cons h1 _ ih =>
    exact .cons (H _ _ (by simp) (by simp) h1)
      (ih fun a b ha hb => H a b (List.mem_cons_of_mem _ ha) (List.mem_cons_of_mem _ hb))

theorem foldlM_flatMap' {α β γ : Type} (f : γ → β → Res γ) (g : α → List β) :
    ∀ (l : List α) (s : γ), (l.flatMap g).foldlM f s = l.foldlM (fun s a => (g a).foldlM f s) s
  | [], s => rfl
  | a :: l, s => by
    rw [List.flatMap_cons, List.foldlM_append, List.foldlM_cons]
    congr 1
    funext s
    exact foldlM_flatMap' f g l s

theorem index_list (du dv : ℕ) :
    ((List.range dv).flatMap fun iv => (List.range du).map fun iu => iv * du + iu) = List.range (dv * du) := by
  apply List.ext_getElem?
  intro i
  by_cases hi : i < dv * du
  · obtain ⟨a, b, c⟩ := index_split hi
    have := flatten_getElem (fun iv iu => iv * du + iu) dv du _ _ a b
    rw [← c] at this
    rw [this, List.getElem?_range hi]
  · rw [List.getElem?_eq_none (by rw [flatMap_length]; omega), List.getElem?_eq_none (by simpa using Nat.le_of_not_lt hi)]

theorem divideAll_eq (M : Metric K W) (ev : K × K → Res (SPoint K W)) (o : Options K) (p fuel du dv : ℕ)
    (N : List (Node K W)) : divideAll M ev o p fuel du dv N = (List.range (dv * du)).foldlM (divide M ev o p fuel) N := by
  rw [← index_list, foldlM_flatMap', divideAll]
  congr 1
  funext s iv
  rw [List.foldlM_map]

/-- Dividing several leaves. -/
theorem divide_list {pt : K × K → W} {dom : Rect K} {top : K} {ev : K × K → Res (SPoint K W)} {M : Metric K W}
    {o : Options K} {p fuel : ℕ} (hev : ∀ x, dom.Mem x → ∃ q, ev x = .ok q ∧ q.uv = x ∧ q.point = pt x)
    (hf : max o.minDepth o.maxDepth < fuel) :
    ∀ (ids : List ℕ) (N : List (Node K W)), ids.Nodup → (∀ i ∈ ids, ∃ n, N[i]? = some n ∧ n.children = none) →
      TreeOK pt dom top N →
      ∃ (N' : List (Node K W)) (cs : List (Rect K)) (rss : List (List (Rect K))),
        ids.foldlM (divide M ev o p fuel) N = .ok N' ∧ TreeOK pt dom top N' ∧
        List.Forall₂ (fun i r => ∃ n, N[i]? = some n ∧ nodeRect n = r) ids cs ∧
        List.Forall₂ (Halvings o.minDepth (max o.minDepth o.maxDepth) 0) cs rss ∧
        (cs ++ leafRects N').Perm (leafRects N ++ rss.flatten) := by
  intro ids
  induction ids with
  | nil =>
    intro N _ _ hN
    exact ⟨N, [], [], rfl, hN, .nil, .nil, by simp⟩
  | cons i ids ih =>
    intro N hnd hl hN
    obtain ⟨n, hi, hc⟩ := hl i (by simp)
    obtain ⟨N1, rs, e1, t1, len1, same1, -, h1, p1⟩ := iterate_spec (M := M) hev fuel N i 0 (if 1 < p then .u else .v) n hN hi hc
      (by omega) (by omega)
    have hnd' := List.nodup_cons.1 hnd
    obtain ⟨N2, cs, rss, e2, t2, f2, h2, p2⟩ := ih N1 hnd'.2 (by
      intro j hj
      obtain ⟨m, a, b⟩ := hl j (List.mem_cons_of_mem _ hj)
      refine ⟨m, ?_, b⟩
      rw [same1 j (List.getElem?_eq_some_iff.1 a).1 (by rintro rfl; exact hnd'.1 hj), a]) t1
    refine ⟨N2, nodeRect n :: cs, rs :: rss, ?_, t2, .cons ⟨n, hi, rfl⟩ ?_, .cons h1 h2, ?_⟩
    · rw [List.foldlM_cons, divide, e1, ok_bind, e2]
    · refine forall₂_imp_mem ?_ f2
      rintro j r hj - ⟨m, a, b⟩
      refine ⟨m, ?_, b⟩
      obtain ⟨m', a', -⟩ := hl j (List.mem_cons_of_mem _ hj)
      rw [← a, same1 j (List.getElem?_eq_some_iff.1 a').1 (by rintro rfl; exact hnd'.1 hj)]
    · rw [List.flatten_cons]
      have q1 : (nodeRect n :: cs ++ leafRects N2).Perm (nodeRect n :: (leafRects N1 ++ rss.flatten)) := p2.cons _
      refine q1.trans ?_
      rw [← List.cons_append, ← List.append_assoc]
      exact p1.append_right _

theorem tiles_flatten {r : Rect K} {l : List (Rect K)} {rss : List (List (Rect K))} (h : Tiles r l)
    (hf : List.Forall₂ Tiles l rss) : Tiles r rss.flatten := by
  obtain ⟨hp, hs, hc, hd⟩ := h
  have key : ∀ {l : List (Rect K)} {rss : List (List (Rect K))}, List.Forall₂ Tiles l rss →
      (∀ t ∈ rss.flatten, ∃ s ∈ l, t.Sub s ∧ t.Pos) ∧ (∀ s ∈ l, ∀ x, s.Mem x → ∃ t ∈ rss.flatten, t.Mem x) := by
    intro l rss hf
    induction hf with
    | nil => simp
    | @cons s rs l rss h1 _ ih =>
      rw [List.flatten_cons]
      constructor
      · intro t ht
        rcases List.mem_append.1 ht with ht | ht
        · exact ⟨s, by simp, h1.sub t ht, h1.pos t ht⟩
        · obtain ⟨s', a, b⟩ := ih.1 t ht
          exact ⟨s', List.mem_cons_of_mem _ a, b⟩
      · intro s' hs' x hx
        rcases List.mem_cons.1 hs' with rfl | hs'
        · obtain ⟨t, a, b⟩ := h1.cover x hx
          exact ⟨t, List.mem_append_left _ a, b⟩
        · obtain ⟨t, a, b⟩ := ih.2 s' hs' x hx
          exact ⟨t, List.mem_append_right _ a, b⟩
  refine ⟨?_, ?_, ?_, ?_⟩
  · intro t ht
    obtain ⟨s, -, -, a⟩ := (key hf).1 t ht
    exact a
  · intro t ht
    obtain ⟨s, a, b, -⟩ := (key hf).1 t ht
    exact b.trans (hs s a)
  · intro x hx
    obtain ⟨s, a, b⟩ := hc x hx
    exact (key hf).2 s a x b
  · clear hp hs hc
    induction hf with
    | nil => simp
    | @cons s rs l rss h1 hf ih =>
      rw [List.flatten_cons, List.pairwise_append]
      refine ⟨h1.disjoint, ih hd.of_cons, ?_⟩
      intro a ha b hb x hx
      obtain ⟨s', hs', hsub, -⟩ := (key hf).1 b hb
      exact List.rel_of_pairwise_cons hd hs' x ⟨hx.1.mono (h1.sub a ha), hx.2.mono hsub⟩

/-- Dividing all cells of a grid: terminates, the leaves tile the rectangle, every leaf results from a cell by halvings
    whose number is bounded by the options. -/
theorem grid_divided {pt : K × K → W} {ev : K × K → Res (SPoint K W)} {M : Metric K W} {o : Options K} {p fuel du dv : ℕ}
    {U V : ℕ → K} {P : ℕ → ℕ → SPoint K W} (hdu : 0 < du) (hdv : 0 < dv)
    (hU : ∀ i, i < du → U i < U (i + 1)) (hV : ∀ i, i < dv → V i < V (i + 1))
    (hP : ∀ r c, r ≤ dv → c ≤ du → (P r c).uv = (U c, V r) ∧ (P r c).point = pt (U c, V r))
    (hev : ∀ x, (⟨U 0, U du, V 0, V dv⟩ : Rect K).Mem x → ∃ q, ev x = .ok q ∧ q.uv = x ∧ q.point = pt x)
    (hf : max o.minDepth o.maxDepth < fuel) :
    ∃ (N : List (Node K W)) (rss : List (List (Rect K))), divideAll M ev o p fuel du dv (cellNodes P du dv) = .ok N ∧
      TreeOK pt ⟨U 0, U du, V 0, V dv⟩ (V (dv - 1)) N ∧
      List.Forall₂ (Halvings o.minDepth (max o.minDepth o.maxDepth) 0) (cells U V du dv) rss ∧
      (leafRects N).Perm rss.flatten ∧ Tiles ⟨U 0, U du, V 0, V dv⟩ (leafRects N) := by
  have hcell : ∀ i ∈ List.range (dv * du), ∃ n, (cellNodes P du dv)[i]? = some n ∧ n.children = none ∧
      (cells U V du dv)[i]? = some (nodeRect n) := by
    intro i hi
    obtain ⟨a, b, c⟩ := index_split (List.mem_range.1 hi)
    refine ⟨cellNode P du dv (i / du) (i % du), ?_, rfl, ?_⟩
    · conv_lhs => rw [c]
      exact cellNodes_get a b
    · rw [cellNode_rect hP a b]
      conv_lhs => rw [c]
      exact cells_get a b
  obtain ⟨N, cs, rss, e, t, f, h, pm⟩ := divide_list (M := M) (p := p) hev hf (List.range (dv * du)) (cellNodes P du dv)
    List.nodup_range (fun i hi => by obtain ⟨n, a, b, -⟩ := hcell i hi; exact ⟨n, a, b⟩) (grid_ok hdu hdv hU hV hP)
  have hcs : cs = cells U V du dv := by
    apply List.ext_getElem?
    intro i
    by_cases hi : i < dv * du
    · have hl := f.length_eq
      rw [List.length_range] at hl
      have := List.Forall₂.get f (i := i) (by rw [List.length_range]; exact hi) (by omega)
      obtain ⟨n, a, b⟩ := this
      simp only [List.get_eq_getElem, List.getElem_range] at a b
      obtain ⟨n', a', -, b'⟩ := hcell i (List.mem_range.2 hi)
      rw [a] at a'
      obtain rfl := Option.some.inj a'
      rw [b', List.getElem?_eq_getElem (by omega), b]
    · have hl := f.length_eq
      rw [List.length_range] at hl
      rw [List.getElem?_eq_none (by omega), List.getElem?_eq_none (by rw [cells_length]; omega)]
  have hleaf : leafRects (cellNodes P du dv) = cells U V du dv := by
    rw [← cellNodes_rects hP, leafRects]
    congr 1
    rw [List.filter_eq_self]
    intro n hn
    simp only [cellNodes, List.mem_flatMap, List.mem_map] at hn
    obtain ⟨_, _, _, _, rfl⟩ := hn
    rfl
  rw [hcs] at h pm
  rw [hleaf] at pm
  have pm' := (List.perm_append_left_iff _).1 pm
  refine ⟨N, rss, by rw [divideAll_eq, e], t, h, pm', ?_⟩
  have ht := cells_tile hdu hdv hU hV
  refine (tiles_flatten ht ?_).perm pm'.symm
  refine forall₂_imp_mem ?_ h
  intro r rs hr _ hh
  exact hh.tiles (ht.pos r hr)

/-! ### Surfaces -/

section surface
variable [Module K W]

/-- The parameter rectangle of a surface. -/
def domRect (S : Surface K (W × K)) : Rect K := ⟨S.ulo, S.uhi, S.vlo, S.vhi⟩

/-- The surface point at a parameter. -/
def surfPoint (S : Surface K (W × K)) (x : K × K) : W := (S.eval x.1 x.2).2⁻¹ • (S.eval x.1 x.2).1

theorem first_derivatives {eps : K} {S : Surface K (W × K)} (h : S.Good eps)
    (hw : ∀ row ∈ S.cps, ∀ p ∈ row, 0 < p.2) {x : K × K} (hx : (domRect S).Mem x) :
    ∃ a b : W, S.rationalDerivatives eps x.1 x.2 1 = .ok [[surfPoint S x, b], [a]] := by
  obtain ⟨h1, h2, h3, h4⟩ := hx
  have := h.rows_pos
  have := h.cols_pos
  obtain ⟨su, eu, pu, nu, iu⟩ := h.exists_span_u h1 h2
  obtain ⟨sv, ev, pv, nv, iv⟩ := h.exists_span_v h3 h4
  obtain ⟨e, _, _⟩ := surf_span h h1 h2 h3 h4 (by omega) (by omega) iu iv 1
  have hp := surf_weight_pos h hw h1 h2 h3 h4
  have he := Surface.eval_eq_patch h pu nu pv nv iu iv
  rw [he] at hp
  obtain ⟨Q, eQ, hQ⟩ := Surface.rationalTable_spec (m := 1)
    (F := fun k l => if k + l ≤ 1 then S.patchDer su sv k l x.1 x.2 else 0) (by
      simp only [Nat.add_zero, Nat.zero_le, if_true]; exact hp.ne')
  refine ⟨Q 1 0, Q 0 1, ?_⟩
  rw [Surface.rationalDerivatives, e, ok_bind, eQ]
  have h0 := hQ 0 0 (by omega)
  simp only [Surface.leib, Nat.zero_add, Finset.range_one, Finset.sum_singleton, Nat.choose_self, Nat.cast_one, one_mul,
    Nat.sub_zero, Nat.zero_le, if_true, Nat.add_zero] at h0
  have : Q 0 0 = surfPoint S x := by
    rw [surfPoint, he, ← h0, inv_smul_smul₀ hp.ne']
  rw [← this]
  rfl

theorem evaluateSurface_ok {M : Metric K W} {eps : K} {S : Surface K (W × K)} (h : S.Good eps)
    (hw : ∀ row ∈ S.cps, ∀ p ∈ row, 0 < p.2) (x : K × K) (hx : (domRect S).Mem x) :
    ∃ p, evaluateSurface M eps S x = .ok p ∧ p.uv = x ∧ p.point = surfPoint S x := by
  obtain ⟨a, b, e⟩ := first_derivatives h hw hx
  have e' : evaluateSurface M eps S x = .ok (⟨x, surfPoint S x,
      if decide (M.normSq (M.cross a b) < eps) then M.cross a b else M.normalize (M.cross a b),
      decide (M.normSq (M.cross a b) < eps), false, false, false, false, false, false⟩ : SPoint K W) := by
    rw [evaluateSurface, e, ok_bind]
    rfl
  exact ⟨_, e', rfl, rfl⟩

theorem gridPoint_ok {M : Metric K W} {eps : K} {S : Surface K (W × K)} (h : S.Good eps)
    (hw : ∀ row ∈ S.cps, ∀ p ∈ row, 0 < p.2) (c : Constraints K) {du dv : ℕ} (hdu : 0 < du) (hdv : 0 < dv) {u v : K}
    (hx : (domRect S).Mem (u, v)) (iu iv : ℕ) :
    ∃ p, gridPoint M eps S c du dv u v iu iv = .ok p ∧ p.uv = (u, v) ∧ p.point = surfPoint S (u, v) := by
  obtain ⟨a, b, e⟩ := first_derivatives h hw hx
  have e' : gridPoint M eps S c du dv u v iu iv = .ok {
      uv := (u, v), point := surfPoint S (u, v), normal := M.normalize (M.cross a b), degenerate := false,
      uConstraint := (decide (iv = 0) && c.uAtVMin.isSome) || (decide (iv = dv - 1) && c.uAtVMax.isSome),
      vConstraint := (decide (iu = 0) && c.vAtUMin.isSome) || (decide (iu = du - 1) && c.vAtUMax.isSome),
      uMin := decide (iv = 0), uMax := decide (iv = dv - 1), vMin := decide (iu = 0),
      vMax := decide (iu = du - 1) } := by
    rw [gridPoint, subR_eq_ok (by omega), ok_bind, subR_eq_ok (by omega), ok_bind]
    simp only []
    rw [e, ok_bind]
    rfl
  exact ⟨_, e', rfl, rfl⟩

/-- A list of grid parameters from `lo` to `hi`. -/
structure GridList (lo hi : K) (us : List K) : Prop where
  lt : lo < hi
  strict : us.Pairwise (· < ·)
  lo_mem : lo ∈ us
  hi_mem : hi ∈ us
  bounds : ∀ x ∈ us, lo ≤ x ∧ x ≤ hi

theorem GridList.fn {lo hi : K} {us : List K} (h : GridList lo hi us) :
    ∃ d, us.length = d + 1 ∧ 0 < d ∧ (∀ i, i < d → us.getD i 0 < us.getD (i + 1) 0) ∧ us.getD 0 0 = lo ∧ us.getD d 0 = hi ∧
      ∀ i, i ≤ d → lo ≤ us.getD i 0 ∧ us.getD i 0 ≤ hi := by
  obtain ⟨i, hi1, hi2⟩ := List.getElem_of_mem h.lo_mem
  obtain ⟨k, hk1, hk2⟩ := List.getElem_of_mem h.hi_mem
  have hst := List.pairwise_iff_getElem.1 h.strict
  have hlen : 1 < us.length := by
    by_contra hc
    have : i = k := by omega
    subst this
    have := h.lt
    rw [hi2] at hk2
    exact this.ne hk2
  have get : ∀ j (hj : j < us.length), us.getD j 0 = us[j] := by
    intro j hj
    rw [List.getD_eq_getElem?_getD, List.getElem?_eq_getElem hj]; rfl
  refine ⟨us.length - 1, by omega, by omega, ?_, ?_, ?_, ?_⟩
  · intro j hj
    rw [get j (by omega), get (j + 1) (by omega)]
    exact hst j (j + 1) (by omega) (by omega) (by omega)
  · rw [get 0 (by omega)]
    refine le_antisymm ?_ (h.bounds _ (List.getElem_mem _)).1
    rcases Nat.eq_zero_or_pos i with rfl | hi'
    · exact hi2.le
    · exact (hst 0 i (by omega) hi1 hi').le.trans hi2.le
  · rw [get _ (by omega)]
    refine le_antisymm (h.bounds _ (List.getElem_mem _)).2 ?_
    rcases Nat.lt_or_ge k (us.length - 1) with hk | hk
    · exact hk2.ge.trans (hst k _ hk1 (by omega) hk).le
    · have : k = us.length - 1 := by omega
      subst this
      exact hk2.ge
  · intro j hj
    rw [get j (by omega)]
    exact h.bounds _ (List.getElem_mem _)

/-- The grid parameters of one direction: for degree at least two always, for degree one if the inner knots are simple. -/
theorem gridParams_ok {eps : K} {ks : List K} {p n mult minDivs : ℕ} (hl : ks.length = n + p + 2)
    (hg : GoodKnots eps (kf ks) p n) (hp : 2 ≤ p ∨ (p = 1 ∧ ∀ i, 1 ≤ i → i < n + 1 → kf ks i < kf ks (i + 1)))
    (hm : 0 < mult) :
    ∃ us, gridParams p ks (n + 1) mult minDivs = .ok us ∧ GridList (kf ks p) (kf ks (n + 1)) us := by
  have hlt : kf ks p < kf ks (n + 1) := lt_of_lt_of_le hg.first (hg.mono _ _ (by have := hg.le; omega) (by omega))
  rcases hp with hp | ⟨hp, hs⟩
  · have hdom : Knots.domain ks p = .ok (kf ks p, kf ks (n + 1)) := by
      rw [Knots.domain, getR_kf (by omega), ok_bind, subR_eq_ok (by omega), ok_bind, subR_eq_ok (by omega), ok_bind,
        getR_kf (by omega), ok_bind, show ks.length - 1 - p = n + 1 by omega]
      rfl
    obtain ⟨d, hd⟩ : ∃ d, d = max minDivs (n * mult) := ⟨_, rfl⟩
    have hd0 : 0 < d := by
      rw [hd]
      exact lt_max_of_lt_right (Nat.mul_pos (by have := hg.le; omega) hm)
    have hdK : (0 : K) < d := Nat.cast_pos.2 hd0
    refine ⟨(List.range (d + 1)).map fun i : ℕ => kf ks p + (kf ks (n + 1) - kf ks p) / d * i, ?_, ?_⟩
    · rw [gridParams, if_neg (by omega), subR_eq_ok (by omega), ok_bind]
      simp only []
      rw [hdom, ok_bind]
      simp only [Nat.add_sub_cancel]
      rw [← hd, divR_eq_ok hdK.ne', ok_bind]
      rfl
    · have hq : 0 < (kf ks (n + 1) - kf ks p) / d := div_pos (sub_pos.2 hlt) hdK
      refine ⟨hlt, ?_, ?_, ?_, ?_⟩
      · rw [List.pairwise_map]
        refine List.pairwise_lt_range.imp ?_
        intro a b hab
        have : (a : K) < b := Nat.cast_lt.2 hab
        nlinarith
      · exact List.mem_map.2 ⟨0, by simp, by simp⟩
      · refine List.mem_map.2 ⟨d, by simp, ?_⟩
        rw [div_mul_cancel₀ _ hdK.ne']
        ring
      · intro x hx
        obtain ⟨i, hi, rfl⟩ := List.mem_map.1 hx
        have hi' : (i : K) ≤ d := Nat.cast_le.2 (by have := List.mem_range.1 hi; omega)
        have h0 : (0 : K) ≤ i := Nat.cast_nonneg _
        constructor
        · nlinarith
        · have : (kf ks (n + 1) - kf ks p) / d * i ≤ (kf ks (n + 1) - kf ks p) / d * d := mul_le_mul_of_nonneg_left hi' hq.le
          rw [div_mul_cancel₀ _ hdK.ne'] at this
          linarith
  · subst hp
    have hpn := hg.le
    refine ⟨(List.range (n + 1)).map fun i => kf ks (i + 1), ?_, ?_⟩
    · rw [gridParams, if_pos (by omega), subR_eq_ok (by omega), ok_bind]
      congr 1
      apply List.ext_getElem?
      intro i
      by_cases hi : i < n + 1
      · rw [List.getElem?_take_of_lt (by omega), List.getElem?_drop, List.getElem?_map, List.getElem?_range hi,
          List.getElem?_eq_getElem (by omega)]
        simp only [Option.map_some, Option.some.injEq]
        rw [kf, List.getD_eq_getElem?_getD, List.getElem?_eq_getElem (by omega)]
        simp only [Option.getD_some, Nat.add_comm 1 i]
      · rw [List.getElem?_eq_none (by simp; omega), List.getElem?_eq_none (by simp; omega)]
    · have hmono : ∀ a b, a < b → b ≤ n → kf ks (a + 1) < kf ks (b + 1) := by
        intro a b hab hb
        induction b with
        | zero => omega
        | succ b ih =>
          rcases Nat.lt_or_ge a b with h | h
          · exact (ih h (by omega)).trans (hs (b + 1) (by omega) (by omega))
          · rw [show a = b by omega]
            exact hs (b + 1) (by omega) (by omega)
      refine ⟨hlt, ?_, ?_, ?_, ?_⟩
      · rw [List.pairwise_map, List.pairwise_iff_getElem]
        intro i j hi hj hij
        simp only [List.length_range] at hi hj
        simp only [List.getElem_range]
        exact hmono i j hij (by omega)
      · exact List.mem_map.2 ⟨0, by simp, rfl⟩
      · exact List.mem_map.2 ⟨n, by simp, rfl⟩
      · intro x hx
        obtain ⟨i, hi, rfl⟩ := List.mem_map.1 hx
        have hi := List.mem_range.1 hi
        constructor
        · rcases Nat.eq_zero_or_pos i with rfl | h0
          · exact le_refl _
          · exact (hmono 0 i h0 (by omega)).le
        · rcases Nat.lt_or_ge i n with h | h
          · exact (hmono i n h (le_refl _)).le
          · rw [show i = n by omega]

/-- Inserting sorted boundary parameters of the domain keeps a grid list. -/
theorem GridList.insert {lo hi : K} {us : List K} (h : GridList lo hi us) {c : Option (List K)}
    (hc : ∀ l, c = some l → l.Pairwise (· < ·) ∧ ∀ x ∈ l, lo ≤ x ∧ x ≤ hi) : GridList lo hi (insertParams us c) := by
  cases c with
  | none => exact h
  | some l =>
    obtain ⟨h1, h2⟩ := hc l rfl
    obtain ⟨a, b⟩ := C48_merge_strict h.strict h1
    refine ⟨h.lt, a, (b _).2 (.inl h.lo_mem), (b _).2 (.inl h.hi_mem), ?_⟩
    intro x hx
    rcases (b x).1 hx with hx | hx
    · exact h.bounds x hx
    · exact h2 x hx

theorem list_of_fn {l : List K} {d : ℕ} (h : l.length = d + 1) : l = (List.range (d + 1)).map fun i => l.getD i 0 := by
  apply List.ext_getElem?
  intro i
  by_cases hi : i < d + 1
  · rw [List.getElem?_map, List.getElem?_range hi, List.getElem?_eq_getElem (by omega)]
    simp only [Option.map_some, Option.some.injEq]
    rw [List.getD_eq_getElem?_getD, List.getElem?_eq_getElem (by omega)]
    rfl
  · rw [List.getElem?_eq_none (by omega), List.getElem?_eq_none (by simp; omega)]

/-- The initial grid of the adaptive tessellation. -/
theorem adaptiveGrid_ok {M : Metric K W} {eps : K} {S : Surface K (W × K)} (h : S.Good eps)
    (hw : ∀ row ∈ S.cps, ∀ p ∈ row, 0 < p.2)
    (hpu : 2 ≤ S.uDegree ∨ (S.uDegree = 1 ∧ ∀ i, 1 ≤ i → i < S.cps.length → kf S.uKnots i < kf S.uKnots (i + 1)))
    (hpv : 2 ≤ S.vDegree ∨ (S.vDegree = 1 ∧ ∀ i, 1 ≤ i → i < S.cols → kf S.vKnots i < kf S.vKnots (i + 1)))
    (c : Option (Constraints K))
    (hc : ∀ cs, c = some cs →
      (∀ l, cs.uParameters = some l → l.Pairwise (· < ·) ∧ ∀ x ∈ l, S.ulo ≤ x ∧ x ≤ S.uhi) ∧
      (∀ l, cs.vParameters = some l → l.Pairwise (· < ·) ∧ ∀ x ∈ l, S.vlo ≤ x ∧ x ≤ S.vhi)) (o : Options K) :
    ∃ (U V : ℕ → K) (P : ℕ → ℕ → SPoint K W) (du dv : ℕ),
      adaptiveGrid M eps S c o = .ok (cellNodes P du dv, du, dv) ∧ 0 < du ∧ 0 < dv ∧
      (∀ i, i < du → U i < U (i + 1)) ∧ (∀ i, i < dv → V i < V (i + 1)) ∧
      (∀ r c, r ≤ dv → c ≤ du → (P r c).uv = (U c, V r) ∧ (P r c).point = surfPoint S (U c, V r)) ∧
      U 0 = S.ulo ∧ U du = S.uhi ∧ V 0 = S.vlo ∧ V dv = S.vhi ∧
      (∀ r i, r ≤ dv → i ≤ du → gridPoint M eps S (c.getD {}) du dv (U i) (V r) i r = .ok (P r i)) ∧
      (∃ us, gridParams S.uDegree S.uKnots S.cps.length (if c.isSome then 1 else 2) o.minDivsU = .ok us ∧ us.Pairwise (· < ·) ∧
        insertParams us (c.bind Constraints.uParameters) = (List.range (du + 1)).map U) ∧
      ∃ vs, gridParams S.vDegree S.vKnots S.cols (if c.isSome then 1 else 2) o.minDivsV = .ok vs ∧ vs.Pairwise (· < ·) ∧
        insertParams vs (c.bind Constraints.vParameters) = (List.range (dv + 1)).map V := by
  have hr := h.rows_pos
  have hcl := h.cols_pos
  have hul := h.u_len
  have hvl := h.v_len
  have hmult : 0 < (if c.isSome then 1 else 2 : ℕ) := by split_ifs <;> omega
  obtain ⟨us, eu, gu⟩ := gridParams_ok (n := S.cps.length - 1) (mult := if c.isSome then 1 else 2) (minDivs := o.minDivsU)
    (by omega) h.u_good (by rw [Nat.sub_add_cancel hr]; exact hpu) hmult
  obtain ⟨vs, ev, gv⟩ := gridParams_ok (n := S.cols - 1) (mult := if c.isSome then 1 else 2) (minDivs := o.minDivsV)
    (by omega) h.v_good (by rw [Nat.sub_add_cancel hcl]; exact hpv) hmult
  rw [Nat.sub_add_cancel hr] at eu gu
  rw [Nat.sub_add_cancel hcl] at ev gv
  have gu' := gu.insert (c := c.bind Constraints.uParameters) (by
    intro l hl
    cases c with
    | none => simp at hl
    | some cs => exact (hc cs rfl).1 l hl)
  have gv' := gv.insert (c := c.bind Constraints.vParameters) (by
    intro l hl
    cases c with
    | none => simp at hl
    | some cs => exact (hc cs rfl).2 l hl)
  obtain ⟨us', hus⟩ : ∃ us', us' = insertParams us (c.bind Constraints.uParameters) := ⟨_, rfl⟩
  obtain ⟨vs', hvs⟩ : ∃ vs', vs' = insertParams vs (c.bind Constraints.vParameters) := ⟨_, rfl⟩
  rw [← hus] at gu'
  rw [← hvs] at gv'
  obtain ⟨du, lu, hdu, su, u0, u1, bu⟩ := gu'.fn
  obtain ⟨dv, lv, hdv, sv, v0, v1, bv⟩ := gv'.fn
  have hP : ∀ r c', ∃ p : SPoint K W, r ≤ dv → c' ≤ du →
      gridPoint M eps S (c.getD {}) du dv (us'.getD c' 0) (vs'.getD r 0) c' r = .ok p ∧
      p.uv = (us'.getD c' 0, vs'.getD r 0) ∧ p.point = surfPoint S (us'.getD c' 0, vs'.getD r 0) := by
    intro r c'
    by_cases hrc : r ≤ dv ∧ c' ≤ du
    · obtain ⟨p, e, a, b⟩ := gridPoint_ok (M := M) h hw (c.getD {}) hdu hdv (u := us'.getD c' 0) (v := vs'.getD r 0)
        ⟨(bu c' hrc.2).1, (bu c' hrc.2).2, (bv r hrc.1).1, (bv r hrc.1).2⟩ c' r
      exact ⟨p, fun _ _ => ⟨e, a, b⟩⟩
    · exact ⟨⟨0, 0, 0, false, false, false, false, false, false, false⟩, fun a b => absurd ⟨a, b⟩ hrc⟩
  choose P hP using hP
  refine ⟨fun i => us'.getD i 0, fun i => vs'.getD i 0, P, du, dv, ?_, hdu, hdv, su, sv, fun r c' a b => (hP r c' a b).2,
    u0, u1, v0, v1, fun r i hr hi => (hP r i hr hi).1, ⟨us, eu, gu.strict, by rw [← hus]; exact list_of_fn lu⟩,
    ⟨vs, ev, gv.strict, by rw [← hvs]; exact list_of_fn lv⟩⟩
  have hrow : getR S.cps 0 = .ok (S.cps[0]) := getR_eq_ok hr
  have hrowlen : (S.cps[0]).length = S.cols := h.rect _ (List.getElem_mem _)
  rw [adaptiveGrid]
  simp only []
  rw [eu, ok_bind, hrow, ok_bind, hrowlen, ev, ok_bind, ← hus, ← hvs, lu, lv, subR_eq_ok (by omega), ok_bind,
    subR_eq_ok (by omega), ok_bind]
  simp only [Nat.add_sub_cancel]
  have hget : ∀ (l : List K) (x : K) (i : ℕ), (x, i) ∈ l.zipIdx → i < l.length ∧ l.getD i 0 = x := by
    intro l x i hm
    rw [List.mem_zipIdx_iff_getElem?] at hm
    obtain ⟨a, b⟩ := List.getElem?_eq_some_iff.1 hm
    exact ⟨a, by rw [List.getD_eq_getElem?_getD, hm]; rfl⟩
  rw [mapM_ok (g := fun v : K × ℕ => us'.zipIdx.map fun u => P v.2 u.2) (by
    rintro ⟨v, iv⟩ hv
    obtain ⟨a1, a2⟩ := hget _ _ _ hv
    apply mapM_ok
    rintro ⟨u, iu⟩ hu
    obtain ⟨b1, b2⟩ := hget _ _ _ hu
    have := (hP iv iu (by omega) (by omega)).1
    rw [a2, b2] at this
    exact this), ok_bind]
  have hpts : ∀ r c', r ≤ dv → c' ≤ du →
      get2R (vs'.zipIdx.map fun v : K × ℕ => us'.zipIdx.map fun u => P v.2 u.2) r c' = .ok (P r c') := by
    intro r c' h1 h2
    have e1 : getR (vs'.zipIdx.map fun v : K × ℕ => us'.zipIdx.map fun u => P v.2 u.2) r =
        .ok (us'.zipIdx.map fun u => P r u.2) := by
      rw [getR_ok_iff, List.getElem?_map, List.getElem?_zipIdx, List.getElem?_eq_getElem (by omega)]
      simp
    rw [get2R, e1, ok_bind]
    rw [getR_ok_iff]
    rw [List.getElem?_map, List.getElem?_zipIdx, List.getElem?_eq_getElem (by omega)]
    simp
  rw [mapM_ok (g := fun iv => (List.range du).map fun iu => cellNode P du dv iv iu) (by
    intro iv hiv
    apply mapM_ok
    intro iu hiu
    exact tessNode_eq hpts (List.mem_range.1 hiv) (List.mem_range.1 hiu)), ok_bind]
  rfl

end surface

end Curvo.Props

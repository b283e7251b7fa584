/-
  Property theorems about refining and splitting surfaces: C33.
-/
import Verif.Lemmas.Net
import Verif.Props.Surface2

set_option linter.unusedSectionVars false

namespace Curvo.Props

open Curvo Curvo.Knots Curvo.Spec Curvo.Surface

variable {K : Type} [Field K] [LinearOrder K] [IsStrictOrderedRing K]
variable {V W : Type} [AddCommGroup V] [Module K V] [AddCommGroup W] [Module K W]

/-- Transposing the control points of curves over one knot vector gives a net whose columns are the curves. -/
theorem assemble_cols {cs : List (Curve K V)} {p m vd : ℕ} {ks vk : List K} (hpos : 0 < cs.length)
    (hd : ∀ c ∈ cs, c.degree = p) (hk : ∀ c ∈ cs, c.knots = ks) (hm : ∀ c ∈ cs, c.cps.length = m) :
    ∃ net, Misc.transpose (cs.map Curve.cps) = .ok net ∧ net.length = m ∧ (∀ row ∈ net, row.length = cs.length) ∧
      ∀ j (hj : j < cs.length), (⟨p, vd, ks, vk, net⟩ : Surface K V).col j = cs[j] := by
  obtain ⟨t, e, h1, h2, h3, _⟩ := transpose_cols (pts := cs.map Curve.cps) (n := m) (by simpa using hpos)
    (by intro r hr; obtain ⟨c, hc, rfl⟩ := List.mem_map.1 hr; exact hm c hc)
  refine ⟨t, e, h1, by simpa using h2, ?_⟩
  intro j hj
  have := h3 j (by simpa using hj)
  have hmem := List.getElem_mem hj
  rw [Surface.col, this, ← hd _ hmem, ← hk _ hmem, List.getD_eq_getElem?_getD,
    List.getElem?_eq_getElem (by simpa using hj)]
  simp

/-- Refinement in u. -/
theorem C33_refine_u {eps : K} {S : Surface K V} (h : S.Good eps) {xs : List K} (hsort : xs.Pairwise (· ≤ ·))
    (hdom : ∀ x ∈ xs, S.ulo ≤ x ∧ x ≤ S.uhi)
    (hsep : ∀ x ∈ xs, ∀ y ∈ xs ++ S.uKnots, |y - x| < eps → y = x) :
    ∃ S', S.tryRefineKnot eps xs .u = .ok S' ∧ S'.uDegree = S.uDegree ∧ S'.vDegree = S.vDegree ∧
      S'.vKnots = S.vKnots ∧ S'.uKnots.Pairwise (· ≤ ·) ∧ S'.uKnots.Perm (xs ++ S.uKnots) ∧
      S'.cps.length = S.cps.length + xs.length ∧ (∀ row ∈ S'.cps, row.length = S.cols) ∧
      (∀ j, j < S.cols → Curve.Refines (S.col j) (S'.col j) xs) ∧
      (∀ u v, S.ulo ≤ u → u ≤ S.uhi → S'.eval u v = S.eval u v) ∧
      ((∀ x ∈ xs, S.ulo < x ∧ x < S.uhi) → S'.Good eps ∧ S'.ulo = S.ulo ∧ S'.uhi = S.uhi ∧
        ∀ u v, S.ulo ≤ u → u ≤ S.uhi → S.vlo ≤ v → v ≤ S.vhi → S'.point eps u v = S.point eps u v) := by
  have hcp := h.cols_pos
  obtain ⟨cs, ecs, hcs⟩ := mapM_exists (l := (List.range S.cols).map fun j => (S.col j).cps)
    (f := fun row => do let c ← Curve.tryNew S.uDegree row S.uKnots; c.tryRefineKnot eps xs)
    (P := fun row c' => Curve.Refines ⟨S.uDegree, row, S.uKnots⟩ c' xs) (by
      intro row hrow
      obtain ⟨j, _, rfl⟩ := List.mem_map.1 hrow
      obtain ⟨c', e, r⟩ := Curve.tryRefineKnot_refines (h.col j) hsort (by rw [col_lo, col_hi]; exact hdom) hsep
      exact ⟨c', by rw [show Curve.tryNew S.uDegree (S.col j).cps S.uKnots = .ok (S.col j) from tryNew_good (h.col j), ok_bind, e], r⟩)
  have hlen : cs.length = S.cols := by simpa using hcs.length_eq.symm
  have hr : ∀ j (hj : j < cs.length), Curve.Refines (S.col j) cs[j] xs := by
    intro j hj
    have := List.Forall₂.get hcs (i := j) (by simpa using (by omega : j < S.cols)) hj
    simp only [List.get_eq_getElem, List.getElem_map, List.getElem_range] at this
    exact this
  have hr' : ∀ c ∈ cs, ∃ j, Curve.Refines (S.col j) c xs := by
    intro c hc
    obtain ⟨j, hj, rfl⟩ := List.mem_iff_getElem.1 hc
    exact ⟨j, hr j hj⟩
  have h0 : 0 < cs.length := by omega
  have r0 := hr 0 h0
  obtain ⟨net, enet, hn1, hn2, hn3⟩ := assemble_cols (cs := cs) (p := S.uDegree) (m := S.cps.length + xs.length)
    (vd := S.vDegree) (vk := S.vKnots) (ks := cs[0].knots) h0
    (fun c hc => by obtain ⟨j, r⟩ := hr' c hc; exact r.degree)
    (fun c hc => by
      obtain ⟨j, r⟩ := hr' c hc
      exact sorted_ext r.pre.sorted r0.pre.sorted (r.knots.trans r0.knots.symm))
    (fun c hc => by
      obtain ⟨j, r⟩ := hr' c hc
      have : (S.col j).cps.length = S.cps.length := by simp [Surface.col]
      rw [r.cps_len, this])
  have hrow := h.rows_pos
  have hcol : ∀ j, j < S.cols → Curve.Refines (S.col j) ((⟨S.uDegree, S.vDegree, cs[0].knots, S.vKnots, net⟩ : Surface K V).col j) xs := by
    intro j hj; rw [hn3 j (by omega)]; exact hr j (by omega)
  have hev : ∀ u v, S.ulo ≤ u → u ≤ S.uhi →
      (⟨S.uDegree, S.vDegree, cs[0].knots, S.vKnots, net⟩ : Surface K V).eval u v = S.eval u v := by
    intro u v h1 h2
    refine eval_of_cols (S' := ⟨S.uDegree, S.vDegree, cs[0].knots, S.vKnots, net⟩) h rfl rfl
      (show 0 < net.length by omega) u v ?_
    intro j hj
    exact (hcol j hj).eval (h.col j).pre h1 (by rw [col_hi]; exact h2)
  refine ⟨⟨S.uDegree, S.vDegree, cs[0].knots, S.vKnots, net⟩, ?_, rfl, rfl, rfl, r0.pre.sorted, r0.knots, hn1,
    by simpa [hlen] using hn2, hcol, hev, ?_⟩
  · rw [Surface.tryRefineKnot, h.transpose, ok_bind, ecs, ok_bind]
    obtain ⟨c, cs', rfl⟩ := List.exists_cons_of_length_pos h0
    simp only []
    rw [enet, ok_bind]
    rfl
  · intro hin
    have hg : (⟨S.uDegree, S.vDegree, cs[0].knots, S.vKnots, net⟩ : Surface K V).Good eps := by
      refine good_of_cols h rfl rfl (by simpa [hlen] using hn2) ?_
      exact (hcol 0 hcp).good (h.col 0) (by rw [col_lo, col_hi]; exact hin)
        (fun x hx y hy => hsep x hx y (List.mem_append_right _ hy))
    have e1 := (hcol 0 hcp).lo
    have e2 := (hcol 0 hcp).hi
    rw [col_lo, col_lo] at e1
    rw [col_hi, col_hi] at e2
    refine ⟨hg, e1, e2, ?_⟩
    intro u v h1 h2 h3 h4
    rw [Surface.point_eq_eval h h1 h2 h3 h4, Surface.point_eq_eval hg (by rw [e1]; exact h1) (by rw [e2]; exact h2) h3 h4,
      hev u v h1 h2]

/-- Refinement in v. -/
theorem C33_refine_v {eps : K} {S : Surface K V} (h : S.Good eps) {xs : List K} (hsort : xs.Pairwise (· ≤ ·))
    (hdom : ∀ x ∈ xs, S.vlo ≤ x ∧ x ≤ S.vhi)
    (hsep : ∀ x ∈ xs, ∀ y ∈ xs ++ S.vKnots, |y - x| < eps → y = x) :
    ∃ S', S.tryRefineKnot eps xs .v = .ok S' ∧ S'.uDegree = S.uDegree ∧ S'.vDegree = S.vDegree ∧
      S'.uKnots = S.uKnots ∧ S'.vKnots.Pairwise (· ≤ ·) ∧ S'.vKnots.Perm (xs ++ S.vKnots) ∧
      S'.cps.length = S.cps.length ∧ (∀ row ∈ S'.cps, row.length = S.cols + xs.length) ∧
      (∀ i, i < S.cps.length → Curve.Refines (S.row i) (S'.row i) xs) ∧
      (∀ u v, S.vlo ≤ v → v ≤ S.vhi → S'.eval u v = S.eval u v) ∧
      ((∀ x ∈ xs, S.vlo < x ∧ x < S.vhi) → S'.Good eps ∧ S'.vlo = S.vlo ∧ S'.vhi = S.vhi ∧
        ∀ u v, S.ulo ≤ u → u ≤ S.uhi → S.vlo ≤ v → v ≤ S.vhi → S'.point eps u v = S.point eps u v) := by
  have hcp := h.cols_pos
  have hvl := h.v_len
  obtain ⟨cs, ecs, hcs⟩ := mapM_exists (l := S.cps)
    (f := fun row => do let c ← Curve.tryNew S.vDegree row S.vKnots; c.tryRefineKnot eps xs)
    (P := fun row c' => Curve.Refines ⟨S.vDegree, row, S.vKnots⟩ c' xs) (by
      intro row hrow
      obtain ⟨i, hi, rfl⟩ := List.mem_iff_getElem.1 hrow
      have e0 : (⟨S.vDegree, S.cps[i], S.vKnots⟩ : Curve K V) = S.row i := by
        simp [Surface.row, List.getD_eq_getElem?_getD, hi]
      have hg := h.row hi
      have hrl : (S.row i).lo = S.vlo := rfl
      have hrh := row_hi h hi
      rw [← e0] at hg hrl hrh
      obtain ⟨c', e, r⟩ := Curve.tryRefineKnot_refines hg hsort (by rw [hrl, hrh]; exact hdom) hsep
      exact ⟨c', by rw [show Curve.tryNew S.vDegree S.cps[i] S.vKnots = .ok ⟨S.vDegree, S.cps[i], S.vKnots⟩ from tryNew_good hg, ok_bind, e], r⟩)
  have hlen : cs.length = S.cps.length := by simpa using hcs.length_eq.symm
  have hr : ∀ i (hi : i < cs.length), Curve.Refines (S.row i) cs[i] xs := by
    intro i hi
    have := List.Forall₂.get hcs (i := i) (by simpa using (by omega : i < S.cps.length)) hi
    have hi' : i < S.cps.length := by omega
    simpa [Surface.row, List.getD_eq_getElem?_getD, hi'] using this
  have hrow := h.rows_pos
  have h0 : 0 < cs.length := by omega
  have r0 := hr 0 h0
  have hk : ∀ i (hi : i < cs.length), cs[i].knots = cs[0].knots := by
    intro i hi
    exact sorted_ext (hr i hi).pre.sorted r0.pre.sorted ((hr i hi).knots.trans r0.knots.symm)
  have hrows : ∀ i (hi : i < cs.length),
      (⟨S.uDegree, S.vDegree, S.uKnots, cs[0].knots, cs.map Curve.cps⟩ : Surface K V).row i = cs[i] := by
    intro i hi
    have hd : cs[i].degree = S.vDegree := (hr i hi).degree
    rw [← hk i hi, Surface.row]
    simp [List.getD_eq_getElem?_getD, hi, ← hd]
  have hcl : ∀ i (hi : i < cs.length), cs[i].cps.length = S.cols + xs.length := by
    intro i hi
    rw [(hr i hi).cps_len]
    have : (S.row i).cps.length = S.cols := h.row_len (by omega)
    rw [this]
  have hrow' : ∀ i, i < S.cps.length → Curve.Refines (S.row i) ((⟨S.uDegree, S.vDegree, S.uKnots, cs[0].knots, cs.map Curve.cps⟩ : Surface K V).row i) xs := by
    intro i hi; rw [hrows i (by omega)]; exact hr i (by omega)
  have hcols : (⟨S.uDegree, S.vDegree, S.uKnots, cs[0].knots, cs.map Curve.cps⟩ : Surface K V).cols = S.cols + xs.length := by
    have := r0.pre.knots_len
    have e1 := hcl 0 h0
    have hd : cs[0].degree = S.vDegree := r0.degree
    rw [Surface.cols]; simp only []; omega
  have hev : ∀ u v, S.vlo ≤ v → v ≤ S.vhi →
      (⟨S.uDegree, S.vDegree, S.uKnots, cs[0].knots, cs.map Curve.cps⟩ : Surface K V).eval u v = S.eval u v := by
    intro u v h1 h2
    refine eval_of_rows (S' := ⟨S.uDegree, S.vDegree, S.uKnots, cs[0].knots, cs.map Curve.cps⟩) h rfl rfl
      (by simpa using hlen) u v ?_ (by omega) ?_
    · intro i hi; rw [hrows i (by omega), hcl i (by omega), hcols]
    · intro i hi
      exact (hrow' i hi).eval (h.row hi).pre h1 (by rw [row_hi h hi]; exact h2)
  refine ⟨⟨S.uDegree, S.vDegree, S.uKnots, cs[0].knots, cs.map Curve.cps⟩, ?_, rfl, rfl, rfl, r0.pre.sorted, r0.knots,
    by simpa using hlen, ?_, hrow', hev, ?_⟩
  · rw [Surface.tryRefineKnot, ecs, ok_bind]
    obtain ⟨c, cs', rfl⟩ := List.exists_cons_of_length_pos h0
    rfl
  · intro row hrow
    obtain ⟨c, hc, rfl⟩ := List.mem_map.1 hrow
    obtain ⟨i, hi, rfl⟩ := List.mem_iff_getElem.1 hc
    exact hcl i hi
  · intro hin
    have hg : (⟨S.uDegree, S.vDegree, S.uKnots, cs[0].knots, cs.map Curve.cps⟩ : Surface K V).Good eps := by
      refine good_of_rows h rfl rfl (by simpa using hlen) ?_
      intro i hi
      exact (hrow' i hi).good (h.row hi) (by rw [row_hi h hi]; exact hin)
        (fun x hx y hy => hsep x hx y (List.mem_append_right _ hy))
    have e1 := (hrow' 0 hrow).lo
    have e2 := (hrow' 0 hrow).hi
    rw [row_lo, row_lo] at e1
    rw [row_hi hg (by simpa [hlen] using hrow), row_hi h hrow] at e2
    refine ⟨hg, e1, e2, ?_⟩
    intro u v h1 h2 h3 h4
    have hu : (⟨S.uDegree, S.vDegree, S.uKnots, cs[0].knots, cs.map Curve.cps⟩ : Surface K V).uhi = S.uhi := by
      simp [Surface.uhi, hlen]
    rw [Surface.point_eq_eval h h1 h2 h3 h4, Surface.point_eq_eval hg h1 (by rw [hu]; exact h2) (by rw [e1]; exact h3)
      (by rw [e2]; exact h4), hev u v h3 h4]

/-- Witness: refining the example surface in u by a new knot and an existing one. -/
example : ∃ S', exSurf.tryRefineKnot (1/1000) [1/2, 1] .u = .ok S' ∧ S'.cps.length = 6 ∧
    S'.point (1/1000) (3/2) 2 = exSurf.point (1/1000) (3/2) 2 := by
  obtain ⟨S', e, _, _, _, _, _, hl, _, _, _, hp⟩ := C33_refine_u exSurf_good (xs := [1/2, 1]) (by norm_num)
    (by decide +kernel) (by decide +kernel)
  obtain ⟨_, _, _, hp⟩ := hp (by decide +kernel)
  exact ⟨S', e, hl, hp _ _ (by decide +kernel) (by decide +kernel) (by decide +kernel) (by decide +kernel)⟩

/-! ### Splitting -/

theorem sliceR_inv {α : Type} {l r : List α} {a b : ℕ} (h : sliceR l a b = .ok r) :
    a ≤ b ∧ b ≤ l.length ∧ r = (l.take b).drop a := by
  unfold sliceR at h
  split_ifs at h with hb
  exact ⟨hb.1, hb.2, (Except.ok.inj h).symm⟩

theorem mapM_map_ok {α β γ : Type} {f : α → β} {g : β → Res γ} {k : α → γ} :
    ∀ {l : List α}, (∀ x ∈ l, g (f x) = .ok (k x)) → (l.map f).mapM g = .ok (l.map k)
  | [], _ => rfl
  | a :: l, h => by
    rw [List.map_cons, List.mapM_cons, h a (by simp), mapM_map_ok fun x hx => h x (List.mem_cons_of_mem _ hx)]
    rfl

theorem tryNew_inv {deg : ℕ} {cps : List V} {ks : List K} {c : Curve K V} (h : Curve.tryNew deg cps ks = .ok c)
    (hs : ks.Pairwise (· ≤ ·)) : c = ⟨deg, cps, ks⟩ := by
  unfold Curve.tryNew at h
  split_ifs at h
  rw [mergeSort_of_sorted hs] at h
  exact (Except.ok.inj h).symm

/-- What the splitting of a curve computes. -/
structure SplitData (eps : K) (c : Curve K V) (t : K) (n s : ℕ) (cl l r : Curve K V) : Prop where
  split : c.trySplit eps t = .ok (l, r)
  refine_ok : c.tryRefineKnot eps (List.replicate (c.degree + 1) t) = .ok cl
  lastIndex : c.lastIndex = .ok n
  span : Knots.findKnotSpanIndex eps c.knots n c.degree t = .ok s
  lknots : sliceR cl.knots 0 (s + c.degree + 2) = .ok l.knots
  rknots : sliceR cl.knots (s + 1) cl.knots.length = .ok r.knots
  lcps : sliceR cl.cps 0 (s + 1) = .ok l.cps
  rcps : sliceR cl.cps (s + 1) cl.cps.length = .ok r.cps
  ldeg : l.degree = c.degree
  rdeg : r.degree = c.degree
  refines : Curve.Refines c cl (List.replicate (c.degree + 1) t)
  at_ : ∃ s c', SplitAt c t s c' l r

theorem split_data {eps : K} {c : Curve K V} (h : c.Good eps) {t : K} (h1 : c.lo ≤ t) (h2 : t ≤ c.hi)
    (hsep : ∀ y ∈ c.knots, |y - t| < eps → y = t) : ∃ n s cl l r, SplitData eps c t n s cl l r := by
  obtain ⟨s', c', l, r, e, hat⟩ := split_pieces h h1 h2 hsep
  have e0 := e
  obtain ⟨c2, hc2, hr⟩ := Curve.tryRefineKnot_refines h (xs := List.replicate (c.degree + 1) t)
    (by rw [List.pairwise_replicate]; right; exact le_refl _)
    (by intro x hx; rw [List.eq_of_mem_replicate hx]; exact ⟨h1, h2⟩)
    (by
      intro x hx y hy
      rw [List.eq_of_mem_replicate hx]
      rcases List.mem_append.1 hy with hy | hy
      · intro _; exact List.eq_of_mem_replicate hy
      · exact hsep y hy)
  rw [Curve.trySplit, clamp_domain h h1 h2, ok_bind] at e
  obtain ⟨cl, e1, e⟩ := bind_eq_ok.1 e
  obtain ⟨n, e2, e⟩ := bind_eq_ok.1 e
  obtain ⟨s, e3, e⟩ := bind_eq_ok.1 e
  obtain ⟨k0, e4, e⟩ := bind_eq_ok.1 e
  obtain ⟨k1, e5, e⟩ := bind_eq_ok.1 e
  obtain ⟨p0, e6, e⟩ := bind_eq_ok.1 e
  obtain ⟨p1, e7, e⟩ := bind_eq_ok.1 e
  obtain ⟨l', e8, e⟩ := bind_eq_ok.1 e
  obtain ⟨r', e9, e⟩ := bind_eq_ok.1 e
  rw [e1] at hc2
  obtain rfl := Except.ok.inj hc2
  obtain ⟨rfl, rfl⟩ := Prod.mk.inj (Except.ok.inj e)
  have hl := tryNew_inv e8 (by
    rw [(sliceR_inv e4).2.2]
    exact (hr.pre.sorted.sublist (List.take_sublist _ _)).sublist (List.drop_sublist _ _))
  have hr' := tryNew_inv e9 (by
    rw [(sliceR_inv e5).2.2]
    exact (hr.pre.sorted.sublist (List.take_sublist _ _)).sublist (List.drop_sublist _ _))
  refine ⟨n, s, cl, l', r', e0, e1, e2, e3, ?_, ?_, ?_, ?_, ?_, ?_, hr, s', c', hat⟩
  · rw [hl]; exact e4
  · rw [hr']; exact e5
  · rw [hl]; exact e6
  · rw [hr']; exact e7
  · rw [hl]
  · rw [hr']

/-- Splitting in u splits every column. -/
theorem split_u {eps : K} {S : Surface K V} (h : S.Good eps) {t : K} (h1 : S.ulo ≤ t) (h2 : t ≤ S.uhi)
    (hsep : ∀ y ∈ S.uKnots, |y - t| < eps → y = t) :
    ∃ L R, S.trySplit eps t .u = .ok (L, R) ∧ L.vDegree = S.vDegree ∧ R.vDegree = S.vDegree ∧
      L.vKnots = S.vKnots ∧ R.vKnots = S.vKnots ∧ (∀ row ∈ L.cps, row.length = S.cols) ∧
      (∀ row ∈ R.cps, row.length = S.cols) ∧
      ∀ j, j < S.cols → (S.col j).trySplit eps t = .ok (L.col j, R.col j) ∧
        ∃ s c', SplitAt (S.col j) t s c' (L.col j) (R.col j) := by
  have hcp := h.cols_pos
  have hd : ∀ j, ∃ n s cl l r, SplitData eps (S.col j) t n s cl l r := fun j =>
    split_data (h.col j) h1 (by rw [col_hi]; exact h2) hsep
  choose n' s' cl l r hd using hd
  obtain ⟨n, hn⟩ : ∃ n, n' 0 = n := ⟨_, rfl⟩
  obtain ⟨s, hs⟩ : ∃ s, s' 0 = s := ⟨_, rfl⟩
  have hn' : ∀ j, n' j = n := by
    intro j
    have a := (hd j).lastIndex
    have b := (hd 0).lastIndex
    have : (S.col j).lastIndex = (S.col 0).lastIndex := rfl
    rw [this, b] at a
    exact (Except.ok.inj a).symm.trans hn
  have hs' : ∀ j, s' j = s := by
    intro j
    have a := (hd j).span
    have b := (hd 0).span
    rw [hn'] at a b
    have : (S.col j).knots = (S.col 0).knots ∧ (S.col j).degree = (S.col 0).degree := ⟨rfl, rfl⟩
    rw [this.1, this.2, b] at a
    exact (Except.ok.inj a).symm.trans hs
  have hlen : ∀ j, (S.col j).cps.length = S.cps.length := fun j => by simp [Surface.col]
  have hcll : ∀ j, (cl j).cps.length = S.cps.length + (S.uDegree + 1) := by
    intro j
    rw [(hd j).refines.cps_len, hlen, List.length_replicate]; rfl
  have hclk : ∀ j, (cl j).knots = (cl 0).knots := fun j =>
    sorted_ext (hd j).refines.pre.sorted (hd 0).refines.pre.sorted ((hd j).refines.knots.trans (hd 0).refines.knots.symm)
  have hlk : ∀ j, (l j).knots = (l 0).knots := by
    intro j
    have a := (hd j).lknots
    have b := (hd 0).lknots
    rw [hs', hclk] at a
    rw [hs'] at b
    exact Except.ok.inj (a.symm.trans b)
  have hrk : ∀ j, (r j).knots = (r 0).knots := by
    intro j
    have a := (hd j).rknots
    have b := (hd 0).rknots
    rw [hs', hclk] at a
    rw [hs'] at b
    exact Except.ok.inj (a.symm.trans b)
  have hll : ∀ j, (l j).cps.length = s + 1 := by
    intro j
    obtain ⟨_, b, c⟩ := sliceR_inv (hd j).lcps
    rw [hs'] at b c
    rw [c]; simp; omega
  have hrl : ∀ j, (r j).cps.length = S.cps.length + (S.uDegree + 1) - (s + 1) := by
    intro j
    obtain ⟨_, b, c⟩ := sliceR_inv (hd j).rcps
    rw [hs'] at c
    rw [c]; simp [hcll]
  have mem : ∀ {f : ℕ → Curve K V} {c : Curve K V}, c ∈ (List.range S.cols).map f → ∃ j, c = f j := by
    intro f c hc
    obtain ⟨j, _, rfl⟩ := List.mem_map.1 hc
    exact ⟨j, rfl⟩
  obtain ⟨net0, en0, _, hn2, hn3⟩ := assemble_cols (cs := (List.range S.cols).map l) (p := S.uDegree) (m := s + 1)
    (vd := S.vDegree) (vk := S.vKnots) (ks := (l 0).knots) (by simpa using hcp)
    (fun c hc => by obtain ⟨j, rfl⟩ := mem hc; exact (hd j).ldeg)
    (fun c hc => by obtain ⟨j, rfl⟩ := mem hc; exact hlk j)
    (fun c hc => by obtain ⟨j, rfl⟩ := mem hc; exact hll j)
  obtain ⟨net1, en1, _, hm2, hm3⟩ := assemble_cols (cs := (List.range S.cols).map r) (p := S.uDegree)
    (m := S.cps.length + (S.uDegree + 1) - (s + 1))
    (vd := S.vDegree) (vk := S.vKnots) (ks := (r 0).knots) (by simpa using hcp)
    (fun c hc => by obtain ⟨j, rfl⟩ := mem hc; exact (hd j).rdeg)
    (fun c hc => by obtain ⟨j, rfl⟩ := mem hc; exact hrk j)
    (fun c hc => by obtain ⟨j, rfl⟩ := mem hc; exact hrl j)
  have hcurves : splitCurves eps ((List.range S.cols).map fun j => (S.col j).cps) S.uKnots S.uDegree t =
      .ok ((List.range S.cols).map cl) := by
    apply mapM_map_ok
    intro j _
    rw [show Curve.tryNew S.uDegree (S.col j).cps S.uKnots = .ok (S.col j) from tryNew_good (h.col j), ok_bind]
    exact (hd j).refine_ok
  have hrows : splitRows s S.uDegree ((List.range S.cols).map cl) =
      .ok ((((List.range S.cols).map l).map Curve.cps, (l 0).knots), ((List.range S.cols).map r).map Curve.cps, (r 0).knots) := by
    have p0 : ((List.range S.cols).map cl).mapM (fun c => sliceR c.cps 0 (s + 1)) =
        .ok ((List.range S.cols).map fun j => (l j).cps) := mapM_map_ok fun j _ => by
      have := (hd j).lcps; rwa [hs'] at this
    have p1 : ((List.range S.cols).map cl).mapM (fun c => sliceR c.cps (s + 1) c.cps.length) =
        .ok ((List.range S.cols).map fun j => (r j).cps) := mapM_map_ok fun j _ => by
      have := (hd j).rcps; rwa [hs'] at this
    have hlast : ((List.range S.cols).map cl).getLast? = some (cl (S.cols - 1)) := by
      rw [List.getLast?_eq_getElem?, List.length_map, List.length_range, List.getElem?_map,
        List.getElem?_range (by omega)]
      rfl
    have k0 := (hd (S.cols - 1)).lknots
    have k1 := (hd (S.cols - 1)).rknots
    rw [hs', hlk] at k0
    rw [hs', hrk] at k1
    have k0 : sliceR (cl (S.cols - 1)).knots 0 (s + S.uDegree + 2) = .ok (l 0).knots := k0
    rw [splitRows, p0, ok_bind, p1, ok_bind, hlast]
    simp only []
    rw [k0, ok_bind, k1, ok_bind, List.map_map, List.map_map]
    rfl
  refine ⟨⟨S.uDegree, S.vDegree, (l 0).knots, S.vKnots, net0⟩, ⟨S.uDegree, S.vDegree, (r 0).knots, S.vKnots, net1⟩,
    ?_, rfl, rfl, rfl, rfl, by simpa using hn2, by simpa using hm2, ?_⟩
  · have hn0 := (hd 0).lastIndex
    have hsp := (hd 0).span
    rw [hn'] at hn0 hsp
    rw [hs'] at hsp
    unfold Curve.lastIndex at hn0
    obtain ⟨n0, q1, q2⟩ := bind_eq_ok.1 hn0
    have q1 : subR S.uKnots.length S.uDegree = .ok n0 := q1
    have hsp : Knots.findKnotSpanIndex eps S.uKnots n S.uDegree t = .ok s := hsp
    rw [Surface.trySplit]
    simp only []
    rw [h.transpose, ok_bind, q1, ok_bind, q2, ok_bind, hsp, ok_bind, hcurves, ok_bind, hrows, ok_bind]
    simp only []
    rw [en0, ok_bind, en1, ok_bind]
    rfl
  · intro j hj
    have a := hn3 j (by simpa using hj)
    have b := hm3 j (by simpa using hj)
    simp only [List.getElem_map, List.getElem_range] at a b
    rw [a, b]
    exact ⟨(hd j).split, (hd j).at_⟩

/-- Splitting in v splits every row. -/
theorem split_v {eps : K} {S : Surface K V} (h : S.Good eps) {t : K} (h1 : S.vlo ≤ t) (h2 : t ≤ S.vhi)
    (hsep : ∀ y ∈ S.vKnots, |y - t| < eps → y = t) :
    ∃ L R, S.trySplit eps t .v = .ok (L, R) ∧ L.uDegree = S.uDegree ∧ R.uDegree = S.uDegree ∧
      L.uKnots = S.uKnots ∧ R.uKnots = S.uKnots ∧ L.cps.length = S.cps.length ∧ R.cps.length = S.cps.length ∧
      ∀ i, i < S.cps.length → (S.row i).trySplit eps t = .ok (L.row i, R.row i) ∧
        ∃ s c', SplitAt (S.row i) t s c' (L.row i) (R.row i) := by
  have hrp := h.rows_pos
  have hd : ∀ i, ∃ n s cl l r, i < S.cps.length → SplitData eps (S.row i) t n s cl l r := by
    intro i
    by_cases hi : i < S.cps.length
    · obtain ⟨n, s, cl, l, r, hh⟩ := split_data (h.row hi) h1 (by rw [row_hi h hi]; exact h2) hsep
      exact ⟨n, s, cl, l, r, fun _ => hh⟩
    · exact ⟨0, 0, S.row 0, S.row 0, S.row 0, fun hc => absurd hc hi⟩
  choose n' s' cl l r hd using hd
  obtain ⟨n, hn⟩ : ∃ n, n' 0 = n := ⟨_, rfl⟩
  obtain ⟨s, hs⟩ : ∃ s, s' 0 = s := ⟨_, rfl⟩
  have hn' : ∀ i, i < S.cps.length → n' i = n := by
    intro i hi
    have a := (hd i hi).lastIndex
    have b := (hd 0 hrp).lastIndex
    have : (S.row i).lastIndex = (S.row 0).lastIndex := rfl
    rw [this, b] at a
    exact (Except.ok.inj a).symm.trans hn
  have hs' : ∀ i, i < S.cps.length → s' i = s := by
    intro i hi
    have a := (hd i hi).span
    have b := (hd 0 hrp).span
    rw [hn' i hi] at a
    rw [hn' 0 hrp] at b
    have : (S.row i).knots = (S.row 0).knots ∧ (S.row i).degree = (S.row 0).degree := ⟨rfl, rfl⟩
    rw [this.1, this.2, b] at a
    exact (Except.ok.inj a).symm.trans hs
  have hclk : ∀ i, i < S.cps.length → (cl i).knots = (cl 0).knots := fun i hi =>
    sorted_ext (hd i hi).refines.pre.sorted (hd 0 hrp).refines.pre.sorted
      ((hd i hi).refines.knots.trans (hd 0 hrp).refines.knots.symm)
  have hlk : ∀ i, i < S.cps.length → (l i).knots = (l 0).knots := by
    intro i hi
    have a := (hd i hi).lknots
    have b := (hd 0 hrp).lknots
    rw [hs' i hi, hclk i hi] at a
    rw [hs' 0 hrp] at b
    exact Except.ok.inj (a.symm.trans b)
  have hrk : ∀ i, i < S.cps.length → (r i).knots = (r 0).knots := by
    intro i hi
    have a := (hd i hi).rknots
    have b := (hd 0 hrp).rknots
    rw [hs' i hi, hclk i hi] at a
    rw [hs' 0 hrp] at b
    exact Except.ok.inj (a.symm.trans b)
  have hcps : S.cps = (List.range S.cps.length).map fun i => (S.row i).cps := by
    apply List.ext_getElem
    · simp
    · intro i g1 g2
      simp [Surface.row, List.getD_eq_getElem?_getD, g1]
  have hcurves : splitCurves eps S.cps S.vKnots S.vDegree t = .ok ((List.range S.cps.length).map cl) := by
    rw [hcps, List.length_map, List.length_range]
    apply mapM_map_ok
    intro i hi
    have hi := List.mem_range.1 hi
    rw [show Curve.tryNew S.vDegree (S.row i).cps S.vKnots = .ok (S.row i) from tryNew_good (h.row hi), ok_bind]
    exact (hd i hi).refine_ok
  have hrows : splitRows s S.vDegree ((List.range S.cps.length).map cl) =
      .ok (((List.range S.cps.length).map (fun i => (l i).cps), (l 0).knots),
        (List.range S.cps.length).map (fun i => (r i).cps), (r 0).knots) := by
    have p0 : ((List.range S.cps.length).map cl).mapM (fun c => sliceR c.cps 0 (s + 1)) =
        .ok ((List.range S.cps.length).map fun j => (l j).cps) := mapM_map_ok fun j hj => by
      have hj := List.mem_range.1 hj
      have := (hd j hj).lcps; rwa [hs' j hj] at this
    have p1 : ((List.range S.cps.length).map cl).mapM (fun c => sliceR c.cps (s + 1) c.cps.length) =
        .ok ((List.range S.cps.length).map fun j => (r j).cps) := mapM_map_ok fun j hj => by
      have hj := List.mem_range.1 hj
      have := (hd j hj).rcps; rwa [hs' j hj] at this
    have hlast : ((List.range S.cps.length).map cl).getLast? = some (cl (S.cps.length - 1)) := by
      rw [List.getLast?_eq_getElem?, List.length_map, List.length_range, List.getElem?_map,
        List.getElem?_range (by omega)]
      rfl
    have hl' : S.cps.length - 1 < S.cps.length := by omega
    have k0 := (hd (S.cps.length - 1) hl').lknots
    have k1 := (hd (S.cps.length - 1) hl').rknots
    rw [hs' _ hl', hlk _ hl'] at k0
    rw [hs' _ hl', hrk _ hl'] at k1
    have k0 : sliceR (cl (S.cps.length - 1)).knots 0 (s + S.vDegree + 2) = .ok (l 0).knots := k0
    rw [splitRows, p0, ok_bind, p1, ok_bind, hlast]
    simp only []
    rw [k0, ok_bind, k1, ok_bind]
    rfl
  refine ⟨⟨S.uDegree, S.vDegree, S.uKnots, (l 0).knots, (List.range S.cps.length).map (fun i => (l i).cps)⟩,
    ⟨S.uDegree, S.vDegree, S.uKnots, (r 0).knots, (List.range S.cps.length).map (fun i => (r i).cps)⟩,
    ?_, rfl, rfl, rfl, rfl, by simp, by simp, ?_⟩
  · have hn0 := (hd 0 hrp).lastIndex
    have hsp := (hd 0 hrp).span
    rw [hn' 0 hrp] at hn0 hsp
    rw [hs' 0 hrp] at hsp
    unfold Curve.lastIndex at hn0
    obtain ⟨n0, q1, q2⟩ := bind_eq_ok.1 hn0
    have q1 : subR S.vKnots.length S.vDegree = .ok n0 := q1
    have hsp : Knots.findKnotSpanIndex eps S.vKnots n S.vDegree t = .ok s := hsp
    rw [Surface.trySplit]
    simp only []
    rw [q1, ok_bind, q2, ok_bind, hsp, ok_bind, hcurves, ok_bind, hrows, ok_bind]
    rfl
  · intro i hi
    have a : (⟨S.uDegree, S.vDegree, S.uKnots, (l 0).knots, (List.range S.cps.length).map (fun i => (l i).cps)⟩ :
        Surface K V).row i = l i := by
      have hdg : (l i).degree = S.vDegree := (hd i hi).ldeg
      rw [Surface.row, ← hlk i hi]
      simp [List.getD_eq_getElem?_getD, hi, ← hdg]
    have b : (⟨S.uDegree, S.vDegree, S.uKnots, (r 0).knots, (List.range S.cps.length).map (fun i => (r i).cps)⟩ :
        Surface K V).row i = r i := by
      have hdg : (r i).degree = S.vDegree := (hd i hi).rdeg
      rw [Surface.row, ← hrk i hi]
      simp [List.getD_eq_getElem?_getD, hi, ← hdg]
    rw [a, b]
    exact ⟨(hd i hi).split, (hd i hi).at_⟩

/-- Splitting in u: the pieces have the domains `[lo, t]` and `[t, hi]` in u and the whole domain in v; each
    piece that can be evaluated agrees with the surface. (As for curves, the left piece cannot be evaluated at
    its end when `t` is an inner knot.) -/
theorem C33_split_u {eps : K} {S : Surface K V} (h : S.Good eps) {t : K} (h1 : S.ulo ≤ t) (h2 : t ≤ S.uhi)
    (hsep : ∀ y ∈ S.uKnots, |y - t| < eps → y = t) :
    ∃ L R, S.trySplit eps t .u = .ok (L, R) ∧
      L.ulo = S.ulo ∧ L.uhi = t ∧ R.ulo = t ∧ R.uhi = S.uhi ∧
      L.vlo = S.vlo ∧ L.vhi = S.vhi ∧ R.vlo = S.vlo ∧ R.vhi = S.vhi ∧
      (t < S.uhi → R.Good eps ∧
        ∀ u v, t ≤ u → u ≤ S.uhi → S.vlo ≤ v → v ≤ S.vhi → R.point eps u v = S.point eps u v) ∧
      ((t ∈ S.uKnots → t = S.uhi) → L.Good eps ∧
        ∀ u v, S.ulo ≤ u → u ≤ t → S.vlo ≤ v → v ≤ S.vhi → L.point eps u v = S.point eps u v) := by
  obtain ⟨L, R, e, d1, d2, k1, k2, rl, rr, hc⟩ := split_u h h1 h2 hsep
  have hcp := h.cols_pos
  obtain ⟨e0, s, c', hat⟩ := hc 0 hcp
  have hg0 := h.col 0
  have a1 := hat.llo hg0
  have a2 := hat.lhi hg0
  have a3 := hat.rlo
  have a4 := hat.rhi
  rw [col_lo, col_lo] at a1
  rw [col_hi] at a2
  rw [col_lo] at a3
  rw [col_hi, col_hi] at a4
  have cL : L.cols = S.cols := by rw [Surface.cols, Surface.cols, d1, k1]
  have cR : R.cols = S.cols := by rw [Surface.cols, Surface.cols, d2, k2]
  have b1 : L.vlo = S.vlo := by rw [Surface.vlo, Surface.vlo, d1, k1]
  have b2 : L.vhi = S.vhi := by rw [Surface.vhi, Surface.vhi, cL, k1]
  have b3 : R.vlo = S.vlo := by rw [Surface.vlo, Surface.vlo, d2, k2]
  have b4 : R.vhi = S.vhi := by rw [Surface.vhi, Surface.vhi, cR, k2]
  refine ⟨L, R, e, a1, a2, a3, a4, b1, b2, b3, b4, ?_, ?_⟩
  · intro ht
    have key : ∀ j, j < S.cols → (R.col j).Good eps ∧
        ∀ x, t ≤ x → x ≤ S.uhi → (R.col j).point eps x = (S.col j).point eps x := by
      intro j hj
      obtain ⟨l, r, e', g, _, _, hp⟩ := C21_right_piece (h.col j) (u := t) h1 (by rw [col_hi]; exact ht) hsep
      rw [(hc j hj).1] at e'
      cases e'
      exact ⟨g, fun x x1 x2 => hp x x1 (by rw [col_hi]; exact x2)⟩
    have hg : R.Good eps := good_of_cols h d2 k2 rr (key 0 hcp).1
    refine ⟨hg, ?_⟩
    intro u v u1 u2 v1 v2
    rw [Surface.point_eq_eval h (le_trans h1 u1) u2 v1 v2, Surface.point_eq_eval hg (by rw [a3]; exact u1)
      (by rw [a4]; exact u2) (by rw [b3]; exact v1) (by rw [b4]; exact v2)]
    congr 1
    refine eval_of_cols h d2 k2 hg.rows_pos u v ?_
    intro j hj
    have hp := (key j hj).2 u u1 u2
    rw [Curve.point_eq_eval (h.col j) (le_trans h1 u1) (by rw [col_hi]; exact u2),
      Curve.point_eq_eval (hg.col j) (by rw [col_lo, a3]; exact u1) (by rw [col_hi, a4]; exact u2)] at hp
    exact Except.ok.inj hp
  · intro hnew
    have key : ∀ j, j < S.cols → (L.col j).Good eps ∧
        ∀ x, S.ulo ≤ x → x ≤ t → (L.col j).point eps x = (S.col j).point eps x := by
      intro j hj
      obtain ⟨l, r, e', g, _, _, hp⟩ := C21_left_piece (h.col j) (u := t) h1 (by rw [col_hi]; exact h2) hsep
        (by rw [col_hi]; exact hnew)
      rw [(hc j hj).1] at e'
      cases e'
      exact ⟨g, hp⟩
    have hg : L.Good eps := good_of_cols h d1 k1 rl (key 0 hcp).1
    refine ⟨hg, ?_⟩
    intro u v u1 u2 v1 v2
    rw [Surface.point_eq_eval h u1 (le_trans u2 h2) v1 v2, Surface.point_eq_eval hg (by rw [a1]; exact u1)
      (by rw [a2]; exact u2) (by rw [b1]; exact v1) (by rw [b2]; exact v2)]
    congr 1
    refine eval_of_cols h d1 k1 hg.rows_pos u v ?_
    intro j hj
    have hp := (key j hj).2 u u1 u2
    rw [Curve.point_eq_eval (h.col j) u1 (by rw [col_hi]; exact le_trans u2 h2),
      Curve.point_eq_eval (hg.col j) (by rw [col_lo, a1]; exact u1) (by rw [col_hi, a2]; exact u2)] at hp
    exact Except.ok.inj hp

/-- Splitting in v. -/
theorem C33_split_v {eps : K} {S : Surface K V} (h : S.Good eps) {t : K} (h1 : S.vlo ≤ t) (h2 : t ≤ S.vhi)
    (hsep : ∀ y ∈ S.vKnots, |y - t| < eps → y = t) :
    ∃ L R, S.trySplit eps t .v = .ok (L, R) ∧
      L.ulo = S.ulo ∧ L.uhi = S.uhi ∧ R.ulo = S.ulo ∧ R.uhi = S.uhi ∧
      (t < S.vhi → R.Good eps ∧ R.vlo = t ∧ R.vhi = S.vhi ∧
        ∀ u v, S.ulo ≤ u → u ≤ S.uhi → t ≤ v → v ≤ S.vhi → R.point eps u v = S.point eps u v) ∧
      ((t ∈ S.vKnots → t = S.vhi) → L.Good eps ∧ L.vlo = S.vlo ∧ L.vhi = t ∧
        ∀ u v, S.ulo ≤ u → u ≤ S.uhi → S.vlo ≤ v → v ≤ t → L.point eps u v = S.point eps u v) := by
  obtain ⟨L, R, e, d1, d2, k1, k2, rl, rr, hc⟩ := split_v h h1 h2 hsep
  have hrp := h.rows_pos
  have b1 : L.ulo = S.ulo := by rw [Surface.ulo, Surface.ulo, d1, k1]
  have b2 : L.uhi = S.uhi := by rw [Surface.uhi, Surface.uhi, rl, k1]
  have b3 : R.ulo = S.ulo := by rw [Surface.ulo, Surface.ulo, d2, k2]
  have b4 : R.uhi = S.uhi := by rw [Surface.uhi, Surface.uhi, rr, k2]
  refine ⟨L, R, e, b1, b2, b3, b4, ?_, ?_⟩
  · intro ht
    have key : ∀ i, i < S.cps.length → (R.row i).Good eps ∧ (R.row i).lo = t ∧ (R.row i).hi = S.vhi ∧
        ∀ x, t ≤ x → x ≤ S.vhi → (R.row i).point eps x = (S.row i).point eps x := by
      intro i hi
      obtain ⟨l, r, e', g, q1, q2, hp⟩ := C21_right_piece (h.row hi) (u := t) h1 (by rw [row_hi h hi]; exact ht) hsep
      rw [(hc i hi).1] at e'
      cases e'
      rw [row_hi h hi] at q2 hp
      exact ⟨g, q1, q2, hp⟩
    have hg : R.Good eps := good_of_rows h d2 k2 rr fun i hi => (key i hi).1
    have a3 : R.vlo = t := (key 0 hrp).2.1
    have a4 : R.vhi = S.vhi := by rw [← row_hi hg (i := 0) (by omega)]; exact (key 0 hrp).2.2.1
    refine ⟨hg, a3, a4, ?_⟩
    intro u v u1 u2 v1 v2
    rw [Surface.point_eq_eval h u1 u2 (le_trans h1 v1) v2, Surface.point_eq_eval hg (by rw [b3]; exact u1)
      (by rw [b4]; exact u2) (by rw [a3]; exact v1) (by rw [a4]; exact v2)]
    congr 1
    refine eval_of_rows h d2 k2 rr u v (fun i hi => hg.row_len (by omega)) hg.cols_pos ?_
    intro i hi
    obtain ⟨g, q1, q2, hp⟩ := key i hi
    have hp := hp v v1 v2
    rw [Curve.point_eq_eval (h.row hi) (le_trans h1 v1) (by rw [row_hi h hi]; exact v2),
      Curve.point_eq_eval g (by rw [q1]; exact v1) (by rw [q2]; exact v2)] at hp
    exact Except.ok.inj hp
  · intro hnew
    have key : ∀ i, i < S.cps.length → (L.row i).Good eps ∧ (L.row i).lo = S.vlo ∧ (L.row i).hi = t ∧
        ∀ x, S.vlo ≤ x → x ≤ t → (L.row i).point eps x = (S.row i).point eps x := by
      intro i hi
      obtain ⟨l, r, e', g, q1, q2, hp⟩ := C21_left_piece (h.row hi) (u := t) h1 (by rw [row_hi h hi]; exact h2) hsep
        (by rw [row_hi h hi]; exact hnew)
      rw [(hc i hi).1] at e'
      cases e'
      exact ⟨g, q1, q2, hp⟩
    have hg : L.Good eps := good_of_rows h d1 k1 rl fun i hi => (key i hi).1
    have a3 : L.vlo = S.vlo := (key 0 hrp).2.1
    have a4 : L.vhi = t := by rw [← row_hi hg (i := 0) (by omega)]; exact (key 0 hrp).2.2.1
    refine ⟨hg, a3, a4, ?_⟩
    intro u v u1 u2 v1 v2
    rw [Surface.point_eq_eval h u1 u2 v1 (le_trans v2 h2), Surface.point_eq_eval hg (by rw [b1]; exact u1)
      (by rw [b2]; exact u2) (by rw [a3]; exact v1) (by rw [a4]; exact v2)]
    congr 1
    refine eval_of_rows h d1 k1 rl u v (fun i hi => hg.row_len (by omega)) hg.cols_pos ?_
    intro i hi
    obtain ⟨g, q1, q2, hp⟩ := key i hi
    have hp := hp v v1 v2
    rw [Curve.point_eq_eval (h.row hi) v1 (by rw [row_hi h hi]; exact le_trans v2 h2),
      Curve.point_eq_eval g (by rw [q1]; exact v1) (by rw [q2]; exact v2)] at hp
    exact Except.ok.inj hp

/-- Witness: both directions at a parameter that is no knot. -/
example : ∃ L R, exSurf.trySplit (1/1000) (1/2) .u = .ok (L, R) ∧ L.Good (1/1000) ∧ R.Good (1/1000) := by
  obtain ⟨L, R, e, _, _, _, _, _, _, _, _, hR, hL⟩ := C33_split_u exSurf_good (t := 1/2) (by decide +kernel)
    (by decide +kernel) (by decide +kernel)
  exact ⟨L, R, e, (hL (by decide +kernel)).1, (hR (by decide +kernel)).1⟩

example : ∃ L R, exSurf.trySplit (1/1000) 2 .v = .ok (L, R) ∧ L.Good (1/1000) ∧ R.Good (1/1000) := by
  obtain ⟨L, R, e, _, _, _, _, hR, hL⟩ := C33_split_v exSurf_good (t := 2) (by decide +kernel)
    (by decide +kernel) (by decide +kernel)
  exact ⟨L, R, e, (hL (by decide +kernel)).1, (hR (by decide +kernel)).1⟩

end Curvo.Props

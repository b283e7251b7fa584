/-
  Property theorems about the surface tessellation with boundary constraints: C96.
-/
import Verif.Props.TessClaims

set_option linter.unusedSectionVars false

namespace Curvo.Props

open Curvo Curvo.Tess Curvo.Spec

variable {K : Type} [Field K] [LinearOrder K] [IsStrictOrderedRing K] {W : Type} [AddCommGroup W]

/-! ### The subdivision does not add vertices on constrained sides -/

/-- A property of all results of a fold. -/
theorem foldlM_keep {σ β : Type} {f : σ → β → Res σ} {P : σ → Prop} (hf : ∀ s x s', P s → f s x = .ok s' → P s') :
    ∀ {l : List β} {s s' : σ}, P s → l.foldlM f s = .ok s' → P s'
  | [], s, s', h, e => by
    obtain rfl := Except.ok.inj e
    exact h
  | x :: l, s, s', h, e => by
    rw [List.foldlM_cons] at e
    obtain ⟨s1, e1, e2⟩ := bind_eq_ok.1 e
    exact foldlM_keep hf (hf _ _ _ h e1) e2

/-- A node whose corners form a rectangle right of `ulo` and above `vlo`, and whose corners on these two lines carry the
    marks of the side and of its constraint, if the side is constrained (`bv`: the side `v = vlo`, `bu`: the side `u = ulo`). -/
structure Marked (ulo vlo : K) (bu bv : Prop) (n : Node K W) : Prop where
  south : (n.corners 1).uv.2 = (n.corners 0).uv.2
  north : (n.corners 3).uv.2 = (n.corners 2).uv.2
  west : (n.corners 3).uv.1 = (n.corners 0).uv.1
  east : (n.corners 2).uv.1 = (n.corners 1).uv.1
  lt_u : (n.corners 0).uv.1 < (n.corners 2).uv.1
  lt_v : (n.corners 0).uv.2 < (n.corners 2).uv.2
  lo_u : ulo ≤ (n.corners 0).uv.1
  lo_v : vlo ≤ (n.corners 0).uv.2
  center : n.uvCenter = (((n.corners 0).uv.1 + (n.corners 2).uv.1) * (1 / 2), ((n.corners 0).uv.2 + (n.corners 2).uv.2) * (1 / 2))
  flag_v : bv → ∀ e, (n.corners e).uv.2 = vlo → (n.corners e).uMin = true ∧ (n.corners e).uConstraint = true
  flag_u : bu → ∀ e, (n.corners e).uv.1 = ulo → (n.corners e).vMin = true ∧ (n.corners e).vConstraint = true

theorem Marked.mid {ulo vlo : K} {bu bv : Prop} {n : Node K W} (h : Marked ulo vlo bu bv n) :
    (n.corners 0).uv.1 < n.uvCenter.1 ∧ n.uvCenter.1 < (n.corners 2).uv.1 ∧
      (n.corners 0).uv.2 < n.uvCenter.2 ∧ n.uvCenter.2 < (n.corners 2).uv.2 := by
  have a := h.lt_u
  have b := h.lt_v
  rw [h.center]
  refine ⟨?_, ?_, ?_, ?_⟩ <;> simp only [] <;> linarith

/-- Changing normals, directions and children does not matter. -/
theorem Marked.congr {ulo vlo : K} {bu bv : Prop} {n m : Node K W} (h : Marked ulo vlo bu bv n)
    (hc : m.uvCenter = n.uvCenter)
    (he : ∀ e, (m.corners e).uv = (n.corners e).uv ∧ (m.corners e).uMin = (n.corners e).uMin ∧
      (m.corners e).vMin = (n.corners e).vMin ∧ (m.corners e).uConstraint = (n.corners e).uConstraint ∧
      (m.corners e).vConstraint = (n.corners e).vConstraint) : Marked ulo vlo bu bv m := by
  have e := fun i => (he i).1
  refine ⟨?_, ?_, ?_, ?_, ?_, ?_, ?_, ?_, ?_, ?_, ?_⟩
  · rw [e, e]; exact h.south
  · rw [e, e]; exact h.north
  · rw [e, e]; exact h.west
  · rw [e, e]; exact h.east
  · rw [e, e]; exact h.lt_u
  · rw [e, e]; exact h.lt_v
  · rw [e]; exact h.lo_u
  · rw [e]; exact h.lo_v
  · rw [hc, e, e]; exact h.center
  · intro hb i hi
    rw [(he i).2.1, (he i).2.2.2.1]
    exact h.flag_v hb i (by rw [← e]; exact hi)
  · intro hb i hi
    rw [(he i).2.2.1, (he i).2.2.2.2]
    exact h.flag_u hb i (by rw [← e]; exact hi)

theorem fixNormal_same (cs : Fin 4 → SPoint K W) (i e : Fin 4) :
    (fixNormal cs i e).uv = (cs e).uv ∧ (fixNormal cs i e).uMin = (cs e).uMin ∧ (fixNormal cs i e).vMin = (cs e).vMin ∧
      (fixNormal cs i e).uConstraint = (cs e).uConstraint ∧ (fixNormal cs i e).vConstraint = (cs e).vConstraint ∧
      (fixNormal cs i e).point = (cs e).point ∧ (fixNormal cs i e).uMax = (cs e).uMax ∧ (fixNormal cs i e).vMax = (cs e).vMax := by
  unfold fixNormal
  by_cases hd : (cs i).degenerate = true
  · rw [if_pos hd]
    by_cases h : e = i
    · subst h
      simp
    · simp only [if_neg h, and_self]
  · rw [if_neg hd]
    simp only [and_self]

theorem fixNormals_same (n : Node K W) (e : Fin 4) :
    (n.fixNormals.corners e).uv = (n.corners e).uv ∧ (n.fixNormals.corners e).uMin = (n.corners e).uMin ∧
      (n.fixNormals.corners e).vMin = (n.corners e).vMin ∧
      (n.fixNormals.corners e).uConstraint = (n.corners e).uConstraint ∧
      (n.fixNormals.corners e).vConstraint = (n.corners e).vConstraint ∧
      (n.fixNormals.corners e).point = (n.corners e).point ∧ (n.fixNormals.corners e).uMax = (n.corners e).uMax ∧
      (n.fixNormals.corners e).vMax = (n.corners e).vMax := by
  have key : ∀ (l : List (Fin 4)) (cs : Fin 4 → SPoint K W),
      (l.foldl fixNormal cs e).uv = (cs e).uv ∧ (l.foldl fixNormal cs e).uMin = (cs e).uMin ∧
      (l.foldl fixNormal cs e).vMin = (cs e).vMin ∧ (l.foldl fixNormal cs e).uConstraint = (cs e).uConstraint ∧
      (l.foldl fixNormal cs e).vConstraint = (cs e).vConstraint ∧ (l.foldl fixNormal cs e).point = (cs e).point ∧
      (l.foldl fixNormal cs e).uMax = (cs e).uMax ∧ (l.foldl fixNormal cs e).vMax = (cs e).vMax := by
    intro l
    induction l with
    | nil => intro cs; exact ⟨rfl, rfl, rfl, rfl, rfl, rfl, rfl, rfl⟩
    | cons i l ih =>
      intro cs
      rw [List.foldl_cons]
      obtain ⟨a1, a2, a3, a4, a5, a6, a7, a8⟩ := ih (fixNormal cs i)
      obtain ⟨b1, b2, b3, b4, b5, b6, b7, b8⟩ := fixNormal_same cs i e
      exact ⟨a1.trans b1, a2.trans b2, a3.trans b3, a4.trans b4, a5.trans b5, a6.trans b6, a7.trans b7, a8.trans b8⟩
  exact key [0, 1, 2, 3] n.corners

/-- Without a minimal depth a node is only divided across directions in which none of its corners is constrained. -/
theorem shouldDivide_free {M : Metric K W} {o : Options K} (h0 : o.minDepth = 0) {n m : Node K W} {depth : ℕ} {d : Dividable}
    (h : n.shouldDivide M o depth = (m, some d)) (dir : UV) :
    m = n ∧ (d.dir dir = .v → ∀ e, (n.corners e).uConstraint = false) ∧
      (d.dir dir = .u → ∀ e, (n.corners e).vConstraint = false) := by
  unfold Node.shouldDivide at h
  rw [if_neg (by omega)] at h
  split_ifs at h with h1 h2
  · simp at h
  · simp at h
  · simp only [Prod.mk.injEq] at h
    obtain ⟨rfl, h⟩ := h
    refine ⟨rfl, ?_⟩
    have four : ∀ f : Fin 4 → Bool, (f 0 || f 1 || f 2 || f 3) = false → ∀ e, f e = false := by
      intro f hf e
      simp only [Bool.or_eq_false_iff] at hf
      obtain ⟨⟨⟨a, b⟩, c⟩, d⟩ := hf
      fin_cases e <;> assumption
    split at h
    · rename_i hu hv
      simp only [Bool.and_eq_true, Bool.not_eq_true'] at hu hv
      exact ⟨fun _ => four (fun e => (n.corners e).uConstraint) hv.2, fun _ => four (fun e => (n.corners e).vConstraint) hu.2⟩
    · rename_i hu hv
      simp only [Bool.and_eq_true, Bool.not_eq_true'] at hu
      obtain rfl := Option.some.inj h
      exact ⟨fun hd => by simp [Dividable.dir] at hd, fun _ => four (fun e => (n.corners e).vConstraint) hu.2⟩
    · rename_i hu hv
      simp only [Bool.and_eq_true, Bool.not_eq_true'] at hv
      obtain rfl := Option.some.inj h
      exact ⟨fun _ => four (fun e => (n.corners e).uConstraint) hv.2, fun hd => by simp [Dividable.dir] at hd⟩
    · simp at h

/-- The children of a node that is divided across an unconstrained direction. -/
theorem splitNode_marked {ev : K × K → Res (SPoint K W)} (hev : ∀ x p, ev x = .ok p → p.uv = x) {ulo vlo : K} {bu bv : Prop}
    {n : Node K W} (h : Marked ulo vlo bu bv n) (hv : n.direction = .v → ∀ e, (n.corners e).uConstraint = false)
    (hu : n.direction = .u → ∀ e, (n.corners e).vConstraint = false) {id0 id1 : ℕ} {c0 c1 : Node K W}
    (e : splitNode ev n id0 id1 = .ok (c0, c1)) : Marked ulo vlo bu bv c0 ∧ Marked ulo vlo bu bv c1 := by
  obtain ⟨m1, m2, m3, m4⟩ := h.mid
  have l1 := h.lo_u
  have l2 := h.lo_v
  have s1 := h.south
  have s2 := h.north
  have s3 := h.west
  have s4 := h.east
  have t1 := h.lt_u
  have t2 := h.lt_v
  have fv := h.flag_v
  have fu := h.flag_u
  unfold splitNode at e
  split at e
  · rename_i hd
    obtain ⟨east, e1, e⟩ := bind_eq_ok.1 e
    obtain ⟨west, e2, e⟩ := bind_eq_ok.1 e
    obtain ⟨rfl, rfl⟩ := Prod.mk.inj (Except.ok.inj e)
    have h1 := hev _ _ e1
    have h2 := hev _ _ e2
    have nu : bu → (n.corners 0).uv.1 ≠ ulo := fun hb hc => by
      have := (fu hb 0 hc).2
      rw [hu hd 0] at this
      cases this
    have lu : bu → ulo < (n.corners 0).uv.1 := fun hb => lt_of_le_of_ne l1 (Ne.symm (nu hb))
    constructor
    · refine ⟨s1, ?_, ?_, ?_, ?_, ?_, l1, l2, rfl, ?_, ?_⟩
      · show west.uv.2 = east.uv.2
        rw [h1, h2]
      · show west.uv.1 = (n.corners 0).uv.1
        rw [h2]
      · show east.uv.1 = (n.corners 1).uv.1
        rw [h1]
      · show (n.corners 0).uv.1 < east.uv.1
        rw [h1]; simp only []; linarith
      · show (n.corners 0).uv.2 < east.uv.2
        rw [h1]; simp only []; linarith
      · intro hb i hi
        fin_cases i
        · exact fv hb 0 hi
        · exact fv hb 1 hi
        · replace hi : east.uv.2 = vlo := hi
          rw [h1] at hi; simp only [] at hi; linarith
        · replace hi : west.uv.2 = vlo := hi
          rw [h2] at hi; simp only [] at hi; linarith
      · intro hb i hi
        have := lu hb
        fin_cases i
        · exact absurd hi (nu hb)
        · exact fu hb 1 hi
        · replace hi : east.uv.1 = ulo := hi
          rw [h1] at hi; simp only [] at hi; linarith
        · replace hi : west.uv.1 = ulo := hi
          rw [h2] at hi; simp only [] at hi; linarith
    · refine ⟨?_, s2, ?_, ?_, ?_, ?_, ?_, ?_, rfl, ?_, ?_⟩
      · show east.uv.2 = west.uv.2
        rw [h1, h2]
      · show (n.corners 3).uv.1 = west.uv.1
        rw [h2]; exact s3
      · show (n.corners 2).uv.1 = east.uv.1
        rw [h1]; exact s4
      · show west.uv.1 < (n.corners 2).uv.1
        rw [h2]; simp only []; linarith
      · show west.uv.2 < (n.corners 2).uv.2
        rw [h2]; simp only []; linarith
      · show ulo ≤ west.uv.1
        rw [h2]; exact l1
      · show vlo ≤ west.uv.2
        rw [h2]; simp only []; linarith
      · intro hb i hi
        fin_cases i
        · replace hi : west.uv.2 = vlo := hi
          rw [h2] at hi; simp only [] at hi; linarith
        · replace hi : east.uv.2 = vlo := hi
          rw [h1] at hi; simp only [] at hi; linarith
        · exact fv hb 2 hi
        · exact fv hb 3 hi
      · intro hb i hi
        have := lu hb
        fin_cases i
        · replace hi : west.uv.1 = ulo := hi
          rw [h2] at hi; simp only [] at hi; linarith
        · replace hi : east.uv.1 = ulo := hi
          rw [h1] at hi; simp only [] at hi; linarith
        · exact fu hb 2 hi
        · exact fu hb 3 hi
  · rename_i hd
    obtain ⟨south, e1, e⟩ := bind_eq_ok.1 e
    obtain ⟨north, e2, e⟩ := bind_eq_ok.1 e
    obtain ⟨rfl, rfl⟩ := Prod.mk.inj (Except.ok.inj e)
    have h1 := hev _ _ e1
    have h2 := hev _ _ e2
    have nv : bv → (n.corners 0).uv.2 ≠ vlo := fun hb hc => by
      have := (fv hb 0 hc).2
      rw [hv hd 0] at this
      cases this
    have lv : bv → vlo < (n.corners 0).uv.2 := fun hb => lt_of_le_of_ne l2 (Ne.symm (nv hb))
    constructor
    · refine ⟨?_, ?_, s3, ?_, ?_, ?_, l1, l2, rfl, ?_, ?_⟩
      · show south.uv.2 = (n.corners 0).uv.2
        rw [h1]
      · show (n.corners 3).uv.2 = north.uv.2
        rw [h2]; exact s2
      · show north.uv.1 = south.uv.1
        rw [h1, h2]
      · show (n.corners 0).uv.1 < north.uv.1
        rw [h2]; simp only []; linarith
      · show (n.corners 0).uv.2 < north.uv.2
        rw [h2]; simp only []; linarith
      · intro hb i hi
        have := lv hb
        fin_cases i
        · exact absurd hi (nv hb)
        · replace hi : south.uv.2 = vlo := hi
          rw [h1] at hi; simp only [] at hi; linarith
        · replace hi : north.uv.2 = vlo := hi
          rw [h2] at hi; simp only [] at hi; linarith
        · exact fv hb 3 hi
      · intro hb i hi
        fin_cases i
        · exact fu hb 0 hi
        · replace hi : south.uv.1 = ulo := hi
          rw [h1] at hi; simp only [] at hi; linarith
        · replace hi : north.uv.1 = ulo := hi
          rw [h2] at hi; simp only [] at hi; linarith
        · exact fu hb 3 hi
    · refine ⟨?_, ?_, ?_, s4, ?_, ?_, ?_, ?_, rfl, ?_, ?_⟩
      · show (n.corners 1).uv.2 = south.uv.2
        rw [h1]; exact s1
      · show north.uv.2 = (n.corners 2).uv.2
        rw [h2]
      · show north.uv.1 = south.uv.1
        rw [h1, h2]
      · show south.uv.1 < (n.corners 2).uv.1
        rw [h1]; simp only []; linarith
      · show south.uv.2 < (n.corners 2).uv.2
        rw [h1]; simp only []; linarith
      · show ulo ≤ south.uv.1
        rw [h1]; simp only []; linarith
      · show vlo ≤ south.uv.2
        rw [h1]; exact l2
      · intro hb i hi
        have := lv hb
        fin_cases i
        · replace hi : south.uv.2 = vlo := hi
          rw [h1] at hi; simp only [] at hi; linarith
        · exact fv hb 1 hi
        · exact fv hb 2 hi
        · replace hi : north.uv.2 = vlo := hi
          rw [h2] at hi; simp only [] at hi; linarith
      · intro hb i hi
        fin_cases i
        · replace hi : south.uv.1 = ulo := hi
          rw [h1] at hi; simp only [] at hi; linarith
        · exact fu hb 1 hi
        · exact fu hb 2 hi
        · replace hi : north.uv.1 = ulo := hi
          rw [h2] at hi; simp only [] at hi; linarith

theorem shouldDivide_none {M : Metric K W} {o : Options K} {n m : Node K W} {depth : ℕ} 
    (h : n.shouldDivide M o depth = (m, none)) : m = n ∨ m = n.fixNormals := by
  unfold Node.shouldDivide at h
  split_ifs at h with h1 h2 h3
  · simp at h
  · exact .inl (Prod.mk.inj h).1.symm
  · exact .inr (Prod.mk.inj h).1.symm
  · exact .inl (Prod.mk.inj h).1.symm

theorem setR_eq {α : Type} {l l' : List α} {i : ℕ} {a : α} (h : setR l i a = .ok l') : l' = l.set i a := by
  unfold setR at h
  split_ifs at h
  exact (Except.ok.inj h).symm

/-- All nodes stay marked. -/
theorem iterate_marked {M : Metric K W} {ev : K × K → Res (SPoint K W)} (hev : ∀ x p, ev x = .ok p → p.uv = x)
    {o : Options K} (h0 : o.minDepth = 0) {ulo vlo : K} {bu bv : Prop} : ∀ {fuel : ℕ} {N N' : List (Node K W)} {id depth : ℕ}
    {dir : UV}, (∀ n ∈ N, Marked ulo vlo bu bv n) → iterate M ev o fuel N id depth dir = .ok N' →
      ∀ n ∈ N', Marked ulo vlo bu bv n := by
  intro fuel
  induction fuel with
  | zero => intro N N' id depth dir _ e; cases e
  | succ fuel ih =>
    intro N N' id depth dir hN e
    rw [iterate] at e
    obtain ⟨n, en, e⟩ := bind_eq_ok.1 e
    have hn := hN n (List.mem_iff_getElem?.2 ⟨id, (getR_ok_iff.1 en)⟩)
    split at e
    · rename_i m hd
      rw [setR_eq e]
      intro k hk
      rcases List.mem_or_eq_of_mem_set hk with hk | rfl
      · exact hN k hk
      · rcases shouldDivide_none hd with rfl | rfl
        · exact hn
        · refine hn.congr rfl fun i => ?_
          obtain ⟨a, b, c, d, f, -⟩ := fixNormals_same n i
          exact ⟨a, b, c, d, f⟩
    · rename_i m d hd
      obtain ⟨rfl, hv, hu⟩ := shouldDivide_free h0 hd dir
      obtain ⟨⟨c0, c1⟩, ec, e⟩ := bind_eq_ok.1 e
      obtain ⟨N1, e1, e⟩ := bind_eq_ok.1 e
      obtain ⟨N2, e2, e⟩ := bind_eq_ok.1 e
      have hm : Marked ulo vlo bu bv { m with direction := d.dir dir } :=
        hn.congr rfl fun i => ⟨rfl, rfl, rfl, rfl, rfl⟩
      obtain ⟨k0, k1⟩ := splitNode_marked hev hm hv hu ec
      refine ih (ih ?_ e2) e
      intro k hk
      rcases List.mem_append.1 hk with hk | hk
      · rw [setR_eq e1] at hk
        rcases List.mem_or_eq_of_mem_set hk with hk | rfl
        · exact hN k hk
        · exact hn.congr rfl fun i => ⟨rfl, rfl, rfl, rfl, rfl⟩
      · simp only [List.mem_cons, List.not_mem_nil, or_false] at hk
        rcases hk with rfl | rfl
        · exact k0
        · exact k1

/-- A corner of a leaf stays a corner of a leaf. -/
theorem iterate_corner {M : Metric K W} {ev : K × K → Res (SPoint K W)} {o : Options K} {Q : SPoint K W → Prop}
    (hQ : ∀ p q : SPoint K W, Q p → q.uv = p.uv → q.point = p.point → q.uMin = p.uMin → q.vMin = p.vMin → q.uMax = p.uMax →
      q.vMax = p.vMax → Q q) : ∀ {fuel : ℕ} {N N' : List (Node K W)} {id depth : ℕ}
    {dir : UV}, (∃ n ∈ N, n.children = none ∧ ∃ e, Q (n.corners e)) → iterate M ev o fuel N id depth dir = .ok N' →
      ∃ n ∈ N', n.children = none ∧ ∃ e, Q (n.corners e) := by
  intro fuel
  induction fuel with
  | zero => intro N N' id depth dir _ e; cases e
  | succ fuel ih =>
    intro N N' id depth dir hN e
    obtain ⟨k, hk, kc, i, hi⟩ := hN
    obtain ⟨j, hj⟩ := List.mem_iff_getElem?.1 hk
    rw [iterate] at e
    obtain ⟨n, en, e⟩ := bind_eq_ok.1 e
    have en' := getR_ok_iff.1 en
    split at e
    · rename_i m hd
      rw [setR_eq e]
      by_cases hjd : id = j
      · subst hjd
        rw [hj] at en'
        obtain rfl := Option.some.inj en'
        have hl : id < N.length := (List.getElem?_eq_some_iff.1 hj).1
        refine ⟨m, List.mem_iff_getElem?.2 ⟨id, by rw [List.getElem?_set_self hl]⟩, ?_⟩
        rcases shouldDivide_none hd with rfl | rfl
        · exact ⟨kc, i, hi⟩
        · obtain ⟨a, b, c, d, f, g, g1, g2⟩ := fixNormals_same k i
          exact ⟨kc, i, hQ _ _ hi a g b c g1 g2⟩
      · exact ⟨k, List.mem_iff_getElem?.2 ⟨j, by rw [List.getElem?_set_ne hjd]; exact hj⟩, kc, i, hi⟩
    · rename_i m d hd
      obtain ⟨⟨c0, c1⟩, ec, e⟩ := bind_eq_ok.1 e
      obtain ⟨N1, e1, e⟩ := bind_eq_ok.1 e
      obtain ⟨N2, e2, e⟩ := bind_eq_ok.1 e
      refine ih (ih ?_ e2) e
      rw [setR_eq e1]
      by_cases hjd : id = j
      · subst hjd
        rw [hj] at en'
        obtain rfl := Option.some.inj en'
        have hmk : m = k := by
          unfold Node.shouldDivide at hd
          split_ifs at hd with h1 h2 h3
          · exact (Prod.mk.inj hd).1.symm
          · simp at hd
          · simp at hd
          · exact (Prod.mk.inj hd).1.symm
        subst hmk
        have hch : ∃ c ∈ [c0, c1], c.children = none ∧ ∃ e, Q (c.corners e) := by
          unfold splitNode at ec
          split at ec
          · obtain ⟨east, f1, ec⟩ := bind_eq_ok.1 ec
            obtain ⟨west, f2, ec⟩ := bind_eq_ok.1 ec
            obtain ⟨rfl, rfl⟩ := Prod.mk.inj (Except.ok.inj ec)
            fin_cases i
            · exact ⟨_, List.mem_cons_self, rfl, 0, hi⟩
            · exact ⟨_, List.mem_cons_self, rfl, 1, hi⟩
            · exact ⟨_, List.mem_cons_of_mem _ List.mem_cons_self, rfl, 2, hi⟩
            · exact ⟨_, List.mem_cons_of_mem _ List.mem_cons_self, rfl, 3, hi⟩
          · obtain ⟨south, f1, ec⟩ := bind_eq_ok.1 ec
            obtain ⟨north, f2, ec⟩ := bind_eq_ok.1 ec
            obtain ⟨rfl, rfl⟩ := Prod.mk.inj (Except.ok.inj ec)
            fin_cases i
            · exact ⟨_, List.mem_cons_self, rfl, 0, hi⟩
            · exact ⟨_, List.mem_cons_of_mem _ List.mem_cons_self, rfl, 1, hi⟩
            · exact ⟨_, List.mem_cons_of_mem _ List.mem_cons_self, rfl, 2, hi⟩
            · exact ⟨_, List.mem_cons_self, rfl, 3, hi⟩
        obtain ⟨c, hc, rest⟩ := hch
        exact ⟨c, List.mem_append_right _ hc, rest⟩
      · refine ⟨k, List.mem_append_left _ (List.mem_iff_getElem?.2 ⟨j, by rw [List.getElem?_set_ne hjd]; exact hj⟩), kc, i, hi⟩

theorem divideAll_marked {M : Metric K W} {ev : K × K → Res (SPoint K W)} (hev : ∀ x p, ev x = .ok p → p.uv = x)
    {o : Options K} (h0 : o.minDepth = 0) {ulo vlo : K} {bu bv : Prop} {p fuel du dv : ℕ} {N N' : List (Node K W)}
    (hN : ∀ n ∈ N, Marked ulo vlo bu bv n) (e : divideAll M ev o p fuel du dv N = .ok N') :
    ∀ n ∈ N', Marked ulo vlo bu bv n := by
  unfold divideAll at e
  refine foldlM_keep (P := fun N : List (Node K W) => ∀ n ∈ N, Marked ulo vlo bu bv n) ?_ hN e
  intro s iv s' hs e
  refine foldlM_keep (P := fun N : List (Node K W) => ∀ n ∈ N, Marked ulo vlo bu bv n) ?_ hs e
  intro s iu s' hs e
  exact iterate_marked hev h0 hs e

theorem divideAll_corner {M : Metric K W} {ev : K × K → Res (SPoint K W)} {o : Options K} {Q : SPoint K W → Prop}
    (hQ : ∀ p q : SPoint K W, Q p → q.uv = p.uv → q.point = p.point → q.uMin = p.uMin → q.vMin = p.vMin → q.uMax = p.uMax →
      q.vMax = p.vMax → Q q) {p fuel du dv : ℕ} {N N' : List (Node K W)}
    (hN : ∃ n ∈ N, n.children = none ∧ ∃ e, Q (n.corners e)) (e : divideAll M ev o p fuel du dv N = .ok N') :
    ∃ n ∈ N', n.children = none ∧ ∃ e, Q (n.corners e) := by
  unfold divideAll at e
  refine foldlM_keep (P := fun N : List (Node K W) => ∃ n ∈ N, n.children = none ∧ ∃ e, Q (n.corners e)) ?_ hN e
  intro s iv s' hs e
  refine foldlM_keep (P := fun N : List (Node K W) => ∃ n ∈ N, n.children = none ∧ ∃ e, Q (n.corners e)) ?_ hs e
  intro s iu s' hs e
  exact iterate_corner hQ hs e

/-! ### The vertices of the mesh -/

/-- The points along an edge are corners of nodes. -/
theorem getEdgeCorners_mem {N : List (Node K W)} {e : Fin 4} : ∀ {fuel id : ℕ} {ps : List (SPoint K W)},
    getEdgeCorners N e fuel id = .ok ps → ∀ p ∈ ps, ∃ n ∈ N, p = n.corners e := by
  intro fuel
  induction fuel with
  | zero => intro id ps h; cases h
  | succ fuel ih =>
    intro id ps h p hp
    rw [getEdgeCorners] at h
    obtain ⟨n, en, h⟩ := bind_eq_ok.1 h
    split at h
    · obtain ⟨parts, ep, h⟩ := bind_eq_ok.1 h
      obtain rfl := Except.ok.inj h
      obtain ⟨part, hpart, hp⟩ := List.mem_flatten.1 hp
      have f := mapM_ok_inv ep
      obtain ⟨k, hk, rfl⟩ := List.getElem_of_mem hpart
      exact ih (f.get (by rw [f.length_eq]; exact hk) hk) p hp
    · obtain rfl := Except.ok.inj h
      rw [List.mem_singleton.1 hp]
      exact ⟨n, List.mem_iff_getElem?.2 ⟨id, getR_ok_iff.1 en⟩, rfl⟩

theorem getAllCorners_mem {eps : K} {N : List (Node K W)} {n : Node K W} (hn : n ∈ N) {e : Fin 4} {ps : List (SPoint K W)}
    (h : getAllCorners eps N n e = .ok ps) : n.corners e ∈ ps ∧ ∀ p ∈ ps, ∃ m ∈ N, ∃ i, p = m.corners i := by
  unfold getAllCorners at h
  split at h
  · obtain rfl := Except.ok.inj h
    exact ⟨by simp, fun p hp => ⟨n, hn, e, List.mem_singleton.1 hp⟩⟩
  · obtain ⟨cs, ec, h⟩ := bind_eq_ok.1 h
    obtain rfl := Except.ok.inj h
    refine ⟨by simp, ?_⟩
    intro p hp
    rcases List.mem_cons.1 hp with rfl | hp
    · exact ⟨n, hn, e, rfl⟩
    · obtain ⟨m, hm, e'⟩ := getEdgeCorners_mem ec p (List.mem_filter.1 (List.mem_reverse.1 hp)).1
      exact ⟨m, hm, _, e'⟩

/-- A corner of a node lies strictly inside an edge of another node. -/
def InnerCorner (eps : K) (N : List (Node K W)) (n : Node K W) : Prop :=
  ∃ e : Fin 4, ∃ m ∈ N, ∃ i, Tess.coord (n.corners 0).uv (e.val % 2) + eps < Tess.coord (m.corners i).uv (e.val % 2) ∧
    Tess.coord (m.corners i).uv (e.val % 2) < Tess.coord (n.corners 2).uv (e.val % 2) - eps

theorem getAllCorners_single {eps : K} {N : List (Node K W)} {n : Node K W} (hno : ¬ InnerCorner eps N n) {e : Fin 4}
    {ps : List (SPoint K W)} (h : getAllCorners eps N n e = .ok ps) : ps.length = 1 := by
  unfold getAllCorners at h
  split at h
  · obtain rfl := Except.ok.inj h
    rfl
  · obtain ⟨cs, ec, h⟩ := bind_eq_ok.1 h
    obtain rfl := Except.ok.inj h
    rw [List.length_cons, List.length_reverse, List.length_eq_zero_iff.2]
    rw [List.filter_eq_nil_iff]
    intro p hp hd
    obtain ⟨m, hm, rfl⟩ := getEdgeCorners_mem ec p hp
    exact hno ⟨e, m, hm, _, of_decide_eq_true hd⟩

/-- The vertices of a mesh. -/
def Vertices (t : Surface.Tessellation K W) (vs : List (SPoint K W)) : Prop :=
  t.points = vs.map SPoint.point ∧ t.normals = vs.map SPoint.normal ∧ t.uvs = vs.map SPoint.uv

/-- Where the vertices of a mesh come from: each is the replacement of a corner of a node or the centre of a node, and the
    replacements of all corners of leaves are vertices. -/
theorem triangulateAll_vertices {M : Metric K W} {eps : K} {ev : K × K → Res (SPoint K W)} {N : List (Node K W)}
    {b : BoundaryEval K W} {t : Surface.Tessellation K W} (h : triangulateAll M eps ev N (some b) = .ok t) :
    ∃ vs, Vertices t vs ∧
      (∀ q ∈ vs, (∃ n ∈ N, ∃ i, snap M b (n.corners i) = .ok q) ∨ ∃ n ∈ N, ev n.uvCenter = .ok q ∧ InnerCorner eps N n) ∧
      ∀ n ∈ N, n.children = none → ∀ i, ∃ q ∈ vs, snap M b (n.corners i) = .ok q := by
  have step : ∀ (n : Node K W) (t t' : Surface.Tessellation K W) (vs : List (SPoint K W)), n ∈ N → Vertices t vs →
      triangulate M eps ev N (some b) t n = .ok t' → ∃ new, Vertices t' (vs ++ new) ∧
      (∀ q ∈ new, (∃ n ∈ N, ∃ i, snap M b (n.corners i) = .ok q) ∨ ∃ n ∈ N, ev n.uvCenter = .ok q ∧ InnerCorner eps N n) ∧
      (n.children = none → ∀ i, ∃ q ∈ new, snap M b (n.corners i) = .ok q) := by
    intro n t t' vs hn ht h
    unfold triangulate at h
    split_ifs at h with hleaf
    · obtain ⟨cs, ec, h⟩ := bind_eq_ok.1 h
      obtain ⟨pts, ep, h⟩ := bind_eq_ok.1 h
      have fc := mapM_ok_inv ec
      have fp : List.Forall₂ (fun p q => snap M b p = .ok q) cs.flatten pts := mapM_ok_inv ep
      have hmem : ∀ p ∈ cs.flatten, ∃ m ∈ N, ∃ i, p = m.corners i := by
        intro p hp
        obtain ⟨c, hc, hp⟩ := List.mem_flatten.1 hp
        obtain ⟨k, hk, rfl⟩ := List.getElem_of_mem hc
        exact (getAllCorners_mem hn (fc.get (by rw [fc.length_eq]; exact hk) hk)).2 p hp
      have hin : ∀ i, n.corners i ∈ cs.flatten := by
        intro i
        have hl : cs.length = 4 := fc.length_eq.symm
        have := fc.get (i := i.val) (by exact i.isLt) (by rw [hl]; exact i.isLt)
        have hi : ([0, 1, 2, 3] : List (Fin 4))[i.val]'(i.isLt) = i := by fin_cases i <;> rfl
        simp only [List.get_eq_getElem] at this
        rw [hi] at this
        exact List.mem_flatten.2 ⟨_, List.getElem_mem _, (getAllCorners_mem hn this).1⟩
      have hpts : ∀ q ∈ pts, ∃ n ∈ N, ∃ i, snap M b (n.corners i) = .ok q := by
        intro q hq
        obtain ⟨k, hk, rfl⟩ := List.getElem_of_mem hq
        have hk' : k < cs.flatten.length := by rw [fp.length_eq]; exact hk
        have := fp.get hk' hk
        obtain ⟨m, hm, i, e⟩ := hmem _ (List.getElem_mem hk')
        exact ⟨m, hm, i, by rw [← e]; exact this⟩
      have hall : ∀ i, ∃ q ∈ pts, snap M b (n.corners i) = .ok q := by
        intro i
        obtain ⟨k, hk, e⟩ := List.getElem_of_mem (hin i)
        have hk' : k < pts.length := by rw [← fp.length_eq]; exact hk
        have := fp.get hk hk'
        simp only [List.get_eq_getElem] at this
        rw [e] at this
        exact ⟨_, List.getElem_mem hk', this⟩
      obtain ⟨t1, t2, t3⟩ := ht
      simp only [] at h
      by_cases hk : pts.length = 4 ∨ pts.length = 5
      · rw [if_pos hk] at h
        split_ifs at h
        obtain rfl := Except.ok.inj h
        refine ⟨pts, ⟨?_, ?_, ?_⟩, fun q hq => .inl (hpts q hq), fun _ => hall⟩
        · simp only [List.map_append, t1]
        · simp only [List.map_append, t2]
        · simp only [List.map_append, t3]
      · rw [if_neg hk] at h
        obtain ⟨c, e1, h⟩ := bind_eq_ok.1 h
        obtain ⟨_, _, h⟩ := bind_eq_ok.1 h
        obtain rfl := Except.ok.inj h
        have hinner : InnerCorner eps N n := by
          by_contra hno
          have hl : ∀ c ∈ cs, c.length = 1 := by
            intro c hc
            obtain ⟨k, hk, rfl⟩ := List.getElem_of_mem hc
            exact getAllCorners_single hno (fc.get (by rw [fc.length_eq]; exact hk) hk)
          have h4 : cs.flatten.length = 4 := by
            rw [List.length_flatten, List.map_congr_left (g := fun _ => 1) hl]
            simp [← fc.length_eq]
          exact hk (.inl (by rw [← fp.length_eq]; exact h4))
        refine ⟨pts ++ [c], ⟨?_, ?_, ?_⟩, ?_, ?_⟩
        · simp only [List.map_append, t1, List.map_cons, List.map_nil, List.append_assoc]
        · simp only [List.map_append, t2, List.map_cons, List.map_nil, List.append_assoc]
        · simp only [List.map_append, t3, List.map_cons, List.map_nil, List.append_assoc]
        · intro q hq
          rcases List.mem_append.1 hq with hq | hq
          · exact .inl (hpts q hq)
          · rw [List.mem_singleton.1 hq]
            exact .inr ⟨n, hn, e1, hinner⟩
        · intro _ i
          obtain ⟨q, hq, e⟩ := hall i
          exact ⟨q, List.mem_append_left _ hq, e⟩
    · obtain rfl := Except.ok.inj h
      refine ⟨[], by rw [List.append_nil]; exact ht, by simp, ?_⟩
      intro hc
      exact absurd (by simp [Node.isLeaf, hc]) hleaf
  have key : ∀ (L : List (Node K W)) (t t' : Surface.Tessellation K W) (vs : List (SPoint K W)), (∀ n ∈ L, n ∈ N) →
      Vertices t vs → L.foldlM (triangulate M eps ev N (some b)) t = .ok t' →
      ∃ new, Vertices t' (vs ++ new) ∧
      (∀ q ∈ new, (∃ n ∈ N, ∃ i, snap M b (n.corners i) = .ok q) ∨ ∃ n ∈ N, ev n.uvCenter = .ok q ∧ InnerCorner eps N n) ∧
      ∀ n ∈ L, n.children = none → ∀ i, ∃ q ∈ new, snap M b (n.corners i) = .ok q := by
    intro L
    induction L with
    | nil =>
      intro t t' vs _ ht h
      obtain rfl := Except.ok.inj h
      exact ⟨[], by rw [List.append_nil]; exact ht, by simp, by simp⟩
    | cons n L ih =>
      intro t t' vs hL ht h
      rw [List.foldlM_cons] at h
      obtain ⟨t1, e1, h⟩ := bind_eq_ok.1 h
      obtain ⟨n1, a1, a2, a3⟩ := step n t t1 vs (hL n (by simp)) ht e1
      obtain ⟨n2, b1, b2, b3⟩ := ih t1 t' _ (fun m hm => hL m (List.mem_cons_of_mem _ hm)) a1 h
      refine ⟨n1 ++ n2, by rw [← List.append_assoc]; exact b1, ?_, ?_⟩
      · intro q hq
        rcases List.mem_append.1 hq with hq | hq
        · exact a2 q hq
        · exact b2 q hq
      · intro m hm hc i
        rcases List.mem_cons.1 hm with rfl | hm
        · obtain ⟨q, hq, e⟩ := a3 hc i
          exact ⟨q, List.mem_append_left _ hq, e⟩
        · obtain ⟨q, hq, e⟩ := b3 m hm hc i
          exact ⟨q, List.mem_append_right _ hq, e⟩
  obtain ⟨new, a, b, c⟩ := key N _ t [] (fun _ h => h) ⟨rfl, rfl, rfl⟩ h
  exact ⟨new, by simpa using a, b, c⟩

/-! ### The replacement of vertices -/

theorem minBy_le {α : Type} (key : α → K) {l : List α} {a : α} (h : minBy key l = some a) : ∀ x ∈ l, key a ≤ key x := by
  cases l with
  | nil => cases h
  | cons b l =>
    obtain rfl := Option.some.inj h
    have : ∀ (l : List α) (b : α), key (l.foldl (fun best x => if key x < key best then x else best) b) ≤ key b ∧
        ∀ x ∈ l, key (l.foldl (fun best x => if key x < key best then x else best) b) ≤ key x := by
      intro l
      induction l with
      | nil => intro b; simp
      | cons c l ih =>
        intro b
        rw [List.foldl_cons]
        obtain ⟨h1, h2⟩ := ih (if key c < key b then c else b)
        split_ifs at h1 h2 ⊢ with hc
        · exact ⟨h1.trans hc.le, fun x hx => (List.mem_cons.1 hx).elim (fun e => e ▸ h1) (h2 x)⟩
        · exact ⟨h1, fun x hx => (List.mem_cons.1 hx).elim (fun e => e ▸ h1.trans (not_lt.1 hc)) (h2 x)⟩
    intro x hx
    rcases List.mem_cons.1 hx with rfl | hx
    · exact (this l x).1
    · exact (this l b).2 x hx

theorem closestPoint_inv {M : Metric K W} {p q : SPoint K W} {l : List (SPoint K W)} (h : closestPoint M p l = .ok q) :
    q ∈ l ∧ ∀ x ∈ l, M.normSq (q.point - p.point) ≤ M.normSq (x.point - p.point) := by
  unfold closestPoint at h
  cases hm : minBy (fun q : SPoint K W => M.normSq (q.point - p.point)) l with
  | none => rw [hm] at h; cases h
  | some a =>
    rw [hm] at h
    obtain rfl := Except.ok.inj h
    exact ⟨minBy_mem _ hm, minBy_le _ hm⟩

/-- The cases of the replacement of a vertex. -/
theorem snap_inv {M : Metric K W} {b : BoundaryEval K W} {p q : SPoint K W} (h : snap M b p = .ok q) :
    (p.uMin = true ∧ ∃ l, b.uAtVMin = some l ∧ closestPoint M p l = .ok q) ∨
    ((p.uMin = false ∨ b.uAtVMin = none) ∧
      ((p.uMax = true ∧ ∃ l, b.uAtVMax = some l ∧ closestPoint M p l = .ok q) ∨
      ((p.uMax = false ∨ b.uAtVMax = none) ∧
        ((p.vMin = true ∧ ∃ l, b.vAtUMin = some l ∧ closestPoint M p l = .ok q) ∨
        ((p.vMin = false ∨ b.vAtUMin = none) ∧
          ((p.vMax = true ∧ ∃ l, b.vAtUMax = some l ∧ closestPoint M p l = .ok q) ∨
          ((p.vMax = false ∨ b.vAtUMax = none) ∧ q = p))))))) := by
  have some_case : ∀ (f : Bool) (o : Option (List (SPoint K W))) (l : List (SPoint K W)),
      (if f then o else none) = some l → f = true ∧ o = some l := by
    intro f o l h
    cases f
    · simp at h
    · exact ⟨rfl, h⟩
  have none_case : ∀ (f : Bool) (o : Option (List (SPoint K W))), (if f then o else none) = none → f = false ∨ o = none := by
    intro f o h
    cases f
    · exact .inl rfl
    · exact .inr h
  unfold snap at h
  split at h
  · rename_i l hl
    obtain ⟨a, b⟩ := some_case _ _ _ hl
    exact .inl ⟨a, l, b, h⟩
  · rename_i hl
    refine .inr ⟨none_case _ _ hl, ?_⟩
    split at h
    · rename_i l hl
      obtain ⟨a, b⟩ := some_case _ _ _ hl
      exact .inl ⟨a, l, b, h⟩
    · rename_i hl
      refine .inr ⟨none_case _ _ hl, ?_⟩
      split at h
      · rename_i l hl
        obtain ⟨a, b⟩ := some_case _ _ _ hl
        exact .inl ⟨a, l, b, h⟩
      · rename_i hl
        refine .inr ⟨none_case _ _ hl, ?_⟩
        split at h
        · rename_i l hl
          obtain ⟨a, b⟩ := some_case _ _ _ hl
          exact .inl ⟨a, l, b, h⟩
        · rename_i hl
          exact .inr ⟨none_case _ _ hl, (Except.ok.inj h).symm⟩

section surface
variable [Module K W]

theorem evaluateSurface_uv {M : Metric K W} {eps : K} {S : Surface K (W × K)} (x : K × K) (p : SPoint K W)
    (h : evaluateSurface M eps S x = .ok p) : p.uv = x := by
  unfold evaluateSurface at h
  obtain ⟨d, -, h⟩ := bind_eq_ok.1 h
  obtain ⟨a, -, h⟩ := bind_eq_ok.1 h
  obtain ⟨a, -, h⟩ := bind_eq_ok.1 h
  obtain ⟨a, -, h⟩ := bind_eq_ok.1 h
  obtain rfl := Except.ok.inj h
  rfl

theorem gridPoint_flags {M : Metric K W} {eps : K} {S : Surface K (W × K)} {c : Constraints K} {du dv : ℕ} {u v : K} {iu iv : ℕ}
    {p : SPoint K W} (h : gridPoint M eps S c du dv u v iu iv = .ok p) :
    p.uMin = decide (iv = 0) ∧ p.uMax = decide (iv = dv - 1) ∧ p.vMin = decide (iu = 0) ∧ p.vMax = decide (iu = du - 1) ∧
      p.uConstraint = ((decide (iv = 0) && c.uAtVMin.isSome) || (decide (iv = dv - 1) && c.uAtVMax.isSome)) ∧
      p.vConstraint = ((decide (iu = 0) && c.vAtUMin.isSome) || (decide (iu = du - 1) && c.vAtUMax.isSome)) := by
  unfold gridPoint at h
  obtain ⟨lv, hlv, h⟩ := bind_eq_ok.1 h
  obtain ⟨lu, hlu, h⟩ := bind_eq_ok.1 h
  have e1 : lv = dv - 1 := by
    unfold subR at hlv
    split_ifs at hlv
    exact (Except.ok.inj hlv).symm
  have e2 : lu = du - 1 := by
    unfold subR at hlu
    split_ifs at hlu
    exact (Except.ok.inj hlu).symm
  subst e1 e2
  obtain ⟨d, -, h⟩ := bind_eq_ok.1 h
  obtain ⟨a, -, h⟩ := bind_eq_ok.1 h
  obtain ⟨a, -, h⟩ := bind_eq_ok.1 h
  obtain ⟨a, -, h⟩ := bind_eq_ok.1 h
  obtain rfl := Except.ok.inj h
  exact ⟨rfl, rfl, rfl, rfl, rfl, rfl⟩

/-- The first partial derivatives at a parameter and their cross product, not normalised. -/
def CrossAt (M : Metric K W) (eps : K) (S : Surface K (W × K)) (x : K × K) (w : W) : Prop :=
  ∃ (d : List (List W)) (a b : W), S.rationalDerivatives eps x.1 x.2 1 = .ok d ∧ get2R d 1 0 = .ok a ∧ get2R d 0 1 = .ok b ∧
    w = M.cross a b

theorem evaluateBoundary_inv {M : Metric K W} {eps : K} {S : Surface K (W × K)} {x : K × K} {p : SPoint K W}
    (h : evaluateBoundary M eps S x = .ok p) : p.uv = x ∧ CrossAt M eps S x p.normal := by
  unfold evaluateBoundary at h
  obtain ⟨d, e, h⟩ := bind_eq_ok.1 h
  obtain ⟨pt, e0, h⟩ := bind_eq_ok.1 h
  obtain ⟨a, e1, h⟩ := bind_eq_ok.1 h
  obtain ⟨b, e2, h⟩ := bind_eq_ok.1 h
  obtain rfl := Except.ok.inj h
  exact ⟨rfl, d, a, b, e, e1, e2, rfl⟩

/-- The evaluated points of a constrained side. -/
def Evaluated (M : Metric K W) (eps : K) (S : Surface K (W × K)) (f : K → K × K) (o : Option (List K))
    (r : Option (List (SPoint K W))) : Prop :=
  (o = none → r = none) ∧ ∀ l, o = some l → ∃ ps, r = some ps ∧
    List.Forall₂ (fun u q => evaluateBoundary M eps S (f u) = .ok q) l ps

theorem optMapM_evaluated {M : Metric K W} {eps : K} {S : Surface K (W × K)} {f : K → K × K} {o : Option (List K)}
    {r : Option (List (SPoint K W))}
    (h : optMapM (fun us : List K => us.mapM fun u => evaluateBoundary M eps S (f u)) o = .ok r) : Evaluated M eps S f o r := by
  cases o with
  | none =>
    obtain rfl := Except.ok.inj h
    exact ⟨fun _ => rfl, by simp⟩
  | some l =>
    obtain ⟨ps, e, h⟩ := bind_eq_ok.1 h
    obtain rfl := Except.ok.inj h
    refine ⟨by simp, fun l' hl => ?_⟩
    obtain rfl := Option.some.inj hl
    exact ⟨ps, rfl, mapM_ok_inv e⟩

theorem Evaluated.mem {M : Metric K W} {eps : K} {S : Surface K (W × K)} {f : K → K × K} {o : Option (List K)}
    {r : Option (List (SPoint K W))} (h : Evaluated M eps S f o r) {ps : List (SPoint K W)} (hr : r = some ps) {q : SPoint K W}
    (hq : q ∈ ps) : ∃ l, o = some l ∧ ∃ u ∈ l, evaluateBoundary M eps S (f u) = .ok q := by
  cases o with
  | none => rw [h.1 rfl] at hr; cases hr
  | some l =>
    obtain ⟨ps', e, g⟩ := h.2 l rfl
    rw [hr] at e
    obtain rfl := Option.some.inj e
    obtain ⟨k, hk, rfl⟩ := List.getElem_of_mem hq
    have hk' : k < l.length := by rw [g.length_eq]; exact hk
    exact ⟨l, rfl, l[k], List.getElem_mem hk', g.get hk' hk⟩

theorem boundaryEval_inv {M : Metric K W} {eps : K} {S : Surface K (W × K)} (h : S.Good eps) {c : Constraints K}
    {b : BoundaryEval K W} (e : BoundaryEval.new M eps S c = .ok b) :
    Evaluated M eps S (fun u => (u, S.vlo)) c.uAtVMin b.uAtVMin ∧ Evaluated M eps S (fun u => (u, S.vhi)) c.uAtVMax b.uAtVMax ∧
    Evaluated M eps S (fun v => (S.ulo, v)) c.vAtUMin b.vAtUMin ∧ Evaluated M eps S (fun v => (S.uhi, v)) c.vAtUMax b.vAtUMax := by
  have du : S.uDomain = .ok (S.ulo, S.uhi) := u_domain_eq h
  have dv : S.vDomain = .ok (S.vlo, S.vhi) := v_domain_eq h
  rw [BoundaryEval.new, du, ok_bind] at e
  simp only [] at e
  rw [dv, ok_bind] at e
  simp only [] at e
  obtain ⟨r1, e1, e⟩ := bind_eq_ok.1 e
  obtain ⟨r2, e2, e⟩ := bind_eq_ok.1 e
  obtain ⟨r3, e3, e⟩ := bind_eq_ok.1 e
  obtain ⟨r4, e4, e⟩ := bind_eq_ok.1 e
  obtain rfl := Except.ok.inj e
  exact ⟨optMapM_evaluated e1, optMapM_evaluated e2, optMapM_evaluated e3, optMapM_evaluated e4⟩

/-- The grid of a constrained tessellation with the marks of its points. -/
structure Grid (M : Metric K W) (eps : K) (S : Surface K (W × K)) (c : Constraints K) (o : Options K) (U V : ℕ → K)
    (P : ℕ → ℕ → SPoint K W) (du dv : ℕ) : Prop where
  du_pos : 0 < du
  dv_pos : 0 < dv
  U_lt : ∀ i, i < du → U i < U (i + 1)
  V_lt : ∀ i, i < dv → V i < V (i + 1)
  uv : ∀ r c, r ≤ dv → c ≤ du → (P r c).uv = (U c, V r)
  point : ∀ r c, r ≤ dv → c ≤ du → (P r c).point = surfPoint S (U c, V r)
  U0 : U 0 = S.ulo
  Ud : U du = S.uhi
  V0 : V 0 = S.vlo
  Vd : V dv = S.vhi
  flags : ∀ r i, r ≤ dv → i ≤ du → (P r i).uMin = decide (r = 0) ∧ (P r i).uMax = decide (r = dv - 1) ∧
    (P r i).vMin = decide (i = 0) ∧ (P r i).vMax = decide (i = du - 1) ∧
    (P r i).uConstraint = ((decide (r = 0) && c.uAtVMin.isSome) || (decide (r = dv - 1) && c.uAtVMax.isSome)) ∧
    (P r i).vConstraint = ((decide (i = 0) && c.vAtUMin.isSome) || (decide (i = du - 1) && c.vAtUMax.isSome))
  us : ∃ us, gridParams S.uDegree S.uKnots S.cps.length 1 o.minDivsU = .ok us ∧ us.Pairwise (· < ·) ∧
    insertParams us c.uParameters = (List.range (du + 1)).map U
  vs : ∃ vs, gridParams S.vDegree S.vKnots S.cols 1 o.minDivsV = .ok vs ∧ vs.Pairwise (· < ·) ∧
    insertParams vs c.vParameters = (List.range (dv + 1)).map V

/-- The parts of a successful tessellation with constraints. -/
theorem tessellate_inv {M : Metric K W} {eps : K} {S : Surface K (W × K)} (h : S.Good eps)
    (hw : ∀ row ∈ S.cps, ∀ p ∈ row, 0 < p.2) (hd : GridDegrees S) {c : Constraints K} (hc : ConstraintsOK S c)
    {opts : Option (Options K)} {dflt : Options K} {fuel : ℕ} {t : Surface.Tessellation K W}
    (e : tessellateSurface M eps fuel S (some c) opts dflt = .ok t) :
    ∃ (U V : ℕ → K) (P : ℕ → ℕ → SPoint K W) (du dv : ℕ) (N : List (Node K W)) (b : BoundaryEval K W),
      Grid M eps S c (opts.getD dflt) U V P du dv ∧
      (if opts.isSome then divideAll M (evaluateSurface M eps S) (opts.getD dflt) S.uDegree fuel du dv (cellNodes P du dv)
        else pure (cellNodes P du dv)) = .ok N ∧
      BoundaryEval.new M eps S c = .ok b ∧ triangulateAll M eps (evaluateSurface M eps S) N (some b) = .ok t := by
  obtain ⟨U, V, P, du, dv, eg, hdu, hdv, hU, hV, hP, u0, u1, v0, v1, hgp, ⟨us, eu, gu, lu⟩, ⟨vs, ev, gv, lv⟩⟩ :=
    adaptiveGrid_ok (M := M) h hw hd.1 hd.2 (some c)
    (fun cs hcs => ⟨sortedParameters_ok (by rw [← Option.some.inj hcs]; exact hc.1),
      sortedParameters_ok (by rw [← Option.some.inj hcs]; exact hc.2)⟩) (opts.getD dflt)
  rw [tessellateSurface, eg, ok_bind] at e
  simp only [] at e
  obtain ⟨N, eN, e⟩ : ∃ N : List (Node K W),
      (if opts.isSome then divideAll M (evaluateSurface M eps S) (opts.getD dflt) S.uDegree fuel du dv (cellNodes P du dv)
        else pure (cellNodes P du dv)) = .ok N ∧
      (optMapM (BoundaryEval.new M eps S) (some c) >>= fun b =>
        triangulateAll M eps (evaluateSurface M eps S) N b) = .ok t := by
    by_cases ho : opts.isSome = true
    · rw [if_pos ho] at e ⊢
      exact bind_eq_ok.1 e
    · rw [if_neg ho] at e ⊢
      exact bind_eq_ok.1 e
  obtain ⟨b, eb, e⟩ := bind_eq_ok.1 e
  obtain ⟨b', eb', eb⟩ := bind_eq_ok.1 eb
  obtain rfl := Except.ok.inj eb
  exact ⟨U, V, P, du, dv, N, b', ⟨hdu, hdv, hU, hV, fun r c a b => (hP r c a b).1, fun r c a b => (hP r c a b).2, u0, u1, v0, v1,
    fun r i hr hi => gridPoint_flags (hgp r i hr hi), ⟨us, eu, gu, lu⟩, ⟨vs, ev, gv, lv⟩⟩, eN, eb', e⟩

theorem mono_inj {U : ℕ → K} {d : ℕ} (h : ∀ i, i < d → U i < U (i + 1)) {a b : ℕ} (ha : a ≤ d) (hb : b ≤ d) (hab : U a = U b) :
    a = b := by
  have key : ∀ a b, a < b → b ≤ d → U a < U b := fun a b hab hb =>
    lt_of_lt_of_le (h a (by omega)) (mono_le h (by omega) hb)
  rcases lt_trichotomy a b with hl | hl | hl
  · exact absurd hab (key a b hl hb).ne
  · exact hl
  · exact absurd hab.symm (key b a hl ha).ne

/-- The nodes of the grid are marked. -/
theorem Grid.marked {M : Metric K W} {eps : K} {S : Surface K (W × K)} {c : Constraints K} {o : Options K} {U V : ℕ → K}
    {P : ℕ → ℕ → SPoint K W} {du dv : ℕ} (g : Grid M eps S c o U V P du dv) :
    ∀ n ∈ cellNodes P du dv, Marked S.ulo S.vlo (c.vAtUMin.isSome = true) (c.uAtVMin.isSome = true) n := by
  intro n hn
  simp only [cellNodes, List.mem_flatMap, List.mem_map, List.mem_range] at hn
  obtain ⟨iv, hiv, iu, hiu, rfl⟩ := hn
  have a0 := g.uv (dv - iv - 1) iu (by omega) (by omega)
  have a1 := g.uv (dv - iv - 1) (iu + 1) (by omega) (by omega)
  have a2 := g.uv (dv - iv) (iu + 1) (by omega) (by omega)
  have a3 := g.uv (dv - iv) iu (by omega) (by omega)
  have corner : ∀ i, ∃ r k, r ≤ dv ∧ k ≤ du ∧ (cellNode P du dv iv iu).corners i = P r k := by
    intro i
    fin_cases i
    · exact ⟨dv - iv - 1, iu, by omega, by omega, rfl⟩
    · exact ⟨dv - iv - 1, iu + 1, by omega, by omega, rfl⟩
    · exact ⟨dv - iv, iu + 1, by omega, by omega, rfl⟩
    · exact ⟨dv - iv, iu, by omega, by omega, rfl⟩
  refine ⟨?_, ?_, ?_, ?_, ?_, ?_, ?_, ?_, rfl, ?_, ?_⟩
  · show (P (dv - iv - 1) (iu + 1)).uv.2 = (P (dv - iv - 1) iu).uv.2
    rw [a0, a1]
  · show (P (dv - iv) iu).uv.2 = (P (dv - iv) (iu + 1)).uv.2
    rw [a2, a3]
  · show (P (dv - iv) iu).uv.1 = (P (dv - iv - 1) iu).uv.1
    rw [a0, a3]
  · show (P (dv - iv) (iu + 1)).uv.1 = (P (dv - iv - 1) (iu + 1)).uv.1
    rw [a1, a2]
  · show (P (dv - iv - 1) iu).uv.1 < (P (dv - iv) (iu + 1)).uv.1
    rw [a0, a2]
    exact g.U_lt iu hiu
  · show (P (dv - iv - 1) iu).uv.2 < (P (dv - iv) (iu + 1)).uv.2
    rw [a0, a2]
    have := g.V_lt (dv - iv - 1) (by omega)
    rwa [show dv - iv - 1 + 1 = dv - iv by omega] at this
  · show S.ulo ≤ (P (dv - iv - 1) iu).uv.1
    rw [a0, ← g.U0]
    exact mono_le g.U_lt (by omega) (by omega)
  · show S.vlo ≤ (P (dv - iv - 1) iu).uv.2
    rw [a0, ← g.V0]
    exact mono_le g.V_lt (by omega) (by omega)
  · intro hb i hi
    obtain ⟨r, k, hr, hk, e⟩ := corner i
    rw [e] at hi ⊢
    rw [g.uv r k hr hk, ← g.V0] at hi
    obtain rfl := mono_inj g.V_lt hr (by omega) hi
    obtain ⟨f1, -, -, -, f2, -⟩ := g.flags 0 k hr hk
    rw [f1, f2, hb]
    simp
  · intro hb i hi
    obtain ⟨r, k, hr, hk, e⟩ := corner i
    rw [e] at hi ⊢
    rw [g.uv r k hr hk, ← g.U0] at hi
    obtain rfl := mono_inj g.U_lt hk (by omega) hi
    obtain ⟨-, -, f1, -, -, f2⟩ := g.flags r 0 hr hk
    rw [f1, f2, hb]
    simp

theorem Grid.marked_all {M : Metric K W} {eps : K} {S : Surface K (W × K)} {c : Constraints K} {U V : ℕ → K}
    {P : ℕ → ℕ → SPoint K W} {du dv fuel : ℕ} {opts : Option (Options K)} {dflt : Options K}
    (g : Grid M eps S c (opts.getD dflt) U V P du dv) (h0 : ∀ o, opts = some o → o.minDepth = 0) {N : List (Node K W)}
    (e : (if opts.isSome then divideAll M (evaluateSurface M eps S) (opts.getD dflt) S.uDegree fuel du dv (cellNodes P du dv)
        else pure (cellNodes P du dv)) = .ok N) :
    ∀ n ∈ N, Marked S.ulo S.vlo (c.vAtUMin.isSome = true) (c.uAtVMin.isSome = true) n := by
  cases opts with
  | none =>
    obtain rfl := Except.ok.inj e
    exact g.marked
  | some o => exact divideAll_marked evaluateSurface_uv (h0 o rfl) g.marked e

/-- A corner of the grid is a corner of a leaf. -/
theorem Grid.leaf {M : Metric K W} {eps : K} {S : Surface K (W × K)} {c : Constraints K} {U V : ℕ → K}
    {P : ℕ → ℕ → SPoint K W} {du dv fuel : ℕ} {opts : Option (Options K)} {dflt : Options K}
    (g : Grid M eps S c (opts.getD dflt) U V P du dv) {N : List (Node K W)}
    (e : (if opts.isSome then divideAll M (evaluateSurface M eps S) (opts.getD dflt) S.uDegree fuel du dv (cellNodes P du dv)
        else pure (cellNodes P du dv)) = .ok N) {r k : ℕ} (hr : r ≤ dv) (hk : k ≤ du) :
    ∃ n ∈ N, n.children = none ∧ ∃ i, (n.corners i).uv = (U k, V r) ∧ (n.corners i).point = surfPoint S (U k, V r) ∧
      (n.corners i).uMin = decide (r = 0) ∧ (n.corners i).uMax = decide (r = dv - 1) ∧
      (n.corners i).vMin = decide (k = 0) ∧ (n.corners i).vMax = decide (k = du - 1) := by
  have hdu := g.du_pos
  have hdv := g.dv_pos
  have hgrid : ∃ n ∈ cellNodes P du dv, n.children = none ∧ ∃ i, n.corners i = P r k := by
    have mem : ∀ iv iu, iv < dv → iu < du → cellNode P du dv iv iu ∈ cellNodes P du dv := fun iv iu h1 h2 =>
      List.mem_iff_getElem?.2 ⟨_, cellNodes_get h1 h2⟩
    by_cases hr0 : r = 0
    · by_cases hk0 : k = 0
      · refine ⟨_, mem (dv - 1) 0 (by omega) (by omega), rfl, 0, ?_⟩
        show P (dv - (dv - 1) - 1) 0 = P r k
        rw [hr0, hk0, show dv - (dv - 1) - 1 = 0 by omega]
      · refine ⟨_, mem (dv - 1) (k - 1) (by omega) (by omega), rfl, 1, ?_⟩
        show P (dv - (dv - 1) - 1) (k - 1 + 1) = P r k
        rw [hr0, show dv - (dv - 1) - 1 = 0 by omega, show k - 1 + 1 = k by omega]
    · by_cases hk0 : k = 0
      · refine ⟨_, mem (dv - r) 0 (by omega) (by omega), rfl, 3, ?_⟩
        show P (dv - (dv - r)) 0 = P r k
        rw [hk0, show dv - (dv - r) = r by omega]
      · refine ⟨_, mem (dv - r) (k - 1) (by omega) (by omega), rfl, 2, ?_⟩
        show P (dv - (dv - r)) (k - 1 + 1) = P r k
        rw [show dv - (dv - r) = r by omega, show k - 1 + 1 = k by omega]
  have hq : ∃ n ∈ cellNodes P du dv, n.children = none ∧ ∃ i,
      (fun p : SPoint K W => p.uv = (U k, V r) ∧ p.point = surfPoint S (U k, V r) ∧ p.uMin = decide (r = 0) ∧
        p.uMax = decide (r = dv - 1) ∧ p.vMin = decide (k = 0) ∧ p.vMax = decide (k = du - 1)) (n.corners i) := by
    obtain ⟨n, hn, hc, i, hi⟩ := hgrid
    obtain ⟨f1, f2, f3, f4, -⟩ := g.flags r k hr hk
    exact ⟨n, hn, hc, i, by simp only [hi]; exact ⟨g.uv r k hr hk, g.point r k hr hk, f1, f2, f3, f4⟩⟩
  cases opts with
  | none =>
    obtain rfl := Except.ok.inj e
    exact hq
  | some o =>
    refine divideAll_corner (Q := fun p : SPoint K W => p.uv = (U k, V r) ∧ p.point = surfPoint S (U k, V r) ∧
        p.uMin = decide (r = 0) ∧ p.uMax = decide (r = dv - 1) ∧ p.vMin = decide (k = 0) ∧ p.vMax = decide (k = du - 1)) ?_ hq e
    rintro p q ⟨a1, a2, a3, a4, a5, a6⟩ b1 b2 b3 b4 b5 b6
    exact ⟨b1.trans a1, b2.trans a2, b3.trans a3, b5.trans a4, b4.trans a5, b6.trans a6⟩

theorem mem_sortedParameters {mn mx : Option (List K)} {l : List K} (h : mn = some l ∨ mx = some l) :
    ∃ l', sortedParameters mn mx = some l' ∧ ∀ x ∈ l, x ∈ l' := by
  match mn, mx with
  | none, none => simp at h
  | none, some ma =>
    rcases h with h | h
    · cases h
    · exact ⟨ma, rfl, by rw [Option.some.inj h]; exact fun x hx => hx⟩
  | some mi, none =>
    rcases h with h | h
    · exact ⟨mi, rfl, by rw [Option.some.inj h]; exact fun x hx => hx⟩
    · cases h
  | some mi, some ma =>
    obtain ⟨l', e, -, h2⟩ := C48_both_sides mi ma
    refine ⟨l', e, fun x hx => (h2 x).2 ?_⟩
    rcases h with h | h
    · exact .inl (by rw [Option.some.inj h]; exact hx)
    · exact .inr (by rw [Option.some.inj h]; exact hx)

/-- The parameters of the constraints are parameters of the grid. -/
theorem mem_grid {us : List K} (hus : us.Pairwise (· < ·)) {mn mx : Option (List K)}
    {lo hi : K} (hok : ∀ l, (mn = some l ∨ mx = some l) → l ≠ [] ∧ l.Pairwise (· < ·) ∧ ∀ x ∈ l, lo ≤ x ∧ x ≤ hi) {d : ℕ} {U : ℕ → K}
    (h : insertParams us (sortedParameters mn mx) = (List.range (d + 1)).map U) :
    (∀ l, (mn = some l ∨ mx = some l) → ∀ x ∈ l, ∃ k, k ≤ d ∧ U k = x) ∧ ∀ x ∈ us, ∃ k, k ≤ d ∧ U k = x := by
  have get : ∀ x, x ∈ insertParams us (sortedParameters mn mx) → ∃ k, k ≤ d ∧ U k = x := by
    intro x hx
    rw [h] at hx
    obtain ⟨k, hk, e⟩ := List.mem_map.1 hx
    exact ⟨k, by have := List.mem_range.1 hk; omega, e⟩
  constructor
  · intro l hl x hx
    obtain ⟨l', e, hl'⟩ := mem_sortedParameters hl
    apply get
    rw [e]
    exact ((C48_merge_strict hus (sortedParameters_ok hok l' e).1).2 x).2 (.inr (hl' x hx))
  · intro x hx
    apply get
    cases e : sortedParameters mn mx with
    | none => exact hx
    | some l' => exact ((C48_merge_strict hus (sortedParameters_ok hok l' e).1).2 x).2 (.inl hx)

theorem Vertices.get {t : Surface.Tessellation K W} {vs : List (SPoint K W)} (h : Vertices t vs) {i : ℕ} {x : K × K}
    (hx : t.uvs[i]? = some x) : ∃ q ∈ vs, q.uv = x ∧ t.normals[i]? = some q.normal ∧ t.points[i]? = some q.point := by
  obtain ⟨h1, h2, h3⟩ := h
  rw [h3, List.getElem?_map] at hx
  obtain ⟨q, hq, rfl⟩ := Option.map_eq_some_iff.1 hx
  refine ⟨q, List.mem_iff_getElem?.2 ⟨i, hq⟩, rfl, ?_, ?_⟩
  · rw [h2, List.getElem?_map, hq]; rfl
  · rw [h1, List.getElem?_map, hq]; rfl

/-! ### C96 -/

/-- The side `v = v_min` under a constraint: every vertex of the mesh on this side is at one of the given parameters (or at
    an end of the side that the constraint of an adjacent side asks for), and its normal is the cross product of the partial
    derivatives without normalisation.  No subdivision adds vertices on the side.  Holds with and without
    subdivision, for any constraints on the other sides, without a minimal depth. -/
theorem C96_v_min {M : Metric K W} {eps : K} {S : Surface K (W × K)} (h : S.Good eps)
    (hw : ∀ row ∈ S.cps, ∀ p ∈ row, 0 < p.2) (hd : GridDegrees S) {c : Constraints K} (hc : ConstraintsOK S c)
    {opts : Option (Options K)} (h0 : ∀ o, opts = some o → o.minDepth = 0) {dflt : Options K} {fuel : ℕ}
    {t : Surface.Tessellation K W} (e : tessellateSurface M eps fuel S (some c) opts dflt = .ok t)
    {l : List K} (hl : c.uAtVMin = some l) {i : ℕ} {x : K × K} (hx : t.uvs[i]? = some x) (hv : x.2 = S.vlo) :
    (x.1 ∈ l ∨ (x.1 = S.ulo ∧ ∃ l', c.vAtUMin = some l' ∧ S.vlo ∈ l') ∨ (x.1 = S.uhi ∧ ∃ l', c.vAtUMax = some l' ∧ S.vlo ∈ l')) ∧
      ∃ w, t.normals[i]? = some w ∧ CrossAt M eps S x w := by
  obtain ⟨U, V, P, du, dv, N, b, g, eN, eb, et⟩ := tessellate_inv h hw hd hc e
  have hm := g.marked_all h0 eN
  obtain ⟨b1, b2, b3, b4⟩ := boundaryEval_inv h eb
  obtain ⟨vs, hvs, h1, -⟩ := triangulateAll_vertices et
  obtain ⟨q, hq, rfl, hqn, -⟩ := hvs.get hx
  have hlt : S.vlo < S.vhi := by
    rw [← g.V0, ← g.Vd]
    exact lt_of_lt_of_le (g.V_lt 0 g.dv_pos) (mono_le g.V_lt g.dv_pos (le_refl _))
  have hbv : c.uAtVMin.isSome = true := by rw [hl]; rfl
  rcases h1 q hq with ⟨n, hn, j, hs⟩ | ⟨n, hn, hs, hin⟩
  · rcases snap_inv hs with ⟨-, ps, hps, hcl⟩ | ⟨hno, hs⟩
    · obtain ⟨l1, e1, u, hu, e2⟩ := b1.mem hps (closestPoint_inv hcl).1
      obtain ⟨e3, e4⟩ := evaluateBoundary_inv e2
      rw [hl] at e1
      obtain rfl := Option.some.inj e1
      exact ⟨.inl (by rw [e3]; exact hu), q.normal, hqn, by rw [e3]; exact e4⟩
    · have hne : (n.corners j).uv.2 ≠ S.vlo := by
        intro hc'
        have := ((hm n hn).flag_v hbv j hc').1
        rcases hno with hno | hno
        · rw [hno] at this; cases this
        · obtain ⟨ps, e1, -⟩ := b1.2 l hl
          rw [hno] at e1; cases e1
      rcases hs with ⟨-, ps, hps, hcl⟩ | ⟨-, hs⟩
      · obtain ⟨l1, e1, u, hu, e2⟩ := b2.mem hps (closestPoint_inv hcl).1
        obtain ⟨e3, e4⟩ := evaluateBoundary_inv e2
        rw [e3] at hv
        exact absurd hv hlt.ne'
      rcases hs with ⟨-, ps, hps, hcl⟩ | ⟨-, hs⟩
      · obtain ⟨l1, e1, u, hu, e2⟩ := b3.mem hps (closestPoint_inv hcl).1
        obtain ⟨e3, e4⟩ := evaluateBoundary_inv e2
        rw [e3] at hv
        replace hv : u = S.vlo := hv
        exact ⟨.inr (.inl ⟨by rw [e3], l1, e1, by rw [← hv]; exact hu⟩), q.normal, hqn, by rw [e3]; exact e4⟩
      rcases hs with ⟨-, ps, hps, hcl⟩ | ⟨-, rfl⟩
      · obtain ⟨l1, e1, u, hu, e2⟩ := b4.mem hps (closestPoint_inv hcl).1
        obtain ⟨e3, e4⟩ := evaluateBoundary_inv e2
        rw [e3] at hv
        replace hv : u = S.vlo := hv
        exact ⟨.inr (.inr ⟨by rw [e3], l1, e1, by rw [← hv]; exact hu⟩), q.normal, hqn, by rw [e3]; exact e4⟩
      · exact absurd hv hne
  · have := evaluateSurface_uv _ _ hs
    rw [this] at hv
    have h2 := (hm n hn).mid.2.2.1
    have h3 := (hm n hn).lo_v
    rw [hv] at h2
    exact absurd h2 (not_lt.2 h3)

/-- The side `u = u_min` under a constraint. -/
theorem C96_u_min {M : Metric K W} {eps : K} {S : Surface K (W × K)} (h : S.Good eps)
    (hw : ∀ row ∈ S.cps, ∀ p ∈ row, 0 < p.2) (hd : GridDegrees S) {c : Constraints K} (hc : ConstraintsOK S c)
    {opts : Option (Options K)} (h0 : ∀ o, opts = some o → o.minDepth = 0) {dflt : Options K} {fuel : ℕ}
    {t : Surface.Tessellation K W} (e : tessellateSurface M eps fuel S (some c) opts dflt = .ok t)
    {l : List K} (hl : c.vAtUMin = some l) {i : ℕ} {x : K × K} (hx : t.uvs[i]? = some x) (hv : x.1 = S.ulo) :
    (x.2 ∈ l ∨ (x.2 = S.vlo ∧ ∃ l', c.uAtVMin = some l' ∧ S.ulo ∈ l') ∨ (x.2 = S.vhi ∧ ∃ l', c.uAtVMax = some l' ∧ S.ulo ∈ l')) ∧
      ∃ w, t.normals[i]? = some w ∧ CrossAt M eps S x w := by
  obtain ⟨U, V, P, du, dv, N, b, g, eN, eb, et⟩ := tessellate_inv h hw hd hc e
  have hm := g.marked_all h0 eN
  obtain ⟨b1, b2, b3, b4⟩ := boundaryEval_inv h eb
  obtain ⟨vs, hvs, h1, -⟩ := triangulateAll_vertices et
  obtain ⟨q, hq, rfl, hqn, -⟩ := hvs.get hx
  have hlt : S.ulo < S.uhi := by
    rw [← g.U0, ← g.Ud]
    exact lt_of_lt_of_le (g.U_lt 0 g.du_pos) (mono_le g.U_lt g.du_pos (le_refl _))
  have hbu : c.vAtUMin.isSome = true := by rw [hl]; rfl
  rcases h1 q hq with ⟨n, hn, j, hs⟩ | ⟨n, hn, hs, hin⟩
  · rcases snap_inv hs with ⟨-, ps, hps, hcl⟩ | ⟨-, hs⟩
    · obtain ⟨l1, e1, u, hu, e2⟩ := b1.mem hps (closestPoint_inv hcl).1
      obtain ⟨e3, e4⟩ := evaluateBoundary_inv e2
      rw [e3] at hv
      replace hv : u = S.ulo := hv
      exact ⟨.inr (.inl ⟨by rw [e3], l1, e1, by rw [← hv]; exact hu⟩), q.normal, hqn, by rw [e3]; exact e4⟩
    rcases hs with ⟨-, ps, hps, hcl⟩ | ⟨-, hs⟩
    · obtain ⟨l1, e1, u, hu, e2⟩ := b2.mem hps (closestPoint_inv hcl).1
      obtain ⟨e3, e4⟩ := evaluateBoundary_inv e2
      rw [e3] at hv
      replace hv : u = S.ulo := hv
      exact ⟨.inr (.inr ⟨by rw [e3], l1, e1, by rw [← hv]; exact hu⟩), q.normal, hqn, by rw [e3]; exact e4⟩
    rcases hs with ⟨-, ps, hps, hcl⟩ | ⟨hno, hs⟩
    · obtain ⟨l1, e1, u, hu, e2⟩ := b3.mem hps (closestPoint_inv hcl).1
      obtain ⟨e3, e4⟩ := evaluateBoundary_inv e2
      rw [hl] at e1
      obtain rfl := Option.some.inj e1
      exact ⟨.inl (by rw [e3]; exact hu), q.normal, hqn, by rw [e3]; exact e4⟩
    rcases hs with ⟨-, ps, hps, hcl⟩ | ⟨-, rfl⟩
    · obtain ⟨l1, e1, u, hu, e2⟩ := b4.mem hps (closestPoint_inv hcl).1
      obtain ⟨e3, e4⟩ := evaluateBoundary_inv e2
      rw [e3] at hv
      exact absurd hv hlt.ne'
    · exfalso
      have := ((hm n hn).flag_u hbu j hv).1
      rcases hno with hno | hno
      · rw [hno] at this; cases this
      · obtain ⟨ps, e1, -⟩ := b3.2 l hl
        rw [hno] at e1; cases e1
  · have := evaluateSurface_uv _ _ hs
    rw [this] at hv
    have h2 := (hm n hn).mid.1
    have h3 := (hm n hn).lo_u
    rw [hv] at h2
    exact absurd h2 (not_lt.2 h3)

theorem closest_same {M : Metric K W} (hM : ∀ w : W, 0 ≤ M.normSq w ∧ (M.normSq w = 0 ↔ w = 0)) {p q r : SPoint K W}
    {ps : List (SPoint K W)} (hr : r ∈ ps) (hp : r.point = p.point) (h : closestPoint M p ps = .ok q) : q.point = p.point := by
  have := (closestPoint_inv h).2 r hr
  rw [hp, sub_self, (hM 0).2.2 rfl] at this
  exact sub_eq_zero.1 ((hM _).2.1 (le_antisymm this (hM _).1))

/-- Conversely the point of every given parameter is a vertex of the mesh: for the side `v = v_min` always, for the side
    `u = u_min` if the adjacent sides are not constrained. -/
theorem C96_complete {M : Metric K W} (hM : ∀ w : W, 0 ≤ M.normSq w ∧ (M.normSq w = 0 ↔ w = 0)) {eps : K}
    {S : Surface K (W × K)} (h : S.Good eps) (hw : ∀ row ∈ S.cps, ∀ p ∈ row, 0 < p.2) (hd : GridDegrees S) {c : Constraints K}
    (hc : ConstraintsOK S c) {opts : Option (Options K)} {dflt : Options K} {fuel : ℕ}
    {t : Surface.Tessellation K W} (e : tessellateSurface M eps fuel S (some c) opts dflt = .ok t) :
    (∀ l, c.uAtVMin = some l → ∀ u ∈ l, surfPoint S (u, S.vlo) ∈ t.points) ∧
    (∀ l, c.vAtUMin = some l → c.uAtVMin = none → c.uAtVMax = none → ∀ v ∈ l, surfPoint S (S.ulo, v) ∈ t.points) := by
  obtain ⟨U, V, P, du, dv, N, b, g, eN, eb, et⟩ := tessellate_inv h hw hd hc e
  obtain ⟨b1, b2, b3, b4⟩ := boundaryEval_inv h eb
  obtain ⟨vs, ⟨hvs, -⟩, -, h2⟩ := triangulateAll_vertices et
  have hbo : BoundaryOK (surfPoint S) (domRect S) b := by
    obtain ⟨b', e', hb'⟩ := boundaryEval_ok (M := M) h hw hc
    rw [eb] at e'
    rwa [Except.ok.inj e']
  obtain ⟨us, -, hus, lu⟩ := g.us
  obtain ⟨vs', -, hvs', lv⟩ := g.vs
  constructor
  · intro l hl u hu
    obtain ⟨k, hk, rfl⟩ := (mem_grid hus hc.1 lu).1 l (.inl hl) u hu
    obtain ⟨n, hn, hleaf, i, i1, i2, i3, -⟩ := g.leaf eN (Nat.zero_le _) hk
    obtain ⟨q, hq, hs⟩ := h2 n hn hleaf i
    rw [g.V0] at i1 i2
    rcases snap_inv hs with ⟨-, ps, hps, hcl⟩ | ⟨hno, -⟩
    · obtain ⟨ps', e1, e2⟩ := b1.2 l hl
      rw [hps] at e1
      obtain rfl := Option.some.inj e1
      obtain ⟨j, hj, hj'⟩ := List.getElem_of_mem hu
      have hj2 : j < ps.length := by rw [← e2.length_eq]; exact hj
      have e3 := e2.get hj hj2
      simp only [List.get_eq_getElem] at e3
      rw [hj'] at e3
      have hmem : ps[j] ∈ ps := List.getElem_mem hj2
      have hon := ((hbo ps (.inl hps)).2 _ hmem).1
      rw [(evaluateBoundary_inv e3).1] at hon
      have := closest_same hM hmem (hon.trans i2.symm) hcl
      rw [hvs, ← i2, ← this]
      exact List.mem_map.2 ⟨q, hq, rfl⟩
    · exfalso
      rcases hno with hno | hno
      · rw [i3] at hno; simp at hno
      · obtain ⟨ps, e1, -⟩ := b1.2 l hl
        rw [hno] at e1; cases e1
  · intro l hl n1 n2 v hv
    obtain ⟨r, hr, rfl⟩ := (mem_grid hvs' hc.2 lv).1 l (.inl hl) v hv
    obtain ⟨n, hn, hleaf, i, i1, i2, -, -, i3, -⟩ := g.leaf eN hr (Nat.zero_le _)
    obtain ⟨q, hq, hs⟩ := h2 n hn hleaf i
    rw [g.U0] at i1 i2
    rcases snap_inv hs with ⟨-, ps, hps, hcl⟩ | ⟨-, hs⟩
    · rw [b1.1 n1] at hps; cases hps
    rcases hs with ⟨-, ps, hps, hcl⟩ | ⟨-, hs⟩
    · rw [b2.1 n2] at hps; cases hps
    rcases hs with ⟨-, ps, hps, hcl⟩ | ⟨hno, -⟩
    · obtain ⟨ps', e1, e2⟩ := b3.2 l hl
      rw [hps] at e1
      obtain rfl := Option.some.inj e1
      obtain ⟨j, hj, hj'⟩ := List.getElem_of_mem hv
      have hj2 : j < ps.length := by rw [← e2.length_eq]; exact hj
      have e3 := e2.get hj hj2
      simp only [List.get_eq_getElem] at e3
      rw [hj'] at e3
      have hmem : ps[j] ∈ ps := List.getElem_mem hj2
      have hon := ((hbo ps (.inr (.inr (.inl hps)))).2 _ hmem).1
      rw [(evaluateBoundary_inv e3).1] at hon
      have := closest_same hM hmem (hon.trans i2.symm) hcl
      rw [hvs, ← i2, ← this]
      exact List.mem_map.2 ⟨q, hq, rfl⟩
    · exfalso
      rcases hno with hno | hno
      · rw [i3] at hno; simp at hno
      · obtain ⟨ps, e1, -⟩ := b3.2 l hl
        rw [hno] at e1; cases e1

/-- The side `v = v_max` under a constraint, without subdivision: the constraint moves the row of vertices before the last one
    onto the side instead of adjusting the vertices on it.  No vertex of the mesh is left in that row, the last row keeps
    all vertices of the grid, and every other row is not changed. -/
theorem C96_v_max {M : Metric K W} {eps : K} {S : Surface K (W × K)} (h : S.Good eps)
    (hw : ∀ row ∈ S.cps, ∀ p ∈ row, 0 < p.2) (hd : GridDegrees S) {l : List K}
    (hc : ConstraintsOK S { uAtVMax := some l }) {dflt : Options K} {fuel : ℕ} {t : Surface.Tessellation K W}
    (e : tessellateSurface M eps fuel S (some { uAtVMax := some l }) none dflt = .ok t) {us vs : List K}
    (hus : gridParams S.uDegree S.uKnots S.cps.length 1 dflt.minDivsU = .ok us)
    (hvs : gridParams S.vDegree S.vKnots S.cols 1 dflt.minDivsV = .ok vs) :
    (∀ x ∈ t.uvs, x.2 ∈ vs ∧ x.2 ≠ vs.getD (vs.length - 2) 0) ∧ ∀ u, (u ∈ us ∨ u ∈ l) → (u, S.vhi) ∈ t.uvs := by
  obtain ⟨U, V, P, du, dv, N, b, g, eN, eb, et⟩ := tessellate_inv h hw hd hc e
  obtain ⟨b1, b2, b3, b4⟩ := boundaryEval_inv h eb
  obtain ⟨vts, ⟨-, -, hvts⟩, h1, h2⟩ := triangulateAll_vertices et
  have hdv := g.dv_pos
  obtain ⟨vs', ev, -, lv⟩ := g.vs
  rw [show Option.getD none dflt = dflt from rfl, hvs] at ev
  obtain rfl := Except.ok.inj ev
  replace lv : vs = (List.range (dv + 1)).map V := lv
  have hlen : vs.length = dv + 1 := by rw [lv]; simp
  have hget : vs.getD (vs.length - 2) 0 = V (dv - 1) := by
    rw [hlen, show dv + 1 - 2 = dv - 1 by omega, lv, List.getD_eq_getElem?_getD, List.getElem?_map,
      List.getElem?_range (by omega)]
    rfl
  have hV : ∀ r, r ≤ dv → V r ∈ vs := fun r hr => by
    rw [lv]
    exact List.mem_map.2 ⟨r, List.mem_range.2 (by omega), rfl⟩
  have hNN : N = cellNodes P du dv := (Except.ok.inj eN).symm
  subst hNN
  constructor
  · intro x hx
    rw [hvts] at hx
    obtain ⟨q, hq, rfl⟩ := List.mem_map.1 hx
    rw [hget]
    rcases h1 q hq with ⟨n, hn, j, hs⟩ | ⟨n, hn, hs, hin⟩
    · simp only [cellNodes, List.mem_flatMap, List.mem_map, List.mem_range] at hn
      obtain ⟨iv, hiv, iu, hiu, rfl⟩ := hn
      have corner : ∃ r k, r ≤ dv ∧ k ≤ du ∧ (cellNode P du dv iv iu).corners j = P r k := by
        fin_cases j
        · exact ⟨dv - iv - 1, iu, by omega, by omega, rfl⟩
        · exact ⟨dv - iv - 1, iu + 1, by omega, by omega, rfl⟩
        · exact ⟨dv - iv, iu + 1, by omega, by omega, rfl⟩
        · exact ⟨dv - iv, iu, by omega, by omega, rfl⟩
      obtain ⟨r, k, hr, hk, ec⟩ := corner
      rw [ec] at hs
      rcases snap_inv hs with ⟨-, ps, hps, hcl⟩ | ⟨-, hs⟩
      · rw [b1.1 rfl] at hps; cases hps
      rcases hs with ⟨-, ps, hps, hcl⟩ | ⟨hno, hs⟩
      · obtain ⟨l1, e1, u, hu, e2⟩ := b2.mem hps (closestPoint_inv hcl).1
        rw [(evaluateBoundary_inv e2).1]
        show S.vhi ∈ vs ∧ S.vhi ≠ V (dv - 1)
        rw [← g.Vd]
        refine ⟨hV dv (le_refl _), fun hc => ?_⟩
        have := mono_inj g.V_lt (le_refl _) (by omega) hc
        omega
      rcases hs with ⟨-, ps, hps, hcl⟩ | ⟨-, hs⟩
      · rw [b3.1 rfl] at hps; cases hps
      rcases hs with ⟨-, ps, hps, hcl⟩ | ⟨-, rfl⟩
      · rw [b4.1 rfl] at hps; cases hps
      · rw [g.uv r k hr hk]
        show V r ∈ vs ∧ V r ≠ V (dv - 1)
        refine ⟨hV r hr, fun hc => ?_⟩
        have hrr := mono_inj g.V_lt hr (by omega) hc
        rcases hno with hno | hno
        · rw [(g.flags r k hr hk).2.1, hrr] at hno
          simp at hno
        · obtain ⟨ps, e1, -⟩ := b2.2 l rfl
          rw [hno] at e1; cases e1
    · exfalso
      have box : ∀ m ∈ cellNodes P du dv, ∀ i, ∃ r k, r ≤ dv ∧ k ≤ du ∧ (m.corners i).uv = (U k, V r) := by
        intro m hm i
        simp only [cellNodes, List.mem_flatMap, List.mem_map, List.mem_range] at hm
        obtain ⟨iv, hiv, iu, hiu, rfl⟩ := hm
        fin_cases i
        · exact ⟨dv - iv - 1, iu, by omega, by omega, g.uv _ _ (by omega) (by omega)⟩
        · exact ⟨dv - iv - 1, iu + 1, by omega, by omega, g.uv _ _ (by omega) (by omega)⟩
        · exact ⟨dv - iv, iu + 1, by omega, by omega, g.uv _ _ (by omega) (by omega)⟩
        · exact ⟨dv - iv, iu, by omega, by omega, g.uv _ _ (by omega) (by omega)⟩
      obtain ⟨e, m, hm, i, c1, c2⟩ := hin
      obtain ⟨r, k, hr, hk, ec⟩ := box m hm i
      simp only [cellNodes, List.mem_flatMap, List.mem_map, List.mem_range] at hn
      obtain ⟨iv, hiv, iu, hiu, rfl⟩ := hn
      have a0 : ((cellNode P du dv iv iu).corners 0).uv = (U iu, V (dv - iv - 1)) := g.uv _ _ (by omega) (by omega)
      have a2 : ((cellNode P du dv iv iu).corners 2).uv = (U (iu + 1), V (dv - iv)) := g.uv _ _ (by omega) (by omega)
      rw [ec, a0] at c1
      rw [ec, a2] at c2
      have he := h.u_good.eps_nonneg
      have between : ∀ {X : ℕ → K} {d a x : ℕ}, (∀ i, i < d → X i < X (i + 1)) → a < d → x ≤ d → X a + eps < X x →
          X x < X (a + 1) - eps → False := by
        intro X d a x hX ha hx d1 d2
        rcases Nat.lt_or_ge a x with hax | hax
        · have := mono_le hX (show a + 1 ≤ x by omega) hx
          linarith
        · have := mono_le hX hax (by omega)
          linarith
      rcases Nat.mod_two_eq_zero_or_one e.val with h2 | h2
      · rw [h2] at c1 c2
        exact between g.U_lt hiu hk c1 c2
      · rw [h2] at c1 c2
        refine between g.V_lt (show dv - iv - 1 < dv by omega) hr c1 ?_
        rw [show dv - iv - 1 + 1 = dv - iv by omega]
        exact c2
  · intro u hu
    obtain ⟨us', eu, hus', lu⟩ := g.us
    rw [show Option.getD none dflt = dflt from rfl, hus] at eu
    obtain rfl := Except.ok.inj eu
    obtain ⟨k, hk, rfl⟩ : ∃ k, k ≤ du ∧ U k = u := by
      rcases hu with hu | hu
      · exact (mem_grid hus' hc.1 lu).2 u hu
      · exact (mem_grid hus' hc.1 lu).1 l (.inr rfl) u hu
    obtain ⟨n, hn, hleaf, i, i1, i2, i3, i4, -⟩ := g.leaf eN (le_refl dv) hk
    obtain ⟨q, hq, hs⟩ := h2 n hn hleaf i
    rcases snap_inv hs with ⟨-, ps, hps, hcl⟩ | ⟨-, hs⟩
    · rw [b1.1 rfl] at hps; cases hps
    rcases hs with ⟨hyes, ps, hps, hcl⟩ | ⟨-, hs⟩
    · rw [i4] at hyes
      have := of_decide_eq_true hyes
      omega
    rcases hs with ⟨-, ps, hps, hcl⟩ | ⟨-, hs⟩
    · rw [b3.1 rfl] at hps; cases hps
    rcases hs with ⟨-, ps, hps, hcl⟩ | ⟨-, rfl⟩
    · rw [b4.1 rfl] at hps; cases hps
    · rw [hvts]
      exact List.mem_map.2 ⟨_, hq, by rw [i1, g.Vd]⟩

/-- The side `u = u_max` under a constraint, without subdivision: likewise the column before the last one is moved. -/
theorem C96_u_max {M : Metric K W} {eps : K} {S : Surface K (W × K)} (h : S.Good eps)
    (hw : ∀ row ∈ S.cps, ∀ p ∈ row, 0 < p.2) (hd : GridDegrees S) {l : List K}
    (hc : ConstraintsOK S { vAtUMax := some l }) {dflt : Options K} {fuel : ℕ} {t : Surface.Tessellation K W}
    (e : tessellateSurface M eps fuel S (some { vAtUMax := some l }) none dflt = .ok t) {us vs : List K}
    (hus : gridParams S.uDegree S.uKnots S.cps.length 1 dflt.minDivsU = .ok us)
    (hvs : gridParams S.vDegree S.vKnots S.cols 1 dflt.minDivsV = .ok vs) :
    (∀ x ∈ t.uvs, x.1 ∈ us ∧ x.1 ≠ us.getD (us.length - 2) 0) ∧ ∀ v, (v ∈ vs ∨ v ∈ l) → (S.uhi, v) ∈ t.uvs := by
  obtain ⟨U, V, P, du, dv, N, b, g, eN, eb, et⟩ := tessellate_inv h hw hd hc e
  obtain ⟨b1, b2, b3, b4⟩ := boundaryEval_inv h eb
  obtain ⟨vts, ⟨-, -, hvts⟩, h1, h2⟩ := triangulateAll_vertices et
  have hdu := g.du_pos
  obtain ⟨us', eu, -, lu⟩ := g.us
  rw [show Option.getD none dflt = dflt from rfl, hus] at eu
  obtain rfl := Except.ok.inj eu
  replace lu : us = (List.range (du + 1)).map U := lu
  have hlen : us.length = du + 1 := by rw [lu]; simp
  have hget : us.getD (us.length - 2) 0 = U (du - 1) := by
    rw [hlen, show du + 1 - 2 = du - 1 by omega, lu, List.getD_eq_getElem?_getD, List.getElem?_map,
      List.getElem?_range (by omega)]
    rfl
  have hV : ∀ r, r ≤ du → U r ∈ us := fun r hr => by
    rw [lu]
    exact List.mem_map.2 ⟨r, List.mem_range.2 (by omega), rfl⟩
  have hNN : N = cellNodes P du dv := (Except.ok.inj eN).symm
  subst hNN
  constructor
  · intro x hx
    rw [hvts] at hx
    obtain ⟨q, hq, rfl⟩ := List.mem_map.1 hx
    rw [hget]
    rcases h1 q hq with ⟨n, hn, j, hs⟩ | ⟨n, hn, hs, hin⟩
    · simp only [cellNodes, List.mem_flatMap, List.mem_map, List.mem_range] at hn
      obtain ⟨iv, hiv, iu, hiu, rfl⟩ := hn
      have corner : ∃ r k, r ≤ dv ∧ k ≤ du ∧ (cellNode P du dv iv iu).corners j = P r k := by
        fin_cases j
        · exact ⟨dv - iv - 1, iu, by omega, by omega, rfl⟩
        · exact ⟨dv - iv - 1, iu + 1, by omega, by omega, rfl⟩
        · exact ⟨dv - iv, iu + 1, by omega, by omega, rfl⟩
        · exact ⟨dv - iv, iu, by omega, by omega, rfl⟩
      obtain ⟨r, k, hr, hk, ec⟩ := corner
      rw [ec] at hs
      rcases snap_inv hs with ⟨-, ps, hps, hcl⟩ | ⟨-, hs⟩
      · rw [b1.1 rfl] at hps; cases hps
      rcases hs with ⟨-, ps, hps, hcl⟩ | ⟨-, hs⟩
      · rw [b2.1 rfl] at hps; cases hps
      rcases hs with ⟨-, ps, hps, hcl⟩ | ⟨-, hs⟩
      · rw [b3.1 rfl] at hps; cases hps
      rcases hs with ⟨-, ps, hps, hcl⟩ | ⟨hno, rfl⟩
      · obtain ⟨l1, e1, u, hu, e2⟩ := b4.mem hps (closestPoint_inv hcl).1
        rw [(evaluateBoundary_inv e2).1]
        show S.uhi ∈ us ∧ S.uhi ≠ U (du - 1)
        rw [← g.Ud]
        refine ⟨hV du (le_refl _), fun hc => ?_⟩
        have := mono_inj g.U_lt (le_refl _) (by omega) hc
        omega
      · rw [g.uv r k hr hk]
        show U k ∈ us ∧ U k ≠ U (du - 1)
        refine ⟨hV k hk, fun hc => ?_⟩
        have hrr := mono_inj g.U_lt hk (by omega) hc
        rcases hno with hno | hno
        · rw [(g.flags r k hr hk).2.2.2.1, hrr] at hno
          simp at hno
        · obtain ⟨ps, e1, -⟩ := b4.2 l rfl
          rw [hno] at e1; cases e1
    · exfalso
      have box : ∀ m ∈ cellNodes P du dv, ∀ i, ∃ r k, r ≤ dv ∧ k ≤ du ∧ (m.corners i).uv = (U k, V r) := by
        intro m hm i
        simp only [cellNodes, List.mem_flatMap, List.mem_map, List.mem_range] at hm
        obtain ⟨iv, hiv, iu, hiu, rfl⟩ := hm
        fin_cases i
        · exact ⟨dv - iv - 1, iu, by omega, by omega, g.uv _ _ (by omega) (by omega)⟩
        · exact ⟨dv - iv - 1, iu + 1, by omega, by omega, g.uv _ _ (by omega) (by omega)⟩
        · exact ⟨dv - iv, iu + 1, by omega, by omega, g.uv _ _ (by omega) (by omega)⟩
        · exact ⟨dv - iv, iu, by omega, by omega, g.uv _ _ (by omega) (by omega)⟩
      obtain ⟨e, m, hm, i, c1, c2⟩ := hin
      obtain ⟨r, k, hr, hk, ec⟩ := box m hm i
      simp only [cellNodes, List.mem_flatMap, List.mem_map, List.mem_range] at hn
      obtain ⟨iv, hiv, iu, hiu, rfl⟩ := hn
      have a0 : ((cellNode P du dv iv iu).corners 0).uv = (U iu, V (dv - iv - 1)) := g.uv _ _ (by omega) (by omega)
      have a2 : ((cellNode P du dv iv iu).corners 2).uv = (U (iu + 1), V (dv - iv)) := g.uv _ _ (by omega) (by omega)
      rw [ec, a0] at c1
      rw [ec, a2] at c2
      have he := h.u_good.eps_nonneg
      have between : ∀ {X : ℕ → K} {d a x : ℕ}, (∀ i, i < d → X i < X (i + 1)) → a < d → x ≤ d → X a + eps < X x →
          X x < X (a + 1) - eps → False := by
        intro X d a x hX ha hx d1 d2
        rcases Nat.lt_or_ge a x with hax | hax
        · have := mono_le hX (show a + 1 ≤ x by omega) hx
          linarith
        · have := mono_le hX hax (by omega)
          linarith
      rcases Nat.mod_two_eq_zero_or_one e.val with h2 | h2
      · rw [h2] at c1 c2
        exact between g.U_lt hiu hk c1 c2
      · rw [h2] at c1 c2
        refine between g.V_lt (show dv - iv - 1 < dv by omega) hr c1 ?_
        rw [show dv - iv - 1 + 1 = dv - iv by omega]
        exact c2
  · intro v hv
    obtain ⟨vs', ev, hvs', lv⟩ := g.vs
    rw [show Option.getD none dflt = dflt from rfl, hvs] at ev
    obtain rfl := Except.ok.inj ev
    obtain ⟨r, hr, rfl⟩ : ∃ r, r ≤ dv ∧ V r = v := by
      rcases hv with hv | hv
      · exact (mem_grid hvs' hc.2 lv).2 v hv
      · exact (mem_grid hvs' hc.2 lv).1 l (.inr rfl) v hv
    obtain ⟨n, hn, hleaf, i, i1, i2, i3, i4, i5, i6⟩ := g.leaf eN hr (le_refl du)
    obtain ⟨q, hq, hs⟩ := h2 n hn hleaf i
    rcases snap_inv hs with ⟨-, ps, hps, hcl⟩ | ⟨-, hs⟩
    · rw [b1.1 rfl] at hps; cases hps
    rcases hs with ⟨-, ps, hps, hcl⟩ | ⟨-, hs⟩
    · rw [b2.1 rfl] at hps; cases hps
    rcases hs with ⟨-, ps, hps, hcl⟩ | ⟨-, hs⟩
    · rw [b3.1 rfl] at hps; cases hps
    rcases hs with ⟨hyes, ps, hps, hcl⟩ | ⟨-, rfl⟩
    · rw [i6] at hyes
      have := of_decide_eq_true hyes
      omega
    · rw [hvts]
      exact List.mem_map.2 ⟨_, hq, by rw [i1, g.Ud]⟩

/-- A surface with one row of cells, like a ruled surface or an extrusion: a constraint on the side `v = v_max` collapses
    the whole mesh onto that side. -/
theorem C96_collapse {M : Metric K W} {eps : K} {S : Surface K (W × K)} (h : S.Good eps)
    (hw : ∀ row ∈ S.cps, ∀ p ∈ row, 0 < p.2) (hd : GridDegrees S) (hdeg : S.vDegree = 1) (hcols : S.cols = 2) {l : List K}
    (hc : ConstraintsOK S { uAtVMax := some l }) {dflt : Options K} {fuel : ℕ} {t : Surface.Tessellation K W}
    (e : tessellateSurface M eps fuel S (some { uAtVMax := some l }) none dflt = .ok t) :
    (∀ x ∈ t.uvs, x.2 = S.vhi) ∧ ∀ p ∈ t.points, ∃ u, p = surfPoint S (u, S.vhi) := by
  obtain ⟨U, V, P, du, dv, N, b, g, -⟩ := tessellate_inv h hw hd hc e
  obtain ⟨us, eu, -⟩ := g.us
  obtain ⟨vs, ev, -⟩ := g.vs
  have h1 := (C96_v_max h hw hd hc e eu ev).1
  have hlen : S.vKnots.length = 4 := by
    have := h.v_len
    omega
  have hall : ∀ x ∈ t.uvs, x.2 = S.vhi := by
    intro x hx
    obtain ⟨m, ne⟩ := h1 x hx
    rw [hdeg, gridParams, if_pos (le_refl 1), hlen, subR_eq_ok (by omega), ok_bind] at ev
    obtain rfl := Except.ok.inj ev
    rcases hk : S.vKnots with _ | ⟨k0, _ | ⟨k1, _ | ⟨k2, _ | ⟨k3, _ | ⟨k4, ks⟩⟩⟩⟩⟩
    all_goals rw [hk] at hlen m ne
    all_goals simp at hlen
    simp at m ne
    have : S.vhi = k2 := by
      show kf S.vKnots S.cols = k2
      rw [hk, hcols]
      rfl
    rw [this]
    exact m.resolve_left ne
  refine ⟨hall, ?_⟩
  obtain ⟨t', et, ht⟩ := C45_mesh_valid (M := M) h hw hd (some { uAtVMax := some l })
    (fun cs hcs => by rw [← Option.some.inj hcs]; exact hc) none dflt
  rw [et fuel (by simp)] at e
  obtain rfl := Except.ok.inj e
  intro p hp
  rw [ht.points] at hp
  obtain ⟨x, hx, rfl⟩ := List.mem_map.1 hp
  exact ⟨x.1, by rw [← hall x hx]⟩

end surface

/-! ### Witnesses -/

/-- Constraints on the lower sides of the sheet. -/
def exLower : Constraints ℚ := { uAtVMin := some [0, 1/2, 2], vAtUMin := some [0, 1/3, 1] }

theorem exLower_ok : ConstraintsOK exSheet exLower := by
  constructor
  · rintro l (hl | hl)
    · obtain rfl := Option.some.inj hl
      exact ⟨by simp, by decide +kernel, by decide +kernel⟩
    · cases hl
  · rintro l (hl | hl)
    · obtain rfl := Option.some.inj hl
      exact ⟨by simp, by decide +kernel, by decide +kernel⟩
    · cases hl

/-- A constraint on an upper side of the sheet. -/
def exUpper : Constraints ℚ := { uAtVMax := some [0, 1/2, 2] }

theorem exUpper_ok : ConstraintsOK exSheet exUpper := by
  constructor
  · rintro l (hl | hl)
    · cases hl
    · obtain rfl := Option.some.inj hl
      exact ⟨by simp, by decide +kernel, by decide +kernel⟩
  · rintro l (hl | hl) <;> cases hl

def exUpperU : Constraints ℚ := { vAtUMax := some [0, 1/2, 1] }

theorem exUpperU_ok : ConstraintsOK exSheet exUpperU := by
  constructor
  · rintro l (hl | hl) <;> cases hl
  · rintro l (hl | hl)
    · cases hl
    · obtain rfl := Option.some.inj hl
      exact ⟨by simp, by decide +kernel, by decide +kernel⟩

theorem spaceMetric_norm (w : ℚ × ℚ × ℚ) : 0 ≤ spaceMetric.normSq w ∧ (spaceMetric.normSq w = 0 ↔ w = 0) := by
  obtain ⟨a, b, c⟩ := w
  show 0 ≤ a * a + b * b + c * c ∧ (a * a + b * b + c * c = 0 ↔ (a, b, c) = 0)
  refine ⟨by nlinarith [mul_self_nonneg a, mul_self_nonneg b, mul_self_nonneg c], ?_⟩
  constructor
  · intro h
    have ha : a * a = 0 := by nlinarith [mul_self_nonneg a, mul_self_nonneg b, mul_self_nonneg c]
    have hb : b * b = 0 := by nlinarith [mul_self_nonneg a, mul_self_nonneg b, mul_self_nonneg c]
    have hc : c * c = 0 := by nlinarith [mul_self_nonneg a, mul_self_nonneg b, mul_self_nonneg c]
    rw [mul_self_eq_zero.1 ha, mul_self_eq_zero.1 hb, mul_self_eq_zero.1 hc]
    rfl
  · intro h
    have h1 : a = 0 := congrArg Prod.fst h
    have h2 : b = 0 := congrArg (fun p => p.2.1) h
    have h3 : c = 0 := congrArg (fun p => p.2.2) h
    rw [h1, h2, h3]
    norm_num

/-- The hypotheses of the theorems hold for the sheet: the constrained tessellation succeeds, with subdivision, and has
    vertices on both lower sides. -/
example (o : Options ℚ) (h0 : o.minDepth = 0) : ∃ t, tessellateSurface spaceMetric (1/1000) (o.maxDepth + 1) exSheet (some exLower)
    (some o) o = .ok t ∧ surfPoint exSheet (1/2, 0) ∈ t.points ∧
    ∀ (i : ℕ) (x : ℚ × ℚ), t.uvs[i]? = some x → x.2 = 0 → x.1 ∈ [0, 1/2, 2] ∨ x.1 = 0 := by
  obtain ⟨t, et, -⟩ := C45_mesh_valid (M := spaceMetric) exSheet_good exSheet_weights exSheet_degrees (some exLower)
    (fun cs h => by rw [← Option.some.inj h]; exact exLower_ok) (some o) o
  have e := et (o.maxDepth + 1) (fun o' h => by rw [← Option.some.inj h, h0]; simp)
  refine ⟨t, e, ?_, ?_⟩
  · exact (C96_complete spaceMetric_norm exSheet_good exSheet_weights exSheet_degrees exLower_ok e).1 _ rfl (1/2) (by simp)
  · intro i x hx hv
    rcases (C96_v_min exSheet_good exSheet_weights exSheet_degrees exLower_ok
      (fun o' h => by rw [← Option.some.inj h]; exact h0) e rfl hx hv).1 with h | h | ⟨-, l, h, -⟩
    · exact .inl h
    · exact .inr h.1
    · cases h

example (o : Options ℚ) : ∃ t, tessellateSurface spaceMetric (1/1000) 0 exSheet (some exUpper) none o = .ok t ∧
    ∀ x ∈ t.uvs, x.2 = 1 := by
  obtain ⟨t, et, -⟩ := C45_mesh_valid (M := spaceMetric) exSheet_good exSheet_weights exSheet_degrees (some exUpper)
    (fun cs h => by rw [← Option.some.inj h]; exact exUpper_ok) none o
  have e := et 0 (by simp)
  exact ⟨t, e, (C96_collapse exSheet_good exSheet_weights exSheet_degrees rfl rfl exUpper_ok e).1⟩

example (o : Options ℚ) : ∃ t, tessellateSurface spaceMetric (1/1000) 0 exSheet (some exUpperU) none o = .ok t ∧
    (∀ x ∈ t.uvs, x.1 ≠ 1) ∧ (2, 1) ∈ t.uvs := by
  obtain ⟨t, et, -⟩ := C45_mesh_valid (M := spaceMetric) exSheet_good exSheet_weights exSheet_degrees (some exUpperU)
    (fun cs h => by rw [← Option.some.inj h]; exact exUpperU_ok) none o
  have e := et 0 (by simp)
  obtain ⟨a, b⟩ := C96_u_max exSheet_good exSheet_weights exSheet_degrees exUpperU_ok e (us := [0, 1, 2]) (vs := [0, 1]) rfl rfl
  exact ⟨t, e, fun x hx => (a x hx).2, b 1 (by simp)⟩

/-- The vertices of constrained sides carry normals that are not of length one, whatever the normalisation of the other
    vertices: on the sheet the squared length at the parameter `(1/2, 0)` is `5/4`. -/
theorem C96_normals_not_unit (nrm : ℚ × ℚ × ℚ → ℚ × ℚ × ℚ) {opts : Option (Options ℚ)}
    (h0 : ∀ o, opts = some o → o.minDepth = 0) {dflt : Options ℚ} {fuel : ℕ} {t : Surface.Tessellation ℚ (ℚ × ℚ × ℚ)}
    (e : tessellateSurface { spaceMetric with normalize := nrm } (1/1000) fuel exSheet (some exLower) opts dflt = .ok t)
    {i : ℕ} (hi : t.uvs[i]? = some (1/2, 0)) : ∃ w, t.normals[i]? = some w ∧ spaceMetric.normSq w = 5/4 := by
  obtain ⟨-, w, hw, d, a, b, e1, e2, e3, rfl⟩ := C96_v_min exSheet_good exSheet_weights exSheet_degrees exLower_ok h0 e rfl hi rfl
  refine ⟨_, hw, ?_⟩
  have hder : exSheet.rationalDerivatives (1/1000) (1/2) 0 1 = .ok [[(1/2, 0, 0), (0, 1, 1/2)], [(1, 0, 0)]] := by decide +kernel
  rw [hder] at e1
  obtain rfl := Except.ok.inj e1
  obtain rfl := Except.ok.inj e2
  obtain rfl := Except.ok.inj e3
  show spaceMetric.normSq (spaceMetric.cross (1, 0, 0) (0, 1, 1/2)) = 5/4
  decide +kernel

/-- With a minimal depth the subdivision does add vertices on a constrained side: here `(1/4, 0)`. -/
theorem C96_min_depth : ∃ t, tessellateSurface spaceMetric (1/1000) 3 exSheet (some exLower)
      (some { normTolerance := 1/100, minDepth := 1, maxDepth := 1 }) { normTolerance := 1/100 } = .ok t ∧
    (1/4, 0) ∈ t.uvs ∧ (1/4 : ℚ) ∉ [0, 1/2, 2] := by
  have h : (tessellateSurface spaceMetric (1/1000) 3 exSheet (some exLower)
      (some { normTolerance := 1/100, minDepth := 1, maxDepth := 1 }) { normTolerance := 1/100 }).map
      (fun t => decide ((1/4, 0) ∈ t.uvs)) = .ok true := by decide +kernel
  cases ht : tessellateSurface spaceMetric (1/1000) 3 exSheet (some exLower)
      (some { normTolerance := 1/100, minDepth := 1, maxDepth := 1 }) { normTolerance := 1/100 } with
  | error e => rw [ht] at h; cases h
  | ok t =>
    rw [ht] at h
    exact ⟨t, rfl, of_decide_eq_true (Except.ok.inj h), by decide +kernel⟩

end Curvo.Props

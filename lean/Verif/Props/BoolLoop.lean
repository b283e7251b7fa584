/-
  C87: a closed ring of spans, given in any order and orientation, is put together again by `CompoundCurve::new`.
-/
import Mathlib.Data.List.Perm.Basic
import Verif.Props.CompoundChain

set_option linter.unusedSectionVars false

namespace Curvo.Props

open Curvo.Knots Curvo.Spec Curvo.Curve Curvo.Compound

variable {K : Type} [Field K] [LinearOrder K] [IsStrictOrderedRing K]
variable {W : Type} [AddCommGroup W] [Module K W] {L : Type}

/-- A curve that evaluates, is continuous, and whose domain is the range of its knots. -/
structure Whole (eps : K) (c : Curve K (W × K)) : Prop where
  fine : Fine eps c
  cont : ContKnots (kf c.knots) c.degree (c.cps.length - 1)
  full : FullDomain c

/-- A span of a ring, walked forward or backward, with names of the places where it starts and ends. -/
structure Edge (K W L : Type) where
  curve : Curve K (W × K)
  fwd : Bool
  src : L
  dst : L

/-- The same span walked in the other direction. -/
def Edge.flip (e : Edge K W L) : Edge K W L := ⟨e.curve, !e.fwd, e.dst, e.src⟩

/-- Each span ends where the next one starts, cyclically. -/
def Ring (l : List (Edge K W L)) : Prop :=
  l.IsChain (fun e f => e.dst = f.src) ∧ ∀ e ∈ l.getLast?, ∀ f ∈ l.head?, e.dst = f.src

/-- The ends of a span are within `δ` of the places. -/
def Edge.Near (dist : W → W → K) (pos : L → W) (δ : K) (e : Edge K W L) : Prop :=
  dist (startPt e.curve) (pos (if e.fwd then e.src else e.dst)) ≤ δ ∧ dist (stopPt e.curve) (pos (if e.fwd then e.dst else e.src)) ≤ δ

/-! ### Rings -/

theorem Ring.rotate {l m : List (Edge K W L)} (h : Ring (l ++ m)) : Ring (m ++ l) := by
  rcases l.eq_nil_or_concat with rfl | ⟨l', x, rfl⟩
  · simpa using h
  rcases m with - | ⟨y, m⟩
  · simpa using h
  obtain ⟨h1, h2⟩ := h
  rw [List.concat_eq_append] at *
  rw [List.isChain_append] at h1
  obtain ⟨a, b, c⟩ := h1
  refine ⟨?_, ?_⟩
  · rw [List.isChain_append]
    refine ⟨b, a, ?_⟩
    intro e he f hf
    apply h2
    · rw [List.getLast?_append]
      rw [Option.mem_def] at he
      rw [he]; rfl
    · rw [Option.mem_def] at hf
      simp only [List.head?_append, Option.mem_def]
      simp only [List.head?_append] at hf
      rw [hf]; rfl
  · intro e he f hf
    apply c
    · rw [← List.append_assoc, List.getLast?_concat] at he
      rw [List.getLast?_concat]
      exact he
    · rw [List.cons_append, List.head?_cons] at hf
      exact hf

theorem Ring.reverse {l : List (Edge K W L)} (h : Ring l) : Ring (l.reverse.map Edge.flip) := by
  obtain ⟨h1, h2⟩ := h
  constructor
  · rw [List.isChain_map, List.isChain_reverse]
    exact h1.imp fun a b h => h.symm
  · intro e he f hf
    simp only [List.getLast?_map, List.getLast?_reverse, Option.mem_def, Option.map_eq_some_iff] at he
    simp only [List.head?_map, List.head?_reverse, Option.mem_def, Option.map_eq_some_iff] at hf
    obtain ⟨e', he', rfl⟩ := he
    obtain ⟨f', hf', rfl⟩ := hf
    exact (h2 f' hf' e' he').symm

theorem chain_dst : ∀ (l : List (Edge K W L)) (e : Edge K W L), (e :: l).IsChain (fun e f => e.dst = f.src) →
    (e :: l).map Edge.dst = l.map Edge.src ++ [((e :: l).getLast (by simp)).dst]
  | [], e, _ => rfl
  | f :: l, e, h => by
    rw [List.isChain_cons_cons] at h
    rw [List.map_cons, chain_dst l f h.2, h.1]
    rfl

theorem Ring.dst_perm {l : List (Edge K W L)} (h : Ring l) : (l.map Edge.dst).Perm (l.map Edge.src) := by
  cases l with
  | nil => exact .refl _
  | cons e l =>
    rw [chain_dst l e h.1, h.2 ((e :: l).getLast (by simp)) (List.getLast?_eq_some_getLast _) e rfl, List.map_cons]
    exact List.perm_append_singleton _ _

theorem Edge.flip_near {dist : W → W → K} {pos : L → W} {δ : K} {e : Edge K W L} (h : e.Near dist pos δ) :
    e.flip.Near dist pos δ := by
  obtain ⟨h1, h2⟩ := h
  obtain ⟨c, f, s, d⟩ := e
  cases f
  · exact ⟨h1, h2⟩
  · exact ⟨h1, h2⟩

/-- The span in the direction in which it is walked. -/
def Edge.orient (e : Edge K W L) : Curve K (W × K) :=
  if e.fwd then e.curve else match e.curve.invert with | .ok c => c | .error _ => e.curve

theorem Edge.orient_spec {eps : K} {e : Edge K W L} (h : Whole eps e.curve) :
    Oriented e.curve e.orient ∧ startPt e.orient = (if e.fwd then startPt e.curve else stopPt e.curve) ∧
      stopPt e.orient = (if e.fwd then stopPt e.curve else startPt e.curve) := by
  unfold Edge.orient
  cases e.fwd
  · obtain ⟨c', hc, -, h1, h2⟩ := invert_ends h.fine h.cont
    rw [hc]
    exact ⟨.inr hc, h1, h2⟩
  · exact ⟨.inl rfl, rfl, rfl⟩

theorem isEnd_label {dist : W → W → K} {pos : L → W} {δ : K} {e : Edge K W L} (h : e.Near dist pos δ) {x : W}
    (hx : IsEnd e.curve x) : ∃ ℓ, (ℓ = e.src ∨ ℓ = e.dst) ∧ dist x (pos ℓ) ≤ δ := by
  obtain ⟨h1, h2⟩ := h
  rcases hx with rfl | rfl
  · refine ⟨_, ?_, h1⟩
    cases e.fwd <;> simp
  · refine ⟨_, ?_, h2⟩
    cases e.fwd <;> simp

theorem perm_map_exists {α β : Type} (f : α → β) {l : List β} {m : List α} (h : l.Perm (m.map f)) :
    ∃ m' : List α, m'.Perm m ∧ l = m'.map f := by
  obtain ⟨m', h1, h2⟩ := List.perm_comp_forall₂ (r := fun b a => b = f a) h (by
    rw [List.forall₂_map_left_iff]
    exact List.forall₂_same.2 fun _ _ => rfl)
  refine ⟨m', h2, ?_⟩
  rw [← List.forall₂_eq_eq_eq, List.forall₂_map_right_iff]
  exact h1

/-- The spans of a ring through well separated places are in general position. -/
theorem ring_general {eps tol δ : K} {dist : W → W → K} {pos : L → W} {cyc : List (Edge K W L)}
    (hsym : ∀ x y, dist x y = dist y x) (htri : ∀ x y z, dist x z ≤ dist x y + dist y z)
    (hr : Ring cyc) (hl : 2 ≤ cyc.length) (hn : (cyc.map Edge.src).Nodup) (hw : ∀ e ∈ cyc, Whole eps e.curve)
    (hnear : ∀ e ∈ cyc, e.Near dist pos δ)
    (hsep : ∀ ℓ ∈ cyc.map Edge.src, ∀ m ∈ cyc.map Edge.src, ℓ ≠ m → tol + 2 * δ ≤ dist (pos ℓ) (pos m)) :
    General eps tol dist (cyc.map Edge.curve) := by
  have hdst : (cyc.map Edge.dst).Perm (cyc.map Edge.src) := hr.dst_perm
  have hnd : (cyc.map Edge.dst).Nodup := hdst.nodup_iff.2 hn
  have hlab : ∀ e ∈ cyc, ∀ ℓ, ℓ = e.src ∨ ℓ = e.dst → ℓ ∈ cyc.map Edge.src := by
    rintro e he ℓ (rfl | rfl)
    · exact List.mem_map.2 ⟨e, he, rfl⟩
    · exact hdst.subset (List.mem_map.2 ⟨e, he, rfl⟩)
  have hsame : ∀ e ∈ cyc, ∀ f ∈ cyc, ∀ ℓ, (ℓ = e.src ∨ ℓ = e.dst) → ∀ m, (m = f.src ∨ m = f.dst) → ∀ x y,
      dist x (pos ℓ) ≤ δ → dist y (pos m) ≤ δ → dist x y < tol → ℓ = m := by
    intro e he f hf ℓ hℓ m hm x y hx hy hxy
    by_contra hne
    have h1 := hsep ℓ (hlab e he ℓ hℓ) m (hlab f hf m hm) hne
    have h2 := htri (pos ℓ) x (pos m)
    have h3 := htri x y (pos m)
    rw [hsym (pos ℓ) x] at h2
    linarith
  have hloop : ∀ e ∈ cyc, e.src ≠ e.dst := by
    intro e he heq
    obtain ⟨l, m, rfl⟩ := List.append_of_mem he
    have hr' : Ring (e :: (m ++ l)) := by
      have := Ring.rotate (l := l) (m := e :: m) (by simpa using hr)
      simpa using this
    have hn' : ((e :: (m ++ l)).map Edge.src).Nodup := by
      refine (List.Perm.nodup_iff ?_).1 hn
      refine List.Perm.map _ ?_
      exact (List.perm_append_comm).trans (by simp)
    cases hml : m ++ l with
    | nil =>
      have := congrArg List.length hml
      simp only [List.length_append, List.length_cons, List.length_nil] at this hl
      omega
    | cons f t =>
      rw [hml] at hr' hn'
      have := (List.isChain_cons_cons.1 hr'.1).1
      rw [← heq] at this
      rw [List.map_cons, List.nodup_cons] at hn'
      exact hn'.1 (by rw [this]; simp)
  refine ⟨hsym, ?_, ?_, ?_, ?_⟩
  · intro c hc
    obtain ⟨e, he, rfl⟩ := List.mem_map.1 hc
    exact (hw e he).fine
  · intro c hc
    obtain ⟨e, he, rfl⟩ := List.mem_map.1 hc
    exact (hw e he).cont
  · intro a b c rest hp x y z hx hy hz hxy hxz
    obtain ⟨cyc', hp', heq⟩ := perm_map_exists _ hp
    rcases cyc' with - | ⟨e, - | ⟨f, - | ⟨g, t⟩⟩⟩
    · simp at heq
    · simp at heq
    · simp at heq
    simp only [List.map_cons, List.cons.injEq] at heq
    obtain ⟨rfl, rfl, rfl, -⟩ := heq
    have he : e ∈ cyc := hp'.subset (by simp)
    have hf : f ∈ cyc := hp'.subset (by simp)
    have hg : g ∈ cyc := hp'.subset (by simp)
    obtain ⟨ℓ, hℓ, dx⟩ := isEnd_label (hnear e he) hx
    obtain ⟨m, hm, dy⟩ := isEnd_label (hnear f hf) hy
    obtain ⟨k, hk, dz⟩ := isEnd_label (hnear g hg) hz
    obtain rfl := hsame e he f hf ℓ hℓ m hm x y dx dy hxy
    obtain rfl := hsame e he g hg ℓ hℓ k hk x z dx dz hxz
    have n1 : ((e :: f :: g :: t).map Edge.src).Nodup := (hp'.map _).nodup_iff.2 hn
    have n2 : ((e :: f :: g :: t).map Edge.dst).Nodup := (hp'.map _).nodup_iff.2 hnd
    simp only [List.map_cons, List.nodup_cons, List.mem_cons, not_or] at n1 n2
    rcases hℓ with h1 | h1 <;> rcases hm with h2 | h2 <;> rcases hk with h3 | h3
    · exact n1.1.1 (h1.symm.trans h2)
    · exact n1.1.1 (h1.symm.trans h2)
    · exact n1.1.2.1 (h1.symm.trans h3)
    · exact n2.2.1.1 (h2.symm.trans h3)
    · exact n1.2.1.1 (h2.symm.trans h3)
    · exact n2.1.2.1 (h1.symm.trans h3)
    · exact n2.1.1 (h1.symm.trans h2)
    · exact n2.1.1 (h1.symm.trans h2)
  · intro a b rest hp x hx h
    obtain ⟨cyc', hp', heq⟩ := perm_map_exists _ hp
    rcases cyc' with - | ⟨e, - | ⟨f, t⟩⟩
    · simp at heq
    · simp at heq
    simp only [List.map_cons, List.cons.injEq] at heq
    obtain ⟨rfl, rfl, -⟩ := heq
    have he : e ∈ cyc := hp'.subset (by simp)
    have hf : f ∈ cyc := hp'.subset (by simp)
    obtain ⟨ℓ, hℓ, dx⟩ := isEnd_label (hnear e he) hx
    have e1 := hsame e he f hf ℓ hℓ (if f.fwd then f.src else f.dst) (by cases f.fwd <;> simp) x _ dx (hnear f hf).1 h.1
    have e2 := hsame e he f hf ℓ hℓ (if f.fwd then f.dst else f.src) (by cases f.fwd <;> simp) x _ dx (hnear f hf).2 h.2
    refine hloop f hf ?_
    rw [e1] at e2
    cases hfw : f.fwd <;> simp only [hfw] at e2
    · exact e2.symm
    · exact e2

/-- A ring of at least two spans through well separated places, given in any order and any orientation: `CompoundCurve::new`
    returns a closed curve that consists of all the spans, each used once. -/
theorem ring_new {eps tol δ : K} {dist : W → W → K} {pos : L → W} {cyc : List (Edge K W L)} {spans : List (Curve K (W × K))}
    (hsym : ∀ x y, dist x y = dist y x) (htri : ∀ x y z, dist x z ≤ dist x y + dist y z) (hδ : 2 * δ < tol)
    (hr : Ring cyc) (hl : 2 ≤ cyc.length) (hn : (cyc.map Edge.src).Nodup) (hw : ∀ e ∈ cyc, Whole eps e.curve)
    (hnear : ∀ e ∈ cyc, e.Near dist pos δ)
    (hsep : ∀ ℓ ∈ cyc.map Edge.src, ∀ m ∈ cyc.map Edge.src, ℓ ≠ m → tol + 2 * δ ≤ dist (pos ℓ) (pos m))
    (hp : spans.Perm (cyc.map Edge.curve)) :
    ∃ out used used', Compound.new eps tol dist spans = .ok out ∧ used.Perm spans ∧ List.Forall₂ Oriented used used' ∧
      List.Forall₂ Moved used' out ∧ Consecutive out ∧ Joined tol dist out ∧
      ∀ e ∈ out.getLast?, ∀ f ∈ out.head?, dist (stopPt e) (startPt f) < tol := by
  have hg0 := ring_general (eps := eps) hsym htri hr hl hn hw hnear hsep
  cases spans with
  | nil =>
    have := hp.length_eq
    rw [List.length_map] at this
    simp at this
    omega
  | cons first rest =>
    -- the ring from the first span on, in its direction
    obtain ⟨cyc', e, tl, hc', hperm, hr', hfw, hec⟩ : ∃ (cyc' : List (Edge K W L)) (e : Edge K W L) (tl : List (Edge K W L)),
        cyc' = e :: tl ∧ (∀ f ∈ cyc', f.Near dist pos δ ∧ Whole eps f.curve) ∧
          (Ring cyc' ∧ (cyc'.map Edge.curve).Perm (cyc.map Edge.curve)) ∧ e.fwd = true ∧ e.curve = first := by
      obtain ⟨e, he, hef⟩ := List.mem_map.1 (hp.subset (List.mem_cons_self))
      obtain ⟨l, m, rfl⟩ := List.append_of_mem he
      have hr1 : Ring (e :: (m ++ l)) := by
        have := Ring.rotate (l := l) (m := e :: m) (by simpa using hr)
        simpa using this
      have hp1 : (e :: (m ++ l)).Perm (l ++ e :: m) := (by simp : (e :: (m ++ l)).Perm ((e :: m) ++ l)).trans List.perm_append_comm
      cases hfw : e.fwd with
      | true =>
        exact ⟨_, e, m ++ l, rfl, fun f hf => ⟨hnear f (hp1.subset hf), hw f (hp1.subset hf)⟩, ⟨hr1, hp1.map _⟩, hfw, hef⟩
      | false =>
        have hr2 : Ring ((m ++ l) ++ [e]) := Ring.rotate (l := [e]) (m := m ++ l) hr1
        have hr3 := hr2.reverse
        rw [List.reverse_append, List.reverse_singleton, List.singleton_append, List.map_cons] at hr3
        have hp3 : ((m ++ l) ++ [e]).reverse.Perm (l ++ e :: m) :=
          (List.reverse_perm _).trans (List.perm_append_comm.trans hp1)
        rw [List.reverse_append, List.reverse_singleton, List.singleton_append] at hp3
        refine ⟨_, e.flip, _, rfl, ?_, ⟨hr3, ?_⟩, by simp [Edge.flip, hfw], hef⟩
        · intro f hf
          rw [← List.map_cons] at hf
          obtain ⟨g, hg, rfl⟩ := List.mem_map.1 hf
          exact ⟨Edge.flip_near (hnear g (hp3.subset hg)), hw g (hp3.subset hg)⟩
        · rw [← List.map_cons, List.map_map]
          exact hp3.map _
    subst hc'
    obtain ⟨hr', hperm'⟩ := hr'
    have hrest : rest.Perm (tl.map Edge.curve) := by
      have := hp.trans hperm'.symm
      rw [List.map_cons, hec] at this
      exact this.cons_inv
    have htl : tl ≠ [] := by
      rintro rfl
      have := hperm'.length_eq
      simp only [List.map_cons, List.map_nil, List.length_cons, List.length_nil, List.length_map] at this
      omega
    have hlast := List.dropLast_append_getLast htl
    have horient : ∀ f ∈ e :: tl, Oriented f.curve f.orient ∧ dist (startPt f.orient) (pos f.src) ≤ δ ∧
        dist (stopPt f.orient) (pos f.dst) ≤ δ := by
      intro f hf
      obtain ⟨hne, hwf⟩ := hperm f hf
      obtain ⟨h1, h2, h3⟩ := Edge.orient_spec hwf
      refine ⟨h1, ?_, ?_⟩
      · rw [h2]
        cases hfw : f.fwd
        · have := hne.2; rw [hfw] at this; simpa using this
        · have := hne.1; rw [hfw] at this; simpa using this
      · rw [h3]
        cases hfw : f.fwd
        · have := hne.1; rw [hfw] at this; simpa using this
        · have := hne.2; rw [hfw] at this; simpa using this
    have hmeet : ∀ f ∈ e :: tl, ∀ g ∈ e :: tl, f.dst = g.src → dist (stopPt f.orient) (startPt g.orient) < tol := by
      intro f hf g hg hfg
      have h1 := (horient f hf).2.2
      have h2 := (horient g hg).2.1
      rw [hfg] at h1
      have := htri (stopPt f.orient) (pos g.src) (startPt g.orient)
      rw [hsym (pos g.src)] at this
      linarith
    have heo : e.orient = first := by rw [Edge.orient, hfw, if_pos rfl, hec]
    have hjall : Joined tol dist ((e :: tl).map Edge.orient) := by
      rw [Joined, List.isChain_map]
      refine List.IsChain.imp_of_mem_imp ?_ hr'.1
      intro f g hf hg hfg
      exact hmeet f hf g hg hfg
    have hclose : dist (stopPt (tl.getLast htl).orient) (startPt first) < tol := by
      rw [← heo]
      refine hmeet _ (List.mem_cons_of_mem _ (List.getLast_mem htl)) e (List.mem_cons_self) ?_
      refine hr'.2 _ ?_ e rfl
      rw [Option.mem_def, List.getLast?_eq_some_getLast (by simp), List.getLast_cons htl]
    have hmap : tl.map Edge.orient = tl.dropLast.map Edge.orient ++ [(tl.getLast htl).orient] := by
      conv_lhs => rw [← hlast]
      rw [List.map_append]; rfl
    have hflip : List.Forall₂ Oriented (tl.map Edge.curve) (tl.map Edge.orient) := by
      rw [List.forall₂_map_left_iff, List.forall₂_map_right_iff]
      exact List.forall₂_same.2 fun f hf => (horient f (List.mem_cons_of_mem _ hf)).1
    have hall : ∀ c ∈ first :: rest, Whole eps c := by
      intro c hc
      obtain ⟨f, hf, rfl⟩ := List.mem_map.1 (hp.subset hc)
      exact hw f hf
    rw [List.map_cons, heo, hmap] at hjall
    rw [hmap] at hflip
    obtain ⟨out, ho, hmv, hcons, hjo⟩ := C42_loop (hg0.perm hp.symm) (fun c hc => (hall c hc).full) hrest hflip hjall hclose
    have hor1 : Oriented first first := .inl rfl
    have hfine : ∀ c ∈ first :: (tl.dropLast.map Edge.orient ++ [(tl.getLast htl).orient]), Fine eps c := by
      intro c hc
      rw [← hmap, ← heo, ← List.map_cons] at hc
      obtain ⟨f, hf, rfl⟩ := List.mem_map.1 hc
      exact ((horient f hf).1.ends (hperm f hf).2.fine (hperm f hf).2.cont).1
    rcases hmv with hmv | hmv
    · refine ⟨out, first :: tl.map Edge.curve, _, ho, hrest.symm.cons _, .cons hor1 hflip, hmv, hcons, hjo, ?_⟩
      intro x hx y hy
      cases hmv with
      | @cons _ o _ out' h1 h2 =>
        obtain rfl : o = y := by simpa using hy
        rcases out'.eq_nil_or_concat with rfl | ⟨out'', z, rfl⟩
        · have := h2.length_eq; simp at this
        rw [List.concat_eq_append] at h2 hx
        obtain ⟨-, h3⟩ := forall₂_concat_inv h2
        rw [← List.cons_append, List.getLast?_concat] at hx
        obtain rfl : z = x := by simpa using hx
        rw [(h1.ends (hfine _ (by simp))).2.1, (h3.ends (hfine _ (by simp))).2.2]
        exact hclose
    · refine ⟨out, (tl.getLast htl).curve :: first :: tl.dropLast.map Edge.curve, _, ho, ?_, ?_, hmv, hcons, hjo, ?_⟩
      · refine List.Perm.trans (List.Perm.swap _ _ _) (List.Perm.cons _ ?_)
        refine List.Perm.trans ?_ hrest.symm
        conv_rhs => rw [← hlast]
        rw [List.map_append]
        exact (List.perm_append_singleton _ _).symm
      · have := hflip
        rw [show tl.map Edge.curve = tl.dropLast.map Edge.curve ++ [(tl.getLast htl).curve] by
          conv_lhs => rw [← hlast]
          rw [List.map_append]; rfl] at this
        obtain ⟨h1, h2⟩ := forall₂_concat_inv this
        exact .cons h2 (.cons hor1 h1)
      · intro x hx y hy
        -- the last span is the one before the first span of the result
        have hj2 : ∀ p, p ∈ (first :: tl.dropLast.map Edge.orient).getLast? → dist (stopPt p) (startPt (tl.getLast htl).orient) < tol := by
          have : Joined tol dist ((first :: tl.dropLast.map Edge.orient) ++ [(tl.getLast htl).orient]) := hjall
          rw [Joined, List.isChain_append] at this
          intro p hp
          exact this.2.2 p hp _ rfl
        cases hmv with
        | @cons _ o _ out' h1 h2 =>
          obtain rfl : o = y := by simpa using hy
          rcases out'.eq_nil_or_concat with rfl | ⟨out'', z, rfl⟩
          · have := h2.length_eq; simp at this
          rw [List.concat_eq_append] at h2 hx
          rw [← List.cons_append, List.getLast?_concat] at hx
          obtain rfl : z = x := by simpa using hx
          rcases (first :: tl.dropLast.map Edge.orient).eq_nil_or_concat with h0 | ⟨pre, p, h0⟩
          · cases h0
          rw [List.concat_eq_append] at h0
          rw [h0] at h2 hj2
          obtain ⟨-, h3⟩ := forall₂_concat_inv h2
          have hpm : p ∈ first :: tl.dropLast.map Edge.orient := by rw [h0]; simp
          rw [(h1.ends (hfine _ (by simp))).2.1, (h3.ends (hfine p (by
            rcases List.mem_cons.1 hpm with h | h
            · rw [h]; simp
            · exact List.mem_cons_of_mem _ (List.mem_append_left _ h)))).2.2]
          exact hj2 p (by simp)

end Curvo.Props

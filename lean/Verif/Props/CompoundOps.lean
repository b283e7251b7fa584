/-
  C79, C80: transformations, lengths, closest points and tessellations of compound curves.
-/
import Verif.Model.Compound2
import Verif.Props.CompoundEval
import Verif.Props.Closest
import Verif.Props.Curve3
import Verif.Props.Intersect
import Verif.Props.TessParams
import Verif.Props.Length

set_option linter.unusedSectionVars false

namespace Curvo.Props

open Curvo.Knots Curvo.Spec Curvo.Curve Curvo.Compound Curvo.Tess

variable {K : Type} [Field K] [LinearOrder K] [IsStrictOrderedRing K]
variable {W : Type} [AddCommGroup W] [Module K W]

/-! ### C79 -/

/-- An affine transformation of a compound curve keeps degrees and knots of the spans and moves every point of the compound
    curve by the map; the parameters without a point stay without. -/
theorem C79_transform (eps : K) (m : Matrix4 K W) (hc : m.c = 0) (hd : m.d ≠ 0) : ∀ (spans : List (Curve K (W × K))),
    (∀ c ∈ spans, ∀ p ∈ c.cps, p.2 ≠ 0) →
    ∃ out, Compound.transform m spans = .ok out ∧
      List.Forall₂ (fun c c' => c'.degree = c.degree ∧ c'.knots = c.knots ∧ c'.weights = c.weights) spans out ∧
      ∀ t, Compound.pointAt eps t out =
        (Compound.pointAt eps t spans).map (Option.map fun q => m.d⁻¹ • (m.A q + m.b))
  | [], _ => ⟨[], rfl, .nil, fun _ => rfl⟩
  | c :: spans, hw => by
    obtain ⟨c', e, e1, e2, e3, e4⟩ := C15_transform_affine eps m hc hd c (hw c (by simp))
    obtain ⟨out, f, f1, f2⟩ := C79_transform eps m hc hd spans fun x hx => hw x (List.mem_cons_of_mem _ hx)
    refine ⟨c' :: out, ?_, .cons ⟨e1, e2, e3⟩ f1, fun t => ?_⟩
    · have f : spans.mapM (fun s => s.transform m) = .ok out := f
      rw [Compound.transform, List.mapM_cons, e, ok_bind, f, ok_bind]
      rfl
    · have ek : c'.knotsDomain = c.knotsDomain := by unfold Curve.knotsDomain; rw [e1, e2]
      rw [Compound.pointAt, Compound.pointAt, ek, f2, e4]
      cases c.knotsDomain with
      | error f => rfl
      | ok d =>
        simp only [ok_bind]
        by_cases hin : d.1 ≤ t ∧ t ≤ d.2
        · rw [if_pos hin, if_pos hin]
          cases c.pointAt eps t <;> rfl
        · rw [if_neg hin, if_neg hin]

/-- The length of a compound curve is the sum of the lengths of its spans; it fails exactly if one of them fails. -/
theorem C79_length {nrm : W → K} {rule : ℕ → List (K × K)} {eps : K} {spans : List (Curve K (W × K))} (total : K) :
    Compound.tryLength nrm rule eps spans = .ok total ↔
      ∃ ls, List.Forall₂ (fun c l => Length.tryLength nrm rule eps c = .ok l) spans ls ∧ total = ls.sum := by
  have hfold : ∀ (ls : List K) (a : K), ls.foldl (fun a b => a + b) a = a + ls.sum := by
    intro ls
    induction ls with
    | nil => intro a; simp
    | cons l ls ih => intro a; rw [List.foldl_cons, ih, List.sum_cons, add_assoc]
  constructor
  · intro h
    obtain ⟨ls, h1, h2⟩ := bind_eq_ok.1 h
    refine ⟨ls, mapM_ok_inv h1, ?_⟩
    rw [← Except.ok.inj h2, hfold, zero_add]
  · rintro ⟨ls, h1, rfl⟩
    have : spans.mapM (fun s => Length.tryLength nrm rule eps s) = .ok ls := by
      induction h1 with
      | nil => rfl
      | cons h _ ih => rw [List.mapM_cons, h, ok_bind, ih]; rfl
    rw [Compound.tryLength, this, ok_bind, hfold, zero_add]
    rfl

/-- Lengths add up over a concatenation. -/
theorem C79_length_append {nrm : W → K} {rule : ℕ → List (K × K)} {eps : K} {as bs : List (Curve K (W × K))} {a b : K}
    (ha : Compound.tryLength nrm rule eps as = .ok a) (hb : Compound.tryLength nrm rule eps bs = .ok b) :
    Compound.tryLength nrm rule eps (as ++ bs) = .ok (a + b) := by
  obtain ⟨l, h1, rfl⟩ := (C79_length a).1 ha
  obtain ⟨k, h2, rfl⟩ := (C79_length b).1 hb
  exact (C79_length _).2 ⟨l ++ k, List.rel_append h1 h2, by simp⟩

/-- The length does not depend on the order of the spans. -/
theorem C79_length_perm {nrm : W → K} {rule : ℕ → List (K × K)} {eps : K} {as bs : List (Curve K (W × K))}
    (hp : as.Perm bs) {a : K} (ha : Compound.tryLength nrm rule eps as = .ok a) :
    Compound.tryLength nrm rule eps bs = .ok a := by
  obtain ⟨l, h1, rfl⟩ := (C79_length a).1 ha
  have : ∃ g : Curve K (W × K) → K, ∀ c ∈ as, Length.tryLength nrm rule eps c = .ok (g c) := by
    classical
    refine ⟨fun c => match Length.tryLength nrm rule eps c with | .ok x => x | .error _ => 0, fun c hc => ?_⟩
    obtain ⟨x, -, hx⟩ := forall₂_mem h1 hc
    simp only [hx]
  obtain ⟨g, hg⟩ := this
  have hl : ∀ {as : List (Curve K (W × K))} {l : List K}, (∀ c ∈ as, Length.tryLength nrm rule eps c = .ok (g c)) →
      List.Forall₂ (fun c l => Length.tryLength nrm rule eps c = .ok l) as l → l = as.map g := by
    intro as l hg h
    induction h with
    | nil => rfl
    | cons h _ ih =>
      rw [List.map_cons, ih fun c hc => hg c (by simp [hc])]
      rw [hg _ (by simp)] at h
      rw [Except.ok.inj h]
  refine (C79_length _).2 ⟨bs.map g, ?_, ?_⟩
  · rw [List.forall₂_map_right_iff, List.forall₂_same]
    exact fun c hc => hg c (hp.mem_iff.2 hc)
  · rw [hl hg h1]
    exact (hp.map g).sum_eq

/-- The closest point of a compound curve is the closest point some span returns, and no span returns a nearer one; of
    equally near ones it is that of the first span. It exists exactly if there is a span and the search succeeds on
    each of them. -/
theorem C79_closest {nrm normSq : W → K} {dot : W → W → K} {eps : K} {spans : List (Curve K (W × K))} {pt q : W}
    (h : Compound.findClosestPoint nrm normSq dot eps spans pt = .ok q) :
    ∃ pre c post, spans = pre ++ c :: post ∧ Closest.findClosestPoint nrm dot eps c pt = .ok q ∧
      (∀ c' ∈ pre, ∃ q', Closest.findClosestPoint nrm dot eps c' pt = .ok q' ∧ normSq (q - pt) < normSq (q' - pt)) ∧
      ∀ c' ∈ post, ∃ q', Closest.findClosestPoint nrm dot eps c' pt = .ok q' ∧ normSq (q - pt) ≤ normSq (q' - pt) := by
  unfold Compound.findClosestPoint at h
  obtain ⟨res, h1, h2⟩ := bind_eq_ok.1 h
  have h1 := mapM_ok_inv h1
  clear h
  -- the first of the smallest entries
  have key : ∀ (l : List (Curve K (W × K))) (rs : List W) (c : Curve K (W × K)) (r : W) (pre : List (Curve K (W × K))) (mid : List (Curve K (W × K))),
      List.Forall₂ (fun c q => Closest.findClosestPoint nrm dot eps c pt = .ok q) l rs →
      Closest.findClosestPoint nrm dot eps c pt = .ok r →
      (∀ c' ∈ pre, ∃ q', Closest.findClosestPoint nrm dot eps c' pt = .ok q' ∧ normSq (r - pt) < normSq (q' - pt)) →
      (∀ c' ∈ mid, ∃ q', Closest.findClosestPoint nrm dot eps c' pt = .ok q' ∧ normSq (r - pt) ≤ normSq (q' - pt)) →
      (Compound.minBy (normSq (r - pt), r) (rs.map fun q => (normSq (q - pt), q))).2 = q →
      ∃ pre' c' post, pre ++ c :: (mid ++ l) = pre' ++ c' :: post ∧ Closest.findClosestPoint nrm dot eps c' pt = .ok q ∧
        (∀ c' ∈ pre', ∃ q', Closest.findClosestPoint nrm dot eps c' pt = .ok q' ∧ normSq (q - pt) < normSq (q' - pt)) ∧
        ∀ c' ∈ post, ∃ q', Closest.findClosestPoint nrm dot eps c' pt = .ok q' ∧ normSq (q - pt) ≤ normSq (q' - pt) := by
    intro l
    induction l with
    | nil =>
      intro rs c r pre mid hl hr hpre hmid hmin
      obtain rfl := List.forall₂_nil_left_iff.1 hl
      have : r = q := hmin
      subst this
      exact ⟨pre, c, mid, by simp, hr, hpre, hmid⟩
    | cons a l ih =>
      intro rs c r pre mid hl hr hpre hmid hmin
      obtain ⟨x, xs, hx, hxs, rfl⟩ := List.forall₂_cons_left_iff.1 hl
      rw [List.map_cons, Compound.minBy] at hmin
      by_cases hlt : normSq (x - pt) < normSq (r - pt)
      · rw [if_pos hlt] at hmin
        have := ih xs a x (pre ++ c :: mid) [] hxs hx (by
          intro c' hc'
          rcases List.mem_append.1 hc' with hc' | hc'
          · obtain ⟨q', e1, e2⟩ := hpre c' hc'
            exact ⟨q', e1, hlt.trans e2⟩
          · rcases List.mem_cons.1 hc' with rfl | hc'
            · exact ⟨r, hr, hlt⟩
            · obtain ⟨q', e1, e2⟩ := hmid c' hc'
              exact ⟨q', e1, lt_of_lt_of_le hlt e2⟩) (by simp) hmin
        obtain ⟨p1, c1, p2, e, f⟩ := this
        exact ⟨p1, c1, p2, by rw [← e]; simp, f⟩
      · rw [if_neg hlt] at hmin
        have := ih xs c r pre (mid ++ [a]) hxs hr hpre (by
          intro c' hc'
          rcases List.mem_append.1 hc' with hc' | hc'
          · exact hmid c' hc'
          · rw [List.mem_singleton.1 hc']; exact ⟨x, hx, not_lt.1 hlt⟩) hmin
        obtain ⟨p1, c1, p2, e, f⟩ := this
        exact ⟨p1, c1, p2, by rw [← e]; simp, f⟩
  cases h1 with
  | nil => simp at h2
  | @cons c r l rs hr hl => exact key l rs c r [] [] hl hr (by simp) (by simp) (Except.ok.inj h2)

theorem C79_closest_exists {nrm normSq : W → K} {dot : W → W → K} {eps : K} {spans : List (Curve K (W × K))} {pt : W} :
    (∃ q, Compound.findClosestPoint nrm normSq dot eps spans pt = .ok q) ↔
      spans ≠ [] ∧ ∀ c ∈ spans, ∃ q, Closest.findClosestPoint nrm dot eps c pt = .ok q := by
  constructor
  · rintro ⟨q, h⟩
    unfold Compound.findClosestPoint at h
    obtain ⟨res, h1, h2⟩ := bind_eq_ok.1 h
    have h1 := mapM_ok_inv h1
    refine ⟨?_, fun c hc => ?_⟩
    · rintro rfl
      obtain rfl := List.forall₂_nil_left_iff.1 h1
      simp at h2
    · obtain ⟨x, -, hx⟩ := forall₂_mem h1 hc
      exact ⟨x, hx⟩
  · rintro ⟨hne, h⟩
    have : ∃ g : Curve K (W × K) → W, ∀ c ∈ spans, Closest.findClosestPoint nrm dot eps c pt = .ok (g c) := by
      classical
      refine ⟨fun c => match Closest.findClosestPoint nrm dot eps c pt with | .ok x => x | .error _ => 0, fun c hc => ?_⟩
      obtain ⟨x, hx⟩ := h c hc
      simp only [hx]
    obtain ⟨g, hg⟩ := this
    obtain ⟨a, l, rfl⟩ := List.exists_cons_of_ne_nil hne
    unfold Compound.findClosestPoint
    rw [mapM_ok hg, ok_bind]
    exact ⟨_, rfl⟩

/-- If all spans are open, the closest point of a compound curve is a point of a span. -/
theorem C79_closest_on_curve {nrm normSq : W → K} {dot : W → W → K} {eps : K} {spans : List (Curve K (W × K))} {pt q : W}
    (hf : ∀ c ∈ spans, Fine eps c ∧ 1 ≤ c.degree ∧ c.isClosed eps (fun a b => nrm (a - b)) = .ok false)
    (h : Compound.findClosestPoint nrm normSq dot eps spans pt = .ok q) :
    ∃ c ∈ spans, ∃ u, c.lo ≤ u ∧ u ≤ c.hi ∧ c.pointAt eps u = .ok q := by
  obtain ⟨pre, c, post, rfl, hq, -⟩ := C79_closest h
  have hm : c ∈ pre ++ c :: post := by simp
  obtain ⟨h1, h2, h3⟩ := hf c hm
  refine ⟨c, hm, ?_⟩
  rcases C55_open_stays_inside h1.good h1.pos h2 nrm dot pt h3 with ⟨u, e, hl, hh, ep⟩ | ⟨-, e⟩
  · refine ⟨u, hl, hh, ?_⟩
    rw [Closest.findClosestPoint, e] at hq
    exact hq
  · rw [Closest.findClosestPoint, e] at hq
    cases hq

/-! ### C80 -/

/-- `pts` are the points of `c` at the parameters `ts`, which increase from one end of the domain to the other. -/
structure Sampling (eps : K) (c : Curve K (W × K)) (ts : List K) (pts : List W) : Prop where
  points : List.Forall₂ (fun t p => c.pointAt eps t = .ok p) ts pts
  first : ts.head? = some c.lo
  last : ts.getLast? = some c.hi
  incr : ts.IsChain (· < ·)

/-- The successive vertices of the polyline lie on one span, at increasing parameters. -/
def Step (spans : List (Curve K (W × K))) (x y : K) : Prop := x < y ∧ ∃ c ∈ spans, c.lo ≤ x ∧ y ≤ c.hi

/-- `p` is the point of a span at `t`. -/
def OnSpan (eps : K) (spans : List (Curve K (W × K))) (t : K) (p : W) : Prop :=
  ∃ c ∈ spans, c.lo ≤ t ∧ t ≤ c.hi ∧ c.pointAt eps t = .ok p

theorem Sampling.shape {eps : K} {c : Curve K (W × K)} {ts : List K} {pts : List W} (h : Sampling eps c ts pts)
    (hlt : c.lo < c.hi) : ∃ mid x ps, ts = c.lo :: (mid ++ [c.hi]) ∧ pts = x :: ps ∧ ps ≠ [] ∧ c.pointAt eps c.lo = .ok x := by
  obtain ⟨h1, h2, h3, h4⟩ := h
  cases ts with
  | nil => simp at h2
  | cons a l =>
    obtain rfl : a = c.lo := by simpa using h2
    obtain ⟨x, ps, hx, hps, rfl⟩ := List.forall₂_cons_left_iff.1 h1
    rcases List.eq_nil_or_concat l with rfl | ⟨mid, b, rfl⟩
    · have : c.lo = c.hi := by simpa using h3
      exact absurd this hlt.ne
    · have hb : b = c.hi := by
        rw [List.concat_eq_append, ← List.cons_append, List.getLast?_concat] at h3
        exact Option.some.inj h3
      subst hb
      refine ⟨mid, x, ps, by simp, rfl, ?_, hx⟩
      rintro rfl
      have := hps.length_eq
      simp at this

theorem Sampling.bounds {eps : K} {c : Curve K (W × K)} {ts : List K} {pts : List W} (h : Sampling eps c ts pts) :
    ∀ t ∈ ts, c.lo ≤ t ∧ t ≤ c.hi := by
  intro t ht
  have hs : ts.Pairwise (· < ·) := List.isChain_iff_pairwise.1 h.incr
  constructor
  · cases ts with
    | nil => simp at ht
    | cons x l =>
      have : x = c.lo := by simpa using h.first
      subst this
      rcases List.mem_cons.1 ht with rfl | ht
      · exact le_refl _
      · exact (List.rel_of_pairwise_cons hs ht).le
  · have hne : ts ≠ [] := by rintro rfl; simp at ht
    have : ts.getLast hne = c.hi := by
      have hl := h.last
      rw [List.getLast?_eq_getLast_of_ne_nil hne] at hl
      exact Option.some.inj hl
    rw [← List.dropLast_append_getLast hne, List.pairwise_append] at hs
    rw [← List.dropLast_append_getLast hne] at ht
    rcases List.mem_append.1 ht with ht | ht
    · rw [← this]; exact (hs.2.2 t ht _ (by simp)).le
    · rw [List.mem_singleton.1 ht, this]

/-- All samples, without the last one of every span. -/
theorem chain_samples {eps : K} : ∀ {spans : List (Curve K (W × K))} {tss : List (List K)} {pss : List (List W)}
    {last : Curve K (W × K)} {tl : List K} {pl : List W},
    (∀ c ∈ spans ++ [last], c.lo < c.hi) → (spans ++ [last]).IsChain (fun a b => b.lo = a.hi) →
    List.Forall₂ (fun c (x : List K × List W) => Sampling eps c x.1 x.2) spans (tss.zip pss) →
    tss.length = pss.length → Sampling eps last tl pl →
    ∃ ts : List K, ts.length = ((pss.map List.dropLast).flatten ++ pl).length ∧
      List.Forall₂ (OnSpan eps (spans ++ [last])) ts ((pss.map List.dropLast).flatten ++ pl) ∧
      ts.IsChain (Step (spans ++ [last])) ∧
      (∃ f ∈ (spans ++ [last]).head?, ts.head? = some f.lo) ∧ ts.getLast? = some last.hi
  | [], tss, pss, last, tl, pl, hlt, hc, hs, hlen, hl => by
    have hz := List.forall₂_nil_left_iff.1 hs
    have : pss = [] := by
      cases pss with
      | nil => rfl
      | cons _ _ => cases tss with
        | nil => simp at hlen
        | cons _ _ => simp at hz
    subst this
    refine ⟨tl, ?_, ?_, ?_, ?_, hl.last⟩
    · simpa using hl.points.length_eq
    · have := hl.bounds
      simp only [List.map_nil, List.flatten_nil, List.nil_append]
      have key : ∀ {a : List K} {b : List W}, List.Forall₂ (fun t p => last.pointAt eps t = .ok p) a b →
          (∀ t ∈ a, last.lo ≤ t ∧ t ≤ last.hi) → List.Forall₂ (OnSpan eps [last]) a b := by
        intro a b h
        induction h with
        | nil => intro _; exact .nil
        | cons h _ ih =>
          intro hb
          exact .cons ⟨last, by simp, (hb _ (by simp)).1, (hb _ (by simp)).2, h⟩ (ih fun t ht => hb t (by simp [ht]))
      exact key hl.points this
    · have hb := hl.bounds
      have hi := hl.incr
      simp only [List.nil_append]
      refine hi.imp_of_mem_imp ?_
      intro x y hx hy hxy
      exact ⟨hxy, last, by simp, (hb x hx).1, (hb y hy).2⟩
    · exact ⟨last, by simp, hl.first⟩
  | c :: spans, tss, pss, last, tl, pl, hlt, hc, hs, hlen, hl => by
    obtain ⟨⟨t1, p1⟩, z, hx, hz, ez⟩ := List.forall₂_cons_left_iff.1 hs
    cases tss with
    | nil => simp at ez
    | cons t1' tss =>
    cases pss with
    | nil => simp at ez
    | cons p1' pss =>
    simp only [List.zip_cons_cons, List.cons.injEq, Prod.mk.injEq] at ez
    obtain ⟨⟨rfl, rfl⟩, rfl⟩ := ez
    obtain ⟨hc1, hc2⟩ := List.isChain_cons.1 (by simpa using hc)
    obtain ⟨ts, a1, a2, a3, ⟨f, hf, a4⟩, a5⟩ := chain_samples (spans := spans) (fun x hx => hlt x (by simp at hx ⊢; tauto)) hc2 hz
      (by simpa using hlen) hl
    obtain ⟨mid, x, ps, e1, e2, e3, e4⟩ := Sampling.shape hx (hlt c (by simp))
    have hb := hx.bounds
    have hfl : f.lo = c.hi := hc1 f hf
    simp only [] at e1 e2
    refine ⟨(c.lo :: mid) ++ ts, ?_, ?_, ?_, ⟨c, by simp, by simp⟩, ?_⟩
    · have := hx.points.length_eq
      simp only [e1, e2] at this
      simp only [List.map_cons, List.flatten_cons, List.length_append, List.length_dropLast, e2] at a1 ⊢
      simp at this
      simp [a1]
      omega
    · rw [List.map_cons, List.flatten_cons, List.append_assoc]
      apply List.rel_append
      · have hp := hx.points
        have : List.Forall₂ (fun t p => c.pointAt eps t = .ok p) t1'.dropLast p1'.dropLast := by
          rw [List.dropLast_eq_take, List.dropLast_eq_take, ← hp.length_eq]
          exact List.forall₂_take _ hp
        rw [e1, show (c.lo :: (mid ++ [c.hi])).dropLast = c.lo :: mid by
          rw [← List.cons_append, List.dropLast_concat]] at this
        have hb' : ∀ t ∈ c.lo :: mid, c.lo ≤ t ∧ t ≤ c.hi := by
          intro t ht
          apply hb t
          simp only []
          rw [e1]
          simp at ht ⊢; tauto
        revert this hb'
        generalize c.lo :: mid = a
        generalize p1'.dropLast = b
        intro h
        induction h with
        | nil => intro _; exact .nil
        | cons h _ ih =>
          intro hb
          exact .cons ⟨c, by simp, (hb _ (by simp)).1, (hb _ (by simp)).2, h⟩ (ih fun t ht => hb t (by simp [ht]))
      · refine a2.imp ?_
        rintro t p ⟨d, hd, r⟩
        exact ⟨d, by simp at hd ⊢; tauto, r⟩
    · have hi : (c.lo :: (mid ++ [c.hi])).IsChain (· < ·) := by
        have := hx.incr
        simp only [] at this
        rwa [e1] at this
      have hi' : ((c.lo :: mid) ++ [c.hi]).IsChain (· < ·) := by simpa using hi
      rw [List.isChain_append] at hi' ⊢
      refine ⟨?_, ?_, ?_⟩
      · refine hi'.1.imp_of_mem_imp ?_
        intro x y hx hy hxy
        have m : ∀ z ∈ c.lo :: mid, c.lo ≤ z ∧ z ≤ c.hi := by
          intro z hz
          apply hb z
          simp only []
          rw [e1]
          simp at hz ⊢; tauto
        exact ⟨hxy, c, by simp, (m x hx).1, (m y hy).2⟩
      · exact a3.imp fun x y ⟨h, d, hd, r⟩ => ⟨h, d, by simp at hd ⊢; tauto, r⟩
      · intro y hy z hz
        rw [a4] at hz
        obtain rfl := Option.some.inj hz
        have h1 := hi'.2.2 y hy c.hi (by simp)
        have hm : y ∈ c.lo :: mid := List.mem_of_getLast? hy
        have := hb y (by simp only []; rw [e1]; simp at hm ⊢; tauto)
        rw [hfl]
        exact ⟨h1, c, by simp, this.1, le_refl _⟩
    · rw [List.getLast?_append, a5]; rfl

theorem zipIdx_samples {M : Metric K W} {eps floor tol : K} {rnd : ℕ → ℕ → K} {fuel : ℕ} :
    ∀ {spans : List (Curve K (W × K))} {k : ℕ},
    (∀ x ∈ spans.zipIdx k, ∃ pts pos ts, tessellateCurve M eps floor (rnd x.2) fuel x.1 tol = .ok (pts, pos) ∧
      Sampling eps x.1 ts pts) →
    ∃ (tss : List (List K)) (pss : List (List W)), tss.length = pss.length ∧
      List.Forall₂ (fun c (x : List K × List W) => Sampling eps c x.1 x.2) spans (tss.zip pss) ∧
      List.Forall₂ (fun x p => ∃ pos, tessellateCurve M eps floor (rnd x.2) fuel x.1 tol = .ok (p, pos)) (spans.zipIdx k) pss
  | [], _, _ => ⟨[], [], rfl, .nil, .nil⟩
  | c :: spans, k, h => by
    obtain ⟨pts, pos, ts, h1, h2⟩ := h (c, k) (by simp)
    obtain ⟨tss, pss, a, b, d⟩ := zipIdx_samples (spans := spans) (k := k + 1) fun x hx => h x (by
      rw [List.zipIdx_cons]; exact List.mem_cons_of_mem _ hx)
    exact ⟨ts :: tss, pts :: pss, by simp [a], .cons h2 b, by rw [List.zipIdx_cons]; exact .cons ⟨pos, h1⟩ d⟩

theorem mapM_forall₂ {α β γ : Type} {f : α → Res γ} {g : β → γ} : ∀ {l : List α} {m : List β},
    List.Forall₂ (fun a b => f a = .ok (g b)) l m → l.mapM f = .ok (m.map g)
  | _, _, .nil => rfl
  | _, _, .cons h t => by rw [List.mapM_cons, h, ok_bind, mapM_forall₂ t]; rfl

theorem compound_isClosed {eps ceps : K} {dist : W → W → K} {spans : List (Curve K (W × K))}
    (hf : ∀ c ∈ spans, Fine eps c) {first last : Curve K (W × K)} (h1 : spans.head? = some first)
    (h2 : spans.getLast? = some last) :
    Compound.isClosed eps ceps dist spans = .ok (decide (dist (startPt first) (stopPt last) < ceps)) := by
  have f1 := hf first (List.mem_of_head? h1)
  have f2 := hf last (List.mem_of_getLast? h2)
  unfold Compound.isClosed
  rw [h1, h2]
  simp only []
  rw [knotsDomain_eq f1.good, ok_bind, f1.pointAt_lo, ok_bind, knotsDomain_eq f2.good, ok_bind, f2.pointAt_hi, ok_bind]
  rfl

/-- Tessellation of a compound curve whose spans follow one another and are each sampled from end to end: a polyline
    whose vertices are points of the spans at increasing parameters, starting at the start of the first span; two
    successive parameters never skip a joint. An open curve ends at the end of the last span; for a closed one the last
    vertex is exactly the first one instead of the (nearby) end point. -/
theorem C80_vertices {M : Metric K W} {eps ceps floor tol : K} {dist : W → W → K} {rnd : ℕ → ℕ → K} {fuel : ℕ}
    {spans : List (Curve K (W × K))} (hf : ∀ c ∈ spans, Fine eps c) (hc : spans.IsChain fun a b => b.lo = a.hi)
    {first last : Curve K (W × K)} (h1 : spans.head? = some first) (h2 : spans.getLast? = some last)
    (hs : ∀ x ∈ spans.zipIdx, ∃ pts pos ts, tessellateCurve M eps floor (rnd x.2) fuel x.1 tol = .ok (pts, pos) ∧
      Sampling eps x.1 ts pts) :
    ∃ (out : List W) (ts : List K), Compound.tessellate M eps ceps floor dist rnd fuel spans tol = .ok out ∧
      ts.length = out.length ∧ ts.IsChain (Step spans) ∧ ts.head? = some first.lo ∧ ts.getLast? = some last.hi ∧
      out.head? = some (startPt first) ∧
      List.Forall₂ (OnSpan eps spans) ts.dropLast out.dropLast ∧
      out.getLast? = some (if dist (startPt first) (stopPt last) < ceps then startPt first else stopPt last) := by
  obtain ⟨init, rfl⟩ : ∃ init, spans = init ++ [last] := by
    rcases List.eq_nil_or_concat spans with rfl | ⟨init, b, e⟩
    · simp at h2
    · rw [e, List.concat_eq_append, List.getLast?_concat] at h2
      obtain rfl := Option.some.inj h2
      exact ⟨init, by rw [e, List.concat_eq_append]⟩
  have hs1 : ∀ x ∈ init.zipIdx, ∃ pts pos ts, tessellateCurve M eps floor (rnd x.2) fuel x.1 tol = .ok (pts, pos) ∧
      Sampling eps x.1 ts pts := fun x hx => hs x (by rw [List.zipIdx_append]; exact List.mem_append_left _ hx)
  obtain ⟨pl, pos, tl, el, hl⟩ := hs (last, init.length) (by rw [List.zipIdx_append]; simp)
  simp only [] at el hl
  obtain ⟨tss, pss, hlen, hz, hp⟩ := zipIdx_samples hs1
  have hlt : ∀ c ∈ init ++ [last], c.lo < c.hi := fun c hc => lo_lt_hi (hf c hc).good
  obtain ⟨ts, a1, a2, a3, ⟨f, hf', a4⟩, a5⟩ := chain_samples hlt hc hz hlen hl
  obtain rfl : f = first := by rw [h1] at hf'; exact (Option.some.inj hf').symm
  obtain ⟨A, hA⟩ : ∃ A, A = (pss.map List.dropLast).flatten := ⟨_, rfl⟩
  rw [← hA] at a1 a2
  have fl := hf last (by simp)
  have ff := hf f (List.mem_of_head? h1)
  -- the last vertex of the last span
  have hpl : pl ≠ [] ∧ pl.getLast? = some (stopPt last) := by
    have hne : tl ≠ [] := by rintro rfl; simpa using hl.last
    have hne' : pl ≠ [] := by
      rintro rfl
      exact hne (List.forall₂_nil_right_iff.1 hl.points)
    refine ⟨hne', ?_⟩
    have hpt := hl.points
    obtain ⟨t', rfl⟩ : ∃ t', tl = t' ++ [last.hi] := by
      refine ⟨tl.dropLast, ?_⟩
      have := hl.last
      rw [List.getLast?_eq_getLast_of_ne_nil hne] at this
      rw [← Option.some.inj this, List.dropLast_append_getLast hne]
    rw [← List.dropLast_append_getLast hne'] at hpt ⊢
    rw [List.getLast?_concat]
    have := (forall₂_concat_inv hpt).2
    rw [fl.pointAt_hi] at this
    rw [Except.ok.inj this]
  -- the first vertex
  have hhead : ∃ x l, A ++ pl = x :: l ∧ x = startPt f := by
    have a2' := a2
    generalize A ++ pl = B at a2'
    cases a2' with
    | nil => simp at a4
    | @cons t x ts' l hx _ =>
      obtain rfl : t = f.lo := by simpa using a4
      refine ⟨x, l, rfl, ?_⟩
      obtain ⟨d, hd, d1, d2, d3⟩ := hx
      -- only the first span contains its start in its domain
      have : d = f := by
        by_contra hne
        obtain ⟨pre, post, e⟩ := List.append_of_mem hd
        have hc' := hc
        rw [e] at hc'
        obtain ⟨hle, -⟩ := consecutive_le (fun c hc => hf c (by rw [e]; exact hc)) hc'
        cases pre with
        | nil =>
          rw [e] at h1
          exact hne (by simpa using h1)
        | cons g pre =>
          rw [e] at h1
          obtain rfl : g = f := by simpa using h1
          have := hle g (by simp)
          have := hlt g (by rw [e]; simp)
          exact absurd d1 (not_le.2 (lt_of_lt_of_le this ‹g.hi ≤ d.lo›))
      subst this
      rw [ff.pointAt_lo] at d3
      exact (Except.ok.inj d3).symm
  obtain ⟨x0, l0, ex, hx0⟩ := hhead
  have hclosed := compound_isClosed (ceps := ceps) (dist := dist) hf h1 h2
  by_cases hcl : dist (startPt f) (stopPt last) < ceps
  · -- closed
    have hA2 : A ++ pl.dropLast = (A ++ pl).dropLast := by
      rw [List.dropLast_append_of_ne_nil hpl.1]
    have hne2 : A ++ pl.dropLast ≠ [] := by
      intro e
      rw [hA2] at e
      have h3 := a1
      have : (A ++ pl).length = 1 := by
        have := congrArg List.length e
        rw [ex] at this ⊢
        simp at this ⊢
        exact this
      rw [this] at h3
      obtain ⟨t, rfl⟩ := List.length_eq_one_iff.1 h3
      have e1 : t = f.lo := by simpa using a4
      have e2 : t = last.hi := by simpa using a5
      have hle : f.lo < last.hi := by
        cases init with
        | nil =>
          obtain rfl : last = f := by simpa using h1
          exact hlt _ (by simp)
        | cons g init =>
          obtain rfl : g = f := by simpa using h1
          obtain ⟨hle, -⟩ := consecutive_le (pre := g :: init) (post := []) (c := last) (eps := eps) (by simpa using hf) (by simpa using hc)
          have := hle g (by simp)
          have := hlt g (by simp)
          have := hlt last (by simp)
          linarith
      rw [← e1, ← e2] at hle
      exact lt_irrefl _ hle
    refine ⟨(A ++ pl.dropLast) ++ (A ++ pl.dropLast).take 1, ts, ?_, ?_, a3, a4, a5, ?_, ?_, ?_⟩
    · unfold Compound.tessellate
      rw [hclosed, ok_bind, decide_eq_true hcl]
      simp only [if_true]
      rw [mapM_forall₂ (m := pss ++ [pl]) (g := List.dropLast)]
      · rw [ok_bind]
        simp only [List.map_append, List.map_cons, List.map_nil, List.flatten_append, List.flatten_cons, List.flatten_nil,
          List.append_nil, ← hA]
        rfl
      · rw [List.zipIdx_append]
        refine List.rel_append ?_ (.cons ?_ .nil)
        · refine hp.imp ?_
          rintro x p ⟨pos, e⟩
          rw [e]; rfl
        · simp only [Nat.zero_add]
          rw [el]; rfl
    · rw [a1]
      obtain ⟨y, l, e⟩ := List.exists_cons_of_ne_nil hne2
      have h3 := congrArg List.length e
      have : pl.length ≠ 0 := by simpa using hpl.1
      rw [e]
      simp at h3 ⊢
      omega
    · rw [List.head?_append_of_ne_nil _ hne2, hA2, ex]
      obtain ⟨y, l, e⟩ := List.exists_cons_of_ne_nil hne2
      rw [hA2, ex] at e
      cases l0 with
      | nil => simp at e
      | cons _ _ => simp [hx0]
    · obtain ⟨y, l, e⟩ := List.exists_cons_of_ne_nil hne2
      have : ((A ++ pl.dropLast) ++ (A ++ pl.dropLast).take 1).dropLast = A ++ pl.dropLast := by
        rw [e]
        simp only [List.take_succ_cons, List.take_zero]
        rw [List.dropLast_concat]
      rw [this, hA2, List.dropLast_eq_take, List.dropLast_eq_take, ← a1]
      exact List.forall₂_take _ a2
    · rw [if_pos hcl]
      obtain ⟨y, l, e⟩ := List.exists_cons_of_ne_nil hne2
      have hy : y = startPt f := by
        rw [hA2, ex] at e
        cases l0 with
        | nil => simp at e
        | cons _ _ =>
          simp at e
          rw [← e.1, hx0]
      rw [e]
      simp only [List.take_succ_cons, List.take_zero]
      rw [List.getLast?_concat, hy]
  · -- open
    refine ⟨A ++ pl, ts, ?_, a1, a3, a4, a5, ?_, ?_, ?_⟩
    · unfold Compound.tessellate
      rw [hclosed, ok_bind, decide_eq_false hcl]
      simp only [Bool.false_eq_true, if_false]
      have hm : subR (init ++ [last]).length 1 = .ok init.length := by
        rw [subR_eq_ok (by simp)]; simp
      rw [List.zipIdx_append, List.mapM_append]
      have e1 : init.zipIdx.mapM (fun s : Curve K (W × K) × ℕ => (do
          let t ← tessellateCurve M eps floor (rnd s.2) fuel s.1 tol
          let m ← subR (init ++ [last]).length 1
          pure (if s.2 ≠ m then t.1.dropLast else t.1) : Res (List W))) = .ok (pss.map List.dropLast) := by
        apply mapM_forall₂
        have hb : ∀ x ∈ init.zipIdx, x.2 < init.length := by
          intro x hx
          have := List.snd_lt_of_mem_zipIdx hx
          omega
        have key : ∀ {z : List (Curve K (W × K) × ℕ)} {q : List (List W)}, List.Forall₂ (fun x p => ∃ pos,
            tessellateCurve M eps floor (rnd x.2) fuel x.1 tol = .ok (p, pos)) z q → (∀ x ∈ z, x.2 < init.length) →
            List.Forall₂ (fun (s : Curve K (W × K) × ℕ) (b : List W) => (do
              let t ← tessellateCurve M eps floor (rnd s.2) fuel s.1 tol
              let m ← subR (init ++ [last]).length 1
              pure (if s.2 ≠ m then t.1.dropLast else t.1) : Res (List W)) = .ok b.dropLast) z q := by
          intro z q hp
          induction hp with
          | nil => intro _; exact .nil
          | @cons x p _ _ h _ ih =>
            intro hb
            refine .cons ?_ (ih fun y hy => hb y (by simp [hy]))
            obtain ⟨pos, e⟩ := h
            rw [e, ok_bind, hm, ok_bind, if_pos (hb x (by simp)).ne]
            rfl
        exact key hp hb
      rw [e1, ok_bind]
      simp only [List.zipIdx_cons, List.zipIdx_nil, List.mapM_cons, List.mapM_nil, Nat.zero_add]
      rw [el]
      simp only [ok_bind, hm]
      rw [if_neg (by simp)]
      show Except.ok ((pss.map List.dropLast ++ [pl]).flatten) = _
      simp [hA]
    · rw [ex, hx0]; rfl
    · rw [List.dropLast_eq_take, List.dropLast_eq_take, ← a1]
      exact List.forall₂_take _ a2
    · rw [if_neg hcl, List.getLast?_append, hpl.2]; rfl

/-! ### When the spans are sampled from end to end -/

theorem adaptive_mono {M : Metric K W} {floor tol : K} {rnd : ℕ → K} {pt : K → Res W} : ∀ {n m : ℕ} {a b : K} {pos : ℕ}
    {r : List W × ℕ}, adaptive M floor rnd pt tol n a b pos = .ok r → n ≤ m → adaptive M floor rnd pt tol m a b pos = .ok r
  | 0, _, _, _, _, _, h, _ => by simp [adaptive] at h
  | n + 1, 0, _, _, _, _, _, hm => by omega
  | n + 1, m + 1, a, b, pos, r, h, hm => by
    unfold adaptive at h ⊢
    obtain ⟨p1, e1, h⟩ := bind_eq_ok.1 h
    rw [e1, ok_bind]
    simp only [] at h ⊢
    by_cases hd : b - a < floor
    · rw [if_pos hd] at h ⊢; exact h
    · rw [if_neg hd] at h ⊢
      obtain ⟨p3, e3, h⟩ := bind_eq_ok.1 h
      rw [e3, ok_bind]
      obtain ⟨p2, e2, h⟩ := bind_eq_ok.1 h
      rw [e2, ok_bind]
      split_ifs at h ⊢ with hs
      · obtain ⟨l, el, h⟩ := bind_eq_ok.1 h
        obtain ⟨r', er, h⟩ := bind_eq_ok.1 h
        rw [adaptive_mono el (by omega), ok_bind]
        rw [adaptive_mono er (by omega), ok_bind]
        exact h
      · exact h

theorem tessellateCurve_mono {M : Metric K W} {eps floor tol : K} {rnd : ℕ → K} {c : Curve K (W × K)} {n m : ℕ}
    {r : List W × ℕ} (h : tessellateCurve M eps floor rnd n c tol = .ok r) (hm : n ≤ m) :
    tessellateCurve M eps floor rnd m c tol = .ok r := by
  unfold tessellateCurve at h ⊢
  split_ifs at h ⊢ with hd
  · exact h
  · obtain ⟨d, e, h⟩ := bind_eq_ok.1 h
    rw [e, ok_bind]
    exact adaptive_mono h hm

/-- A curve of degree one with increasing knots is at its knots in its control points. -/
theorem degree_one_point {eps : K} {c : Curve K (W × K)} (h : Fine eps c) (hd : c.degree = 1)
    (hk : ∀ i, 1 ≤ i → i < c.cps.length → kf c.knots i < kf c.knots (i + 1)) {i : ℕ} (hi : i < c.cps.length) :
    c.pointAt eps (kf c.knots (i + 1)) = .ok (proj (c.cps.getD i 0)) := by
  have hle : 2 ≤ c.cps.length := by
    have := h.good.good.le
    have := h.good.cps_pos
    omega
  have hcont : ContKnots (kf c.knots) c.degree (c.cps.length - 1) := by
    rw [hd]
    intro j h1 h3
    exact hk j (by omega) (by omega)
  have hmono := h.good.good.mono
  have h1 : c.lo ≤ kf c.knots (i + 1) := by
    rw [Curve.lo, hd]; exact hmono _ _ (by omega) (by omega)
  have h2 : kf c.knots (i + 1) ≤ c.hi := by
    rw [Curve.hi]; exact hmono _ _ (by omega) (by omega)
  rw [(C09_point_at_positive_weights h.good h.pos h1 h2).1]
  have hev : c.eval (kf c.knots (i + 1)) = c.cps.getD i 0 := by
    by_cases hlast : i + 1 < c.cps.length
    · have hlt := hk (i + 1) (by omega) hlast
      rw [eval_eq_closed_span h.good hcont (s := i + 1) (by rw [hd]; omega) (by omega) hlt (le_refl _) hlt.le,
        sum_NS_window (fun j => c.cps.getD j 0) (by rw [hd]; omega) (by omega), hd, Finset.sum_range_succ,
        Finset.sum_range_succ, Finset.sum_range_zero]
      simp only [Nat.add_sub_cancel, NS, zero_add, add_zero]
      rw [if_neg (by omega), if_pos trivial, if_neg (by omega)]
      have hne : kf c.knots (i + 1 + 1) - kf c.knots (i + 1) ≠ 0 := sub_ne_zero.2 hlt.ne'
      simp [div_self hne, show i + 2 = i + 1 + 1 by omega]
    · obtain ⟨j, rfl⟩ : ∃ j, i = j + 1 := ⟨i - 1, by omega⟩
      have hlt := hk (j + 1) (by omega) (by omega)
      rw [eval_eq_closed_span h.good hcont (s := j + 1) (by rw [hd]; omega) (by omega) hlt hlt.le (le_refl _),
        sum_NS_window (fun j => c.cps.getD j 0) (by rw [hd]; omega) (by omega), hd, Finset.sum_range_succ,
        Finset.sum_range_succ, Finset.sum_range_zero]
      simp only [Nat.add_sub_cancel, NS, zero_add, add_zero]
      rw [if_neg (by omega), if_pos trivial, if_neg (by omega)]
      have hne : kf c.knots (j + 1 + 1) - kf c.knots (j + 1) ≠ 0 := sub_ne_zero.2 hlt.ne'
      simp [div_self hne, show j + 2 = j + 1 + 1 by omega]
  rw [hev]
  rfl

theorem degree_one_sampling {M : Metric K W} {eps floor tol : K} {rnd : ℕ → K} {fuel : ℕ} {c : Curve K (W × K)}
    (h : Fine eps c) (hd : c.degree = 1) (hk : ∀ i, 1 ≤ i → i < c.cps.length → kf c.knots i < kf c.knots (i + 1)) :
    ∃ pts pos ts, tessellateCurve M eps floor rnd fuel c tol = .ok (pts, pos) ∧ Sampling eps c ts pts := by
  have hle : 2 ≤ c.cps.length := by
    have := h.good.good.le
    have := h.good.cps_pos
    omega
  refine ⟨_, _, (List.range c.cps.length).map fun i => kf c.knots (i + 1), C44_degree_one h.pos hd, ?_, ?_, ?_, ?_⟩
  · rw [List.forall₂_iff_get]
    refine ⟨by simp, fun i h1 h2 => ?_⟩
    have hi : i < c.cps.length := by simpa using h1
    simp only [List.get_eq_getElem, List.getElem_map, List.getElem_range]
    rw [degree_one_point h hd hk hi, List.getD_eq_getElem?_getD, List.getElem?_eq_getElem hi]
    rfl
  · obtain ⟨n, hn⟩ : ∃ n, c.cps.length = n + 1 := ⟨c.cps.length - 1, by omega⟩
    rw [hn, List.range_succ_eq_map]
    simp [Curve.lo, hd]
  · obtain ⟨n, hn⟩ : ∃ n, c.cps.length = n + 1 := ⟨c.cps.length - 1, by omega⟩
    rw [hn, List.range_succ]
    simp [Curve.hi, hn]
  · rw [List.isChain_map, List.isChain_iff_getElem]
    intro i hi
    simp only [List.length_range] at hi
    simp only [List.getElem_range]
    exact hk (i + 1) (by omega) hi

/-- A span that is sampled from end to end: of degree one with increasing knots, or of another degree, with a domain
    that is not shorter than the floor, and such that every piece shorter than twice the floor is flat. -/
def Sampled (M : Metric K W) (floor tol : K) (c : Curve K (W × K)) : Prop :=
  (c.degree = 1 ∧ ∀ i, 1 ≤ i → i < c.cps.length → kf c.knots i < kf c.knots (i + 1)) ∨
  (c.degree ≠ 1 ∧ floor ≤ c.hi - c.lo ∧ ∀ a b, c.lo ≤ a → b ≤ c.hi → a ≤ b → b - a < 2 * floor → ∀ r, 0 ≤ r → r < 1 →
    Passes M (fun t => (c.eval t).2⁻¹ • (c.eval t).1) tol a b r)

/-- Tessellation of a compound curve ends, for all random numbers, with such a polyline. -/
theorem C80_tessellation [Archimedean K] {M : Metric K W} {eps ceps floor tol : K} {dist : W → W → K} {rnd : ℕ → ℕ → K}
    (hfl : 0 < floor) (hr : ∀ i n, 0 ≤ rnd i n ∧ rnd i n < 1)
    {spans : List (Curve K (W × K))} (hf : ∀ c ∈ spans, Fine eps c ∧ Sampled M floor tol c)
    (hc : spans.IsChain fun a b => b.lo = a.hi)
    {first last : Curve K (W × K)} (h1 : spans.head? = some first) (h2 : spans.getLast? = some last) :
    ∃ (N : ℕ) (out : List W) (ts : List K),
      (∀ fuel, N ≤ fuel → Compound.tessellate M eps ceps floor dist rnd fuel spans tol = .ok out) ∧
      ts.length = out.length ∧ ts.IsChain (Step spans) ∧ ts.head? = some first.lo ∧ ts.getLast? = some last.hi ∧
      out.head? = some (startPt first) ∧
      List.Forall₂ (OnSpan eps spans) ts.dropLast out.dropLast ∧
      out.getLast? = some (if dist (startPt first) (stopPt last) < ceps then startPt first else stopPt last) := by
  have one : ∀ c ∈ spans, ∀ i, ∃ N pts pos ts, (∀ fuel, N ≤ fuel →
      tessellateCurve M eps floor (rnd i) fuel c tol = .ok (pts, pos)) ∧ Sampling eps c ts pts := by
    intro c hm i
    obtain ⟨g, hs⟩ := hf c hm
    rcases hs with ⟨hd, hk⟩ | ⟨hd, hdom, hsmall⟩
    · obtain ⟨pts, pos, ts, e, s⟩ := degree_one_sampling (M := M) (floor := floor) (tol := tol) (rnd := rnd i) (fuel := 0) g hd hk
      exact ⟨0, pts, pos, ts, fun fuel hn => tessellateCurve_mono e hn, s⟩
    · obtain ⟨N, ts, pts, pos, e, s1, s2, s3, s4⟩ := C44_end_points (M := M) (tol := tol) g.good g.pos hd hfl (hr i) hdom hsmall
      exact ⟨N, pts, pos, ts, fun fuel hn => tessellateCurve_mono e hn, s1, s2, s3, s4.imp fun _ _ h => h.1⟩
  have all : ∀ l : List (Curve K (W × K) × ℕ), (∀ x ∈ l, x.1 ∈ spans) → ∃ N, ∀ fuel, N ≤ fuel → ∀ x ∈ l,
      ∃ pts pos ts, tessellateCurve M eps floor (rnd x.2) fuel x.1 tol = .ok (pts, pos) ∧ Sampling eps x.1 ts pts := by
    intro l
    induction l with
    | nil => intro _; exact ⟨0, by simp⟩
    | cons x l ih =>
      intro hl
      obtain ⟨N, hN⟩ := ih fun y hy => hl y (by simp [hy])
      obtain ⟨N', pts, pos, ts, e, s⟩ := one x.1 (hl x (by simp)) x.2
      refine ⟨max N N', fun fuel hn y hy => ?_⟩
      rcases List.mem_cons.1 hy with rfl | hy
      · exact ⟨pts, pos, ts, e fuel (le_trans (le_max_right _ _) hn), s⟩
      · exact hN fuel (le_trans (le_max_left _ _) hn) y hy
  obtain ⟨N, hN⟩ := all spans.zipIdx fun x hx => by
    obtain ⟨-, -, e⟩ := List.mem_zipIdx hx
    rw [e]; exact List.getElem_mem _
  obtain ⟨out, ts, e, r⟩ := C80_vertices (ceps := ceps) (dist := dist) (fun c hc => (hf c hc).1) hc h1 h2 (hN N (le_refl _))
  refine ⟨N, out, ts, fun fuel hn => ?_, r⟩
  unfold Compound.tessellate at e ⊢
  obtain ⟨cl, e1, e⟩ := bind_eq_ok.1 e
  rw [e1, ok_bind]
  have same : ∀ x ∈ spans.zipIdx, tessellateCurve M eps floor (rnd x.2) fuel x.1 tol =
      tessellateCurve M eps floor (rnd x.2) N x.1 tol := by
    intro x hx
    obtain ⟨pts, pos, ts, e, -⟩ := hN N (le_refl _) x hx
    rw [e, tessellateCurve_mono e hn]
  have cong : ∀ {f g : Curve K (W × K) × ℕ → Res (List W)} (l : List (Curve K (W × K) × ℕ)), (∀ x ∈ l, f x = g x) →
      l.mapM f = l.mapM g := by
    intro f g l
    induction l with
    | nil => intro _; rfl
    | cons x l ih => intro h; rw [List.mapM_cons, List.mapM_cons, h x (by simp), ih fun y hy => h y (by simp [hy])]
  cases cl
  · simp only [Bool.false_eq_true, if_false] at e ⊢
    rw [← e]
    congr 1
    exact cong _ fun x hx => by rw [same x hx]
  · simp only [if_true] at e ⊢
    rw [← e]
    congr 1
    exact cong _ fun x hx => by rw [same x hx]

/-- Without spans the tessellation is empty. -/
theorem C80_empty {M : Metric K W} {eps ceps floor tol : K} {dist : W → W → K} {rnd : ℕ → ℕ → K} {fuel : ℕ} :
    Compound.tessellate M eps ceps floor dist rnd fuel ([] : List (Curve K (W × K))) tol = .ok [] := rfl

/-! ### Witnesses -/

/-- The angle, moved and scaled. -/
example : ∃ out, Compound.transform exAffine exAngle = .ok out ∧
    Compound.pointAt (1/1000) (1/2) out = (Compound.pointAt (1/1000) (1/2) exAngle).map
      (Option.map fun q => exAffine.d⁻¹ • (exAffine.A q + exAffine.b)) := by
  obtain ⟨out, h1, -, h2⟩ := C79_transform (1/1000) exAffine rfl (by decide) exAngle (by decide +kernel)
  exact ⟨out, h1, h2 _⟩

example : Compound.findClosestPoint axisNorm (fun v => v.1 ^ 2 + v.2 ^ 2) dotQ (1/1000) exAngle (1/2, -1) = .ok (1/2, 0) := by
  decide +kernel

/-- The angle is tessellated into its corners. -/
example (rnd : ℕ → ℕ → ℚ) (hr : ∀ i n, 0 ≤ rnd i n ∧ rnd i n < 1) :=
  C80_tessellation (M := planeMetric) (eps := 1/1000) (ceps := 1/100) (floor := 1/10^8) (tol := 1/1000) (dist := maxDist)
    (by norm_num) hr (spans := exAngle) (fun c hc => ⟨(exAngle_fine c hc).1, .inl (by
      simp only [exAngle, List.mem_cons, List.not_mem_nil, or_false] at hc
      rcases hc with rfl | rfl <;> refine ⟨rfl, fun i h1 h2 => ?_⟩ <;>
        (simp at h2; obtain rfl : i = 1 := by omega); all_goals norm_num [kf])⟩)
    (by rw [exAngle]; simp [Curve.lo, Curve.hi, kf]) rfl rfl

example : Compound.tessellate planeMetric (1/1000) (1/100) (1/10^8) maxDist (fun _ _ => 1/2) 1 exAngle (1/1000) =
    .ok [(0, 0), (1, 0), (1, 1)] := by
  decide +kernel

/-- A closed triangle of two spans ends where it starts. -/
example : Compound.tessellate planeMetric (1/1000) (1/100) (1/10^8) maxDist (fun _ _ => 1/2) 1
    [{ degree := 1, cps := [((0, 0), 1), ((1, 0), 1), ((1, 1), 1)], knots := [0, 0, 1, 2, 2] },
     { degree := 1, cps := [((1, 1), 1), ((0, 1/1000), 1)], knots := [2, 2, 3, 3] }] (1/1000) =
    .ok [(0, 0), (1, 0), (1, 1), (0, 0)] := by
  decide +kernel

end Curvo.Props

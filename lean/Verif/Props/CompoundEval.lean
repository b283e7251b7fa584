/-
  C43, C71, C72: inversion, evaluation and trimming of compound curves.
-/
import Verif.Props.CompoundChain
import Verif.Props.Refine

set_option linter.unusedSectionVars false

namespace Curvo.Props

open Curvo.Knots Curvo.Spec Curvo.Curve Curvo.Compound

variable {K : Type} [Field K] [LinearOrder K] [IsStrictOrderedRing K]
variable {W : Type} [AddCommGroup W] [Module K W]

/-! ### C71: evaluation -/

/-- Evaluation skips spans that end before the parameter. -/
theorem pointAt_skip {eps t : K} : ∀ {pre post : List (Curve K (W × K))}, (∀ c ∈ pre, Fine eps c) →
    (∀ c ∈ pre, c.hi < t ∨ t < c.lo) → Compound.pointAt eps t (pre ++ post) = Compound.pointAt eps t post
  | [], _, _, _ => rfl
  | c :: pre, post, hf, hlt => by
    rw [List.cons_append, Compound.pointAt, knotsDomain_eq (hf c (by simp)).good, ok_bind, if_neg]
    · exact pointAt_skip (fun x hx => hf x (List.mem_cons_of_mem _ hx)) (fun x hx => hlt x (List.mem_cons_of_mem _ hx))
    · rintro ⟨h1, h2⟩
      rcases hlt c (by simp) with h | h
      · exact absurd h2 (not_le.2 h)
      · exact absurd h1 (not_le.2 h)

theorem pointAt_here {eps t : K} {c : Curve K (W × K)} {post : List (Curve K (W × K))} (hf : Fine eps c)
    (h1 : c.lo ≤ t) (h2 : t ≤ c.hi) : Compound.pointAt eps t (c :: post) = .ok (some (proj (c.eval t))) := by
  rw [Compound.pointAt, knotsDomain_eq hf.good, ok_bind, if_pos ⟨h1, h2⟩,
    (C09_point_at_positive_weights hf.good hf.pos h1 h2).1]
  rfl

/-- In a list with consecutive domains, earlier spans end before later ones start. -/
theorem consecutive_le {eps : K} {pre post : List (Curve K (W × K))} {c : Curve K (W × K)}
    (hf : ∀ x ∈ pre ++ c :: post, Fine eps x) (hc : (pre ++ c :: post).IsChain fun a b => b.lo = a.hi) :
    (∀ x ∈ pre, x.hi ≤ c.lo) ∧ ∀ x ∈ post, c.hi ≤ x.lo := by
  have hlt : ∀ x ∈ pre ++ c :: post, x.lo ≤ x.hi := fun x hx => (hf x hx).lo_le_hi
  have hpw : (pre ++ c :: post).Pairwise fun a b => a.hi ≤ b.lo := by
    -- a chain of consecutive domains is ordered
    have : ∀ l : List (Curve K (W × K)), (∀ x ∈ l, x.lo ≤ x.hi) → l.IsChain (fun a b => b.lo = a.hi) →
        l.Pairwise fun a b => a.hi ≤ b.lo := by
      intro l
      induction l with
      | nil => intros; exact .nil
      | cons a l ih =>
        intro h1 h2
        obtain ⟨h3, h4⟩ := List.isChain_cons.1 h2
        have ih' := ih (fun x hx => h1 x (List.mem_cons_of_mem _ hx)) h4
        refine List.pairwise_cons.2 ⟨?_, ih'⟩
        intro b hb
        cases l with
        | nil => cases hb
        | cons d l =>
          have hd := h3 d (by simp)
          rcases List.mem_cons.1 hb with rfl | hb
          · exact hd.ge
          · exact le_trans hd.ge (le_trans (h1 d (by simp)) ((List.pairwise_cons.1 ih').1 b hb))
    exact this _ hlt hc
  rw [List.pairwise_append] at hpw
  exact ⟨fun x hx => hpw.2.2 x hx c (by simp), fun x hx => (List.pairwise_cons.1 hpw.2.1).1 x hx⟩

/-- A compound curve with consecutive domains evaluates, at each parameter after the start of a span and
    up to its end, to the point of that span; at its first parameter, to the start of its first span. -/
theorem C71_evaluates {eps : K} {spans : List (Curve K (W × K))} (hf : ∀ c ∈ spans, Fine eps c) (hc : Consecutive spans) :
    (∀ c ∈ spans, ∀ t, c.lo < t → t ≤ c.hi → Compound.pointAt eps t spans = .ok (some (proj (c.eval t)))) ∧
    (∀ c ∈ spans.head?, Compound.pointAt eps 0 spans = .ok (some (startPt c))) := by
  constructor
  · intro c hm t h1 h2
    obtain ⟨pre, post, rfl⟩ := List.append_of_mem hm
    obtain ⟨hle, -⟩ := consecutive_le hf hc.2
    rw [pointAt_skip (fun x hx => hf x (List.mem_append_left _ hx)) (fun x hx => .inl (lt_of_le_of_lt (hle x hx) h1))]
    exact pointAt_here (hf c hm) h1.le h2
  · intro c hm
    cases spans with
    | nil => cases hm
    | cons a l =>
      obtain rfl := Option.some.inj hm
      have h0 : a.lo = 0 := hc.1 a rfl
      have := pointAt_here (post := l) (hf a (by simp)) (le_refl _) (hf a (by simp)).lo_le_hi
      rw [h0] at this
      rw [this, startPt, h0]

/-- The parameters at which it evaluates are exactly those from zero to the end of the last domain. -/
theorem C71_domain {eps : K} {spans : List (Curve K (W × K))} (hf : ∀ c ∈ spans, Fine eps c) (hc : Consecutive spans)
    {last : Curve K (W × K)} (hl : spans.getLast? = some last) (t : K) :
    (0 ≤ t ∧ t ≤ last.hi → ∃ p, Compound.pointAt eps t spans = .ok (some p)) ∧
    (¬ (0 ≤ t ∧ t ≤ last.hi) → Compound.pointAt eps t spans = .ok none) := by
  have key : ∀ l : List (Curve K (W × K)), (∀ c ∈ l, Fine eps c) → l.IsChain (fun a b => b.lo = a.hi) →
      ∀ a0 ∈ l.head?, ∀ b0 ∈ l.getLast?,
      (a0.lo ≤ t ∧ t ≤ b0.hi → ∃ p, Compound.pointAt eps t l = .ok (some p)) ∧
      (¬ (a0.lo ≤ t ∧ t ≤ b0.hi) → Compound.pointAt eps t l = .ok none) := by
    intro l
    induction l with
    | nil => intro _ _ a0 h; cases h
    | cons a l ih =>
      intro hf hc a0 ha b0 hb
      obtain rfl := Option.some.inj ha
      obtain ⟨h3, h4⟩ := List.isChain_cons.1 hc
      by_cases hin : a.lo ≤ t ∧ t ≤ a.hi
      · rw [pointAt_here (hf a (by simp)) hin.1 hin.2]
        refine ⟨fun _ => ⟨_, rfl⟩, fun hn => absurd ⟨hin.1, le_trans hin.2 ?_⟩ hn⟩
        rcases List.eq_nil_or_concat l with rfl | ⟨l', b, e⟩
        · obtain rfl := Option.some.inj hb; exact le_refl _
        · have hb' : b0 = b := by
            have e' : a :: l = (a :: l') ++ [b] := by rw [e]; simp
            rw [e', List.getLast?_concat] at hb
            exact (Option.some.inj hb).symm
          subst hb'
          obtain ⟨-, h5⟩ := consecutive_le (pre := []) (c := a) (post := l) hf hc
          have hbm : b0 ∈ l := by rw [e]; simp
          exact le_trans (h5 b0 hbm) (hf b0 (List.mem_cons_of_mem _ hbm)).lo_le_hi
      · have hskip : Compound.pointAt eps t (a :: l) = Compound.pointAt eps t l := by
          rw [Compound.pointAt, knotsDomain_eq (hf a (by simp)).good, ok_bind, if_neg hin]
        rw [hskip]
        cases l with
        | nil =>
          obtain rfl := Option.some.inj hb
          exact ⟨fun h => absurd h hin, fun _ => rfl⟩
        | cons d l =>
          obtain ⟨i1, i2⟩ := ih (fun x hx => hf x (List.mem_cons_of_mem _ hx)) h4 d rfl b0 (by simpa using hb)
          have hd := h3 d rfl
          constructor
          · rintro ⟨h5, h6⟩
            refine i1 ⟨?_, h6⟩
            rw [hd]
            by_contra hcon
            exact hin ⟨h5, (not_le.1 hcon).le⟩
          · intro hn
            apply i2
            rintro ⟨h5, h6⟩
            exact hn ⟨le_trans (hf a (by simp)).lo_le_hi (hd ▸ h5), h6⟩
  cases spans with
  | nil => cases hl
  | cons a l =>
    have h0 : a.lo = 0 := hc.1 a rfl
    have := key (a :: l) hf hc.2 a rfl last hl
    rw [h0] at this
    exact this

/-- The jump at a joint: the compound curve evaluates there to the end of the span before, and the span
    after starts within the tolerance of this point. -/
theorem C71_joints {eps tol : K} {dist : W → W → K} {spans : List (Curve K (W × K))} (hf : ∀ c ∈ spans, Fine eps c)
    (hc : Consecutive spans) (hj : Joined tol dist spans) {i : ℕ} (hi : i + 1 < spans.length) :
    Compound.pointAt eps (spans[i + 1].lo) spans = .ok (some (stopPt spans[i])) ∧
      dist (stopPt spans[i]) (startPt spans[i + 1]) < tol := by
  have h1 := (List.isChain_iff_getElem.1 hc.2) i hi
  have hm := List.getElem_mem (show i < spans.length by omega)
  refine ⟨?_, (List.isChain_iff_getElem.1 hj) i hi⟩
  rw [h1]
  have hg := (hf _ hm).good
  have hlt : spans[i].lo < spans[i].hi := by
    have := hg.good.first
    refine lt_of_lt_of_le this (hg.good.mono _ _ ?_ ?_)
    · have := hg.cps_pos; have := hg.good.le; omega
    · have := hg.cps_pos; have := hg.good.le; omega
  exact (C71_evaluates hf hc).1 _ hm _ hlt (le_refl _)

/-! ### C43: inversion -/

/-- Inversion reverses the order of the spans and inverts each of them. -/
theorem C43_invert {eps : K} {spans : List (Curve K (W × K))} (hf : ∀ c ∈ spans, Fine eps c)
    (hcont : ∀ c ∈ spans, ContKnots (kf c.knots) c.degree (c.cps.length - 1)) :
    ∃ inv, Compound.invert spans = .ok inv.reverse ∧
      List.Forall₂ (fun c c' => Fine eps c' ∧ startPt c' = stopPt c ∧ stopPt c' = startPt c ∧
        ∀ u, c.lo ≤ u → u ≤ c.hi → c'.eval (kf c.knots 0 + kf c.knots (c.knots.length - 1) - u) = c.eval u) spans inv := by
  have key : ∀ l : List (Curve K (W × K)), (∀ c ∈ l, Fine eps c) →
      (∀ c ∈ l, ContKnots (kf c.knots) c.degree (c.cps.length - 1)) →
      ∃ inv, l.mapM (fun c => c.invert) = .ok inv ∧
      List.Forall₂ (fun c c' => Fine eps c' ∧ startPt c' = stopPt c ∧ stopPt c' = startPt c ∧
        ∀ u, c.lo ≤ u → u ≤ c.hi → c'.eval (kf c.knots 0 + kf c.knots (c.knots.length - 1) - u) = c.eval u) l inv := by
    intro l
    induction l with
    | nil => intros; exact ⟨[], rfl, .nil⟩
    | cons c l ih =>
      intro hf hcont
      obtain ⟨inv, h1, h2⟩ := ih (fun x hx => hf x (List.mem_cons_of_mem _ hx)) (fun x hx => hcont x (List.mem_cons_of_mem _ hx))
      obtain ⟨c', hi, hfi, hs, he⟩ := invert_ends (hf c (by simp)) (hcont c (by simp))
      obtain ⟨c'', hi', hg, -, hlo, hhi, hp⟩ := C13_invert_reverses (hf c (by simp)).good (hcont c (by simp))
      rw [hi] at hi'
      obtain rfl := Except.ok.inj hi'
      refine ⟨c' :: inv, ?_, .cons ⟨hfi, hs, he, ?_⟩ h2⟩
      · rw [List.mapM_cons, hi, ok_bind, h1, ok_bind]; rfl
      · intro u h3 h4
        have := hp u h3 h4
        rw [point_eq_eval hg (by rw [hlo]; linarith) (by rw [hhi]; linarith), point_eq_eval (hf c (by simp)).good h3 h4] at this
        exact Except.ok.inj this
  obtain ⟨inv, h1, h2⟩ := key spans hf hcont
  exact ⟨inv, by rw [Compound.invert, h1, ok_bind]; rfl, h2⟩

/-- Inverting twice gives the original spans. -/
theorem C43_involutive {V : Type} [AddCommGroup V] [Module K V] {spans inv : List (Curve K V)} (h : Compound.invert spans = .ok inv) :
    Compound.invert inv = .ok spans := by
  rw [Compound.invert] at h
  obtain ⟨l, hl, h⟩ := bind_eq_ok.1 h
  obtain rfl := Except.ok.inj h
  have key : ∀ (s l : List (Curve K V)), s.mapM (fun c => c.invert) = .ok l →
      l.reverse.mapM (fun c => c.invert) = .ok s.reverse := by
    intro s
    induction s with
    | nil => intro l h; obtain rfl := Except.ok.inj h; rfl
    | cons c s ih =>
      intro l h
      rw [List.mapM_cons] at h
      obtain ⟨c', hc, h⟩ := bind_eq_ok.1 h
      obtain ⟨l', hl, h⟩ := bind_eq_ok.1 h
      obtain rfl := Except.ok.inj h
      rw [List.reverse_cons, List.mapM_append, ih _ hl, ok_bind, List.mapM_cons, C13_invert_involutive hc, ok_bind]
      simp
  rw [Compound.invert, key _ _ hl, ok_bind, List.reverse_reverse]; rfl

/-- Joined spans stay joined. -/
theorem C43_joined {eps tol : K} {dist : W → W → K} (hsym : ∀ x y, dist x y = dist y x) {spans inv : List (Curve K (W × K))}
    (hf : ∀ c ∈ spans, Fine eps c)
    (hcont : ∀ c ∈ spans, ContKnots (kf c.knots) c.degree (c.cps.length - 1)) (hj : Joined tol dist spans)
    (h : Compound.invert spans = .ok inv) : Joined tol dist inv := by
  obtain ⟨l, h1, h2⟩ := C43_invert hf hcont
  rw [h] at h1
  obtain rfl := Except.ok.inj h1
  rw [Joined, List.isChain_reverse]
  rw [Joined, List.isChain_iff_getElem] at hj
  rw [List.isChain_iff_getElem]
  intro i hi
  have hl := h2.length_eq
  have hm : ∀ j (a : j < spans.length) (b : j < l.length), startPt l[j] = stopPt spans[j] ∧ stopPt l[j] = startPt spans[j] := by
    intro j a b
    have := (List.forall₂_iff_get.1 h2).2 j a b
    simp only [List.get_eq_getElem] at this
    exact ⟨this.2.1, this.2.2.1⟩
  show dist (stopPt l[i + 1]) (startPt l[i]) < tol
  rw [(hm i (by omega) (by omega)).1, (hm (i + 1) (by omega) (by omega)).2, hsym]
  exact hj i (by omega)

/-- What a moved curve evaluates to. -/
theorem Moved.eval {eps : K} {c c' : Curve K (W × K)} (h : Fine eps c) (hm : Moved c c') :
    c'.hi - c'.lo = c.hi - c.lo ∧ ∀ u, c.lo ≤ u → u ≤ c.hi → c'.eval (u + (c'.lo - c.lo)) = c.eval u := by
  obtain ⟨β, rfl⟩ := hm
  have := affine_good h.good (α := 1) (β := β) (le_refl _)
  simp only [one_mul] at this
  obtain ⟨hg, hlo, hhi, he⟩ := this
  refine ⟨by rw [hlo, hhi]; ring, ?_⟩
  intro u h1 h2
  rw [hlo]
  have e : u + (c.lo + β - c.lo) = u + β := by ring
  rw [e]
  exact he u h1 h2

/-- Inverting and then aligning the knots again reverses the whole parametrisation `[0, T]`. -/
theorem C43_realigned_reverses {eps : K} {spans inv : List (Curve K (W × K))} (hf : ∀ c ∈ spans, Fine eps c)
    (hcont : ∀ c ∈ spans, ContKnots (kf c.knots) c.degree (c.cps.length - 1)) (hfull : ∀ c ∈ spans, FullDomain c)
    (hc : Consecutive spans) (h : Compound.invert spans = .ok inv) {last : Curve K (W × K)} (hl : spans.getLast? = some last) :
    ∃ out, align 0 inv = .ok out ∧ Consecutive out ∧ (∀ e ∈ out.getLast?, e.hi = last.hi) ∧
      ∀ c ∈ spans, ∀ t, c.lo < t → t < c.hi →
        Compound.pointAt eps (last.hi - t) out = Compound.pointAt eps t spans := by
  obtain ⟨l, h1, h2⟩ := C43_invert hf hcont
  rw [h] at h1
  obtain rfl := Except.ok.inj h1
  have hlen := h2.length_eq
  -- facts about the inverted spans
  have hinv : ∀ j (a : j < spans.length) (b : j < l.length), Fine eps l[j] ∧ FullDomain l[j] ∧ l[j].lo = spans[j].lo ∧
      l[j].hi = spans[j].hi ∧ ∀ u, spans[j].lo ≤ u → u ≤ spans[j].hi → l[j].eval (spans[j].lo + spans[j].hi - u) = spans[j].eval u := by
    intro j a b
    have hm := List.getElem_mem a
    have h3 := (List.forall₂_iff_get.1 h2).2 j a b
    simp only [List.get_eq_getElem] at h3
    have hor : spans[j].invert = .ok l[j] := by
      rw [Compound.invert] at h
      obtain ⟨l', hl', h'⟩ := bind_eq_ok.1 h
      have e := Except.ok.inj h'
      have e' : l' = l := List.reverse_injective e
      subst e'
      have := (List.forall₂_iff_get.1 (mapM_ok_inv hl')).2 j a b
      simpa using this
    obtain ⟨hfd1, hfd2⟩ := Oriented.full (hf _ hm) (hcont _ hm) (.inr hor) (hfull _ hm)
    obtain ⟨c'', hi', hg, -, hlo, hhi, -⟩ := C13_invert_reverses (hf _ hm).good (hcont _ hm)
    rw [hor] at hi'
    obtain rfl := Except.ok.inj hi'
    obtain ⟨f1, f2⟩ := hfull _ hm
    refine ⟨h3.1, ⟨hfd1, hfd2⟩, by rw [hlo, f1, f2]; ring, by rw [hhi, f1, f2]; ring, ?_⟩
    intro u h4 h5
    rw [← h3.2.2.2 u h4 h5, f1, f2]
  have hrm : ∀ c ∈ l.reverse, ∃ j, ∃ a : j < l.length, c = l[j] := by
    intro c hc
    obtain ⟨j, hj, rfl⟩ := List.getElem_of_mem (List.mem_reverse.1 hc)
    exact ⟨j, hj, rfl⟩
  have hlf : ∀ c ∈ l.reverse, Fine eps c ∧ FullDomain c := by
    intro c hc
    obtain ⟨j, hj, rfl⟩ := hrm c hc
    have := hinv j (by omega) hj
    exact ⟨this.1, this.2.1⟩
  obtain ⟨out, ho, hm, hcons, -⟩ := align_full (tol := 1) (dist := fun _ _ => 0) (fun c hc => (hlf c hc).1)
    (fun c hc => (hlf c hc).2) (by
      rw [Joined, List.isChain_iff_getElem]; intro i hi; exact one_pos)
  have hol : out.length = spans.length := by rw [← hm.length_eq, List.length_reverse, hlen]
  have hmj : ∀ j (a : j < out.length), ∃ b : spans.length - 1 - j < l.length, Moved l[spans.length - 1 - j] out[j] := by
    intro j a
    have b : j < l.reverse.length := by rw [List.length_reverse]; omega
    refine ⟨by omega, ?_⟩
    have := (List.forall₂_iff_get.1 hm).2 j b a
    simp only [List.get_eq_getElem, List.getElem_reverse] at this
    have e : l[l.length - 1 - j]'(by omega) = l[spans.length - 1 - j]'(by omega) := by congr 1; omega
    rw [← e]; exact this
  have hfo : ∀ c ∈ out, Fine eps c := by
    intro c hc
    obtain ⟨j, hj, rfl⟩ := List.getElem_of_mem hc
    obtain ⟨b, hmv⟩ := hmj j hj
    exact (hmv.ends (hinv _ (by omega) b).1).1
  have hpos : 0 < spans.length := by
    cases spans with
    | nil => cases hl
    | cons a s => simp
  have hlast : last = spans[spans.length - 1] := by
    rw [List.getLast?_eq_getElem?, List.getElem?_eq_getElem (by omega)] at hl
    exact (Option.some.inj hl).symm
  -- the domains of the result
  have hdom : ∀ j (a : j < out.length), out[j].lo = last.hi - (spans[spans.length - 1 - j]'(by omega)).hi ∧
      out[j].hi = last.hi - (spans[spans.length - 1 - j]'(by omega)).lo := by
    have hw : ∀ j (a : j < out.length), out[j].hi - out[j].lo =
        (spans[spans.length - 1 - j]'(by omega)).hi - (spans[spans.length - 1 - j]'(by omega)).lo := by
      intro j a
      obtain ⟨b, hmv⟩ := hmj j a
      have hi := hinv (spans.length - 1 - j) (by omega) b
      rw [(hmv.eval hi.1).1, hi.2.2.1, hi.2.2.2.1]
    intro j
    induction j with
    | zero =>
      intro a
      have h0 : out[0].lo = 0 := hcons.1 out[0] (by rw [List.head?_eq_getElem?, List.getElem?_eq_getElem a]; rfl)
      have hw0 := hw 0 a
      have e : spans[spans.length - 1 - 0]'(by omega) = last := by rw [hlast]; rfl
      rw [e] at hw0 ⊢
      rw [h0] at hw0 ⊢
      exact ⟨by ring, by linarith⟩
    | succ j ih =>
      intro a
      obtain ⟨i1, i2⟩ := ih (by omega)
      have hn := (List.isChain_iff_getElem.1 hcons.2) j a
      have hs := (List.isChain_iff_getElem.1 hc.2) (spans.length - 1 - (j + 1)) (by omega)
      have e : spans[spans.length - 1 - (j + 1) + 1]'(by omega) = spans[spans.length - 1 - j]'(by omega) := by
        congr 1; omega
      rw [e] at hs
      have hw1 := hw (j + 1) a
      constructor
      · rw [hn, i2, hs]
      · have : out[j + 1].lo = last.hi - (spans[spans.length - 1 - (j + 1)]'(by omega)).hi := by rw [hn, i2, hs]
        linarith
  refine ⟨out, ho, hcons, ?_, ?_⟩
  · intro e he
    rw [List.getLast?_eq_getElem?, List.getElem?_eq_getElem (by omega)] at he
    obtain rfl := Option.some.inj he
    rw [(hdom _ (by omega)).2]
    have e0 : spans[spans.length - 1 - (out.length - 1)]'(by omega) = spans[0] := by congr 1; omega
    rw [e0, hc.1 spans[0] (by rw [List.head?_eq_getElem?, List.getElem?_eq_getElem hpos]; rfl), sub_zero]
  · intro c hcm t ht1 ht2
    rw [(C71_evaluates hf hc).1 c hcm t ht1 ht2.le]
    obtain ⟨i, hi, rfl⟩ := List.getElem_of_mem hcm
    have hj : spans.length - 1 - i < out.length := by omega
    obtain ⟨d1, d2⟩ := hdom _ hj
    have e0 : spans[spans.length - 1 - (spans.length - 1 - i)]'(by omega) = spans[i] := by congr 1; omega
    rw [e0] at d1 d2
    rw [(C71_evaluates hfo hcons).1 _ (List.getElem_mem hj) (last.hi - t) (by rw [d1]; linarith) (by rw [d2]; linarith)]
    obtain ⟨b, hmv⟩ := hmj _ hj
    have e1 : l[spans.length - 1 - (spans.length - 1 - i)]'b = l[i]'(by omega) := by congr 1; omega
    rw [e1] at hmv
    have hv := hinv i hi (by omega)
    have h3 := (hmv.eval hv.1).2 (spans[i].lo + spans[i].hi - t) (by rw [hv.2.2.1]; linarith) (by rw [hv.2.2.2.1]; linarith)
    rw [hv.2.2.2.2 t ht1.le ht2.le] at h3
    rw [← h3, d1, hv.2.2.1]
    congr 5
    ring

/-- A right angle of two sides, the second traversed from `1` to `2`. -/
def exAngle : List (Curve ℚ ((ℚ × ℚ) × ℚ)) :=
  [{ degree := 1, cps := [((0, 0), 1), ((1, 0), 1)], knots := [0, 0, 1, 1] },
   { degree := 1, cps := [((1, 0), 1), ((1, 1), 1)], knots := [1, 1, 2, 2] }]

/-- Inversion alone does not reverse the parametrisation: the inverted angle still starts, at parameter
    `0`, within its old first side, and its end is the old joint. -/
theorem C43_domains_not_realigned :
    (Compound.invert exAngle >>= fun inv => Compound.pointAt (1/1000) 0 inv) = .ok (some (1, 0)) ∧
    (Compound.invert exAngle >>= fun inv => Compound.pointAt (1/1000) 2 inv) = .ok (some (1, 0)) ∧
    Compound.pointAt (1/1000) 2 exAngle = .ok (some (1, 1)) ∧
    Compound.pointAt (1/1000) 0 exAngle = .ok (some (0, 0)) := by
  refine ⟨?_, ?_, ?_, ?_⟩ <;> decide +kernel

/-- With the knots aligned again the angle is traversed backwards. -/
example : (Compound.invert exAngle >>= fun inv => align 0 inv >>= fun out => Compound.pointAt (1/1000) (1/4) out) =
      .ok (some (1, 3/4)) ∧ Compound.pointAt (1/1000) (7/4) exAngle = .ok (some (1, 3/4)) := by
  constructor <;> decide +kernel

theorem exAngle_fine : ∀ c ∈ exAngle, Fine (1/1000) c ∧ FullDomain c ∧
    ContKnots (kf c.knots) c.degree (c.cps.length - 1) := by
  intro c hc
  simp only [exAngle, List.mem_cons, List.not_mem_nil, or_false] at hc
  rcases hc with rfl | rfl
  · exact ⟨seg_fine ((0, 0), (1, 0)), seg_full ((0, 0), (1, 0)), seg_cont ((0, 0), (1, 0))⟩
  · refine ⟨⟨⟨by simp, by simp, ⟨by norm_num, by simp, mono_of_sorted (by simp) (by simp), ?_, ?_, ?_, ?_⟩⟩, by simp⟩,
      ⟨rfl, rfl⟩, ?_⟩
    iterate 4 norm_num [kf]
    intro i h1 h2
    have h1' : 1 < i := h1
    have h2' : i + 1 ≤ 1 := h2
    omega

example : Consecutive exAngle := ⟨by intro a ha; obtain rfl := Option.some.inj ha; rfl, by
  rw [exAngle]; simp [Curve.lo, Curve.hi, kf]⟩

end Curvo.Props

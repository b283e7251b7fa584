/-
  C42: construction of compound curves.
-/
import Mathlib.Data.List.Chain
import Verif.Lemmas.Unify
import Verif.Props.Curve2
import Verif.Model.Compound

set_option linter.unusedSectionVars false

namespace Curvo.Props

open Curvo.Knots Curvo.Spec Curvo.Curve Curvo.Compound

variable {K : Type} [Field K] [LinearOrder K] [IsStrictOrderedRing K]
variable {W : Type} [AddCommGroup W] [Module K W]

/-! ### Specification -/

/-- The point where a curve starts / ends. -/
def startPt (c : Curve K (W × K)) : W := proj (c.eval c.lo)
def stopPt (c : Curve K (W × K)) : W := proj (c.eval c.hi)

/-- A curve all of whose evaluations succeed. -/
structure Fine (eps : K) (c : Curve K (W × K)) : Prop where
  good : c.Good eps
  pos : ∀ q ∈ c.cps, 0 < q.2

/-- `x` is one of the two ends of `c`. -/
def IsEnd (c : Curve K (W × K)) (x : W) : Prop := x = startPt c ∨ x = stopPt c

/-- `c'` is `c` or its inverse. -/
def Oriented (c c' : Curve K (W × K)) : Prop := c' = c ∨ c.invert = .ok c'

/-- `c'` is `c` with its knots moved by a constant. -/
def Moved (c c' : Curve K (W × K)) : Prop := ∃ β, c' = { c with knots := c.knots.map fun x => x + β }

/-! ### Pieces -/

theorem Fine.pointAt_lo {eps : K} {c : Curve K (W × K)} (h : Fine eps c) : c.pointAt eps c.lo = .ok (startPt c) := by
  have hle : c.lo ≤ c.hi := by
    have := h.good.cps_pos
    exact h.good.good.mono _ _ (by have := h.good.good.le; omega) (by omega)
  exact (C09_point_at_positive_weights h.good h.pos (le_refl _) hle).1

theorem Fine.pointAt_hi {eps : K} {c : Curve K (W × K)} (h : Fine eps c) : c.pointAt eps c.hi = .ok (stopPt c) := by
  have hle : c.lo ≤ c.hi := by
    have := h.good.cps_pos
    exact h.good.good.mono _ _ (by have := h.good.good.le; omega) (by omega)
  exact (C09_point_at_positive_weights h.good h.pos hle (le_refl _)).1

theorem Fine.lo_le_hi {eps : K} {c : Curve K (W × K)} (h : Fine eps c) : c.lo ≤ c.hi := by
  have := h.good.cps_pos
  exact h.good.good.mono _ _ (by have := h.good.good.le; omega) (by omega)

theorem minBy_spec {α : Type} : ∀ (l : List (K × α)) (b : K × α),
    minBy b l ∈ b :: l ∧ ∀ x ∈ b :: l, (minBy b l).1 ≤ x.1
  | [], b => by simp [minBy]
  | y :: ys, b => by
    rw [minBy]
    obtain ⟨h1, h2⟩ := minBy_spec ys (if y.1 < b.1 then y else b)
    by_cases hlt : y.1 < b.1
    · rw [if_pos hlt] at h1 h2
      rw [if_pos hlt]
      refine ⟨List.mem_cons_of_mem _ h1, ?_⟩
      intro x hx
      rcases List.mem_cons.1 hx with rfl | hx
      · exact le_trans (h2 y (by simp)) hlt.le
      · exact h2 x hx
    · rw [if_neg hlt] at h1 h2
      rw [if_neg hlt]
      refine ⟨?_, ?_⟩
      · rcases List.mem_cons.1 h1 with e | e
        · rw [e]; simp
        · exact List.mem_cons_of_mem _ (List.mem_cons_of_mem _ e)
      · intro x hx
        rcases List.mem_cons.1 hx with rfl | hx
        · exact h2 _ (by simp)
        · rcases List.mem_cons.1 hx with rfl | hx
          · exact le_trans (h2 b (by simp)) (not_lt.1 hlt)
          · exact h2 x (List.mem_cons_of_mem _ hx)

/-- The two ends that a direction pairs up. -/
def pairing (a b : Curve K (W × K)) : Dir → W × W
  | .forward => (stopPt a, startPt b)
  | .backward => (startPt a, stopPt b)
  | .facing => (stopPt a, stopPt b)
  | .opposite => (startPt a, startPt b)

/-- `CurveDirection::new` answers with the closest pair of ends, if closer than the tolerance. -/
theorem direction_spec {eps tol : K} {dist : W → W → K} {a b : Curve K (W × K)} (ha : Fine eps a) (hb : Fine eps b) :
    ∃ r, direction eps tol dist a b = .ok r ∧
      (∀ d, r = some d → dist (pairing a b d).1 (pairing a b d).2 < tol ∧
        ∀ d', dist (pairing a b d).1 (pairing a b d).2 ≤ dist (pairing a b d').1 (pairing a b d').2) ∧
      (r = none → ∀ d, ¬ dist (pairing a b d).1 (pairing a b d).2 < tol) := by
  rw [direction, knotsDomain_eq ha.good, ok_bind, knotsDomain_eq hb.good, ok_bind, ha.pointAt_lo, ok_bind, ha.pointAt_hi,
    ok_bind, hb.pointAt_lo, ok_bind, hb.pointAt_hi, ok_bind]
  refine ⟨_, rfl, ?_⟩
  obtain ⟨m1, m2⟩ := minBy_spec [(dist (startPt a) (stopPt b), Dir.backward), (dist (stopPt a) (stopPt b), Dir.facing),
    (dist (startPt a) (startPt b), Dir.opposite)] (dist (stopPt a) (startPt b), Dir.forward)
  obtain ⟨m, hm⟩ : ∃ m, m = minBy (dist (stopPt a) (startPt b), Dir.forward) [(dist (startPt a) (stopPt b), Dir.backward),
    (dist (stopPt a) (stopPt b), Dir.facing), (dist (startPt a) (startPt b), Dir.opposite)] := ⟨_, rfl⟩
  simp only [← hm] at m1 m2 ⊢
  have hval : m.1 = dist (pairing a b m.2).1 (pairing a b m.2).2 := by
    simp only [List.mem_cons, List.not_mem_nil, or_false] at m1
    rcases m1 with e | e | e | e <;> rw [e] <;> rfl
  have hle : ∀ d, m.1 ≤ dist (pairing a b d).1 (pairing a b d).2 := by
    intro d
    cases d
    · exact m2 (_, .forward) (by simp [pairing])
    · exact m2 (_, .backward) (by simp [pairing])
    · exact m2 (_, .facing) (by simp [pairing])
    · exact m2 (_, .opposite) (by simp [pairing])
  constructor
  · intro d hd
    split at hd
    · rename_i hlt
      obtain rfl := Option.some.inj hd
      rw [← hval]
      exact ⟨hlt, hle⟩
    · cases hd
  · intro hn d
    split at hn
    · cases hn
    · rename_i hlt
      exact fun h => hlt (lt_of_le_of_lt (hle d) h)

theorem findDir_spec {eps tol : K} {dist : W → W → K} {last : Curve K (W × K)} (hl : Fine eps last) :
    ∀ {cs : List (Curve K (W × K))}, (∀ c ∈ cs, Fine eps c) →
      ∃ r, findDir eps tol dist last cs = .ok r ∧
        (r = none → ∀ c ∈ cs, direction eps tol dist last c = .ok none) ∧
        (∀ i d, r = some (i, d) → ∃ c, cs[i]? = some c ∧ direction eps tol dist last c = .ok (some d))
  | [], _ => ⟨none, rfl, by simp, by simp⟩
  | c :: cs, h => by
    obtain ⟨r, hr, -, -⟩ := direction_spec (tol := tol) (dist := dist) hl (h c (by simp))
    rw [findDir, hr, ok_bind]
    cases r with
    | some d =>
      refine ⟨_, rfl, by simp, ?_⟩
      intro i d' e
      obtain ⟨rfl, rfl⟩ := Prod.mk.inj (Option.some.inj e)
      exact ⟨c, rfl, hr⟩
    | none =>
      obtain ⟨r', hr', h1, h2⟩ := findDir_spec (tol := tol) (dist := dist) hl (cs := cs) (fun x hx => h x (List.mem_cons_of_mem _ hx))
      simp only [hr', ok_bind]
      refine ⟨_, rfl, ?_, ?_⟩
      · intro e x hx
        rcases List.mem_cons.1 hx with rfl | hx
        · exact hr
        · exact h1 (by simpa using e) x hx
      · intro i d e
        cases r' with
        | none => simp at e
        | some y =>
          simp only [Option.map_some, Option.some.injEq, Prod.mk.injEq] at e
          obtain ⟨rfl, rfl⟩ := e
          obtain ⟨x, hx, hd⟩ := h2 y.1 y.2 rfl
          exact ⟨x, by simpa using hx, hd⟩

/-- Inverting a curve exchanges its ends. -/
theorem invert_ends {eps : K} {c : Curve K (W × K)} (h : Fine eps c)
    (hcont : ContKnots (kf c.knots) c.degree (c.cps.length - 1)) :
    ∃ c', c.invert = .ok c' ∧ Fine eps c' ∧ startPt c' = stopPt c ∧ stopPt c' = startPt c := by
  obtain ⟨c', hi, hg, -, hlo, hhi, hp⟩ := C13_invert_reverses h.good hcont
  have hpos : ∀ q ∈ c'.cps, 0 < q.2 := by
    rw [Curve.invert] at hi
    obtain ⟨ks, -, hi⟩ := bind_eq_ok.1 hi
    obtain rfl := Except.ok.inj hi
    intro q hq
    exact h.pos q (List.mem_reverse.1 hq)
  have hf : Fine eps c' := ⟨hg, hpos⟩
  refine ⟨c', hi, hf, ?_, ?_⟩
  · have := hp c.hi h.lo_le_hi (le_refl _)
    rw [← hlo, point_eq_eval hg (le_refl _) hf.lo_le_hi, point_eq_eval h.good h.lo_le_hi (le_refl _)] at this
    rw [startPt, stopPt, Except.ok.inj this]
  · have := hp c.lo (le_refl _) h.lo_le_hi
    rw [← hhi, point_eq_eval hg hf.lo_le_hi (le_refl _), point_eq_eval h.good (le_refl _) h.lo_le_hi] at this
    rw [startPt, stopPt, Except.ok.inj this]

theorem Moved.ends {eps : K} {c c' : Curve K (W × K)} (h : Fine eps c) (hm : Moved c c') :
    Fine eps c' ∧ startPt c' = startPt c ∧ stopPt c' = stopPt c := by
  obtain ⟨β, rfl⟩ := hm
  have := affine_good h.good (α := 1) (β := β) (le_refl _)
  simp only [one_mul] at this
  obtain ⟨hg, hlo, hhi, he⟩ := this
  refine ⟨⟨hg, h.pos⟩, ?_, ?_⟩
  · rw [startPt, hlo, he _ (le_refl _) h.lo_le_hi]; rfl
  · rw [stopPt, hhi, he _ h.lo_le_hi (le_refl _)]; rfl

/-- Alignment moves each span so that it starts at the last knot of the one before. -/
theorem align_spec {V : Type} : ∀ {cs : List (Curve K V)} {off : K}, (∀ c ∈ cs, c.knots ≠ []) →
    ∃ out, align off cs = .ok out ∧
      List.Forall₂ (fun c c' => ∃ β, c' = { c with knots := c.knots.map fun x => x + β }) cs out ∧
      (∀ a ∈ out.head?, kf a.knots 0 = off) ∧
      out.IsChain (fun a b => kf b.knots 0 = kf a.knots (a.knots.length - 1))
  | [], off, _ => ⟨[], rfl, .nil, by simp, by simp⟩
  | c :: cs, off, h => by
    have hne := h c (by simp)
    have hpos : 0 < c.knots.length := List.length_pos_iff.2 hne
    obtain ⟨ks, hks⟩ : ∃ ks, ks = c.knots.map fun v => v - kf c.knots 0 + off := ⟨_, rfl⟩
    have hkl : ks.length = c.knots.length := by rw [hks]; simp
    obtain ⟨out, ho, hf, hh, hc⟩ := align_spec (cs := cs) (off := kf ks (ks.length - 1))
      (fun x hx => h x (List.mem_cons_of_mem _ hx))
    refine ⟨{ c with knots := ks } :: out, ?_, .cons ⟨off - kf c.knots 0, ?_⟩ hf, ?_, ?_⟩
    · rw [align, getR_kf hpos, ok_bind]
      simp only [← hks]
      rw [subR_eq_ok (by omega), ok_bind, getR_kf (by omega), ok_bind, ho]
      rfl
    · rw [hks]
      congr 1
      apply List.map_congr_left
      intro x _; ring
    · intro a ha
      simp only [List.head?_cons, Option.mem_def, Option.some.injEq] at ha
      subst ha
      show kf ks 0 = off
      rw [hks, kf, List.getD_eq_getElem?_getD, List.getElem?_map, List.getElem?_eq_getElem hpos]
      simp only [Option.map_some, Option.getD_some]
      rw [kf_eq hpos]; ring
    · rw [List.isChain_cons]
      exact ⟨fun y hy => hh y hy, hc⟩

/-! ### C42 -/

theorem Oriented.ends {eps : K} {c c' : Curve K (W × K)} (h : Fine eps c)
    (hcont : ContKnots (kf c.knots) c.degree (c.cps.length - 1)) (ho : Oriented c c') :
    Fine eps c' ∧ IsEnd c (startPt c') ∧ IsEnd c (stopPt c') := by
  rcases ho with rfl | e
  · exact ⟨h, .inl rfl, .inr rfl⟩
  · obtain ⟨c'', e', hf, h1, h2⟩ := invert_ends h hcont
    rw [e] at e'
    obtain rfl := Except.ok.inj e'
    exact ⟨hf, .inr h1, .inl h2⟩

/-- No three different spans meet: if an end of `a` is near an end of `b`, it is not near an end of a
    third span. -/
def NoBranching (tol : K) (dist : W → W → K) (spans : List (Curve K (W × K))) : Prop :=
  ∀ a b c rest, (a :: b :: c :: rest).Perm spans → ∀ x y z, IsEnd a x → IsEnd b y → IsEnd c z →
    dist x y < tol → ¬ dist x z < tol

/-- The start of the first span is near no other span. -/
def FreeStart (tol : K) (dist : W → W → K) (spans : List (Curve K (W × K))) : Prop :=
  ∀ a rest, spans = a :: rest → ∀ b ∈ rest, ∀ y, IsEnd b y → ¬ dist (startPt a) y < tol

/-- Consecutive spans join within the tolerance. -/
def Joined (tol : K) (dist : W → W → K) (out : List (Curve K (W × K))) : Prop :=
  out.IsChain fun a b => dist (stopPt a) (startPt b) < tol

theorem forall₂_concat_inv {α β : Type} {R : α → β → Prop} : ∀ {l : List α} {m : List β} {a : α} {b : β},
    List.Forall₂ R (l ++ [a]) (m ++ [b]) → List.Forall₂ R l m ∧ R a b
  | [], [], _, _, h => by
    cases h with
    | cons h _ => exact ⟨.nil, h⟩
  | [], _ :: m, _, _, h => by have := h.length_eq; simp at this
  | _ :: l, [], _, _, h => by have := h.length_eq; simp at this
  | _ :: l, _ :: m, _, _, h => by
    cases h with
    | cons h t =>
      obtain ⟨h1, h2⟩ := forall₂_concat_inv t
      exact ⟨.cons h h1, h2⟩

theorem connect_spec {eps tol : K} {dist : W → W → K} {spans : List (Curve K (W × K))} (hsym : ∀ x y, dist x y = dist y x)
    (hfine : ∀ c ∈ spans, Fine eps c) (hcont : ∀ c ∈ spans, ContKnots (kf c.knots) c.degree (c.cps.length - 1))
    (hnb : NoBranching tol dist spans) (hfs : FreeStart tol dist spans) {first : Curve K (W × K)}
    (hfirst : spans.head? = some first) :
    ∀ (fuel : ℕ) (used connected curves : List (Curve K (W × K))), curves.length ≤ fuel →
      (used ++ curves).Perm spans → List.Forall₂ Oriented used connected → Joined tol dist connected →
      used.head? = some first → connected.head? = some first →
      ∃ out used' left, connect eps tol dist fuel connected curves = .ok out ∧ (used' ++ left).Perm spans ∧
        List.Forall₂ Oriented used' out ∧ Joined tol dist out ∧ out.head? = some first ∧
        ∀ e ∈ out.getLast?, ∀ c ∈ left, ¬ dist (stopPt e) (startPt c) < tol ∧ ¬ dist (stopPt e) (stopPt c) < tol := by
  intro fuel
  induction fuel with
  | zero =>
    intro used connected curves hl hperm hor hj _ hch
    obtain rfl : curves = [] := List.length_eq_zero_iff.1 (by omega)
    exact ⟨connected, used, [], by rw [connect]; rfl, hperm, hor, hj, hch, by simp⟩
  | succ fuel ih =>
    intro used connected curves hl hperm hor hj huh hch
    cases curves with
    | nil => exact ⟨connected, used, [], by rw [connect]; rfl, hperm, hor, hj, hch, by simp⟩
    | cons c0 cs =>
      -- the last connected span
      obtain ⟨cinit, last, rfl⟩ : ∃ cinit last, connected = cinit ++ [last] := by
        rcases List.eq_nil_or_concat connected with e | ⟨l, a, e⟩
        · rw [e] at hch; cases hch
        · exact ⟨l, a, by rw [e]; simp⟩
      obtain ⟨uinit, ulast, rfl⟩ : ∃ uinit ulast, used = uinit ++ [ulast] := by
        rcases List.eq_nil_or_concat used with e | ⟨l, a, e⟩
        · rw [e] at huh; cases huh
        · exact ⟨l, a, by rw [e]; simp⟩
      obtain ⟨hor1, hor2⟩ := forall₂_concat_inv hor
      have hums : ulast ∈ spans := hperm.subset (by simp)
      obtain ⟨hfl, hle1, -⟩ := hor2.ends (hfine _ hums) (hcont _ hums)
      have hcm : ∀ c ∈ c0 :: cs, c ∈ spans := fun c hc => hperm.subset (List.mem_append_right _ hc)
      obtain ⟨r, hr, hn, hsome⟩ := findDir_spec (tol := tol) (dist := dist) hfl (cs := c0 :: cs)
        (fun c hc => hfine c (hcm c hc))
      rw [connect]
      rw [subR_eq_ok (by simp), ok_bind, getR_ok_iff.2 (show (cinit ++ [last])[(cinit ++ [last]).length - 1]? = some last by simp),
        ok_bind, hr, ok_bind]
      cases r with
      | none =>
        refine ⟨_, _, _, rfl, hperm, hor, hj, hch, ?_⟩
        intro e he c hc
        rw [List.getLast?_concat, Option.mem_def, Option.some.injEq] at he
        subst he
        obtain ⟨r', hr', -, h2⟩ := direction_spec (tol := tol) (dist := dist) hfl (hfine c (hcm c hc))
        rw [hn rfl c hc] at hr'
        obtain rfl := Except.ok.inj hr'
        exact ⟨h2 rfl .forward, h2 rfl .facing⟩
      | some x =>
        obtain ⟨i, d⟩ := x
        obtain ⟨c, hci, hdir⟩ := hsome i d rfl
        obtain ⟨hil, hce⟩ := List.getElem?_eq_some_iff.1 hci
        have hc : c ∈ c0 :: cs := List.mem_of_getElem? hci
        have hpe : (c :: (c0 :: cs).eraseIdx i).Perm (c0 :: cs) := by
          rw [← hce]; exact List.getElem_cons_eraseIdx_perm hil
        have hcs := hcm c hc
        obtain ⟨r', hr', h1, -⟩ := direction_spec (tol := tol) (dist := dist) hfl (hfine c hcs)
        rw [hdir] at hr'
        obtain rfl := Except.ok.inj hr'
        have hnear := (h1 d rfl).1
        -- the start of the last span is taken or free
        have hex : ∀ y, IsEnd c y → ¬ dist (startPt last) y < tol := by
          intro y hy hlt
          rcases List.eq_nil_or_concat cinit with e | ⟨c2, prev, e⟩
          · subst e
            have := hor1.length_eq
            obtain rfl : uinit = [] := List.length_eq_zero_iff.1 (by simpa using this)
            simp only [List.nil_append, List.head?_cons, Option.some.injEq] at huh hch
            subst huh hch
            obtain ⟨rest, hrest⟩ : ∃ rest, spans = last :: rest := by
              cases spans with
              | nil => cases hfirst
              | cons a rest => exact ⟨rest, by rw [Option.some.inj hfirst]⟩
            rw [hrest] at hperm
            have hp2 : (c0 :: cs).Perm rest := List.Perm.cons_inv hperm
            exact hfs last rest hrest c (hp2.subset hc) y hy hlt
          · rw [List.concat_eq_append] at e
            subst e
            rcases List.eq_nil_or_concat uinit with e | ⟨u2, uprev, e⟩
            · rw [e] at hor1; have := hor1.length_eq; simp at this
            · rw [List.concat_eq_append] at e
              subst e
              obtain ⟨-, hop⟩ := forall₂_concat_inv hor1
              have hups : uprev ∈ spans := hperm.subset (by simp)
              obtain ⟨-, -, hpe2⟩ := hop.ends (hfine _ hups) (hcont _ hups)
              have hjp : dist (stopPt prev) (startPt last) < tol := by
                have := (List.isChain_append.1 hj).2.2 prev (by simp) last (by simp)
                exact this
              refine hnb ulast uprev c (u2 ++ (c0 :: cs).eraseIdx i) ?_ (startPt last) (stopPt prev) y hle1 hpe2 hy
                (by rw [hsym]; exact hjp) hlt
              refine List.Perm.trans ?_ hperm
              have h3 : (ulast :: uprev :: c :: (u2 ++ (c0 :: cs).eraseIdx i)).Perm
                  ((u2 ++ [uprev] ++ [ulast]) ++ (c :: (c0 :: cs).eraseIdx i)) := by
                have e1 : (u2 ++ [uprev] ++ [ulast]) ++ (c :: (c0 :: cs).eraseIdx i) =
                    u2 ++ ([uprev, ulast, c] ++ (c0 :: cs).eraseIdx i) := by simp
                have e2 : ulast :: uprev :: c :: (u2 ++ (c0 :: cs).eraseIdx i) =
                    [ulast, uprev, c] ++ (u2 ++ (c0 :: cs).eraseIdx i) := by simp
                rw [e1, e2]
                refine List.Perm.trans ?_ (List.perm_append_comm_assoc _ _ _)
                exact List.Perm.append_right _ (List.Perm.swap _ _ _)
              exact h3.trans (List.Perm.append_left _ hpe)
        have hpush : ∀ c', Oriented c c' → dist (stopPt last) (startPt c') < tol →
            ∃ out used' left, connect eps tol dist fuel (cinit ++ [last] ++ [c']) ((c0 :: cs).eraseIdx i) = .ok out ∧
              (used' ++ left).Perm spans ∧ List.Forall₂ Oriented used' out ∧ Joined tol dist out ∧ out.head? = some first ∧
              ∀ e ∈ out.getLast?, ∀ c ∈ left, ¬ dist (stopPt e) (startPt c) < tol ∧ ¬ dist (stopPt e) (stopPt c) < tol := by
          intro c' ho hj'
          refine ih (uinit ++ [ulast] ++ [c]) (cinit ++ [last] ++ [c']) _ ?_ ?_ ?_ ?_ ?_ ?_
          · have := hpe.length_eq; simp only [List.length_cons] at this hl; omega
          · rw [List.append_assoc (uinit ++ [ulast])]
            exact (List.Perm.append_left _ hpe).trans hperm
          · exact List.rel_append hor (.cons ho .nil)
          · refine List.isChain_append.2 ⟨hj, by simp, ?_⟩
            intro x hx y hy
            simp only [List.getLast?_concat, Option.mem_def, Option.some.injEq, List.head?_cons] at hx hy
            subst hx hy
            exact hj'
          · cases uinit <;> simpa using huh
          · cases cinit <;> simpa using hch
        simp only
        rw [getR_ok_iff.2 hci, ok_bind]
        cases d with
        | forward => exact hpush c (.inl rfl) hnear
        | backward => exact absurd hnear (hex _ (.inr rfl))
        | facing =>
          obtain ⟨c', hinv, -, hs', -⟩ := invert_ends (hfine c hcs) (hcont c hcs)
          rw [place, hinv]
          exact hpush c' (.inr hinv) (by rw [hs']; exact hnear)
        | opposite => exact absurd hnear (hex _ (.inl rfl))

end Curvo.Props

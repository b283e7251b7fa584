/-
  C42: a shuffled chain or loop of spans is put together again.
-/
import Verif.Props.Compound

set_option linter.unusedSectionVars false

namespace Curvo.Props

open Curvo.Knots Curvo.Spec Curvo.Curve Curvo.Compound

variable {K : Type} [Field K] [LinearOrder K] [IsStrictOrderedRing K]
variable {W : Type} [AddCommGroup W] [Module K W]

/-! ### Specification -/

/-- No end of a span is near both ends of another span. -/
def OneEnd (tol : K) (dist : W → W → K) (spans : List (Curve K (W × K))) : Prop :=
  ∀ a b rest, (a :: b :: rest).Perm spans → ∀ x, IsEnd a x →
    ¬ (dist x (startPt b) < tol ∧ dist x (stopPt b) < tol)

/-- The assumptions on a set of spans: they evaluate, no three of them meet, and none of them is so
    short that both its ends are near the same point. -/
structure General (eps tol : K) (dist : W → W → K) (spans : List (Curve K (W × K))) : Prop where
  symm : ∀ x y, dist x y = dist y x
  fine : ∀ c ∈ spans, Fine eps c
  cont : ∀ c ∈ spans, ContKnots (kf c.knots) c.degree (c.cps.length - 1)
  noBranching : NoBranching tol dist spans
  oneEnd : OneEnd tol dist spans

theorem General.perm {eps tol : K} {dist : W → W → K} {s s' : List (Curve K (W × K))}
    (h : General eps tol dist s) (hp : s.Perm s') : General eps tol dist s' :=
  ⟨h.symm, fun c hc => h.fine c (hp.symm.subset hc), fun c hc => h.cont c (hp.symm.subset hc),
    fun a b c rest hr => h.noBranching a b c rest (hr.trans hp.symm),
    fun a b rest hr => h.oneEnd a b rest (hr.trans hp.symm)⟩

/-! ### One turn of the loop -/

/-- If some remaining span is near the end of the last connected one, then a turn of the loop takes
    a remaining span and places it. -/
theorem connect_step {eps tol : K} {dist : W → W → K} {pre : List (Curve K (W × K))} {last : Curve K (W × K)}
    {curves : List (Curve K (W × K))} (hfl : Fine eps last) (hfine : ∀ c ∈ curves, Fine eps c)
    {n : Curve K (W × K)} (hn : n ∈ curves) {y : W} (hy : IsEnd n y) (hnear : dist (stopPt last) y < tol) (fuel : ℕ) :
    ∃ c d rest, (c :: rest).Perm curves ∧ dist (pairing last c d).1 (pairing last c d).2 < tol ∧
      connect eps tol dist (fuel + 1) (pre ++ [last]) curves =
        place (pre ++ [last]) pre.length c d >>= fun l => connect eps tol dist fuel l rest := by
  obtain ⟨r, hr, hnone, hsome⟩ := findDir_spec (tol := tol) (dist := dist) hfl hfine
  cases curves with
  | nil => cases hn
  | cons c0 cs =>
    cases r with
    | none =>
      exfalso
      obtain ⟨r', hr', -, h2⟩ := direction_spec (tol := tol) (dist := dist) hfl (hfine n hn)
      rw [hnone rfl n hn] at hr'
      obtain rfl := Except.ok.inj hr'
      rcases hy with rfl | rfl
      · exact h2 rfl .forward hnear
      · exact h2 rfl .facing hnear
    | some x =>
      obtain ⟨i, d⟩ := x
      obtain ⟨c, hci, hdir⟩ := hsome i d rfl
      obtain ⟨hil, hce⟩ := List.getElem?_eq_some_iff.1 hci
      have hc : c ∈ c0 :: cs := List.mem_of_getElem? hci
      obtain ⟨r', hr', h1, -⟩ := direction_spec (tol := tol) (dist := dist) hfl (hfine c hc)
      rw [hdir] at hr'
      obtain rfl := Except.ok.inj hr'
      refine ⟨c, d, (c0 :: cs).eraseIdx i, ?_, (h1 d rfl).1, ?_⟩
      · rw [← hce]; exact List.getElem_cons_eraseIdx_perm hil
      · rw [connect]
        rw [subR_eq_ok (by simp), ok_bind, getR_ok_iff.2 (show (pre ++ [last])[(pre ++ [last]).length - 1]? = some last by simp),
          ok_bind, hr, ok_bind]
        simp only
        rw [getR_ok_iff.2 hci, ok_bind]
        simp

/-- The span chosen when it must be near the end `x` of `a`: the only one there is. -/
theorem pick_unique {eps tol : K} {dist : W → W → K} {a n c : Curve K (W × K)} {rest todo others spans : List (Curve K (W × K))}
    (hg : General eps tol dist spans) (hperm : (a :: (others ++ n :: todo)).Perm spans) (hcr : (c :: rest).Perm (n :: todo))
    {x y z : W} (hx : IsEnd a x) (hy : IsEnd n y) (hz : IsEnd c z) (hxy : dist x y < tol) (hxz : dist x z < tol) :
    c = n ∧ rest.Perm todo := by
  by_cases e : c = n
  · subst e
    exact ⟨rfl, List.Perm.cons_inv hcr⟩
  · exfalso
    have hc : c ∈ todo := by
      rcases List.mem_cons.1 (hcr.subset (List.mem_cons_self ..)) with h | h
      · exact absurd h e
      · exact h
    obtain ⟨s, t, rfl⟩ := List.append_of_mem hc
    refine hg.noBranching a n c (others ++ (s ++ t)) ?_ x y z hx hy hz hxy hxz
    refine List.Perm.trans ?_ hperm
    refine List.Perm.cons _ ?_
    have h1 : (n :: c :: (others ++ (s ++ t))).Perm (others ++ (n :: c :: (s ++ t))) := by
      have := List.perm_append_comm_assoc [n, c] others (s ++ t)
      simpa using this
    refine h1.trans (List.Perm.append_left _ (List.Perm.cons _ ?_))
    exact List.perm_middle.symm

/-- The orientation in which a span is placed is the one of the chain. -/
theorem forward_unique {eps tol : K} {dist : W → W → K} {a n n' : Curve K (W × K)} {rest spans : List (Curve K (W × K))}
    (hg : General eps tol dist spans) (hperm : (a :: n :: rest).Perm spans) {x : W} (hx : IsEnd a x)
    (ho : Oriented n n') (hxy : dist x (startPt n') < tol) (hxz : dist x (startPt n) < tol) : n' = n := by
  rcases ho with h | h
  · exact h
  · exfalso
    have hn : n ∈ spans := hperm.subset (by simp)
    obtain ⟨c', hi, -, h1, -⟩ := invert_ends (hg.fine n hn) (hg.cont n hn)
    rw [h] at hi
    obtain rfl := Except.ok.inj hi
    rw [h1] at hxy
    exact hg.oneEnd a n rest hperm x hx ⟨hxz, hxy⟩

theorem facing_unique {eps tol : K} {dist : W → W → K} {a n n' : Curve K (W × K)} {rest spans : List (Curve K (W × K))}
    (hg : General eps tol dist spans) (hperm : (a :: n :: rest).Perm spans) {x : W} (hx : IsEnd a x)
    (ho : Oriented n n') (hxy : dist x (startPt n') < tol) (hxz : dist x (stopPt n) < tol) : n.invert = .ok n' := by
  rcases ho with h | h
  · exfalso
    rw [h] at hxy
    exact hg.oneEnd a n rest hperm x hx ⟨hxy, hxz⟩
  · exact h

theorem backward_unique {eps tol : K} {dist : W → W → K} {a n n' : Curve K (W × K)} {rest spans : List (Curve K (W × K))}
    (hg : General eps tol dist spans) (hperm : (a :: n :: rest).Perm spans) {x : W} (hx : IsEnd a x)
    (ho : Oriented n n') (hxy : dist x (stopPt n') < tol) (hxz : dist x (stopPt n) < tol) : n' = n := by
  rcases ho with h | h
  · exact h
  · exfalso
    have hn : n ∈ spans := hperm.subset (by simp)
    obtain ⟨c', hi, -, -, h1⟩ := invert_ends (hg.fine n hn) (hg.cont n hn)
    rw [h] at hi
    obtain rfl := Except.ok.inj hi
    rw [h1] at hxy
    exact hg.oneEnd a n rest hperm x hx ⟨hxy, hxz⟩

theorem opposite_unique {eps tol : K} {dist : W → W → K} {a n n' : Curve K (W × K)} {rest spans : List (Curve K (W × K))}
    (hg : General eps tol dist spans) (hperm : (a :: n :: rest).Perm spans) {x : W} (hx : IsEnd a x)
    (ho : Oriented n n') (hxy : dist x (stopPt n') < tol) (hxz : dist x (startPt n) < tol) : n.invert = .ok n' := by
  rcases ho with h | h
  · exfalso
    rw [h] at hxy
    exact hg.oneEnd a n rest hperm x hx ⟨hxz, hxy⟩
  · exact h

/-! ### The loop -/

/-- Once two spans are connected, the loop follows the chain. -/
theorem connect_chain {eps tol : K} {dist : W → W → K} {spans : List (Curve K (W × K))} (hg : General eps tol dist spans) :
    ∀ (fuel : ℕ) (pre : List (Curve K (W × K))) (prev last : Curve K (W × K)) (upre : List (Curve K (W × K)))
      (uprev ulast : Curve K (W × K)) (todo todo' curves : List (Curve K (W × K))), todo.length ≤ fuel →
      curves.Perm todo → ((upre ++ [uprev, ulast]) ++ todo).Perm spans → Oriented uprev prev → Oriented ulast last →
      List.Forall₂ Oriented todo todo' → Joined tol dist (pre ++ [prev, last] ++ todo') →
      connect eps tol dist fuel (pre ++ [prev, last]) curves = .ok (pre ++ [prev, last] ++ todo') := by
  intro fuel
  induction fuel with
  | zero =>
    intro pre prev last upre uprev ulast todo todo' curves hl hcp hperm hop hol hot hj
    obtain rfl : todo = [] := List.length_eq_zero_iff.1 (by omega)
    obtain rfl : curves = [] := List.perm_nil.1 hcp
    cases hot
    rw [connect, List.append_nil]; rfl
  | succ fuel ih =>
    intro pre prev last upre uprev ulast todo todo' curves hl hcp hperm hop hol hot hj
    cases hot with
    | nil =>
      obtain rfl : curves = [] := List.perm_nil.1 hcp
      rw [connect, List.append_nil]; rfl
    | @cons n n' todo2 todo2' hon hot2 =>
      have hul : ulast ∈ spans := hperm.subset (by simp)
      have hup : uprev ∈ spans := hperm.subset (by simp)
      have hns : n ∈ spans := hperm.subset (by simp)
      obtain ⟨hfl, hl1, hl2⟩ := hol.ends (hg.fine _ hul) (hg.cont _ hul)
      obtain ⟨-, -, hp2⟩ := hop.ends (hg.fine _ hup) (hg.cont _ hup)
      obtain ⟨-, hn1, -⟩ := hon.ends (hg.fine _ hns) (hg.cont _ hns)
      have hj1 : dist (stopPt prev) (startPt last) < tol := by
        have h2 := (List.isChain_append.1 (List.isChain_append.1 hj).1).2.1
        exact (List.isChain_cons.1 h2).1 last (by simp)
      have hj2 : dist (stopPt last) (startPt n') < tol :=
        (List.isChain_append.1 hj).2.2 last (by simp) n' (by simp)
      have hcf : ∀ c ∈ curves, Fine eps c := fun c hc =>
        hg.fine c (hperm.subset (List.mem_append_right _ (hcp.subset hc)))
      obtain ⟨c, d, rest, hcr, hnear, hstep⟩ := connect_step (tol := tol) (dist := dist) (pre := pre ++ [prev]) hfl hcf
        (hcp.symm.subset (List.mem_cons_self ..)) hn1 hj2 fuel
      have hcr2 := hcr.trans hcp
      have hcm : c ∈ spans := hperm.subset (List.mem_append_right _ (hcr2.subset (List.mem_cons_self ..)))
      have e0 : pre ++ [prev, last] = pre ++ [prev] ++ [last] := by simp
      rw [e0, hstep]
      have hpermA : (ulast :: ((upre ++ [uprev]) ++ n :: todo2)).Perm spans := by
        refine List.Perm.trans ?_ hperm
        have e1 : (upre ++ [uprev, ulast]) ++ n :: todo2 = (upre ++ [uprev]) ++ ulast :: (n :: todo2) := by simp
        rw [e1]
        exact List.perm_middle.symm
      have hpermB : (ulast :: n :: ((upre ++ [uprev]) ++ todo2)).Perm spans :=
        (List.Perm.cons _ List.perm_middle.symm).trans hpermA
      -- the start of the last span is taken
      have hbusy : ∀ z, IsEnd c z → ¬ dist (startPt last) z < tol := by
        intro z hz hlt
        refine hg.noBranching ulast uprev c (upre ++ rest) ?_ _ _ z hl1 hp2 hz (by rw [hg.symm]; exact hj1) hlt
        refine List.Perm.trans ?_ hperm
        have e1 : (upre ++ [uprev, ulast]) ++ n :: todo2 = upre ++ ([uprev, ulast] ++ n :: todo2) := by simp
        have e2 : ulast :: uprev :: c :: (upre ++ rest) = [ulast, uprev, c] ++ (upre ++ rest) := by simp
        rw [e1, e2]
        refine List.Perm.trans (List.perm_append_comm_assoc _ _ _) (List.Perm.append_left _ ?_)
        exact (List.Perm.swap _ _ _).trans (List.Perm.append_left [uprev, ulast] hcr2)
      have hfin : ∀ l, (l = pre ++ [prev, last] ++ [n'] ∧ rest.Perm todo2) →
          connect eps tol dist fuel l rest = .ok (pre ++ [prev] ++ [last] ++ n' :: todo2') := by
        rintro l ⟨rfl, hrest⟩
        have e1 : pre ++ [prev, last] ++ [n'] = (pre ++ [prev]) ++ [last, n'] := by simp
        have e2 : pre ++ [prev] ++ [last] ++ n' :: todo2' = (pre ++ [prev]) ++ [last, n'] ++ todo2' := by simp
        rw [e1, e2]
        refine ih (pre ++ [prev]) last n' (upre ++ [uprev]) ulast n todo2 todo2' rest (by simpa using hl) hrest ?_ hol hon hot2 ?_
        · refine List.Perm.trans ?_ hperm
          simp
        · have : pre ++ [prev, last] ++ n' :: todo2' = pre ++ [prev] ++ [last, n'] ++ todo2' := by simp
          rw [← this]; exact hj
      cases d with
      | forward =>
        obtain ⟨rfl, hrest⟩ := pick_unique hg hpermA hcr2 hl2 hn1 (.inl rfl) hj2 hnear
        obtain rfl := forward_unique hg hpermB hl2 hon hj2 hnear
        rw [place]
        exact hfin _ ⟨by simp, hrest⟩
      | backward => exact absurd hnear (hbusy _ (.inr rfl))
      | facing =>
        obtain ⟨rfl, hrest⟩ := pick_unique hg hpermA hcr2 hl2 hn1 (.inr rfl) hj2 hnear
        have hi := facing_unique hg hpermB hl2 hon hj2 hnear
        rw [place, hi]
        exact hfin _ ⟨by simp, hrest⟩
      | opposite => exact absurd hnear (hbusy _ (.inl rfl))

/-- A closed chain is followed from its first span, or from its last one. -/
theorem connect_loop {eps tol : K} {dist : W → W → K} {first : Curve K (W × K)} {rest todo todo' : List (Curve K (W × K))}
    (hg : General eps tol dist (first :: rest)) (hcp : rest.Perm todo) (hot : List.Forall₂ Oriented todo todo')
    (hj : Joined tol dist (first :: todo')) (hne : rest ≠ [])
    (hstart : (∀ c ∈ rest, ∀ y, IsEnd c y → ¬ dist (startPt first) y < tol) ∨
      ∀ e ∈ todo'.getLast?, dist (stopPt e) (startPt first) < tol) :
    connect eps tol dist rest.length [first] rest = .ok (first :: todo') ∨
      ∃ init q, todo' = init ++ [q] ∧ dist (stopPt q) (startPt first) < tol ∧
        connect eps tol dist rest.length [first] rest = .ok (q :: first :: init) := by
  have hperm : (first :: todo).Perm (first :: rest) := List.Perm.cons _ hcp.symm
  have hlen : rest.length = todo.length := hcp.length_eq
  have hffs : first ∈ first :: rest := by simp
  have hff := hg.fine _ hffs
  cases hot with
  | nil => exact absurd (List.perm_nil.1 hcp) hne
  | @cons n n' todo2 todo2' hon hot2 =>
    obtain ⟨fuel, hfuel⟩ : ∃ fuel, rest.length = fuel + 1 := ⟨_, hlen⟩
    have hns : n ∈ first :: rest := hperm.subset (by simp)
    obtain ⟨-, hn1, -⟩ := hon.ends (hg.fine _ hns) (hg.cont _ hns)
    have hj2 : dist (stopPt first) (startPt n') < tol := (List.isChain_cons.1 hj).1 n' (by simp)
    have hcf : ∀ c ∈ rest, Fine eps c := fun c hc => hg.fine c (List.mem_cons_of_mem _ hc)
    obtain ⟨c, d, left, hcr, hnear, hstep⟩ := connect_step (tol := tol) (dist := dist) (pre := []) hff hcf
      (hcp.symm.subset (List.mem_cons_self ..)) hn1 hj2 fuel
    have hcr2 := hcr.trans hcp
    have hfl : todo2.length ≤ fuel := by simp only [List.length_cons] at hlen; omega
    rw [hfuel]
    rw [List.nil_append] at hstep
    rw [hstep]
    have hfin : left.Perm todo2 → connect eps tol dist fuel [first, n'] left = .ok (first :: n' :: todo2') := fun hleft =>
      connect_chain hg fuel [] first n' [] first n todo2 todo2' left hfl hleft hperm (.inl rfl) hon hot2 hj
    -- a span near the start of the first one
    have hback : ∀ z, IsEnd c z → dist (startPt first) z < tol → ∃ uinit init q q', n :: todo2 = uinit ++ [q] ∧
        n' :: todo2' = init ++ [q'] ∧ List.Forall₂ Oriented uinit init ∧ Oriented q q' ∧ c = q ∧ left.Perm uinit ∧
        (first :: q :: uinit).Perm (first :: rest) ∧ dist (startPt first) (stopPt q') < tol ∧
        connect eps tol dist fuel [q', first] left = .ok (q' :: first :: init) := by
      intro z hz hlt
      have hclose : ∀ e ∈ (n' :: todo2').getLast?, dist (stopPt e) (startPt first) < tol := by
        rcases hstart with h | h
        · exact absurd hlt (h c (hcr.subset (List.mem_cons_self ..)) z hz)
        · exact h
      obtain ⟨uinit, q, hu⟩ : ∃ uinit q, n :: todo2 = uinit ++ [q] := by
        rcases List.eq_nil_or_concat (n :: todo2) with e | ⟨l, a, e⟩
        · cases e
        · exact ⟨l, a, by rw [e, List.concat_eq_append]⟩
      obtain ⟨init, q', hi⟩ : ∃ init q', n' :: todo2' = init ++ [q'] := by
        rcases List.eq_nil_or_concat (n' :: todo2') with e | ⟨l, a, e⟩
        · cases e
        · exact ⟨l, a, by rw [e, List.concat_eq_append]⟩
      have hot3 : List.Forall₂ Oriented (n :: todo2) (n' :: todo2') := .cons hon hot2
      rw [hu, hi] at hot3
      obtain ⟨ho1, ho2⟩ := forall₂_concat_inv hot3
      rw [hi] at hclose hj
      have hcl : dist (stopPt q') (startPt first) < tol := hclose q' (by simp)
      have hqu : (uinit ++ [q]).Perm (q :: uinit) := List.perm_append_singleton _ _
      have hpq : (first :: q :: uinit).Perm (first :: rest) := by
        refine List.Perm.trans (List.Perm.cons _ hqu.symm) ?_
        rw [← hu]; exact hperm
      have hqs : q ∈ first :: rest := hpq.subset (by simp)
      obtain ⟨-, -, hq2⟩ := ho2.ends (hg.fine _ hqs) (hg.cont _ hqs)
      have hcl' : dist (startPt first) (stopPt q') < tol := by rw [hg.symm]; exact hcl
      have hcq : (c :: left).Perm (q :: uinit) := by
        refine List.Perm.trans ?_ hqu
        rw [← hu]; exact hcr2
      obtain ⟨e1, e2⟩ := pick_unique (others := []) hg hpq hcq (.inl rfl) hq2 hz hcl' hlt
      refine ⟨uinit, init, q, q', hu, hi, ho1, ho2, e1, e2, hpq, hcl', ?_⟩
      have hul : uinit.length ≤ fuel := by
        have := congrArg List.length hu
        simp only [List.length_cons, List.length_append, List.length_nil] at this
        omega
      refine connect_chain hg fuel [] q' first [] q first uinit init left hul e2 ?_ ho2 (.inl rfl) ho1 ?_
      · exact (List.Perm.swap _ _ _).trans hpq
      · have h1 : Joined tol dist (first :: init) := by
          have : first :: (init ++ [q']) = (first :: init) ++ [q'] := by simp
          rw [this] at hj
          exact (List.isChain_append.1 hj).1
        refine List.isChain_cons.2 ⟨?_, h1⟩
        intro y hy
        have hy' : some first = some y := hy
        rw [← Option.some.inj hy']
        exact hcl
    cases d with
    | forward =>
      obtain ⟨rfl, hleft⟩ := pick_unique (others := []) hg hperm hcr2 (.inr rfl) hn1 (.inl rfl) hj2 hnear
      obtain rfl := forward_unique hg hperm (.inr rfl) hon hj2 hnear
      exact .inl (hfin hleft)
    | facing =>
      obtain ⟨rfl, hleft⟩ := pick_unique (others := []) hg hperm hcr2 (.inr rfl) hn1 (.inr rfl) hj2 hnear
      have hi := facing_unique hg hperm (.inr rfl) hon hj2 hnear
      rw [place, hi]
      exact .inl (hfin hleft)
    | backward =>
      obtain ⟨uinit, init, q, q', -, hi, ho1, ho2, rfl, hleft, hpq, hcl, hfin2⟩ := hback _ (.inr rfl) hnear
      obtain rfl := backward_unique hg hpq (.inl rfl) ho2 hcl hnear
      exact .inr ⟨init, q', hi, by rw [hg.symm]; exact hcl, hfin2⟩
    | opposite =>
      obtain ⟨uinit, init, q, q', -, hi, ho1, ho2, rfl, hleft, hpq, hcl, hfin2⟩ := hback _ (.inl rfl) hnear
      have hinv := opposite_unique hg hpq (.inl rfl) ho2 hcl hnear
      refine .inr ⟨init, q', hi, by rw [hg.symm]; exact hcl, ?_⟩
      rw [place, List.length_nil, if_pos rfl, hinv]
      exact hfin2

/-! ### C42 -/

/-- The domain of the curve is the whole range of its knots. -/
def FullDomain {V : Type} (c : Curve K V) : Prop :=
  kf c.knots 0 = c.lo ∧ kf c.knots (c.knots.length - 1) = c.hi

/-- The domains follow one another, starting at zero. -/
def Consecutive {V : Type} (out : List (Curve K V)) : Prop :=
  (∀ a ∈ out.head?, a.lo = 0) ∧ out.IsChain fun a b => b.lo = a.hi

theorem Moved.full {eps : K} {c c' : Curve K (W × K)} (h : Fine eps c) (hm : Moved c c') (hf : FullDomain c) : FullDomain c' := by
  obtain ⟨β, rfl⟩ := hm
  have hk := h.good.cps_pos
  have hl := h.good.knots_len
  have e : ∀ i, i < c.knots.length → kf (c.knots.map fun x => x + β) i = kf c.knots i + β := by
    intro i hi
    rw [kf, List.getD_eq_getElem?_getD, List.getElem?_map, List.getElem?_eq_getElem hi]
    simp only [Option.map_some, Option.getD_some]
    rw [kf_eq hi]
  have hle := h.good.good.le
  constructor
  · show kf (c.knots.map fun x => x + β) 0 = kf (c.knots.map fun x => x + β) c.degree
    rw [e _ (by omega), e _ (by omega)]
    have := hf.1
    rw [this]; rfl
  · show kf (c.knots.map fun x => x + β) ((c.knots.map fun x => x + β).length - 1) = kf (c.knots.map fun x => x + β) c.cps.length
    rw [List.length_map, e _ (by omega), e _ (by omega)]
    have := hf.2
    rw [this]; rfl

theorem Oriented.full {eps : K} {c c' : Curve K (W × K)} (h : Fine eps c)
    (hcont : ContKnots (kf c.knots) c.degree (c.cps.length - 1)) (ho : Oriented c c') (hf : FullDomain c) : FullDomain c' := by
  rcases ho with rfl | e
  · exact hf
  · obtain ⟨c'', e', hg, -, hlo, hhi, -⟩ := C13_invert_reverses h.good hcont
    rw [e] at e'
    obtain rfl := Except.ok.inj e'
    rw [Curve.invert] at e
    obtain ⟨ks, hks, e⟩ := bind_eq_ok.1 e
    obtain ⟨hl, hidx⟩ := C07_invert_index hks
    have hkl := h.good.knots_len
    obtain ⟨h1, h2⟩ := hf
    have hke : c'.knots = ks := by rw [← Except.ok.inj e]
    have i0 := hidx 0 (by omega)
    have i1 := hidx (c.knots.length - 1) (by omega)
    rw [Nat.sub_self] at i1
    rw [Nat.sub_zero] at i0
    refine ⟨?_, ?_⟩
    · rw [hlo, ← h2, hke, i0]
    · rw [hhi, ← h1, hke, hl, i1]

/-- Aligning spans that cover their knots gives consecutive domains and keeps the joints. -/
theorem align_full {eps tol : K} {dist : W → W → K} {cs : List (Curve K (W × K))} (hfine : ∀ c ∈ cs, Fine eps c)
    (hfull : ∀ c ∈ cs, FullDomain c) (hj : Joined tol dist cs) :
    ∃ out, align 0 cs = .ok out ∧ List.Forall₂ Moved cs out ∧ Consecutive out ∧ Joined tol dist out := by
  obtain ⟨out, ho, hf, hh, hc⟩ := align_spec (off := 0) (cs := cs) (fun c hc he => by
    have := (hfine c hc).good.knots_len
    rw [he] at this; simp at this)
  have hf' : List.Forall₂ Moved cs out := hf
  have hout : ∀ o ∈ out, Fine eps o ∧ FullDomain o := by
    intro o hm
    obtain ⟨i, hi, rfl⟩ := List.getElem_of_mem hm
    have hi' : i < cs.length := by rw [hf'.length_eq]; exact hi
    have hm : Moved cs[i] out[i] := by
      have := (List.forall₂_iff_get.1 hf').2 i hi' hi
      simpa using this
    have hcm := List.getElem_mem hi'
    exact ⟨(hm.ends (hfine _ hcm)).1, hm.full (hfine _ hcm) (hfull _ hcm)⟩
  refine ⟨out, ho, hf', ⟨?_, ?_⟩, ?_⟩
  · intro a ha
    have hm : a ∈ out := List.mem_of_mem_head? ha
    rw [← (hout a hm).2.1]
    exact hh a ha
  · rw [List.isChain_iff_getElem] at hc ⊢
    intro i hi
    have h1 := hout _ (List.getElem_mem (show i < out.length by omega))
    have h2 := hout _ (List.getElem_mem (show i + 1 < out.length by omega))
    rw [← h1.2.2, ← h2.2.1]
    exact hc i hi
  · rw [Joined, List.isChain_iff_getElem] at hj ⊢
    intro i hi
    have hl := hf'.length_eq
    have hm : ∀ j (h1 : j < cs.length) (h2 : j < out.length), startPt out[j] = startPt cs[j] ∧ stopPt out[j] = stopPt cs[j] := by
      intro j h1 h2
      have hm : Moved cs[j] out[j] := by
        have := (List.forall₂_iff_get.1 hf').2 j h1 h2
        simpa using this
      exact (hm.ends (hfine _ (List.getElem_mem h1))).2
    rw [(hm i (by omega) (by omega)).2, (hm (i + 1) (by omega) (by omega)).1]
    exact hj i (by omega)

theorem fine_of_oriented {eps tol : K} {dist : W → W → K} {spans used used' : List (Curve K (W × K))}
    (hfine : ∀ c ∈ spans, Fine eps c) (hcont : ∀ c ∈ spans, ContKnots (kf c.knots) c.degree (c.cps.length - 1))
    (hfull : ∀ c ∈ spans, FullDomain c)
    (hsub : ∀ c ∈ used, c ∈ spans) (ho : List.Forall₂ Oriented used used') :
    ∀ c ∈ used', Fine eps c ∧ FullDomain c := by
  intro o hm
  obtain ⟨i, hi, rfl⟩ := List.getElem_of_mem hm
  have hi' : i < used.length := by rw [ho.length_eq]; exact hi
  have hor : Oriented used[i] used'[i] := by
    have := (List.forall₂_iff_get.1 ho).2 i hi' hi
    simpa using this
  have hcm := hsub _ (List.getElem_mem hi')
  exact ⟨(hor.ends (hfine _ hcm) (hcont _ hcm)).1, hor.full (hfine _ hcm) (hcont _ hcm) (hfull _ hcm)⟩

/-- A chain of spans, given with its first span first and the other spans in any order and any
    orientation, is put together again: every span is kept, in the order and orientation of the
    chain; only its knots are moved, so that the domains are consecutive from zero on. -/
theorem C42_chain {eps tol : K} {dist : W → W → K} {first : Curve K (W × K)} {rest todo todo' : List (Curve K (W × K))}
    (hg : General eps tol dist (first :: rest)) (hfull : ∀ c ∈ first :: rest, FullDomain c)
    (hshuffle : rest.Perm todo) (hflip : List.Forall₂ Oriented todo todo') (hj : Joined tol dist (first :: todo'))
    (hfree : ∀ c ∈ rest, ∀ y, IsEnd c y → ¬ dist (startPt first) y < tol) :
    ∃ out, Compound.new eps tol dist (first :: rest) = .ok out ∧ List.Forall₂ Moved (first :: todo') out ∧
      Consecutive out ∧ Joined tol dist out := by
  have hall : ∀ c ∈ first :: todo', Fine eps c ∧ FullDomain c :=
    fine_of_oriented (tol := tol) (dist := dist) (used := first :: todo) hg.fine hg.cont hfull
      (fun c hc => (List.Perm.cons _ hshuffle.symm : (first :: todo).Perm (first :: rest)).subset hc) (.cons (.inl rfl) hflip)
  obtain ⟨out, ho, h⟩ := align_full (fun c hc => (hall c hc).1) (fun c hc => (hall c hc).2) hj
  refine ⟨out, ?_, h⟩
  have hcon : connect eps tol dist rest.length [first] rest = .ok (first :: todo') := by
    by_cases hne : rest = []
    · subst hne
      obtain rfl : todo = [] := List.nil_perm.1 hshuffle
      cases hflip
      rfl
    · rcases connect_loop hg hshuffle hflip hj hne (.inl hfree) with h | ⟨init, q, hq, hcl, -⟩
      · exact h
      · exfalso
        -- the last span of the chain would be near the free start
        have hqo : ∃ u ∈ todo, Oriented u q := by
          subst hq
          rcases List.eq_nil_or_concat todo with e | ⟨l, a, e⟩
          · rw [e] at hflip; have := hflip.length_eq; simp at this
          · rw [List.concat_eq_append] at e
            rw [e] at hflip ⊢
            exact ⟨a, by simp, (forall₂_concat_inv hflip).2⟩
        obtain ⟨u, hu, ho'⟩ := hqo
        have hur := hshuffle.symm.subset hu
        have hus : u ∈ first :: rest := List.mem_cons_of_mem _ hur
        obtain ⟨-, -, he⟩ := ho'.ends (hg.fine _ hus) (hg.cont _ hus)
        exact hfree u hur _ he (by rw [hg.symm]; exact hcl)
  rw [Compound.new]
  show connect eps tol dist (rest.length + 1 - 1) [first] rest >>= _ = _
  rw [Nat.add_sub_cancel, hcon, ok_bind, ho]

/-- A closed loop of at least two spans, given from one of its spans on with the others in any order
    and any orientation, is put together again. The result starts either with the given first span or
    with the one before it. -/
theorem C42_loop {eps tol : K} {dist : W → W → K} {first last' : Curve K (W × K)} {rest todo init' : List (Curve K (W × K))}
    (hg : General eps tol dist (first :: rest)) (hfull : ∀ c ∈ first :: rest, FullDomain c)
    (hshuffle : rest.Perm todo) (hflip : List.Forall₂ Oriented todo (init' ++ [last']))
    (hj : Joined tol dist (first :: (init' ++ [last']))) (hclose : dist (stopPt last') (startPt first) < tol) :
    ∃ out, Compound.new eps tol dist (first :: rest) = .ok out ∧
      (List.Forall₂ Moved (first :: (init' ++ [last'])) out ∨ List.Forall₂ Moved (last' :: first :: init') out) ∧
      Consecutive out ∧ Joined tol dist out := by
  have hall : ∀ c ∈ first :: (init' ++ [last']), Fine eps c ∧ FullDomain c :=
    fine_of_oriented (tol := tol) (dist := dist) (used := first :: todo) hg.fine hg.cont hfull
      (fun c hc => (List.Perm.cons _ hshuffle.symm : (first :: todo).Perm (first :: rest)).subset hc) (.cons (.inl rfl) hflip)
  have hnew : Compound.new eps tol dist (first :: rest) =
      connect eps tol dist rest.length [first] rest >>= fun l => align 0 l := by
    rw [Compound.new]
    show connect eps tol dist (rest.length + 1 - 1) [first] rest >>= _ = _
    rw [Nat.add_sub_cancel]
  have hne : rest ≠ [] := by
    rintro rfl
    obtain rfl : todo = [] := List.nil_perm.1 hshuffle
    have := hflip.length_eq
    simp at this
  rw [hnew]
  rcases connect_loop hg hshuffle hflip hj hne (.inr fun e he => by
    simp only [List.getLast?_concat, Option.mem_def, Option.some.injEq] at he
    subst he; exact hclose) with h | ⟨init, q, hq, -, h⟩
  · obtain ⟨out, ho, h1, h2⟩ := align_full (fun c hc => (hall c hc).1) (fun c hc => (hall c hc).2) hj
    exact ⟨out, by rw [h, ok_bind, ho], .inl h1, h2⟩
  · obtain ⟨e1, e2⟩ := List.append_inj' hq rfl
    subst e1
    obtain rfl : last' = q := by simpa using e2
    have hall' : ∀ c ∈ last' :: first :: init', Fine eps c ∧ FullDomain c := by
      intro c hc
      apply hall
      simp only [List.mem_cons, List.mem_append, List.not_mem_nil, or_false] at hc ⊢
      tauto
    have hj' : Joined tol dist (last' :: first :: init') := by
      refine List.isChain_cons.2 ⟨?_, ?_⟩
      · intro y hy
        rw [← Option.some.inj hy]
        exact hclose
      · have : first :: (init' ++ [last']) = (first :: init') ++ [last'] := by simp
        rw [this] at hj
        exact (List.isChain_append.1 hj).1
    obtain ⟨out, ho, h1, h2⟩ := align_full (fun c hc => (hall' c hc).1) (fun c hc => (hall' c hc).2) hj'
    exact ⟨out, by rw [h, ok_bind, ho], .inr h1, h2⟩

/-- Any spans with a free start: the spans that are kept are joined, start with the first one, and a
    span is only left out if no end of it is near the end of the result. -/
theorem C42_leftovers {eps tol : K} {dist : W → W → K} {first : Curve K (W × K)} {rest : List (Curve K (W × K))}
    (hsym : ∀ x y, dist x y = dist y x)
    (hfine : ∀ c ∈ first :: rest, Fine eps c)
    (hcont : ∀ c ∈ first :: rest, ContKnots (kf c.knots) c.degree (c.cps.length - 1))
    (hfull : ∀ c ∈ first :: rest, FullDomain c)
    (hnb : NoBranching tol dist (first :: rest))
    (hfree : ∀ c ∈ rest, ∀ y, IsEnd c y → ¬ dist (startPt first) y < tol) :
    ∃ out kept kept' left, Compound.new eps tol dist (first :: rest) = .ok out ∧ (kept ++ left).Perm (first :: rest) ∧
      List.Forall₂ Oriented kept kept' ∧ List.Forall₂ Moved kept' out ∧ kept'.head? = some first ∧
      Consecutive out ∧ Joined tol dist out ∧
      ∀ e ∈ kept'.getLast?, ∀ c ∈ left, ∀ y, IsEnd c y → ¬ dist (stopPt e) y < tol := by
  have hfs : FreeStart tol dist (first :: rest) := by
    rintro a r he b hb y hy
    obtain ⟨rfl, rfl⟩ := List.cons.inj he
    exact hfree b hb y hy
  obtain ⟨con, used, left, hcon, hp, ho, hj, hh, hleft⟩ := connect_spec hsym hfine hcont hnb hfs rfl rest.length [first] [first] rest
    (le_refl _) (List.Perm.refl _) (.cons (.inl rfl) .nil) (by simp [Joined]) rfl rfl
  have hall := fine_of_oriented (tol := tol) (dist := dist) hfine hcont hfull
    (fun c hc => hp.subset (List.mem_append_left _ hc)) ho
  obtain ⟨out, hout, h1, h2, h3⟩ := align_full (fun c hc => (hall c hc).1) (fun c hc => (hall c hc).2) hj
  refine ⟨out, used, con, left, ?_, hp, ho, h1, hh, h2, h3, ?_⟩
  · rw [Compound.new]
    show connect eps tol dist (rest.length + 1 - 1) [first] rest >>= _ = _
    rw [Nat.add_sub_cancel, hcon, ok_bind, hout]
  · intro e he c hc y hy
    obtain ⟨a, b⟩ := hleft e he c hc
    rcases hy with rfl | rfl
    · exact a
    · exact b

/-- Whatever is kept: the knots of the result start at zero, and each span's knots start where the
    knots before end. -/
theorem C42_knots_consecutive {eps tol : K} {dist : W → W → K} {spans out : List (Curve K (W × K))}
    (h : Compound.new eps tol dist spans = .ok out) :
    (∀ a ∈ out.head?, kf a.knots 0 = 0) ∧
      out.IsChain fun a b => kf b.knots 0 = kf a.knots (a.knots.length - 1) := by
  rw [Compound.new] at h
  obtain ⟨first, -, h⟩ := bind_eq_ok.1 h
  obtain ⟨con, -, h⟩ := bind_eq_ok.1 h
  have hne : ∀ (cs : List (Curve K (W × K))) (off : K) (o : List (Curve K (W × K))), align off cs = .ok o →
      ∀ c ∈ cs, c.knots ≠ [] := by
    intro cs
    induction cs with
    | nil => simp
    | cons c cs ih =>
      intro off o ho x hx
      rw [align] at ho
      obtain ⟨s, hs, ho⟩ := bind_eq_ok.1 ho
      obtain ⟨l, -, ho⟩ := bind_eq_ok.1 ho
      obtain ⟨off', -, ho⟩ := bind_eq_ok.1 ho
      obtain ⟨o', ho', -⟩ := bind_eq_ok.1 ho
      rcases List.mem_cons.1 hx with rfl | hx
      · intro he
        rw [he] at hs
        simp [getR] at hs
      · exact ih off' o' ho' x hx
  obtain ⟨o, ho, -, h1, h2⟩ := align_spec (off := 0) (hne con 0 out h)
  rw [h] at ho
  obtain rfl := Except.ok.inj ho
  exact ⟨h1, h2⟩

/-- An empty list of spans panics. -/
theorem C42_empty {eps tol : K} {dist : W → W → K} : Compound.new (W := W) eps tol dist [] = .error .panic := rfl

/-! ### Witnesses and counterexamples -/

/-- The line segment from `p.1` to `p.2`. -/
def seg (p : (ℚ × ℚ) × (ℚ × ℚ)) : Curve ℚ ((ℚ × ℚ) × ℚ) :=
  { degree := 1, cps := [(p.1, 1), (p.2, 1)], knots := [0, 0, 1, 1] }

theorem seg_good (p : (ℚ × ℚ) × (ℚ × ℚ)) : (seg p).Good (1/1000) where
  cps_pos := by simp [seg]
  knots_len := by simp [seg]
  good :=
    { eps_nonneg := by norm_num
      le := by simp [seg]
      mono := mono_of_sorted (by simp [seg]) (by simp [seg])
      first := by norm_num [seg, kf]
      last := by norm_num [seg, kf]
      first_gap := by norm_num [seg, kf]
      last_gap := by norm_num [seg, kf] }

theorem seg_fine (p : (ℚ × ℚ) × (ℚ × ℚ)) : Fine (1/1000) (seg p) :=
  ⟨seg_good p, by simp [seg]⟩

theorem seg_cont (p : (ℚ × ℚ) × (ℚ × ℚ)) : ContKnots (kf (seg p).knots) (seg p).degree ((seg p).cps.length - 1) := by
  intro i h1 h2
  have h1' : 1 < i := h1
  have h2' : i + 1 ≤ 1 := h2
  omega

theorem seg_full (p : (ℚ × ℚ) × (ℚ × ℚ)) : FullDomain (seg p) := ⟨rfl, rfl⟩

theorem seg_ends (p : (ℚ × ℚ) × (ℚ × ℚ)) : startPt (seg p) = p.1 ∧ stopPt (seg p) = p.2 := by
  have hlo : (seg p).lo = 0 := rfl
  have hhi : (seg p).hi = 1 := rfl
  obtain ⟨⟨a, b⟩, ⟨c, d⟩⟩ := p
  constructor
  · rw [startPt, hlo]
    simp [Curve.eval, Spec.curve, seg, proj, Spec.N, InSpan, kf, Finset.sum_range_succ]
  · rw [stopPt, hhi]
    simp [Curve.eval, Spec.curve, seg, proj, Spec.N, InSpan, kf, Finset.sum_range_succ]

theorem seg_isEnd {p : (ℚ × ℚ) × (ℚ × ℚ)} {x : ℚ × ℚ} (h : IsEnd (seg p) x) : x = p.1 ∨ x = p.2 := by
  rw [IsEnd, (seg_ends p).1, (seg_ends p).2] at h
  exact h

theorem seg_inj : Function.Injective seg := by
  rintro ⟨a, b⟩ ⟨c, d⟩ h
  have := congrArg Curve.cps h
  simp [seg] at this
  rw [this.1, this.2]

/-- The largest coordinate difference. -/
def maxDist (a b : ℚ × ℚ) : ℚ := max |a.1 - b.1| |a.2 - b.2|

/-- Segments are in general position if a finite check succeeds. -/
theorem segs_general {tol : ℚ} {L : List ((ℚ × ℚ) × (ℚ × ℚ))} (hn : L.Nodup)
    (h3 : ∀ p ∈ L, ∀ q ∈ L, ∀ r ∈ L, p ≠ q → q ≠ r → p ≠ r → ∀ x ∈ [p.1, p.2], ∀ y ∈ [q.1, q.2], ∀ z ∈ [r.1, r.2],
      maxDist x y < tol → ¬ maxDist x z < tol)
    (h2 : ∀ p ∈ L, ∀ q ∈ L, p ≠ q → ∀ x ∈ [p.1, p.2], ¬ (maxDist x q.1 < tol ∧ maxDist x q.2 < tol)) :
    General (1/1000) tol maxDist (L.map seg) := by
  have hmem : ∀ c ∈ L.map seg, ∃ p ∈ L, c = seg p := by
    intro c hc
    obtain ⟨p, hp, rfl⟩ := List.mem_map.1 hc
    exact ⟨p, hp, rfl⟩
  have hn' : (L.map seg).Nodup := hn.map seg_inj
  refine ⟨?_, ?_, ?_, ?_, ?_⟩
  · intro x y
    rw [maxDist, maxDist, abs_sub_comm x.1, abs_sub_comm x.2]
  · intro c hc
    obtain ⟨p, -, rfl⟩ := hmem c hc
    exact seg_fine p
  · intro c hc
    obtain ⟨p, -, rfl⟩ := hmem c hc
    exact seg_cont p
  · intro a b c rest hp x y z hx hy hz
    have hnd := hp.symm.nodup hn'
    obtain ⟨p, hpL, rfl⟩ := hmem a (hp.subset (by simp))
    obtain ⟨q, hqL, rfl⟩ := hmem b (hp.subset (by simp))
    obtain ⟨r, hrL, rfl⟩ := hmem c (hp.subset (by simp))
    simp only [List.nodup_cons, List.mem_cons, not_or] at hnd
    refine h3 p hpL q hqL r hrL ?_ ?_ ?_ x ?_ y ?_ z ?_
    · rintro rfl; exact hnd.1.1 rfl
    · rintro rfl; exact hnd.2.1.1 rfl
    · rintro rfl; exact hnd.1.2.1 rfl
    · rcases seg_isEnd hx with rfl | rfl <;> simp
    · rcases seg_isEnd hy with rfl | rfl <;> simp
    · rcases seg_isEnd hz with rfl | rfl <;> simp
  · intro a b rest hp x hx
    have hnd := hp.symm.nodup hn'
    obtain ⟨p, hpL, rfl⟩ := hmem a (hp.subset (by simp))
    obtain ⟨q, hqL, rfl⟩ := hmem b (hp.subset (by simp))
    simp only [List.nodup_cons, List.mem_cons, not_or] at hnd
    rw [(seg_ends q).1, (seg_ends q).2]
    refine h2 p hpL q hqL ?_ x ?_
    · rintro rfl; exact hnd.1.1 rfl
    · rcases seg_isEnd hx with rfl | rfl <;> simp

/-- Four sides of an open zigzag; the second and the fourth are given backwards. -/
def exZig : List ((ℚ × ℚ) × (ℚ × ℚ)) :=
  [((0, 0), (1, 0)), ((3, 2), (3, 1)), ((1, 2), (3, 2)), ((1, 2), (1, 0))]

example : General (1/1000) (1/10000) maxDist (exZig.map seg) :=
  segs_general (by decide +kernel) (by decide +kernel) (by decide +kernel)

example : ∀ c ∈ (exZig.map seg).tail, ∀ y, IsEnd c y → ¬ maxDist (startPt (seg ((0, 0), (1, 0)))) y < 1/10000 := by
  rw [(seg_ends _).1]
  intro c hc y hy
  have hc' : c ∈ exZig.tail.map seg := hc
  obtain ⟨p, hp, rfl⟩ := List.mem_map.1 hc'
  have : ∀ p ∈ exZig.tail, ¬ maxDist (0, 0) p.1 < 1/10000 ∧ ¬ maxDist (0, 0) p.2 < 1/10000 := by decide +kernel
  rcases seg_isEnd hy with rfl | rfl
  · exact (this p hp).1
  · exact (this p hp).2

/-- The zigzag is put together in order: first, fourth inverted, third, second. -/
example : (Compound.new (1/1000) (1/10000) maxDist (exZig.map seg)).map
    (fun l => l.map fun c => (c.cps.map (·.1), c.knots)) =
    .ok [([(0, 0), (1, 0)], [0, 0, 1, 1]), ([(1, 0), (1, 2)], [1, 1, 2, 2]), ([(1, 2), (3, 2)], [2, 2, 3, 3]),
      ([(3, 2), (3, 1)], [3, 3, 4, 4])] := by
  decide +kernel

/-- A triangle whose second and third side are exchanged: the result starts with the span before the
    first one. -/
def exTriangle : List ((ℚ × ℚ) × (ℚ × ℚ)) :=
  [((0, 0), (1, 0)), ((0, 1), (0, 0)), ((0, 1), (1, 0))]

example : General (1/1000) (1/10000) maxDist (exTriangle.map seg) :=
  segs_general (by decide +kernel) (by decide +kernel) (by decide +kernel)

example : (Compound.new (1/1000) (1/10000) maxDist (exTriangle.map seg)).map
    (fun l => l.map fun c => (c.cps.map (·.1), c.knots)) =
    .ok [([(0, 1), (0, 0)], [0, 0, 1, 1]), ([(0, 0), (1, 0)], [1, 1, 2, 2]), ([(1, 0), (0, 1)], [2, 2, 3, 3])] := by
  decide +kernel

/-- The first span has to be an end of the chain: given from the middle on, a chain `A → B → C` in the
    order `B, C, A` loses `A`, although the same spans in the order `B, A, C` are all kept. -/
theorem C42_middle_first_drops :
    (Compound.new (1/1000) (1/10000) maxDist ([((1, 0), (1, 1)), ((1, 1), (2, 1)), ((0, 0), (1, 0))].map seg)).map
      (fun l => l.map fun c => c.cps.map (·.1)) = .ok [[(1, 0), (1, 1)], [(1, 1), (2, 1)]] ∧
    (Compound.new (1/1000) (1/10000) maxDist ([((1, 0), (1, 1)), ((0, 0), (1, 0)), ((1, 1), (2, 1))].map seg)).map
      (fun l => l.map fun c => c.cps.map (·.1)) = .ok [[(0, 0), (1, 0)], [(1, 0), (1, 1)], [(1, 1), (2, 1)]] := by
  constructor <;> decide +kernel

/-- Where three spans meet, spans are dropped or the result is not joined: here the third span leaves
    from the joint of the first two. It is the "opposite" of the second span and is dropped silently. -/
theorem C42_branch_dropped :
    (Compound.new (1/1000) (1/10000) maxDist ([((0, 0), (1, 0)), ((1, 0), (2, 0)), ((1, 0), (1, 1))].map seg)).map
      (fun l => l.map fun c => c.cps.map (·.1)) = .ok [[(0, 0), (1, 0)], [(1, 0), (2, 0)]] := by
  decide +kernel

/-- … and if the third span arrives there, it is inserted between the two, which tears the result. -/
theorem C42_branch_torn :
    (Compound.new (1/1000) (1/10000) maxDist ([((0, 0), (1, 0)), ((1, 0), (2, 0)), ((1, 1), (1, 0))].map seg)).map
      (fun l => l.map fun c => c.cps.map (·.1)) = .ok [[(0, 0), (1, 0)], [(1, 1), (1, 0)], [(1, 0), (2, 0)]] := by
  decide +kernel

/-- For spans with unclamped knots the domains of the result have gaps: a uniform quadratic with
    knots `0 … 5` has domain `[2, 3]`, and the next span's domain starts at `7`. -/
theorem C42_unclamped_gap :
    (Compound.new (1/1000) (1/10000) maxDist
      [{ degree := 2, cps := [((0, 0), 1), ((2, 0), 1), ((2, 2), 1)], knots := [0, 1, 2, 3, 4, 5] },
       { degree := 2, cps := [((2, 0), 1), ((2, 2), 1), ((4, 4), 1)], knots := [0, 1, 2, 3, 4, 5] }]).map
      (fun l => l.map fun c => c.knotsDomain) = .ok [.ok (2, 3), .ok (7, 8)] := by
  decide +kernel

end Curvo.Props

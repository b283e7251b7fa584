/-
  C88: the result of a boolean operation on crossing curves encloses the union, intersection or difference of the regions: a
  path meets the result exactly where it enters or leaves that set.
-/
import Verif.Props.BoolBoundary
import Verif.Props.Curve3

set_option linter.unusedSectionVars false

namespace Curvo.Props

open Curvo.Knots Curvo.Spec Curvo.Curve Curvo.Compound Curvo.Boolean

variable {K : Type} [Field K] [LinearOrder K] [IsStrictOrderedRing K]

/-! ### Specification -/

/-- The set operations. -/
def combine : Op → Bool → Bool → Bool
  | .union, a, b => a || b
  | .inter, a, b => a && b
  | .diff, a, b => a && !b

/-! ### Changes of a combination of two sets along a path -/

theorem before_key (es : List K) {t k : K} (h : t < k) : ∃ m, t < m ∧ m < k ∧ ∀ e ∈ es, e < k → e < m := by
  induction es with
  | nil =>
    obtain ⟨m, h1, h2⟩ := exists_between h
    exact ⟨m, h1, h2, by simp⟩
  | cons e es ih =>
    obtain ⟨m, h1, h2, h3⟩ := ih
    by_cases he : e < k
    · obtain ⟨m', g1, g2⟩ := exists_between (max_lt h2 he)
      refine ⟨m', h1.trans ((le_max_left _ _).trans_lt g1), g2, ?_⟩
      intro x hx hk
      rcases List.mem_cons.1 hx with rfl | hx
      · exact (le_max_right _ _).trans_lt g1
      · exact (h3 x hx hk).trans ((le_max_left _ _).trans_lt g1)
    · refine ⟨m, h1, h2, ?_⟩
      intro x hx hk
      rcases List.mem_cons.1 hx with rfl | hx
      · exact absurd hk he
      · exact h3 x hx hk

theorem after_key (es : List K) {t k : K} (h : k < t) : ∃ m, k < m ∧ m < t ∧ ∀ e ∈ es, k < e → m < e := by
  obtain ⟨m, h1, h2, h3⟩ := before_key (es.map (- ·)) (neg_lt_neg h)
  refine ⟨-m, by linarith, by linarith, ?_⟩
  intro e he hk
  have := h3 (-e) (List.mem_map.2 ⟨e, he, rfl⟩) (by linarith)
  linarith

/-- The places of a path where it meets the boundary of the combination. -/
def meets (op : Op) (ka kb : List K) (A B : K → Bool) : List K :=
  ka.filter (fun k => B k == wantsInside op true) ++ kb.filter (fun k => A k == wantsInside op false)

theorem mem_meets {op : Op} {ka kb : List K} {A B : K → Bool} {k : K} :
    k ∈ meets op ka kb A B ↔ k ∈ ka ∧ B k = wantsInside op true ∨ k ∈ kb ∧ A k = wantsInside op false := by
  simp [meets, List.mem_append, List.mem_filter]

theorem combine_left {op : Op} {a a' b : Bool} (h : b ≠ wantsInside op true) : combine op a b = combine op a' b := by
  cases op <;> cases a <;> cases a' <;> cases b <;> simp_all [combine, wantsInside]

theorem combine_right {op : Op} {a b b' : Bool} (h : a ≠ wantsInside op false) : combine op a b = combine op a b' := by
  cases op <;> cases a <;> cases b' <;> cases b <;> simp_all [combine, wantsInside]

theorem combine_not_left {op : Op} {a b : Bool} (h : b = wantsInside op true) : combine op (!a) b = !combine op a b := by
  subst h; cases op <;> cases a <;> rfl

theorem combine_not_right {op : Op} {a b : Bool} (h : a = wantsInside op false) : combine op a (!b) = !combine op a b := by
  subst h; cases op <;> cases b <;> rfl

/-- The two sets, exchanged. -/
theorem meets_const {op : Op} {lo hi : K} {ka kb : List K} {A B : K → Bool} (hA : Flips lo hi ka A) (hB : Flips lo hi kb B)
    (hdis : ∀ k ∈ ka, k ∉ kb) : ∀ (n : ℕ) (t t' : K), (((ka ++ kb).toFinset.filter fun k => t ≤ k ∧ k ≤ t').card = n) → lo ≤ t →
      t ≤ t' → t' ≤ hi → (∀ k ∈ meets op ka kb A B, ¬ (t ≤ k ∧ k ≤ t')) → combine op (A t') (B t') = combine op (A t) (B t) := by
  -- one key in the interval that is not wanted
  have one : ∀ k m t', lo ≤ m → m ≤ k → k ≤ t' → t' ≤ hi → k ∈ ka ++ kb → k ∉ meets op ka kb A B →
      (∀ x ∈ ka ++ kb, m ≤ x → x ≤ t' → x = k) → combine op (A t') (B t') = combine op (A m) (B m) := by
    intro k m t' h1 h2 h3 h4 hk hn ho
    rw [mem_meets, not_or] at hn
    rcases List.mem_append.1 hk with hk | hk
    · have hkb := hdis k hk
      have none : ∀ x ∈ kb, ¬ (m ≤ x ∧ x ≤ t') := fun x hx ⟨a, b⟩ =>
        hkb (ho x (List.mem_append_right _ hx) a b ▸ hx)
      have e1 : B t' = B m := hB.const m t' h1 (h2.trans h3) h4 none
      have e2 : B k = B m := hB.const m k h1 h2 (h3.trans h4) fun x hx ⟨a, b⟩ => none x hx ⟨a, b.trans h3⟩
      have hb : B k ≠ wantsInside op true := fun h => hn.1 ⟨hk, h⟩
      rw [e1, ← e2]
      exact combine_left hb
    · have hka : k ∉ ka := fun h => hdis k h hk
      have none : ∀ x ∈ ka, ¬ (m ≤ x ∧ x ≤ t') := fun x hx ⟨a, b⟩ =>
        hka (ho x (List.mem_append_left _ hx) a b ▸ hx)
      have e1 : A t' = A m := hA.const m t' h1 (h2.trans h3) h4 none
      have e2 : A k = A m := hA.const m k h1 h2 (h3.trans h4) fun x hx ⟨a, b⟩ => none x hx ⟨a, b.trans h3⟩
      have hb : A k ≠ wantsInside op false := fun h => hn.2 ⟨hk, h⟩
      rw [e1, ← e2]
      exact combine_right hb
  intro n
  induction n with
  | zero =>
    intro t t' hc h1 h2 h3 _
    rw [Finset.card_eq_zero, Finset.filter_eq_empty_iff] at hc
    have hn : ∀ k ∈ ka ++ kb, ¬ (t ≤ k ∧ k ≤ t') := fun k hk => hc (by simpa using hk)
    rw [hA.const t t' h1 h2 h3 fun k hk => hn k (List.mem_append_left _ hk),
      hB.const t t' h1 h2 h3 fun k hk => hn k (List.mem_append_right _ hk)]
  | succ n ih =>
    intro t t' hc h1 h2 h3 hm
    have hne : ((ka ++ kb).toFinset.filter fun k => t ≤ k ∧ k ≤ t').Nonempty := by
      rw [← Finset.card_pos]; omega
    obtain ⟨k, hk, hmax⟩ := Finset.exists_max_image _ id hne
    simp only [Finset.mem_filter, List.mem_toFinset, id] at hk hmax
    obtain ⟨hk, a, b⟩ := hk
    have hnk : k ∉ meets op ka kb A B := fun h => hm k h ⟨a, b⟩
    rcases a.eq_or_lt with rfl | a
    · refine one t t t' h1 le_rfl h2 h3 hk hnk fun x hx g1 g2 => le_antisymm (hmax x ⟨hx, g1, g2⟩) g1
    · obtain ⟨m, m1, m2, m3⟩ := before_key (ka ++ kb) a
      have e := one k m t' (h1.trans m1.le) m2.le b h3 hk hnk fun x hx g1 g2 => by
        refine le_antisymm (hmax x ⟨hx, m1.le.trans g1, g2⟩) ?_
        by_contra q
        exact absurd (m3 x hx (not_le.1 q)) (not_lt.2 g1)
      rw [e]
      refine ih t m ?_ h1 m1.le (m2.le.trans (b.trans h3)) fun x hx ⟨g1, g2⟩ => hm x hx ⟨g1, g2.trans (m2.le.trans b)⟩
      have : ((ka ++ kb).toFinset.filter fun k => t ≤ k ∧ k ≤ t') =
          insert k ((ka ++ kb).toFinset.filter fun k => t ≤ k ∧ k ≤ m) := by
        ext x
        simp only [Finset.mem_filter, Finset.mem_insert, List.mem_toFinset]
        constructor
        · rintro ⟨g0, g1, g2⟩
          rcases (hmax x ⟨g0, g1, g2⟩).eq_or_lt with g | g
          · exact .inl g
          · exact .inr ⟨g0, g1, (m3 x g0 g).le⟩
        · rintro (rfl | ⟨g0, g1, g2⟩)
          · exact ⟨hk, a.le, b⟩
          · exact ⟨g0, g1, g2.trans (m2.le.trans b)⟩
      rw [this, Finset.card_insert_of_notMem (by simp [m2])] at hc
      omega

/-- A path enters or leaves the combination of two sets exactly where it passes the boundary of one of them on the wanted side
    of the other. -/
theorem meets_flips {op : Op} {lo hi : K} {ka kb : List K} {A B : K → Bool} (hA : Flips lo hi ka A) (hB : Flips lo hi kb B)
    (hdis : ∀ k ∈ ka, k ∉ kb) : Flips lo hi (meets op ka kb A B) fun t => combine op (A t) (B t) where
  const t t' h1 h2 h3 h := meets_const hA hB hdis _ t t' rfl h1 h2 h3 h
  flip k hk t t' h1 h2 h3 h4 ho := by
    obtain ⟨m, m1, m2, m3⟩ := before_key (ka ++ kb) h2
    obtain ⟨m', n1, n2, n3⟩ := after_key (ka ++ kb) h3
    have e1 : combine op (A m) (B m) = combine op (A t) (B t) :=
      meets_const hA hB hdis _ t m rfl h1 m1.le (m2.le.trans (h3.le.trans h4)) fun x hx ⟨a, b⟩ => by
        have := ho x hx a (b.trans (m2.le.trans h3.le))
        rw [this] at b
        exact absurd b (not_le.2 m2)
    have e2 : combine op (A t') (B t') = combine op (A m') (B m') :=
      meets_const hA hB hdis _ m' t' rfl (h1.trans (h2.le.trans n1.le)) n2.le h4 fun x hx ⟨a, b⟩ => by
        have := ho x hx (h2.le.trans (n1.le.trans a)) b
        rw [this] at a
        exact absurd a (not_le.2 n1)
    rw [e2, ← e1]
    have only : ∀ x ∈ ka ++ kb, m ≤ x → x ≤ m' → x = k := by
      intro x hx a b
      rcases lt_trichotomy x k with g | g | g
      · exact absurd (m3 x hx g) (not_lt.2 a)
      · exact g
      · exact absurd (n3 x hx g) (not_lt.2 b)
    have l1 : lo ≤ m := h1.trans m1.le
    have l2 : m' ≤ hi := n2.le.trans h4
    rcases mem_meets.1 hk with ⟨hk, hw⟩ | ⟨hk, hw⟩
    · have none : ∀ x ∈ kb, ¬ (m ≤ x ∧ x ≤ m') := fun x hx ⟨a, b⟩ =>
        hdis k hk (only x (List.mem_append_right _ hx) a b ▸ hx)
      have f1 : B m' = B m := hB.const m m' l1 (m2.le.trans n1.le) l2 none
      have f2 : B k = B m := hB.const m k l1 m2.le (n1.le.trans l2) fun x hx ⟨a, b⟩ => none x hx ⟨a, b.trans n1.le⟩
      have f3 : A m' = !A m := hA.flip k hk m m' l1 m2 n1 l2 fun x hx a b => only x (List.mem_append_left _ hx) a b
      rw [f1, f3, combine_not_left (f2 ▸ hw)]
    · have none : ∀ x ∈ ka, ¬ (m ≤ x ∧ x ≤ m') := fun x hx ⟨a, b⟩ =>
        hdis x hx (by rw [only x (List.mem_append_left _ hx) a b]; exact hk)
      have f1 : A m' = A m := hA.const m m' l1 (m2.le.trans n1.le) l2 none
      have f2 : A k = A m := hA.const m k l1 m2.le (n1.le.trans l2) fun x hx ⟨a, b⟩ => none x hx ⟨a, b.trans n1.le⟩
      have f3 : B m' = !B m := hB.flip k hk m m' l1 m2 n1 l2 fun x hx a b => only x (List.mem_append_right _ hx) a b
      rw [f1, f3, combine_not_right (f2 ▸ hw)]

/-! ### Boolean operations -/

/-- A path that meets the two curves in finitely many places, never both at once and not in their crossings, and passes from one
    side of a curve to the other there. `R s Q` tells whether the point `Q` belongs to the region of operand `s`, `pk s` are the
    parameters of the path on the curve of operand `s`. -/
structure Probe (eps : K) (X : Bool → List (PCurve K)) (keys : Bool → List K) (R : Bool → (Fin 2 → K) → Bool)
    (path : K → Fin 2 → K) (lo hi : K) (pk : Bool → List K) : Prop where
  lt : lo < hi
  nodup : ∀ s, (pk s).Nodup
  inside : ∀ s, ∀ k ∈ pk s, lo < k ∧ k < hi
  meet : ∀ s, ∀ u, lo ≤ u → u ≤ hi → (u ∈ pk s ↔ Trace eps (X s) (path u))
  apart : ∀ k ∈ pk true, k ∉ pk false
  avoid : ∀ s, ∀ c ∈ X s, ∀ t ∈ keys s, c.lo ≤ t → t ≤ c.hi → ∀ u, lo ≤ u → u ≤ hi → c.pointAt eps t ≠ .ok (path u)
  flips : ∀ s, Flips lo hi (pk s) fun u => R s (path u)

theorem odd_length_meets {lo hi : K} {ts : List K} {I : K → Bool} (h : Flips lo hi ts I) (hnd : ts.Nodup)
    (hts : ∀ k ∈ ts, lo < k ∧ k < hi) (hlt : lo ≤ hi) : I hi = (I lo ^^ odd ts.length) := by
  have e : crossed ts hi = ts.length := by
    rw [crossed, List.filter_eq_self.2]
    intro k hk
    simpa using (hts k hk).2
  exact h.insideAt hnd hts ts.length hi e hlt le_rfl fun hk => absurd (hts hi hk).2 (lt_irrefl _)

/-- The result of a boolean operation on two closed curves that cross properly encloses the combination of their regions: a
    path meets the loops of the result exactly where it enters or leaves the union, intersection or difference of the regions;
    so the start of a path that ends outside of it belongs to it exactly if the path meets the loops an odd number of times. -/
theorem C88_region {E : Env K} {δ : K} (hd : Metric fun p q => E.norm (p - q)) (hδ : 0 ≤ δ) (htol : 2 * δ < E.joinTol)
    (heps : 0 < E.eps) (hteps : 0 < E.trimTol) (op : Op) {subject other : PCurve K ⊕ List (PCurve K)} {hits : List (CHit K)}
    {ds sel : List (CHit K × Degeneracy K)}
    (hclass : (hits.mapM fun h => do let d ← E.classify h; pure (h, d)) = .ok ds) (hsel : select (fun x => x.2) ds = .ok sel)
    (hne : sel ≠ []) {P : ℕ → Fin 2 → K}
    (hx : Crossing E.eps E.trimTol E.joinTol δ (fun p q => E.norm (p - q)) (fun s : Bool => spansOf (if s then subject else other))
      (sel.map fun x => interOf x.1) P)
    -- the regions of the operands, and on which side of one of them the other curve is
    {R : Bool → (Fin 2 → K) → Bool} {I : Bool → K → Bool}
    (hI : ∀ s, Flips (loOf (spansOf (if s then subject else other))) (hiOf (spansOf (if s then subject else other)))
      (sel.map fun x => keyOf s (interOf x.1)) (I s))
    (hR : ∀ s : Bool, ∀ c ∈ spansOf (if s then subject else other), ∀ t, c.lo ≤ t → t ≤ c.hi →
      t ∉ (sel.map fun x => keyOf s (interOf x.1)) → ∀ Q, c.pointAt E.eps t = .ok Q → I s t = R (!s) Q)
    (hccs : (do let p ← E.firstPoint subject; E.containsIn other p) = .ok (I true (loOf (spansOf subject))))
    (hscc : (do let p ← E.firstPoint other; E.containsIn subject p) = .ok (I false (loOf (spansOf other)))) :
    ∃ rs, E.clip op subject other hits = .ok rs ∧ (∀ r ∈ rs, r.interiors = []) ∧
      ∀ (path : K → Fin 2 → K) (lo hi : K) (pk : Bool → List K),
        Probe E.eps (fun s : Bool => spansOf (if s then subject else other)) (fun s => sel.map fun x => keyOf s (interOf x.1)) R path
          lo hi pk →
        ∃ ks : List K, ks.Nodup ∧ (∀ k ∈ ks, lo < k ∧ k < hi) ∧
          (∀ u, lo ≤ u → u ≤ hi → (u ∈ ks ↔ Trace E.eps (rs.flatMap fun r => r.exterior) (path u))) ∧
          Flips lo hi ks (fun u => combine op (R true (path u)) (R false (path u))) ∧
          (combine op (R true (path hi)) (R false (path hi)) = false →
            (combine op (R true (path lo)) (R false (path lo)) = true ↔ Odd ks.length)) := by
  obtain ⟨rs, h1, h2, h3⟩ := C87_boundary hd hδ htol heps hteps op hclass hsel hne hx hI hccs hscc
  refine ⟨rs, h1, fun r hr => (h2 r hr).1, ?_⟩
  intro path lo hi pk hp
  have hfl := meets_flips (op := op) (hp.flips true) (hp.flips false) hp.apart
  have hnd : (meets op (pk true) (pk false) (fun u => R true (path u)) fun u => R false (path u)).Nodup := by
    rw [meets, List.nodup_append]
    refine ⟨(hp.nodup true).filter _, (hp.nodup false).filter _, ?_⟩
    intro a ha b hb hab
    subst hab
    exact hp.apart a (List.mem_filter.1 ha).1 (List.mem_filter.1 hb).1
  have hin : ∀ k ∈ meets op (pk true) (pk false) (fun u => R true (path u)) (fun u => R false (path u)), lo < k ∧ k < hi := by
    intro k hk
    rcases mem_meets.1 hk with ⟨g, -⟩ | ⟨g, -⟩
    · exact hp.inside _ _ g
    · exact hp.inside _ _ g
  refine ⟨_, hnd, hin, ?_, hfl, ?_⟩
  · intro u hu1 hu2
    rw [h3, mem_meets]
    constructor
    · have key : ∀ s : Bool, u ∈ pk s → R (!s) (path u) = wantsInside op s →
          ∃ s : Bool, ∃ c ∈ spansOf (if s then subject else other), ∃ t, c.lo ≤ t ∧ t ≤ c.hi ∧ c.pointAt E.eps t = .ok (path u) ∧
          (t ∈ (sel.map fun x => keyOf s (interOf x.1)) ∨ I s t = wantsInside op s) := by
        intro s hu hw
        obtain ⟨c, hc, t, a, b, e⟩ := (hp.meet s u hu1 hu2).1 hu
        refine ⟨s, c, hc, t, a, b, e, ?_⟩
        by_cases ht : t ∈ sel.map fun x => keyOf s (interOf x.1)
        · exact .inl ht
        · exact .inr (by rw [hR s c hc t a b ht _ e]; exact hw)
      rintro (⟨g, w⟩ | ⟨g, w⟩)
      · exact key true g w
      · exact key false g w
    · rintro ⟨s, c, hc, t, a, b, e, ht⟩
      have hn : t ∉ sel.map fun x => keyOf s (interOf x.1) := fun h => hp.avoid s c hc t h a b u hu1 hu2 e
      have hm : u ∈ pk s := (hp.meet s u hu1 hu2).2 ⟨c, hc, t, a, b, e⟩
      have hw := hR s c hc t a b hn _ e
      rcases ht with ht | ht
      · exact absurd ht hn
      · rw [hw] at ht
        cases s
        · exact .inr ⟨hm, ht⟩
        · exact .inl ⟨hm, ht⟩
  · intro hout
    have := odd_length_meets hfl hnd hin hp.lt.le
    rw [hout] at this
    rw [show (combine op (R true (path lo)) (R false (path lo)) = true ↔ _) from Iff.rfl]
    generalize (meets op (pk true) (pk false) (fun u => R true (path u)) fun u => R false (path u)).length = n at this
    cases h : combine op (R true (path lo)) (R false (path lo)) with
    | false =>
      rw [h] at this
      have h' : odd n = false := by simpa using this.symm
      simpa [odd, Nat.odd_iff] using h'
    | true =>
      rw [h] at this
      have h' : odd n = true := by simpa using this.symm
      simpa [odd, Nat.odd_iff] using h'

/-! ### Two overlapping squares -/

section squares

theorem exField_at {i : ℕ} {t : ℚ} (hi : i < 4) (h1 : (i : ℚ) ≤ t) (h2 : t ≤ i + 1) :
    exField.pointAt (1 / 100000) t = .ok (([![0, 0], ![4, 0], ![4, 4], ![0, 4], ![0, 0]] : List (Fin 2 → ℚ)).getD i 0 +
      (t - i) • (([![0, 0], ![4, 0], ![4, 4], ![0, 4], ![0, 0]] : List (Fin 2 → ℚ)).getD (i + 1) 0 -
        ([![0, 0], ![4, 0], ![4, 4], ![0, 4], ![0, 0]] : List (Fin 2 → ℚ)).getD i 0)) := by
  have := (poly_eval (W := Fin 2 → ℚ) (eps := (1 / 100000 : ℚ)) (by norm_num) (pts := [![0, 0], ![4, 0], ![4, 4], ![0, 4], ![0, 0]])
    (by simp) (ks := [0, 0, 1, 2, 3, 4, 4]) (τ := fun i => (i : ℚ)) (by simp) (by simp [kf])
    (by intro i hi; simp only [List.length_cons, List.length_nil] at hi; interval_cases i <;> simp [kf])
    (by norm_num [kf]) (by intro i _; push_cast; linarith) (by norm_num) (by norm_num)).2.2.2.2 i (by simpa using by omega) t h1
    (by push_cast; exact h2)
  rw [show ((i + 1 : ℕ) : ℚ) - i = 1 by push_cast; ring, div_one] at this
  exact this

theorem exYardA_at {i : ℕ} {t : ℚ} (hi : i < 2) (h1 : (i : ℚ) ≤ t) (h2 : t ≤ i + 1) :
    exYardA.pointAt (1 / 100000) t = .ok (([![2, 2], ![6, 2], ![6, 6]] : List (Fin 2 → ℚ)).getD i 0 +
      (t - i) • (([![2, 2], ![6, 2], ![6, 6]] : List (Fin 2 → ℚ)).getD (i + 1) 0 -
        ([![2, 2], ![6, 2], ![6, 6]] : List (Fin 2 → ℚ)).getD i 0)) := by
  have := (poly_eval (W := Fin 2 → ℚ) (eps := (1 / 100000 : ℚ)) (by norm_num) (pts := [![2, 2], ![6, 2], ![6, 6]])
    (by simp) (ks := [0, 0, 1, 2, 2]) (τ := fun i => (i : ℚ)) (by simp) (by simp [kf])
    (by intro i hi; simp only [List.length_cons, List.length_nil] at hi; interval_cases i <;> simp [kf])
    (by norm_num [kf]) (by intro i _; push_cast; linarith) (by norm_num) (by norm_num)).2.2.2.2 i (by simpa using by omega) t h1
    (by push_cast; exact h2)
  rw [show ((i + 1 : ℕ) : ℚ) - i = 1 by push_cast; ring, div_one] at this
  exact this

theorem exYardB_at {i : ℕ} {t : ℚ} (hi : i < 2) (h1 : (i : ℚ) + 2 ≤ t) (h2 : t ≤ i + 3) :
    exYardB.pointAt (1 / 100000) t = .ok (([![6, 6], ![2, 6], ![2, 2]] : List (Fin 2 → ℚ)).getD i 0 +
      (t - (i + 2)) • (([![6, 6], ![2, 6], ![2, 2]] : List (Fin 2 → ℚ)).getD (i + 1) 0 -
        ([![6, 6], ![2, 6], ![2, 2]] : List (Fin 2 → ℚ)).getD i 0)) := by
  have := (poly_eval (W := Fin 2 → ℚ) (eps := (1 / 100000 : ℚ)) (by norm_num) (pts := [![6, 6], ![2, 6], ![2, 2]])
    (by simp) (ks := [2, 2, 3, 4, 4]) (τ := fun i => (i : ℚ) + 2) (by simp) (by simp [kf])
    (by intro i hi; simp only [List.length_cons, List.length_nil] at hi; interval_cases i <;> norm_num [kf])
    (by norm_num [kf]) (by intro i _; push_cast; linarith) (by norm_num) (by norm_num)).2.2.2.2 i (by simpa using by omega) t h1
    (by push_cast; linarith)
  rw [show ((i + 1 : ℕ) : ℚ) + 2 - (i + 2) = 1 by push_cast; ring, div_one] at this
  exact this

/-- The points of the first square. -/
theorem exField_cases {t : ℚ} {Q : Fin 2 → ℚ} (h1 : 0 ≤ t) (h2 : t ≤ 4) (h : exField.pointAt (1 / 100000) t = .ok Q) :
    (t ≤ 1 ∧ Q 0 = 4 * t ∧ Q 1 = 0) ∨ (1 ≤ t ∧ t ≤ 2 ∧ Q 0 = 4 ∧ Q 1 = 4 * (t - 1)) ∨
      (2 ≤ t ∧ t ≤ 3 ∧ Q 0 = 4 - 4 * (t - 2) ∧ Q 1 = 4) ∨ (3 ≤ t ∧ Q 0 = 0 ∧ Q 1 = 4 - 4 * (t - 3)) := by
  rcases le_total t 1 with a | a
  · rw [exField_at (i := 0) (by norm_num) (by simpa using h1) (by simpa using a)] at h
    obtain rfl := (Except.ok.inj h).symm
    exact .inl ⟨a, by simp; ring, by simp⟩
  rcases le_total t 2 with b | b
  · rw [exField_at (i := 1) (by norm_num) (by simpa using a) (by norm_num; linarith)] at h
    obtain rfl := (Except.ok.inj h).symm
    exact .inr (.inl ⟨a, b, by simp, by simp; ring⟩)
  rcases le_total t 3 with c | c
  · rw [exField_at (i := 2) (by norm_num) (by simpa using b) (by norm_num; linarith)] at h
    obtain rfl := (Except.ok.inj h).symm
    exact .inr (.inr (.inl ⟨b, c, by simp; ring, by simp⟩))
  · rw [exField_at (i := 3) (by norm_num) (by simpa using c) (by norm_num; linarith)] at h
    obtain rfl := (Except.ok.inj h).symm
    exact .inr (.inr (.inr ⟨c, by simp, by simp; ring⟩))

/-- The points of the second square. -/
theorem exYard_cases {c : PCurve ℚ} (hc : c ∈ [exYardA, exYardB]) {t : ℚ} {Q : Fin 2 → ℚ} (h1 : c.lo ≤ t) (h2 : t ≤ c.hi)
    (h : c.pointAt (1 / 100000) t = .ok Q) :
    (0 ≤ t ∧ t ≤ 1 ∧ Q 0 = 2 + 4 * t ∧ Q 1 = 2) ∨ (1 ≤ t ∧ t ≤ 2 ∧ Q 0 = 6 ∧ Q 1 = 2 + 4 * (t - 1)) ∨
      (2 ≤ t ∧ t ≤ 3 ∧ Q 0 = 6 - 4 * (t - 2) ∧ Q 1 = 6) ∨ (3 ≤ t ∧ t ≤ 4 ∧ Q 0 = 2 ∧ Q 1 = 6 - 4 * (t - 3)) := by
  rcases List.mem_cons.1 hc with rfl | hc
  · have h1 : 0 ≤ t := by simpa [exYardA, Curve.lo, kf] using h1
    have h2 : t ≤ 2 := by simpa [exYardA, Curve.hi, kf] using h2
    rcases le_total t 1 with a | a
    · rw [exYardA_at (i := 0) (by norm_num) (by simpa using h1) (by simpa using a)] at h
      obtain rfl := (Except.ok.inj h).symm
      exact .inl ⟨h1, a, by simp; ring, by simp⟩
    · rw [exYardA_at (i := 1) (by norm_num) (by simpa using a) (by norm_num; linarith)] at h
      obtain rfl := (Except.ok.inj h).symm
      exact .inr (.inl ⟨a, h2, by simp, by simp; ring⟩)
  · obtain rfl := List.mem_singleton.1 hc
    have h1 : 2 ≤ t := by simpa [exYardB, Curve.lo, kf] using h1
    have h2 : t ≤ 4 := by simpa [exYardB, Curve.hi, kf] using h2
    rcases le_total t 3 with a | a
    · rw [exYardB_at (i := 0) (by norm_num) (by simpa using h1) (by simpa using a)] at h
      obtain rfl := (Except.ok.inj h).symm
      exact .inr (.inr (.inl ⟨h1, a, by simp; ring, by simp⟩))
    · rw [exYardB_at (i := 1) (by norm_num) (by norm_num; linarith) (by norm_num; linarith)] at h
      obtain rfl := (Except.ok.inj h).symm
      exact .inr (.inr (.inr ⟨a, h2, by simp, by simp; ring⟩))

/-- The two squares. -/
def exLand : Bool → (Fin 2 → ℚ) → Bool
  | true, Q => decide (0 < Q 0 ∧ Q 0 < 4 ∧ 0 < Q 1 ∧ Q 1 < 4)
  | false, Q => decide (2 < Q 0 ∧ Q 0 < 6 ∧ 2 < Q 1 ∧ Q 1 < 6)

theorem exLand_side (s : Bool) : ∀ c ∈ spansOf (if s then exField' else exYard'), ∀ t, c.lo ≤ t → t ≤ c.hi →
    t ∉ ((exCorners.map fun h => (h, (Degeneracy.none : Degeneracy ℚ))).map fun x => keyOf s (interOf x.1)) →
    ∀ Q, c.pointAt exYardEnv.eps t = .ok Q → exInside s t = exLand (!s) Q := by
  cases s
  · intro c hc t h1 h2 _ Q h
    have hc : c ∈ [exYardA, exYardB] := hc
    simp only [exInside, exLand, Bool.not_false, decide_eq_decide]
    rcases exYard_cases hc h1 h2 h with ⟨a, b, e1, e2⟩ | ⟨a, b, e1, e2⟩ | ⟨a, b, e1, e2⟩ | ⟨a, b, e1, e2⟩ <;> rw [e1, e2] <;>
      constructor
    · rintro (g | g)
      · exact ⟨by linarith, by linarith, by norm_num, by norm_num⟩
      · linarith
    · rintro ⟨-, g, -, -⟩; exact .inl (by linarith)
    · rintro (g | g) <;> linarith
    · rintro ⟨-, g, -, -⟩; norm_num at g
    · rintro (g | g) <;> linarith
    · rintro ⟨-, -, -, g⟩; norm_num at g
    · rintro (g | g)
      · linarith
      · exact ⟨by norm_num, by norm_num, by linarith, by linarith⟩
    · rintro ⟨-, -, -, g⟩; exact .inr (by linarith)
  · intro c hc t h1 h2 _ Q h
    obtain rfl : c = exField := List.mem_singleton.1 hc
    have h1 : 0 ≤ t := by simpa [exField, Curve.lo, kf] using h1
    have h2 : t ≤ 4 := by simpa [exField, Curve.hi, kf] using h2
    simp only [exInside, exLand, Bool.not_true, decide_eq_decide]
    rcases exField_cases h1 h2 h with ⟨a, e1, e2⟩ | ⟨a, b, e1, e2⟩ | ⟨a, b, e1, e2⟩ | ⟨a, e1, e2⟩ <;> rw [e1, e2] <;>
      constructor
    · rintro ⟨g, -⟩; linarith
    · rintro ⟨-, -, g, -⟩; norm_num at g
    · rintro ⟨g, -⟩; exact ⟨by norm_num, by norm_num, by linarith, by linarith⟩
    · rintro ⟨-, -, g, -⟩; exact ⟨by linarith, by linarith⟩
    · rintro ⟨-, g⟩; exact ⟨by linarith, by linarith, by norm_num, by norm_num⟩
    · rintro ⟨g, -⟩; exact ⟨by linarith, by linarith⟩
    · rintro ⟨-, g⟩; linarith
    · rintro ⟨g, -⟩; norm_num at g

/-- The path from `(1, 3)` to the right. -/
def exRoad (u : ℚ) : Fin 2 → ℚ := ![1 + u, 3]

theorem exRoad_probe : Probe exYardEnv.eps (fun s : Bool => spansOf (if s then exField' else exYard'))
    (fun s => (exCorners.map fun h => (h, (Degeneracy.none : Degeneracy ℚ))).map fun x => keyOf s (interOf x.1)) exLand exRoad 0 7
    (fun s => if s then [3] else [1, 5]) where
  lt := by norm_num
  nodup := by decide
  inside := by
    rintro (_ | _) k hk
    · have hk : k = 1 ∨ k = 5 := by simpa using hk
      rcases hk with rfl | rfl <;> norm_num
    · obtain rfl : k = 3 := by simpa using hk
      norm_num
  meet := by
    rintro (_ | _) u h1 h2
    · simp only [Bool.false_eq_true, if_false, List.mem_cons, List.not_mem_nil, or_false]
      constructor
      · rintro (rfl | rfl)
        · exact ⟨exYardB, by simp [spansOf, exYard'], 15 / 4, by norm_num [exYardB, Curve.lo, kf], by norm_num [exYardB, Curve.hi, kf],
            res_eq_of_ofFn (by decide +kernel)⟩
        · exact ⟨exYardA, by simp [spansOf, exYard'], 5 / 4, by norm_num [exYardA, Curve.lo, kf], by norm_num [exYardA, Curve.hi, kf],
            res_eq_of_ofFn (by decide +kernel)⟩
      · rintro ⟨c, hc, t, a, b, e⟩
        have e1 : exRoad u 0 = 1 + u := rfl
        have e2 : exRoad u 1 = 3 := rfl
        rcases exYard_cases hc a b e with ⟨a, b, g1, g2⟩ | ⟨a, b, g1, g2⟩ | ⟨a, b, g1, g2⟩ | ⟨a, b, g1, g2⟩ <;> rw [e1] at g1 <;>
          rw [e2] at g2
        · norm_num at g2
        · right; linarith
        · norm_num at g2
        · left; linarith
    · simp only [if_true, List.mem_cons, List.not_mem_nil, or_false]
      constructor
      · rintro rfl
        exact ⟨exField, by simp [spansOf, exField'], 7 / 4, by norm_num [exField, Curve.lo, kf], by norm_num [exField, Curve.hi, kf],
          res_eq_of_ofFn (by decide +kernel)⟩
      · rintro ⟨c, hc, t, a, b, e⟩
        obtain rfl : c = exField := List.mem_singleton.1 hc
        have a : 0 ≤ t := by simpa [exField, Curve.lo, kf] using a
        have b : t ≤ 4 := by simpa [exField, Curve.hi, kf] using b
        have e1 : exRoad u 0 = 1 + u := rfl
        have e2 : exRoad u 1 = 3 := rfl
        rcases exField_cases a b e with ⟨a, g1, g2⟩ | ⟨a, b, g1, g2⟩ | ⟨a, b, g1, g2⟩ | ⟨a, g1, g2⟩ <;> rw [e1] at g1 <;>
          rw [e2] at g2
        · norm_num at g2
        · linarith
        · norm_num at g2
        · linarith
  apart := by decide
  avoid := by
    rintro (_ | _) c hc t ht a b u h1 h2 e
    · have e2 : exRoad u 1 = 3 := rfl
      have ht : t = 1 / 2 ∨ t = 7 / 2 := by simpa [exCorners, keyOf, interOf] using ht
      rcases exYard_cases hc a b e with ⟨a, b, g1, g2⟩ | ⟨a, b, g1, g2⟩ | ⟨a, b, g1, g2⟩ | ⟨a, b, g1, g2⟩ <;> rw [e2] at g2 <;>
        rcases ht with rfl | rfl <;> linarith
    · obtain rfl : c = exField := List.mem_singleton.1 hc
      have a : 0 ≤ t := by simpa [exField, Curve.lo, kf] using a
      have b : t ≤ 4 := by simpa [exField, Curve.hi, kf] using b
      have e2 : exRoad u 1 = 3 := rfl
      have ht : t = 3 / 2 ∨ t = 5 / 2 := by simpa [exCorners, keyOf, interOf] using ht
      rcases exField_cases a b e with ⟨a, g1, g2⟩ | ⟨a, b, g1, g2⟩ | ⟨a, b, g1, g2⟩ | ⟨a, g1, g2⟩ <;> rw [e2] at g2 <;>
        rcases ht with rfl | rfl <;> linarith
  flips := by
    rintro (_ | _)
    · have l : ∀ u, exLand false (exRoad u) = decide (1 < u ∧ u < 5) := by
        intro u
        simp only [exLand, exRoad, Matrix.cons_val_zero, Matrix.cons_val_one]
        refine decide_eq_decide.2 ?_
        constructor
        · rintro ⟨a, b, -⟩; exact ⟨by linarith, by linarith⟩
        · rintro ⟨a, b⟩; exact ⟨by linarith, by linarith, by norm_num, by norm_num⟩
      simp only [l, Bool.false_eq_true, if_false]
      refine ⟨?_, ?_⟩
      · intro t t' h1 h2 h3 h
        have g1 := h 1 (by simp)
        have g2 := h 5 (by simp)
        rw [decide_eq_decide]
        constructor
        · rintro ⟨a, b⟩
          refine ⟨?_, by linarith⟩
          by_contra q; push Not at q
          exact g1 ⟨q, a.le⟩
        · rintro ⟨a, b⟩
          refine ⟨by linarith, ?_⟩
          by_contra q; push Not at q
          exact g2 ⟨b.le, q⟩
      · intro k hk t t' h1 h2 h3 h4 ho
        have g1 := ho 1 (by simp)
        have g2 := ho 5 (by simp)
        have hk : k = 1 ∨ k = 5 := by simpa using hk
        rcases hk with rfl | rfl
        · have : t' < 5 := by
            by_contra q; push Not at q
            have := g2 (by linarith) q
            norm_num at this
          rw [decide_eq_true (show 1 < t' ∧ t' < 5 from ⟨h3, this⟩), decide_eq_false (by rintro ⟨q, -⟩; linarith)]; rfl
        · have : 1 < t := by
            by_contra q; push Not at q
            have := g1 q (by linarith)
            norm_num at this
          rw [decide_eq_true (show 1 < t ∧ t < 5 from ⟨this, h2⟩), decide_eq_false (by rintro ⟨-, q⟩; linarith)]; rfl
    · have l : ∀ u, 0 ≤ u → exLand true (exRoad u) = decide (u < 3) := by
        intro u hu
        simp only [exLand, exRoad, Matrix.cons_val_zero, Matrix.cons_val_one]
        refine decide_eq_decide.2 ?_
        constructor
        · rintro ⟨-, a, -⟩; linarith
        · intro a; exact ⟨by linarith, by linarith, by norm_num, by norm_num⟩
      refine ⟨?_, ?_⟩
      · intro t t' h1 h2 h3 h
        have g := h 3 (by simp)
        simp only [l t h1, l t' (h1.trans h2), decide_eq_decide]
        constructor
        · intro a; linarith
        · intro a
          by_contra q; push Not at q
          exact g ⟨a.le, q⟩
      · intro k hk t t' h1 h2 h3 h4 ho
        obtain rfl : k = 3 := by simpa using hk
        simp only [l t h1, l t' (h1.trans (h2.le.trans h3.le))]
        rw [decide_eq_true h2, decide_eq_false (by linarith)]; rfl

/-- From `(1, 3)`, a point of the first square only, the path meets the union and the difference an odd number of times. -/
example (op : Op) : ∃ rs, exYardEnv.clip op exField' exYard' exCorners = .ok rs ∧
    ∃ ks : List ℚ, ks.Nodup ∧ (∀ u, 0 ≤ u → u ≤ 7 → (u ∈ ks ↔ Trace exYardEnv.eps (rs.flatMap fun r => r.exterior) (exRoad u))) ∧
      (combine op true false = true ↔ Odd ks.length) := by
  obtain ⟨rs, h1, -, h2⟩ := C88_region exYard_metric le_rfl (by norm_num [exYardEnv]) (by norm_num [exYardEnv])
    (by norm_num [exYardEnv]) op exCorners_regular (by rfl) (by simp [exCorners]) exYard_crossing exInside_flips exLand_side
    (by decide +kernel) (by decide +kernel)
  obtain ⟨ks, k1, -, k2, -, k3⟩ := h2 exRoad 0 7 _ exRoad_probe
  have e1 : exLand true (exRoad 0) = true := by decide +kernel
  have e2 : exLand false (exRoad 0) = false := by decide +kernel
  have e3 : exLand true (exRoad 7) = false := by decide +kernel
  have e4 : exLand false (exRoad 7) = false := by decide +kernel
  rw [e1, e2, e3, e4] at k3
  exact ⟨rs, h1, ks, k1, k2, k3 (by cases op <;> rfl)⟩

end squares

end Curvo.Props

/-
  C24: degree elevation.
-/
import Verif.Lemmas.Bernstein
import Verif.Props.Curve2

set_option linter.unusedSectionVars false

namespace Curvo.Props

open Curvo Curvo.Spec Curvo.Curve

variable {K : Type} [Field K] [LinearOrder K] [IsStrictOrderedRing K] {V : Type} [AddCommGroup V] [Module K V]

/-- Elevating to a degree not above the current returns the curve unchanged. -/
theorem C24_unchanged (c : Curve K V) {target : ℕ} (h : target ≤ c.degree) : c.tryElevateDegree target = .ok c := by
  rw [tryElevateDegree, if_pos h]; rfl

/-- Elevating by more than one degree always panics (an index underflows). -/
theorem C24_two_or_more_panics (c : Curve K V) {target : ℕ} (h : c.degree + 2 ≤ target) :
    c.tryElevateDegree target = .error .panic := by
  rw [tryElevateDegree, if_neg (by omega)]
  simp only []
  by_cases hk : c.degree + 2 ≤ c.knots.length
  · rw [subR_eq_ok hk, ok_bind]
    have hz : (elevCoeffs c.degree (target - c.degree) : Res (List (List K))) = .error .panic := by
      obtain ⟨p, hp⟩ : ∃ p, p = c.degree := ⟨_, rfl⟩
      obtain ⟨inc, hi⟩ : ∃ i, i = target - c.degree := ⟨_, rfl⟩
      rw [← hi, ← hp, elevCoeffs]
      simp only []
      rw [mat_replicate, set2R_mat (by omega) (by omega), ok_bind, set2R_mat (by omega) (by omega), ok_bind]
      obtain ⟨q, hq⟩ : ∃ q, (p + inc) / 2 = q + 1 := ⟨(p + inc) / 2 - 1, by omega⟩
      rw [hq, List.range_succ_eq_map, List.map_cons, List.foldlM_cons]
      have hne : (binomGet (p + inc) (0 + 1) : K) ≠ 0 := by
        rw [binomGet_eq]
        have : 0 < (p + inc).choose (0 + 1) := Nat.choose_pos (by omega)
        exact_mod_cast this.ne'
      rw [divR_eq_ok hne, ok_bind, subR, if_neg (by omega)]
      rfl
    rw [hz]
    rfl
  · rw [subR, if_neg hk]
    rfl

/-- Witness: a line to degree 3. -/
example : (⟨1, [(0, 1), (3, 1)], [0, 0, 1, 1]⟩ : Curve ℚ (ℚ × ℚ)).tryElevateDegree 3 = .error .panic :=
  C24_two_or_more_panics _ le_rfl

theorem foldlM_pres {α β : Type} {f : β → α → Res β} {P : β → Prop} (h : ∀ a x b, P a → f a x = .ok b → P b) :
    ∀ {l : List α} {a b : β}, l.foldlM f a = .ok b → P a → P b
  | [], a, b, e, ha => by obtain rfl := Except.ok.inj e; exact ha
  | x :: l, a, b, e, ha => by
    rw [List.foldlM_cons] at e
    obtain ⟨c, e1, e2⟩ := bind_eq_ok.1 e
    exact foldlM_pres h e2 (h a x c ha e1)

theorem setR_len {α : Type} {l l' : List α} {i : ℕ} {x : α} (h : setR l i x = .ok l') : l'.length = l.length := by
  unfold setR at h
  split at h
  · obtain rfl := Except.ok.inj h; simp
  · cases h

/-- The lengths of the result arrays. -/
def Lens (n m : ℕ) (σ : Elev K V) : Prop := σ.qw.length = n ∧ σ.uh.length = m

theorem elevInsert_lens {c : Curve K V} {ub : K} {mul r n m : ℕ} {σ σ' : Elev K V} (h : elevInsert c ub mul r σ = .ok σ')
    (hl : Lens n m σ) : Lens n m σ' := by
  unfold elevInsert at h
  obtain ⟨al, _, h⟩ := bind_eq_ok.1 h
  obtain ⟨st, _, h⟩ := bind_eq_ok.1 h
  obtain rfl := Except.ok.inj h
  exact hl

theorem elevRemoveInner_len {ph lbz : ℕ} {oldr tr : ℤ} {ub den bet : K} {σ : Elev K V} : ∀ {fuel i j kj : ℕ} {qw eb : List V}
    {st : List V × List V}, elevRemoveInner ph lbz oldr tr ub den bet σ fuel i j kj qw eb = .ok st →
    st.1.length = qw.length := by
  intro fuel
  induction fuel with
  | zero => intro i j kj qw eb st h; cases h
  | succ fuel ih =>
    intro i j kj qw eb st h
    rw [elevRemoveInner] at h
    split at h
    · obtain ⟨qw', hq, h⟩ := bind_eq_ok.1 h
      obtain ⟨eb', _, h⟩ := bind_eq_ok.1 h
      obtain ⟨j', _, h⟩ := bind_eq_ok.1 h
      obtain ⟨kj', _, h⟩ := bind_eq_ok.1 h
      rw [ih h]
      split at hq
      · obtain ⟨_, _, hq⟩ := bind_eq_ok.1 hq
        obtain ⟨_, _, hq⟩ := bind_eq_ok.1 hq
        obtain ⟨_, _, hq⟩ := bind_eq_ok.1 hq
        obtain ⟨_, _, hq⟩ := bind_eq_ok.1 hq
        obtain ⟨_, _, hq⟩ := bind_eq_ok.1 hq
        exact setR_len hq
      · obtain rfl := Except.ok.inj hq; rfl
    · obtain rfl := Except.ok.inj h; rfl

theorem elevRemove_lens {ph lbz n m : ℕ} {oldr : ℤ} {ub : K} {σ σ' : Elev K V}
    (h : elevRemove ph lbz oldr ub σ = .ok σ') (hl : Lens n m σ) : Lens n m σ' := by
  unfold elevRemove at h
  obtain ⟨_, _, h⟩ := bind_eq_ok.1 h
  obtain ⟨_, _, h⟩ := bind_eq_ok.1 h
  obtain ⟨_, _, h⟩ := bind_eq_ok.1 h
  obtain ⟨_, _, h⟩ := bind_eq_ok.1 h
  obtain ⟨st, hst, h⟩ := bind_eq_ok.1 h
  obtain rfl := Except.ok.inj h
  refine ⟨?_, hl.2⟩
  refine foldlM_pres (P := fun st : ℕ × ℕ × List V × List V => st.2.2.1.length = n) ?_ hst hl.1
  rintro ⟨fi, la, q, e⟩ x ⟨fi', la', q', e'⟩ ha hs
  obtain ⟨_, _, hs⟩ := bind_eq_ok.1 hs
  obtain ⟨st, h1, hs⟩ := bind_eq_ok.1 hs
  obtain ⟨_, _, hs⟩ := bind_eq_ok.1 hs
  have hs' := Except.ok.inj hs
  have hq : st.1 = q' := congrArg (fun z => z.2.2.1) hs'
  rw [← hq]
  exact (elevRemoveInner_len h1).trans ha

theorem elevStep_lens {c : Curve K V} {inc mm n m : ℕ} {bez : List (List K)} {σ σ' : Elev K V}
    (h : elevStep c inc mm bez σ = .ok σ') (hl : Lens n m σ) : Lens n m σ' := by
  unfold elevStep at h
  obtain ⟨b, _, h⟩ := bind_eq_ok.1 h
  obtain ⟨ub, _, h⟩ := bind_eq_ok.1 h
  obtain ⟨s1, h1, h⟩ := bind_eq_ok.1 h
  have l1 : Lens n m s1 := by
    split at h1
    · exact elevInsert_lens h1 hl
    · obtain rfl := Except.ok.inj h1; exact hl
  obtain ⟨eb, _, h⟩ := bind_eq_ok.1 h
  obtain ⟨s2, h2, h⟩ := bind_eq_ok.1 h
  have l2 : Lens n m s2 := by
    split at h2
    · exact elevRemove_lens h2 l1
    · obtain rfl := Except.ok.inj h2; exact l1
  obtain ⟨s3, h3, h⟩ := bind_eq_ok.1 h
  have l3 : Lens n m s3 := by
    unfold elevKnots at h3
    split at h3
    · obtain ⟨st, hst, h3⟩ := bind_eq_ok.1 h3
      obtain rfl := Except.ok.inj h3
      refine ⟨l2.1, ?_⟩
      refine foldlM_pres (P := fun st : List K × ℕ => st.1.length = m) ?_ hst l2.2
      rintro ⟨l, k⟩ x ⟨l', k'⟩ ha hs
      obtain ⟨q, hq, hs⟩ := bind_eq_ok.1 hs
      have hs' := Except.ok.inj hs
      have : q = l' := congrArg (fun z => z.1) hs'
      rw [← this]
      exact (setR_len hq).trans ha
    · obtain rfl := Except.ok.inj h3; exact l2
  obtain ⟨st, hst, h⟩ := bind_eq_ok.1 h
  have hq : st.1.length = n := by
    refine foldlM_pres (P := fun st : List V × ℕ => st.1.length = n) ?_ hst l3.1
    rintro ⟨l, k⟩ x ⟨l', k'⟩ ha hs
    obtain ⟨y, hy, hs⟩ := bind_eq_ok.1 hs
    obtain ⟨q, hq, hs⟩ := bind_eq_ok.1 hs
    have hs' := Except.ok.inj hs
    have : q = l' := congrArg (fun z => z.1) hs'
    rw [← this]
    exact (setR_len hq).trans ha
  dsimp only at h
  split at h
  · obtain ⟨_, _, h⟩ := bind_eq_ok.1 h
    obtain ⟨_, _, h⟩ := bind_eq_ok.1 h
    obtain ⟨_, _, h⟩ := bind_eq_ok.1 h
    obtain ⟨_, _, h⟩ := bind_eq_ok.1 h
    obtain ⟨_, _, h⟩ := bind_eq_ok.1 h
    obtain rfl := Except.ok.inj h
    exact ⟨hq, l3.2⟩
  · obtain ⟨uh, huh, h⟩ := bind_eq_ok.1 h
    obtain rfl := Except.ok.inj h
    refine ⟨hq, ?_⟩
    refine foldlM_pres (P := fun l : List K => l.length = m) ?_ huh l3.2
    intro l x l' ha hs
    exact (setR_len hs).trans ha

theorem elevLoop_lens {c : Curve K V} {inc mm n m : ℕ} {bez : List (List K)} : ∀ {fuel : ℕ} {σ σ' : Elev K V},
    elevLoop c inc mm bez fuel σ = .ok σ' → Lens n m σ → Lens n m σ' := by
  intro fuel
  induction fuel with
  | zero => intro σ σ' h; cases h
  | succ fuel ih =>
    intro σ σ' h hl
    rw [elevLoop] at h
    split at h
    · obtain ⟨s1, h1, h⟩ := bind_eq_ok.1 h
      exact ih h (elevStep_lens h1 hl)
    · obtain rfl := Except.ok.inj h; exact hl

/-- Whatever the curve, a successful elevation by one returns four more control points than the curve had, with matching
    numbers of knots. (The right number is one more per segment, so this is right for curves of four segments only.) -/
theorem C24_counts {c c' : Curve K V} {target : ℕ} (h : c.degree < target) (e : c.tryElevateDegree target = .ok c') :
    c'.degree = target ∧ target = c.degree + 1 ∧ c'.cps.length = c.cps.length + 4 ∧
      c'.knots.length = c'.cps.length + c'.degree + 1 := by
  have ht : target = c.degree + 1 := by
    by_contra hne
    rw [C24_two_or_more_panics c (by omega)] at e
    cases e
  rw [tryElevateDegree, if_neg (by omega)] at e
  obtain ⟨n, _, e⟩ := bind_eq_ok.1 e
  obtain ⟨bez, _, e⟩ := bind_eq_ok.1 e
  obtain ⟨ua, _, e⟩ := bind_eq_ok.1 e
  obtain ⟨p0, _, e⟩ := bind_eq_ok.1 e
  obtain ⟨qw, hqw, e⟩ := bind_eq_ok.1 e
  obtain ⟨uh, huh, e⟩ := bind_eq_ok.1 e
  obtain ⟨src, _, e⟩ := bind_eq_ok.1 e
  obtain ⟨_, _, e⟩ := bind_eq_ok.1 e
  obtain ⟨σ, hσ, e⟩ := bind_eq_ok.1 e
  obtain rfl := Except.ok.inj e
  have h1 := setR_len hqw
  have h2 : uh.length = c.cps.length + (target - c.degree) + 3 + target + 1 := by
    refine foldlM_pres (P := fun l : List K => l.length = _) (fun l x l' ha hs => (setR_len hs).trans ha) huh ?_
    simp
  rw [List.length_replicate] at h1
  obtain ⟨l1, l2⟩ := elevLoop_lens hσ ⟨h1, h2⟩
  refine ⟨rfl, ht, ?_, ?_⟩
  · show σ.qw.length = _; rw [l1]; omega
  · show σ.uh.length = σ.qw.length + target + 1
    rw [l1, l2]

/-- **Chains of four Bezier segments** (any degree, any breakpoints): elevation by one gives a chain with the same
    breakpoints and the same points. -/
theorem C24_four_segments {eps : K} (he : 0 ≤ eps) {p : ℕ} (hp : 1 ≤ p) {u : ℕ → K} {P : ℕ → V}
    (hu : ∀ i, i < 4 → u i < u (i + 1)) (h1 : u 0 + eps ≤ u 1) (h2 : u 3 + eps ≤ u 4) :
    ∃ c', (chain p 4 u P).tryElevateDegree (p + 1) = .ok c' ∧ c'.Good eps ∧ c'.degree = p + 1 ∧
      c'.knots = chainKnots (p + 1) 4 u ∧
      ∀ t, u 0 ≤ t → t ≤ u 4 → c'.point eps t = (chain p 4 u P).point eps t := by
  have hg' := chain_good (P := chainElev (K := K) p P) he (show 1 ≤ p + 1 by omega) (show 1 ≤ 4 by omega) hu h1 h2
  have hg := chain_good (P := P) he hp (show 1 ≤ 4 by omega) hu h1 h2
  refine ⟨chain (p + 1) 4 u (chainElev (K := K) p P), ?_, hg', rfl, rfl, fun t ht1 ht2 => ?_⟩
  · rw [chain_elevate hp (by omega) hu, if_pos le_rfl]
    simp only [chain, chainKnots]
    congr 2
    · rw [show 4 * p + 5 = 4 * (p + 1) + 1 by ring]
      apply vec_congr
      intro i hi
      rw [if_pos hi]
    · rw [show 4 * p + 5 + p + 2 = 4 * (p + 1) + (p + 1) + 2 by ring]
      apply vec_congr
      intro i hi
      rw [if_pos hi]
  · rw [point_eq_eval hg' (by rw [chain_lo (by omega)]; exact ht1) (by rw [chain_hi (by omega)]; exact ht2),
      point_eq_eval hg (by rw [chain_lo hp]; exact ht1) (by rw [chain_hi hp]; exact ht2),
      chain_eval_elevated he hp (by omega) hu h1 h2 ht1 ht2]

/-- **Fewer than four segments**: the right control points are followed by `4 - s` zero points and the right knots by as many
    zeros; so the last control point is the zero of homogeneous space, and the knots are not sorted when the domain ends
    after 0. -/
theorem C24_fewer_segments {p s : ℕ} (hp : 1 ≤ p) (hs : 1 ≤ s) (hs4 : s < 4) {u : ℕ → K} {P : ℕ → V}
    (hu : ∀ i, i < s → u i < u (i + 1)) :
    ∃ c', (chain p s u P).tryElevateDegree (p + 1) = .ok c' ∧
      c'.cps = (chain (p + 1) s u (chainElev (K := K) p P)).cps ++ List.replicate (4 - s) 0 ∧
      c'.knots = chainKnots (p + 1) s u ++ List.replicate (4 - s) 0 ∧
      (0 < u s → ¬ c'.knots.Pairwise (· ≤ ·)) := by
  have hsp : s * (p + 1) = s * p + s := by ring
  have split : ∀ {α : Type} [Zero α] (n k : ℕ) (f : ℕ → α),
      (vec (n + k) fun i => if i < n then f i else 0) = vec n f ++ List.replicate k 0 := by
    intro α _ n k f
    apply List.ext_getElem
    · simp
    · intro i h1 h2
      rw [List.getElem_append]
      by_cases hi : i < n
      · rw [dif_pos (by simpa using hi)]
        simp [vec, hi]
      · rw [dif_neg (by simpa using hi)]
        simp [vec, hi]
  refine ⟨_, by rw [chain_elevate hp hs hu, if_pos hs4.le], ?_, ?_, ?_⟩
  · simp only [chain]
    rw [← split, show s * (p + 1) + 1 + (4 - s) = s * p + 5 by omega]
  · simp only [chainKnots]
    rw [← split, show s * (p + 1) + (p + 1) + 2 + (4 - s) = s * p + 5 + p + 2 by omega]
  · intro h0 hsort
    simp only at hsort
    have hl : s * (p + 1) + 1 < s * p + 5 + p + 2 := by omega
    have h := List.pairwise_iff_getElem.1 hsort (s * (p + 1) + 1) (s * p + 5 + p + 1) (by simp; omega) (by simp)
      (by omega)
    simp only [vec, List.getElem_map, List.getElem_range] at h
    rw [if_pos (by omega), if_neg (by omega), Nat.add_sub_cancel, Nat.mul_div_cancel _ (by omega), Nat.min_self] at h
    exact absurd h (not_le.2 h0)

/-- **More than four segments**: elevation panics. -/
theorem C24_more_segments {p s : ℕ} (hp : 1 ≤ p) (hs : 4 < s) {u : ℕ → K} {P : ℕ → V}
    (hu : ∀ i, i < s → u i < u (i + 1)) : (chain p s u P).tryElevateDegree (p + 1) = .error .panic := by
  rw [chain_elevate hp (by omega) hu, if_neg (by omega)]

/-- Witness: the polyline through 0, 3, 1, 4, 2 becomes the quadratic with the midpoints inserted. -/
example : ((chain 1 4 (fun i => (i : ℚ)) (fun i => ([0, 3, 1, 4, 2].getD i 0 : ℚ))).tryElevateDegree 2).map
      (fun c => (c.cps, c.knots)) =
    .ok ([0, 3/2, 3, 2, 1, 5/2, 4, 3, 2], [0, 0, 0, 1, 1, 2, 2, 3, 3, 4, 4, 4]) := by decide +kernel

/-- Witness: a single line segment (homogeneous coordinates) gets three zero control points of weight 0. -/
example : ((chain 1 1 (fun i => (i : ℚ)) (fun i => ([(0, 1), (3, 1)].getD i 0 : ℚ × ℚ))).tryElevateDegree 2).map
      (fun c => (c.cps, c.knots)) =
    .ok ([(0, 1), (3/2, 1), (3, 1), (0, 0), (0, 0), (0, 0)], [0, 0, 0, 1, 1, 1, 0, 0, 0]) := by decide +kernel

/-- A cubic with simple inner knots on four segments. -/
def exCubic : Curve ℚ (ℚ × ℚ) :=
  ⟨3, [(0, 1), (1, 1), (2, 1), (3, 1), (4, 1), (5, 1), (6, 1)], [0, 0, 0, 0, 1, 2, 3, 4, 4, 4, 4]⟩

/-- Simple inner knots at degree 3: even with four segments the result is another curve. At parameter 2 the cubic is at 3,
    its elevation at 73/16; at the end it has weight 0. -/
theorem C24_cubic_simple_knots :
    exCubic.point (1/1000) 2 = .ok (3, 1) ∧ exCubic.point (1/1000) 4 = .ok (6, 1) ∧
      (exCubic.tryElevateDegree 4 >>= fun c => c.point (1/1000) 2) = .ok (73/16, 1) ∧
      (exCubic.tryElevateDegree 4 >>= fun c => c.point (1/1000) 4) = .ok (0, 0) := by
  decide +kernel

end Curvo.Props

/-
  Property theorems about the closest point searches: C55.
-/
import Verif.Model.Closest
import Verif.Props.Curve4
import Verif.Props.Misc2
import Verif.Props.CurveDeriv
import Verif.Props.TessClaims
import Verif.Props.TraverseParams
import Verif.Props.LengthReal
import Mathlib.Analysis.InnerProductSpace.Calculus

set_option linter.unusedSectionVars false

namespace Curvo.Props
open Curvo Curvo.Knots Curvo.Spec Curvo.Closest

section field
variable {K : Type} [Field K] [LinearOrder K] [IsStrictOrderedRing K] {W : Type} [AddCommGroup W] [Module K W]

/-! ### Bringing a parameter back to the domain -/

/-- On an open curve the constrained parameter is the nearest parameter of the domain. -/
theorem C55_open_constrain {d : K × K} (hd : d.1 ≤ d.2) (x : K) :
    constrain d false x = max d.1 (min d.2 x) := by
  simp only [constrain, Bool.false_eq_true, if_false]
  split_ifs with a b
  · rw [min_eq_right (by linarith), max_eq_left a.le]
  · rw [min_eq_left b.le, max_eq_right hd]
  · rw [min_eq_right (not_lt.1 b), max_eq_right (not_lt.1 a)]

/-- On a closed curve a step over the end continues from the start, but a step before the start always leaves the
    domain beyond its end (the sign of the excess is wrong). -/
theorem C55_closed_constrain {d : K × K} (hd : d.1 < d.2) :
    (∀ x, d.1 ≤ x → x ≤ d.2 → constrain d true x = x) ∧
    (∀ x, d.2 < x → constrain d true x = x - (d.2 - d.1)) ∧
    (∀ x, x < d.1 → d.2 < constrain d true x) := by
  refine ⟨fun x h1 h2 => ?_, fun x h => ?_, fun x h => ?_⟩
  · simp [constrain, not_lt.2 h1, not_lt.2 h2]
  · simp only [constrain, if_neg (not_lt.2 (hd.trans h).le), if_pos h, if_true]; ring
  · simp only [constrain, if_pos h, if_true]; linarith

/-! ### The initial guess -/

theorem segmentClosest_range {nrm : W → K} {dot : W → W → K} {eps : K} (heps : 0 ≤ eps) {pt a b : W} {u0 u1 : K}
    (hu : u0 ≤ u1) : u0 ≤ (segmentClosest nrm dot eps pt a b u0 u1).1 ∧
      (segmentClosest nrm dot eps pt a b u0 u1).1 ≤ u1 := by
  unfold segmentClosest
  simp only
  split_ifs with h1 h2 h3
  · exact ⟨le_refl _, hu⟩
  · exact ⟨le_refl _, hu⟩
  · exact ⟨hu, le_refl _⟩
  · have hl : 0 ≤ nrm (b - a) := heps.trans (not_lt.1 h1)
    have hx := not_lt.1 h2
    have hxl := not_lt.1 h3
    rw [mul_div_assoc]
    have q0 := div_nonneg hx hl
    have q1 := div_le_one_of_le₀ hxl hl
    constructor <;> nlinarith

theorem keepNearest_fold {nrm : W → K} {dot : W → W → K} {eps : K} {pt : W} {P : K → Prop} :
    ∀ (ss : List ((K × W) × (K × W))) (st : Option K × K), P st.2 →
      (∀ s ∈ ss, P (segmentClosest nrm dot eps pt s.1.2 s.2.2 s.1.1 s.2.1).1) →
      P (ss.foldl (keepNearest nrm dot eps pt) st).2
  | [], _, h, _ => h
  | s :: ss, st, h, hs => by
    rw [List.foldl_cons]
    apply keepNearest_fold ss
    · simp only [keepNearest]
      split_ifs
      · exact hs s (by simp)
      · exact h
    · exact fun s' h' => hs s' (by simp [h'])

/-- The least distance found and where: every segment's nearest point is at least that far. -/
theorem keepNearest_min {nrm : W → K} {dot : W → W → K} {eps : K} {pt : W} :
    ∀ (ss : List ((K × W) × (K × W))) (st : Option K × K),
      (∀ m, (ss.foldl (keepNearest nrm dot eps pt) st).1 = some m →
        (∀ s ∈ ss, m ≤ nrm (pt - (segmentClosest nrm dot eps pt s.1.2 s.2.2 s.1.1 s.2.1).2)) ∧
        (∀ m', st.1 = some m' → m ≤ m') ∧
        ((ss.foldl (keepNearest nrm dot eps pt) st = st) ∨
          ∃ s ∈ ss, (ss.foldl (keepNearest nrm dot eps pt) st) =
            (some (nrm (pt - (segmentClosest nrm dot eps pt s.1.2 s.2.2 s.1.1 s.2.1).2)),
              (segmentClosest nrm dot eps pt s.1.2 s.2.2 s.1.1 s.2.1).1))) ∧
      (ss ≠ [] ∨ st.1.isSome → (ss.foldl (keepNearest nrm dot eps pt) st).1.isSome)
  | [], st => by
    refine ⟨fun m h => ⟨by simp, fun m' h' => ?_, Or.inl rfl⟩, by simp⟩
    simp only [List.foldl_nil] at h
    rw [h] at h'
    exact (Option.some.inj h').le
  | s :: ss, st => by
    obtain ⟨ih1, ih2⟩ := keepNearest_min (nrm := nrm) (dot := dot) (eps := eps) (pt := pt) ss
      (keepNearest nrm dot eps pt st s)
    rw [List.foldl_cons]
    have hsome : (keepNearest nrm dot eps pt st s).1.isSome := by
      simp only [keepNearest]
      split_ifs with hc
      · rfl
      · cases hst : st.1 with
        | none => simp [hst] at hc
        | some _ => rfl
    refine ⟨fun m hm => ?_, fun _ => ih2 (Or.inr hsome)⟩
    obtain ⟨a, b, c⟩ := ih1 m hm
    by_cases hc : st.1.all (nrm (pt - (segmentClosest nrm dot eps pt s.1.2 s.2.2 s.1.1 s.2.1).2) < ·) = true
    · have hk : keepNearest nrm dot eps pt st s =
          (some (nrm (pt - (segmentClosest nrm dot eps pt s.1.2 s.2.2 s.1.1 s.2.1).2)),
            (segmentClosest nrm dot eps pt s.1.2 s.2.2 s.1.1 s.2.1).1) := by
        unfold keepNearest; exact if_pos hc
      have hb := b _ (by rw [hk])
      refine ⟨?_, ?_, ?_⟩
      · intro s' hs'
        rcases List.mem_cons.1 hs' with rfl | hs'
        · exact hb
        · exact a s' hs'
      · intro m' hm'
        rw [hm', Option.all_some, decide_eq_true_eq] at hc
        exact hb.trans hc.le
      · rcases c with c | ⟨s', hs', c⟩
        · exact Or.inr ⟨s, by simp, by rw [c, hk]⟩
        · exact Or.inr ⟨s', by simp [hs'], c⟩
    · have hk : keepNearest nrm dot eps pt st s = st := by unfold keepNearest; exact if_neg hc
      rw [hk] at b c ⊢
      refine ⟨?_, b, ?_⟩
      · intro s' hs'
        rcases List.mem_cons.1 hs' with rfl | hs'
        · cases hst : st.1 with
          | none => simp [hst] at hc
          | some m' =>
            rw [hst, Option.all_some, decide_eq_true_eq, not_lt] at hc
            exact (b m' hst).trans hc
        · exact a s' hs'
      · rcases c with c | ⟨s', hs', c⟩
        · exact Or.inl c
        · exact Or.inr ⟨s', by simp [hs'], c⟩

variable {eps : K} {c : Curve K (W × K)}

/-- The sampled points of the search. -/
def samplePoint (c : Curve K (W × K)) (n i : ℕ) : K × W :=
  let t := c.lo + i * ((c.hi - c.lo) / ((n : K) - 1))
  (t, (c.eval t).2⁻¹ • (c.eval t).1)

theorem sample_param_mem {n : ℕ} (hn : 2 ≤ n) {lo hi : K} (h : lo ≤ hi) {i : ℕ} (hi' : i < n) :
    lo ≤ lo + i * ((hi - lo) / ((n : K) - 1)) ∧ lo + i * ((hi - lo) / ((n : K) - 1)) ≤ hi := by
  have hn' : (2 : K) ≤ n := by exact_mod_cast hn
  have hi'' : (i : K) + 1 ≤ n := by exact_mod_cast hi'
  have hi0 : (0 : K) ≤ i := Nat.cast_nonneg i
  constructor
  · have : 0 ≤ (hi - lo) / ((n : K) - 1) := div_nonneg (by linarith) (by linarith)
    nlinarith
  · rw [← le_sub_iff_add_le', ← mul_div_assoc, div_le_iff₀ (by linarith)]
    nlinarith

theorem samples_ok (h : c.Good eps) (hw : ∀ p ∈ c.cps, 0 < p.2) {n : ℕ} (hn : 2 ≤ n) :
    c.sampleRegularRangeWithParameter eps c.lo c.hi n = .ok ((List.range n).map (samplePoint c n)) := by
  have hden : ((n : K) - 1) ≠ 0 := by
    have : (2 : K) ≤ n := by exact_mod_cast hn
    intro h; linarith
  apply mapM_ok
  intro i hi
  rw [divR_eq_ok hden, ok_bind]
  obtain ⟨a, b⟩ := sample_param_mem hn (lo_lt_hi h).le (List.mem_range.1 hi)
  simp only
  rw [(C09_point_at_positive_weights h hw a b).1]
  rfl

/-- The segments of the sampled polyline. -/
def sampleSegments (c : Curve K (W × K)) (n : ℕ) : List ((K × W) × (K × W)) :=
  (List.range (n - 1)).map fun i => (samplePoint c n i, samplePoint c n (i + 1))

theorem zip_tail {α : Type} (f : ℕ → α) (n : ℕ) :
    ((List.range n).map f).zip ((List.range n).map f).tail = (List.range (n - 1)).map fun i => (f i, f (i + 1)) := by
  apply List.ext_getElem
  · simp
  · intro i h1 h2
    simp

theorem guess_eq (h : c.Good eps) (hw : ∀ p ∈ c.cps, 0 < p.2) (hp : 1 ≤ c.degree) (nrm : W → K) (dot : W → W → K)
    (pt : W) : guess nrm dot eps c pt =
      .ok ((sampleSegments c (c.cps.length * c.degree)).foldl (keepNearest nrm dot eps pt) (none, c.lo)).2 ∧
      2 ≤ c.cps.length * c.degree := by
  have hle := h.good.le
  have hn : 2 ≤ c.cps.length * c.degree := by
    have : 2 ≤ c.cps.length := by omega
    nlinarith
  refine ⟨?_, hn⟩
  rw [guess, knotsDomain_eq h, ok_bind]
  simp only
  rw [samples_ok h hw hn, ok_bind, List.length_map, List.length_range, subR_eq_ok (by omega), ok_bind, zip_tail]
  rfl

theorem guess_mem (h : c.Good eps) (hw : ∀ p ∈ c.cps, 0 < p.2) (hp : 1 ≤ c.degree) (nrm : W → K) (dot : W → W → K)
    (pt : W) : ∃ u, guess nrm dot eps c pt = .ok u ∧ c.lo ≤ u ∧ u ≤ c.hi := by
  obtain ⟨e, hn⟩ := guess_eq h hw hp nrm dot pt
  refine ⟨_, e, ?_⟩
  have hlt := lo_lt_hi h
  refine keepNearest_fold (P := fun u => c.lo ≤ u ∧ u ≤ c.hi) _ _ ⟨le_refl _, hlt.le⟩ ?_
  intro s hs
  obtain ⟨i, hi, rfl⟩ := List.mem_map.1 hs
  have hi := List.mem_range.1 hi
  obtain ⟨a0, a1⟩ := sample_param_mem hn hlt.le (i := i) (by omega)
  obtain ⟨b0, b1⟩ := sample_param_mem hn hlt.le (i := i + 1) (by omega)
  have hmono : (samplePoint c (c.cps.length * c.degree) i).1 ≤ (samplePoint c (c.cps.length * c.degree) (i + 1)).1 := by
    have hn' : (2 : K) ≤ (c.cps.length * c.degree : ℕ) := by exact_mod_cast hn
    have : 0 ≤ (c.hi - c.lo) / (((c.cps.length * c.degree : ℕ) : K) - 1) := div_nonneg (by linarith) (by linarith)
    simp only [samplePoint]
    push_cast at this ⊢
    nlinarith
  obtain ⟨r0, r1⟩ := segmentClosest_range (nrm := nrm) (dot := dot) h.good.eps_nonneg (pt := pt)
    (a := (samplePoint c (c.cps.length * c.degree) i).2) (b := (samplePoint c (c.cps.length * c.degree) (i + 1)).2) hmono
  exact ⟨a0.trans r0, r1.trans b1⟩

/-! ### Newton steps on curves -/

theorem gradient_ok (h : c.Good eps) (hw : ∀ p ∈ c.cps, 0 < p.2) (dot : W → W → K) (pt : W) {u : K} (h1 : c.lo ≤ u)
    (h2 : u ≤ c.hi) : ∃ g, gradient dot eps c pt u = .ok g := by
  obtain ⟨_, Q, _, e, _, hl, _⟩ := C26_leibniz h h1 h2 (eval_weight_pos h h1 h2 hw).ne' 1
  rw [gradient, Curve.pointTangentAt, e, ok_bind, getR_eq_ok (by omega), ok_bind, getR_eq_ok (by omega)]
  exact ⟨_, rfl⟩

theorem hessian_ok (h : c.Good eps) (hw : ∀ p ∈ c.cps, 0 < p.2) (dot : W → W → K) (pt : W) {u : K} (h1 : c.lo ≤ u)
    (h2 : u ≤ c.hi) : ∃ g, hessian dot eps c pt u = .ok g := by
  obtain ⟨_, Q, _, e, _, hl, _⟩ := C26_leibniz h h1 h2 (eval_weight_pos h h1 h2 hw).ne' 2
  rw [hessian, e, ok_bind, getR_eq_ok (by omega), ok_bind, getR_eq_ok (by omega), ok_bind, getR_eq_ok (by omega)]
  exact ⟨_, rfl⟩

theorem step_open (h : c.Good eps) (hw : ∀ p ∈ c.cps, 0 < p.2) (dot : W → W → K) (pt : W) {u : K} (h1 : c.lo ≤ u)
    (h2 : u ≤ c.hi) :
    (∃ u', newtonStep dot eps c pt (c.lo, c.hi) false u = .ok u' ∧ c.lo ≤ u' ∧ u' ≤ c.hi) ∨
      (hessian dot eps c pt u = .ok 0 ∧ newtonStep dot eps c pt (c.lo, c.hi) false u = .error .nonfinite) := by
  obtain ⟨g, eg⟩ := gradient_ok h hw dot pt h1 h2
  obtain ⟨k, ek⟩ := hessian_ok h hw dot pt h1 h2
  rw [newtonStep, eg, ok_bind, ek, ok_bind]
  by_cases hk : k = 0
  · right
    subst hk
    exact ⟨rfl, by simp [divR]⟩
  · left
    rw [divR_eq_ok hk, ok_bind, C55_open_constrain (lo_lt_hi h).le]
    exact ⟨_, rfl, le_max_left _ _, max_le (lo_lt_hi h).le (min_le_left _ _)⟩

theorem run_open (h : c.Good eps) (hw : ∀ p ∈ c.cps, 0 < p.2) (dot : W → W → K) (pt : W) :
    ∀ (n : ℕ) (prev : Option K) (u : K), c.lo ≤ u → u ≤ c.hi →
      (∃ u', newtonRun eps (newtonStep dot eps c pt (c.lo, c.hi) false) n prev u = .ok u' ∧ c.lo ≤ u' ∧ u' ≤ c.hi) ∨
        ((∃ x, c.lo ≤ x ∧ x ≤ c.hi ∧ hessian dot eps c pt x = .ok 0) ∧
          newtonRun eps (newtonStep dot eps c pt (c.lo, c.hi) false) n prev u = .error .nonfinite)
  | 0, prev, u, h1, h2 => Or.inl ⟨u, rfl, h1, h2⟩
  | n + 1, prev, u, h1, h2 => by
    unfold newtonRun
    split_ifs
    · exact Or.inl ⟨u, rfl, h1, h2⟩
    · rcases step_open h hw dot pt h1 h2 with ⟨u', e, a, b⟩ | ⟨e, e'⟩
      · rw [e, ok_bind]
        exact run_open h hw dot pt n (some u) u' a b
      · rw [e']
        exact Or.inr ⟨⟨u, h1, h2, e⟩, rfl⟩

/-- **C55** On an open curve with positive weights the search never evaluates outside the domain: it returns a parameter of
    the domain, unless the second derivative of the squared distance vanishes at one of the visited parameters. -/
theorem C55_open_stays_inside (h : c.Good eps) (hw : ∀ p ∈ c.cps, 0 < p.2) (hp : 1 ≤ c.degree) (nrm : W → K)
    (dot : W → W → K) (pt : W) (hopen : c.isClosed eps (fun a b => nrm (a - b)) = .ok false) :
    (∃ u, findClosestParameter nrm dot eps c pt = .ok u ∧ c.lo ≤ u ∧ u ≤ c.hi ∧
      findClosestPoint nrm dot eps c pt = .ok ((c.eval u).2⁻¹ • (c.eval u).1)) ∨
      ((∃ x, c.lo ≤ x ∧ x ≤ c.hi ∧ hessian dot eps c pt x = .ok 0) ∧
        findClosestParameter nrm dot eps c pt = .error .nonfinite) := by
  obtain ⟨u, eu, h1, h2⟩ := guess_mem h hw hp nrm dot pt
  have e : findClosestParameter nrm dot eps c pt =
      newtonRun eps (newtonStep dot eps c pt (c.lo, c.hi) false) 5 none u := by
    rw [findClosestParameter, knotsDomain_eq h, ok_bind, eu, ok_bind, hopen]
    rfl
  rcases run_open h hw dot pt 5 none u h1 h2 with ⟨u', e', a, b⟩ | ⟨hx, e'⟩
  · refine Or.inl ⟨u', e.trans e', a, b, ?_⟩
    rw [findClosestPoint, e, e', ok_bind, (C09_point_at_positive_weights h hw a b).1]
  · exact Or.inr ⟨hx, e.trans e'⟩

/-- On an open curve a parameter inside the domain that the step does not change is stationary. -/
theorem C55_fixed_point_stationary {dot : W → W → K} {pt : W} {d : K × K} {u : K}
    (h1 : d.1 < u) (h2 : u < d.2) (h : newtonStep dot eps c pt d false u = .ok u) :
    gradient dot eps c pt u = .ok 0 := by
  unfold newtonStep at h
  obtain ⟨g, eg, h'⟩ := bind_eq_ok.1 h
  obtain ⟨k, ek, h'⟩ := bind_eq_ok.1 h'
  by_cases hk : k = 0
  · subst hk; simp [divR] at h'
  · rw [divR_eq_ok hk, ok_bind] at h'
    have h' : constrain d false (u - 1 / k * g) = u := Except.ok.inj h'
    have key : u - 1 / k * g = u := by
      simp only [constrain, Bool.false_eq_true, if_false] at h'
      split_ifs at h'
      · linarith
      · linarith
      · exact h'
    have : 1 / k * g = 0 := by linarith
    rw [eg]
    congr 1
    rcases mul_eq_zero.1 this with h0 | h0
    · simp at h0; exact absurd h0 hk
    · exact h0

end field

/-! ### Surfaces -/

section surface
open Curvo.Tess
variable {K : Type} [Field K] [LinearOrder K] [IsStrictOrderedRing K] {W : Type} [AddCommGroup W] [Module K W]
variable {eps : K} {S : Surface K (W × K)}

theorem constrainEps_mem {d : K × K} (h0 : 0 ≤ eps) (h : d.1 + eps ≤ d.2) (x : K) :
    d.1 ≤ constrainEps eps d false x ∧ constrainEps eps d false x ≤ d.2 := by
  simp only [constrainEps, Bool.false_eq_true, if_false]
  split_ifs with a b
  · exact ⟨by linarith, h⟩
  · exact ⟨by linarith, by linarith⟩
  · exact ⟨not_lt.1 a, not_lt.1 b⟩

/-- On a surface closed in a direction a step before the start leaves the domain as on curves. -/
theorem C55_closed_surface_constrain {d : K × K} {x : K} (hd : d.1 < d.2) (h : x < d.1) :
    d.2 < constrainEps eps d true x := by
  simp only [constrainEps, if_pos h, if_true]; linarith

theorem table_ok (h : S.Good eps) (hw : ∀ row ∈ S.cps, ∀ p ∈ row, 0 < p.2) {x : K × K} (hx : (domRect S).Mem x)
    (m : ℕ) : ∃ Q : ℕ → ℕ → W, S.rationalDerivatives eps x.1 x.2 m =
      .ok (vec (m + 1) fun k => vec (m - k + 1) (Q k)) := by
  obtain ⟨h1, h2, h3, h4⟩ := hx
  have := h.rows_pos
  have := h.cols_pos
  obtain ⟨su, eu, pu, nu, iu⟩ := h.exists_span_u h1 h2
  obtain ⟨sv, ev, pv, nv, iv⟩ := h.exists_span_v h3 h4
  obtain ⟨e, _, _⟩ := surf_span h h1 h2 h3 h4 (by omega) (by omega) iu iv m
  have hp := surf_weight_pos h hw h1 h2 h3 h4
  have he := Surface.eval_eq_patch h pu nu pv nv iu iv
  rw [he] at hp
  obtain ⟨Q, eQ, hQ⟩ := Surface.rationalTable_spec (m := m)
    (F := fun k l => if k + l ≤ m then S.patchDer su sv k l x.1 x.2 else 0) (by
      simp only [Nat.add_zero, Nat.zero_le, if_true]; exact hp.ne')
  exact ⟨Q, by rw [Surface.rationalDerivatives, e, ok_bind, eQ]⟩

theorem surf_pointAt (h : S.Good eps) (hw : ∀ row ∈ S.cps, ∀ p ∈ row, 0 < p.2) {x : K × K} (hx : (domRect S).Mem x) :
    S.pointAt eps x.1 x.2 = .ok (surfPoint S x) := by
  obtain ⟨h1, h2, h3, h4⟩ := hx
  have hp := surf_weight_pos h hw h1 h2 h3 h4
  rw [Surface.pointAt, Surface.point_eq_eval h h1 h2 h3 h4, ok_bind, Curve.dehomogenize, if_pos hp.ne']
  rfl

theorem propose_ok (h : S.Good eps) (h0 : 0 < eps) (hw : ∀ row ∈ S.cps, ∀ p ∈ row, 0 < p.2) (nrm : W → K) (dot : W → W → K)
    (pt : W) {x : K × K} (hx : (domRect S).Mem x) :
    (∃ r, propose nrm dot eps S pt x = .ok r) ∨ propose nrm dot eps S pt x = .error .err := by
  obtain ⟨Q, e⟩ := table_ok h hw hx 2
  have e' : S.rationalDerivatives eps x.1 x.2 2 = .ok [[Q 0 0, Q 0 1, Q 0 2], [Q 1 0, Q 1 1], [Q 2 0]] := e
  rw [propose, surf_pointAt h hw hx, ok_bind, e', ok_bind]
  simp only [show get2R [[Q 0 0, Q 0 1, Q 0 2], [Q 1 0, Q 1 1], [Q 2 0]] 1 0 = .ok (Q 1 0) from rfl,
    show get2R [[Q 0 0, Q 0 1, Q 0 2], [Q 1 0, Q 1 1], [Q 2 0]] 0 1 = .ok (Q 0 1) from rfl,
    show get2R [[Q 0 0, Q 0 1, Q 0 2], [Q 1 0, Q 1 1], [Q 2 0]] 2 0 = .ok (Q 2 0) from rfl,
    show get2R [[Q 0 0, Q 0 1, Q 0 2], [Q 1 0, Q 1 1], [Q 2 0]] 0 2 = .ok (Q 0 2) from rfl,
    show get2R [[Q 0 0, Q 0 1, Q 0 2], [Q 1 0, Q 1 1], [Q 2 0]] 1 1 = .ok (Q 1 1) from rfl, ok_bind]
  generalize dot (Q 1 0) (Q 1 0) + dot (Q 2 0) (surfPoint S x - pt) = duu
  generalize dot (Q 0 1) (Q 0 1) + dot (Q 0 2) (surfPoint S x - pt) = dvv
  split_ifs with a b c d
  · exact Or.inl ⟨_, rfl⟩
  · exact Or.inl ⟨_, rfl⟩
  · rw [divR_eq_ok (by linarith [not_lt.1 c] : dvv ≠ 0)]; exact Or.inl ⟨_, rfl⟩
  · rw [divR_eq_ok (by linarith [not_lt.1 b] : duu ≠ 0)]; exact Or.inl ⟨_, rfl⟩
  · unfold solve2
    split_ifs
    · exact Or.inr rfl
    · exact Or.inl ⟨_, rfl⟩

theorem cost_ok (h : S.Good eps) (hw : ∀ row ∈ S.cps, ∀ p ∈ row, 0 < p.2) (nrm : W → K) (pt : W) {x : K × K}
    (hx : (domRect S).Mem x) : distanceCost nrm eps S pt x = .ok (nrm (surfPoint S x - pt)) := by
  rw [distanceCost, surf_pointAt h hw hx]; rfl

theorem surf_gap (h : S.Good eps) : S.ulo + eps ≤ S.uhi ∧ S.vlo + eps ≤ S.vhi := by
  have h1 := h.rows_pos
  have h2 := h.cols_pos
  have h3 := h.u_good.le
  have h4 := h.v_good.le
  exact ⟨h.u_good.first_gap.trans (h.u_good.mono _ _ (by omega) (by omega)),
    h.v_good.first_gap.trans (h.v_good.mono _ _ (by omega) (by omega))⟩

/-- A step on an open surface: a parameter of the domain with its cost, which is not larger; or a singular system. -/
theorem surfaceStep_open (h : S.Good eps) (h0 : 0 < eps) (hw : ∀ row ∈ S.cps, ∀ p ∈ row, 0 < p.2) (nrm : W → K)
    (dot : W → W → K) (pt : W) {st : (K × K) × K} (hx : (domRect S).Mem st.1)
    (hc : st.2 = nrm (surfPoint S st.1 - pt)) :
    (∃ st', surfaceStep nrm dot eps S pt (S.ulo, S.uhi) (S.vlo, S.vhi) false false st = .ok st' ∧
      (domRect S).Mem st'.1 ∧ st'.2 = nrm (surfPoint S st'.1 - pt)) ∨
      surfaceStep nrm dot eps S pt (S.ulo, S.uhi) (S.vlo, S.vhi) false false st = .error .err := by
  obtain ⟨g1, g2⟩ := surf_gap h
  rcases propose_ok h h0 hw nrm dot pt hx with ⟨r, e⟩ | e
  · left
    cases r with
    | none => exact ⟨st, by rw [surfaceStep, e]; rfl, hx, hc⟩
    | some y =>
      obtain ⟨a, b⟩ := constrainEps_mem (d := (S.ulo, S.uhi)) h0.le g1 y.1
      obtain ⟨a', b'⟩ := constrainEps_mem (d := (S.vlo, S.vhi)) h0.le g2 y.2
      have hm : (domRect S).Mem (constrainEps eps (S.ulo, S.uhi) false y.1, constrainEps eps (S.vlo, S.vhi) false y.2) :=
        ⟨a, b, a', b'⟩
      rw [surfaceStep, e, ok_bind]
      simp only
      rw [cost_ok h hw nrm pt hm, ok_bind]
      split_ifs
      · exact ⟨st, rfl, hx, hc⟩
      · exact ⟨_, rfl, hm, rfl⟩
  · right
    rw [surfaceStep, e]; rfl

theorem surfaceRun_open (h : S.Good eps) (h0 : 0 < eps) (hw : ∀ row ∈ S.cps, ∀ p ∈ row, 0 < p.2) (nrm : W → K)
    (dot : W → W → K) (nrm2 : K × K → K) (pt : W) : ∀ (n : ℕ) (prev : Option (K × K)) (st best : (K × K) × K),
    (domRect S).Mem st.1 → st.2 = nrm (surfPoint S st.1 - pt) → (domRect S).Mem best.1 →
    best.2 = nrm (surfPoint S best.1 - pt) →
    (∃ r, surfaceRun eps nrm2 (surfaceStep nrm dot eps S pt (S.ulo, S.uhi) (S.vlo, S.vhi) false false) n prev st best =
        .ok r ∧ (domRect S).Mem r ∧ nrm (surfPoint S r - pt) ≤ best.2) ∨
      surfaceRun eps nrm2 (surfaceStep nrm dot eps S pt (S.ulo, S.uhi) (S.vlo, S.vhi) false false) n prev st best =
        .error .err
  | 0, prev, st, best, _, _, hb, hbc => Or.inl ⟨best.1, rfl, hb, hbc.ge⟩
  | n + 1, prev, st, best, hx, hc, hb, hbc => by
    unfold surfaceRun
    split_ifs
    · exact Or.inl ⟨best.1, rfl, hb, hbc.ge⟩
    · rcases surfaceStep_open h h0 hw nrm dot pt hx hc with ⟨st', e, hx', hc'⟩ | e
      · rw [e, ok_bind]
        have ih := surfaceRun_open h h0 hw nrm dot nrm2 pt n (some st.1) st' (if st'.2 < best.2 then st' else best) hx' hc'
        split_ifs at ih ⊢ with hlt
        · rcases ih hx' hc' with ⟨r, e, hm, hr⟩ | e
          · exact Or.inl ⟨r, e, hm, hr.trans hlt.le⟩
          · exact Or.inr e
        · exact ih hb hbc
      · rw [e]; exact Or.inr rfl

/-- Whatever the steps do, the returned cost is at most the first one. -/
theorem surfaceRun_best {nrm : W → K} {dot : W → W → K} {nrm2 : K × K → K} {pt : W} {du dv : K × K} {cu cv : Bool} :
    ∀ (n : ℕ) (prev : Option (K × K)) (st best : (K × K) × K) (r : K × K),
    distanceCost nrm eps S pt st.1 = .ok st.2 → distanceCost nrm eps S pt best.1 = .ok best.2 →
    surfaceRun eps nrm2 (surfaceStep nrm dot eps S pt du dv cu cv) n prev st best = .ok r →
    ∃ k, distanceCost nrm eps S pt r = .ok k ∧ k ≤ best.2
  | 0, prev, st, best, r, _, hb, h => by
    have h : best.1 = r := Except.ok.inj h
    exact ⟨best.2, by rw [← h, hb], le_refl _⟩
  | n + 1, prev, st, best, r, hc, hb, h => by
    unfold surfaceRun at h
    split_ifs at h
    · have h : best.1 = r := Except.ok.inj h
      exact ⟨best.2, by rw [← h, hb], le_refl _⟩
    · obtain ⟨st', e, h'⟩ := bind_eq_ok.1 h
      have hc' : distanceCost nrm eps S pt st'.1 = .ok st'.2 := by
        unfold surfaceStep at e
        obtain ⟨p, ep, e'⟩ := bind_eq_ok.1 e
        cases p with
        | none =>
          have : st = st' := Except.ok.inj e'
          rw [← this]; exact hc
        | some y =>
          simp only at e'
          obtain ⟨k, ek, e''⟩ := bind_eq_ok.1 e'
          split_ifs at e''
          · have : st = st' := Except.ok.inj e''
            rw [← this]; exact hc
          · have : (_, k) = st' := Except.ok.inj e''
            rw [← this]; exact ek
      split_ifs at h' with hlt
      · obtain ⟨k, ek, hk⟩ := surfaceRun_best n (some st.1) st' st' r hc' hc' h'
        exact ⟨k, ek, hk.trans hlt.le⟩
      · exact surfaceRun_best n (some st.1) st' best r hc' hb h'

theorem keepVertex_min {normSq : W → K} {pt : W} : ∀ (vs : List (W × (K × K))) (st : Option K × (K × K)),
    (vs.foldl (keepVertex normSq pt) st = st ∧ (vs ≠ [] → st.1.isSome) ∨
      ∃ v ∈ vs, vs.foldl (keepVertex normSq pt) st = (some (normSq (pt - v.1)), v.2)) ∧
    ∀ m, (vs.foldl (keepVertex normSq pt) st).1 = some m →
      (∀ v ∈ vs, m ≤ normSq (pt - v.1)) ∧ ∀ m', st.1 = some m' → m ≤ m'
  | [], st => by
    refine ⟨Or.inl ⟨rfl, by simp⟩, fun m h => ⟨by simp, fun m' h' => ?_⟩⟩
    simp only [List.foldl_nil] at h
    rw [h] at h'
    exact (Option.some.inj h').le
  | v :: vs, st => by
    rw [List.foldl_cons]
    by_cases hc : st.1.all (normSq (pt - v.1) < ·) = true
    · have hk : keepVertex normSq pt st v = (some (normSq (pt - v.1)), v.2) := by unfold keepVertex; exact if_pos hc
      rw [hk]
      obtain ⟨i1, i2⟩ := keepVertex_min (normSq := normSq) (pt := pt) vs (some (normSq (pt - v.1)), v.2)
      refine ⟨?_, fun m hm => ?_⟩
      · rcases i1 with ⟨i1, -⟩ | ⟨w, hw, i1⟩
        · exact Or.inr ⟨v, by simp, i1⟩
        · exact Or.inr ⟨w, by simp [hw], i1⟩
      · obtain ⟨a, b⟩ := i2 m hm
        refine ⟨?_, ?_⟩
        · intro w hw
          rcases List.mem_cons.1 hw with rfl | hw
          · exact b _ rfl
          · exact a w hw
        · intro m' hm'
          rw [hm', Option.all_some, decide_eq_true_eq] at hc
          exact (b _ rfl).trans hc.le
    · have hk : keepVertex normSq pt st v = st := by unfold keepVertex; exact if_neg hc
      rw [hk]
      obtain ⟨i1, i2⟩ := keepVertex_min (normSq := normSq) (pt := pt) vs st
      have hs : ∃ m', st.1 = some m' ∧ m' ≤ normSq (pt - v.1) := by
        cases hst : st.1 with
        | none => simp [hst] at hc
        | some m' =>
          rw [hst, Option.all_some, decide_eq_true_eq, not_lt] at hc
          exact ⟨m', rfl, hc⟩
      obtain ⟨m', hm', hle⟩ := hs
      refine ⟨?_, fun m hm => ?_⟩
      · rcases i1 with ⟨i1, -⟩ | ⟨w, hw, i1⟩
        · exact Or.inl ⟨i1, fun _ => by rw [hm']; rfl⟩
        · exact Or.inr ⟨w, by simp [hw], i1⟩
      · obtain ⟨a, b⟩ := i2 m hm
        refine ⟨?_, b⟩
        intro w hw
        rcases List.mem_cons.1 hw with rfl | hw
        · exact (b m' hm').trans hle
        · exact a w hw

/-- What is assumed of the norm: the squared norm orders vectors as the norm does, and both ignore the sign. -/
structure NormLike (nrm normSq : W → K) : Prop where
  le : ∀ v w, normSq v ≤ normSq w → nrm v ≤ nrm w
  neg : ∀ v, nrm (-v) = nrm v

/-- The parameter from which the surface search starts. -/
def vertexGuess (M : Metric K W) (S : Surface K (W × K)) (t : Surface.Tessellation K W) (pt : W) : K × K :=
  ((t.points.zip t.uvs).foldl (keepVertex M.normSq pt) (none, (S.ulo, S.vlo))).2

theorem vertexGuess_spec {M : Metric K W} {t : Surface.Tessellation K W} (h : S.Good eps)
    (ht : MeshOK (surfPoint S) (domRect S) t) {nrm : W → K} (hn : NormLike nrm M.normSq) (pt : W) :
    (domRect S).Mem (vertexGuess M S t pt) ∧
      ∀ q ∈ t.points, nrm (surfPoint S (vertexGuess M S t pt) - pt) ≤ nrm (q - pt) := by
  obtain ⟨g1, g2⟩ := surf_gap h
  have he := h.u_good.eps_nonneg
  obtain ⟨i1, i2⟩ := keepVertex_min (normSq := M.normSq) (pt := pt) (t.points.zip t.uvs) (none, (S.ulo, S.vlo))
  rcases i1 with ⟨i1, i1'⟩ | ⟨v, hv, i1⟩
  · have hnil : t.points.zip t.uvs = [] := by
      by_contra hne
      simpa using i1' hne
    have hp : t.points = [] := by
      have := congrArg List.length hnil
      rw [List.length_zip, ht.uvs, min_self] at this
      exact List.length_eq_zero_iff.1 this
    refine ⟨?_, by simp [hp]⟩
    rw [vertexGuess, i1]
    exact ⟨le_refl _, by show S.ulo ≤ S.uhi; linarith, le_refl _, by show S.vlo ≤ S.vhi; linarith⟩
  · obtain ⟨a, -⟩ := i2 _ (by rw [i1])
    have hv2 : v.2 ∈ t.uvs := (List.of_mem_zip (b := v.2) (a := v.1) hv).2
    obtain ⟨k, hk, hk'⟩ := List.mem_iff_getElem.1 hv
    have hkl : k < t.uvs.length := by rw [List.length_zip, ht.uvs] at hk; rw [ht.uvs]; omega
    have hvp : v.1 = surfPoint S v.2 := by
      rw [← hk', List.getElem_zip]
      simp only [ht.points, List.getElem_map]
    refine ⟨by rw [vertexGuess, i1]; exact ht.inside _ hv2, ?_⟩
    intro q hq
    rw [vertexGuess, i1]
    simp only
    rw [← hvp]
    obtain ⟨j, hj, rfl⟩ := List.mem_iff_getElem.1 hq
    have hj' : j < (t.points.zip t.uvs).length := by rw [List.length_zip, ht.uvs]; omega
    have := a _ (List.getElem_mem hj')
    rw [List.getElem_zip] at this
    have := hn.le _ _ this
    rw [← hn.neg (v.1 - pt), ← hn.neg (t.points[j] - pt), neg_sub, neg_sub]
    exact this

/-- The mesh that the surface search starts from. -/
theorem closest_mesh {M : Metric K W} (h : S.Good eps) (hw : ∀ row ∈ S.cps, ∀ p ∈ row, 0 < p.2) (hd : GridDegrees S)
    (dflt : Options K) {fuel : ℕ} (hf : max dflt.minDepth dflt.maxDepth < fuel) :
    ∃ t, tessellateSurface M eps fuel S none
        (some { dflt with minDivsU := (S.cps.length - 1) * 2, minDivsV := (S.cols - 1) * 2 }) dflt = .ok t ∧
      MeshOK (surfPoint S) (domRect S) t := by
  obtain ⟨t, e, ht⟩ := C45_mesh_valid (M := M) h hw hd none (by simp)
    (some { dflt with minDivsU := (S.cps.length - 1) * 2, minDivsV := (S.cols - 1) * 2 }) dflt
  exact ⟨t, e fuel (by intro o ho; rw [← Option.some.inj ho]; exact hf), ht⟩

theorem findS_eq {nrm : W → K} {dot : W → W → K} {nrm2 : K × K → K} {M : Metric K W} {fuel : ℕ} {dflt : Options K}
    (h : S.Good eps) (hw : ∀ row ∈ S.cps, ∀ p ∈ row, 0 < p.2) {t : Surface.Tessellation K W}
    (et : tessellateSurface M eps fuel S none
        (some { dflt with minDivsU := (S.cps.length - 1) * 2, minDivsV := (S.cols - 1) * 2 }) dflt = .ok t)
    (ht : MeshOK (surfPoint S) (domRect S) t) (hn : NormLike nrm M.normSq) (pt : W) :
    findClosestParameterS nrm dot nrm2 M eps fuel dflt S pt = (do
      let pts ← S.dehomogenizedCps
      let cu ← uClosed nrm eps pts
      let cv ← vClosed nrm eps pts
      surfaceRun eps nrm2 (surfaceStep nrm dot eps S pt (S.ulo, S.uhi) (S.vlo, S.vhi) cu cv) 100 none
        (vertexGuess M S t pt, nrm (surfPoint S (vertexGuess M S t pt) - pt))
        (vertexGuess M S t pt, nrm (surfPoint S (vertexGuess M S t pt) - pt))) := by
  have hr := h.rows_pos
  have hcp := h.cols_pos
  have hc := cost_ok h hw nrm pt (vertexGuess_spec h ht hn pt).1
  have hrow : (S.cps[0]).length = S.cols := h.rect _ (List.getElem_mem _)
  rw [findClosestParameterS, u_domain_eq h, ok_bind, v_domain_eq h, ok_bind, subR_eq_ok (by omega), ok_bind,
    getR_eq_ok hr, ok_bind, hrow, subR_eq_ok (by omega), ok_bind]
  simp only
  rw [et, ok_bind]
  show (do
    let pts ← S.dehomogenizedCps
    let cu ← uClosed nrm eps pts
    let cv ← vClosed nrm eps pts
    let k ← distanceCost nrm eps S pt (vertexGuess M S t pt)
    surfaceRun eps nrm2 (surfaceStep nrm dot eps S pt (S.ulo, S.uhi) (S.vlo, S.vhi) cu cv) 100 none
        (vertexGuess M S t pt, k) (vertexGuess M S t pt, k)) = _
  simp only [hc, ok_bind]

/-- **C55** The returned point of a surface is at most as far as every vertex of the tessellation from which the search
    starts (closed surfaces included). -/
theorem C55_surface_no_worse {nrm : W → K} {dot : W → W → K} {nrm2 : K × K → K} {M : Metric K W} (h : S.Good eps)
    (hw : ∀ row ∈ S.cps, ∀ p ∈ row, 0 < p.2) (hd : GridDegrees S) (hn : NormLike nrm M.normSq) (dflt : Options K)
    {fuel : ℕ} (hf : max dflt.minDepth dflt.maxDepth < fuel) (pt : W) :
    ∃ t, tessellateSurface M eps fuel S none
        (some { dflt with minDivsU := (S.cps.length - 1) * 2, minDivsV := (S.cols - 1) * 2 }) dflt = .ok t ∧
      ∀ uv, findClosestParameterS nrm dot nrm2 M eps fuel dflt S pt = .ok uv →
        ∃ x, findClosestPointS nrm dot nrm2 M eps fuel dflt S pt = .ok x ∧ S.pointAt eps uv.1 uv.2 = .ok x ∧
          ∀ q ∈ t.points, nrm (x - pt) ≤ nrm (q - pt) := by
  obtain ⟨t, et, ht⟩ := closest_mesh (M := M) h hw hd dflt hf
  refine ⟨t, et, fun uv huv => ?_⟩
  obtain ⟨hg, hmin⟩ := vertexGuess_spec h ht hn pt
  have huv' := huv
  rw [findS_eq h hw et ht hn pt] at huv'
  obtain ⟨pts, _, huv'⟩ := bind_eq_ok.1 huv'
  obtain ⟨cu, _, huv'⟩ := bind_eq_ok.1 huv'
  obtain ⟨cv, _, huv'⟩ := bind_eq_ok.1 huv'
  have hc := cost_ok h hw nrm pt hg
  obtain ⟨k, ek, hk⟩ := surfaceRun_best (nrm := nrm) (eps := eps) (S := S) (pt := pt) 100 none
    (vertexGuess M S t pt, nrm (surfPoint S (vertexGuess M S t pt) - pt))
    (vertexGuess M S t pt, nrm (surfPoint S (vertexGuess M S t pt) - pt)) uv hc hc huv'
  obtain ⟨x, ex, ek'⟩ := bind_eq_ok.1 ek
  have ek' : nrm (x - pt) = k := Except.ok.inj ek'
  refine ⟨x, by rw [findClosestPointS, huv, ok_bind, ex], ex, fun q hq => ?_⟩
  rw [ek']
  exact hk.trans (hmin q hq)

/-- **C55** On a surface that is open in both directions the search returns parameters of the domain, or fails because a
    Newton system is singular. -/
theorem C55_surface_open_stays_inside {nrm : W → K} {dot : W → W → K} {nrm2 : K × K → K} {M : Metric K W} (h : S.Good eps)
    (h0 : 0 < eps) (hw : ∀ row ∈ S.cps, ∀ p ∈ row, 0 < p.2) (hd : GridDegrees S) (hn : NormLike nrm M.normSq)
    (dflt : Options K) {fuel : ℕ} (hf : max dflt.minDepth dflt.maxDepth < fuel) (pt : W) {pts : List (List W)}
    (hpts : S.dehomogenizedCps = .ok pts) (hu : uClosed nrm eps pts = .ok false) (hv : vClosed nrm eps pts = .ok false) :
    (∃ uv, findClosestParameterS nrm dot nrm2 M eps fuel dflt S pt = .ok uv ∧ S.ulo ≤ uv.1 ∧ uv.1 ≤ S.uhi ∧
      S.vlo ≤ uv.2 ∧ uv.2 ≤ S.vhi) ∨
      findClosestParameterS nrm dot nrm2 M eps fuel dflt S pt = .error .err := by
  obtain ⟨t, et, ht⟩ := closest_mesh (M := M) h hw hd dflt hf
  obtain ⟨hg, -⟩ := vertexGuess_spec h ht hn pt
  rw [findS_eq h hw et ht hn pt, hpts, ok_bind, hu, ok_bind, hv, ok_bind]
  rcases surfaceRun_open h h0 hw nrm dot nrm2 pt 100 none
    (vertexGuess M S t pt, nrm (surfPoint S (vertexGuess M S t pt) - pt))
    (vertexGuess M S t pt, nrm (surfPoint S (vertexGuess M S t pt) - pt)) hg rfl hg rfl with ⟨r, e, hm, -⟩ | e
  · exact Or.inl ⟨r, e, hm.1, hm.2.1, hm.2.2.1, hm.2.2.2⟩
  · exact Or.inr e

end surface

/-! ### The objective over the reals -/

section real
open InnerProductSpace
variable {E : Type} [NormedAddCommGroup E] [InnerProductSpace ℝ E] {eps : ℝ} {c : Curve ℝ (E × ℝ)}

/-- The real instance of the projection is the function of C52. -/
theorem segmentClosest_real (eps : ℝ) (pt a b : E) (u0 u1 : ℝ) :
    segmentClosest (fun v : E => ‖v‖) (fun v w => ⟪v, w⟫_ℝ) eps pt a b u0 u1 =
      Misc.segmentClosestPoint eps pt a b u0 u1 := rfl

theorem projection_nearest (heps : 0 ≤ eps) (pt a b : E) (u0 u1 : ℝ) :
    ∃ s : ℝ, 0 ≤ s ∧ s ≤ 1 ∧ (Misc.segmentClosestPoint eps pt a b u0 u1).2 = a + s • (b - a) ∧
      (Misc.segmentClosestPoint eps pt a b u0 u1).1 = u0 + (u1 - u0) * s ∧
      ∀ s' : ℝ, 0 ≤ s' → s' ≤ 1 →
        ‖pt - (Misc.segmentClosestPoint eps pt a b u0 u1).2‖ ≤ ‖pt - (a + s' • (b - a))‖ + eps := by
  by_cases hl : ‖b - a‖ < eps
  · have e : Misc.segmentClosestPoint eps pt a b u0 u1 = (u0, a) := by
      simp only [Misc.segmentClosestPoint, if_pos hl]
    refine ⟨0, le_refl _, zero_le_one, by simp [e], by simp [e], fun s' h0 h1 => ?_⟩
    rw [e]
    have h2 : pt - a = (pt - (a + s' • (b - a))) + s' • (b - a) := by abel
    have h3 : ‖s' • (b - a)‖ ≤ eps := by
      rw [norm_smul, Real.norm_eq_abs, abs_of_nonneg h0]
      nlinarith [norm_nonneg (b - a)]
    calc ‖pt - a‖ = ‖(pt - (a + s' • (b - a))) + s' • (b - a)‖ := by rw [← h2]
      _ ≤ _ := (norm_add_le _ _).trans (by linarith)
  · by_cases h0 : 0 < ‖b - a‖
    · obtain ⟨s, h1, h2, h3, h4, h5⟩ := C52_closest (eps := ‖b - a‖) h0 (pt := pt) (a := a) (b := b) (u0 := u0)
        (u1 := u1) (le_refl _)
      have e : Misc.segmentClosestPoint eps pt a b u0 u1 = Misc.segmentClosestPoint ‖b - a‖ pt a b u0 u1 := by
        simp only [Misc.segmentClosestPoint, if_neg hl, lt_irrefl, if_false]
      rw [e]
      exact ⟨s, h1, h2, h3, h4, fun s' a b => (h5 s' a b).trans (by linarith)⟩
    · have hab : b - a = 0 := norm_eq_zero.1 (le_antisymm (not_lt.1 h0) (norm_nonneg _))
      have e2 : (Misc.segmentClosestPoint eps pt a b u0 u1) = (u0, a) := by
        simp only [Misc.segmentClosestPoint, hab]
        simp
      refine ⟨0, le_refl _, zero_le_one, by simp [e2], by simp [e2], fun s' _ _ => ?_⟩
      rw [e2, hab]
      simpa using heps

/-- **C55** The initial guess is the parameter of a nearest point, up to the machine epsilon, of the polyline through the
    regular samples of the curve (as many as control points times degree). -/
theorem C55_guess_nearest (h : c.Good eps) (hw : ∀ p ∈ c.cps, 0 < p.2) (hp : 1 ≤ c.degree) (pt : E) :
    ∃ (n : ℕ) (t : ℕ → ℝ) (p : ℕ → E), n = c.cps.length * c.degree ∧ 2 ≤ n ∧
      (∀ i, i < n → t i = c.lo + i * ((c.hi - c.lo) / ((n : ℝ) - 1)) ∧ c.pointAt eps (t i) = .ok (p i)) ∧
      ∃ (j : ℕ) (s : ℝ), j + 1 < n ∧ 0 ≤ s ∧ s ≤ 1 ∧
        guess (fun v : E => ‖v‖) (fun v w => ⟪v, w⟫_ℝ) eps c pt = .ok (t j + (t (j + 1) - t j) * s) ∧
        ∀ (i : ℕ) (s' : ℝ), i + 1 < n → 0 ≤ s' → s' ≤ 1 →
          ‖pt - (p j + s • (p (j + 1) - p j))‖ ≤ ‖pt - (p i + s' • (p (i + 1) - p i))‖ + eps := by
  have hlt := lo_lt_hi h
  obtain ⟨e, hn⟩ := guess_eq h hw hp (fun v : E => ‖v‖) (fun v w => ⟪v, w⟫_ℝ) pt
  refine ⟨_, fun i => (samplePoint c (c.cps.length * c.degree) i).1, fun i => (samplePoint c (c.cps.length * c.degree) i).2,
    rfl, hn, ?_, ?_⟩
  · intro i hi
    obtain ⟨a, b⟩ := sample_param_mem hn hlt.le hi
    exact ⟨rfl, (C09_point_at_positive_weights h hw a b).1⟩
  · obtain ⟨h1, h2⟩ := keepNearest_min (nrm := fun v : E => ‖v‖) (dot := fun v w => ⟪v, w⟫_ℝ) (eps := eps) (pt := pt)
      (sampleSegments c (c.cps.length * c.degree)) (none, c.lo)
    have hne : sampleSegments c (c.cps.length * c.degree) ≠ [] := by
      intro h0
      have := congrArg List.length h0
      simp only [sampleSegments, List.length_map, List.length_range, List.length_nil] at this
      omega
    obtain ⟨m, hm⟩ := Option.isSome_iff_exists.1 (h2 (Or.inl hne))
    obtain ⟨hall, -, hwhere⟩ := h1 m hm
    rcases hwhere with hw' | ⟨sg, hsg, hw'⟩
    · rw [hw'] at hm; simp at hm
    · rw [hw'] at hm
      have hm : _ = m := Option.some.inj hm
      obtain ⟨j, hj, rfl⟩ := List.mem_map.1 hsg
      have hj := List.mem_range.1 hj
      obtain ⟨s, s0, s1, hs, hu, -⟩ := projection_nearest h.good.eps_nonneg pt
        (samplePoint c (c.cps.length * c.degree) j).2 (samplePoint c (c.cps.length * c.degree) (j + 1)).2
        (samplePoint c (c.cps.length * c.degree) j).1 (samplePoint c (c.cps.length * c.degree) (j + 1)).1
      refine ⟨j, s, by omega, s0, s1, ?_, ?_⟩
      · rw [e, hw']
        simp only [segmentClosest_real, hu]
      · intro i s' hi hs0 hs1
        have := hall _ (List.mem_map.2 ⟨i, List.mem_range.2 (by omega), rfl⟩)
        obtain ⟨_, _, _, _, _, hbest⟩ := projection_nearest h.good.eps_nonneg pt
          (samplePoint c (c.cps.length * c.degree) i).2 (samplePoint c (c.cps.length * c.degree) (i + 1)).2
          (samplePoint c (c.cps.length * c.degree) i).1 (samplePoint c (c.cps.length * c.degree) (i + 1)).1
        rw [← hm] at this
        simp only [segmentClosest_real, hs] at this
        exact this.trans (hbest s' hs0 hs1)

theorem span_contDiffOn (h : c.Good eps) (hw : ∀ p ∈ c.cps, 0 < p.2) {s : ℕ} (hp : c.degree ≤ s)
    (hs : s < c.cps.length) (n : ℕ) :
    ContDiffOn ℝ n (curvePoint c) {t | InSpan (kf c.knots) c.hi t s} := by
  have hE := eval_eq_polys h hp hs
  obtain ⟨F, hF⟩ : ∃ F : ℝ → E × ℝ, F = (fun t => (Finset.range (c.degree + 1)).sum fun r =>
      (spanPoly (kf c.knots) s c.degree (s - c.degree + r)).eval t • c.cps.getD (s - c.degree + r) 0) := ⟨_, rfl⟩
  rw [← hF] at hE
  have cF : ContDiff ℝ n F := by rw [hF]; exact contDiff_polys _ _ _
  have hdom : ∀ t ∈ {t | InSpan (kf c.knots) c.hi t s}, c.lo ≤ t ∧ t ≤ c.hi := by
    intro t ht
    have ht : InSpan (kf c.knots) c.hi t s := ht
    have h1 : c.lo ≤ kf c.knots s := h.good.mono _ _ hp (by omega)
    have h2 : kf c.knots (s + 1) ≤ c.hi := h.good.mono _ _ (by omega) (by omega)
    unfold InSpan at ht
    split_ifs at ht
    · exact ⟨h1.trans ht.1.le, ht.2.trans h2⟩
    · exact ⟨h1.trans ht.1, ht.2.le.trans h2⟩
  have hne : ∀ t ∈ {t | InSpan (kf c.knots) c.hi t s}, (F t).2 ≠ 0 := by
    intro t ht
    rw [← hE ht]
    exact (eval_weight_pos h (hdom t ht).1 (hdom t ht).2 hw).ne'
  have : ContDiffOn ℝ n (fun t => (F t).2⁻¹ • (F t).1) {t | InSpan (kf c.knots) c.hi t s} :=
    (cF.snd.contDiffOn.inv hne).smul cF.fst.contDiffOn
  refine this.congr ?_
  intro t ht
  simp only [curvePoint, hE ht]

/-- **C55** The Newton method solves for a stationary point of half the squared distance: gradient and Hessian are its
    first and second derivatives (one sided at a knot). -/
theorem C55_objective (h : c.Good eps) (hw : ∀ p ∈ c.cps, 0 < p.2) (pt : E) {u : ℝ} (h1 : c.lo ≤ u) (h2 : u ≤ c.hi)
    {s : ℕ} (hs : s < c.cps.length) (hin : InSpan (kf c.knots) c.hi u s) :
    gradient (fun v w : E => ⟪v, w⟫_ℝ) eps c pt u =
      .ok (derivWithin (fun t => 1 / 2 * ‖curvePoint c t - pt‖ ^ 2) {t | InSpan (kf c.knots) c.hi t s} u) ∧
    hessian (fun v w : E => ⟪v, w⟫_ℝ) eps c pt u =
      .ok (iteratedDerivWithin 2 (fun t => 1 / 2 * ‖curvePoint c t - pt‖ ^ 2) {t | InSpan (kf c.knots) c.hi t s} u) := by
  have hne := (eval_weight_pos h h1 h2 hw).ne'
  have hp : c.degree ≤ s := (derivatives_span h h1 h2 hs hin 0).2
  obtain ⟨S, hS⟩ : ∃ S, S = {t | InSpan (kf c.knots) c.hi t s} := ⟨_, rfl⟩
  have hU : UniqueDiffOn ℝ S := by rw [hS]; exact spanSet_uniqueDiff (Curve.inSpan_lt hin)
  have hu : u ∈ S := by rw [hS]; exact hin
  have hC := span_contDiffOn h hw hp hs 2
  have ht := C26_tangent h h1 h2 hs hin hne
  have hr := C26_rational_derivatives h h1 h2 hs hin hne 2
  rw [← hS] at ht hr hC ⊢
  have hD : ∀ t ∈ S, HasDerivWithinAt (fun t => 1 / 2 * ‖curvePoint c t - pt‖ ^ 2)
      (⟪derivWithin (curvePoint c) S t, curvePoint c t - pt⟫_ℝ) S t := by
    intro t ht
    have hd := (hC.differentiableOn (by norm_num) t ht).hasDerivWithinAt
    have := ((hd.sub_const pt).norm_sq).const_mul (1 / 2 : ℝ)
    rw [real_inner_comm]
    refine this.congr_deriv ?_
    ring
  constructor
  · rw [gradient, ht.2.2, ok_bind, (hD u hu).derivWithin (hU u hu)]
    rfl
  · have h1d : ContDiffOn ℝ 1 (derivWithin (curvePoint c) S) S := hC.derivWithin hU (by norm_num)
    have h2d : HasDerivWithinAt (fun t => ⟪derivWithin (curvePoint c) S t, curvePoint c t - pt⟫_ℝ)
        (⟪derivWithin (curvePoint c) S u, derivWithin (curvePoint c) S u⟫_ℝ +
          ⟪derivWithin (derivWithin (curvePoint c) S) S u, curvePoint c u - pt⟫_ℝ) S u := by
      refine HasDerivWithinAt.inner ℝ (h1d.differentiableOn (by norm_num) u hu).hasDerivWithinAt ?_
      exact (hC.differentiableOn (by norm_num) u hu).hasDerivWithinAt.sub_const pt
    have e2 : iteratedDerivWithin 2 (fun t => 1 / 2 * ‖curvePoint c t - pt‖ ^ 2) S u =
        ⟪derivWithin (curvePoint c) S u, derivWithin (curvePoint c) S u⟫_ℝ +
          ⟪derivWithin (derivWithin (curvePoint c) S) S u, curvePoint c u - pt⟫_ℝ := by
      rw [iteratedDerivWithin_succ, derivWithin_congr (f := fun t =>
        ⟪derivWithin (curvePoint c) S t, curvePoint c t - pt⟫_ℝ)]
      · exact h2d.derivWithin (hU u hu)
      · intro t ht
        rw [iteratedDerivWithin_one]
        exact (hD t ht).derivWithin (hU t ht)
      · rw [iteratedDerivWithin_one]
        exact (hD u hu).derivWithin (hU u hu)
    have e2' : iteratedDerivWithin 2 (curvePoint c) S u = derivWithin (derivWithin (curvePoint c) S) S u := by
      rw [iteratedDerivWithin_succ]
      exact derivWithin_congr (fun t _ => by rw [iteratedDerivWithin_one]) (by rw [iteratedDerivWithin_one])
    rw [e2, hessian, hr]
    simp only [ok_bind, List.range_succ, List.range_zero, List.map_nil, List.nil_append,
      List.map_cons, getR, List.cons_append]
    rw [add_comm, ← e2']
    simp only [iteratedDerivWithin_zero, iteratedDerivWithin_one]
    rfl

end real

/-! ### Witnesses and failures -/

/-- The inner product of rational pairs. -/
def dotQ (v w : ℚ × ℚ) : ℚ := v.1 * w.1 + v.2 * w.2

/-- The Euclidean norm of the rational pairs whose length is a whole number below 20. -/
def wholeNorm (v : ℚ × ℚ) : ℚ := (((List.range 20).find? fun n : ℕ => decide ((n : ℚ) * n = dotQ v v)).getD 0 : ℕ)

/-- Witness: a closed triangle. -/
def exTrigon : Curve ℚ ((ℚ × ℚ) × ℚ) where
  degree := 1
  cps := [((0, 0), 1), ((4, 3), 1), ((4, -3), 1), ((0, 0), 1)]
  knots := [0, 0, 1, 2, 3, 3]

/-- The point nearest to `(-5, 0)` on the triangle is its corner at parameter 0. The search returns the parameter 19/5
    outside the domain [0, 3], and as closest point one that is not on the triangle. All norms taken in the run are exact. -/
theorem C55_closed_leaves_domain :
    exTrigon.knotsDomain = .ok (0, 3) ∧
    exTrigon.isClosed (1/1000) (fun a b => wholeNorm (a - b)) = .ok true ∧
    guess wholeNorm dotQ (1/1000) exTrigon (-5, 0) = .ok 0 ∧
    findClosestParameter wholeNorm dotQ (1/1000) exTrigon (-5, 0) = .ok (19/5) ∧
    findClosestPoint wholeNorm dotQ (1/1000) exTrigon (-5, 0) = .ok (-16/5, 12/5) := by
  refine ⟨by decide +kernel, by decide +kernel, by decide +kernel, by decide +kernel, by decide +kernel⟩

/-- The Euclidean norm of vectors along the axes. -/
def axisNorm (v : ℚ × ℚ) : ℚ := |v.1| + |v.2|

/-- Witness: an open curve that runs along a line and turns back. -/
def exBack : Curve ℚ ((ℚ × ℚ) × ℚ) where
  degree := 1
  cps := [((0, 0), 1), ((1, 0), 1), ((-1, 0), 1)]
  knots := [0, 0, 6, 7, 7]

theorem exBack_good : exBack.Good (1/1000) where
  cps_pos := by decide
  knots_len := by decide
  good := ⟨by norm_num, by decide, by
    show Spec.MonoUpTo (kf [0, 0, 6, 7, 7]) (2 + 1 + 1)
    exact mono_of_sorted (by decide +kernel) (by decide), by decide +kernel, by decide +kernel, by decide +kernel,
    by decide +kernel⟩

/-- The hypotheses of `C55_open_stays_inside` hold for it. -/
example : (∀ p ∈ exBack.cps, 0 < p.2) ∧ 1 ≤ exBack.degree ∧
    exBack.isClosed (1/1000) (fun a b => axisNorm (a - b)) = .ok false := by
  refine ⟨by decide +kernel, by decide, by decide +kernel⟩

/-- Witness of `C55_fixed_point_stationary`. -/
example : newtonStep dotQ (1/1000) exBack (1/2, 0) (0, 7) false 3 = .ok 3 := by decide +kernel

/-- Witness of the theorems over the reals: the segment from 0 to 2. -/
example (pt : ℝ) := C55_guess_nearest exStep_good exStep_bezier.weights (by decide) pt
example (pt : ℝ) := C55_objective exStep_good exStep_bezier.weights pt (u := exStep.hi) (lo_lt_hi exStep_good).le (le_refl _)
  (s := 1) (by decide) (by
    have : exStep.hi ∈ {t | InSpan (kf exStep.knots) exStep.hi t exStep.degree} := by
      rw [exStep_bezier.span]; exact ⟨(lo_lt_hi exStep_good).le, le_refl _⟩
    exact this)

/-- On an open curve the result need not be near: the curve covers the points from (-1, 0) to (1, 0); for the point (8, 0)
    the search starts at 7/2, whose point is at distance 7 + 5/12, and returns the end of the curve, its farthest point. -/
theorem C55_may_return_farthest :
    guess axisNorm dotQ (1/1000) exBack (8, 0) = .ok (7/2) ∧
    exBack.pointAt (1/1000) (7/2) = .ok (7/12, 0) ∧
    findClosestParameter axisNorm dotQ (1/1000) exBack (8, 0) = .ok 7 ∧
    findClosestPoint axisNorm dotQ (1/1000) exBack (8, 0) = .ok (-1, 0) ∧
    ∀ p ∈ exBack.cps, axisNorm (p.1 - (8, 0)) ≤ axisNorm ((-1, 0) - (8, 0)) := by
  refine ⟨by decide +kernel, by decide +kernel, by decide +kernel, by decide +kernel, by decide +kernel⟩

/-- The norms of an inner product space meet the assumption of the surface theorems. -/
example {E : Type} [NormedAddCommGroup E] [InnerProductSpace ℝ E] : NormLike (fun v : E => ‖v‖) (fun v => ‖v‖ ^ 2) :=
  ⟨fun v w h => le_of_sq_le_sq (norm_nonneg _) h, fun v => norm_neg v⟩

/-- Witness: the hypotheses of the surface theorems hold for the sheet (with the squared norm for the norm). -/
theorem exSheet_norm : NormLike spaceMetric.normSq spaceMetric.normSq :=
  ⟨fun _ _ h => h, fun v => by simp [spaceMetric]⟩

example (dot : ℚ × ℚ × ℚ → ℚ × ℚ × ℚ → ℚ) (nrm2 : ℚ × ℚ → ℚ) (pt : ℚ × ℚ × ℚ) :=
  C55_surface_no_worse (dot := dot) (nrm2 := nrm2) exSheet_good exSheet_weights exSheet_degrees exSheet_norm
    { normTolerance := 1/100 } (fuel := 9) (by decide) pt

example (dot : ℚ × ℚ × ℚ → ℚ × ℚ × ℚ → ℚ) (nrm2 : ℚ × ℚ → ℚ) (pt : ℚ × ℚ × ℚ) :=
  C55_surface_open_stays_inside (dot := dot) (nrm2 := nrm2) exSheet_good (by norm_num) exSheet_weights exSheet_degrees
    exSheet_norm { normTolerance := 1/100 } (fuel := 9) (by decide) pt (pts := exSheet.cps.map (·.map Prod.fst))
    (by decide +kernel) (by decide +kernel) (by decide +kernel)

end Curvo.Props

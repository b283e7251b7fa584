/-
  C126: Bezier segments, lengths and divisions of curves that are not clamped.
-/
import Verif.Props.Clamp
import Verif.Props.Length

set_option linter.unusedSectionVars false
set_option linter.unusedSimpArgs false

namespace Curvo.Props

open Curvo Curvo.Spec Curvo.Knots Curvo.Curve Curvo.Length

variable {K : Type} [Field K] [LinearOrder K] [IsStrictOrderedRing K] {W : Type} [AddCommGroup W] [Module K W]

/-- Decomposing a curve is decomposing the clamped curve. -/
theorem decompose_of_clamp {eps : K} {c c' : Curve K (W × K)} (heps : 0 ≤ eps) (h : c.Pre)
    (hd : ∀ x ∈ c.knots, ∀ y ∈ c.knots, x ≠ y → eps < |x - y|) (e : c.tryClamp eps = .ok c') (e1 : c'.degree = c.degree)
    (e2 : c'.isClamped eps = .ok true) : c.tryDecomposeBezierSegments eps = c'.tryDecomposeBezierSegments eps := by
  have hl := h.knots_len
  have hne : c.knots ≠ [] := List.ne_nil_of_length_pos (by omega)
  obtain ⟨r, er, -⟩ := C06_is_clamped heps hne h.sorted hd c.degree
  have er' : c.isClamped eps = .ok r := er
  cases r with
  | true =>
    rw [C125_clamped_already heps h hd er'] at e
    rw [Except.ok.inj e]
  | false =>
    unfold tryDecomposeBezierSegments
    rw [er', e2]
    simp only [ok_bind, e, e1, if_true, Bool.false_eq_true, if_false, pure_eq_ok]

/-- **The Bezier segments of a curve with simple knots**, which is not clamped (unless it has degree 0): there is one segment for each
    interval between neighbouring knots, those before the start and after the end of the domain included.  The segments in the domain
    are the curve. -/
theorem C126_segments {eps : K} {c : Curve K (W × K)} (h : c.Good eps)
    (hsep : ∀ x ∈ c.knots, ∀ y ∈ c.knots, x ≠ y → eps < |x - y|) (hinc : c.knots.Pairwise (· < ·)) :
    ∃ segs, c.tryDecomposeBezierSegments eps = .ok segs ∧ segs.length + 1 = c.knots.length ∧
      ∀ i (hi : i < segs.length), segs[i].degree = c.degree ∧ segs[i].cps.length = c.degree + 1 ∧ segs[i].Good eps ∧
        segs[i].lo = kf c.knots i ∧ segs[i].hi = kf c.knots (i + 1) ∧
        (c.degree ≤ i → i < c.cps.length → ∀ u, kf c.knots i ≤ u → u < kf c.knots (i + 1) → segs[i].point eps u = c.point eps u) ∧
        (i = 0 → 0 < c.degree → (c.cps.getD 0 0).2 ≠ 0 → segs[i].pointAt eps (kf c.knots 0) = .ok 0) := by
  have heps := h.good.eps_nonneg
  have hp := h.pre
  have hl := hp.knots_len
  have hlt := hp.deg_lt
  have hnd : c.knots.Nodup := hinc.imp fun h => h.ne
  have ha : c.knots.head? = some (kf c.knots 0) := by
    rw [List.head?_eq_getElem?, List.getElem?_eq_getElem (by omega), kf_eq (by omega)]
  have hb : c.knots.getLast? = some (kf c.knots (c.knots.length - 1)) := by
    rw [List.getLast?_eq_getElem?, List.getElem?_eq_getElem (by omega), kf_eq (by omega)]
  have hma : kf c.knots 0 ∈ c.knots := by rw [kf_eq (by omega)]; exact List.getElem_mem _
  have hmb : kf c.knots (c.knots.length - 1) ∈ c.knots := by rw [kf_eq (by omega)]; exact List.getElem_mem _
  have ca := List.count_eq_one_of_mem hnd hma
  have cb := List.count_eq_one_of_mem hnd hmb
  have hab : kf c.knots 0 < kf c.knots (c.knots.length - 1) :=
    (hp.mono 0 c.degree (by omega) (by omega)).trans_lt (hp.dom.trans_le (hp.mono c.cps.length _ (by omega) (by omega)))
  have hq : c.cps.head? = some (c.cps.getD 0 0) := by
    rw [List.head?_eq_getElem?, List.getD_eq_getElem?_getD, List.getElem?_eq_getElem (by omega), Option.getD_some]
  have hr : c.cps.getLast? = some (c.cps.getD (c.cps.length - 1) 0) := by
    rw [List.getLast?_eq_getElem?, List.getD_eq_getElem?_getD, List.getElem?_eq_getElem (by omega), Option.getD_some]
  obtain ⟨c', e, e1, e2, e3, e4, e5, e7, e8⟩ := C125_rational heps hp hsep ha hb hq hr (Or.inl ca)
  obtain ⟨hgood, k0, klo, khi⟩ := clamped_good heps hp hsep ha hb (by omega) (by omega) e1 e2 (by
    rw [e2, e3, e1]
    simp only [List.length_append, List.length_replicate]
    omega)
  have hmem : ∀ y, y ∈ c'.knots ↔ y ∈ c.knots := by
    intro y
    rw [e2]
    constructor
    · intro hy
      rcases List.mem_append.1 hy with hy | hy
      · rcases List.mem_append.1 hy with hy | hy
        · rw [List.eq_of_mem_replicate hy]; exact hma
        · exact hy
      · rw [List.eq_of_mem_replicate hy]; exact hmb
    · intro hy
      exact List.mem_append.2 (Or.inl (List.mem_append.2 (Or.inr hy)))
  obtain ⟨segs, xs, d1, d2, d3, d4, d5, d6, d7⟩ := C23_segments hgood
    (fun x hx y hy => hsep x ((hmem x).1 hx) y ((hmem y).1 hy)) e4 (by
      intro x hx
      rw [e1, e2, List.count_append, List.count_append, List.count_eq_one_of_mem hnd ((hmem x).1 hx), ca, cb]
      by_cases hxa : x = kf c.knots 0
      · subst hxa
        rw [List.count_replicate_self, List.count_replicate, if_neg (by simpa using hab.ne')]; omega
      · rw [List.count_replicate, if_neg (by simpa using fun h => hxa h.symm)]
        have := List.count_le_length (a := x) (l := List.replicate (c.degree + 1 - 1) (kf c.knots (c.knots.length - 1)))
        rw [List.length_replicate] at this
        omega)
  have hxs : xs = c.knots := by
    refine List.Perm.eq_of_pairwise (fun _ _ _ _ h1 h2 => absurd h1 (not_lt.2 h2.le)) d2 hinc ?_
    exact (List.perm_ext_iff_of_nodup (d2.imp fun h => h.ne) hnd).2 fun x => (d3 x).trans (hmem x)
  subst hxs
  refine ⟨segs, (decompose_of_clamp heps hp hsep e e1 e4).trans d1, d4.symm, ?_⟩
  intro i hi
  obtain ⟨g1, g2, g3, g4, g5, g6, g7⟩ := d7 i hi
  have hlt2 : kf c.knots i < kf c.knots (i + 1) := by
    rw [kf_eq (by omega), kf_eq (by omega)]
    exact List.pairwise_iff_getElem.1 hinc i (i + 1) (by omega) (by omega) (by omega)
  refine ⟨by rw [g1, e1], by rw [g2, e1], g4, g5, g6, ?_, ?_⟩
  · intro hi1 hi2 u hu1 hu2
    have hlo : c.lo ≤ u := (hp.mono c.degree i hi1 (by omega)).trans hu1
    have hhi : u < c.hi := hu2.trans_le (hp.mono (i + 1) c.cps.length (by omega) (by omega))
    rw [g7 u hu1 (Or.inl hu2), point_eq_eval h hlo hhi.le, point_eq_eval hgood (klo.trans_le ((hp.mono 0 c.degree (by omega) (by omega)).trans hlo))
      (hhi.le.trans ((hp.mono _ _ (by omega) (by omega)).trans_eq khi.symm)), e7 u hlo hhi]
  · rintro rfl hdeg hw0
    rw [Curve.pointAt, g7 _ le_rfl (Or.inl hlt2)]
    exact e8 (by omega) (by omega) hw0

/-- **The length of a curve with simple knots**: `try_length` adds up the lengths of the segments in the domain and leaves out the
    others. -/
theorem C126_length {nrm : W → K} {rule : ℕ → List (K × K)} {eps : K} {c : Curve K (W × K)} (h : c.Good eps)
    (hsep : ∀ x ∈ c.knots, ∀ y ∈ c.knots, x ≠ y → eps < |x - y|) (hinc : c.knots.Pairwise (· < ·))
    {segs : List (Curve K (W × K))} (hs : c.tryDecomposeBezierSegments eps = .ok segs) :
    (c.cps.length = c.degree + 1 → tryLength nrm rule eps c = segmentLength nrm (rule (16 + c.degree)) eps c c.hi) ∧
    (c.degree + 1 < c.cps.length → ∀ total, tryLength nrm rule eps c = .ok total ↔
      ∃ ls, List.Forall₂ (fun s l => segmentLength nrm (rule (16 + c.degree)) eps s s.hi = .ok l)
        ((segs.take c.cps.length).drop c.degree) ls ∧ ls.sum = total) := by
  have heps := h.good.eps_nonneg
  have hp := h.pre
  have hl := hp.knots_len
  have hlt := hp.deg_lt
  have hnd : c.knots.Nodup := hinc.imp fun h => h.ne
  have hne : c.knots ≠ [] := List.ne_nil_of_length_pos (by omega)
  obtain ⟨segs', f, f1, f2⟩ := C126_segments h hsep hinc
  rw [hs] at f
  obtain rfl := Except.ok.inj f
  obtain ⟨m, e, hm⟩ := C06_multiplicity_counts heps hne hp.sorted hsep
  have hmne : m ≠ [] := by
    rintro rfl
    have := (hm (c.knots.head hne) (c.knots.count (c.knots.head hne))).2 ⟨List.head_mem _, rfl⟩
    simp at this
  have hone : ∀ s ∈ m, s.2 = 1 := by
    intro s hs
    obtain ⟨h1, h2⟩ := (hm s.1 s.2).1 hs
    rw [h2, List.count_eq_one_of_mem hnd h1]
  have hslice : sliceR segs c.degree c.cps.length = .ok ((segs.take c.cps.length).drop c.degree) := sliceR_eq_ok (by omega) (by omega)
  have hlen : ((segs.take c.cps.length).drop c.degree).length = c.cps.length - c.degree := by
    rw [List.length_drop, List.length_take]; omega
  have key : tryLength nrm rule eps c =
      if ((segs.take c.cps.length).drop c.degree).length ≤ 1 then segmentLength nrm (rule (16 + c.degree)) eps c c.hi
      else (do
        let ls ← ((segs.take c.cps.length).drop c.degree).mapM fun s => segmentLength nrm (rule (16 + c.degree)) eps s c.hi
        match ls with
        | [] => .error .err
        | l :: ls => pure (ls.foldl (· + ·) l)) := by
    unfold tryLength
    rw [e, ok_bind, List.head?_eq_some_head hmne, List.getLast?_eq_some_getLast hmne]
    simp only [unwrapR, ok_bind, hs]
    rw [hone _ (List.head_mem hmne), hone _ (List.getLast_mem hmne), Nat.add_sub_cancel]
    split
    · rw [subR_eq_ok (by omega), ok_bind, show segs.length - c.degree = c.cps.length by omega, hslice, ok_bind, knotsDomain_eq h, ok_bind]
      rfl
    · rw [pure_eq_ok, ok_bind, show segs.length = c.cps.length by omega, hslice, ok_bind, knotsDomain_eq h, ok_bind]
      rfl
  constructor
  · intro hc
    rw [key, if_pos (by omega)]
  · intro hc total
    rw [key, if_neg (by omega)]
    have hcongr : ∀ s ∈ (segs.take c.cps.length).drop c.degree, segmentLength nrm (rule (16 + c.degree)) eps s c.hi =
        segmentLength nrm (rule (16 + c.degree)) eps s s.hi := by
      intro s hs
      obtain ⟨j, hj, rfl⟩ := List.mem_drop_iff_getElem.1 hs
      rw [List.length_take] at hj
      rw [List.getElem_take]
      obtain ⟨-, -, g3, g4, g5, -⟩ := f2 (c.degree + j) (by omega)
      have hlt2 : kf c.knots (c.degree + j) < kf c.knots (c.degree + j + 1) := by
        rw [kf_eq (by omega), kf_eq (by omega)]
        exact List.pairwise_iff_getElem.1 hinc _ _ (by omega) (by omega) (by omega)
      have hgap := hsep (kf c.knots (c.degree + j)) (by rw [kf_eq (by omega)]; exact List.getElem_mem _)
        (kf c.knots (c.degree + j + 1)) (by rw [kf_eq (by omega)]; exact List.getElem_mem _) hlt2.ne
      rw [abs_sub_comm, abs_of_pos (sub_pos.2 hlt2)] at hgap
      refine segmentLength_beyond g3 (by rw [g4, g5]; linarith) ?_
      rw [g5]
      exact hp.mono _ _ (by omega) (by omega)
    rw [mapM_same hcongr]
    constructor
    · intro e
      obtain ⟨ls, e1, e2⟩ := bind_eq_ok.1 e
      refine ⟨ls, mapM_ok_inv e1, ?_⟩
      cases ls with
      | nil => simp at e2
      | cons l ls =>
        have : ls.foldl (· + ·) l = total := by simpa using e2
        rw [← this, foldl_add_sum, List.sum_cons]
    · rintro ⟨ls, hf, rfl⟩
      rw [mapM_of_forall₂ hf]
      cases ls with
      | nil => have := hf.length_eq; simp at this; omega
      | cons l ls =>
        simp only [ok_bind, pure_eq_ok]
        rw [foldl_add_sum, List.sum_cons]

/-- **Searching a length starts before the curve**: `try_parameter_at_length` counts from the first knot, so a length that fits into the
    segment before the second knot gives a parameter there, outside of the domain for degrees above one. -/
theorem C126_parameter_outside {fuel : ℕ} {nrm : W → K} {rule : ℕ → List (K × K)} {eps : K} {c : Curve K (W × K)} (h : c.Good eps)
    (hsep : ∀ x ∈ c.knots, ∀ y ∈ c.knots, x ≠ y → eps < |x - y|) (hinc : c.knots.Pairwise (· < ·))
    (hdeg : 2 ≤ c.degree) {segs : List (Curve K (W × K))} (hs : c.tryDecomposeBezierSegments eps = .ok segs) {s : Curve K (W × K)}
    (hs0 : segs.head? = some s) {l0 l u : K} (hl0 : segmentLength nrm (rule (16 + c.degree)) eps s s.hi = .ok l0) (h1 : eps ≤ l) (h2 : l ≤ l0)
    {tol : Option K} (hu : tryParameterAtLength fuel nrm rule eps c l tol = .ok u) : u < c.lo := by
  have hp := h.pre
  have hl := hp.knots_len
  have hlt := hp.deg_lt
  have heps := h.good.eps_nonneg
  obtain ⟨segs', f, f1, f2⟩ := C126_segments h hsep hinc
  rw [hs] at f
  obtain rfl := Except.ok.inj f
  obtain ⟨-, -, g3, g4, g5, -⟩ := f2 0 (by omega)
  cases segs with
  | nil => simp at hs0
  | cons s' ss =>
    obtain rfl : s' = s := by simpa using hs0
    simp only [List.getElem_cons_zero] at g3 g4 g5
    unfold tryParameterAtLength at hu
    rw [if_neg (not_lt.2 h1), hs, ok_bind, parameterGo, knotsDomain_eq g3, ok_bind] at hu
    simp only [hl0, ok_bind] at hu
    rw [if_pos (by linarith)] at hu
    obtain ⟨-, h4, -⟩ := C54_segment_parameter g3 hl0 hu
    refine h4.trans_lt ?_
    rw [g5]
    show kf c.knots 1 < kf c.knots c.degree
    rw [kf_eq (by omega), kf_eq (by omega)]
    exact List.pairwise_iff_getElem.1 hinc _ _ (by omega) (by omega) (by omega)

/-- **Divisions start before the curve**: the first sample of every division is the first knot. -/
theorem C126_division_outside {fuel : ℕ} {nrm : W → K} {rule : ℕ → List (K × K)} {eps : K} {c : Curve K (W × K)} (h : c.Good eps)
    (hinc : c.knots.Pairwise (· < ·)) (hdeg : 1 ≤ c.degree) {l : K} {samples : List (K × K)}
    (hs : tryDivideByLength fuel nrm rule eps c l = .ok samples) : ∃ k, samples.head? = some (k, 0) ∧ c.knots.head? = some k ∧ k < c.lo := by
  have hp := h.pre
  have hl := hp.knots_len
  have hlt := hp.deg_lt
  unfold tryDivideByLength at hs
  split at hs
  · obtain ⟨segs, -, hs⟩ := bind_eq_ok.1 hs
    obtain ⟨ls, -, hs⟩ := bind_eq_ok.1 hs
    split at hs
    · rw [Knots.first, getR_eq_getD 0 (by omega : 0 < c.knots.length), ok_bind] at hs
      obtain ⟨r, -, hs⟩ := bind_eq_ok.1 hs
      obtain rfl := Except.ok.inj hs
      refine ⟨kf c.knots 0, rfl, ?_, ?_⟩
      · rw [List.head?_eq_getElem?, List.getElem?_eq_getElem (by omega), kf_eq (by omega)]
      · show kf c.knots 0 < kf c.knots c.degree
        rw [kf_eq (by omega), kf_eq (by omega)]
        exact List.pairwise_iff_getElem.1 hinc _ _ (by omega) (by omega) (by omega)
    · cases hs
  · cases hs

/-! ### Cases -/

/-- An unclamped quadratic curve on the line, away from 0. -/
def exTail : Curve ℚ (ℚ × ℚ) where
  degree := 2
  cps := [(5, 1), (6, 1), (8, 1), (9, 1)]
  knots := [0, 1, 2, 3, 4, 5, 6]

theorem exTail_good : exTail.Good (1 / 1000) where
  cps_pos := by decide
  knots_len := by decide
  good := ⟨by norm_num, by decide, by
    show Spec.MonoUpTo (kf [0, 1, 2, 3, 4, 5, 6]) (3 + 2 + 1)
    exact mono_of_sorted (by decide +kernel) (by decide), by decide +kernel, by decide +kernel, by decide +kernel,
    by decide +kernel⟩

theorem exTail_sep : ∀ x ∈ exTail.knots, ∀ y ∈ exTail.knots, x ≠ y → (1 / 1000 : ℚ) < |x - y| := by decide +kernel

/-- The hypotheses of `C126_segments` and `C126_length` hold for `exTail`: six segments, of which the third and the fourth are the curve. -/
example : ∃ segs, exTail.tryDecomposeBezierSegments (1 / 1000) = .ok segs ∧ segs.length = 6 ∧
    (∃ s, segs[2]? = some s ∧ s.lo = 2 ∧ s.hi = 3 ∧ ∀ u, (2 : ℚ) ≤ u → u < 3 → s.point (1 / 1000) u = exTail.point (1 / 1000) u) ∧
    tryLength (fun v : ℚ => |v|) exRule (1 / 1000) exTail = .ok 3 ∧
    ∃ ls, List.Forall₂ (fun s l => segmentLength (fun v : ℚ => |v|) (exRule 18) (1 / 1000) s s.hi = .ok l) ((segs.take 4).drop 2) ls ∧ ls.sum = 3 := by
  obtain ⟨segs, e, e1, e2⟩ := C126_segments exTail_good exTail_sep (by decide +kernel)
  have h6 : segs.length = 6 := by have : exTail.knots.length = 7 := rfl; omega
  have hl : tryLength (fun v : ℚ => |v|) exRule (1 / 1000) exTail = .ok 3 := by decide +kernel
  refine ⟨segs, e, h6, ⟨segs[2], List.getElem?_eq_getElem (by omega), ?_⟩, hl, ?_⟩
  · obtain ⟨-, -, -, g4, g5, g6, -⟩ := e2 2 (by omega)
    exact ⟨g4, g5, g6 (by decide) (by decide)⟩
  · exact ((C126_length exTail_good exTail_sep (by decide +kernel) e).2 (by decide) 3).1 hl

/-- `C126_parameter_outside` and `C126_division_outside` for `exTail`: its domain is `[2, 4]` and its length 3, the parameter at length 2 is
    below 1. -/
example : tryParameterAtLength 40 (fun v : ℚ => |v|) exRule (1 / 1000) exTail 2 (some (1 / 4)) = .ok (57 / 64) ∧ (57 / 64 : ℚ) < exTail.lo := by
  obtain ⟨segs, e, -⟩ := C126_segments exTail_good exTail_sep (by decide +kernel)
  have h : tryParameterAtLength 40 (fun v : ℚ => |v|) exRule (1 / 1000) exTail 2 (some (1 / 4)) = .ok (57 / 64) := by decide +kernel
  have key : (do
      let segs ← exTail.tryDecomposeBezierSegments (1 / 1000)
      let s ← unwrapR segs.head?
      segmentLength (fun v : ℚ => |v|) (exRule 18) (1 / 1000) s s.hi : Res ℚ) = .ok (5 / 2) := by decide +kernel
  rw [e, ok_bind] at key
  obtain ⟨s, e1, e2⟩ := bind_eq_ok.1 key
  cases hh : segs.head? with
  | none => rw [hh] at e1; simp [unwrapR] at e1
  | some s' =>
    rw [hh] at e1
    obtain rfl : s' = s := Except.ok.inj e1
    exact ⟨h, C126_parameter_outside exTail_good exTail_sep (by decide +kernel) (by decide) e hh e2 (by norm_num)
      (by norm_num) h⟩

/-- Dividing a curve that is not clamped into three parts of equal length gives ten samples, from the first knot to past the end of the
    domain. -/
theorem C126_count :
    exTail.knotsDomain = .ok (2, 4) ∧ ∃ samples, tryDivideByCount 40 (fun v : ℚ => |v|) exRule (1 / 1000) exTail 3 = .ok samples ∧
      samples.length = 10 ∧ samples.head? = some (0, 0) ∧ samples.getLast? = some (5, 9) := by
  refine ⟨by decide +kernel, [(0, 0), (2591 / 4096, 1), (3663 / 4096, 2), (4523 / 4096, 3), (5523 / 4096, 4), (3463 / 2048, 5),
    (4945 / 2048, 6), (3, 7), (7343 / 2048, 8), (5, 9)], by decide +kernel, rfl, rfl, rfl⟩

example : ∃ samples, tryDivideByLength 40 (fun v : ℚ => |v|) exRule (1 / 1000) exTail 1 = .ok samples ∧
    ∃ k, samples.head? = some (k, 0) ∧ exTail.knots.head? = some k ∧ k < exTail.lo := by
  have h : tryDivideByLength 40 (fun v : ℚ => |v|) exRule (1 / 1000) exTail 1 = .ok [(0, 0), (2591 / 4096, 1), (3663 / 4096, 2), (4523 / 4096, 3),
    (5523 / 4096, 4), (3463 / 2048, 5), (4945 / 2048, 6), (3, 7), (7343 / 2048, 8), (5, 9)] := by decide +kernel
  exact ⟨_, h, C126_division_outside exTail_good (by decide +kernel) (by decide) h⟩

/-- A curve that is not clamped with a double knot at the start of its domain. -/
def exTwice : Curve ℚ (ℚ × ℚ) where
  degree := 2
  cps := [(5, 1), (6, 1), (8, 1), (9, 1), (12, 1)]
  knots := [0, 1, 1, 2, 3, 4, 5, 6]

/-- With a multiple knot at the start `try_length` leaves out a segment of the curve: `exTwice` runs from 5 to 21/2 and has a computed
    length of 7/2, less than the distance of its ends. -/
theorem C126_length_skips :
    exTwice.knotsDomain = .ok (1, 4) ∧ exTwice.pointAt (1 / 1000) 1 = .ok 5 ∧ exTwice.pointAt (1 / 1000) 4 = .ok (21 / 2) ∧
      tryLength (fun v : ℚ => |v|) exRule (1 / 1000) exTwice = .ok (7 / 2) := by
  refine ⟨?_, ?_, ?_, ?_⟩ <;> decide +kernel

theorem exLooseRational_good : exLooseRational.Good (1 / 1000) where
  cps_pos := by decide
  knots_len := by decide
  good := ⟨by norm_num, by decide, by
    show Spec.MonoUpTo (kf [0, 1, 2, 3, 4, 5, 6]) (3 + 2 + 1)
    exact mono_of_sorted (by decide +kernel) (by decide), by decide +kernel, by decide +kernel, by decide +kernel,
    by decide +kernel⟩

/-- Different weights: the first piece starts at the origin, the third is the start of the curve. -/
example : ∃ segs, exLooseRational.tryDecomposeBezierSegments (1 / 1000) = .ok segs ∧ segs.length = 6 ∧
    (∃ s, segs[0]? = some s ∧ s.pointAt (1 / 1000) 0 = .ok 0) ∧
    ∃ s, segs[2]? = some s ∧ ∀ u, (2 : ℚ) ≤ u → u < 3 → s.point (1 / 1000) u = exLooseRational.point (1 / 1000) u := by
  obtain ⟨segs, e, e1, e2⟩ := C126_segments exLooseRational_good (by decide +kernel) (by decide +kernel)
  have h6 : segs.length = 6 := by have : exLooseRational.knots.length = 7 := rfl; omega
  refine ⟨segs, e, h6, ⟨segs[0], List.getElem?_eq_getElem (by omega), ?_⟩, segs[2], List.getElem?_eq_getElem (by omega), ?_⟩
  · obtain ⟨-, -, -, -, -, -, g7⟩ := e2 0 (by omega)
    exact g7 rfl (by decide) (by decide +kernel)
  · obtain ⟨-, -, -, -, -, g6, -⟩ := e2 2 (by omega)
    exact g6 (by decide) (by decide)

end Curvo.Props

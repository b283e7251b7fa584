/-
  Property theorems about arc lengths and the division of a curve by length: C54.
-/
import Verif.Model.Length
import Verif.Props.Bezier
import Verif.Props.Curve4
import Mathlib.Algebra.Order.Archimedean.Basic
import Mathlib.Tactic.Linarith
import Mathlib.Tactic.FieldSimp

set_option linter.unusedSectionVars false

namespace Curvo.Props
open Curvo Curvo.Curve Curvo.Length Curvo.Knots

section search
variable {K : Type} [Field K] [LinearOrder K] [IsStrictOrderedRing K]

/-! ### The binary search -/

theorem bisect_range {len : K → Res K} {t tol : K} : ∀ {n : ℕ} {s e : K × K} {u : K},
    bisect len t tol n s e = .ok u → s.1 ≤ e.1 → s.1 ≤ u ∧ u ≤ e.1
  | 0, _, _, _, h, _ => by simp [bisect] at h
  | n + 1, s, e, u, h, hse => by
    unfold bisect at h
    split at h
    · obtain ⟨l, _, h⟩ := bind_eq_ok.1 h
      split at h
      · obtain ⟨h1, h2⟩ := bisect_range h (by simp only; linarith)
        simp only at h2
        exact ⟨h1, by linarith⟩
      · obtain ⟨h1, h2⟩ := bisect_range h (by simp only; linarith)
        simp only at h1
        exact ⟨by linarith, h2⟩
    · have : (s.1 + e.1) / 2 = u := by simpa using h
      exact ⟨by linarith, by linarith⟩

theorem bisect_bracket {len : K → Res K} {t tol : K} : ∀ {n : ℕ} {s e : K × K} {u : K},
    bisect len t tol n s e = .ok u → s.1 ≤ e.1 → s.2 ≤ t → t < e.2 →
    ∃ x y : K × K, (x = s ∨ len x.1 = .ok x.2) ∧ (y = e ∨ len y.1 = .ok y.2) ∧ s.1 ≤ x.1 ∧ x.1 ≤ u ∧
      u ≤ y.1 ∧ y.1 ≤ e.1 ∧ u = (x.1 + y.1) / 2 ∧ x.2 ≤ t ∧ t < y.2 ∧ y.2 - x.2 ≤ tol
  | 0, _, _, _, h, _, _, _ => by simp [bisect] at h
  | n + 1, s, e, u, h, hse, hs, he => by
    unfold bisect at h
    split at h
    · obtain ⟨l, hl, h⟩ := bind_eq_ok.1 h
      split at h
      · rename_i hlt
        obtain ⟨x, y, hx, hy, h1, h2, h3, h4, h5⟩ := bisect_bracket h (by simp only; linarith) hs hlt
        simp only at h4
        refine ⟨x, y, hx, .inr ?_, h1, h2, h3, by linarith, h5⟩
        rcases hy with rfl | hy
        · exact hl
        · exact hy
      · rename_i hlt
        obtain ⟨x, y, hx, hy, h1, h2, h3, h4, h5⟩ := bisect_bracket h (by simp only; linarith) (not_lt.1 hlt) he
        simp only at h1
        refine ⟨x, y, .inr ?_, hy, by linarith, h2, h3, h4, h5⟩
        rcases hx with rfl | hx
        · exact hl
        · exact hx
    · rename_i hstop
      have hu : (s.1 + e.1) / 2 = u := by simpa using h
      exact ⟨s, e, .inl rfl, .inl rfl, le_refl _, by linarith, by linarith, le_refl _, hu.symm, hs, he,
        not_lt.1 hstop⟩

/-- The search is monotone in the target, whatever the length function does. -/
theorem bisect_mono {len : K → Res K} {t₁ t₂ tol : K} (ht : t₁ ≤ t₂) : ∀ {n₁ n₂ : ℕ} {s e : K × K} {u₁ u₂ : K},
    bisect len t₁ tol n₁ s e = .ok u₁ → bisect len t₂ tol n₂ s e = .ok u₂ → s.1 ≤ e.1 → u₁ ≤ u₂
  | 0, _, _, _, _, _, h, _, _ => by simp [bisect] at h
  | _, 0, _, _, _, _, _, h, _ => by simp [bisect] at h
  | n₁ + 1, n₂ + 1, s, e, u₁, u₂, h₁, h₂, hse => by
    unfold bisect at h₁ h₂
    by_cases hst : tol < e.2 - s.2
    · rw [if_pos hst] at h₁ h₂
      obtain ⟨l, hl, h₁⟩ := bind_eq_ok.1 h₁
      obtain ⟨l', hl', h₂⟩ := bind_eq_ok.1 h₂
      rw [hl] at hl'
      obtain rfl : l = l' := by simpa using hl'
      by_cases c₁ : t₁ < l
      · rw [if_pos c₁] at h₁
        by_cases c₂ : t₂ < l
        · rw [if_pos c₂] at h₂
          exact bisect_mono ht h₁ h₂ (by simp only; linarith)
        · rw [if_neg c₂] at h₂
          have := (bisect_range h₁ (by simp only; linarith)).2
          have := (bisect_range h₂ (by simp only; linarith)).1
          simp only at *
          linarith
      · rw [if_neg c₁] at h₁
        rw [if_neg (fun c => c₁ (lt_of_le_of_lt ht c))] at h₂
        exact bisect_mono ht h₁ h₂ (by simp only; linarith)
    · rw [if_neg hst] at h₁ h₂
      have a : (s.1 + e.1) / 2 = u₁ := by simpa using h₁
      have b : (s.1 + e.1) / 2 = u₂ := by simpa using h₂
      rw [← a, ← b]

theorem bisect_total {len : K → Res K} {t tol a b d : K}
    (htot : ∀ x, a ≤ x → x ≤ b → ∃ l, len x = .ok l)
    (hjump : ∀ x y lx ly, a ≤ x → x ≤ y → y ≤ b → y - x ≤ d → len x = .ok lx → len y = .ok ly → ly - lx ≤ tol) :
    ∀ {n : ℕ} {s e : K × K}, a ≤ s.1 → s.1 ≤ e.1 → e.1 ≤ b → len s.1 = .ok s.2 → len e.1 = .ok e.2 →
      (e.1 - s.1) / 2 ^ n ≤ d → ∃ u, ∀ k, bisect len t tol (n + 1 + k) s e = .ok u
  | 0, s, e, h1, h2, h3, hs, he, hM => by
    simp only [pow_zero, div_one] at hM
    have := hjump _ _ _ _ h1 h2 h3 hM hs he
    refine ⟨(s.1 + e.1) / 2, fun k => ?_⟩
    rw [show 0 + 1 + k = k + 1 by omega]
    unfold bisect
    rw [if_neg (by linarith)]
    rfl
  | n + 1, s, e, h1, h2, h3, hs, he, hM => by
    by_cases hst : tol < e.2 - s.2
    · obtain ⟨l, hl⟩ := htot ((s.1 + e.1) / 2) (by linarith) (by linarith)
      have hw : (e.1 - s.1) / 2 ^ (n + 1) = (e.1 - s.1) / 2 / 2 ^ n := by
        rw [pow_succ]; field_simp
      rw [hw] at hM
      by_cases c : t < l
      · obtain ⟨u, hu⟩ := bisect_total (t := t) (tol := tol) htot hjump (n := n) (s := s) (e := ((s.1 + e.1) / 2, l)) h1
          (by simp only; linarith) (by simp only; linarith) hs hl
          (by rwa [show (s.1 + e.1) / 2 - s.1 = (e.1 - s.1) / 2 by ring])
        refine ⟨u, fun k => ?_⟩
        rw [show n + 1 + 1 + k = (n + 1 + k) + 1 by omega]
        unfold bisect
        simp only [if_pos hst, hl, ok_bind]
        rw [if_pos c]
        exact hu k
      · obtain ⟨u, hu⟩ := bisect_total (t := t) (tol := tol) htot hjump (n := n) (s := ((s.1 + e.1) / 2, l)) (e := e)
          (by simp only; linarith) (by simp only; linarith) h3 hl he
          (by rwa [show e.1 - (s.1 + e.1) / 2 = (e.1 - s.1) / 2 by ring])
        refine ⟨u, fun k => ?_⟩
        rw [show n + 1 + 1 + k = (n + 1 + k) + 1 by omega]
        unfold bisect
        simp only [if_pos hst, hl, ok_bind]
        rw [if_neg c]
        exact hu k
    · refine ⟨(s.1 + e.1) / 2, fun k => ?_⟩
      rw [show n + 1 + 1 + k = (n + 1 + k) + 1 by omega]
      unfold bisect
      rw [if_neg hst]
      rfl

theorem bisect_stuck {len : K → Res K} {t tol : K} (htol : tol ≤ 0) : ∀ {n : ℕ} {s e : K × K},
    s.2 ≤ t → t < e.2 → ∀ u, bisect len t tol n s e ≠ .ok u
  | 0, _, _, _, _, u => by simp [bisect]
  | n + 1, s, e, hs, he, u => by
    unfold bisect
    rw [if_pos (by linarith)]
    intro h
    obtain ⟨l, _, h⟩ := bind_eq_ok.1 h
    split at h
    · rename_i c
      exact bisect_stuck htol hs c u h
    · rename_i c
      exact bisect_stuck htol (not_lt.1 c) he u h

/-! ### The loops -/

theorem fill_spec {par : K → Res K} {L bound : K} : ∀ {n : ℕ} {lc : K} {r : List (K × K) × K},
    fill par L bound n lc = .ok r → ∃ m : ℕ, r.1.map Prod.snd = (List.range m).map (fun i : ℕ => lc + i * L) ∧
      r.2 = lc + m * L ∧ bound ≤ r.2 ∧ ∀ x ∈ r.1, par x.2 = .ok x.1 ∧ x.2 < bound
  | 0, _, _, h => by simp [fill] at h
  | n + 1, lc, r, h => by
    unfold fill at h
    split at h
    · rename_i hlt
      obtain ⟨u, hu, h⟩ := bind_eq_ok.1 h
      obtain ⟨r', hr', h⟩ := bind_eq_ok.1 h
      obtain rfl : ((u, lc) :: r'.1, r'.2) = r := by simpa using h
      obtain ⟨m, h1, h2, h3, h4⟩ := fill_spec hr'
      refine ⟨m + 1, ?_, ?_, h3, ?_⟩
      · rw [List.map_cons, h1, List.range_succ_eq_map]
        simp only [List.map_cons, List.map_map, Nat.cast_zero, zero_mul, add_zero]
        congr 1
        apply List.map_congr_left
        intro i _
        simp only [Function.comp, Nat.cast_succ]
        ring
      · simp only [h2]; push_cast; ring
      · intro x hx
        rcases List.mem_cons.1 hx with rfl | hx
        · exact ⟨hu, hlt⟩
        · exact h4 x hx
    · rename_i hlt
      obtain rfl : (([], lc) : List (K × K) × K) = r := by simpa using h
      exact ⟨0, by simp, by simp, not_lt.1 hlt, by simp⟩

end search

section curve
variable {K W : Type} [Field K] [LinearOrder K] [IsStrictOrderedRing K] [AddCommGroup W] [Module K W]

/-- The total of the first `i` of some lengths. -/
def upTo (ls : List K) (i : ℕ) : K := (ls.take i).sum

theorem upTo_cons (l : K) (ls : List K) (i : ℕ) : upTo (l :: ls) (i + 1) = l + upTo ls i := by
  simp [upTo]

theorem upTo_mono {ls : List K} (h : ∀ l ∈ ls, 0 ≤ l) {i j : ℕ} (hij : i ≤ j) : upTo ls i ≤ upTo ls j := by
  induction ls generalizing i j with
  | nil => simp [upTo]
  | cons l ls ih =>
    have h0 := h l (by simp)
    have ih := @ih (fun x hx => h x (by simp [hx]))
    cases i with
    | zero =>
      cases j with
      | zero => exact le_refl _
      | succ j =>
        rw [upTo_cons]
        have := @ih 0 j (by omega)
        simp only [upTo, List.take_zero, List.sum_nil] at this ⊢
        linarith
    | succ i =>
      obtain ⟨j, rfl⟩ : ∃ j', j = j' + 1 := ⟨j - 1, by omega⟩
      rw [upTo_cons, upTo_cons]
      linarith [@ih i j (by omega)]

theorem divideGo_spec {fuel : ℕ} {nrm : W → K} {rule : List (K × K)} {eps L : K} (hL : 0 < L) :
    ∀ {ss : List (Curve K (W × K) × K)} {acc lc : K} {r : List (K × K)},
    divideGo fuel nrm rule eps L ss acc lc = .ok r →
    ∃ m : ℕ, r.map Prod.snd = (List.range m).map (fun i : ℕ => lc + i * L) ∧
      (ss ≠ [] → acc + (ss.map Prod.snd).sum + 1 / 1000000 ≤ lc + m * L) ∧
      ∀ x ∈ r, ∃ (i : ℕ) (hi : i < ss.length),
        segmentParameter fuel nrm rule eps ss[i].1 (x.2 - (acc + upTo (ss.map Prod.snd) i)) (1 / 400) ss[i].2 = .ok x.1 ∧
        x.2 < acc + upTo (ss.map Prod.snd) (i + 1) + 1 / 1000000 ∧ lc ≤ x.2 ∧
        (i ≠ 0 → acc + upTo (ss.map Prod.snd) i + 1 / 1000000 ≤ x.2)
  | [], acc, lc, r, h => by
    obtain rfl : [] = r := by simpa [divideGo] using h
    exact ⟨0, by simp, by simp, by simp⟩
  | s :: ss, acc, lc, r, h => by
    unfold divideGo at h
    obtain ⟨r₁, h₁, h⟩ := bind_eq_ok.1 h
    obtain ⟨r₂, h₂, h⟩ := bind_eq_ok.1 h
    obtain rfl : r₁.1 ++ r₂ = r := by simpa using h
    obtain ⟨m₁, a₁, a₂, a₃, a₄⟩ := fill_spec h₁
    obtain ⟨m₂, b₁, b₂, b₃⟩ := divideGo_spec hL h₂
    have hm₁ : (0 : K) ≤ m₁ * L := mul_nonneg (Nat.cast_nonneg _) hL.le
    have hm₂ : (0 : K) ≤ m₂ * L := mul_nonneg (Nat.cast_nonneg _) hL.le
    refine ⟨m₁ + m₂, ?_, ?_, ?_⟩
    · rw [List.map_append, a₁, b₁, a₂, List.range_add, List.map_append, List.map_map]
      congr 1
      apply List.map_congr_left
      intro i _
      simp only [Function.comp, Nat.cast_add]
      ring
    · intro _
      simp only [List.map_cons, List.sum_cons]
      by_cases e : ss = []
      · subst e
        simp only [List.map_nil, List.sum_nil, add_zero]
        push_cast
        rw [a₂] at a₃
        linarith
      · have := b₂ e
        rw [a₂] at this
        push_cast
        linarith
    · intro x hx
      rcases List.mem_append.1 hx with hx | hx
      · refine ⟨0, by simp, ?_⟩
        obtain ⟨c₁, c₂⟩ := a₄ x hx
        simp only [List.getElem_cons_zero, upTo, List.take_zero, List.sum_nil, add_zero, List.map_cons,
          List.take_succ_cons, List.sum_cons]
        refine ⟨c₁, c₂, ?_, by simp⟩
        have : x.2 ∈ r₁.1.map Prod.snd := List.mem_map_of_mem hx
        rw [a₁] at this
        obtain ⟨i, _, hi⟩ := List.mem_map.1 this
        rw [← hi]
        have := mul_nonneg (Nat.cast_nonneg (α := K) i) hL.le
        linarith
      · obtain ⟨i, hi, c₁, c₂, c₃, c₄⟩ := b₃ x hx
        have hge : lc ≤ r₁.2 := by rw [a₂]; linarith
        refine ⟨i + 1, by simpa using hi, ?_, ?_, by linarith, fun _ => ?_⟩
        · simp only [List.getElem_cons_succ, List.map_cons]
          rw [upTo_cons, ← add_assoc]; exact c₁
        · simp only [List.map_cons]; rw [upTo_cons, ← add_assoc]; exact c₂
        · simp only [List.map_cons]
          rw [upTo_cons, ← add_assoc]
          by_cases e : i = 0
          · subst e
            simp only [upTo, List.take_zero, List.sum_nil, add_zero]
            linarith
          · exact c₄ e

/-! ### Lengths of segments -/

theorem integrate_nonneg {rule : List (K × K)} (hr : ∀ x ∈ rule, 0 ≤ x.2) {a b : K} (hab : a ≤ b) {f : K → Res K}
    (hf : ∀ x y, f x = .ok y → 0 ≤ y) {l : K} (h : integrate rule a b f = .ok l) : 0 ≤ l := by
  unfold integrate at h
  obtain ⟨ys, h1, h'⟩ := bind_eq_ok.1 h
  have e : (b - a) / 2 * ys.sum = l := by simpa using h'
  rw [← e]
  clear h h' e
  apply mul_nonneg (by linarith)
  apply List.sum_nonneg
  intro y hy
  have h2 := mapM_ok_inv h1
  clear h1
  induction h2 with
  | nil => simp at hy
  | @cons xw y' _ _ hx _ ih =>
    rcases List.mem_cons.1 hy with rfl | hy
    · obtain ⟨z, hz, e⟩ := bind_eq_ok.1 hx
      have e : z * xw.2 = y := by simpa using e
      rw [← e]
      exact mul_nonneg (hf _ _ hz) (hr _ (by simp))
    · exact ih (fun x hx => hr x (by simp [hx])) hy

theorem segmentLength_nonneg {nrm : W → K} {rule : List (K × K)} {eps : K} (hn : ∀ v, 0 ≤ nrm v)
    (hr : ∀ x ∈ rule, 0 ≤ x.2) {s : Curve K (W × K)} (hs : s.Good eps) {u l : K}
    (h : segmentLength nrm rule eps s u = .ok l) : 0 ≤ l := by
  unfold segmentLength at h
  rw [knotsDomain_eq hs] at h
  simp only [ok_bind] at h
  have hd := lo_lt_hi hs
  split at h
  · rename_i hlt
    refine integrate_nonneg hr ?_ ?_ h
    · exact le_min hd.le (le_trans (by linarith [hs.good.eps_nonneg]) hlt.le)
    · intro x y hy
      unfold speed at hy
      obtain ⟨_, _, hy⟩ := bind_eq_ok.1 hy
      obtain ⟨v, _, hy⟩ := bind_eq_ok.1 hy
      have : nrm v = y := by simpa using hy
      rw [← this]; exact hn v
  · have : (0 : K) = l := by simpa using h
    exact this.le

theorem segmentLength_start {nrm : W → K} {rule : List (K × K)} {eps : K} {s : Curve K (W × K)} (hs : s.Good eps) :
    segmentLength nrm rule eps s s.lo = .ok 0 := by
  unfold segmentLength
  rw [knotsDomain_eq hs]
  simp only [ok_bind]
  rw [if_neg (by have := hs.good.eps_nonneg; linarith)]
  rfl

/-- Parameters beyond the end of a segment give the length of the whole segment. -/
theorem segmentLength_beyond {nrm : W → K} {rule : List (K × K)} {eps : K} {s : Curve K (W × K)} (hs : s.Good eps)
    (hgap : s.lo + eps < s.hi) {u : K} (hu : s.hi ≤ u) :
    segmentLength nrm rule eps s u = segmentLength nrm rule eps s s.hi := by
  unfold segmentLength
  rw [knotsDomain_eq hs]
  simp only [ok_bind]
  rw [if_pos (by linarith), if_pos hgap, min_eq_left hu, min_self]

theorem clamped_mult {eps : K} {ks : List K} {p : ℕ} (h : Knots.isClamped eps ks p = .ok true) :
    ∃ m s e, multiplicity eps ks = .ok m ∧ m.head? = some s ∧ m.getLast? = some e ∧ p < s.2 ∧ p < e.2 := by
  unfold Knots.isClamped at h
  obtain ⟨m, hm, h⟩ := bind_eq_ok.1 h
  refine ⟨m, ?_⟩
  cases h1 : m.head? with
  | none => rw [h1] at h; simp at h
  | some s =>
    cases h2 : m.getLast? with
    | none => rw [h1, h2] at h; simp at h
    | some e =>
      rw [h1, h2] at h
      simp only [pure_eq_ok, Except.ok.injEq, Bool.and_eq_true, decide_eq_true_eq] at h
      exact ⟨s, e, hm, rfl, rfl, h.1, h.2⟩

theorem tryLength_clamped {nrm : W → K} {rule : ℕ → List (K × K)} {eps : K} {c : Curve K (W × K)} (h : c.Good eps)
    (hc : c.isClamped eps = .ok true) {segs : List (Curve K (W × K))}
    (hs : c.tryDecomposeBezierSegments eps = .ok segs) :
    tryLength nrm rule eps c =
      if segs.length ≤ 1 then segmentLength nrm (rule (16 + c.degree)) eps c c.hi
      else (do
        let ls ← segs.mapM fun s => segmentLength nrm (rule (16 + c.degree)) eps s c.hi
        match ls with
        | [] => .error .err
        | l :: ls => pure (ls.foldl (· + ·) l)) := by
  obtain ⟨m, s, e, h1, h2, h3, h4, h5⟩ := clamped_mult hc
  unfold tryLength
  rw [h1]
  simp only [ok_bind, h2, h3, unwrapR, hs]
  rw [if_neg (by omega), show c.degree + 1 - s.2 = 0 by omega]
  simp only [pure_eq_ok, ok_bind]
  rw [sliceR_eq_ok (by omega) (le_refl _), knotsDomain_eq h]
  simp only [ok_bind, List.take_length, List.drop_zero]
  rfl

/-- What the decomposition theorem gives, with the domains of the segments. -/
structure Pieces (eps : K) (c : Curve K (W × K)) (segs : List (Curve K (W × K))) : Prop where
  ok : c.tryDecomposeBezierSegments eps = .ok segs
  nonempty : segs ≠ []
  good : ∀ s ∈ segs, s.Good eps
  degree : ∀ s ∈ segs, s.degree = c.degree
  cps : ∀ s ∈ segs, s.cps.length = c.degree + 1
  hull : ∀ s ∈ segs, Hull c s
  gap : ∀ s ∈ segs, s.lo + eps < s.hi
  inside : ∀ s ∈ segs, c.lo ≤ s.lo ∧ s.hi ≤ c.hi
  chain : segs.Pairwise fun s t => s.hi ≤ t.lo
  length : ∀ nrm rule, ∀ s ∈ segs, tryLength nrm rule eps s = segmentLength nrm (rule (16 + c.degree)) eps s s.hi
  single : segs.length ≤ 1 → segs = [c]

theorem foldlM_pure {α β : Type} {f : α → β → Res α} {a : α} : ∀ {l : List β}, (∀ b ∈ l, f a b = .ok a) →
    l.foldlM f a = .ok a
  | [], _ => rfl
  | b :: l, h => by
    rw [List.foldlM_cons, h b (by simp)]
    exact foldlM_pure fun x hx => h x (by simp [hx])

/-- A clamped curve with two distinct knots is its own decomposition. -/
theorem decompose_single {eps : K} {c : Curve K (W × K)} (h : c.Good eps)
    (hsep : ∀ x ∈ c.knots, ∀ y ∈ c.knots, x ≠ y → eps < |x - y|)
    (hclamped : c.isClamped eps = .ok true) (hcount : ∀ x ∈ c.knots, c.knots.count x ≤ c.degree + 1)
    {segs : List (Curve K (W × K))} (hs : c.tryDecomposeBezierSegments eps = .ok segs) (h1 : segs.length ≤ 1) :
    segs = [c] := by
  have hpre := h.pre
  have hl := hpre.knots_len
  have hne : c.knots ≠ [] := by intro e; rw [e] at hl; simp at hl
  obtain ⟨segs', xs, e, hinc, hmem, hx, hx0, hxk, hseg⟩ := C23_segments h hsep hclamped hcount
  rw [hs] at e
  obtain rfl : segs = segs' := by simpa using e
  obtain ⟨b, eb, hb⟩ := C06_is_clamped h.good.eps_nonneg hne hpre.sorted hsep c.degree
  have hbt : b = true := by
    have : (Except.ok b : Res Bool) = .ok true := eb.symm.trans hclamped
    simpa using this
  obtain ⟨hc1, hc2⟩ := hb.1 hbt
  obtain ⟨ms, em, hms⟩ := C06_multiplicity_counts h.good.eps_nonneg hne hpre.sorted hsep
  have hlen : segs.length = 1 := by
    rcases Nat.eq_zero_or_pos segs.length with e0 | e0
    · rw [e0] at hxk
      have := lo_lt_hi h
      rw [← hx0, ← hxk] at this
      exact absurd this (lt_irrefl _)
    · omega
  have hxs : ∀ x ∈ c.knots, x = c.lo ∨ x = c.hi := by
    intro x hxm
    have := (hmem x).2 hxm
    obtain ⟨i, hi, rfl⟩ := List.mem_iff_getElem.1 this
    rw [hlen] at hx hxk
    rw [← hx0, ← hxk, ← kf_eq]
    have : i = 0 ∨ i = 1 := by omega
    rcases this with rfl | rfl
    · exact .inl rfl
    · exact .inr rfl
  have hfirst := head_run hne hpre.sorted hc1
  have hlast := last_run hne hpre.sorted hc2
  rw [show c.knots.length - 1 - c.degree = c.cps.length by omega] at hlast
  have hfull : ∀ x ∈ c.knots, c.knots.count x = c.degree + 1 := by
    intro x hxm
    have := hcount x hxm
    rcases hxs x hxm with e | e
    · have : c.degree + 1 ≤ c.knots.count x := by rw [e]; show _ ≤ c.knots.count (kf c.knots c.degree); rw [hfirst]; exact hc1
      omega
    · have : c.degree + 1 ≤ c.knots.count x := by rw [e]; show _ ≤ c.knots.count (kf c.knots c.cps.length); rw [hlast]; exact hc2
      omega
  unfold tryDecomposeBezierSegments at hs
  rw [hclamped] at hs
  simp only [ok_bind, if_true, pure_eq_ok] at hs
  rw [em] at hs
  simp only [ok_bind] at hs
  rw [foldlM_pure (a := c) (by
    intro m hm
    have := (hms m.1 m.2).1 hm
    unfold decomposeRefine
    rw [this.2, hfull _ this.1, if_neg (by omega)]
    rfl)] at hs
  simp only [ok_bind] at hs
  obtain ⟨d, _, hs⟩ := bind_eq_ok.1 hs
  obtain ⟨ss, _, hs⟩ := bind_eq_ok.1 hs
  split at hs
  · simpa using hs.symm
  · rename_i hn
    have : ss = segs := by simpa using hs
    rw [this] at hn
    omega

theorem count_two {a b : K} (hab : a ≠ b) (n : ℕ) :
    (List.replicate n a ++ List.replicate n b).count a = n ∧ (List.replicate n a ++ List.replicate n b).count b = n := by
  constructor
  · simp [List.count_append, List.count_replicate, hab.symm]
  · simp [List.count_append, List.count_replicate, hab]

/-- A Bezier segment is clamped and its own decomposition, so its length is computed directly. -/
theorem bezier_length {nrm : W → K} {rule : ℕ → List (K × K)} {eps : K} {s : Curve K (W × K)} (h : s.Good eps)
    {a b : K} (hab : a + eps < b)
    (hk : s.knots = List.replicate (s.degree + 1) a ++ List.replicate (s.degree + 1) b) :
    tryLength nrm rule eps s = segmentLength nrm (rule (16 + s.degree)) eps s s.hi := by
  have heps := h.good.eps_nonneg
  have hlt : a < b := by linarith
  have hm : ∀ x, x ∈ s.knots ↔ x = a ∨ x = b := by
    intro x; rw [hk]; simp [List.mem_replicate]
  have hsep : ∀ x ∈ s.knots, ∀ y ∈ s.knots, x ≠ y → eps < |x - y| := by
    intro x hx y hy hxy
    rcases (hm x).1 hx with rfl | rfl <;> rcases (hm y).1 hy with rfl | rfl
    · exact absurd rfl hxy
    · rw [abs_sub_comm, abs_of_pos (by linarith)]; linarith
    · rw [abs_of_pos (by linarith)]; linarith
    · exact absurd rfl hxy
  have hne : s.knots ≠ [] := by intro e; have := (hm a).2 (.inl rfl); rw [e] at this; simp at this
  have hcnt := count_two hlt.ne (s.degree + 1)
  rw [← hk] at hcnt
  have hall : ∀ x ∈ s.knots, s.knots.count x = s.degree + 1 := by
    intro x hx
    rcases (hm x).1 hx with rfl | rfl
    · exact hcnt.1
    · exact hcnt.2
  have hcl : s.isClamped eps = .ok true := by
    obtain ⟨t, e, ht⟩ := C06_is_clamped heps hne h.pre.sorted hsep s.degree
    have : t = true := ht.2 ⟨(hall _ (List.head_mem _)).ge, (hall _ (List.getLast_mem _)).ge⟩
    rw [this] at e
    exact e
  obtain ⟨segs, xs, e, hinc, hmem, hx, -⟩ := C23_segments h hsep hcl (fun x hx => (hall x hx).le)
  have hxs : xs.length ≤ 2 := by
    by_contra hc
    have h0 := (hm _).1 ((hmem xs[0]).1 (List.getElem_mem (by omega)))
    have h1 := (hm _).1 ((hmem xs[1]).1 (List.getElem_mem (by omega)))
    have h2 := (hm _).1 ((hmem xs[2]).1 (List.getElem_mem (by omega)))
    rw [List.pairwise_iff_getElem] at hinc
    have a1 := hinc 0 1 (by omega) (by omega) (by omega)
    have a2 := hinc 1 2 (by omega) (by omega) (by omega)
    rcases h0 with h0 | h0 <;> rcases h1 with h1 | h1 <;> rcases h2 with h2 | h2 <;> rw [h0, h1] at a1 <;>
      rw [h1, h2] at a2 <;> first | exact lt_irrefl _ a1 | exact lt_irrefl _ a2 | linarith
  rw [tryLength_clamped h hcl e, if_pos (by omega)]

theorem pieces {eps : K} {c : Curve K (W × K)} (h : c.Good eps)
    (hsep : ∀ x ∈ c.knots, ∀ y ∈ c.knots, x ≠ y → eps < |x - y|)
    (hclamped : c.isClamped eps = .ok true) (hcount : ∀ x ∈ c.knots, c.knots.count x ≤ c.degree + 1) :
    ∃ segs, Pieces eps c segs := by
  obtain ⟨segs, xs, e, hinc, hmem, hx, hx0, hxk, hseg⟩ := C23_segments h hsep hclamped hcount
  have hmono : ∀ i j, i ≤ j → j < xs.length → kf xs i ≤ kf xs j := by
    intro i j hij hj
    rcases hij.lt_or_eq with hij | rfl
    · rw [List.pairwise_iff_getElem] at hinc
      rw [kf_eq, kf_eq]
      exact (hinc i j (by omega) hj hij).le
    · exact le_refl _
  have hgap : ∀ i, i < segs.length → kf xs i + eps < kf xs (i + 1) := by
    intro i hi
    have hlt : kf xs i < kf xs (i + 1) := by
      rw [List.pairwise_iff_getElem] at hinc
      rw [kf_eq (show i < xs.length by omega), kf_eq (show i + 1 < xs.length by omega)]
      exact hinc i (i + 1) (by omega) (by omega) (by omega)
    have := hsep (kf xs (i + 1)) ((hmem _).1 (by rw [kf_eq (show i + 1 < xs.length by omega)]; exact List.getElem_mem _))
      (kf xs i) ((hmem _).1 (by rw [kf_eq (show i < xs.length by omega)]; exact List.getElem_mem _)) hlt.ne'
    rw [abs_of_pos (by linarith)] at this
    linarith
  obtain ⟨segs', e', hhull⟩ := C23_segments_hull h hsep hclamped hcount
  rw [e] at e'
  obtain rfl : segs = segs' := by simpa using e'
  refine ⟨segs, e, ?_, ?_, ?_, ?_, hhull, ?_, ?_, ?_, ?_, decompose_single h hsep hclamped hcount e⟩
  · rintro rfl
    have := lo_lt_hi h
    rw [← hx0, ← hxk] at this
    exact lt_irrefl _ this
  · intro s hs
    obtain ⟨i, hi, rfl⟩ := List.mem_iff_getElem.1 hs
    exact (hseg i hi).2.2.2.1
  · intro s hs
    obtain ⟨i, hi, rfl⟩ := List.mem_iff_getElem.1 hs
    exact (hseg i hi).1
  · intro s hs
    obtain ⟨i, hi, rfl⟩ := List.mem_iff_getElem.1 hs
    exact (hseg i hi).2.1
  · intro s hs
    obtain ⟨i, hi, rfl⟩ := List.mem_iff_getElem.1 hs
    obtain ⟨_, _, _, _, h1, h2, _⟩ := hseg i hi
    rw [h1, h2]
    exact hgap i hi
  · intro s hs
    obtain ⟨i, hi, rfl⟩ := List.mem_iff_getElem.1 hs
    obtain ⟨_, _, _, _, h1, h2, _⟩ := hseg i hi
    rw [h1, h2, ← hx0, ← hxk]
    exact ⟨hmono _ _ (by omega) (by omega), hmono _ _ (by omega) (by omega)⟩
  · rw [List.pairwise_iff_getElem]
    intro i j hi hj hij
    rw [(hseg i hi).2.2.2.2.2.1, (hseg j hj).2.2.2.2.1]
    exact hmono _ _ (by omega) (by omega)
  · intro nrm rule s hs
    obtain ⟨i, hi, rfl⟩ := List.mem_iff_getElem.1 hs
    obtain ⟨h0, _, h1, h2, _⟩ := hseg i hi
    rw [← h0]
    rw [← h0] at h1
    exact bezier_length h2 (hgap i hi) h1

/-! ### C54: a parameter at a length of a segment -/

/-- `u` lies between two parameters of `[lo, hi]` whose lengths enclose `l` and differ by at most `tol`. -/
def Located (len : K → Res K) (lo hi tol l u : K) : Prop :=
  ∃ x y lx ly, lo ≤ x ∧ x ≤ u ∧ u ≤ y ∧ y ≤ hi ∧ len x = .ok lx ∧ len y = .ok ly ∧ lx ≤ l ∧ l < ly ∧
    ly - lx ≤ tol

/-- The parameter found on a segment lies in the domain of the segment; it is the start for lengths up to 0, the
    end for lengths from the total on, and otherwise is enclosed by two parameters whose lengths enclose the
    given one up to the tolerance. -/
theorem C54_segment_parameter {fuel : ℕ} {nrm : W → K} {rule : List (K × K)} {eps : K} {s : Curve K (W × K)}
    (h : s.Good eps) {l tol total u : K} (ht : segmentLength nrm rule eps s s.hi = .ok total)
    (hu : segmentParameter fuel nrm rule eps s l tol total = .ok u) :
    s.lo ≤ u ∧ u ≤ s.hi ∧ (l ≤ 0 → u = s.lo) ∧ (0 < l → total ≤ l → u = s.hi) ∧
      (0 < l → l < total → Located (segmentLength nrm rule eps s) s.lo s.hi tol l u) := by
  have hd := lo_lt_hi h
  unfold segmentParameter at hu
  rw [knotsDomain_eq h] at hu
  simp only [ok_bind] at hu
  split at hu
  · rename_i h0
    have : s.lo = u := by simpa using hu
    subst this
    exact ⟨le_refl _, hd.le, fun _ => rfl, fun h1 => absurd h1 (not_lt.2 h0), fun h1 => absurd h1 (not_lt.2 h0)⟩
  · rename_i h0
    split at hu
    · rename_i h1
      have : s.hi = u := by simpa using hu
      subst this
      exact ⟨hd.le, le_refl _, fun h2 => absurd h2 h0, fun _ _ => rfl, fun _ h2 => absurd h2 (not_lt.2 h1)⟩
    · rename_i h1
      have h0' := not_le.1 h0
      have h1' := not_le.1 h1
      obtain ⟨a1, a2⟩ := bisect_range hu hd.le
      refine ⟨a1, a2, fun h2 => absurd h2 h0, fun _ h2 => absurd h2 h1, fun _ _ => ?_⟩
      obtain ⟨x, y, hx, hy, b1, b2, b3, b4, -, b6, b7, b8⟩ := bisect_bracket hu hd.le h0'.le h1'
      refine ⟨x.1, y.1, x.2, y.2, b1, b2, b3, b4, ?_, ?_, b6, b7, b8⟩
      · rcases hx with rfl | hx
        · exact segmentLength_start h
        · exact hx
      · rcases hy with rfl | hy
        · exact ht
        · exact hy

/-- With lengths that do not decrease along the segment the length at the returned parameter misses the given
    one by at most the tolerance. -/
theorem C54_accuracy {len : K → Res K} {lo hi tol l u lu : K}
    (hmono : ∀ x y lx ly, lo ≤ x → x ≤ y → y ≤ hi → len x = .ok lx → len y = .ok ly → lx ≤ ly)
    (h : Located len lo hi tol l u) (hlu : len u = .ok lu) : |lu - l| ≤ tol := by
  obtain ⟨x, y, lx, ly, h1, h2, h3, h4, h5, h6, h7, h8, h9⟩ := h
  have a := hmono x u lx lu h1 h2 (by linarith) h5 hlu
  have b := hmono u y lu ly (by linarith) h3 h4 hlu h6
  rw [abs_le]
  constructor <;> linarith

/-- Larger lengths never give smaller parameters, whatever the quadrature does. -/
theorem C54_parameter_monotone {n₁ n₂ : ℕ} {nrm : W → K} {rule : List (K × K)} {eps : K} {s : Curve K (W × K)}
    (h : s.Good eps) {l₁ l₂ tol total u₁ u₂ : K} (hl : l₁ ≤ l₂)
    (h₁ : segmentParameter n₁ nrm rule eps s l₁ tol total = .ok u₁)
    (h₂ : segmentParameter n₂ nrm rule eps s l₂ tol total = .ok u₂) : u₁ ≤ u₂ := by
  have hd := lo_lt_hi h
  unfold segmentParameter at h₁ h₂
  rw [knotsDomain_eq h] at h₁ h₂
  simp only [ok_bind] at h₁ h₂
  by_cases a : l₁ ≤ 0
  · rw [if_pos a] at h₁
    have e : s.lo = u₁ := by simpa using h₁
    rw [← e]
    split at h₂
    · have e : s.lo = u₂ := by simpa using h₂
      exact e.le
    · split at h₂
      · have e : s.hi = u₂ := by simpa using h₂
        rw [← e]; exact hd.le
      · exact (bisect_range h₂ hd.le).1
  · rw [if_neg a] at h₁
    rw [if_neg (by intro h; exact a (hl.trans h))] at h₂
    by_cases b : total ≤ l₂
    · rw [if_pos b] at h₂
      have e : s.hi = u₂ := by simpa using h₂
      rw [← e]
      split at h₁
      · have e : s.hi = u₁ := by simpa using h₁
        exact e.ge
      · exact (bisect_range h₁ hd.le).2
    · rw [if_neg b] at h₂
      rw [if_neg (by intro h; exact b (h.trans hl))] at h₁
      exact bisect_mono hl h₁ h₂ hd.le

/-- The search ends if the lengths of parameters close together differ by at most the tolerance: there is a
    number of steps from which on the result does not depend on the fuel. -/
theorem C54_search_ends [Archimedean K] {nrm : W → K} {rule : List (K × K)} {eps : K} {s : Curve K (W × K)}
    (h : s.Good eps) {l tol total d : K} (hd0 : 0 < d)
    (ht : segmentLength nrm rule eps s s.hi = .ok total)
    (htot : ∀ x, s.lo ≤ x → x ≤ s.hi → ∃ l, segmentLength nrm rule eps s x = .ok l)
    (hjump : ∀ x y lx ly, s.lo ≤ x → x ≤ y → y ≤ s.hi → y - x ≤ d → segmentLength nrm rule eps s x = .ok lx →
      segmentLength nrm rule eps s y = .ok ly → ly - lx ≤ tol) :
    ∃ N u, ∀ fuel, N ≤ fuel → segmentParameter fuel nrm rule eps s l tol total = .ok u := by
  have hd := lo_lt_hi h
  obtain ⟨n, hn⟩ := pow_unbounded_of_one_lt ((s.hi - s.lo) / d) (one_lt_two (α := K))
  have hn' : (s.hi - s.lo) / 2 ^ n ≤ d := by
    rw [div_lt_iff₀ hd0] at hn
    have h2 : (0 : K) < 2 ^ n := by positivity
    rw [div_le_iff₀ h2]
    linarith
  obtain ⟨u, hu⟩ := bisect_total (t := l) (tol := tol) htot hjump (n := n) (s := (s.lo, 0)) (e := (s.hi, total))
    (le_refl _) hd.le (le_refl _) (segmentLength_start h) ht hn'
  have key : ∃ u, ∀ fuel, n + 1 ≤ fuel → segmentParameter fuel nrm rule eps s l tol total = .ok u := by
    unfold segmentParameter
    rw [knotsDomain_eq h]
    simp only [ok_bind]
    by_cases a : l ≤ 0
    · exact ⟨s.lo, fun _ _ => by rw [if_pos a]; rfl⟩
    · by_cases b : total ≤ l
      · exact ⟨s.hi, fun _ _ => by rw [if_neg a, if_pos b]; rfl⟩
      · refine ⟨u, fun fuel hf => ?_⟩
        rw [if_neg a, if_neg b]
        have := hu (fuel - (n + 1))
        rwa [show n + 1 + (fuel - (n + 1)) = fuel by omega] at this
  obtain ⟨u, hu⟩ := key
  exact ⟨n + 1, u, hu⟩

/-- A tolerance of 0 or less never lets the search end for a length strictly inside the segment. -/
theorem C54_zero_tolerance_never_ends {fuel : ℕ} {nrm : W → K} {rule : List (K × K)} {eps : K}
    {s : Curve K (W × K)} (h : s.Good eps) {l tol total : K} (htol : tol ≤ 0) (h0 : 0 < l) (h1 : l < total) (u : K) :
    segmentParameter fuel nrm rule eps s l tol total ≠ .ok u := by
  unfold segmentParameter
  rw [knotsDomain_eq h]
  simp only [ok_bind]
  rw [if_neg (not_le.2 h0), if_neg (not_le.2 h1)]
  exact bisect_stuck htol h0.le h1 u

/-! ### C54: the length of a curve -/

theorem foldl_add_sum (l : List K) : ∀ a : K, l.foldl (· + ·) a = a + l.sum := by
  induction l with
  | nil => intro a; simp
  | cons b l ih => intro a; rw [List.foldl_cons, ih, List.sum_cons, add_assoc]

theorem mapM_same {α β : Type} {f g : α → Res β} : ∀ {l : List α}, (∀ x ∈ l, f x = g x) → l.mapM f = l.mapM g
  | [], _ => rfl
  | a :: l, h => by
    rw [List.mapM_cons, List.mapM_cons, h a (by simp), mapM_same fun x hx => h x (by simp [hx])]

theorem mapM_of_forall₂ {α β : Type} {f : α → Res β} {l : List α} {r : List β}
    (h : List.Forall₂ (fun x y => f x = .ok y) l r) : l.mapM f = .ok r := by
  induction h with
  | nil => rfl
  | cons h _ ih => rw [List.mapM_cons, h, ih]; rfl

/-- The length of a clamped curve is the sum of the lengths of its Bezier segments. -/
theorem C54_length {nrm : W → K} {rule : ℕ → List (K × K)} {eps : K} {c : Curve K (W × K)} (h : c.Good eps)
    (hclamped : c.isClamped eps = .ok true) {segs : List (Curve K (W × K))} (hp : Pieces eps c segs) (total : K) :
    tryLength nrm rule eps c = .ok total ↔
      ∃ ls, List.Forall₂ (fun s l => segmentLength nrm (rule (16 + c.degree)) eps s s.hi = .ok l) segs ls ∧
        ls.sum = total := by
  rw [tryLength_clamped h hclamped hp.ok]
  by_cases h1 : segs.length ≤ 1
  · rw [if_pos h1, hp.single h1]
    constructor
    · intro e
      exact ⟨[total], .cons e .nil, by simp⟩
    · rintro ⟨ls, hf, rfl⟩
      cases hf with
      | cons e hf => cases hf; simpa using e
  · rw [if_neg h1]
    have hcongr : ∀ s ∈ segs, segmentLength nrm (rule (16 + c.degree)) eps s c.hi =
        segmentLength nrm (rule (16 + c.degree)) eps s s.hi := fun s hs =>
      segmentLength_beyond (hp.good s hs) (hp.gap s hs) (hp.inside s hs).2
    rw [mapM_same hcongr]
    constructor
    · intro e
      obtain ⟨ls, e1, e2⟩ := bind_eq_ok.1 e
      refine ⟨ls, mapM_ok_inv e1, ?_⟩
      cases ls with
      | nil => simp at e2
      | cons l ls =>
        have : ls.foldl (· + ·) l = total := by simpa using e2
        rw [← this, foldl_add_sum, List.sum_cons]
    · rintro ⟨ls, hf, rfl⟩
      rw [mapM_of_forall₂ hf]
      cases ls with
      | nil => cases hf; simp at h1
      | cons l ls =>
        simp only [ok_bind, pure_eq_ok]
        rw [foldl_add_sum, List.sum_cons]

/-! ### C54: division by length -/

theorem forall₂_get {α β : Type} {R : α → β → Prop} {l : List α} {r : List β} (h : List.Forall₂ R l r) :
    ∀ (i : ℕ) (h1 : i < l.length) (h2 : i < r.length), R l[i] r[i] := by
  induction h with
  | nil => intro i h1; simp at h1
  | cons h _ ih =>
    intro i h1 h2
    cases i with
    | zero => exact h
    | succ i => exact ih i (by simpa using h1) (by simpa using h2)

/-- Where a sample `(u, l)` lies: on segment `i` of length `S (i+1) - S i`, where `S` are the lengths up to the
    ends of the segments. Within 10⁻⁶ beyond the end of a segment it is put on that end. -/
def Placed (len : Curve K (W × K) → K → Res K) (segs : List (Curve K (W × K))) (ls : List K) (x : K × K) : Prop :=
  ∃ (i : ℕ) (hi : i < segs.length), upTo ls i < x.2 ∧ x.2 < upTo ls (i + 1) + 1 / 1000000 ∧
    segs[i].lo ≤ x.1 ∧ x.1 ≤ segs[i].hi ∧ (upTo ls (i + 1) ≤ x.2 → x.1 = segs[i].hi) ∧
    (x.2 < upTo ls (i + 1) → Located (len segs[i]) segs[i].lo segs[i].hi (1 / 400) (x.2 - upTo ls i) x.1)

theorem upTo_succ {ls : List K} {i : ℕ} (h : i < ls.length) : upTo ls (i + 1) = upTo ls i + ls[i] := by
  unfold upTo
  rw [List.take_succ_eq_append_getElem h, List.sum_append, List.sum_singleton]

theorem upTo_all (ls : List K) : upTo ls ls.length = ls.sum := by simp [upTo]

theorem clamped_lo {eps : K} {c : Curve K (W × K)} (h : c.Good eps)
    (hsep : ∀ x ∈ c.knots, ∀ y ∈ c.knots, x ≠ y → eps < |x - y|)
    (hclamped : c.isClamped eps = .ok true) : Knots.first c.knots = .ok c.lo := by
  have hl := h.pre.knots_len
  have hne : c.knots ≠ [] := by intro e; rw [e] at hl; simp at hl
  obtain ⟨b, eb, hb⟩ := C06_is_clamped h.good.eps_nonneg hne h.pre.sorted hsep c.degree
  have hbt : b = true := by
    have : (Except.ok b : Res Bool) = .ok true := eb.symm.trans hclamped
    simpa using this
  have := head_run hne h.pre.sorted (hb.1 hbt).1
  rw [Knots.first, getR_eq_ok (by omega), ← List.head_eq_getElem hne, ← this]
  rfl

/-- **C54** Dividing a clamped curve by a length: the length is positive and below the total; the reported lengths
    are 0, L, 2L, … up to the last one below the total plus 10⁻⁶; the parameters start at the start of the
    domain, lie in it and do not decrease; each is located on the segment its length falls into. -/
theorem C54_divide {fuel : ℕ} {nrm : W → K} {rule : ℕ → List (K × K)} {eps : K} (hn : ∀ v, 0 ≤ nrm v)
    (hr : ∀ n, ∀ x ∈ rule n, 0 ≤ x.2) {c : Curve K (W × K)} (h : c.Good eps)
    (hsep : ∀ x ∈ c.knots, ∀ y ∈ c.knots, x ≠ y → eps < |x - y|)
    (hclamped : c.isClamped eps = .ok true) {segs : List (Curve K (W × K))} (hp : Pieces eps c segs)
    {L : K} {samples : List (K × K)} (hd : tryDivideByLength fuel nrm rule eps c L = .ok samples) :
    0 < L ∧ ∃ ls, List.Forall₂ (fun s l => segmentLength nrm (rule (16 + c.degree)) eps s s.hi = .ok l) segs ls ∧
      L < ls.sum ∧
      (∃ m : ℕ, samples.map Prod.snd = (List.range (m + 1)).map (fun i : ℕ => i * L) ∧
        m * L < ls.sum + 1 / 1000000 ∧ ls.sum + 1 / 1000000 ≤ (m + 1) * L) ∧
      samples.head? = some (c.lo, 0) ∧ samples.Pairwise (fun a b => a.1 ≤ b.1) ∧
      (∀ x ∈ samples, c.lo ≤ x.1 ∧ x.1 ≤ c.hi) ∧
      ∀ x ∈ samples, 0 < x.2 → Placed (segmentLength nrm (rule (16 + c.degree)) eps) segs ls x := by
  unfold tryDivideByLength at hd
  split at hd
  swap
  · simp at hd
  rename_i hL
  rw [hp.ok] at hd
  simp only [ok_bind] at hd
  obtain ⟨ls, hls, hd⟩ := bind_eq_ok.1 hd
  split at hd
  swap
  · simp at hd
  rename_i hlt
  rw [foldl_add_sum, zero_add] at hlt
  rw [clamped_lo h hsep hclamped] at hd
  simp only [ok_bind] at hd
  obtain ⟨r, hgo, e⟩ := bind_eq_ok.1 hd
  obtain rfl : (c.lo, 0) :: r = samples := by simpa using e
  have hf : List.Forall₂ (fun s l => segmentLength nrm (rule (16 + c.degree)) eps s s.hi = .ok l) segs ls := by
    apply mapM_ok_inv
    rw [← hls]
    exact mapM_same fun s hs => (hp.length nrm rule s hs).symm
  have hlen : segs.length = ls.length := hf.length_eq
  have hzip : (segs.zip ls).map Prod.snd = ls := List.map_snd_zip hlen.ge
  have hnn : ∀ l ∈ ls, 0 ≤ l := by
    intro l hl
    obtain ⟨i, hi, rfl⟩ := List.mem_iff_getElem.1 hl
    have his : i < segs.length := by omega
    exact segmentLength_nonneg hn (hr _) (hp.good _ (List.getElem_mem his)) (forall₂_get hf i his hi)
  obtain ⟨m, h1, h2, h3⟩ := divideGo_spec hL hgo
  rw [hzip] at h2
  have h2 := h2 (by
    intro e
    have : (segs.zip ls).length = 0 := by rw [e]; rfl
    rw [List.length_zip, ← hlen, Nat.min_self] at this
    exact hp.nonempty (List.eq_nil_of_length_eq_zero this))
  simp only [hzip, zero_add] at h2 h3
  -- every later sample is located on a segment
  have h4 : ∀ x ∈ r, ∃ (i : ℕ) (hi : i < segs.length) (hi' : i < ls.length),
      segmentParameter fuel nrm (rule (16 + c.degree)) eps segs[i] (x.2 - upTo ls i) (1 / 400) ls[i] = .ok x.1 ∧
      x.2 < upTo ls (i + 1) + 1 / 1000000 ∧ upTo ls i < x.2 ∧ (i ≠ 0 → upTo ls i + 1 / 1000000 ≤ x.2) := by
    intro x hx
    obtain ⟨i, hi, a1, a2, a3, a4⟩ := h3 x hx
    have hi' : i < segs.length := by rw [List.length_zip, ← hlen, Nat.min_self] at hi; exact hi
    simp only [List.getElem_zip] at a1
    refine ⟨i, hi', by omega, a1, a2, ?_, a4⟩
    by_cases e : i = 0
    · subst e
      simp only [upTo, List.take_zero, List.sum_nil]
      linarith
    · have := a4 e
      have : (0 : K) < 1 / 1000000 := by norm_num
      linarith
  have h5 : ∀ x ∈ r, Placed (segmentLength nrm (rule (16 + c.degree)) eps) segs ls x := by
    intro x hx
    obtain ⟨i, hi, hi', a1, a2, a3, -⟩ := h4 x hx
    obtain ⟨b1, b2, -, b3, b4⟩ := C54_segment_parameter (hp.good _ (List.getElem_mem hi)) (forall₂_get hf i hi hi') a1
    refine ⟨i, hi, a3, a2, b1, b2, ?_, ?_⟩
    · intro e
      rw [upTo_succ hi'] at e
      exact b3 (by linarith) (by linarith)
    · intro e
      rw [upTo_succ hi'] at e
      exact b4 (by linarith) (by linarith)
  have hin : ∀ x ∈ r, c.lo ≤ x.1 ∧ x.1 ≤ c.hi := by
    intro x hx
    obtain ⟨i, hi, -, -, b1, b2, -⟩ := h5 x hx
    obtain ⟨c1, c2⟩ := hp.inside _ (List.getElem_mem hi)
    exact ⟨c1.trans b1, b2.trans c2⟩
  have hord : ∀ x ∈ r, ∀ y ∈ r, x.2 ≤ y.2 → x.1 ≤ y.1 := by
    intro x hx y hy hxy
    obtain ⟨i, hi, hi', a1, a2, a3, a4⟩ := h4 x hx
    obtain ⟨j, hj, hj', b1, b2, b3, b4⟩ := h4 y hy
    have ga := hp.good _ (List.getElem_mem hi)
    have gb := hp.good _ (List.getElem_mem hj)
    obtain ⟨p1, p2, -⟩ := C54_segment_parameter ga (forall₂_get hf i hi hi') a1
    obtain ⟨q1, q2, -⟩ := C54_segment_parameter gb (forall₂_get hf j hj hj') b1
    rcases lt_trichotomy i j with hij | rfl | hij
    · have := List.pairwise_iff_getElem.1 hp.chain i j hi hj hij
      linarith
    · exact C54_parameter_monotone ga (by linarith) a1 b1
    · have := a4 (by omega)
      have := upTo_mono hnn (show j + 1 ≤ i by omega)
      linarith
  have hlt' : r.Pairwise (fun a b => a.2 < b.2) := by
    rw [← List.pairwise_map (R := fun a b : K => a < b), h1, List.pairwise_map]
    refine List.pairwise_lt_range.imp ?_
    intro i j hij
    have : (i : K) < j := by exact_mod_cast hij
    have := mul_lt_mul_of_pos_right this hL
    linarith
  refine ⟨hL, ls, hf, hlt, ⟨m, ?_, ?_, by linarith⟩, rfl, ?_, ?_, ?_⟩
  · rw [List.map_cons, h1, List.range_succ_eq_map]
    simp only [List.map_cons, Nat.cast_zero, zero_mul, List.map_map]
    congr 1
    apply List.map_congr_left
    intro i _
    simp only [Function.comp, Nat.cast_succ]
    ring
  · rcases Nat.eq_zero_or_pos m with e | e
    · subst e
      have : (0 : K) < 1 / 1000000 := by norm_num
      simp only [Nat.cast_zero, zero_mul]
      linarith
    · have hm : (m : K) * L ∈ r.map Prod.snd := by
        rw [h1]
        refine List.mem_map.2 ⟨m - 1, List.mem_range.2 (by omega), ?_⟩
        rw [Nat.cast_sub e]; push_cast; ring
      obtain ⟨x, hx, ex⟩ := List.mem_map.1 hm
      obtain ⟨i, hi, hi', _, a2, _⟩ := h4 x hx
      rw [← ex]
      have := upTo_mono hnn (show i + 1 ≤ ls.length by omega)
      rw [upTo_all] at this
      linarith
  · rw [List.pairwise_cons]
    refine ⟨fun x hx => (hin x hx).1, ?_⟩
    refine hlt'.imp_of_mem ?_
    intro a b ha hb hab
    exact hord a ha b hb hab.le
  · intro x hx
    rcases List.mem_cons.1 hx with rfl | hx
    · exact ⟨le_refl _, (lo_lt_hi h).le⟩
    · exact hin x hx
  · intro x hx hpos
    rcases List.mem_cons.1 hx with rfl | hx
    · exact absurd hpos (lt_irrefl _)
    · exact h5 x hx

/-- Lengths up to 0, and lengths from the total on, are errors. -/
theorem C54_divide_errors {fuel : ℕ} {nrm : W → K} {rule : ℕ → List (K × K)} {eps : K} {c : Curve K (W × K)}
    {segs : List (Curve K (W × K))} (hp : Pieces eps c segs) {L : K} :
    (L ≤ 0 → tryDivideByLength fuel nrm rule eps c L = .error .err) ∧
    ∀ ls, List.Forall₂ (fun s l => segmentLength nrm (rule (16 + c.degree)) eps s s.hi = .ok l) segs ls →
      ls.sum ≤ L → tryDivideByLength fuel nrm rule eps c L = .error .err := by
  constructor
  · intro hL
    unfold tryDivideByLength
    rw [if_neg (not_lt.2 hL)]
  · intro ls hf hs
    unfold tryDivideByLength
    split
    · rw [hp.ok]
      simp only [ok_bind]
      rw [mapM_same fun s hs => hp.length nrm rule s hs, mapM_of_forall₂ hf]
      simp only [ok_bind]
      rw [foldl_add_sum, zero_add, if_neg (not_lt.2 hs)]
    · rfl

/-- **C54** Dividing into `n` parts gives the lengths `0, T/n, …, T` of the total `T`; into one part it fails. -/
theorem C54_divide_by_count {fuel : ℕ} {nrm : W → K} {rule : ℕ → List (K × K)} {eps : K} (hn : ∀ v, 0 ≤ nrm v)
    (hr : ∀ n, ∀ x ∈ rule n, 0 ≤ x.2) {c : Curve K (W × K)} (h : c.Good eps)
    (hsep : ∀ x ∈ c.knots, ∀ y ∈ c.knots, x ≠ y → eps < |x - y|)
    (hclamped : c.isClamped eps = .ok true) {segs : List (Curve K (W × K))} (hp : Pieces eps c segs)
    {total : K} (ht : tryLength nrm rule eps c = .ok total) :
    tryDivideByCount fuel nrm rule eps c 1 = .error .err ∧
    ∀ (n : ℕ) (samples : List (K × K)), 1 / 1000000 ≤ total / n →
      tryDivideByCount fuel nrm rule eps c n = .ok samples →
      2 ≤ n ∧ samples.map Prod.snd = (List.range (n + 1)).map (fun i : ℕ => i * (total / n)) := by
  obtain ⟨ls, hf, hsum⟩ := (C54_length h hclamped hp total).1 ht
  have hone : tryDivideByCount fuel nrm rule eps c 1 = .error .err := by
    unfold tryDivideByCount
    rw [ht]
    simp only [ok_bind, Nat.cast_one, divR_eq_ok (one_ne_zero), div_one]
    exact (C54_divide_errors hp).2 ls hf hsum.le
  refine ⟨hone, ?_⟩
  intro n samples hu hd
  have hn0 : n ≠ 0 := by
    rintro rfl
    unfold tryDivideByCount at hd
    rw [ht] at hd
    simp [divR] at hd
  have hn1 : n ≠ 1 := by
    rintro rfl
    rw [hone] at hd
    simp at hd
  refine ⟨by omega, ?_⟩
  have hnK : (n : K) ≠ 0 := by exact_mod_cast hn0
  unfold tryDivideByCount at hd
  rw [ht] at hd
  simp only [ok_bind, divR_eq_ok hnK] at hd
  obtain ⟨hL, ls', hf', hlt, ⟨m, e, h1, h2⟩, -⟩ := C54_divide hn hr h hsep hclamped hp hd
  have : ls' = ls := by
    have a := mapM_of_forall₂ hf
    have b := mapM_of_forall₂ hf'
    rw [a] at b
    simpa using b.symm
  subst this
  rw [hsum] at h1 h2
  have hmul : (n : K) * (total / n) = total := by field_simp
  have hmn : m = n := by
    have a1 : (m : K) * (total / n) < (n + 1 : ℕ) * (total / n) := by
      push_cast; rw [add_mul, hmul]; linarith
    have a2 : (n : K) * (total / n) < (m + 1 : ℕ) * (total / n) := by
      push_cast; rw [hmul]
      have : (0 : K) < 1 / 1000000 := by norm_num
      linarith
    have b1 := lt_of_mul_lt_mul_right a1 hL.le
    have b2 := lt_of_mul_lt_mul_right a2 hL.le
    have b1 : m < n + 1 := by exact_mod_cast b1
    have b2 : n < m + 1 := by exact_mod_cast b2
    omega
  rw [e, hmn]

/-! ### C54: a parameter at a length of a curve -/

theorem parameterGo_spec {fuel : ℕ} {nrm : W → K} {rule : List (K × K)} {eps l tol : K} :
    ∀ {ss : List (Curve K (W × K))} {acc u : K}, (∀ s ∈ ss, s.Good eps) →
    parameterGo fuel nrm rule eps l tol ss acc = .ok u →
    ∃ (i : ℕ) (hi : i < ss.length) (ls : List K),
      List.Forall₂ (fun s l => segmentLength nrm rule eps s s.hi = .ok l) (ss.take (i + 1)) ls ∧
      l ≤ acc + upTo ls (i + 1) + eps ∧ (i ≠ 0 → acc + upTo ls i + eps < l) ∧
      ∃ sl, segmentLength nrm rule eps ss[i] ss[i].hi = .ok sl ∧ upTo ls (i + 1) = upTo ls i + sl ∧
        segmentParameter fuel nrm rule eps ss[i] (l - (acc + upTo ls i)) tol sl = .ok u
  | [], acc, u, _, h => by simp [parameterGo] at h
  | s :: ss, acc, u, hg, h => by
    unfold parameterGo at h
    rw [knotsDomain_eq (hg s (by simp))] at h
    simp only [ok_bind] at h
    obtain ⟨sl, hsl, h⟩ := bind_eq_ok.1 h
    split at h
    · rename_i hle
      refine ⟨0, by simp, [sl], by simpa using hsl, by simpa [upTo] using hle, by simp, sl, by simpa using hsl,
        by simp [upTo], by simpa [upTo] using h⟩
    · rename_i hle
      obtain ⟨i, hi, ls, h1, h2, h3, sl', h4, h5, h6⟩ := parameterGo_spec (fun t ht => hg t (by simp [ht])) h
      refine ⟨i + 1, by simpa using hi, sl :: ls, ?_, ?_, ?_, sl', by simpa using h4, ?_, ?_⟩
      · rw [List.take_succ_cons]; exact .cons hsl h1
      · rw [upTo_cons]; linarith
      · intro _
        rw [upTo_cons]
        by_cases e : i = 0
        · subst e
          simp only [upTo, List.take_zero, List.sum_nil, add_zero]
          linarith
        · have := h3 e; linarith
      · rw [upTo_cons, upTo_cons, h5]; ring
      · simp only [List.getElem_cons_succ]
        rw [upTo_cons, ← add_assoc]; exact h6

/-- **C54** The parameter at a length of a clamped curve lies in the domain, on the first segment whose end is not
    before the length, and there it is the end or is located up to the tolerance. -/
theorem C54_parameter_at_length {fuel : ℕ} {nrm : W → K} {rule : ℕ → List (K × K)} {eps : K}
    {c : Curve K (W × K)} (h : c.Good eps) {segs : List (Curve K (W × K))} (hp : Pieces eps c segs)
    {l : K} {tol : Option K} {u : K} (hu : tryParameterAtLength fuel nrm rule eps c l tol = .ok u) :
    c.lo ≤ u ∧ u ≤ c.hi ∧ (l < eps → u = c.lo) ∧
    (eps ≤ l → ∃ (i : ℕ) (hi : i < segs.length) (ls : List K) ,
      List.Forall₂ (fun s l => segmentLength nrm (rule (16 + c.degree)) eps s s.hi = .ok l) (segs.take (i + 1)) ls ∧
      l ≤ upTo ls (i + 1) + eps ∧ (i ≠ 0 → upTo ls i + eps < l) ∧ segs[i].lo ≤ u ∧ u ≤ segs[i].hi ∧
      (0 < l → upTo ls (i + 1) ≤ l → u = segs[i].hi) ∧
      (0 < l → l < upTo ls (i + 1) → Located (segmentLength nrm (rule (16 + c.degree)) eps segs[i]) segs[i].lo
        segs[i].hi (tol.getD (1 / 10000)) (l - upTo ls i) u)) := by
  have hd := lo_lt_hi h
  have heps := h.good.eps_nonneg
  unfold tryParameterAtLength at hu
  by_cases h0 : l < eps
  · rw [if_pos h0, knotsDomain_eq h] at hu
    have e : c.lo = u := by simpa using hu
    rw [← e]
    exact ⟨le_refl _, hd.le, fun _ => rfl, fun h1 => absurd h0 (not_lt.2 h1)⟩
  · rw [if_neg h0, hp.ok] at hu
    simp only [ok_bind] at hu
    obtain ⟨i, hi, ls, h1, h2, h3, sl, h4, h5, h6⟩ := parameterGo_spec hp.good hu
    simp only [zero_add] at h2 h3 h6
    obtain ⟨b1, b2, b3, b4, b5⟩ := C54_segment_parameter (hp.good _ (List.getElem_mem hi)) h4 h6
    obtain ⟨c1, c2⟩ := hp.inside _ (List.getElem_mem hi)
    have hpos : 0 < l → 0 < l - upTo ls i := by
      intro hl
      by_cases e : i = 0
      · subst e; simpa [upTo] using hl
      · have := h3 e; linarith
    refine ⟨c1.trans b1, b2.trans c2, fun h => absurd h h0, fun _ => ⟨i, hi, ls, h1, h2, h3, b1, b2, ?_, ?_⟩⟩
    · intro hl e
      exact b4 (hpos hl) (by linarith)
    · intro hl e
      exact b5 (hpos hl) (by linarith)

end curve

/-! ### Witnesses -/

/-- Witness: a clamped linear curve of two segments, of lengths 1 and 2. -/
def exWalk : Curve ℚ (ℚ × ℚ) where
  degree := 1
  cps := [(0, 1), (1, 1), (3, 1)]
  knots := [0, 0, 1, 3, 3]

/-- Witness: the midpoint rule, exact for these curves. -/
def exRule : ℕ → List (ℚ × ℚ) := fun _ => [(0, 2)]

theorem exWalk_good : exWalk.Good (1/1000) where
  cps_pos := by decide
  knots_len := by decide
  good := ⟨by norm_num, by decide, by
    show Spec.MonoUpTo (kf [0, 0, 1, 3, 3]) (2 + 1 + 1)
    exact mono_of_sorted (by decide +kernel) (by decide), by decide +kernel, by decide +kernel, by decide +kernel,
    by decide +kernel⟩

theorem exWalk_sep : ∀ x ∈ exWalk.knots, ∀ y ∈ exWalk.knots, x ≠ y → (1/1000 : ℚ) < |x - y| := by decide +kernel

theorem exWalk_pieces : ∃ segs, Pieces (1/1000) exWalk segs :=
  pieces exWalk_good exWalk_sep (by decide +kernel) (by decide +kernel)

/-- The division of the witness by 1/2 and into four parts; the hypotheses of the theorems above hold. -/
example : (∀ v : ℚ, 0 ≤ |v|) ∧ (∀ n, ∀ x ∈ exRule n, 0 ≤ x.2) ∧ exWalk.isClamped (1/1000) = .ok true ∧
    tryLength (fun v : ℚ => |v|) exRule (1/1000) exWalk = .ok 3 ∧
    tryDivideByLength 40 (fun v : ℚ => |v|) exRule (1/1000) exWalk (1/2) =
      .ok [(0, 0), (513/1024, 1/2), (1, 1), (1537/1024, 3/2), (2049/1024, 2), (2561/1024, 5/2), (3, 3)] ∧
    tryDivideByCount 40 (fun v : ℚ => |v|) exRule (1/1000) exWalk 4 =
      .ok [(0, 0), (769/1024, 3/4), (1537/1024, 3/2), (2305/1024, 9/4), (3, 3)] ∧
    tryParameterAtLength 40 (fun v : ℚ => |v|) exRule (1/1000) exWalk (3/2) (some (1/4)) = .ok (13/8) := by
  refine ⟨abs_nonneg, ?_, by decide +kernel, by decide +kernel, by decide +kernel, by decide +kernel,
    by decide +kernel⟩
  intro n x hx
  simp only [exRule, List.mem_singleton] at hx
  subst hx
  norm_num

/-- For an unclamped curve the first sample is the first knot, which is not in the domain. -/
theorem C54_unclamped_start_outside :
    exUnclamped.lo = 1 ∧
    tryDivideByLength 40 (fun v : ℚ × ℚ => |v.1| + |v.2|) exRule (1/1000) exUnclamped 3 =
      .ok [(0, 0), (2, 3), (3, 6)] := by
  constructor <;> decide +kernel

end Curvo.Props

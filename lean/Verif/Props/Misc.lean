/-
  Property theorems about the helpers in `/repo/src/misc` and the polygon mesh:
  C50, C51, C52, C53, C57, C58, C64.
-/
import Mathlib.Data.Nat.Choose.Basic
import Mathlib.Data.Nat.Cast.Field
import Mathlib.Data.List.Rotate
import Mathlib.Data.Prod.Lex
import Mathlib.Tactic.Linarith
import Mathlib.Tactic.FieldSimp
import Mathlib.Tactic.LinearCombination
import Mathlib.Tactic.Module
import Mathlib.Tactic.Positivity
import Verif.Model.Misc
import Verif.Lemmas.Res
import Verif.Lemmas.Refine

set_option linter.unusedSectionVars false

namespace Curvo.Props

open Curvo Curvo.Misc

/-! ### C64 -/

section transpose
variable {α : Type}

theorem pushAt_ok {t : List (List α)} {j : ℕ} {p : α} (h : j < t.length) :
    pushAt t (j, p) = .ok (t.set j (t[j] ++ [p])) := by
  simp [pushAt, getR, setR, h]

/-- Pushing a row onto columns `s, s+1, …`. -/
theorem pushRow_go : ∀ (row : List α) (s : ℕ) (t : List (List α)), s + row.length ≤ t.length →
    ∃ t', ((row.zipIdx s).map fun x => (x.2, x.1)).foldlM pushAt t = .ok t' ∧ t'.length = t.length ∧
      ∀ j : ℕ, t'[j]? = if s ≤ j ∧ j < s + row.length then
        (t[j]?).bind fun col => (row[j - s]?).map fun p => col ++ [p] else t[j]?
  | [], s, t, _ => ⟨t, rfl, rfl, fun j => by rw [if_neg (by simp)]⟩
  | p :: row, s, t, h => by
    have hs : s < t.length := by simp at h; omega
    obtain ⟨t', e, hl, hj⟩ := pushRow_go row (s + 1) (t.set s (t[s] ++ [p])) (by simp at h ⊢; omega)
    refine ⟨t', ?_, by simpa using hl, ?_⟩
    · simp only [List.zipIdx_cons, List.map_cons, List.foldlM_cons]
      rw [pushAt_ok hs]; exact e
    · intro j
      rw [hj j]
      simp only [List.length_cons]
      rcases Nat.lt_trichotomy j s with h1 | h1 | h1
      · rw [if_neg (by omega), if_neg (by omega), List.getElem?_set_ne (by omega)]
      · subst h1
        rw [if_neg (by omega), if_pos (by omega), List.getElem?_set_self hs]
        simp [hs]
      · by_cases h2 : j < s + 1 + row.length
        · rw [if_pos (by omega), if_pos (by omega), List.getElem?_set_ne (by omega),
            show j - s = (j - (s + 1)) + 1 by omega, List.getElem?_cons_succ]
        · rw [if_neg (by omega), if_neg (by omega), List.getElem?_set_ne (by omega)]

theorem pushRow_ok {row : List α} {t : List (List α)} (h : row.length = t.length) :
    ∃ t', pushRow t row = .ok t' ∧ t'.length = t.length ∧
      ∀ j : ℕ, t'[j]? = (t[j]?).bind fun col => (row[j]?).map fun p => col ++ [p] := by
  obtain ⟨t', e, hl, hj⟩ := pushRow_go row 0 t (by omega)
  refine ⟨t', e, hl, ?_⟩
  intro j
  rw [hj j]
  by_cases hlt : j < row.length
  · rw [if_pos (by omega)]; simp
  · rw [if_neg (by omega)]
    rw [List.getElem?_eq_none (by omega : t.length ≤ j)]; rfl

theorem pushRows_ok (n : ℕ) : ∀ (rows t : List (List α)), t.length = n → (∀ r ∈ rows, r.length = n) →
    ∃ t', rows.foldlM pushRow t = .ok t' ∧ t'.length = n ∧
      ∀ (j : ℕ) (col : List α), t[j]? = some col → ∃ col' : List α, t'[j]? = some col' ∧ col'.length = col.length + rows.length ∧
        ∀ i : ℕ, col'[i]? = if i < col.length then col[i]? else (rows[i - col.length]?).bind fun r => r[j]?
  | [], t, ht, _ => ⟨t, rfl, ht, fun j col hc => ⟨col, hc, by simp, fun i => by
      split
      · rfl
      · rename_i h; simp; omega⟩⟩
  | r :: rows, t, ht, hr => by
    obtain ⟨t1, e1, hl1, hj1⟩ := pushRow_ok (row := r) (t := t) (by rw [ht]; exact hr r (by simp))
    obtain ⟨t', e, hl, hj⟩ := pushRows_ok n rows t1 (hl1.trans ht) (fun x hx => hr x (by simp [hx]))
    refine ⟨t', by rw [List.foldlM_cons, e1, ok_bind, e], hl, ?_⟩
    intro j col hc
    have hjn : j < n := by
      rw [← ht]; exact (List.getElem?_eq_some_iff.1 hc).1
    have hrl : r.length = n := hr r (by simp)
    have hjr : j < r.length := by omega
    have hc1 : t1[j]? = some (col ++ [r[j]]) := by rw [hj1 j, hc]; simp [hjr]
    obtain ⟨col', g1, g2, g3⟩ := hj j _ hc1
    refine ⟨col', g1, by rw [g2]; simp; omega, ?_⟩
    intro i
    rw [g3 i]
    simp only [List.length_append, List.length_cons, List.length_nil]
    rcases Nat.lt_trichotomy i col.length with h1 | h1 | h1
    · rw [if_pos (by omega), if_pos h1, List.getElem?_append_left h1]
    · subst h1
      rw [if_pos (by omega), if_neg (by omega), List.getElem?_append_right (le_refl _)]
      simp [hjr]
    · rw [if_neg (by omega), if_neg (by omega), show i - col.length = (i - (col.length + 1)) + 1 by omega,
        List.getElem?_cons_succ]

/-- Transposing a rectangular `m × n` net gives an `n × m` net with swapped indices. -/
theorem C64_transpose {m n : ℕ} {points : List (List α)} (hm : points.length = m) (hpos : 0 < m)
    (hn : ∀ r ∈ points, r.length = n) :
    ∃ t, transpose points = .ok t ∧ t.length = n ∧ (∀ r ∈ t, r.length = m) ∧
      ∀ i j : ℕ, i < m → j < n → (t[j]?).bind (·[i]?) = (points[i]?).bind (·[j]?) := by
  obtain ⟨r0, rest, rfl⟩ := List.exists_cons_of_ne_nil (List.length_pos_iff.1 (by omega) : points ≠ [])
  have hr0 : r0.length = n := hn r0 (by simp)
  obtain ⟨t, e, hl, hj⟩ := pushRows_ok n (r0 :: rest) (List.replicate r0.length []) (by simp [hr0]) hn
  have key : ∀ j, j < n → ∃ col' : List α, t[j]? = some col' ∧ col'.length = m ∧
      ∀ i : ℕ, col'[i]? = ((r0 :: rest)[i]?).bind fun r => r[j]? := by
    intro j hjn
    obtain ⟨col', g1, g2, g3⟩ := hj j [] (by simp [hr0, hjn])
    exact ⟨col', g1, by rw [g2]; simpa using hm, fun i => by rw [g3 i]; simp⟩
  refine ⟨t, by simpa [transpose, getR] using e, hl, ?_, ?_⟩
  · intro r hr
    obtain ⟨j, hjl, rfl⟩ := List.mem_iff_getElem.1 hr
    obtain ⟨col', g1, g2, _⟩ := key j (by omega)
    rw [List.getElem?_eq_getElem hjl] at g1
    rw [Option.some.inj g1, g2]
  · intro i j _ hjn
    obtain ⟨col', g1, _, g3⟩ := key j hjn
    rw [g1]; exact g3 i

/-- Transposing twice gives the net back. -/
theorem C64_transpose_involutive {m n : ℕ} {points : List (List α)} (hm : points.length = m)
    (hpos : 0 < m) (hnpos : 0 < n) (hn : ∀ r ∈ points, r.length = n) :
    (do let t ← transpose points; transpose t) = .ok points := by
  obtain ⟨t, e, hl, hr, hij⟩ := C64_transpose hm hpos hn
  obtain ⟨t2, e2, hl2, hr2, hij2⟩ := C64_transpose hl hnpos hr
  rw [e, ok_bind, e2]
  congr 1
  apply List.ext_getElem (by omega)
  intro i h1 h2
  have l1 : t2[i].length = n := hr2 _ (List.getElem_mem _)
  have l2 : points[i].length = n := hn _ (List.getElem_mem _)
  apply List.ext_getElem (by omega)
  intro j h3 h4
  have a := hij i j (by omega) (by omega)
  have b := hij2 j i (by omega) (by omega)
  rw [a] at b
  rw [List.getElem?_eq_getElem h1, List.getElem?_eq_getElem h2] at b
  simpa [h3, h4] using b

/-- An empty net panics. -/
theorem C64_empty_panics : transpose ([] : List (List α)) = .error .panic := rfl

/-- A net whose later row is longer than the first one panics (index out of range). -/
theorem C64_longer_row_panics {r0 r1 : List α} (h : r0.length < r1.length) :
    transpose [r0, r1] = .error .panic := by
  have h0 : ∃ t, pushRow (List.replicate r0.length []) r0 = .ok t ∧ t.length = r0.length := by
    obtain ⟨t, e, hl, _⟩ := pushRow_ok (row := r0) (t := List.replicate r0.length []) (by simp)
    exact ⟨t, e, by simpa using hl⟩
  obtain ⟨t, e, hl⟩ := h0
  have hsplit : r1 = r1.take r0.length ++ (r1[r0.length] :: r1.drop (r0.length + 1)) := by
    rw [← List.drop_eq_getElem_cons h, List.take_append_drop]
  obtain ⟨t2, e2, hl2, _⟩ := pushRow_go (r1.take r0.length) 0 t (by simp; omega)
  have : pushRow t r1 = .error .panic := by
    rw [pushRow, hsplit, List.zipIdx_append, List.map_append, List.foldlM_append, e2]
    have hlen : (r1.take r0.length).length = r0.length := by simp; omega
    simp only [ok_bind, List.zipIdx_cons, List.map_cons, List.foldlM_cons, hlen, pushAt, Nat.zero_add]
    rw [getR_eq_panic (by omega)]; rfl
  simp only [transpose, getR, List.getElem?_cons_zero, ok_bind, List.foldlM_cons, e, this]
  rfl

example : transpose [[1, 2, 3], [4, 5, 6]] = .ok [[1, 4], [2, 5], [3, 6]] := rfl
example : (do let t ← transpose [[1, 2, 3], [4, 5, 6]]; transpose t) = .ok [[1, 2, 3], [4, 5, 6]] :=
  C64_transpose_involutive (m := 2) (n := 3) rfl (by norm_num) (by norm_num) (by simp)

end transpose

/-! ### C51 -/

section binomial
variable {K : Type} [Field K]

/-- Every entry of the memo is a binomial coefficient. -/
def MemoOk (m : Memo K) : Prop := ∀ n k v, m n k = some v → v = (n.choose k : K)

theorem memo_get (n : ℕ) : ∀ (k : ℕ) (m : Memo K), MemoOk m →
    (Memo.get n k m).1 = (n.choose k : K) ∧ MemoOk (Memo.get n k m).2 := by
  induction n with
  | zero =>
    intro k m hm
    rw [Memo.get]
    by_cases hk : k = 0
    · rw [if_pos hk]; exact ⟨by simp [hk], hm⟩
    · rw [if_neg hk]
      refine ⟨?_, hm⟩
      obtain ⟨j, rfl⟩ := Nat.exists_eq_succ_of_ne_zero hk
      simp
  | succ n ih =>
    intro k m hm
    rw [Memo.get]
    by_cases h1 : k = 0 ∨ k = n + 1
    · rw [if_pos h1]
      rcases h1 with rfl | rfl <;> exact ⟨by simp, hm⟩
    · rw [if_neg h1]
      by_cases h2 : n + 1 < k
      · rw [if_pos h2]; exact ⟨by simp [Nat.choose_eq_zero_of_lt h2], hm⟩
      · rw [if_neg h2]
        simp only
        have hsym : (n + 1).choose k = (n + 1).choose (min k (n + 1 - k)) := by
          rcases Nat.le_total k (n + 1 - k) with h | h
          · rw [min_eq_left h]
          · rw [min_eq_right h, Nat.choose_symm (by omega)]
        rw [hsym]
        have hpos : 0 < min k (n + 1 - k) := by
          rw [not_or] at h1; simp only [lt_min_iff]; omega
        generalize min k (n + 1 - k) = j at hpos
        cases hmem : m (n + 1) j with
        | some v => exact ⟨hm _ _ _ hmem, hm⟩
        | none =>
          obtain ⟨a1, a2⟩ := ih j m hm
          obtain ⟨b1, b2⟩ := ih (j - 1) _ a2
          obtain ⟨j, rfl⟩ := Nat.exists_eq_succ_of_ne_zero hpos.ne'
          have hval : ((n.choose (j + 1) : ℕ) : K) + (n.choose j : ℕ) = ((n + 1).choose (j + 1) : ℕ) := by
            rw [Nat.choose_succ_succ]; push_cast; ring
          simp only [Nat.succ_eq_add_one, Nat.add_sub_cancel] at *
          rw [a1, b1, hval]
          refine ⟨rfl, ?_⟩
          intro n' k' v hv
          rw [Memo.set] at hv
          split at hv
          · rename_i h; rw [h.1, h.2]; exact (Option.some.inj hv).symm
          · exact b2 _ _ _ hv

/-- In every history of queries each answer is the binomial coefficient. -/
theorem C51_memoised (qs : List (ℕ × ℕ)) :
    (Memo.run (Memo.empty : Memo K) qs).1 = qs.map fun q => (q.1.choose q.2 : K) := by
  suffices h : ∀ m : Memo K, MemoOk m → (Memo.run m qs).1 = qs.map fun q => (q.1.choose q.2 : K) from
    h _ (fun n k v h => by cases h)
  induction qs with
  | nil => intro m _; rfl
  | cons q qs ih =>
    intro m hm
    obtain ⟨h1, h2⟩ := memo_get q.1 q.2 m hm
    simp only [Memo.run, List.map_cons, h1, ih _ h2]

/-- The memo only ever holds correct entries. -/
theorem C51_memo_entries (qs : List (ℕ × ℕ)) :
    MemoOk (Memo.run (Memo.empty : Memo K) qs).2 := by
  suffices h : ∀ m : Memo K, MemoOk m → MemoOk (Memo.run m qs).2 from h _ (fun n k v h => by cases h)
  induction qs with
  | nil => intro m hm; exact hm
  | cons q qs ih =>
    intro m hm
    obtain ⟨_, h2⟩ := memo_get q.1 q.2 m hm
    exact ih _ h2

variable [CharZero K]

theorem binomial_loop (n : ℕ) : ∀ k, k ≤ n →
    (List.range k).foldl (fun r i => r * ((n - i : ℕ) : K) / ((i + 1 : ℕ) : K)) 1 = (n.choose k : K) := by
  intro k
  induction k with
  | zero => intro _; simp
  | succ k ih =>
    intro hk
    rw [List.range_succ, List.foldl_append, ih (by omega)]
    simp only [List.foldl_cons, List.foldl_nil]
    rw [div_eq_iff (by exact_mod_cast Nat.succ_ne_zero k)]
    exact_mod_cast (Nat.choose_succ_right_eq n k).symm

/-- The closed form computes the binomial coefficient. -/
theorem C51_closed_form (n k : ℕ) : (binomial n k : K) = (n.choose k : K) := by
  unfold binomial
  by_cases h1 : k = 0 ∨ k = n
  · rw [if_pos h1]; rcases h1 with rfl | rfl <;> simp
  · rw [if_neg h1]
    by_cases h2 : n = 0 ∨ n < k
    · rw [if_pos h2, Nat.choose_eq_zero_of_lt (by omega)]; simp
    · rw [if_neg h2]
      simp only
      rw [binomial_loop _ _ (by omega)]
      congr 1
      rcases Nat.le_total k (n - k) with h | h
      · rw [min_eq_left h]
      · rw [min_eq_right h, Nat.choose_symm (by omega)]

example : (Memo.run (Memo.empty : Memo ℚ) [(5, 2), (6, 4), (5, 3), (3, 7)]).1 = [10, 15, 10, 0] := by
  rw [C51_memoised]; simp [Nat.choose]

end binomial

end Curvo.Props

/-
  Sorted lists: counting and uniqueness.
-/
import Mathlib.Data.List.Sort
import Mathlib.Order.Defs.LinearOrder
import Mathlib.Data.List.Count

namespace Curvo

variable {K : Type} [LinearOrder K]

/-- In a sorted list a downward closed predicate holds exactly on an initial segment. -/
theorem sorted_countP {P : K → Bool} (hP : ∀ a b, a ≤ b → P b → P a) :
    ∀ {l : List K}, l.Pairwise (· ≤ ·) → ∀ {t : ℕ} (ht : t < l.length),
      (P l[t] = true ↔ t < l.countP P)
  | [], _, t, ht => by simp at ht
  | a :: l, hs, t, ht => by
    have hs' := List.pairwise_cons.1 hs
    rw [List.countP_cons]
    cases t with
    | zero =>
      simp only [List.getElem_cons_zero]
      by_cases ha : P a = true
      · simp [ha]
      · have : l.countP P = 0 := by
          rw [List.countP_eq_zero]
          intro b hb hPb
          exact ha (hP a b (hs'.1 b hb) hPb)
        simp [ha, this]
    | succ t =>
      simp only [List.getElem_cons_succ]
      have ht' : t < l.length := by simpa using ht
      rw [sorted_countP hP hs'.2 ht']
      by_cases ha : P a = true
      · simp [ha]
      · have : l.countP P = 0 := by
          rw [List.countP_eq_zero]
          intro b hb hPb
          exact ha (hP a b (hs'.1 b hb) hPb)
        simp [ha, this]

theorem sorted_ext {l r : List K} (hl : l.Pairwise (· ≤ ·)) (hr : r.Pairwise (· ≤ ·)) (h : l.Perm r) :
    l = r := h.eq_of_pairwise' hl hr

end Curvo

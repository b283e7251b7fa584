/-
  Lemmas about monadic list traversals in `Res`.
-/
import Mathlib.Algebra.BigOperators.Group.Finset.Basic
import Verif.Basic

namespace Curvo

theorem mapM_ok {α β : Type} {f : α → Res β} {g : α → β} :
    ∀ {l : List α}, (∀ x ∈ l, f x = .ok (g x)) → l.mapM f = .ok (l.map g)
  | [], _ => rfl
  | a :: l, h => by
    rw [List.mapM_cons, h a (by simp), mapM_ok (fun x hx => h x (List.mem_cons_of_mem _ hx))]
    rfl

theorem mapM_error {α β : Type} {f : α → Res β} {e : Fault} :
    ∀ {l : List α}, l ≠ [] → (∀ x ∈ l, f x = .error e) → l.mapM f = .error e
  | [], h, _ => absurd rfl h
  | a :: l, _, h => by
    rw [List.mapM_cons, h a (by simp)]; rfl

/-- A successful traversal: same length, and pointwise successful. -/
theorem mapM_ok_inv {α β : Type} {f : α → Res β} :
    ∀ {l : List α} {r : List β}, l.mapM f = .ok r → List.Forall₂ (fun x y => f x = .ok y) l r
  | [], r, h => by
    have : r = [] := (Except.ok.inj h).symm
    subst this; exact .nil
  | a :: l, r, h => by
    rw [List.mapM_cons] at h
    cases hf : f a with
    | error e => rw [hf] at h; cases h
    | ok b =>
      rw [hf, ok_bind] at h
      cases hm : l.mapM f with
      | error e => rw [hm] at h; cases h
      | ok bs =>
        rw [hm, ok_bind] at h
        have : r = b :: bs := (Except.ok.inj h).symm
        subst this
        exact .cons hf (mapM_ok_inv hm)

theorem bind_eq_ok {α β : Type} {x : Res α} {f : α → Res β} {b : β} :
    (x >>= f) = .ok b ↔ ∃ a, x = .ok a ∧ f a = .ok b := by
  cases x with
  | error e => simp
  | ok a => simp

theorem foldlM_ok {α β : Type} {f : β → α → Res β} {g : β → α → β} :
    ∀ {l : List α} {b : β}, (∀ acc, ∀ x ∈ l, f acc x = .ok (g acc x)) →
      l.foldlM f b = .ok (l.foldl g b)
  | [], b, _ => rfl
  | a :: l, b, h => by
    rw [List.foldlM_cons, h b a (by simp), ok_bind,
      foldlM_ok (fun acc x hx => h acc x (List.mem_cons_of_mem _ hx))]
    rfl

theorem foldl_add_range {M : Type} [AddCommMonoid M] (g : ℕ → M) (n : ℕ) (b : M) :
    (List.range n).foldl (fun acc i => acc + g i) b = b + (Finset.range n).sum g := by
  induction n with
  | zero => simp
  | succ n ih => rw [List.range_succ, List.foldl_append, ih, Finset.sum_range_succ]; simp [add_assoc]

/-- Accumulating a sum in a loop. -/
theorem foldlM_sum {M : Type} [AddCommMonoid M] {f : M → ℕ → Res M} {g : ℕ → M} {n : ℕ} {b : M}
    (h : ∀ acc i, i < n → f acc i = .ok (acc + g i)) :
    (List.range n).foldlM f b = .ok (b + (Finset.range n).sum g) := by
  rw [foldlM_ok (g := fun acc i => acc + g i) (fun acc i hi => h acc i (List.mem_range.1 hi)),
    foldl_add_range]

end Curvo

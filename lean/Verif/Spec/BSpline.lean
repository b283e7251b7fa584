/-
  Independent specification: B-spline basis functions by the Cox–de Boor recursion and the
  B-spline curve they span.  Nothing here refers to the model.

  Knots are a function `k : ℕ → K`; only indices `0 .. n+p+1` matter.
-/
import Mathlib.Algebra.Order.Field.Basic
import Mathlib.Algebra.BigOperators.Group.Finset.Basic
import Mathlib.Algebra.Module.Defs

namespace Curvo.Spec

variable {K : Type} [Field K] [LinearOrder K]

/-- `u` lies in the knot span `i`: spans are half open `[k i, k (i+1))`; only at the right end `b` of
    the domain they are taken closed on the right, `(k i, k (i+1)]`, so that the domain is closed. -/
def InSpan (k : ℕ → K) (b u : K) (i : ℕ) : Prop :=
  if u = b then k i < u ∧ u ≤ k (i + 1) else k i ≤ u ∧ u < k (i + 1)

instance (k : ℕ → K) (b u : K) (i : ℕ) : Decidable (InSpan k b u i) := by
  unfold InSpan; infer_instance

/-- Cox–de Boor recursion on a domain with right end `b`.
    Degree 0: characteristic function of span `i`.
    A term with a vanishing denominator is zero (Piegl & Tiller's `0/0 := 0`; `x / 0 = 0` in Lean). -/
def N (k : ℕ → K) (b : K) : ℕ → ℕ → K → K
  | 0, i, u => if InSpan k b u i then 1 else 0
  | p + 1, i, u =>
    (u - k i) / (k (i + p + 1) - k i) * N k b p i u +
    (k (i + p + 2) - u) / (k (i + p + 2) - k (i + 1)) * N k b p (i + 1) u

/-- The B-spline curve of degree `p` with knots `k` and control points `P 0 … P n`
    on the domain `[k p, k (n+1)]`. -/
def curve {V : Type} [AddCommGroup V] [Module K V]
    (k : ℕ → K) (p n : ℕ) (P : ℕ → V) (u : K) : V :=
  (Finset.range (n + 1)).sum fun i => N k (k (n + 1)) p i u • P i

/-- The knots `k 0 … k m` are non-decreasing. -/
def MonoUpTo (k : ℕ → K) (m : ℕ) : Prop := ∀ i j, i ≤ j → j ≤ m → k i ≤ k j

/-- A knot vector on which evaluation is well defined (`n + p + 2` knots, degree `p`, `n + 1` control
    points): non-decreasing, the first and the last span of the domain `[k p, k (n+1)]` are non
    degenerate and not shorter than the comparison tolerance `eps`. -/
structure GoodKnots (eps : K) (k : ℕ → K) (p n : ℕ) : Prop where
  eps_nonneg : 0 ≤ eps
  le : p ≤ n
  mono : MonoUpTo k (n + p + 1)
  first : k p < k (p + 1)
  last : k n < k (n + 1)
  first_gap : k p + eps ≤ k (p + 1)
  last_gap : k n + eps ≤ k (n + 1)

end Curvo.Spec

namespace Curvo

/-- A list read as a function (the value beyond its end is irrelevant). -/
def kf {K : Type} [Zero K] (ks : List K) : ℕ → K := fun i => ks.getD i 0

end Curvo

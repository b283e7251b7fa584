/-
  Specification level notions about surfaces: which surfaces are well formed and what they denote.
-/
import Verif.Spec.Curve
import Verif.Model.Surface

namespace Curvo.Surface

open Curvo.Spec

variable {K : Type} [Field K] [LinearOrder K] {V : Type}

/-- Number of control points in the v direction, from the knots. -/
def cols (S : Surface K V) : ℕ := S.vKnots.length - S.vDegree - 1

/-- A well formed surface: a rectangular net of control points with good knots in both directions. -/
structure Good (eps : K) (S : Surface K V) : Prop where
  rows_pos : 0 < S.cps.length
  u_len : S.uKnots.length = S.cps.length + S.uDegree + 1
  u_good : GoodKnots eps (kf S.uKnots) S.uDegree (S.cps.length - 1)
  cols_pos : 0 < S.cols
  v_good : GoodKnots eps (kf S.vKnots) S.vDegree (S.cols - 1)
  rect : ∀ row ∈ S.cps, row.length = S.cols

/-- Ends of the domain. -/
def ulo (S : Surface K V) : K := kf S.uKnots S.uDegree
def uhi (S : Surface K V) : K := kf S.uKnots S.cps.length
def vlo (S : Surface K V) : K := kf S.vKnots S.vDegree
def vhi (S : Surface K V) : K := kf S.vKnots S.cols

variable [AddCommGroup V] [Module K V]

/-- Control point `(i, j)`. -/
def cp (S : Surface K V) (i j : ℕ) : V := (S.cps.getD i []).getD j 0

/-- What a surface denotes: the tensor product B-spline sum over all its control points. -/
def eval (S : Surface K V) (u v : K) : V :=
  (Finset.range S.cps.length).sum fun i => (Finset.range S.cols).sum fun j =>
    (N (kf S.uKnots) S.uhi S.uDegree i u * N (kf S.vKnots) S.vhi S.vDegree j v) • S.cp i j

end Curvo.Surface

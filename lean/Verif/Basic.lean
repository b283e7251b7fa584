/-
  Faults and checked primitive operations shared by the whole model.

  The Rust code signals trouble in three ways: a `panic!` (index out of range, `usize` underflow,
  `Option::unwrap` on `None`), an `anyhow::Error`, and silently by producing `NaN`/`inf`
  (division by zero).  The model makes each of them an explicit value.
-/
namespace Curvo

/-- What can go wrong when running a modelled function. -/
inductive Fault where
  /-- index out of range, `usize` underflow, `unwrap` on `None` -/
  | panic
  /-- `Err(anyhow::Error)` -/
  | err
  /-- a floating point division by zero (`NaN` or `inf` in the Rust code) -/
  | nonfinite
  /-- the fuel of a modelled `while` loop ran out (proved unreachable where it matters) -/
  | diverge
  deriving DecidableEq, Repr

/-- Result of a modelled function. -/
abbrev Res (α : Type) := Except Fault α

/-- `xs[i]` in Rust: panics when out of range. -/
def getR {α : Type} (xs : List α) (i : Nat) : Res α :=
  match xs[i]? with
  | some a => .ok a
  | none => .error .panic

/-- `xs[i] = a` in Rust: panics when out of range. -/
def setR {α : Type} (xs : List α) (i : Nat) (a : α) : Res (List α) :=
  if i < xs.length then .ok (xs.set i a) else .error .panic

/-- `a - b` on `usize`: panics on underflow (debug build). -/
def subR (a b : Nat) : Res Nat :=
  if b ≤ a then .ok (a - b) else .error .panic

/-- `xs[a..b]` in Rust: panics when `b > len` or `a > b`. -/
def sliceR {α : Type} (xs : List α) (a b : Nat) : Res (List α) :=
  if a ≤ b ∧ b ≤ xs.length then .ok ((xs.take b).drop a) else .error .panic

/-- `a / b` on floats: a zero divisor yields a non finite number. -/
def divR {K : Type} [Zero K] [Div K] [DecidableEq K] (a b : K) : Res K :=
  if b = 0 then .error .nonfinite else .ok (a / b)

/-- `Option::unwrap`. -/
def unwrapR {α : Type} : Option α → Res α
  | some a => .ok a
  | none => .error .panic

theorem getR_eq_ok {α : Type} {xs : List α} {i : Nat} (h : i < xs.length) :
    getR xs i = .ok xs[i] := by
  simp [getR, h]

theorem getR_eq_getD {α : Type} {xs : List α} {i : Nat} (d : α) (h : i < xs.length) :
    getR xs i = .ok (xs.getD i d) := by
  simp [getR, h]

theorem getR_eq_panic {α : Type} {xs : List α} {i : Nat} (h : xs.length ≤ i) :
    getR xs i = .error .panic := by
  simp [getR, h]

theorem getR_ok_iff {α : Type} {xs : List α} {i : Nat} {a : α} :
    getR xs i = .ok a ↔ xs[i]? = some a := by
  unfold getR; split <;> simp_all

theorem setR_eq_ok {α : Type} {xs : List α} {i : Nat} {a : α} (h : i < xs.length) :
    setR xs i a = .ok (xs.set i a) := by simp [setR, h]

theorem subR_eq_ok {a b : Nat} (h : b ≤ a) : subR a b = .ok (a - b) := by simp [subR, h]

theorem divR_eq_ok {K : Type} [Zero K] [Div K] [DecidableEq K] {a b : K} (h : b ≠ 0) :
    divR a b = .ok (a / b) := by simp [divR, h]

theorem sliceR_eq_ok {α : Type} {xs : List α} {a b : Nat} (h : a ≤ b) (h' : b ≤ xs.length) :
    sliceR xs a b = .ok ((xs.take b).drop a) := by simp [sliceR, h, h']

@[simp] theorem ok_bind {α β : Type} (a : α) (f : α → Res β) :
    ((Except.ok a : Res α) >>= f) = f a := rfl

@[simp] theorem error_bind {α β : Type} (e : Fault) (f : α → Res β) :
    ((Except.error e : Res α) >>= f) = .error e := rfl

@[simp] theorem pure_eq_ok {α : Type} (a : α) : (pure a : Res α) = .ok a := rfl

end Curvo

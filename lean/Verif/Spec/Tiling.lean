/-
  Specification of subdivisions of a parameter rectangle, independent of the tessellation model.
-/
import Mathlib.Algebra.Order.Field.Basic
import Mathlib.Data.Multiset.Basic
import Mathlib.Algebra.BigOperators.Group.Multiset.Basic
import Mathlib.Tactic.Linarith
import Mathlib.Tactic.Ring
import Mathlib.Data.Fin.VecNotation

set_option linter.unusedSectionVars false

namespace Curvo.Spec

/-- A parameter rectangle `[u0, u1] × [v0, v1]`. -/
structure Rect (K : Type) where
  u0 : K
  u1 : K
  v0 : K
  v1 : K
  deriving DecidableEq

variable {K : Type} [Field K] [LinearOrder K]

namespace Rect

/-- Points of the closed rectangle. -/
def Mem (r : Rect K) (x : K × K) : Prop := r.u0 ≤ x.1 ∧ x.1 ≤ r.u1 ∧ r.v0 ≤ x.2 ∧ x.2 ≤ r.v1

/-- Points of the open rectangle. -/
def Inner (r : Rect K) (x : K × K) : Prop := r.u0 < x.1 ∧ x.1 < r.u1 ∧ r.v0 < x.2 ∧ x.2 < r.v1

/-- A rectangle with interior points. -/
def Pos (r : Rect K) : Prop := r.u0 < r.u1 ∧ r.v0 < r.v1

/-- `r` is contained in `s`. -/
def Sub (r s : Rect K) : Prop := s.u0 ≤ r.u0 ∧ r.u1 ≤ s.u1 ∧ s.v0 ≤ r.v0 ∧ r.v1 ≤ s.v1

def area (r : Rect K) : K := (r.u1 - r.u0) * (r.v1 - r.v0)

def midU (r : Rect K) : K := (r.u0 + r.u1) * (1 / 2)
def midV (r : Rect K) : K := (r.v0 + r.v1) * (1 / 2)

def lower (r : Rect K) : Rect K := { r with v1 := r.midV }
def upper (r : Rect K) : Rect K := { r with v0 := r.midV }
def left (r : Rect K) : Rect K := { r with u1 := r.midU }
def right (r : Rect K) : Rect K := { r with u0 := r.midU }

/-- The corners, counterclockwise from the lower left one. -/
def corner (r : Rect K) : Fin 4 → K × K := ![(r.u0, r.v0), (r.u1, r.v0), (r.u1, r.v1), (r.u0, r.v1)]

/-- The line of an edge (edge `e` runs from corner `e` to corner `e + 1`): its fixed coordinate. -/
def line (r : Rect K) : Fin 4 → K := ![r.v0, r.u1, r.v1, r.u0]

/-- The range of the running coordinate of an edge. -/
def lo (r : Rect K) : Fin 4 → K := ![r.u0, r.v0, r.u0, r.v0]
def hi (r : Rect K) : Fin 4 → K := ![r.u1, r.v1, r.u1, r.v1]

/-- The fixed and the running coordinate of a point with respect to an edge. -/
def across (e : Fin 4) (x : K × K) : K := (![x.2, x.1, x.2, x.1] : Fin 4 → K) e
def along (e : Fin 4) (x : K × K) : K := (![x.1, x.2, x.1, x.2] : Fin 4 → K) e

/-- Edge `e` of `r` is a part of the opposite edge of `s`. -/
def EdgeIn (e : Fin 4) (r s : Rect K) : Prop := s.line (e + 2) = r.line e ∧ s.lo e ≤ r.lo e ∧ r.hi e ≤ s.hi e

end Rect

/-- The rectangles `l` tile `r`: they lie in `r`, cover it and do not overlap. -/
structure Tiles (r : Rect K) (l : List (Rect K)) : Prop where
  pos : ∀ s ∈ l, s.Pos
  sub : ∀ s ∈ l, s.Sub r
  cover : ∀ x, r.Mem x → ∃ s ∈ l, s.Mem x
  disjoint : l.Pairwise fun s t => ∀ x, ¬ (s.Inner x ∧ t.Inner x)

/-- `l` results from the rectangle `r` at depth `d` by halving, each resulting rectangle having a depth between `lo` and
    `hi`. -/
inductive Halvings (lo hi : ℕ) : ℕ → Rect K → List (Rect K) → Prop
  | stop {d : ℕ} {r : Rect K} : lo ≤ d → d ≤ hi → Halvings lo hi d r [r]
  | cutV {d : ℕ} {r : Rect K} {a b : List (Rect K)} : Halvings lo hi (d + 1) r.lower a → Halvings lo hi (d + 1) r.upper b →
      Halvings lo hi d r (a ++ b)
  | cutU {d : ℕ} {r : Rect K} {a b : List (Rect K)} : Halvings lo hi (d + 1) r.left a → Halvings lo hi (d + 1) r.right b →
      Halvings lo hi d r (a ++ b)

variable [IsStrictOrderedRing K]

theorem Rect.mid_lt {r : Rect K} (h : r.Pos) : r.u0 < r.midU ∧ r.midU < r.u1 ∧ r.v0 < r.midV ∧ r.midV < r.v1 := by
  obtain ⟨h1, h2⟩ := h
  unfold Rect.midU Rect.midV
  refine ⟨?_, ?_, ?_, ?_⟩ <;> linarith

theorem Tiles.perm {r : Rect K} {l l' : List (Rect K)} (h : Tiles r l) (p : l.Perm l') : Tiles r l' where
  pos := fun s hs => h.pos s (p.mem_iff.2 hs)
  sub := fun s hs => h.sub s (p.mem_iff.2 hs)
  cover := fun x hx => by
    obtain ⟨s, hs, hm⟩ := h.cover x hx
    exact ⟨s, p.mem_iff.1 hs, hm⟩
  disjoint := (p.pairwise_iff (fun {s t} hst x hx => hst x hx.symm)).1 h.disjoint

theorem Rect.Inner.mono {r s : Rect K} {x : K × K} (h : r.Inner x) (hs : r.Sub s) : s.Inner x := by
  obtain ⟨a, b, c, d⟩ := h
  obtain ⟨a', b', c', d'⟩ := hs
  exact ⟨lt_of_le_of_lt a' a, lt_of_lt_of_le b b', lt_of_le_of_lt c' c, lt_of_lt_of_le d d'⟩

theorem Rect.Sub.trans {r s t : Rect K} (h : r.Sub s) (h' : s.Sub t) : r.Sub t := by
  obtain ⟨a, b, c, d⟩ := h
  obtain ⟨a', b', c', d'⟩ := h'
  exact ⟨a'.trans a, b.trans b', c'.trans c, d.trans d'⟩

/-- Tilings of non overlapping parts combine. -/
theorem Tiles.append {r s t : Rect K} {a b : List (Rect K)} (ha : Tiles s a) (hb : Tiles t b)
    (hs : s.Sub r) (ht : t.Sub r) (hc : ∀ x, r.Mem x → s.Mem x ∨ t.Mem x) (hd : ∀ x, ¬ (s.Inner x ∧ t.Inner x)) :
    Tiles r (a ++ b) where
  pos := fun x hx => (List.mem_append.1 hx).elim (ha.pos x) (hb.pos x)
  sub := fun x hx => (List.mem_append.1 hx).elim (fun h => (ha.sub x h).trans hs) (fun h => (hb.sub x h).trans ht)
  cover := fun x hx => by
    rcases hc x hx with h | h
    · obtain ⟨y, hy, hm⟩ := ha.cover x h
      exact ⟨y, List.mem_append_left _ hy, hm⟩
    · obtain ⟨y, hy, hm⟩ := hb.cover x h
      exact ⟨y, List.mem_append_right _ hy, hm⟩
  disjoint := by
    rw [List.pairwise_append]
    refine ⟨ha.disjoint, hb.disjoint, ?_⟩
    intro x hx y hy z hz
    exact hd z ⟨hz.1.mono (ha.sub x hx), hz.2.mono (hb.sub y hy)⟩

theorem Halvings.tiles {lo hi d : ℕ} {r : Rect K} {l : List (Rect K)} (h : Halvings lo hi d r l) (hp : r.Pos) :
    Tiles r l := by
  induction h with
  | stop _ _ =>
    refine ⟨by simpa using hp, ?_, ?_, by simp⟩
    · intro s hs
      rw [List.mem_singleton.1 hs]
      exact ⟨le_refl _, le_refl _, le_refl _, le_refl _⟩
    · intro x hx
      exact ⟨_, List.mem_singleton.2 rfl, hx⟩
  | @cutV d r a b _ _ iha ihb =>
    obtain ⟨-, -, h1, h2⟩ := Rect.mid_lt hp
    refine (iha ⟨hp.1, h1⟩).append (ihb ⟨hp.1, h2⟩) ⟨le_refl _, le_refl _, le_refl _, h2.le⟩
      ⟨le_refl _, le_refl _, h1.le, le_refl _⟩ ?_ ?_
    · rintro x ⟨a1, a2, a3, a4⟩
      rcases le_total x.2 r.midV with h | h
      · exact .inl ⟨a1, a2, a3, h⟩
      · exact .inr ⟨a1, a2, h, a4⟩
    · rintro x ⟨⟨-, -, -, h⟩, -, -, h', -⟩
      exact lt_asymm h h'
  | @cutU d r a b _ _ iha ihb =>
    obtain ⟨h1, h2, -, -⟩ := Rect.mid_lt hp
    refine (iha ⟨h1, hp.2⟩).append (ihb ⟨h2, hp.2⟩) ⟨le_refl _, h2.le, le_refl _, le_refl _⟩
      ⟨h1.le, le_refl _, le_refl _, le_refl _⟩ ?_ ?_
    · rintro x ⟨a1, a2, a3, a4⟩
      rcases le_total x.1 r.midU with h | h
      · exact .inl ⟨a1, h, a3, a4⟩
      · exact .inr ⟨h, a2, a3, a4⟩
    · rintro x ⟨⟨-, h, -, -⟩, h', -, -, -⟩
      exact lt_asymm h h'

theorem Halvings.depth_le {lo hi d : ℕ} {r : Rect K} {l : List (Rect K)} (h : Halvings lo hi d r l) : d ≤ hi := by
  induction h <;> omega

theorem Halvings.length_le {lo hi d : ℕ} {r : Rect K} {l : List (Rect K)} (h : Halvings lo hi d r l) :
    1 ≤ l.length ∧ l.length ≤ 2 ^ (hi - d) := by
  induction h with
  | stop _ _ => exact ⟨le_refl _, Nat.one_le_two_pow⟩
  | @cutV d r a b h _ iha ihb =>
    have := h.depth_le
    have e : hi - d = hi - (d + 1) + 1 := by omega
    rw [e, pow_succ, List.length_append]
    omega
  | @cutU d r a b h _ iha ihb =>
    have := h.depth_le
    have e : hi - d = hi - (d + 1) + 1 := by omega
    rw [e, pow_succ, List.length_append]
    omega

/-- The area of a result of `k` halvings is `1 / 2^k` of the area of the rectangle, `lo ≤ d + k ≤ hi`. -/
theorem Halvings.area {lo hi d : ℕ} {r : Rect K} {l : List (Rect K)} (h : Halvings lo hi d r l) :
    ∀ s ∈ l, ∃ k, lo ≤ d + k ∧ d + k ≤ hi ∧ s.area * 2 ^ k = r.area := by
  induction h with
  | @stop d r h1 h2 =>
    intro s hs
    rw [List.mem_singleton.1 hs]
    exact ⟨0, h1, h2, by rw [pow_zero, mul_one]⟩
  | @cutV d r a b _ _ iha ihb =>
    intro s hs
    have key : ∀ t : Rect K, t.area * 2 = r.area → (∃ k, lo ≤ d + 1 + k ∧ d + 1 + k ≤ hi ∧ s.area * 2 ^ k = t.area) →
        ∃ k, lo ≤ d + k ∧ d + k ≤ hi ∧ s.area * 2 ^ k = r.area := by
      rintro t ht ⟨k, h1, h2, h3⟩
      exact ⟨k + 1, by omega, by omega, by rw [pow_succ, ← mul_assoc, h3, ht]⟩
    rcases List.mem_append.1 hs with h | h
    · exact key _ (by simp only [Rect.area, Rect.lower, Rect.midV]; ring) (iha s h)
    · exact key _ (by simp only [Rect.area, Rect.upper, Rect.midV]; ring) (ihb s h)
  | @cutU d r a b _ _ iha ihb =>
    intro s hs
    have key : ∀ t : Rect K, t.area * 2 = r.area → (∃ k, lo ≤ d + 1 + k ∧ d + 1 + k ≤ hi ∧ s.area * 2 ^ k = t.area) →
        ∃ k, lo ≤ d + k ∧ d + k ≤ hi ∧ s.area * 2 ^ k = r.area := by
      rintro t ht ⟨k, h1, h2, h3⟩
      exact ⟨k + 1, by omega, by omega, by rw [pow_succ, ← mul_assoc, h3, ht]⟩
    rcases List.mem_append.1 hs with h | h
    · exact key _ (by simp only [Rect.area, Rect.left, Rect.midU]; ring) (iha s h)
    · exact key _ (by simp only [Rect.area, Rect.right, Rect.midU]; ring) (ihb s h)

end Curvo.Spec

/-
  C56: regions read from sequences.
-/
import Verif.Props.Serde

set_option linter.unusedSectionVars false

namespace Curvo.Props

open Curvo Curvo.Serde

variable {L C : Type} {cc : Codec L C}

/-- **C56** The derived reader of a region also takes a sequence: of exactly two values, the exterior first and the interiors
    second. -/
theorem C56_region_positional {ds : List (Doc L)} {r : Boolean.Region C} :
    (regionCodec cc).dec (.seq ds) = .ok r ↔
      ∃ a b, ds = [a, b] ∧ cc.dec a = .ok r.exterior ∧ cc.list.dec b = .ok r.interiors := by
  match ds with
  | [] => simp [regionCodec]
  | [a] => simp [regionCodec]
  | [a, b] =>
    simp only [regionCodec]
    rw [bind_eq_ok]
    constructor
    · rintro ⟨x, hx, h⟩
      obtain ⟨y, hy, h⟩ := bind_eq_ok.1 h
      have h : ({ exterior := x, interiors := y } : Boolean.Region C) = r := Except.ok.inj h
      subst h
      exact ⟨a, b, rfl, hx, hy⟩
    · rintro ⟨a', b', he, hx, hy⟩
      simp only [List.cons.injEq, and_true] at he
      obtain ⟨rfl, rfl⟩ := he
      exact ⟨_, hx, bind_eq_ok.2 ⟨_, hy, rfl⟩⟩
  | a :: b :: e :: t => simp [regionCodec]

/-- Nothing but maps and sequences is read as a region. -/
theorem C56_region_kinds {d : Doc L} {r : Boolean.Region C} (h : (regionCodec cc).dec d = .ok r) :
    (∃ es, d = .map es) ∨ ∃ ds, d = .seq ds := by
  cases d with
  | null => simp [regionCodec] at h
  | leaf a => simp [regionCodec] at h
  | seq ds => exact Or.inr ⟨_, rfl⟩
  | map es => exact Or.inl ⟨_, rfl⟩

/-- Witness: a region with one hole; its two values in the other order are refused. -/
example : (regionCodec sizeCodec).dec (.seq [.leaf 4, .seq [.leaf 7]]) = .ok { exterior := 4, interiors := [7] } ∧
    ∀ r, (regionCodec sizeCodec).dec (.seq [.seq [.leaf 7], .leaf 4]) ≠ .ok r := by
  refine ⟨C56_region_positional.2 ⟨_, _, rfl, rfl, rfl⟩, fun r h => ?_⟩
  obtain ⟨a, b, he, ha, -⟩ := C56_region_positional.1 h
  simp only [List.cons.injEq, and_true] at he
  obtain ⟨rfl, rfl⟩ := he
  simp [sizeCodec] at ha

end Curvo.Props

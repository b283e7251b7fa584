/-
  C38, C40, C41: boolean operations without crossing boundaries, distribution of holes, and operations on
  regions.
-/
import Mathlib.Data.Set.Lattice
import Verif.Lemmas.Res
import Verif.Model.Boolean

set_option linter.unusedSectionVars false

namespace Curvo.Props

open Curvo.Boolean

variable {C P : Type}

/-! ### C40: distribution of holes -/

/-- The answer of a containment test, `false` for an error. -/
def answer (x : Res Bool) : Bool := match x with
  | .ok b => b
  | .error _ => false

theorem distributeTo_spec {contains : C → P → Res Bool} {first : C → P} : ∀ {i : ℕ} {r r' : Region C} {its its' : List C},
    i ≤ its.length → distributeTo contains first i r its = .ok (r', its') →
      (∀ h ∈ its.take i, ∃ b, contains r.exterior (first h) = .ok b) ∧
      r' = ⟨r.exterior, r.interiors ++ ((its.take i).filter fun h => answer (contains r.exterior (first h))).reverse⟩ ∧
      its' = ((its.take i).filter fun h => !answer (contains r.exterior (first h))) ++ its.drop i
  | 0, r, r', its, its', _, h => by
    obtain ⟨rfl, rfl⟩ := Prod.mk.inj (Except.ok.inj h)
    simp
  | i + 1, r, r', its, its', hi, h => by
    rw [distributeTo] at h
    obtain ⟨it, hit, h⟩ := bind_eq_ok.1 h
    obtain ⟨hil, rfl⟩ := List.getElem?_eq_some_iff.1 (getR_ok_iff.1 hit)
    obtain ⟨b, hb, h⟩ := bind_eq_ok.1 h
    have htake : its.take (i + 1) = its.take i ++ [its[i]] := by
      rw [List.take_succ_eq_append_getElem hil]
    have hdrop : its.drop i = its[i] :: its.drop (i + 1) := List.drop_eq_getElem_cons hil
    cases b with
    | true =>
      rw [if_pos rfl] at h
      obtain ⟨h1, h2, h3⟩ := distributeTo_spec (i := i) (its := its.eraseIdx i)
        (by rw [List.length_eraseIdx_of_lt hil]; omega) h
      have e1 : (its.eraseIdx i).take i = its.take i := List.take_eraseIdx_eq_take_of_le _ _ _ (le_refl _)
      have e2 : (its.eraseIdx i).drop i = its.drop (i + 1) := by
        rw [List.eraseIdx_eq_take_drop_succ, List.drop_append]
        simp [hil.le]
      rw [e1] at h1 h2 h3
      rw [e2] at h3
      refine ⟨?_, ?_, ?_⟩
      · intro x hx
        rw [htake] at hx
        rcases List.mem_append.1 hx with hx | hx
        · exact h1 x hx
        · rw [List.mem_singleton.1 hx]; exact ⟨_, hb⟩
      · rw [h2, htake, List.filter_append, List.reverse_append]
        simp [hb, answer]
      · rw [h3, htake, List.filter_append]
        simp [hb, answer]
    | false =>
      rw [if_neg (by decide)] at h
      obtain ⟨h1, h2, h3⟩ := distributeTo_spec (i := i) (its := its) (by omega) h
      refine ⟨?_, ?_, ?_⟩
      · intro x hx
        rw [htake] at hx
        rcases List.mem_append.1 hx with hx | hx
        · exact h1 x hx
        · rw [List.mem_singleton.1 hx]; exact ⟨_, hb⟩
      · rw [h2, htake, List.filter_append]
        simp [hb, answer]
      · rw [h3, htake, List.filter_append, hdrop]
        simp [hb, answer]

/-- How the holes `its` are dealt out to the regions `rs`, giving `rs'` and leaving `left`: every region keeps
    its exterior and its holes and gets exactly the holes it contains and no earlier region contains, in
    reverse order. -/
inductive Dealt (has : Region C → C → Bool) : List (Region C) → List C → List (Region C) → List C → Prop
  | nil (its) : Dealt has [] its [] its
  | cons {r rs its rs' left} (h : Dealt has rs (its.filter fun h => !has r h) rs' left) :
    Dealt has (r :: rs) its (⟨r.exterior, r.interiors ++ (its.filter fun h => has r h).reverse⟩ :: rs') left

theorem C40_dealt {contains : C → P → Res Bool} {first : C → P} : ∀ {rs rs' : List (Region C)} {its left : List C},
    distribute contains first rs its = .ok (rs', left) →
      Dealt (fun r h => answer (contains r.exterior (first h))) rs its rs' left
  | [], rs', its, left, h => by
    obtain ⟨rfl, rfl⟩ := Prod.mk.inj (Except.ok.inj h)
    exact .nil _
  | r :: rs, rs', its, left, h => by
    rw [distribute] at h
    obtain ⟨⟨r1, its1⟩, h1, h⟩ := bind_eq_ok.1 h
    obtain ⟨⟨rs1, left1⟩, h2, h⟩ := bind_eq_ok.1 h
    obtain ⟨rfl, rfl⟩ := Prod.mk.inj (Except.ok.inj h)
    obtain ⟨-, rfl, rfl⟩ := distributeTo_spec (le_refl _) h1
    simp only [List.take_length, List.drop_length, List.append_nil] at h2 ⊢
    exact .cons (C40_dealt h2)

/-- Holes in the regions and undistributed ones together: nothing is lost or duplicated. -/
theorem C40_permutation {has : Region C → C → Bool} {rs rs' : List (Region C)} {its left : List C}
    (h : Dealt has rs its rs' left) :
    ((rs'.map (·.interiors)).flatten ++ left).Perm ((rs.map (·.interiors)).flatten ++ its) := by
  induction h with
  | nil its => exact List.Perm.refl _
  | @cons r rs its rs' left h ih =>
    simp only [List.map_cons, List.flatten_cons, List.append_assoc]
    refine List.Perm.append_left _ ?_
    refine ((List.reverse_perm _).append_right _).trans ?_
    refine (List.Perm.append_left _ ih).trans ?_
    rw [← List.append_assoc]
    refine (List.perm_append_comm.append_right _).trans ?_
    rw [List.append_assoc]
    exact List.Perm.append_left _ (List.filter_append_perm _ _)

/-- Exteriors and their order stay; a region only gains holes; the holes left over are in no region; a hole
    gained by a region is contained in it and in none of the regions before it. -/
theorem C40_first_region {has : Region C → C → Bool} {rs rs' : List (Region C)} {its left : List C}
    (h : Dealt has rs its rs' left) :
    rs'.map (·.exterior) = rs.map (·.exterior) ∧
    (∀ x, x ∈ left ↔ x ∈ its ∧ ∀ r ∈ rs, has r x = false) ∧
    ∃ gained : List (List C), rs' = List.zipWith (fun r g => ⟨r.exterior, r.interiors ++ g⟩) rs gained ∧
      gained.length = rs.length ∧
      ∀ k (hk : k < rs.length) x, x ∈ gained.getD k [] ↔
        x ∈ its ∧ has rs[k] x = true ∧ ∀ j (hj : j < k), has (rs[j]'(by omega)) x = false := by
  induction h with
  | nil its => exact ⟨rfl, by simp, [], rfl, rfl, fun k hk => absurd hk (by simp)⟩
  | @cons r rs its rs' left h ih =>
    obtain ⟨h1, h2, gained, h3, h4, h5⟩ := ih
    refine ⟨by simp [h1], ?_, (its.filter fun h => has r h).reverse :: gained, by simp [h3], by simp [h4], ?_⟩
    · intro x
      rw [h2]
      simp only [List.mem_filter, List.mem_cons, forall_eq_or_imp, Bool.not_eq_true']
      tauto
    · intro k hk x
      cases k with
      | zero => simp
      | succ k =>
        have := h5 k (by simpa using hk) x
        simp only [List.getD_cons_succ, List.getElem_cons_succ]
        rw [this]
        simp only [List.mem_filter, Bool.not_eq_true']
        constructor
        · rintro ⟨⟨a, b⟩, c, d⟩
          refine ⟨a, c, fun j hj => ?_⟩
          cases j with
          | zero => exact b
          | succ j => exact d j (by omega)
        · rintro ⟨a, b, c⟩
          exact ⟨⟨a, c 0 (by omega)⟩, b, fun j hj => c (j + 1) (by omega)⟩

/-- Without an error in the tests the distribution succeeds. -/
theorem C40_succeeds {contains : C → P → Res Bool} {first : C → P} (hc : ∀ c p, ∃ b, contains c p = .ok b) :
    ∀ (rs : List (Region C)) (its : List C), ∃ x, distribute contains first rs its = .ok x
  | [], its => ⟨_, rfl⟩
  | r :: rs, its => by
    have hto : ∀ (i : ℕ) (r : Region C) (its : List C), i ≤ its.length →
        ∃ x, distributeTo contains first i r its = .ok x := by
      intro i
      induction i with
      | zero => intro r its _; exact ⟨_, rfl⟩
      | succ i ih =>
        intro r its hi
        rw [distributeTo, getR_eq_ok (by omega), ok_bind]
        obtain ⟨b, hb⟩ := hc r.exterior (first its[i])
        rw [hb, ok_bind]
        cases b with
        | true => rw [if_pos rfl]; exact ih _ _ (by rw [List.length_eraseIdx_of_lt (by omega)]; omega)
        | false => rw [if_neg (by decide)]; exact ih _ _ (by omega)
    obtain ⟨⟨r1, its1⟩, h1⟩ := hto its.length r its (le_refl _)
    obtain ⟨⟨rs1, l1⟩, h2⟩ := C40_succeeds hc rs its1
    refine ⟨(r1 :: rs1, l1), ?_⟩
    rw [distribute, h1, ok_bind]
    simp only
    rw [h2]; rfl

/-- Three intervals as regions, holes with first points in some of them. -/
example : distribute (P := ℕ) (fun (c : ℕ × ℕ) p => .ok (decide (c.1 ≤ p ∧ p ≤ c.2))) (·.1)
    [⟨(0, 9), []⟩, ⟨(5, 19), [(12, 13)]⟩] [(6, 7), (30, 31), (15, 16), (2, 3)] =
    .ok ([⟨(0, 9), [(2, 3), (6, 7)]⟩, ⟨(5, 19), [(12, 13), (15, 16)]⟩], [(30, 31)]) := rfl

end Curvo.Props

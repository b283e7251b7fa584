/-
  Lists and matrices given by functions, and loop invariants in `Res`.
-/
import Mathlib.Tactic.Ring
import Verif.Lemmas.Res
import Verif.Model.Deriv

namespace Curvo

/-- The list `f 0, …, f (n-1)`. -/
def vec {α : Type} (n : ℕ) (f : ℕ → α) : List α := (List.range n).map f

/-- The `n × m` matrix with entries `f i j`. -/
def mat {α : Type} (n m : ℕ) (f : ℕ → ℕ → α) : List (List α) := vec n fun i => vec m (f i)

def updF {α : Type} (f : ℕ → α) (i : ℕ) (v : α) : ℕ → α := fun a => if a = i then v else f a
def updF2 {α : Type} (f : ℕ → ℕ → α) (i j : ℕ) (v : α) : ℕ → ℕ → α := fun a b => if a = i ∧ b = j then v else f a b

variable {α : Type}

@[simp] theorem vec_length (n : ℕ) (f : ℕ → α) : (vec n f).length = n := by simp [vec]

theorem vec_congr {n : ℕ} {f g : ℕ → α} (h : ∀ i, i < n → f i = g i) : vec n f = vec n g :=
  List.map_congr_left fun i hi => h i (List.mem_range.1 hi)

theorem mat_congr {n m : ℕ} {f g : ℕ → ℕ → α} (h : ∀ i j, i < n → j < m → f i j = g i j) : mat n m f = mat n m g :=
  vec_congr fun i hi => vec_congr fun j hj => h i j hi hj

theorem vec_replicate (n : ℕ) (a : α) : List.replicate n a = vec n fun _ => a := by
  rw [vec, List.map_const', List.length_range]

theorem mat_replicate (n m : ℕ) (a : α) : List.replicate n (List.replicate m a) = mat n m fun _ _ => a := by
  rw [vec_replicate m, vec_replicate n]; rfl

theorem vec_of_list [Inhabited α] (l : List α) (d : α) : l = vec l.length fun i => l.getD i d := by
  apply List.ext_getElem
  · simp
  · intro i h1 h2; simp [vec, List.getD_eq_getElem?_getD, h1]

theorem getR_vec {n i : ℕ} {f : ℕ → α} (h : i < n) : getR (vec n f) i = .ok (f i) := by
  rw [getR_ok_iff, vec, List.getElem?_map, List.getElem?_range h]; rfl

theorem setR_vec {n i : ℕ} {f : ℕ → α} {v : α} (h : i < n) : setR (vec n f) i v = .ok (vec n (updF f i v)) := by
  rw [setR_eq_ok (by simpa using h)]
  congr 1
  apply List.ext_getElem
  · simp
  · intro a h1 h2
    simp only [vec, updF, List.getElem_set, List.getElem_map, List.getElem_range]
    by_cases ha : i = a
    · subst ha; simp
    · rw [if_neg ha, if_neg (Ne.symm ha)]

theorem get2R_mat {n m i j : ℕ} {f : ℕ → ℕ → α} (h : i < n) (h' : j < m) : get2R (mat n m f) i j = .ok (f i j) := by
  rw [get2R, mat, getR_vec h, ok_bind, getR_vec h']

theorem set2R_mat {n m i j : ℕ} {f : ℕ → ℕ → α} {v : α} (h : i < n) (h' : j < m) :
    set2R (mat n m f) i j v = .ok (mat n m (updF2 f i j v)) := by
  rw [set2R, mat, getR_vec h, ok_bind, setR_vec h', ok_bind, setR_vec h]
  congr 1
  apply vec_congr
  intro a _
  unfold updF updF2
  by_cases ha : a = i
  · subst ha; simp
  · simp [ha]

/-- A loop with an invariant. -/
theorem foldlM_inv {σ β : Type} {f : σ → β → Res σ} {g : ℕ → β} {P : ℕ → σ → Prop} {n : ℕ} {s : σ} (h0 : P 0 s)
    (hstep : ∀ t, t < n → ∀ s, P t s → ∃ s', f s (g t) = .ok s' ∧ P (t + 1) s') :
    ∃ s', ((List.range n).map g).foldlM f s = .ok s' ∧ P n s' := by
  induction n with
  | zero => exact ⟨s, rfl, h0⟩
  | succ n ih =>
    obtain ⟨s1, e1, p1⟩ := ih fun t ht => hstep t (by omega)
    obtain ⟨s2, e2, p2⟩ := hstep n (by omega) s1 p1
    refine ⟨s2, ?_, p2⟩
    rw [List.range_succ, List.map_append, List.foldlM_append, e1, ok_bind, List.map_cons, List.map_nil,
      List.foldlM_cons, e2, ok_bind]
    rfl

theorem foldlM_range_inv {σ : Type} {f : σ → ℕ → Res σ} {P : ℕ → σ → Prop} {n : ℕ} {s : σ} (h0 : P 0 s)
    (hstep : ∀ t, t < n → ∀ s, P t s → ∃ s', f s t = .ok s' ∧ P (t + 1) s') :
    ∃ s', (List.range n).foldlM f s = .ok s' ∧ P n s' := by
  have := foldlM_inv (f := f) (g := id) h0 hstep
  rwa [List.map_id] at this

theorem asUsize_nat (n : ℕ) : asUsize (n : ℤ) = .ok n := by simp [asUsize]

theorem asUsize_eq {x : ℤ} {n : ℕ} (h : x = n) : asUsize x = .ok n := by rw [h, asUsize_nat]

theorem intRange_nat (a b : ℕ) : intRange a b = (List.range (b + 1 - a)).map fun t => ((a + t : ℕ) : ℤ) := by
  unfold intRange
  rw [show ((b : ℤ) + 1 - a).toNat = b + 1 - a by omega]
  apply List.map_congr_left
  intro t _
  push_cast; ring

theorem intRange_empty {a b : ℤ} (h : b < a) : intRange a b = [] := by
  unfold intRange
  rw [show (b + 1 - a).toNat = 0 by omega]
  rfl

end Curvo

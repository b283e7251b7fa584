/-
  C35: interpolated curves pass through the data.
-/
import Mathlib.Data.List.GetD
import Verif.Lemmas.Mat
import Verif.Lemmas.Unify
import Verif.Props.Curve2
import Verif.Props.Curve3
import Verif.Model.Interp

set_option linter.unusedSectionVars false

namespace Curvo.Props

open Curvo.Knots Curvo.Spec Curvo.Curve Curvo.Interp

variable {K : Type} [Field K] [LinearOrder K]
variable {W : Type} [AddCommGroup W] [Module K W]

/-! ### What is assumed about the linear solver, and what is claimed -/

/-- `x` solves the square system `A x = b`. -/
def Solves (A : List (List K)) (b x : List W) : Prop :=
  x.length = b.length ∧
  ∀ i, i < b.length → ((Finset.range b.length).sum fun j => (A.getD i []).getD j 0 • x.getD j 0) = b.getD i 0

/-- The solver only answers with solutions of the square systems it is given. -/
def SolverSound (solve : List (List K) → List W → Option (List W)) : Prop :=
  ∀ A b x, A.length = b.length → (∀ row ∈ A, row.length = b.length) → solve A b = some x → Solves A b x

/-- Chord length parameter of the `i`-th point. -/
def chordParam (dist : W → W → K) (pts : List W) (i : ℕ) : K :=
  chordLength dist pts i / chordLength dist pts (pts.length - 1)

/-! ### Basis rows -/

theorem basisInner_ok {ks : List K} {s : ℕ} {u : K} {j : ℕ} : ∀ {bs : List K} {r : ℕ} {saved : K} {out : List K},
    basisInner ks s u j r saved bs = .ok out → out.length = bs.length + 1 ∧ out.sum = saved + bs.sum
  | [], r, saved, out, h => by
    rw [basisInner] at h
    obtain rfl := Except.ok.inj h
    simp
  | b :: bs, r, saved, out, h => by
    rw [basisInner] at h
    obtain ⟨rr, _, h⟩ := bind_eq_ok.1 h
    obtain ⟨ll, _, h⟩ := bind_eq_ok.1 h
    obtain ⟨t, ht, h⟩ := bind_eq_ok.1 h
    obtain ⟨rest, hr, h⟩ := bind_eq_ok.1 h
    obtain rfl := Except.ok.inj h
    obtain ⟨e1, e2⟩ := basisInner_ok hr
    refine ⟨by simp [e1], ?_⟩
    rw [divR] at ht
    split at ht
    · cases ht
    · rename_i hne
      obtain rfl := Except.ok.inj ht
      rw [List.sum_cons, e2, List.sum_cons]
      field_simp
      ring

theorem basisFunctions_ok {ks : List K} {s : ℕ} {u : K} : ∀ {p : ℕ} {b : List K},
    basisFunctions ks s u p = .ok b → b.length = p + 1 ∧ b.sum = 1
  | 0, b, h => by
    rw [basisFunctions] at h
    obtain rfl := Except.ok.inj h
    simp
  | p + 1, b, h => by
    rw [basisFunctions] at h
    obtain ⟨row, h1, h⟩ := bind_eq_ok.1 h
    obtain ⟨_, _, h⟩ := bind_eq_ok.1 h
    obtain ⟨_, _, h⟩ := bind_eq_ok.1 h
    obtain ⟨e1, e2⟩ := basisFunctions_ok h1
    obtain ⟨e3, e4⟩ := basisInner_ok h
    exact ⟨by omega, by rw [e4, e2, zero_add]⟩

theorem list_eq_range_map (b : List K) {n : ℕ} (h : b.length = n) : b = (List.range n).map fun r => b.getD r 0 := by
  apply List.ext_getElem
  · simp [h]
  · intro i h1 h2
    simp [List.getD_eq_getElem?_getD, List.getElem?_eq_getElem h1]

theorem list_sum_eq (b : List K) {n : ℕ} (h : b.length = n) : b.sum = (Finset.range n).sum fun r => b.getD r 0 := by
  conv_lhs => rw [list_eq_range_map b h]
  rfl

/-- Evaluation of a curve with unit weights where span search and basis succeed. -/
theorem pointAt_of_basis {eps : K} {p s n : ℕ} {x : List W} {ks : List K} {u : K} {b : List K}
    (hl : ks.length = x.length + p + 1) (hx : x.length = n + 1)
    (hs : findKnotSpanIndex eps ks n p u = .ok s) (hb : basisFunctions ks s u p = .ok b) (hps : p ≤ s)
    (hsn : s ≤ n) :
    Curve.pointAt eps (⟨p, x.map homogenize, ks⟩ : Curve K (W × K)) u =
      .ok ((Finset.range (p + 1)).sum fun r => b.getD r 0 • x.getD (s - p + r) 0) := by
  obtain ⟨bl, bs⟩ := basisFunctions_ok hb
  have e0 : (Curve.lastIndex (⟨p, x.map homogenize, ks⟩ : Curve K (W × K))) = .ok n := by
    rw [Curve.lastIndex]
    simp only
    rw [subR_eq_ok (by omega), ok_bind, subR_eq_ok (by omega)]
    congr 1; omega
  rw [pointAt, point, e0, ok_bind]
  simp only
  rw [hs, ok_bind, hb, ok_bind, subR_eq_ok hps, ok_bind, list_eq_range_map b bl,
    sumPoints_eq (by simp; omega), ok_bind]
  have e1 : ((Finset.range (p + 1)).sum fun r => b.getD r 0 • (x.map (homogenize (K := K))).getD (s - p + r) 0) =
      ((Finset.range (p + 1)).sum fun r => b.getD r 0 • x.getD (s - p + r) 0, (1 : K)) := by
    apply Prod.ext
    · rw [Prod.fst_sum]
      apply Finset.sum_congr rfl
      intro r hr
      have := Finset.mem_range.1 hr
      simp [List.getD_eq_getElem?_getD, List.getElem?_eq_getElem (show s - p + r < x.length by omega), homogenize]
    · rw [Prod.snd_sum]
      rw [← bs, list_sum_eq b bl]
      apply Finset.sum_congr rfl
      intro r hr
      have := Finset.mem_range.1 hr
      simp [List.getD_eq_getElem?_getD, List.getElem?_eq_getElem (show s - p + r < x.length by omega), homogenize]
  rw [e1, dehomogenize]
  simp [unwrapR]
  apply Finset.sum_congr rfl
  intro r hr
  simp [List.getElem?_range (Finset.mem_range.1 hr)]

/-- A basis row padded with zeros, against a column of points. -/
theorem padded_row_sum (b : List K) (x : ℕ → W) {ls le p N : ℕ} (hb : b.length = p + 1) (hN : ls + (p + 1) + le = N) :
    ((Finset.range N).sum fun j => (List.replicate ls 0 ++ b ++ List.replicate le 0).getD j 0 • x j) =
      (Finset.range (p + 1)).sum fun r => b.getD r 0 • x (ls + r) := by
  subst hN
  rw [Finset.sum_range_add, Finset.sum_range_add]
  have e1 : ((Finset.range ls).sum fun j => (List.replicate ls 0 ++ b ++ List.replicate le 0).getD j 0 • x j) = 0 := by
    apply Finset.sum_eq_zero
    intro j hj
    have hj' := Finset.mem_range.1 hj
    rw [List.getD_append _ _ _ _ (by simp; omega), List.getD_append _ _ _ _ (by simpa using hj')]
    simp [List.getD_eq_getElem?_getD, List.getElem?_replicate, hj']
  have e3 : ((Finset.range le).sum fun j =>
      (List.replicate ls 0 ++ b ++ List.replicate le 0).getD (ls + (p + 1) + j) 0 • x (ls + (p + 1) + j)) = 0 := by
    apply Finset.sum_eq_zero
    intro j hj
    have hj' := Finset.mem_range.1 hj
    rw [List.getD_append_right _ _ _ _ (by simp; omega)]
    simp [List.getD_eq_getElem?_getD, List.getElem?_replicate, hb]
    rw [if_pos (by omega)]; simp
  rw [e1, e3, zero_add, add_zero]
  apply Finset.sum_congr rfl
  intro r hr
  have hr' := Finset.mem_range.1 hr
  rw [List.getD_append _ _ _ _ (by simp; omega), List.getD_append_right _ _ _ _ (by simp)]
  simp

/-! ### The assembled system -/

theorem chords_length (dist : W → W → K) {pts : List W} (h : 0 < pts.length) : (chords dist pts).length = pts.length := by
  rw [chords, List.length_cons, chordGo_length]; omega

theorem chords_get (dist : W → W → K) {pts : List W} {i : ℕ} (h : i < pts.length) :
    (chords dist pts)[i]? = some (chordLength dist pts i) := by
  cases i with
  | zero => simp [chords, chordLength]
  | succ i => rw [chords, List.getElem?_cons_succ, chordGo_getElem? dist pts 0 i h, zero_add]

theorem chords_eq (dist : W → W → K) {pts : List W} (h : 0 < pts.length) :
    chords dist pts = (List.range pts.length).map (chordLength dist pts) := by
  apply List.ext_getElem?
  intro i
  by_cases hi : i < pts.length
  · rw [chords_get dist hi, List.getElem?_map, List.getElem?_range hi]; rfl
  · rw [List.getElem?_eq_none (by rw [chords_length dist h]; omega), List.getElem?_eq_none (by simp; omega)]

theorem chordParams_eq (dist : W → W → K) {pts : List W} (h : 0 < pts.length)
    (ht : chordLength dist pts (pts.length - 1) ≠ 0) :
    chordParams dist pts = .ok ((List.range pts.length).map (chordParam dist pts)) := by
  rw [chordParams]
  rw [subR_eq_ok (by rw [chords_length dist h]; omega), ok_bind, chords_length dist h,
    getR_ok_iff.2 (chords_get dist (show pts.length - 1 < pts.length by omega)), ok_bind,
    mapM_ok (g := fun u => u / chordLength dist pts (pts.length - 1)) (fun x _ => divR_eq_ok ht), chords_eq dist h,
    List.map_map]
  rfl

theorem chordParams_zero (dist : W → W → K) {pts : List W} (h : 0 < pts.length)
    (ht : chordLength dist pts (pts.length - 1) = 0) :
    chordParams dist pts = .error .nonfinite := by
  rw [chordParams]
  rw [subR_eq_ok (by rw [chords_length dist h]; omega), ok_bind, chords_length dist h,
    getR_ok_iff.2 (chords_get dist (show pts.length - 1 < pts.length by omega)), ok_bind, ht]
  exact mapM_error (by simp [chords]) fun x _ => by simp [divR]

theorem averageKnots_length {us ks : List K} {p : ℕ} (hp : p < us.length) (h : averageKnots us p = .ok ks) :
    ks.length = us.length + p + 1 := by
  rw [averageKnots, subR_eq_ok (by omega), ok_bind] at h
  obtain ⟨mid, hm, h⟩ := bind_eq_ok.1 h
  obtain rfl := Except.ok.inj h
  have := (mapM_ok_inv hm).length_eq
  simp at this ⊢
  omega

theorem forall₂_getD {α β : Type} {R : α → β → Prop} : ∀ {l : List α} {r : List β}, List.Forall₂ R l r →
    ∀ (a : α) (b : β) (i : ℕ), i < l.length → R (l.getD i a) (r.getD i b)
  | _, _, .nil, _, _, i, h => by simp at h
  | _, _, .cons hd _, _, _, 0, _ => by simpa using hd
  | _, _, .cons _ tl, a, b, i + 1, h => by
    simpa using forall₂_getD tl a b i (by simpa using h)

/-- **C35**: fewer than `degree + 1` points are rejected. -/
theorem C35_too_few (eps : K) (dist : W → W → K) (solve : List (List K) → List W → Option (List W)) {pts : List W}
    {p : ℕ} (h : pts.length < p + 1) : tryInterpolate eps dist solve pts p = .error .err := by
  rw [tryInterpolate, controlPoints, if_pos h]; rfl

/-- **C35**: when all points coincide the chord parameters are not finite. -/
theorem C35_coinciding (eps : K) (dist : W → W → K) (solve : List (List K) → List W → Option (List W)) {pts : List W}
    {p : ℕ} (h : p + 1 ≤ pts.length) (ht : chordLength dist pts (pts.length - 1) = 0) :
    tryInterpolate eps dist solve pts p = .error .nonfinite := by
  rw [tryInterpolate, controlPoints, if_neg (by omega), chordParams_zero dist (by omega) ht]; rfl

/-- **C35**: whenever interpolation succeeds, the curve passes through the `i`-th point at the
    `i`-th normalised chord length, whatever the points, the degree and the distance function;
    the only assumption is that the linear solver answers with solutions. -/
theorem C35_passes_through {eps : K} {dist : W → W → K} {solve : List (List K) → List W → Option (List W)}
    {pts : List W} {p : ℕ} {c : Curve K (W × K)} (hs : SolverSound solve)
    (h : tryInterpolate eps dist solve pts p = .ok c) :
    c.degree = p ∧ c.cps.length = pts.length ∧ c.knots.length = pts.length + p + 1 ∧ (∀ q ∈ c.cps, q.2 = 1) ∧
    ∀ i, i < pts.length → c.pointAt eps (chordParam dist pts i) = .ok (pts.getD i 0) := by
  rw [tryInterpolate] at h
  obtain ⟨⟨x, ks⟩, h', hc⟩ := bind_eq_ok.1 h
  obtain rfl := Except.ok.inj hc
  clear h hc
  rename' h' => h
  rw [controlPoints] at h
  split at h
  · cases h
  rename_i hn
  have ht : chordLength dist pts (pts.length - 1) ≠ 0 := by
    intro e
    rw [chordParams_zero dist (by omega) e] at h
    cases h
  rw [chordParams_eq dist (by omega) ht, ok_bind] at h
  obtain ⟨ks', hk, h⟩ := bind_eq_ok.1 h
  have hkl := averageKnots_length (by simp; omega) hk
  rw [subR_eq_ok (by omega), ok_bind, subR_eq_ok (by omega), ok_bind] at h
  obtain ⟨rows, hr, h⟩ := bind_eq_ok.1 h
  have hr := mapM_ok_inv hr
  have hrl := hr.length_eq
  simp only [List.length_map, List.length_range] at hkl hrl
  cases hsol : solve rows pts with
  | none => rw [hsol] at h; cases h
  | some x' =>
    rw [hsol] at h
    obtain ⟨rfl, rfl⟩ := Prod.mk.inj (Except.ok.inj h)
    -- one row
    have hrow : ∀ i, i < pts.length → ∃ s b, findKnotSpanIndex eps ks' (pts.length - 1) p (chordParam dist pts i) = .ok s ∧
        basisFunctions ks' s (chordParam dist pts i) p = .ok b ∧ p ≤ s ∧ s ≤ pts.length - 1 ∧
        rows.getD i [] = List.replicate (s - p) 0 ++ b ++ List.replicate (pts.length - (p + 1) - (s - p)) 0 := by
      intro i hi
      have := forall₂_getD hr 0 [] i (by simpa using hi)
      rw [matrixRow] at this
      simp only [List.getD_eq_getElem?_getD, List.getElem?_map, List.getElem?_range hi, Option.map_some,
        Option.getD_some] at this
      obtain ⟨s, h1, this⟩ := bind_eq_ok.1 this
      obtain ⟨b, h2, this⟩ := bind_eq_ok.1 this
      obtain ⟨ls, h3, this⟩ := bind_eq_ok.1 this
      obtain ⟨le, h4, this⟩ := bind_eq_ok.1 this
      rw [subR] at h3 h4
      split at h3
      · split at h4
        · obtain rfl := Except.ok.inj h3
          obtain rfl := Except.ok.inj h4
          refine ⟨s, b, h1, h2, by assumption, by omega, ?_⟩
          rw [List.getD_eq_getElem?_getD, ← Except.ok.inj this]
        · cases h4
      · cases h3
    have hsq : ∀ row ∈ rows, row.length = pts.length := by
      intro row hm
      obtain ⟨i, hi, e⟩ := List.getElem_of_mem hm
      obtain ⟨s, b, _, h2, h3, h4, h5⟩ := hrow i (by omega)
      rw [List.getD_eq_getElem?_getD, List.getElem?_eq_getElem hi, Option.getD_some, e] at h5
      rw [h5]
      have := (basisFunctions_ok h2).1
      simp; omega
    obtain ⟨hxl, hsys⟩ := hs rows pts x' (by omega) hsq hsol
    refine ⟨rfl, by simp [hxl], hkl, ?_, ?_⟩
    · intro q hq
      obtain ⟨w, _, rfl⟩ := List.mem_map.1 hq
      rfl
    · intro i hi
      obtain ⟨s, b, h1, h2, h3, h4, h5⟩ := hrow i hi
      rw [pointAt_of_basis (n := pts.length - 1) (s := s) (by show ks'.length = x'.length + p + 1; omega)
        (by show x'.length = _; omega) h1 h2 h3 h4, ← hsys i hi, h5,
        padded_row_sum b (fun j => x'.getD j 0) (basisFunctions_ok h2).1 (by omega)]

/-! ### Regular data: nothing but the solver can fail -/

section ordered
variable [IsStrictOrderedRing K]

/-- The averaged inner knot number `i`. -/
def avgParam (dist : W → W → K) (pts : List W) (p i : ℕ) : K :=
  ((Finset.range p).sum fun j => chordParam dist pts (i + j)) / p

/-- The knot vector of the interpolating curve (specification): `p + 1` zeros, the averages, `p + 1`
    ones. -/
def interpKnot (dist : W → W → K) (pts : List W) (p i : ℕ) : K :=
  if i ≤ p then 0 else if i < pts.length then avgParam dist pts p (i - p) else 1

theorem chordLength_strict {dist : W → W → K} {pts : List W}
    (hd : ∀ i, i + 1 < pts.length → 0 < dist (pts.getD i 0) (pts.getD (i + 1) 0)) {i j : ℕ} (hij : i < j)
    (hj : j < pts.length) : chordLength dist pts i < chordLength dist pts j := by
  induction j with
  | zero => omega
  | succ j ih =>
    have h1 : chordLength dist pts (j + 1) = chordLength dist pts j + dist (pts.getD j 0) (pts.getD (j + 1) 0) := by
      rw [chordLength, Finset.sum_range_succ]; rfl
    have h2 := hd j hj
    by_cases e : i = j
    · subst e; linarith
    · have := ih (by omega) (by omega); linarith

theorem chordParam_strict {dist : W → W → K} {pts : List W}
    (hd : ∀ i, i + 1 < pts.length → 0 < dist (pts.getD i 0) (pts.getD (i + 1) 0)) {i j : ℕ} (hij : i < j)
    (hj : j < pts.length) : chordParam dist pts i < chordParam dist pts j := by
  have h0 : (0 : K) < chordLength dist pts (pts.length - 1) := by
    have := chordLength_strict hd (i := 0) (j := pts.length - 1) (by omega) (by omega)
    simpa [chordLength] using this
  exact (div_lt_div_iff_of_pos_right h0).2 (chordLength_strict hd hij hj)

theorem averageKnot_eq {dist : W → W → K} {pts : List W} {p i : ℕ} (hp : 1 ≤ p) (hi : i + p ≤ pts.length) :
    averageKnot ((List.range pts.length).map (chordParam dist pts)) p i = .ok (avgParam dist pts p i) := by
  rw [averageKnot, foldlM_sum (g := fun j => chordParam dist pts (i + j)), ok_bind,
    divR_eq_ok (by exact_mod_cast (by omega : p ≠ 0)), zero_add]
  · rfl
  · intro acc j hj
    rw [getR_ok_iff.2 (by rw [List.getElem?_map, List.getElem?_range (by omega)]; rfl)]
    rfl

theorem averageKnots_eq {dist : W → W → K} {pts : List W} {p : ℕ} (hp : 1 ≤ p) (hn : p + 1 ≤ pts.length) :
    averageKnots ((List.range pts.length).map (chordParam dist pts)) p =
      .ok (vec (pts.length + p + 1) (interpKnot dist pts p)) := by
  rw [averageKnots, subR_eq_ok (by simp; omega), ok_bind,
    mapM_ok (g := fun k => avgParam dist pts p (k + 1)) (fun k hk => ?_)]
  · rw [ok_bind, pure_eq_ok]
    congr 1
    apply List.ext_getElem
    · simp; omega
    · intro i h1 h2
      simp only [vec, List.getElem_map, List.getElem_range]
      rw [interpKnot]
      split
      · rw [List.getElem_append_left (by simp; omega), List.getElem_append_left (by simp; omega)]; simp
      · split
        · rw [List.getElem_append_left (by simp; omega), List.getElem_append_right (by simp; omega)]
          simp
          congr 1; omega
        · rw [List.getElem_append_right (by simp; omega)]; simp
  · have := List.mem_range.1 hk
    simp at this
    exact averageKnot_eq hp (by omega)

theorem kf_vec {n : ℕ} {f : ℕ → K} {i : ℕ} (h : i < n) : kf (vec n f) i = f i := by
  rw [kf, vec, List.getD_eq_getElem?_getD, List.getElem?_map, List.getElem?_range h]; rfl

theorem avgParam_bounds {dist : W → W → K} {pts : List W} {p i : ℕ} (hp : 1 ≤ p) {a b : K}
    (ha : ∀ j, j < p → a ≤ chordParam dist pts (i + j)) (hb : ∀ j, j < p → chordParam dist pts (i + j) ≤ b) :
    a ≤ avgParam dist pts p i ∧ avgParam dist pts p i ≤ b := by
  have hp' : (0 : K) < p := by exact_mod_cast hp
  constructor
  · rw [avgParam, le_div_iff₀ hp']
    have := Finset.card_nsmul_le_sum (Finset.range p) (fun j => chordParam dist pts (i + j)) a
      (fun j hj => ha j (Finset.mem_range.1 hj))
    simpa [nsmul_eq_mul, mul_comm] using this
  · rw [avgParam, div_le_iff₀ hp']
    have := Finset.sum_le_card_nsmul (Finset.range p) (fun j => chordParam dist pts (i + j)) b
      (fun j hj => hb j (Finset.mem_range.1 hj))
    simpa [nsmul_eq_mul, mul_comm] using this

theorem chordParam_le {dist : W → W → K} {pts : List W}
    (hd : ∀ i, i + 1 < pts.length → 0 < dist (pts.getD i 0) (pts.getD (i + 1) 0)) {i j : ℕ} (hij : i ≤ j)
    (hj : j < pts.length) : chordParam dist pts i ≤ chordParam dist pts j := by
  rcases Nat.lt_or_eq_of_le hij with h | rfl
  · exact (chordParam_strict hd h hj).le
  · exact le_refl _

theorem chordParam_ends {dist : W → W → K} {pts : List W}
    (hd : ∀ i, i + 1 < pts.length → 0 < dist (pts.getD i 0) (pts.getD (i + 1) 0)) (hn : 2 ≤ pts.length) :
    chordParam dist pts 0 = 0 ∧ chordParam dist pts (pts.length - 1) = 1 := by
  have h0 : (0 : K) < chordLength dist pts (pts.length - 1) := by
    have := chordLength_strict hd (i := 0) (j := pts.length - 1) (by omega) (by omega)
    simpa [chordLength] using this
  exact ⟨by simp [chordParam, chordLength], div_self h0.ne'⟩

/-- The knots of an interpolating curve are good. -/
theorem interpKnot_good {eps : K} {dist : W → W → K} {pts : List W} {p : ℕ} (hp : 1 ≤ p) (hn : p + 1 ≤ pts.length)
    (he : 0 ≤ eps) (hd : ∀ i, i + 1 < pts.length → 0 < dist (pts.getD i 0) (pts.getD (i + 1) 0))
    (h1 : eps ≤ chordParam dist pts 1) (h2 : chordParam dist pts (pts.length - 2) + eps ≤ 1) :
    GoodKnots eps (interpKnot dist pts p) p (pts.length - 1) := by
  obtain ⟨e0, e1⟩ := chordParam_ends hd (by omega)
  have s1 : 0 < chordParam dist pts 1 := by rw [← e0]; exact chordParam_strict hd (by omega) (by omega)
  have s2 : chordParam dist pts (pts.length - 2) < 1 := by
    rw [← e1]; exact chordParam_strict hd (by omega) (by omega)
  have hav : ∀ i, 1 ≤ i → i + p < pts.length → chordParam dist pts 1 ≤ avgParam dist pts p i ∧
      avgParam dist pts p i ≤ chordParam dist pts (pts.length - 2) := by
    intro i hi hi'
    exact avgParam_bounds hp (fun j hj => chordParam_le hd (by omega) (by omega))
      (fun j hj => chordParam_le hd (by omega) (by omega))
  have hone : 0 + eps ≤ (1 : K) := by
    have := chordParam_le hd (i := 1) (j := pts.length - 1) (by omega) (by omega)
    rw [e1] at this; linarith
  have hmono : MonoUpTo (interpKnot dist pts p) (pts.length - 1 + p + 1) := by
    intro i j hij hj
    unfold interpKnot
    split
    · split
      · exact le_refl _
      · split
        · exact le_trans s1.le (hav _ (by omega) (by omega)).1
        · exact zero_le_one
    · rw [if_neg (show ¬ j ≤ p by omega)]
      split
      · split
        · have hp' : (0 : K) < p := by exact_mod_cast hp
          rw [avgParam, avgParam, div_le_div_iff_of_pos_right hp']
          apply Finset.sum_le_sum
          intro r hr
          have := Finset.mem_range.1 hr
          exact chordParam_le hd (by omega) (by omega)
        · exact le_trans (hav _ (by omega) (by omega)).2 s2.le
      · rw [if_neg (by omega)]
  have g1 : interpKnot dist pts p p = 0 := by rw [interpKnot, if_pos (le_refl _)]
  have g4 : interpKnot dist pts p (pts.length - 1 + 1) = 1 := by
    rw [interpKnot, if_neg (by omega), if_neg (by omega)]
  have g2 : chordParam dist pts 1 ≤ interpKnot dist pts p (p + 1) := by
    rw [interpKnot, if_neg (by omega)]
    split
    · exact (hav _ (by omega) (by omega)).1
    · have := chordParam_le hd (i := 1) (j := pts.length - 1) (by omega) (by omega)
      rwa [e1] at this
  have g3 : interpKnot dist pts p (pts.length - 1) ≤ chordParam dist pts (pts.length - 2) := by
    rw [interpKnot]
    split
    · have := chordParam_le hd (i := 0) (j := pts.length - 2) (by omega) (by omega)
      rwa [e0] at this
    · rw [if_pos (by omega)]
      exact (hav _ (by omega) (by omega)).2
  refine ⟨he, by omega, hmono, ?_, ?_, ?_, ?_⟩
  · rw [g1]; exact lt_of_lt_of_le s1 g2
  · rw [g4]; exact lt_of_le_of_lt g3 s2
  · rw [g1, zero_add]; exact le_trans h1 g2
  · rw [g4]; linarith

/-- With consecutive points apart only the solver decides: the knots and the matrix. -/
theorem controlPoints_eq {eps : K} {dist : W → W → K} {pts : List W} {p : ℕ} (hp : 1 ≤ p)
    (hn : p + 1 ≤ pts.length) (he : 0 ≤ eps)
    (hd : ∀ i, i + 1 < pts.length → 0 < dist (pts.getD i 0) (pts.getD (i + 1) 0))
    (h1 : eps ≤ chordParam dist pts 1) (h2 : chordParam dist pts (pts.length - 2) + eps ≤ 1) :
    ∃ ks, ks = vec (pts.length + p + 1) (interpKnot dist pts p) ∧ GoodKnots eps (kf ks) p (pts.length - 1) ∧
      kf ks p = 0 ∧ kf ks (pts.length - 1 + 1) = 1 ∧
      ∀ solve : List (List K) → List W → Option (List W), controlPoints eps dist solve pts p =
        match solve (mat pts.length pts.length fun i j => N (interpKnot dist pts p) 1 p j (chordParam dist pts i)) pts with
        | none => .error .err
        | some x => .ok (x, ks) := by
  obtain ⟨e0, e1⟩ := chordParam_ends hd (by omega)
  have hg := interpKnot_good hp hn he hd h1 h2
  have h0 : chordLength dist pts (pts.length - 1) ≠ 0 := by
    intro e
    rw [chordParam, e, div_zero] at e1
    exact zero_ne_one e1
  have hkf : ∀ i, i < pts.length + p + 1 → kf (vec (pts.length + p + 1) (interpKnot dist pts p)) i =
      interpKnot dist pts p i := fun i hi => kf_vec hi
  obtain ⟨ks, hks⟩ : ∃ ks, ks = vec (pts.length + p + 1) (interpKnot dist pts p) := ⟨_, rfl⟩
  have hkl : ks.length = pts.length + p + 1 := by rw [hks]; simp [vec]
  rw [← hks] at hkf
  have hg' : GoodKnots eps (kf ks) p (pts.length - 1) := by
    refine ⟨he, by omega, fun i j hij hj => ?_, ?_, ?_, ?_, ?_⟩
    · rw [hkf _ (by omega), hkf _ (by omega)]; exact hg.mono i j hij hj
    · rw [hkf _ (by omega), hkf _ (by omega)]; exact hg.first
    · rw [hkf _ (by omega), hkf _ (by omega)]; exact hg.last
    · rw [hkf _ (by omega), hkf _ (by omega)]; exact hg.first_gap
    · rw [hkf _ (by omega), hkf _ (by omega)]; exact hg.last_gap
  have k0 : kf ks p = 0 := by rw [hkf _ (by omega), interpKnot, if_pos (le_refl _)]
  have k1 : kf ks (pts.length - 1 + 1) = 1 := by
    rw [hkf _ (by omega), interpKnot, if_neg (by omega), if_neg (by omega)]
  have hspan : ∀ i, i < pts.length → ∃ s, findKnotSpanIndex eps ks (pts.length - 1) p (chordParam dist pts i) = .ok s ∧
      p ≤ s ∧ s ≤ pts.length - 1 ∧ InSpan (kf ks) 1 (chordParam dist pts i) s := by
    intro i hi
    have a : kf ks p ≤ chordParam dist pts i := by
      rw [k0, ← e0]; exact chordParam_le hd (by omega) (by omega)
    have b : chordParam dist pts i ≤ kf ks (pts.length - 1 + 1) := by
      rw [k1, ← e1]; exact chordParam_le hd (by omega) (by omega)
    have := C01_span_brackets (by omega) hg' a b
    rwa [k1] at this
  -- the rows
  have hrow : ∀ i, i < pts.length → matrixRow eps ks (pts.length - 1) p (pts.length - (p + 1)) (chordParam dist pts i) =
      .ok (vec pts.length fun j => N (interpKnot dist pts p) 1 p j (chordParam dist pts i)) := by
    intro i hi
    obtain ⟨s, hs, hps, hsn, hin⟩ := hspan i hi
    rw [matrixRow, hs, ok_bind, basisFunctions_eq p hps (by omega)
      (fun a b ha hb hb' => ne_across hg'.mono (inSpan_lt hin) a b ha hb (by omega)), ok_bind, subR_eq_ok hps, ok_bind,
      subR_eq_ok (by omega), ok_bind, pure_eq_ok]
    congr 1
    have hin' : InSpan (interpKnot dist pts p) 1 (chordParam dist pts i) s := by
      unfold InSpan at hin ⊢
      rwa [hkf _ (by omega), hkf _ (by omega)] at hin
    apply List.ext_getElem
    · simp [vec]; omega
    · intro j hj1 hj2
      have hj : j < pts.length := by simpa [vec] using hj2
      simp only [vec, List.getElem_map, List.getElem_range]
      rw [N_eq_NS hg.mono (by omega) hin' p j (by omega)]
      by_cases c1 : j < s - p
      · rw [List.getElem_append_left (by simp; omega), List.getElem_append_left (by simpa using c1),
          NS_eq_zero_left _ _ _ _ _ (by omega)]
        simp
      · by_cases c2 : j ≤ s
        · rw [List.getElem_append_left (by simp; omega), List.getElem_append_right (by simp; omega)]
          simp only [List.length_replicate, List.getElem_map, List.getElem_range]
          rw [show s - p + (j - (s - p)) = j by omega]
          exact NS_congr _ _ fun l _ hl => hkf l (by omega)
        · rw [List.getElem_append_right (by simp; omega), NS_eq_zero_right _ _ _ _ _ (by omega)]
          simp
  refine ⟨ks, hks, hg', k0, k1, fun solve => ?_⟩
  rw [controlPoints, if_neg (by omega), chordParams_eq dist (by omega) h0, ok_bind, averageKnots_eq hp hn, ok_bind,
    ← hks, subR_eq_ok (by omega), ok_bind, subR_eq_ok (by omega), ok_bind, List.mapM_map,
    mapM_ok (g := fun i => vec pts.length fun j => N (interpKnot dist pts p) 1 p j (chordParam dist pts i))
      (fun i hi => by rw [Function.comp]; exact hrow i (List.mem_range.1 hi)), ok_bind]
  rfl

/-- **C35**: with consecutive points apart, everything but the solver succeeds: the assembled
    system is a square matrix whose answer alone decides the result; the curve is good and defined on
    `[0, 1]`. -/
theorem C35_only_solver_can_fail {eps : K} {dist : W → W → K} {pts : List W} {p : ℕ} (hp : 1 ≤ p)
    (hn : p + 1 ≤ pts.length) (he : 0 ≤ eps)
    (hd : ∀ i, i + 1 < pts.length → 0 < dist (pts.getD i 0) (pts.getD (i + 1) 0))
    (h1 : eps ≤ chordParam dist pts 1) (h2 : chordParam dist pts (pts.length - 2) + eps ≤ 1) :
    ∃ (A : List (List K)) (ks : List K), A.length = pts.length ∧ (∀ row ∈ A, row.length = pts.length) ∧
      (∀ (i j : ℕ), i < pts.length → j < pts.length →
        (A.getD i []).getD j 0 = N (interpKnot dist pts p) 1 p j (chordParam dist pts i)) ∧
      ∀ solve : List (List K) → List W → Option (List W),
        (solve A pts = none → tryInterpolate eps dist solve pts p = .error .err) ∧
        ∀ x, solve A pts = some x → ∃ c, tryInterpolate eps dist solve pts p = .ok c ∧
          c = ⟨p, x.map homogenize, ks⟩ ∧
          (x.length = pts.length → c.Good eps ∧ c.lo = 0 ∧ c.hi = 1) := by
  obtain ⟨ks, hks, hg', k0, k1, hcp⟩ := controlPoints_eq hp hn he hd h1 h2
  have hkl : ks.length = pts.length + p + 1 := by rw [hks]; simp [vec]
  refine ⟨mat pts.length pts.length fun i j => N (interpKnot dist pts p) 1 p j (chordParam dist pts i), ks, by simp [mat, vec],
    ?_, ?_, ?_⟩
  · intro row hr
    simp only [mat, vec, List.mem_map] at hr
    obtain ⟨_, _, rfl⟩ := hr
    simp
  · intro i j hi hj
    simp [mat, vec, List.getD_eq_getElem?_getD, List.getElem?_range hi, List.getElem?_range hj]
  · intro solve
    constructor
    · intro h
      rw [tryInterpolate, hcp, h]; rfl
    · intro x h
      refine ⟨_, by rw [tryInterpolate, hcp, h]; rfl, rfl, ?_⟩
      intro hx
      refine ⟨⟨by simp [hx]; omega, by simp [hx, hkl], by simpa [hx] using hg'⟩, k0, ?_⟩
      rw [hi]
      simp only [List.length_map, hx]
      rw [← k1]; congr 1; omega

/-- **C35**: in degree one the data points themselves solve the system, so the interpolating curve
    is the polyline through the data. -/
theorem C35_degree_one {dist : W → W → K} {pts : List W} (hn : 2 ≤ pts.length)
    (hd : ∀ i, i + 1 < pts.length → 0 < dist (pts.getD i 0) (pts.getD (i + 1) 0)) {i j : ℕ} (hi : i < pts.length)
    (hj : j < pts.length) :
    N (interpKnot dist pts 1) 1 1 j (chordParam dist pts i) = if i = j then 1 else 0 := by
  obtain ⟨e0, e1⟩ := chordParam_ends hd (by omega)
  have hg := interpKnot_good (eps := 0) (le_refl 1) hn (le_refl 0) hd
    (by rw [← e0]; exact chordParam_le hd (by omega) (by omega))
    (by rw [add_zero, ← e1]; exact chordParam_le hd (by omega) (by omega))
  have hk : ∀ l, l < pts.length → interpKnot dist pts 1 (l + 1) = chordParam dist pts l := by
    intro l hl
    rw [interpKnot]
    split
    · rw [show l = 0 by omega, e0]
    · split
      · simp [avgParam]
      · rw [show l = pts.length - 1 by omega, e1]
  by_cases hl : i + 1 < pts.length
  · have hlt := chordParam_strict hd (i := i) (j := i + 1) (by omega) hl
    have h1 : chordParam dist pts i ≠ 1 := by
      have := chordParam_le hd (i := i + 1) (j := pts.length - 1) (by omega) (by omega)
      rw [e1] at this
      exact (lt_of_lt_of_le hlt this).ne
    have hin : InSpan (interpKnot dist pts 1) 1 (chordParam dist pts i) (i + 1) := by
      rw [InSpan, if_neg h1, hk i hi, hk (i + 1) hl]
      exact ⟨le_refl _, hlt⟩
    rw [N_eq_NS hg.mono (by omega) hin 1 j (by omega), NS_right_delta (m := 1) (fun l a b => by
      rw [show l = i + 1 by omega, hk i hi]) (by rw [hk (i + 1) hl]; exact hlt.ne') 1 (le_refl _) (by omega)]
    exact if_congr (by omega) rfl rfl
  · have hi' : i = pts.length - 1 := by omega
    have hlt := chordParam_strict hd (i := pts.length - 2) (j := pts.length - 1) (by omega) (by omega)
    rw [e1] at hlt
    have hks : interpKnot dist pts 1 i = chordParam dist pts (pts.length - 2) := by
      rw [hi', show pts.length - 1 = (pts.length - 2) + 1 by omega, hk _ (by omega)]
    have hin : InSpan (interpKnot dist pts 1) 1 (chordParam dist pts i) i := by
      rw [InSpan, hi', e1, if_pos rfl, hk _ (by omega), e1, ← hi', hks]
      exact ⟨hlt, le_refl _⟩
    rw [N_eq_NS hg.mono (by omega) hin 1 j (by omega), NS_left_delta (m := 1) (fun l a b => by
      rw [show l = i + 1 by omega, hk i hi]) (by rw [hks, hi', e1]; exact hlt.ne) 1 (le_refl _)]
    exact if_congr ⟨Eq.symm, Eq.symm⟩ rfl rfl

end ordered

/-! ### A concrete case -/

instance [DecidableEq W] (A : List (List K)) (b x : List W) : Decidable (Solves A b x) := by
  unfold Solves; infer_instance

/-- The solver that only knows one answer, and checks it. -/
def checkSolver [DecidableEq W] (x : List W) (A : List (List K)) (b : List W) : Option (List W) :=
  if Solves A b x then some x else none

theorem checkSolver_sound [DecidableEq W] (x : List W) : SolverSound (checkSolver (K := K) x) := by
  intro A b y _ _ h
  rw [checkSolver] at h
  split at h
  · rename_i hx
    obtain rfl := Option.some.inj h
    exact hx
  · cases h

/-- Length of axis parallel segments. -/
def axisDist (a b : ℚ × ℚ) : ℚ := |a.1 - b.1| + |a.2 - b.2|

def exData : List (ℚ × ℚ) := [(0, 0), (1, 0), (1, 1), (3, 1)]
def exSolution : List (ℚ × ℚ) := [(0, 0), (93/76, -9/19), (53/76, 39/19), (3, 1)]

/-- A quadratic through four points: the solver accepts its answer, so `C35_passes_through`
    applies. -/
example : (tryInterpolate (1/1000) axisDist (checkSolver exSolution) exData 2).map (fun c => (c.cps, c.knots)) =
    .ok (exSolution.map homogenize, [0, 0, 0, 3/8, 1, 1, 1]) := by decide +kernel

example : (tryInterpolate (1/1000) axisDist (checkSolver exSolution) exData 2 >>= fun c => c.pointAt (1/1000) (1/4)) =
    .ok (1, 0) ∧ chordParam axisDist exData 1 = 1/4 := by decide +kernel

example : (∀ i, i + 1 < exData.length → 0 < axisDist (exData.getD i 0) (exData.getD (i + 1) 0)) ∧
    1/1000 ≤ chordParam axisDist exData 1 ∧ chordParam axisDist exData (exData.length - 2) + 1/1000 ≤ 1 := by
  refine ⟨fun i hi => ?_, by decide +kernel⟩
  have : ∀ i, i < 3 → 0 < axisDist (exData.getD i 0) (exData.getD (i + 1) 0) := by decide +kernel
  exact this i (by have : exData.length = 4 := rfl; omega)

end Curvo.Props

/-
  Property theorems about segments, rays, polygons and meshes: C50, C52, C53, C57, C58.
-/
import Mathlib.Tactic.Ring
import Verif.Props.Misc

set_option linter.unusedSectionVars false

namespace Curvo.Props

open Curvo Curvo.Misc

/-! ### C50 -/

section mesh
variable {V : Type} {K : Type} [Field K] [LinearOrder K] [IsStrictOrderedRing K]

/-- All face indices refer to vertices. -/
def Mesh.Valid (m : Mesh V) : Prop :=
  ∀ f ∈ m.faces, f.1 < m.vertices.length ∧ f.2.1 < m.vertices.length ∧ f.2.2 < m.vertices.length

theorem forall₂_mem {α β : Type} {R : α → β → Prop} {l : List α} {r : List β} (h : List.Forall₂ R l r)
    {x : α} (hx : x ∈ l) : ∃ y, y ∈ r ∧ R x y := by
  induction h with
  | nil => simp at hx
  | cons h1 _ ih =>
    rcases List.mem_cons.1 hx with rfl | hx
    · exact ⟨_, by simp, h1⟩
    · obtain ⟨t, ht, e⟩ := ih hx; exact ⟨t, by simp [ht], e⟩

/-- A mesh has triangles (no index panics) exactly when it is valid. -/
theorem C50_triangles_iff_valid (m : Mesh V) : (∃ ts, m.triangles = .ok ts) ↔ Mesh.Valid m := by
  constructor
  · rintro ⟨ts, h⟩ f hf
    have hall := mapM_ok_inv h
    obtain ⟨t, _, ht⟩ : ∃ t, t ∈ ts ∧ (do
        let a ← getR m.vertices f.1
        let b ← getR m.vertices f.2.1
        let c ← getR m.vertices f.2.2
        pure (a, b, c) : Res (V × V × V)) = .ok t := by
      exact forall₂_mem hall hf
    obtain ⟨a, ha, ht⟩ := bind_eq_ok.1 ht
    obtain ⟨b, hb, ht⟩ := bind_eq_ok.1 ht
    obtain ⟨c, hc, _⟩ := bind_eq_ok.1 ht
    exact ⟨(List.getElem?_eq_some_iff.1 (getR_ok_iff.1 ha)).1,
      (List.getElem?_eq_some_iff.1 (getR_ok_iff.1 hb)).1, (List.getElem?_eq_some_iff.1 (getR_ok_iff.1 hc)).1⟩
  · intro h
    cases hv : m.vertices with
    | nil =>
      have hf : m.faces = [] := by
        rw [List.eq_nil_iff_forall_not_mem]
        intro f hf; have := (h f hf).1; rw [hv] at this; simp at this
      exact ⟨[], by rw [Mesh.triangles, hf]; rfl⟩
    | cons v0 vs =>
      refine ⟨m.faces.map fun f => (m.vertices.getD f.1 v0, m.vertices.getD f.2.1 v0, m.vertices.getD f.2.2 v0), ?_⟩
      apply mapM_ok
      intro f hf
      obtain ⟨h1, h2, h3⟩ := h f hf
      rw [getR_eq_getD v0 h1, getR_eq_getD v0 h2, getR_eq_getD v0 h3]; rfl

theorem mapM_append_ok {α β : Type} {f : α → Res β} : ∀ {l r : List α} {a b : List β},
    l.mapM f = .ok a → r.mapM f = .ok b → (l ++ r).mapM f = .ok (a ++ b)
  | [], r, a, b, h1, h2 => by
    have : a = [] := (Except.ok.inj h1).symm
    subst this; simpa using h2
  | x :: l, r, a, b, h1, h2 => by
    rw [List.mapM_cons] at h1
    obtain ⟨y, hy, h1⟩ := bind_eq_ok.1 h1
    obtain ⟨ys, hys, h1⟩ := bind_eq_ok.1 h1
    have : a = y :: ys := (Except.ok.inj h1).symm
    subst this
    rw [List.cons_append, List.mapM_cons, hy, ok_bind, mapM_append_ok hys h2]; rfl

theorem mapM_congr {α β : Type} {f g : α → Res β} : ∀ {l : List α}, (∀ x ∈ l, f x = g x) →
    l.mapM f = l.mapM g
  | [], _ => rfl
  | x :: l, h => by
    rw [List.mapM_cons, List.mapM_cons, h x (by simp), mapM_congr (fun y hy => h y (by simp [hy]))]

theorem mapM_map' {α β γ : Type} {g : α → β} {f : β → Res γ} : ∀ {l : List α},
    (l.map g).mapM f = l.mapM fun x => f (g x)
  | [] => rfl
  | x :: l => by rw [List.map_cons, List.mapM_cons, List.mapM_cons, mapM_map' (l := l)]

/-- The triangles of a sum are those of the first mesh followed by those of the second. -/
theorem C50_add_triangles {m r : Mesh V} {ts us : List (V × V × V)} (hm : m.triangles = .ok ts)
    (hr : r.triangles = .ok us) : (m.add r).triangles = .ok (ts ++ us) := by
  have vm := (C50_triangles_iff_valid m).1 ⟨ts, hm⟩
  unfold Mesh.triangles Mesh.add
  apply mapM_append_ok
  · rw [← hm]
    apply mapM_congr
    intro f hf
    obtain ⟨h1, h2, h3⟩ := vm f hf
    have e : ∀ i, i < m.vertices.length → getR (m.vertices ++ r.vertices) i = getR m.vertices i := by
      intro i hi; unfold getR; rw [List.getElem?_append_left hi]
    simp only
    rw [e _ h1, e _ h2, e _ h3]
  · rw [mapM_map', ← hr]
    apply mapM_congr
    intro f _
    have e : ∀ i, getR (m.vertices ++ r.vertices) (i + m.vertices.length) = getR r.vertices i := by
      intro i; unfold getR; rw [List.getElem?_append_right (by omega), Nat.add_sub_cancel]
    simp only
    rw [e, e, e]

/-- The sum of a family lists the triangles of all members in order. -/
theorem C50_sum_triangles {ms : List (Mesh V)} {tss : List (List (V × V × V))}
    (h : List.Forall₂ (fun m ts => m.triangles = .ok ts) ms tss) :
    (Mesh.sum ms).triangles = .ok tss.flatten := by
  suffices H : ∀ (ms : List (Mesh V)) tss, List.Forall₂ (fun m ts => m.triangles = .ok ts) ms tss →
      ∀ (m0 : Mesh V) ts0, m0.triangles = .ok ts0 →
        (ms.foldl Mesh.add m0).triangles = .ok (ts0 ++ tss.flatten) by
    have := H ms tss h ⟨[], []⟩ [] rfl
    simpa [Mesh.sum] using this
  intro ms tss h
  induction h with
  | nil => intro m0 ts0 h0; simpa using h0
  | cons h1 _ ih =>
    intro m0 ts0 h0
    have := ih _ _ (C50_add_triangles h0 h1)
    simpa using this

theorem foldl_add_init (l : List K) (a : K) : l.foldl (· + ·) a = a + l.foldl (· + ·) 0 := by
  induction l generalizing a with
  | nil => simp
  | cons x l ih => rw [List.foldl_cons, ih (a + x), List.foldl_cons, ih (0 + x)]; ring

/-- Area (for any triangle area) is additive. -/
theorem C50_area_additive {tri : V → V → V → K} {m r : Mesh V} {a b : K} (hm : m.areaWith tri = .ok a)
    (hr : r.areaWith tri = .ok b) : (m.add r).areaWith tri = .ok (a + b) := by
  obtain ⟨ts, h1, e1⟩ := bind_eq_ok.1 hm
  obtain ⟨us, h2, e2⟩ := bind_eq_ok.1 hr
  rw [Mesh.areaWith, C50_add_triangles h1 h2, ok_bind, ← Except.ok.inj e1, ← Except.ok.inj e2, List.map_append,
    List.foldl_append, foldl_add_init, add_div]
  rfl

example : ((Mesh.mk [((0:ℚ), (0:ℚ)), (1, 0), (0, 1)] [(0, 1, 2)]).add
    (Mesh.mk [(0, 0), (2, 0), (0, 2)] [(0, 1, 2)])).area2 = .ok (1/2 + 2) :=
  C50_area_additive (by decide +kernel) (by decide +kernel)

end mesh

/-! ### C52 -/

theorem le_of_sq_le_sq {x y : ℝ} (hy : 0 ≤ y) (h : x ^ 2 ≤ y ^ 2) : x ≤ y := abs_le_of_sq_le_sq' h hy |>.2

section real
variable {E : Type} [NormedAddCommGroup E] [InnerProductSpace ℝ E]

open scoped InnerProductSpace

/-- The closest point of a (non degenerate) segment: the returned point lies on the segment at the
    returned parameter, and no point of the segment is closer. -/
theorem C52_closest {eps : ℝ} (heps : 0 < eps) {pt a b : E} {u0 u1 : ℝ} (hl : eps ≤ ‖b - a‖) :
    ∃ s : ℝ, 0 ≤ s ∧ s ≤ 1 ∧ (segmentClosestPoint eps pt a b u0 u1).2 = a + s • (b - a) ∧
      (segmentClosestPoint eps pt a b u0 u1).1 = u0 + (u1 - u0) * s ∧
      ∀ s' : ℝ, 0 ≤ s' → s' ≤ 1 →
        ‖pt - (segmentClosestPoint eps pt a b u0 u1).2‖ ≤ ‖pt - (a + s' • (b - a))‖ := by
  have hL : 0 < ‖b - a‖ := lt_of_lt_of_le heps hl
  set l := ‖b - a‖ with hldef
  set x := ⟪pt - a, (1 / l) • (b - a)⟫_ℝ with hx
  have hx' : ⟪pt - a, b - a⟫_ℝ = l * x := by
    rw [hx, inner_smul_right]; field_simp
  have hbb : ⟪b - a, b - a⟫_ℝ = l * l := by rw [real_inner_self_eq_norm_mul_norm]
  -- squared distance to the point at parameter `t`
  have hsq : ∀ t : ℝ, ‖pt - (a + t • (b - a))‖ ^ 2 = ‖pt - a‖ ^ 2 - 2 * t * (l * x) + t ^ 2 * (l * l) := by
    intro t
    rw [← sub_sub, norm_sub_sq_real, inner_smul_right, hx', norm_smul, mul_pow, Real.norm_eq_abs, sq_abs,
      ← hldef]
    ring
  have main : ∀ s : ℝ, 0 ≤ s → s ≤ 1 → (∀ s' : ℝ, 0 ≤ s' → s' ≤ 1 → (s - s') * (l * (s + s') - 2 * x) ≤ 0) →
      ∀ s' : ℝ, 0 ≤ s' → s' ≤ 1 → ‖pt - (a + s • (b - a))‖ ≤ ‖pt - (a + s' • (b - a))‖ := by
    intro s _ _ h s' h0 h1
    apply le_of_sq_le_sq (norm_nonneg _)
    rw [hsq s, hsq s']
    have := mul_le_mul_of_nonneg_left (h s' h0 h1) hL.le
    nlinarith [this]
  have hdef : segmentClosestPoint eps pt a b u0 u1 =
      if x < 0 then (u0, a) else if l < x then (u1, b) else
        (u0 + (u1 - u0) * x / l, x • ((1 / l) • (b - a)) + a) := by
    unfold segmentClosestPoint
    simp only
    rw [if_neg (not_lt.2 hl)]
  rw [hdef]
  by_cases h0 : x < 0
  · simp only [if_pos h0]
    refine ⟨0, le_refl _, zero_le_one, by simp, by simp, ?_⟩
    have := main 0 (le_refl _) zero_le_one (by
      intro s' h1 _
      have : 0 ≤ l * s' := mul_nonneg hL.le h1
      nlinarith)
    simpa using this
  · simp only [if_neg h0]
    have h0 := not_lt.1 h0
    by_cases h1 : l < x
    · simp only [if_pos h1]
      refine ⟨1, zero_le_one, le_refl _, by simp, by simp, ?_⟩
      have := main 1 zero_le_one (le_refl _) (by
        intro s' h2 h3
        have : l * (1 + s') ≤ 2 * x := by nlinarith
        nlinarith)
      simpa using this
    · simp only [if_neg h1]
      have h1 := not_lt.1 h1
      refine ⟨x / l, div_nonneg h0 hL.le, (div_le_one hL).2 h1, ?_, by ring, ?_⟩
      · rw [smul_smul, add_comm, mul_one_div]
      · have e : x • (1 / l) • (b - a) + a = a + (x / l) • (b - a) := by
          rw [smul_smul, add_comm, mul_one_div]
        rw [e]
        apply main _ (div_nonneg h0 hL.le) ((div_le_one hL).2 h1)
        intro s' _ _
        have : l * (x / l) = x := by field_simp
        have : (x / l - s') * (l * (x / l + s') - 2 * x) = - (l * (x / l - s') ^ 2) := by
          have hx2 : x = l * (x / l) := this.symm
          generalize x / l = y at *
          rw [hx2]; ring
        rw [this]
        have := mul_nonneg hL.le (sq_nonneg (x / l - s'))
        linarith

/-- A degenerate segment returns its start; no point of the segment is closer by `eps` or more. -/
theorem C52_degenerate {eps : ℝ} {pt a b : E} {u0 u1 : ℝ} (hl : ‖b - a‖ < eps) :
    segmentClosestPoint eps pt a b u0 u1 = (u0, a) ∧
      ∀ s' : ℝ, 0 ≤ s' → s' ≤ 1 → ‖pt - a‖ < ‖pt - (a + s' • (b - a))‖ + eps := by
  refine ⟨by unfold segmentClosestPoint; simp only; rw [if_pos hl], ?_⟩
  intro s' h0 h1
  have e : pt - a = (pt - (a + s' • (b - a))) + s' • (b - a) := by abel
  have : ‖s' • (b - a)‖ ≤ ‖b - a‖ := by
    rw [norm_smul, Real.norm_eq_abs, abs_of_nonneg h0]
    exact mul_le_of_le_one_left (norm_nonneg _) h1
  calc ‖pt - a‖ = ‖(pt - (a + s' • (b - a))) + s' • (b - a)‖ := by rw [← e]
    _ ≤ _ := norm_add_le _ _
    _ < _ := by linarith

example : ∃ s : ℝ, 0 ≤ s ∧ s ≤ 1 ∧ (segmentClosestPoint (1/1000) (2 : ℝ) 0 4 1 2).2 = 0 + s • (4 - 0) := by
  obtain ⟨s, h1, h2, h3, _⟩ := C52_closest (eps := 1/1000) (by norm_num) (pt := (2 : ℝ)) (a := 0) (b := 4)
    (u0 := 1) (u1 := 2) (by norm_num)
  exact ⟨s, h1, h2, h3⟩

/-! ### C53 -/

/-- The two returned points lie on the lines, at the returned parameters; the connecting vector is
    orthogonal to both directions. -/
theorem C53_orthogonal {eps : ℝ} (heps : 0 < eps) {o a o' b : E} {p q : E} {t w : ℝ}
    (h : rayIntersection eps o a o' b = some ((p, t), (q, w))) :
    p = o + t • a ∧ q = o' + w • b ∧ ⟪a, p - q⟫_ℝ = 0 ∧ ⟪b, p - q⟫_ℝ = 0 := by
  unfold rayIntersection at h
  simp only at h
  split at h
  · cases h
  · rename_i hdiv
    have hdiv := not_lt.1 hdiv
    have hne : ⟪a, a⟫_ℝ * ⟪b, b⟫_ℝ - ⟪a, b⟫_ℝ * ⟪a, b⟫_ℝ ≠ 0 := by
      intro h0; rw [h0, abs_zero] at hdiv; linarith
    have haa : ⟪a, a⟫_ℝ ≠ 0 := by
      intro h0
      have ha : a = 0 := inner_self_eq_zero.1 h0
      apply hne; rw [ha]; simp
    simp only [Prod.mk.injEq, Option.some.injEq] at h
    obtain ⟨⟨h1, h2⟩, h3, h4⟩ := h
    rw [h2] at h1
    rw [h4] at h3
    refine ⟨h1.symm, h3.symm, ?_⟩
    have hba : ⟪b, a⟫_ℝ = ⟪a, b⟫_ℝ := real_inner_comm _ _
    have ea : ⟪a, p - q⟫_ℝ = ⟪a, o⟫_ℝ - ⟪a, o'⟫_ℝ + t * ⟪a, a⟫_ℝ - w * ⟪a, b⟫_ℝ := by
      rw [← h1, ← h3, rayPoint, rayPoint, inner_sub_right, inner_add_right, inner_add_right,
        inner_smul_right, inner_smul_right]; ring
    have eb : ⟪b, p - q⟫_ℝ = ⟪b, o⟫_ℝ - ⟪b, o'⟫_ℝ + t * ⟪a, b⟫_ℝ - w * ⟪b, b⟫_ℝ := by
      rw [← h1, ← h3, rayPoint, rayPoint, inner_sub_right, inner_add_right, inner_add_right,
        inner_smul_right, inner_smul_right, hba]; ring
    rw [h4] at h2
    have ht : t * ⟪a, a⟫_ℝ = ⟪a, o'⟫_ℝ - ⟪a, o⟫_ℝ + w * ⟪a, b⟫_ℝ := by
      rw [← h2, div_mul_cancel₀ _ haa]
    have hw : w * (⟪a, a⟫_ℝ * ⟪b, b⟫_ℝ - ⟪a, b⟫_ℝ * ⟪a, b⟫_ℝ) =
        ⟪a, b⟫_ℝ * (⟪a, o'⟫_ℝ - ⟪a, o⟫_ℝ) - ⟪a, a⟫_ℝ * (⟪b, o'⟫_ℝ - ⟪b, o⟫_ℝ) := by
      rw [← h4, div_mul_cancel₀ _ hne]
    refine ⟨by rw [ea]; linarith, ?_⟩
    rw [eb]
    have : ⟪a, a⟫_ℝ * (⟪b, o⟫_ℝ - ⟪b, o'⟫_ℝ + t * ⟪a, b⟫_ℝ - w * ⟪b, b⟫_ℝ) = 0 := by
      linear_combination ⟪a, b⟫_ℝ * ht - hw
    exact (mul_eq_zero.1 this).resolve_left haa

/-- Hence no pair of points on the two lines is closer, and the two points coincide if the lines meet. -/
theorem C53_closest_pair {eps : ℝ} (heps : 0 < eps) {o a o' b : E} {p q : E} {t w : ℝ}
    (h : rayIntersection eps o a o' b = some ((p, t), (q, w))) :
    (∀ t' w' : ℝ, ‖p - q‖ ≤ ‖(o + t' • a) - (o' + w' • b)‖) ∧
      ((∃ t' w' : ℝ, o + t' • a = o' + w' • b) → p = q) := by
  obtain ⟨hp, hq, h1, h2⟩ := C53_orthogonal heps h
  have main : ∀ t' w' : ℝ, ‖p - q‖ ≤ ‖(o + t' • a) - (o' + w' • b)‖ := by
    intro t' w'
    have e : (o + t' • a) - (o' + w' • b) = (p - q) + ((t' - t) • a - (w' - w) • b) := by
      rw [hp, hq]; module
    have hort : ⟪p - q, (t' - t) • a - (w' - w) • b⟫_ℝ = 0 := by
      rw [inner_sub_right, inner_smul_right, inner_smul_right, real_inner_comm, h1, real_inner_comm, h2]; simp
    rw [e]
    apply le_of_sq_le_sq (norm_nonneg _)
    rw [norm_add_sq_real, hort]
    nlinarith [sq_nonneg ‖(t' - t) • a - (w' - w) • b‖]
  refine ⟨main, ?_⟩
  rintro ⟨t', w', e⟩
  have := main t' w'
  rw [e, sub_self, norm_zero] at this
  exact sub_eq_zero.1 (norm_le_zero_iff.1 this)

/-- Parallel rays give nothing; rays whose directions span an area of at least `eps` give a pair. -/
theorem C53_none_iff {eps : ℝ} (o a o' b : E) :
    rayIntersection eps o a o' b = none ↔ |⟪a, a⟫_ℝ * ⟪b, b⟫_ℝ - ⟪a, b⟫_ℝ * ⟪a, b⟫_ℝ| < eps := by
  unfold rayIntersection
  simp only
  split <;> simp_all

/-- In particular a common direction (up to a factor) gives nothing. -/
theorem C53_parallel_none {eps : ℝ} (heps : 0 < eps) (o a o' : E) (r : ℝ) :
    rayIntersection eps o a o' (r • a) = none := by
  rw [C53_none_iff]
  simp only [inner_smul_left, inner_smul_right]
  rw [show ∀ x : ℝ, x * (r * ((starRingEnd ℝ) r * x)) - r * x * (r * x) = 0 from fun x => by simp; ring]
  simpa using heps

/-- Witness: perpendicular unit directions always give a pair. -/
example (o o' a b : E) (ha : ‖a‖ = 1) (hb : ‖b‖ = 1) (hab : ⟪a, b⟫_ℝ = 0) :
    rayIntersection (1/1000) o a o' b ≠ none := by
  rw [Ne, C53_none_iff, real_inner_self_eq_norm_sq, real_inner_self_eq_norm_sq, ha, hb, hab]
  norm_num

end real

end Curvo.Props

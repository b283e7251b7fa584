/-
  C84: vertices and faces of the tessellation of trimmed surfaces and of regions.
-/
import Verif.Props.TrimSample
import Verif.Props.PolygonWinding
import Verif.Props.Contains

set_option linter.unusedSectionVars false

namespace Curvo.Props

open Curvo Curvo.Misc Curvo.Knots Curvo.Spec Curvo.Trimmed Curvo.Tess

variable {K : Type} [Field K] [LinearOrder K] [IsStrictOrderedRing K]
variable {W : Type} [AddCommGroup W] [Module K W]
variable {eps floor tol : K}

/-! ### Specification -/

/-- What is left by the trims: inside the exterior boundary (if there is one) and outside all interior ones. -/
def InRegion (ext : Option (List (K × K))) (ints : List (List (K × K))) (x : K × K) : Prop :=
  (∀ vs, ext = some vs → winding vs x ≠ 0) ∧ ∀ vs ∈ ints, winding vs x = 0

/-- The points strictly inside a triangle. -/
def OpenTri (a b c x : K × K) : Prop :=
  ∃ r s t : K, 0 < r ∧ 0 < s ∧ 0 < t ∧ r + s + t = 1 ∧ x = r • a + s • b + t • c

/-- No boundary edge enters the triangle. -/
def Undivided (ext : Option (List (K × K))) (ints : List (List (K × K))) (a b c : K × K) : Prop :=
  ∀ vs, (ext = some vs ∨ vs ∈ ints) → ∀ e ∈ circularPairs vs, ∀ x, OpenTri a b c x → ¬ OnSegment e.1 e.2 x

/-- A triangulation with vertices among the inserted ones and faces between its vertices. -/
structure Sound {V : Type} (inserted : List V) (t : Triangles V) : Prop where
  vertices : ∀ v ∈ t.vertices, v ∈ inserted
  faces : ∀ f ∈ t.faces, f.1 < t.vertices.length ∧ f.2.1 < t.vertices.length ∧ f.2.2 < t.vertices.length

/-! ### Selection of faces -/

theorem openTri_center (a b c : K × K) : OpenTri a b c (center a b c) := by
  refine ⟨1/3, 1/3, 1/3, by norm_num, by norm_num, by norm_num, by norm_num, ?_⟩
  ext <;> simp [center] <;> ring

theorem OpenTri.segment {a b c x y z : K × K} (hx : OpenTri a b c x) (hy : OpenTri a b c y) (hz : OnSegment x y z) :
    OpenTri a b c z := by
  obtain ⟨r, s, t, h1, h2, h3, h4, rfl⟩ := hx
  obtain ⟨r', s', t', h1', h2', h3', h4', rfl⟩ := hy
  obtain ⟨u, h0, h1u, rfl⟩ := hz
  have mix : ∀ p q : K, 0 < p → 0 < q → 0 < (1 - u) * p + u * q := by
    intro p q hp hq
    rcases h0.lt_or_eq with h0 | rfl
    · have := mul_pos h0 hq
      have := mul_nonneg (sub_nonneg.2 h1u) hp.le
      linarith
    · simpa using hp
  refine ⟨(1 - u) * r + u * r', (1 - u) * s + u * s', (1 - u) * t + u * t', mix _ _ h1 h1', mix _ _ h2 h2', mix _ _ h3 h3', ?_, ?_⟩
  · have : (1 - u) * r + u * r' + ((1 - u) * s + u * s') + ((1 - u) * t + u * t') =
        (1 - u) * (r + s + t) + u * (r' + s' + t') := by ring
    rw [this, h4, h4']; ring
  · module

theorem keep_iff (ext : Option (List (K × K))) (ints : List (List (K × K))) (a b c : K × K) :
    keep eps ext ints a b c = true ↔
      eps ≤ |(b.1 - a.1) * (c.2 - a.2) - (b.2 - a.2) * (c.1 - a.1)| ∧ InRegion ext ints (center a b c) := by
  have harea : faceArea a b c = (b.1 - a.1) * (c.2 - a.2) - (b.2 - a.2) * (c.1 - a.1) := by
    rw [faceArea]; ring
  unfold keep
  rw [harea]
  by_cases h : |(b.1 - a.1) * (c.2 - a.2) - (b.2 - a.2) * (c.1 - a.1)| < eps
  · rw [if_pos h]
    simp [not_le.2 h]
  · rw [if_neg h]
    simp only [not_lt.1 h, true_and, InRegion, polygonContains]
    cases ext <;> simp

theorem inRegion_constant {ext : Option (List (K × K))} {ints : List (List (K × K))} {a b c x y : K × K}
    (hu : Undivided ext ints a b c) (hx : OpenTri a b c x) (hy : OpenTri a b c y) :
    InRegion ext ints x ↔ InRegion ext ints y := by
  have key : ∀ vs, (ext = some vs ∨ vs ∈ ints) → winding vs x = winding vs y := fun vs hvs =>
    (C57_constant vs x y fun e he z hz => hu vs hvs e he z (hx.segment hy hz)).1
  constructor
  · exact fun h => ⟨fun vs hv => by rw [← key vs (.inl hv)]; exact h.1 vs hv,
      fun vs hv => by rw [← key vs (.inr hv)]; exact h.2 vs hv⟩
  · exact fun h => ⟨fun vs hv => by rw [key vs (.inl hv)]; exact h.1 vs hv,
      fun vs hv => by rw [key vs (.inr hv)]; exact h.2 vs hv⟩

theorem filterMap_if {A : Type} (p : A → Bool) (l : List A) :
    (l.map fun f => if p f then some f else none).filterMap id = l.filter p := by
  induction l with
  | nil => rfl
  | cons f l ih =>
    rw [List.map_cons, List.filter_cons]
    cases p f
    · rw [List.filterMap_cons_none (by rfl), ih]; rfl
    · rw [List.filterMap_cons_some (b := f) (by rfl), ih]; rfl

theorem selectFaces_ok {V : Type} {uv : V → K × K} {ext : Option (List (K × K))} {ints : List (List (K × K))}
    {t : Triangles V} (h : ∀ f ∈ t.faces, f.1 < t.vertices.length ∧ f.2.1 < t.vertices.length ∧ f.2.2 < t.vertices.length) :
    ∃ fs, selectFaces uv eps ext ints t = .ok fs ∧ fs.Sublist t.faces ∧
      ∀ f a b c, t.vertices[f.1]? = some a → t.vertices[f.2.1]? = some b → t.vertices[f.2.2]? = some c →
        (f ∈ fs ↔ f ∈ t.faces ∧
          eps ≤ |((uv b).1 - (uv a).1) * ((uv c).2 - (uv a).2) - ((uv b).2 - (uv a).2) * ((uv c).1 - (uv a).1)| ∧
          InRegion ext ints (center (uv a) (uv b) (uv c))) := by
  classical
  let good : ℕ × ℕ × ℕ → Bool := fun f =>
    match t.vertices[f.1]?, t.vertices[f.2.1]?, t.vertices[f.2.2]? with
    | some a, some b, some c => keep eps ext ints (uv a) (uv b) (uv c)
    | _, _, _ => false
  have hgood : ∀ f a b c, t.vertices[f.1]? = some a → t.vertices[f.2.1]? = some b → t.vertices[f.2.2]? = some c →
      good f = keep eps ext ints (uv a) (uv b) (uv c) := by
    intro f a b c ha hb hc
    simp only [good, ha, hb, hc]
  have e : (t.faces.mapM fun f => do
      let a ← getR t.vertices f.1
      let b ← getR t.vertices f.2.1
      let c ← getR t.vertices f.2.2
      pure (if keep eps ext ints (uv a) (uv b) (uv c) then some f else none)) =
      .ok (t.faces.map fun f => if good f then some f else none) := by
    apply mapM_ok
    intro f hf
    obtain ⟨h1, h2, h3⟩ := h f hf
    rw [getR_eq_ok h1, ok_bind, getR_eq_ok h2, ok_bind, getR_eq_ok h3, ok_bind,
      hgood f _ _ _ (List.getElem?_eq_getElem h1) (List.getElem?_eq_getElem h2) (List.getElem?_eq_getElem h3)]
    rfl
  have ef := filterMap_if good t.faces
  refine ⟨t.faces.filter good, ?_, List.filter_sublist, ?_⟩
  · rw [selectFaces, e, ok_bind, ef]; rfl
  · intro f a b c ha hb hc
    rw [List.mem_filter, hgood f a b c ha hb hc, keep_iff]


/-! ### Boundaries -/

/-- A sampled trimming curve: every vertex lies on the surface, over the trimming curve. -/
def Lifted (E : Space K W) (eps : K) (S : Surface K (W × K)) (c : UvCurve K) (vs : List (Vertex K W)) : Prop :=
  ∀ v ∈ vs, ∃ t, c.lo ≤ t ∧ t ≤ c.hi ∧ IsSample E eps S c t v

theorem lifted_of_forall₂ {E : Space K W} {S : Surface K (W × K)} {c : UvCurve K} : ∀ {ts : List K} {vs : List (Vertex K W)},
    (∀ t ∈ ts, c.lo ≤ t ∧ t ≤ c.hi) → List.Forall₂ (IsSample E eps S c) ts vs → Lifted E eps S c vs
  | [], _, _, .nil => by intro v hv; cases hv
  | t :: ts, v :: vs, hb, .cons h1 h2 => by
    intro w hw
    rcases List.mem_cons.1 hw with rfl | hw
    · exact ⟨t, (hb t (by simp)).1, (hb t (by simp)).2, h1⟩
    · exact lifted_of_forall₂ (fun x hx => hb x (List.mem_cons_of_mem _ hx)) h2 w hw

/-- The parameters prescribed for a trimming curve are in its domain. -/
def KnotsIn (c : UvCurve K) (k : Option (List K)) : Prop := ∀ ts, k = some ts → ∀ t ∈ ts, c.lo ≤ t ∧ t ≤ c.hi

/-- The samples of one trimming curve, at prescribed parameters or adaptive. -/
def oneTrim (E : Space K W) (eps floor : K) (fuel : ℕ) (S : Surface K (W × K)) (tol : K) (c : UvCurve K) :
    Option (List K) → Res (List (Vertex K W))
  | some ts => constraintVertices E eps S c ts
  | none => uvVertices E eps floor fuel S tol c

theorem constraintVertices_ok {S : Surface K (W × K)} (hS : S.Good eps) (hw : ∀ row ∈ S.cps, ∀ p ∈ row, 0 < p.2)
    {c : UvCurve K} (h : Over eps S c) (E : Space K W) {ts : List K} (ht : ∀ t ∈ ts, c.lo ≤ t ∧ t ≤ c.hi) :
    ∃ vs, constraintVertices E eps S c ts = .ok vs ∧ List.Forall₂ (IsSample E eps S c) ts vs := by
  obtain ⟨vs, e, hv⟩ := lift_samples hS hw h E ht
  refine ⟨vs, ?_, hv⟩
  rw [constraintVertices, ← e, List.mapM_map]
  apply mapM_congr'
  intro t htt
  rw [h.pointAt (ht t htt).1 (ht t htt).2, ok_bind]
  rfl

theorem oneTrim_ok [Archimedean K] {S : Surface K (W × K)} (hS : S.Good eps) (hw : ∀ row ∈ S.cps, ∀ p ∈ row, 0 < p.2)
    {c : UvCurve K} (h : Over eps S c) (E : Space K W) (tol : K) (hf : 0 < floor) {k : Option (List K)} (hk : KnotsIn c k) :
    ∃ (n : ℕ) (vs : List (Vertex K W)), (∀ fuel, n ≤ fuel → oneTrim E eps floor fuel S tol c k = .ok vs) ∧
      Lifted E eps S c vs := by
  cases k with
  | none =>
    obtain ⟨n, ts, vs, e, -, -, bd, hv⟩ := C83_increasing hS hw h E tol hf
    exact ⟨n, vs, e, lifted_of_forall₂ bd hv⟩
  | some ts =>
    obtain ⟨vs, e, hv⟩ := constraintVertices_ok hS hw h E (hk ts rfl)
    exact ⟨0, vs, fun _ _ => e, lifted_of_forall₂ (hk ts rfl) hv⟩

theorem trims_ok [Archimedean K] {S : Surface K (W × K)} (hS : S.Good eps) (hw : ∀ row ∈ S.cps, ∀ p ∈ row, 0 < p.2)
    (E : Space K W) (tol : K) (hf : 0 < floor) : ∀ l : List (UvCurve K × Option (List K)),
    (∀ x ∈ l, Over eps S x.1 ∧ KnotsIn x.1 x.2) →
    ∃ (n : ℕ) (vss : List (List (Vertex K W))), (∀ fuel, n ≤ fuel →
      (l.mapM fun x => oneTrim E eps floor fuel S tol x.1 x.2) = .ok vss) ∧
      List.Forall₂ (fun x vs => Lifted E eps S x.1 vs) l vss
  | [], _ => ⟨0, [], fun _ _ => rfl, .nil⟩
  | x :: l, h => by
    obtain ⟨n, vss, e, hv⟩ := trims_ok hS hw E tol hf l fun y hy => h y (List.mem_cons_of_mem _ hy)
    obtain ⟨m, vs, e', hv'⟩ := oneTrim_ok hS hw (h x (by simp)).1 E tol hf (h x (by simp)).2
    refine ⟨max n m, vs :: vss, fun fuel hfu => ?_, .cons hv' hv⟩
    rw [List.mapM_cons, e' fuel ((le_max_right _ _).trans hfu), ok_bind, e fuel ((le_max_left _ _).trans hfu), ok_bind]
    rfl

/-- Prescribed parameters: one entry for every interior trim, all in the domains. -/
def ConstraintsFit (t : Serde.Trimmed (Surface K (W × K)) (UvCurve K)) : Option (TrimConstraints K) → Prop
  | none => True
  | some cs => cs.interiors.length = t.interiors.length ∧ (∀ c, t.exterior = some c → KnotsIn c cs.exterior) ∧
      ∀ x ∈ t.interiors.zip cs.interiors, KnotsIn x.1 x.2

/-- A trimmed surface whose trims lie over its domain. -/
structure TrimOK (eps : K) (t : Serde.Trimmed (Surface K (W × K)) (UvCurve K)) : Prop where
  surface : t.surface.Good eps
  weights : ∀ row ∈ t.surface.cps, ∀ p ∈ row, 0 < p.2
  exterior : ∀ c, t.exterior = some c → Over eps t.surface c
  interiors : ∀ c ∈ t.interiors, Over eps t.surface c

theorem boundaries_ok [Archimedean K] {t : Serde.Trimmed (Surface K (W × K)) (UvCurve K)} (h : TrimOK eps t) (E : Space K W) (tol : K)
    (hf : 0 < floor) (cs : Option (TrimConstraints K)) (hcs : ConstraintsFit t cs) :
    ∃ (n : ℕ) (ext : Option (List (Vertex K W))) (ints : List (List (Vertex K W))),
      (∀ fuel, n ≤ fuel → boundaries E eps floor fuel tol t cs = .ok (ext, ints)) ∧
      (∀ vs, ext = some vs → ∃ c, t.exterior = some c ∧ Lifted E eps t.surface c vs) ∧
      (ext = none ↔ t.exterior = none) ∧ List.Forall₂ (fun c vs => Lifted E eps t.surface c vs) t.interiors ints := by
  obtain ⟨ke, ki, hke, hki, hb⟩ : ∃ (ke : Option (List K)) (ki : List (Option (List K))),
      (∀ c, t.exterior = some c → KnotsIn c ke) ∧
      (ki.length = t.interiors.length ∧ ∀ x ∈ t.interiors.zip ki, KnotsIn x.1 x.2) ∧
      ∀ fuel, boundaries E eps floor fuel tol t cs = (do
        let ext ← optMapM (fun c => oneTrim E eps floor fuel t.surface tol c ke) t.exterior
        let int ← (t.interiors.zip ki).mapM fun x => oneTrim E eps floor fuel t.surface tol x.1 x.2
        pure (ext, int)) := by
    cases cs with
    | none =>
      refine ⟨none, t.interiors.map fun _ => none, ?_, ⟨by simp, ?_⟩, ?_⟩
      · intro c _ ts hts; cases hts
      · intro x hx ts hts
        obtain ⟨-, hx⟩ := List.of_mem_zip (a := x.1) (b := x.2) hx
        obtain ⟨_, _, hx⟩ := List.mem_map.1 hx
        rw [hts] at hx; cases hx
      · intro fuel
        have : (t.interiors.zip (t.interiors.map fun _ => none)).mapM
            (fun x : UvCurve K × Option (List K) => oneTrim E eps floor fuel t.surface tol x.1 x.2) =
            t.interiors.mapM (uvVertices E eps floor fuel t.surface tol) := by
          induction t.interiors with
          | nil => rfl
          | cons c l ih => rw [List.map_cons, List.zip_cons_cons, List.mapM_cons, List.mapM_cons, ih]; rfl
        rw [this]
        rfl
    | some cs =>
      refine ⟨cs.exterior, cs.interiors, hcs.2.1, ⟨hcs.1, hcs.2.2⟩, ?_⟩
      intro fuel
      rw [boundaries, if_neg (by simp [hcs.1])]
      rfl
  obtain ⟨n, ints, ei, hi⟩ := trims_ok (floor := floor) h.surface h.weights E tol hf (t.interiors.zip ki) fun x hx =>
    ⟨h.interiors x.1 (List.of_mem_zip (a := x.1) (b := x.2) hx).1, hki.2 x hx⟩
  have hi' : List.Forall₂ (fun c vs => Lifted E eps t.surface c vs) t.interiors ints := by
    have hl := hki.1
    clear ei hki hb
    generalize t.interiors = l at hi hl
    induction l generalizing ki ints with
    | nil =>
      have : ki = [] := List.length_eq_zero_iff.1 hl
      subst this
      cases hi; exact .nil
    | cons c l ih =>
      cases ki with
      | nil => simp at hl
      | cons k ki =>
        rw [List.zip_cons_cons] at hi
        cases hi with
        | cons h1 h2 => exact .cons h1 (ih _ _ h2 (by simpa using hl))
  cases hx : t.exterior with
  | none =>
    refine ⟨n, none, ints, fun fuel hfu => ?_, by simp, by simp, hi'⟩
    rw [hb, hx, optMapM, pure_eq_ok, ok_bind, ei fuel hfu, ok_bind]; rfl
  | some c =>
    obtain ⟨m, vs, ev, hv⟩ := oneTrim_ok (floor := floor) h.surface h.weights (h.exterior c hx) E tol hf (hke c hx)
    refine ⟨max n m, some vs, ints, fun fuel hfu => ?_, ?_, by simp, hi'⟩
    · rw [hb, hx, optMapM, ev fuel ((le_max_right _ _).trans hfu), ok_bind, pure_eq_ok, ok_bind,
        ei fuel ((le_max_left _ _).trans hfu), ok_bind]; rfl
    · rintro _ ⟨⟩
      exact ⟨c, rfl, hv⟩

/-! ### The mesh of a trimmed surface -/

theorem mem_of_mem_loopOf [DecidableEq W] {vs : List (Vertex K W)} {v : Vertex K W} (h : v ∈ loopOf vs) : v ∈ vs := by
  unfold loopOf at h
  split at h
  · split_ifs at h
    · exact List.mem_of_mem_drop h
    · exact h
  · exact h

/-- The parameter polygons of sampled boundaries. -/
abbrev polygon (vs : List (Vertex K W)) : List (K × K) := vs.map Vertex.uv

/-- The tessellation of a trimmed surface, for every triangulation with vertices among the inserted ones: it succeeds, the
    mesh is valid and all its vertices are on the surface at their parameters. Its faces are those faces of the
    triangulation that are not thinner than the tolerance and whose centre is inside the sampled exterior trim and
    outside the sampled interior ones, in their order. A face of the triangulation that no sampled trim enters is kept if
    all its inner points are in the trimmed region and dropped if none is; there is no other case. -/
theorem C84_trimmed [Archimedean K] [DecidableEq W] {t : Serde.Trimmed (Surface K (W × K)) (UvCurve K)} (h : TrimOK eps t)
    (hd : GridDegrees t.surface) (E : Space K W) (M : Metric K W) (tol : K) (hf : 0 < floor)
    (cs : Option (TrimConstraints K)) (hcs : ConstraintsFit t cs) (opts : Option (Options K)) (dflt : Options K)
    (delaunay : List (Vertex K W) → List (List (Vertex K W)) → Triangles (Vertex K W))
    (hdel : ∀ free loops, Sound (free ++ loops.flatten) (delaunay free loops)) :
    ∃ (n : ℕ) (out : Surface.Tessellation K W) (free : List (Vertex K W)) (ext : Option (List (Vertex K W)))
      (ints : List (List (Vertex K W))),
      (∀ fuel fuel', n ≤ fuel → (∀ o, opts = some o → max o.minDepth o.maxDepth < fuel') →
        tessellate E eps floor fuel tol delaunay (tessellateSurface M eps fuel' t.surface none opts dflt) t cs = .ok out) ∧
      MeshOK (surfPoint t.surface) (domRect t.surface) out ∧
      (∀ vs, ext = some vs → ∃ c, t.exterior = some c ∧ Lifted E eps t.surface c vs) ∧
      (ext = none ↔ t.exterior = none) ∧ List.Forall₂ (fun c vs => Lifted E eps t.surface c vs) t.interiors ints ∧
      out.faces.Sublist (delaunay free ((ext.toList ++ ints).map loopOf)).faces ∧
      ∀ f a b c, out.uvs[f.1]? = some a → out.uvs[f.2.1]? = some b → out.uvs[f.2.2]? = some c →
        (f ∈ out.faces ↔ f ∈ (delaunay free ((ext.toList ++ ints).map loopOf)).faces ∧
          eps ≤ |(b.1 - a.1) * (c.2 - a.2) - (b.2 - a.2) * (c.1 - a.1)| ∧
          InRegion (ext.map polygon) (ints.map polygon) (center a b c)) ∧
        (f ∈ (delaunay free ((ext.toList ++ ints).map loopOf)).faces →
          eps ≤ |(b.1 - a.1) * (c.2 - a.2) - (b.2 - a.2) * (c.1 - a.1)| →
          Undivided (ext.map polygon) (ints.map polygon) a b c →
          (f ∈ out.faces → ∀ x, OpenTri a b c x → InRegion (ext.map polygon) (ints.map polygon) x) ∧
          (f ∉ out.faces → ∀ x, OpenTri a b c x → ¬ InRegion (ext.map polygon) (ints.map polygon) x)) := by
  obtain ⟨n, ext, ints, eb, hext, hnone, hints⟩ := boundaries_ok (floor := floor) h E tol hf cs hcs
  obtain ⟨m, em, hm⟩ := C45_mesh_valid (M := M) h.surface h.weights hd none (by simp) opts dflt
  obtain ⟨free, hfree⟩ : ∃ free : List (Vertex K W),
    free = ((m.points.zip m.normals).zip m.uvs).map fun v => (⟨v.1.1, v.1.2, v.2⟩ : Vertex K W) := ⟨_, rfl⟩
  have hS := hdel free ((ext.toList ++ ints).map loopOf)
  obtain ⟨tri, htri⟩ : ∃ tri, tri = delaunay free ((ext.toList ++ ints).map loopOf) := ⟨_, rfl⟩
  rw [← htri] at hS
  have hon : ∀ v ∈ tri.vertices, v.point = surfPoint t.surface v.uv ∧ (domRect t.surface).Mem v.uv := by
    intro v hv
    rcases List.mem_append.1 (hS.vertices v hv) with hv | hv
    · rw [hfree] at hv
      obtain ⟨w, hw, rfl⟩ := List.mem_map.1 hv
      obtain ⟨i, hi, rfl⟩ := List.mem_iff_getElem.1 hw
      simp only [List.getElem_zip]
      have h1 : i < m.uvs.length := by simp at hi; omega
      have h2 := hm.points
      refine ⟨?_, hm.inside _ (List.getElem_mem _)⟩
      simp only [h2, List.getElem_map]
    · have lift : ∀ (c : UvCurve K) (vs : List (Vertex K W)), Over eps t.surface c → Lifted E eps t.surface c vs → v ∈ vs →
          v.point = surfPoint t.surface v.uv ∧ (domRect t.surface).Mem v.uv := by
        intro c vs hc hv hvv
        obtain ⟨s, h1, h2, e1, e2, -⟩ := hv v hvv
        have huv : v.uv = uvPoint c s := by
          rw [hc.pointAt h1 h2] at e1
          exact (Except.ok.inj e1).symm
        have hmem : (domRect t.surface).Mem v.uv := by rw [huv]; exact hc.mem h1 h2
        refine ⟨?_, hmem⟩
        rw [surf_pointAt h.surface h.weights hmem] at e2
        exact (Except.ok.inj e2).symm
      obtain ⟨l, hl, hvl⟩ := List.mem_flatten.1 hv
      obtain ⟨vs, hvs, rfl⟩ := List.mem_map.1 hl
      have hvv := mem_of_mem_loopOf hvl
      rcases List.mem_append.1 hvs with hvs | hvs
      · obtain ⟨c, hc, hL⟩ := hext vs (by simpa using hvs)
        exact lift c vs (h.exterior c hc) hL hvv
      · obtain ⟨c, hc, hL⟩ := forall₂_mem_right hints hvs
        exact lift c vs (h.interiors c hc) hL hvv
  obtain ⟨fs, efs, hsub, hfs⟩ := selectFaces_ok (eps := eps) (uv := Vertex.uv) (ext := ext.map polygon)
    (ints := ints.map polygon) hS.faces
  refine ⟨n, ⟨tri.vertices.map Vertex.point, tri.vertices.map Vertex.normal, fs, tri.vertices.map Vertex.uv⟩, free, ext, ints,
    ?_, ?_, hext, hnone, hints, ?_, ?_⟩
  · intro fuel fuel' hfu hfu'
    rw [tessellate, eb fuel hfu, ok_bind, em fuel' hfu', ok_bind]
    simp only []
    rw [← hfree, ← htri, efs, ok_bind]
    rfl
  · refine ⟨by simp, by simp, ?_, ?_, ?_⟩
    · simp only [List.map_map]
      exact List.map_congr_left fun v hv => (hon v hv).1
    · intro x hx
      obtain ⟨v, hv, rfl⟩ := List.mem_map.1 hx
      exact (hon v hv).2
    · intro f hf
      simpa using hS.faces f (hsub.subset hf)
  · rw [← htri]; exact hsub
  · rw [← htri]
    intro f a b c ha hb hc
    simp only [List.getElem?_map, Option.map_eq_some_iff] at ha hb hc
    obtain ⟨va, ha, rfl⟩ := ha
    obtain ⟨vb, hb, rfl⟩ := hb
    obtain ⟨vc, hc, rfl⟩ := hc
    have key := hfs f va vb vc ha hb hc
    refine ⟨key, fun hf hA hU => ⟨fun hin x hx => ?_, fun hout x hx hreg => ?_⟩⟩
    · exact (inRegion_constant hU hx (openTri_center _ _ _)).2 (key.1 hin).2.2
    · exact hout (key.2 ⟨hf, hA, (inRegion_constant hU hx (openTri_center _ _ _)).1 hreg⟩)

/-- The number of interior constraints must match the number of interior trims. -/
theorem C84_mismatch [DecidableEq W] (t : Serde.Trimmed (Surface K (W × K)) (UvCurve K)) (E : Space K W) (fuel : ℕ)
    (delaunay : List (Vertex K W) → List (List (Vertex K W)) → Triangles (Vertex K W)) (mesh : Res (Surface.Tessellation K W))
    (cs : TrimConstraints K) (hne : cs.interiors.length ≠ t.interiors.length) :
    tessellate E eps floor fuel tol delaunay mesh t (some cs) = .error .err := by
  rw [tessellate, boundaries, if_pos hne]
  rfl

/-! ### The mesh of a region -/

/-- The tessellation of a region: vertices are sampled boundary points; the faces are the faces of the triangulation of
    sufficient area with centre inside the exterior and outside the interiors; a face that no boundary edge enters is kept
    if all its inner points are in the region and dropped if none is. -/
theorem C84_region {C : Type} {sample : C → Res (List (K × K))} {delaunay : List (List (K × K)) → Triangles (K × K)}
    (r : Boolean.Region C) {ext : List (K × K)} {ints : List (List (K × K))} (he : sample r.exterior = .ok ext)
    (hi : List.Forall₂ (fun c vs => sample c = .ok vs) r.interiors ints)
    (hdel : Sound (ext :: ints).flatten (delaunay (ext :: ints))) :
    ∃ out, tessellateRegion eps sample delaunay r = .ok out ∧
      (∀ v ∈ out.vertices, v ∈ ext ∨ ∃ vs ∈ ints, v ∈ vs) ∧
      (∀ f ∈ out.faces, f.1 < out.vertices.length ∧ f.2.1 < out.vertices.length ∧ f.2.2 < out.vertices.length) ∧
      out.faces.Sublist (delaunay (ext :: ints)).faces ∧
      ∀ f a b c, out.vertices[f.1]? = some a → out.vertices[f.2.1]? = some b → out.vertices[f.2.2]? = some c →
        (f ∈ out.faces ↔ f ∈ (delaunay (ext :: ints)).faces ∧
          eps ≤ |(b.1 - a.1) * (c.2 - a.2) - (b.2 - a.2) * (c.1 - a.1)| ∧ InRegion (some ext) ints (center a b c)) ∧
        (f ∈ (delaunay (ext :: ints)).faces → eps ≤ |(b.1 - a.1) * (c.2 - a.2) - (b.2 - a.2) * (c.1 - a.1)| →
          Undivided (some ext) ints a b c →
          (f ∈ out.faces → ∀ x, OpenTri a b c x → InRegion (some ext) ints x) ∧
          (f ∉ out.faces → ∀ x, OpenTri a b c x → ¬ InRegion (some ext) ints x)) := by
  obtain ⟨fs, efs, hsub, hfs⟩ := selectFaces_ok (eps := eps) (uv := id) (ext := some ext) (ints := ints) hdel.faces
  have em : r.interiors.mapM sample = .ok ints := by
    clear efs hsub hfs hdel he
    generalize r.interiors = l at hi
    induction hi with
    | nil => rfl
    | cons h1 _ ih => rw [List.mapM_cons, h1, ok_bind, ih, ok_bind]; rfl
  refine ⟨⟨(delaunay (ext :: ints)).vertices, fs⟩, ?_, ?_, fun f hf => hdel.faces f (hsub.subset hf), hsub, ?_⟩
  · rw [tessellateRegion, he, ok_bind, em, ok_bind]
    simp only []
    rw [efs, ok_bind]
    rfl
  · intro v hv
    have := hdel.vertices v hv
    simpa using this
  · intro f a b c ha hb hc
    have key := hfs f a b c ha hb hc
    refine ⟨key, fun hf hA hU => ⟨fun hin x hx => ?_, fun hout x hx hreg => ?_⟩⟩
    · exact (inRegion_constant hU hx (openTri_center _ _ _)).2 (key.1 hin).2.2
    · exact hout (key.2 ⟨hf, hA, (inRegion_constant hU hx (openTri_center _ _ _)).1 hreg⟩)

/-! ### Witnesses -/

/-- A square with a square hole. -/
def exFrame : Boolean.Region (List (ℚ × ℚ)) where
  exterior := [(0, 0), (3, 0), (3, 3), (0, 3)]
  interiors := [[(1, 1), (2, 1), (2, 2), (1, 2)]]

/-- A triangulation of the square that has the edges of the hole. -/
def exFrameTri : Triangles (ℚ × ℚ) where
  vertices := [(0, 0), (3, 0), (3, 3), (0, 3), (1, 1), (2, 1), (2, 2), (1, 2)]
  faces := [(0, 1, 4), (1, 5, 4), (4, 5, 6), (1, 2, 5), (2, 6, 5), (4, 6, 7), (2, 3, 6), (3, 7, 6), (3, 0, 7), (0, 4, 7)]

example := C84_region (eps := (1/1000 : ℚ)) (sample := fun l => .ok l) (delaunay := fun _ => exFrameTri) exFrame
  (ext := exFrame.exterior) (ints := exFrame.interiors) rfl (.cons rfl .nil)
  ⟨by decide +kernel, by decide +kernel⟩

/-- The two faces in the hole are dropped. -/
example : (tessellateRegion (1/1000 : ℚ) (fun l => .ok l) (fun _ => exFrameTri) exFrame).map Mesh.faces =
    .ok [(0, 1, 4), (1, 5, 4), (1, 2, 5), (2, 6, 5), (2, 3, 6), (3, 7, 6), (3, 0, 7), (0, 4, 7)] := by
  decide +kernel

/-- A triangle of the frame that no boundary edge enters. -/
example : Undivided (some exFrame.exterior) exFrame.interiors ((0, 0) : ℚ × ℚ) (3, 0) (1, 1) := by
  intro vs hvs e he x hx
  obtain ⟨r, s, t, hr, hs, ht, hsum, rfl⟩ := hx
  rintro ⟨u, h0, h1, hE⟩
  have hE1 := congrArg Prod.fst hE
  have hE2 := congrArg Prod.snd hE
  rcases hvs with hvs | hvs
  · obtain rfl := Option.some.inj hvs
    have he : e = ((0, 0), (3, 0)) ∨ e = ((3, 0), (3, 3)) ∨ e = ((3, 3), (0, 3)) ∨ e = ((0, 3), (0, 0)) := by
      simpa [exFrame, circularPairs] using he
    rcases he with rfl | rfl | rfl | rfl <;> simp at hE1 hE2 <;> linarith
  · have hvs : vs = [(1, 1), (2, 1), (2, 2), (1, 2)] := by simpa [exFrame] using hvs
    subst hvs
    have he : e = ((1, 1), (2, 1)) ∨ e = ((2, 1), (2, 2)) ∨ e = ((2, 2), (1, 2)) ∨ e = ((1, 2), (1, 1)) := by
      simpa [circularPairs] using he
    rcases he with rfl | rfl | rfl | rfl <;> simp at hE1 hE2 <;> linarith

/-- A triangulation in the form of a fan. -/
def exFan {V : Type} (free : List V) (loops : List (List V)) : Triangles V where
  vertices := free ++ loops.flatten
  faces := (List.range ((free ++ loops.flatten).length - 2)).map fun i => (0, i + 1, i + 2)

theorem exFan_sound {V : Type} (free : List V) (loops : List (List V)) : Sound (free ++ loops.flatten) (exFan free loops) where
  vertices := fun v hv => hv
  faces := by
    intro f hf
    obtain ⟨i, hi, rfl⟩ := List.mem_map.1 hf
    rw [List.mem_range] at hi
    change 0 < (free ++ loops.flatten).length ∧ i + 1 < (free ++ loops.flatten).length ∧
      i + 2 < (free ++ loops.flatten).length
    omega

/-- The unit square trimmed by two curves. -/
def exTrimmed : Serde.Trimmed (Surface ℚ ((ℚ × ℚ × ℚ) × ℚ)) (UvCurve ℚ) where
  surface := exFlat
  exterior := some exHook
  interiors := [exSwing]

theorem exTrimmed_ok : TrimOK (1/1000) exTrimmed where
  surface := exFlat_good
  weights := exFlat_weights
  exterior := by rintro _ ⟨⟩; exact exHook_over
  interiors := by
    intro c hc
    obtain rfl : c = exSwing := by simpa [exTrimmed] using hc
    exact exSwing_over

theorem exFlat_degrees : GridDegrees exFlat := by
  refine ⟨.inr ⟨rfl, ?_⟩, .inr ⟨rfl, ?_⟩⟩ <;>
  · intro i h1 h2
    replace h2 : i < 2 := h2
    rcases i with _ | _ | i <;> first | omega | decide +kernel

example (opts : Option (Options ℚ)) (dflt : Options ℚ) := C84_trimmed exTrimmed_ok exFlat_degrees exSpace spaceMetric (1/100)
  (floor := 1/100000000) (by norm_num) none trivial opts dflt exFan exFan_sound
example (opts : Option (Options ℚ)) (dflt : Options ℚ) := C84_trimmed exTrimmed_ok exFlat_degrees exSpace spaceMetric (1/100)
  (floor := 1/100000000) (by norm_num) (some ⟨some [0, 1/4, 1], [none]⟩)
  ⟨rfl, by
    rintro _ ⟨⟩ _ ⟨⟩ t ht
    have : t = 0 ∨ t = 1/4 ∨ t = 1 := by simpa using ht
    rcases this with rfl | rfl | rfl <;> decide +kernel, by
    intro x hx ts hts
    obtain rfl : x = (exSwing, none) := by simpa [exTrimmed] using hx
    cases hts⟩ opts dflt exFan exFan_sound

example : tessellate exSpace (1/1000) (1/100000000) 40 (1/100) exFan (.error .err) exTrimmed (some ⟨none, []⟩) = .error .err :=
  C84_mismatch exTrimmed exSpace 40 exFan _ ⟨none, []⟩ (by decide)

end Curvo.Props

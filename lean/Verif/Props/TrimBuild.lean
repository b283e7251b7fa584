/-
  C85: construction and transformation of trimmed surfaces.
-/
import Verif.Props.TrimSample
import Verif.Props.Surface2
import Verif.Props.Surface3
import Verif.Props.Intersect
import Verif.Props.Contains

set_option linter.unusedSectionVars false

namespace Curvo.Props

open Curvo Curvo.Knots Curvo.Spec Curvo.Trimmed Curvo.Tess

variable {K : Type} [Field K] [LinearOrder K] [IsStrictOrderedRing K]
variable {W : Type} [AddCommGroup W] [Module K W]
variable {eps : K}

/-! ### From curves in space to curves in the parameter plane -/

/-- `c'` is the curve of the parameter plane with the degree, the knots and the weights of `c` and, for each control point,
    the parameters that `find` gives for the control point of `c`. -/
structure Mapped (find : W → Res (K × K)) (c : Curve K (W × K)) (c' : UvCurve K) : Prop where
  degree : c'.degree = c.degree
  knots : c'.knots = c.knots
  cps : List.Forall₂ (fun (p : W × K) (q : (K × K) × K) => q.2 = p.2 ∧ find (p.2⁻¹ • p.1) = .ok (q.2⁻¹ • q.1)) c.cps c'.cps

theorem weighted_proj {uv : K × K} {w : K} (hw : w ≠ 0) : (weighted uv w).2⁻¹ • (weighted uv w).1 = uv := by
  rw [weighted]
  ext
  · simp only [Prod.smul_fst, smul_eq_mul]; field_simp
  · simp only [Prod.smul_snd, smul_eq_mul]; field_simp

theorem Mapped.good {find : W → Res (K × K)} {c : Curve K (W × K)} {c' : UvCurve K} (h : Mapped find c c') (hc : c.Good eps) :
    c'.Good eps := by
  have hl := h.cps.length_eq
  refine ⟨by rw [← hl]; exact hc.cps_pos, by rw [h.knots, h.degree, ← hl]; exact hc.knots_len, ?_⟩
  rw [h.knots, h.degree, ← hl]
  exact hc.good

/-- A curve is mapped control point by control point; if the parameters are in the domain of the surface, the trimming
    curve stays in it. -/
theorem mapCurve_ok {find : W → Res (K × K)} {c : Curve K (W × K)} (h : c.Good eps) (hw : ∀ p ∈ c.cps, 0 < p.2)
    (hf : ∀ p ∈ c.cps, ∃ uv, find (p.2⁻¹ • p.1) = .ok uv) : ∃ c', mapCurve find c = .ok c' ∧ Mapped find c c' := by
  have key : ∀ l : List (W × K), (∀ p ∈ l, 0 < p.2) → (∀ p ∈ l, ∃ uv, find (p.2⁻¹ • p.1) = .ok uv) →
      ∃ cps, (((l.map fun p => p.2⁻¹ • p.1).zip (l.map Prod.snd)).mapM fun pw => (do
        let uv ← find pw.1
        pure (weighted uv pw.2) : Res ((K × K) × K))) = .ok cps ∧
        List.Forall₂ (fun (p : W × K) (q : (K × K) × K) => q.2 = p.2 ∧ find (p.2⁻¹ • p.1) = .ok (q.2⁻¹ • q.1)) l cps := by
    intro l
    induction l with
    | nil => exact fun _ _ => ⟨[], rfl, .nil⟩
    | cons p l ih =>
      intro h1 h2
      obtain ⟨cps, e, hc⟩ := ih (fun q hq => h1 q (List.mem_cons_of_mem _ hq)) fun q hq => h2 q (List.mem_cons_of_mem _ hq)
      obtain ⟨uv, eu⟩ := h2 p (by simp)
      refine ⟨weighted uv p.2 :: cps, ?_, .cons ⟨rfl, ?_⟩ hc⟩
      · rw [List.map_cons, List.map_cons, List.zip_cons_cons, List.mapM_cons, e]
        simp only [eu, ok_bind]
        rfl
      · rw [weighted_proj (h1 p (by simp)).ne']; exact eu
  obtain ⟨cps, e, hc⟩ := key c.cps hw hf
  have hl := hc.length_eq
  have hn : Curve.tryNew c.degree cps c.knots = .ok ⟨c.degree, cps, c.knots⟩ :=
    Surface.tryNew_sorted (by rw [← hl]; exact h.pre.deg_lt) (by rw [← hl]; exact h.knots_len) h.pre.sorted
  refine ⟨⟨c.degree, cps, c.knots⟩, ?_, rfl, rfl, hc⟩
  rw [mapCurve, dehomogenizedCps_eq hw, ok_bind, Curve.weights, e, ok_bind, hn]

/-- A failing search fails the construction. -/
theorem mapCurve_error {find : W → Res (K × K)} {c : Curve K (W × K)} (hw : ∀ p ∈ c.cps, 0 < p.2)
    {p : W × K} (hp : p ∈ c.cps) (hf : find (p.2⁻¹ • p.1) = .error .err)
    (hall : ∀ q ∈ c.cps, (∃ uv, find (q.2⁻¹ • q.1) = .ok uv) ∨ find (q.2⁻¹ • q.1) = .error .err) :
    mapCurve find c = .error .err := by
  have key : ∀ l : List (W × K), p ∈ l →
      (∀ q ∈ l, (∃ uv, find (q.2⁻¹ • q.1) = .ok uv) ∨ find (q.2⁻¹ • q.1) = .error .err) →
      (((l.map fun p => p.2⁻¹ • p.1).zip (l.map Prod.snd)).mapM fun pw => (do
        let uv ← find pw.1
        pure (weighted uv pw.2) : Res ((K × K) × K))) = .error .err := by
    intro l
    induction l with
    | nil => intro h; cases h
    | cons q l ih =>
      intro hm ha
      rw [List.map_cons, List.map_cons, List.zip_cons_cons, List.mapM_cons]
      rcases ha q (by simp) with ⟨uv, eu⟩ | eu
      · rcases List.mem_cons.1 hm with rfl | hm
        · rw [hf] at eu; cases eu
        · rw [ih hm fun r hr => ha r (List.mem_cons_of_mem _ hr)]
          simp only [eu, ok_bind]
          rfl
      · simp only [eu]
        rfl
  rw [mapCurve, dehomogenizedCps_eq hw, ok_bind, Curve.weights, key c.cps hp hall]
  rfl

/-- The trimming curve of parameters in the domain stays in the domain. -/
theorem Mapped.over {find : W → Res (K × K)} {c : Curve K (W × K)} {c' : UvCurve K} (h : Mapped find c c') (hc : c.Good eps)
    (hw : ∀ p ∈ c.cps, 0 < p.2) {S : Surface K (W × K)}
    (hin : ∀ p ∈ c.cps, ∀ uv, find (p.2⁻¹ • p.1) = .ok uv → (domRect S).Mem uv) : Over eps S c' where
  good := h.good hc
  pos := by
    intro q hq
    obtain ⟨p, hp, h1, -⟩ := forall₂_mem_right h.cps hq
    rw [h1]; exact hw p hp
  inside := by
    intro q hq
    obtain ⟨p, hp, -, h2⟩ := forall₂_mem_right h.cps hq
    exact hin p hp _ h2

/-- The result of a constructor of trimmed surfaces: the surface itself and every curve mapped. -/
structure Built (find : Curve K (W × K) → W → Res (K × K)) (S : Surface K (W × K)) (ext : Option (Curve K (W × K))) (ints : List (Curve K (W × K)))
    (t : Serde.Trimmed (Surface K (W × K)) (UvCurve K)) : Prop where
  surface : t.surface = S
  exterior : match ext, t.exterior with
    | none, none => True
    | some c, some c' => Mapped (find c) c c'
    | _, _ => False
  interiors : List.Forall₂ (fun c c' => Mapped (find c) c c') ints t.interiors

theorem mapAll_ok {f : Curve K (W × K) → Res (UvCurve K)} {find : Curve K (W × K) → W → Res (K × K)} {S : Surface K (W × K)}
    {ext : Option (Curve K (W × K))} {ints : List (Curve K (W × K))} (hne : ext ≠ none ∨ ints ≠ [])
    (hf : ∀ c, (ext = some c ∨ c ∈ ints) → ∃ c', f c = .ok c' ∧ Mapped (find c) c c') :
    ∃ t, mapAll f S ext ints = .ok t ∧ Built find S ext ints t := by
  have hints : ∃ l, ints.mapM f = .ok l ∧ List.Forall₂ (fun c c' => Mapped (find c) c c') ints l := by
    have : ∀ l : List (Curve K (W × K)), (∀ c ∈ l, ∃ c', f c = .ok c' ∧ Mapped (find c) c c') →
        ∃ l', l.mapM f = .ok l' ∧ List.Forall₂ (fun c c' => Mapped (find c) c c') l l' := by
      intro l
      induction l with
      | nil => exact fun _ => ⟨[], rfl, .nil⟩
      | cons c l ih =>
        intro h
        obtain ⟨l', e, hl⟩ := ih fun x hx => h x (List.mem_cons_of_mem _ hx)
        obtain ⟨c', e', hc⟩ := h c (by simp)
        exact ⟨c' :: l', by rw [List.mapM_cons, e', ok_bind, e, ok_bind]; rfl, .cons hc hl⟩
    exact this ints fun c hc => hf c (.inr hc)
  obtain ⟨l, el, hl⟩ := hints
  have hcond : ¬ (ext.isNone = true ∧ ints = []) := by
    rintro ⟨h1, h2⟩
    rcases hne with h | h
    · exact h (Option.isNone_iff_eq_none.1 h1)
    · exact h h2
  cases ext with
  | none =>
    refine ⟨⟨S, none, l⟩, ?_, rfl, trivial, hl⟩
    rw [mapAll, if_neg hcond, optMapM, pure_eq_ok, ok_bind, el, ok_bind]; rfl
  | some c =>
    obtain ⟨c', e', hc⟩ := hf c (.inl rfl)
    refine ⟨⟨S, some c', l⟩, ?_, rfl, hc, hl⟩
    rw [mapAll, if_neg hcond, optMapM, e', ok_bind, pure_eq_ok, ok_bind, el, ok_bind]; rfl

/-- Mapping by the closest point: the surface is kept and every curve becomes the curve of the parameter plane with the
    same degree, knots and weights whose control points are the closest parameters of the control points. -/
theorem C85_closest_point {find : W → Res (K × K)} {S : Surface K (W × K)} {ext : Option (Curve K (W × K))}
    {ints : List (Curve K (W × K))} (hne : ext ≠ none ∨ ints ≠ [])
    (hc : ∀ c, (ext = some c ∨ c ∈ ints) → c.Good eps ∧ (∀ p ∈ c.cps, 0 < p.2) ∧
      ∀ p ∈ c.cps, ∃ uv, find (p.2⁻¹ • p.1) = .ok uv) :
    ∃ t, tryMapClosestPoint find S ext ints = .ok t ∧ Built (fun _ => find) S ext ints t :=
  mapAll_ok hne fun c h => mapCurve_ok (hc c h).1 (hc c h).2.1 (hc c h).2.2

/-- If no parameter is found for some control point of some curve, there is no trimmed surface: curves are never trimmed by
    part of their control points. -/
theorem C85_search_failure {find : W → Res (K × K)} {S : Surface K (W × K)} {ext : Option (Curve K (W × K))}
    {ints : List (Curve K (W × K))} (hc : ∀ c, (ext = some c ∨ c ∈ ints) → c.Good eps ∧ ∀ p ∈ c.cps, 0 < p.2)
    (hall : ∀ p, (∃ uv, find p = .ok uv) ∨ find p = .error .err)
    {c : Curve K (W × K)} (hm : ext = some c ∨ c ∈ ints) {p : W × K} (hp : p ∈ c.cps) (hf : find (p.2⁻¹ • p.1) = .error .err) :
    tryMapClosestPoint find S ext ints = .error .err := by
  have hcur : ∀ c, (ext = some c ∨ c ∈ ints) → (∃ c', mapCurve find c = .ok c') ∨ mapCurve find c = .error .err := by
    intro c h
    obtain ⟨h1, h2⟩ := hc c h
    by_cases hx : ∃ q ∈ c.cps, find (q.2⁻¹ • q.1) = .error .err
    · obtain ⟨q, hq, hf⟩ := hx
      exact .inr (mapCurve_error h2 hq hf fun r _ => hall _)
    · push Not at hx
      obtain ⟨c', e, -⟩ := mapCurve_ok h1 h2 fun q hq => (hall _).resolve_right (hx q hq)
      exact .inl ⟨c', e⟩
  have hbad := mapCurve_error (hc c hm).2 hp hf fun r _ => hall _
  rw [tryMapClosestPoint, mapAll, if_neg (by
    rintro ⟨h1, rfl⟩
    rcases hm with rfl | h
    · simp at h1
    · simp at h)]
  have hmap : ∀ l : List (Curve K (W × K)), (∀ x ∈ l, x ∈ ints) →
      (∃ r, l.mapM (mapCurve find) = .ok r) ∧ c ∉ l ∨ l.mapM (mapCurve find) = .error .err := by
    intro l
    induction l with
    | nil => exact fun _ => .inl ⟨⟨[], rfl⟩, by simp⟩
    | cons x l ih =>
      intro hl
      rw [List.mapM_cons]
      rcases hcur x (.inr (hl x (by simp))) with ⟨x', e⟩ | e
      · rcases ih fun y hy => hl y (List.mem_cons_of_mem _ hy) with ⟨⟨r, er⟩, hn⟩ | er
        · refine .inl ⟨⟨x' :: r, by rw [e, ok_bind, er]; rfl⟩, ?_⟩
          intro hcm
          rcases List.mem_cons.1 hcm with rfl | hcm
          · rw [hbad] at e; cases e
          · exact hn hcm
        · exact .inr (by rw [e, ok_bind, er]; rfl)
      · exact .inr (by rw [e]; rfl)
  have hext : (∃ r, Tess.optMapM (mapCurve find) ext = .ok r) ∧ ext ≠ some c ∨ Tess.optMapM (mapCurve find) ext = .error .err := by
    rcases ext with _ | x
    · exact .inl ⟨⟨none, rfl⟩, by simp⟩
    · rcases hcur x (.inl rfl) with ⟨x', e⟩ | e
      · refine .inl ⟨⟨some x', by rw [Tess.optMapM, e]; rfl⟩, ?_⟩
        intro hx
        obtain rfl := Option.some.inj hx
        rw [hbad] at e; cases e
      · exact .inr (by rw [Tess.optMapM, e]; rfl)
  rcases hext with ⟨⟨r, er⟩, hn⟩ | er
  · rcases hmap ints fun _ h => h with ⟨-, hn'⟩ | e
    · exact absurd hm (by rintro (h | h); exacts [hn h, hn' h])
    · rw [er, ok_bind, e]; rfl
  · rw [er]; rfl

/-- Without any curve both constructors fail. -/
theorem C85_no_curves {d : ℕ} (find : W → Res (K × K)) (S : Surface K (W × K)) (norm normSq : (Fin d → K) → K)
    (dist : (Fin d → K) → (Fin d → K) → K) (big : K)
    (hits : Curve K ((Fin d → K) × K) → Res (List (Intersect.Hit (Fin d → K) (K × K) K)))
    (S' : Surface K ((Fin d → K) × K)) (dir : Fin d → K) :
    tryMapClosestPoint find S none [] = .error .err ∧
    tryProjection norm normSq dist big hits S' dir none [] = .error .err :=
  ⟨rfl, rfl⟩

/-! ### Exactness -/

theorem forall₂_map_eq {A B : Type} {R : A → B → Prop} {f : B → A} : ∀ {l : List A} {r : List B}, List.Forall₂ R l r →
    (∀ a ∈ l, ∀ b, R a b → f b = a) → r.map f = l
  | _, _, .nil, _ => rfl
  | _, _, .cons h1 h2, h => by
    rw [List.map_cons, h _ (by simp) _ h1, forall₂_map_eq h2 fun a ha => h a (List.mem_cons_of_mem _ ha)]

/-- On a plane (an affinely parametrised surface) and with exact parameters of the control points, the trimming curve lies
    under the given curve: the surface at the trimming curve is the given curve, at every parameter. -/
theorem C85_plane {find : W → Res (K × K)} {c : Curve K (W × K)} {c' : UvCurve K} {S : Surface K (W × K)} {o a b : W}
    (h : Mapped find c c') (hc : c.Good eps) (hw : ∀ p ∈ c.cps, 0 < p.2)
    (haff : ∀ x, (domRect S).Mem x → S.pointAt eps x.1 x.2 = .ok (o + x.1 • a + x.2 • b))
    (hfind : ∀ p ∈ c.cps, ∀ x, find (p.2⁻¹ • p.1) = .ok x → (domRect S).Mem x ∧ S.pointAt eps x.1 x.2 = .ok (p.2⁻¹ • p.1))
    {t : K} (h1 : c.lo ≤ t) (h2 : t ≤ c.hi) :
    ∃ uv q, c'.pointAt eps t = .ok uv ∧ c.pointAt eps t = .ok q ∧ S.pointAt eps uv.1 uv.2 = .ok q := by
  have hover := h.over hc hw (S := S) fun p hp x hx => (hfind p hp x hx).1
  obtain ⟨L, hL⟩ : ∃ L : ((K × K) × K) →ₗ[K] (W × K), ∀ q, L q = (q.1.1 • a + q.1.2 • b + q.2 • o, q.2) := by
    refine ⟨{ toFun := fun q => (q.1.1 • a + q.1.2 • b + q.2 • o, q.2), map_add' := ?_, map_smul' := ?_ }, fun _ => rfl⟩
    · intro x y
      ext
      · simp only [Prod.fst_add, Prod.snd_add]; module
      · rfl
    · intro r x
      ext
      · simp only [Prod.smul_fst, Prod.smul_snd, smul_eq_mul, RingHom.id_apply]; module
      · rfl
  have hcps : c'.cps.map L = c.cps := by
    refine forall₂_map_eq h.cps fun p hp q hq => ?_
    obtain ⟨e1, e2⟩ := hfind p hp _ hq.2
    rw [haff _ e1] at e2
    have e3 := Except.ok.inj e2
    have hq0 : q.2 ≠ 0 := by rw [hq.1]; exact (hw p hp).ne'
    rw [hL]
    ext
    · have : p.1 = q.2 • (o + (q.2⁻¹ • q.1).1 • a + (q.2⁻¹ • q.1).2 • b) := by
        rw [e3, hq.1, smul_inv_smul₀ (hw p hp).ne']
      rw [this]
      simp only [Prod.smul_fst, Prod.smul_snd, smul_eq_mul, smul_add, smul_smul]
      rw [mul_inv_cancel_left₀ hq0, mul_inv_cancel_left₀ hq0]
      abel
    · exact hq.1
  have hcc : c = c'.mapCps L := by
    obtain ⟨dg, kn, cp⟩ := c
    have e1 := h.degree
    have e2 := h.knots
    simp only at e1 e2 hcps
    rw [Curve.mapCps, e1, e2, hcps]
  have hev : c.eval t = L (c'.eval t) := by
    conv_lhs => rw [hcc]
    exact eval_mapCps L hover.good.cps_pos t
  have hlo : c'.lo = c.lo := by rw [Curve.lo, Curve.lo, h.knots, h.degree]
  have hhi : c'.hi = c.hi := by rw [Curve.hi, Curve.hi, h.knots, h.cps.length_eq]
  rw [← hlo] at h1
  rw [← hhi] at h2
  refine ⟨uvPoint c' t, (c.eval t).2⁻¹ • (c.eval t).1, hover.pointAt h1 h2,
    (C09_point_at_positive_weights hc hw (by rw [← hlo]; exact h1) (by rw [← hhi]; exact h2)).1, ?_⟩
  rw [haff _ (hover.mem h1 h2), hev, hL, uvPoint]
  have hpos := eval_weight_pos hover.good h1 h2 hover.pos
  congr 1
  simp only [Prod.smul_fst, Prod.smul_snd, smul_eq_mul, smul_add, smul_smul]
  rw [inv_mul_cancel₀ hpos.ne', one_smul]
  abel

/-- On every surface, a clamped curve whose first and last control points are found exactly keeps its end points. -/
theorem C85_end_points {find : W → Res (K × K)} {c : Curve K (W × K)} {c' : UvCurve K} {S : Surface K (W × K)}
    (h : Mapped find c c') (hc : c.Good eps) (hw : ∀ p ∈ c.cps, 0 < p.2)
    (hs : kf c.knots 0 = kf c.knots c.degree) (he : kf c.knots c.cps.length = kf c.knots (c.cps.length + c.degree))
    (hfind : ∀ p ∈ c.cps, ∀ x, find (p.2⁻¹ • p.1) = .ok x → (c.cps.head? = some p ∨ c.cps.getLast? = some p) →
      S.pointAt eps x.1 x.2 = .ok (p.2⁻¹ • p.1)) :
    (∃ x, c'.pointAt eps c'.lo = .ok x ∧ S.pointAt eps x.1 x.2 = c.pointAt eps c.lo) ∧
    (∃ x, c'.pointAt eps c'.hi = .ok x ∧ S.pointAt eps x.1 x.2 = c.pointAt eps c.hi) := by
  have hg := h.good hc
  have hl := h.cps.length_eq
  have hpos := hc.cps_pos
  have main : ∀ i (hi : i < c.cps.length) (hi' : i < c'.cps.length) (t t' : K),
      c.point eps t = .ok (c.cps.getD i 0) → c'.point eps t' = .ok (c'.cps.getD i 0) →
      (c.cps.head? = some (c.cps[i]) ∨ c.cps.getLast? = some (c.cps[i])) →
      ∃ x, c'.pointAt eps t' = .ok x ∧ S.pointAt eps x.1 x.2 = c.pointAt eps t := by
    intro i hi hi' t t' e1 e2 hor
    have hR := List.forall₂_iff_get.1 h.cps |>.2 i hi hi'
    simp only [List.get_eq_getElem] at hR
    have g1 : c.cps.getD i 0 = c.cps[i] := by rw [List.getD_eq_getElem?_getD, List.getElem?_eq_getElem hi]; rfl
    have g2 : c'.cps.getD i 0 = c'.cps[i] := by rw [List.getD_eq_getElem?_getD, List.getElem?_eq_getElem hi']; rfl
    have w0 : (c.cps[i]).2 ≠ 0 := (hw _ (List.getElem_mem _)).ne'
    refine ⟨(c'.cps[i]).2⁻¹ • (c'.cps[i]).1, ?_, ?_⟩
    · rw [Curve.pointAt, e2, ok_bind, g2, Curve.dehomogenize, if_pos (by rw [hR.1]; exact w0)]; rfl
    · rw [hfind _ (List.getElem_mem _) _ hR.2 hor, Curve.pointAt, e1, ok_bind, g1, Curve.dehomogenize, if_pos w0]; rfl
  constructor
  · refine main 0 hpos (by omega) _ _ (C11_clamped_start hc hs) (C11_clamped_start hg (by rw [h.knots, h.degree]; exact hs)) (.inl ?_)
    rw [List.head?_eq_getElem?, List.getElem?_eq_getElem hpos]
  · refine main (c.cps.length - 1) (by omega) (by omega) _ _ (C11_clamped_end hc he) ?_ (.inr ?_)
    · have := C11_clamped_end hg (by rw [h.knots, h.degree, ← hl]; exact he)
      rwa [← hl] at this
    · rw [List.getLast?_eq_getElem?, List.getElem?_eq_getElem (by omega)]

/-! ### Projection along a direction -/

section projection
variable {d : ℕ}

theorem ray_ok (h0 : 0 ≤ eps) (h1 : eps ≤ 1) {dist : (Fin d → K) → (Fin d → K) → K} {dir p : Fin d → K} {len : K}
    (hd : 0 < dist (p - dir) (p + dir + len • dir)) :
    ∃ r, ray dist dir len p = .ok r ∧ r.Good eps ∧ r.lo = 0 ∧ r.hi = 1 ∧
      ∀ t, 0 ≤ t → t ≤ 1 → r.pointAt eps t = .ok (p + (t * (2 + len) - 1) • dir) := by
  obtain ⟨r, hr⟩ : ∃ r : Curve K ((Fin d → K) × K), r = ⟨1, [(p - dir, 1), (p + dir + len • dir, 1)], [0, 0, 1, 1]⟩ := ⟨_, rfl⟩
  have hg : r.Good eps := by
    subst hr
    refine ⟨by simp, by simp, h0, by simp, mono_of_sorted (by simp) (by simp), ?_, ?_, ?_, ?_⟩ <;> simp [kf, h1]
  have hlo : r.lo = 0 := by subst hr; simp [Curve.lo, kf]
  have hhi : r.hi = 1 := by subst hr; simp [Curve.hi, kf]
  refine ⟨r, ?_, hg, hlo, hhi, ?_⟩
  · subst hr
    have hd' := hd.ne'
    simp [ray, Curve.polyline, subR, Curve.chordTotal, Curve.chordGo, divR, hd', Curve.homogenize]
  · intro t t0 t1
    have hw : ∀ q ∈ r.cps, 0 < q.2 := by subst hr; simp
    obtain ⟨e, -⟩ := C09_point_at_positive_weights hg hw (hlo.le.trans t0) (t1.trans hhi.ge)
    obtain ⟨s, es, hp, hn, hin⟩ := hg.exists_span (hlo.le.trans t0) (t1.trans hhi.ge)
    obtain rfl : s = 1 := by subst hr; exact le_antisymm hn hp
    have he : r.eval t = (p + (t * (2 + len) - 1) • dir, 1) := by
      rw [Curve.eval_eq_span hg hp hn hin]
      subst hr
      simp [Finset.sum_range_succ, NS, kf]
      module
    rw [e, he]
    simp

/-- The parameter of a control point under projection is that of the nearest of the reported intersections of its ray with
    the surface; without intersection there is none. -/
theorem C85_projection_point {normSq : (Fin d → K) → K} {dist : (Fin d → K) → (Fin d → K) → K}
    {hits : Curve K ((Fin d → K) × K) → Res (List (Intersect.Hit (Fin d → K) (K × K) K))} {dir p : Fin d → K} {len : K}
    {r : Curve K ((Fin d → K) × K)} (hr : ray dist dir len p = .ok r)
    {hs : List (Intersect.Hit (Fin d → K) (K × K) K)} (hh : hits r = .ok hs) :
    (hs = [] → projectPoint normSq dist hits dir len p = .error .err) ∧
    (hs ≠ [] → ∃ h ∈ hs, projectPoint normSq dist hits dir len p = .ok h.a.2 ∧
      ∀ h' ∈ hs, normSq (p - h.a.1) ≤ normSq (p - h'.a.1)) := by
  have e : projectPoint normSq dist hits dir len p = (match hs.map fun h => (normSq (p - h.a.1), h) with
      | [] => .error .err
      | x :: xs => pure (Compound.minBy x xs).2.a.2) := by
    rw [projectPoint, hr, ok_bind, hh, ok_bind]
    cases hs <;> rfl
  rw [e]
  refine ⟨by rintro rfl; rfl, fun hne => ?_⟩
  obtain ⟨h0, hs', rfl⟩ := List.exists_cons_of_ne_nil hne
  rw [List.map_cons]
  obtain ⟨m1, m2, m3⟩ := minBy_least (hs'.map fun h => (normSq (p - h.a.1), h)) (normSq (p - h0.a.1), h0)
  have hmem : ∃ h ∈ h0 :: hs', Compound.minBy (normSq (p - h0.a.1), h0) (hs'.map fun h => (normSq (p - h.a.1), h)) =
      (normSq (p - h.a.1), h) := by
    rcases m1 with m1 | m1
    · exact ⟨h0, by simp, m1⟩
    · obtain ⟨h, hh, e⟩ := List.mem_map.1 m1
      exact ⟨h, List.mem_cons_of_mem _ hh, e.symm⟩
  obtain ⟨h, hm, em⟩ := hmem
  rw [em] at m2 m3
  refine ⟨h, hm, by simp only [em]; rfl, fun h' hh' => ?_⟩
  rcases List.mem_cons.1 hh' with rfl | hh'
  · exact m2
  · exact m3 (normSq (p - h'.a.1), h') (List.mem_map.2 ⟨h', hh', rfl⟩)

/-- Projection: the surface is kept, every curve keeps degree, knots and weights, and its control points are replaced by the
    parameters found along their rays. -/
theorem C85_projection {norm normSq : (Fin d → K) → K} {dist : (Fin d → K) → (Fin d → K) → K} {big : K}
    {hits : Curve K ((Fin d → K) × K) → Res (List (Intersect.Hit (Fin d → K) (K × K) K))}
    {S : Surface K ((Fin d → K) × K)} {dir : Fin d → K} {ext : Option (Curve K ((Fin d → K) × K))}
    {ints : List (Curve K ((Fin d → K) × K))} (hne : ext ≠ none ∨ ints ≠ []) {b0 : Curvo.Box K d}
    (hb : S.boundingBox big = .ok b0) {b1 : Curve K ((Fin d → K) × K) → Curvo.Box K d}
    (hc : ∀ c, (ext = some c ∨ c ∈ ints) → c.Good eps ∧ (∀ p ∈ c.cps, 0 < p.2) ∧ Box.ofCurve big c = .ok (b1 c) ∧
      ∀ p ∈ c.cps, ∃ uv, projectPoint normSq dist hits dir (rayLength norm b0 (b1 c) dir) (p.2⁻¹ • p.1) = .ok uv) :
    ∃ t, tryProjection norm normSq dist big hits S dir ext ints = .ok t ∧
      Built (fun c => projectPoint normSq dist hits dir (rayLength norm b0 (b1 c) dir)) S ext ints t := by
  refine mapAll_ok hne fun c h => ?_
  obtain ⟨h1, h2, h3, h4⟩ := hc c h
  obtain ⟨c', e, hm⟩ := mapCurve_ok h1 h2 h4
  exact ⟨c', by rw [projectCurve, hb, ok_bind, h3, ok_bind]; exact e, hm⟩

/-- For a unit direction without coordinates of opposite signs the rays are long enough: every point of the surface in the
    direction of a control point (or less than one unit behind it) is a point of its ray. -/
theorem C85_ray_reaches (h0 : 0 ≤ eps) (h1 : eps ≤ 1) {norm : (Fin d → K) → K} {dist : (Fin d → K) → (Fin d → K) → K} {big : K}
    {S : Surface K ((Fin d → K) × K)} (hS : S.Good eps) (hw : ∀ row ∈ S.cps, ∀ p ∈ row, 0 < p.2)
    {c : Curve K ((Fin d → K) × K)} (hcw : ∀ p ∈ c.cps, 0 < p.2) {dir : Fin d → K} (hunit : ∑ i, dir i * dir i = 1)
    (hsign : (∀ i, 0 ≤ dir i) ∨ ∀ i, dir i ≤ 0) (hnorm : ∀ v : Fin d → K, ∑ i, v i * dir i ≤ norm v)
    (hnn : ∀ v, 0 ≤ norm v) (hdist : ∀ a b, a ≠ b → 0 < dist a b)
    {p : (Fin d → K) × K} (hp : p ∈ c.cps) {x : K × K} (hx : (domRect S).Mem x) {s : K} (hs : -1 ≤ s)
    (hq : S.pointAt eps x.1 x.2 = .ok (p.2⁻¹ • p.1 + s • dir)) :
    ∃ b0 b1 r t, S.boundingBox big = .ok b0 ∧ Box.ofCurve big c = .ok b1 ∧
      ray dist dir (rayLength norm b0 b1 dir) (p.2⁻¹ • p.1) = .ok r ∧ r.lo ≤ t ∧ t ≤ r.hi ∧
      r.pointAt eps t = .ok (p.2⁻¹ • p.1 + s • dir) := by
  obtain ⟨b0, q, eb0, eq, hin⟩ := C10_surface_in_bounding_box (big := big) hS hw hx.1 hx.2.1 hx.2.2.1 hx.2.2.2
  rw [hq] at eq
  obtain rfl := Except.ok.inj eq
  rw [contains_iff] at hin
  obtain ⟨b1, hb1, hin1⟩ : ∃ b1, Box.ofCurve big c = .ok b1 ∧ ∀ i, b1.min i ≤ (p.2⁻¹ • p.1) i ∧ (p.2⁻¹ • p.1) i ≤ b1.max i := by
    refine ⟨_, by rw [Box.ofCurve, dehomogenizedCps_eq hcw]; rfl, ?_⟩
    obtain ⟨-, m, -, -⟩ := foldl_extend (c.cps.map fun p => p.2⁻¹ • p.1) (⟨fun _ => big, fun _ => -big⟩ : Curvo.Box K d)
    exact m _ (List.mem_map.2 ⟨p, hp, rfl⟩)
  obtain ⟨len, hlen⟩ : ∃ len, len = rayLength norm b0 b1 dir := ⟨_, rfl⟩
  have hlen0 : 0 ≤ len := by
    rw [hlen, rayLength]
    have := hnn fun i => b0.center i - b1.center i
    have := abs_nonneg (∑ i, b0.size i * dir i)
    have := abs_nonneg (∑ i, b1.size i * dir i)
    linarith
  have hhalf : ∀ (b : Curvo.Box K d) (y : Fin d → K) (σ : K), (σ = 1 ∨ σ = -1) → (∀ i, b.min i ≤ y i ∧ y i ≤ b.max i) →
      σ * ∑ i, (y i - b.center i) * dir i ≤ |∑ i, b.size i * dir i| := by
    intro b y σ hσ hy
    have hsz : ∀ i, 0 ≤ b.size i := fun i => by rw [Box.size]; linarith [(hy i).1, (hy i).2]
    have habs : ∀ i, |y i - b.center i| ≤ b.size i := by
      intro i
      rw [abs_le, Curvo.Box.center, Curvo.Box.size]
      constructor <;> linarith [(hy i).1, (hy i).2]
    have hsum : ∑ i, b.size i * |dir i| = |∑ i, b.size i * dir i| := by
      rcases hsign with h | h
      · rw [abs_of_nonneg (Finset.sum_nonneg fun i _ => mul_nonneg (hsz i) (h i))]
        exact Finset.sum_congr rfl fun i _ => by rw [abs_of_nonneg (h i)]
      · rw [abs_of_nonpos (Finset.sum_nonpos fun i _ => mul_nonpos_of_nonneg_of_nonpos (hsz i) (h i)),
          ← Finset.sum_neg_distrib]
        exact Finset.sum_congr rfl fun i _ => by rw [abs_of_nonpos (h i), mul_neg]
    rw [← hsum, Finset.mul_sum]
    refine Finset.sum_le_sum fun i _ => ?_
    have h1 : σ * ((y i - b.center i) * dir i) ≤ |y i - b.center i| * |dir i| := by
      rw [← abs_mul]
      rcases hσ with rfl | rfl
      · rw [one_mul]; exact le_abs_self _
      · rw [neg_one_mul]; exact neg_le_abs _
    exact h1.trans (mul_le_mul_of_nonneg_right (habs i) (abs_nonneg _))
  have hsle : s ≤ len := by
    have e1 : s = ∑ i, ((p.2⁻¹ • p.1 + s • dir) i - b0.center i) * dir i + ∑ i, (b0.center i - b1.center i) * dir i +
        -1 * ∑ i, ((p.2⁻¹ • p.1) i - b1.center i) * dir i := by
      rw [Finset.mul_sum, ← Finset.sum_add_distrib, ← Finset.sum_add_distrib]
      have : ∀ i, ((p.2⁻¹ • p.1 + s • dir) i - b0.center i) * dir i + (b0.center i - b1.center i) * dir i +
          -1 * (((p.2⁻¹ • p.1) i - b1.center i) * dir i) = s * (dir i * dir i) := by
        intro i; simp only [Pi.add_apply, Pi.smul_apply, smul_eq_mul]; ring
      rw [Finset.sum_congr rfl fun i _ => this i, ← Finset.mul_sum, hunit, mul_one]
    have h2 := hhalf b0 _ 1 (.inl rfl) hin
    have h3 := hhalf b1 _ (-1) (.inr rfl) hin1
    have h4 := hnorm fun i => b0.center i - b1.center i
    rw [one_mul] at h2
    rw [hlen, rayLength, e1]
    linarith
  have hdir : dir ≠ 0 := by
    rintro rfl
    simp at hunit
  obtain ⟨r, er, hr, hlo, hhi, hpt⟩ := ray_ok (p := p.2⁻¹ • p.1) (len := len) (dir := dir) h0 h1 (hdist _ _ (by
    intro he
    have : (2 + len) • dir = 0 := by
      have h5 : (p.2⁻¹ • p.1 + dir + len • dir) - (p.2⁻¹ • p.1 - dir) = (2 + len) • dir := by module
      rw [← h5, ← he, sub_self]
    rcases smul_eq_zero.1 this with h | h
    · linarith
    · exact hdir h))
  have hpos : 0 < 2 + len := by linarith
  have ht0 : 0 ≤ (s + 1) / (2 + len) := div_nonneg (by linarith) hpos.le
  have ht1 : (s + 1) / (2 + len) ≤ 1 := by rw [div_le_one hpos]; linarith
  refine ⟨b0, b1, r, (s + 1) / (2 + len), eb0, hb1, by rw [← hlen]; exact er, by rw [hlo]; exact ht0, by rw [hhi]; exact ht1, ?_⟩
  rw [hpt _ ht0 ht1, div_mul_cancel₀ _ hpos.ne', add_sub_cancel_right]

theorem ofPoints_exact {big : K} {pts : List (Fin d → K)} {m M : Fin d → K}
    (h : ∀ i, (∀ p ∈ pts, m i ≤ p i ∧ p i ≤ M i) ∧ (∃ p ∈ pts, p i = m i) ∧ (∃ p ∈ pts, p i = M i) ∧ m i ≤ big ∧ -big ≤ M i) :
    Box.ofPoints big pts = ⟨m, M⟩ := by
  obtain ⟨-, k2, k3, k4⟩ := foldl_extend pts (⟨fun _ => big, fun _ => -big⟩ : Curvo.Box K d)
  have e1 : (Box.ofPoints big pts).min = m := by
    funext i
    obtain ⟨a1, ⟨p, hp, a2⟩, -, a4, -⟩ := h i
    refine le_antisymm (a2 ▸ (k2 p hp i).1) ?_
    rcases k3 i with e | ⟨q, hq, e⟩
    · exact a4.trans_eq e.symm
    · exact (a1 q hq).1.trans_eq e.symm
  have e2 : (Box.ofPoints big pts).max = M := by
    funext i
    obtain ⟨a1, -, ⟨p, hp, a2⟩, -, a4⟩ := h i
    refine le_antisymm ?_ (a2 ▸ (k2 p hp i).2)
    rcases k4 i with e | ⟨q, hq, e⟩
    · exact e.trans_le a4
    · exact e.trans_le (a1 q hq).2
  rw [← e1, ← e2]

/-- The direction has a positive and a negative coordinate: the term for the size of the surface vanishes and the rays end
    before they reach the surface.  Every point of the given line has the surface ten units ahead, yet the projection
    fails, whatever exact intersection routine is used. -/
theorem C85_ray_too_short (h0 : 0 ≤ eps) (h1 : eps ≤ 1) {norm normSq : (Fin 3 → K) → K}
    (hnorm : ∀ v, 0 ≤ norm v ∧ norm v * norm v = ∑ i, v i * v i) {dist : (Fin 3 → K) → (Fin 3 → K) → K}
    (hdist : ∀ a b, a ≠ b → 0 < dist a b) {big : K} (hbig : 5 ≤ big)
    {hits : Curve K ((Fin 3 → K) × K) → Res (List (Intersect.Hit (Fin 3 → K) (K × K) K))} :
    let S : Surface K ((Fin 3 → K) × K) := Surface.plane 0 ![4, -3, 0] ![0, 0, 1]
    let c : Curve K ((Fin 3 → K) × K) := ⟨1, [(![-2, 5, 0], 1), (![-2, 5, 1/2], 1)], [0, 0, 1, 1]⟩
    let dir : Fin 3 → K := ![3/5, -4/5, 0]
    -- the oracle reports exact intersections only
    (∀ r, ∃ hs, hits r = .ok hs ∧ ∀ h ∈ hs, ∃ u v t X, (domRect S).Mem (u, v) ∧ r.lo ≤ t ∧ t ≤ r.hi ∧
      S.pointAt eps u v = .ok X ∧ r.pointAt eps t = .ok X) →
    (∀ t, 0 ≤ t → t ≤ 1 → ∃ p, c.pointAt eps t = .ok p ∧ S.pointAt eps 1 ((2 + t) / 4) = .ok (p + (10 : K) • dir)) ∧
    tryProjection norm normSq dist big hits S dir (some c) [] = .error .err := by
  intro S c dir hex
  have hcg : c.Good eps := by
    refine ⟨by simp [c], by simp [c], h0, by simp [c], mono_of_sorted (by simp [c]) (by simp [c]), ?_, ?_, ?_, ?_⟩ <;>
      simp [kf, h1, c]
  have hcw : ∀ p ∈ c.cps, 0 < p.2 := by simp [c]
  constructor
  · intro t t0 t1
    have hlo : c.lo = 0 := by simp [Curve.lo, kf, c]
    have hhi : c.hi = 1 := by simp [Curve.hi, kf, c]
    obtain ⟨e, -⟩ := C09_point_at_positive_weights hcg hcw (hlo.le.trans t0) (t1.trans hhi.ge)
    refine ⟨_, e, ?_⟩
    rw [C31_plane h0 h1 _ _ _ zero_le_one le_rfl (by linarith) (by linarith),
      linear_bezier_eval (c := c) rfl rfl rfl t0 t1]
    congr 1
    funext i
    fin_cases i <;> simp [dir] <;> ring
  · obtain ⟨b0, e0, c0, z0⟩ : ∃ b0, S.boundingBox big = .ok b0 ∧ b0.center = 0 ∧ b0.size = ![8, 6, 2] := by
      have : S.boundingBox big = .ok ⟨![-4, -3, -1], ![4, 3, 1]⟩ := by
        rw [Surface.boundingBox, surf_dehomogenizedCps_eq (by simp [S, Surface.plane, Curve.homogenize]; aesop), ok_bind, ofPoints_exact]
        · rfl
        · intro i
          fin_cases i <;> simp [S, Surface.plane, Curve.homogenize] <;> constructor <;> linarith
      refine ⟨_, this, ?_, ?_⟩
      · funext i
        fin_cases i <;> simp [Curvo.Box.center]
      · funext i
        fin_cases i <;> simp [Curvo.Box.size] <;> norm_num
    obtain ⟨b1, e1, c1, z1⟩ : ∃ b1, Box.ofCurve big c = .ok b1 ∧ b1.center = ![-2, 5, 1/4] ∧ b1.size = ![0, 0, 1/2] := by
      have : Box.ofCurve big c = .ok ⟨![-2, 5, 0], ![-2, 5, 1/2]⟩ := by
        rw [Box.ofCurve, dehomogenizedCps_eq hcw, ok_bind, ofPoints_exact]
        · rfl
        · intro i
          fin_cases i <;> simp [c] <;> constructor <;> linarith
      refine ⟨_, this, ?_, ?_⟩
      · funext i
        fin_cases i <;> simp [Curvo.Box.center] <;> norm_num
      · funext i
        fin_cases i <;> simp [Curvo.Box.size] 
    have hn := hnorm fun i => b0.center i - b1.center i
    obtain ⟨n, en⟩ : ∃ n, n = norm fun i => b0.center i - b1.center i := ⟨_, rfl⟩
    rw [← en, c0, c1, Fin.sum_univ_three] at hn
    simp at hn
    have hn6 : n < 6 := by
      by_contra hh
      push Not at hh
      nlinarith [mul_le_mul hh hh (by norm_num) hn.1, hn.2]
    have elen : rayLength norm b0 b1 dir = n := by
      rw [rayLength, ← en, z0, z1, Fin.sum_univ_three, Fin.sum_univ_three]
      have g2 : dir 2 = 0 := rfl
      rw [g2]
      norm_num [dir]
    have hpt : ∀ z : K, projectPoint normSq dist hits dir (rayLength norm b0 b1 dir) ![-2, 5, z] = .error .err := by
      intro z
      rw [elen]
      obtain ⟨r, er, -, rlo, rhi, rp⟩ := ray_ok (p := ![-2, 5, z]) (len := n) (dir := dir) (dist := dist) h0 h1 (hdist _ _ (by
        intro he
        have := congrFun he 0
        simp [dir] at this
        linarith [hn.1]))
      obtain ⟨hs, eh, hx⟩ := hex r
      refine (C85_projection_point er eh).1 ?_
      by_contra hne
      obtain ⟨h, hm⟩ := List.exists_mem_of_ne_nil _ hne
      obtain ⟨u, v, t, X, ⟨m1, m2, m3, m4⟩, t1, t2, f1, f2⟩ := hx h hm
      simp only [domRect, Surface.ulo, Surface.uhi, Surface.vlo, Surface.vhi, S, Surface.plane, Surface.cols] at m1 m2 m3 m4
      simp [kf] at m1 m2 m3 m4
      rw [rlo] at t1
      rw [rhi] at t2
      rw [rp t t1 t2] at f2
      rw [C31_plane h0 h1 _ _ _ m1 m2 m3 m4, ← Except.ok.inj f2] at f1
      have g0 := congrFun (Except.ok.inj f1) 0
      have g1 := congrFun (Except.ok.inj f1) 1
      simp [dir] at g0 g1
      nlinarith
    rw [tryProjection, mapAll]
    have : projectCurve norm normSq dist big hits S dir c = .error .err := by
      rw [projectCurve, e0, ok_bind, e1, ok_bind]
      refine mapCurve_error hcw (p := (![-2, 5, 0], 1)) (by simp [c]) (by simpa using hpt 0) fun q hq => .inr ?_
      simp only [c, List.mem_cons, List.not_mem_nil, or_false] at hq
      rcases hq with rfl | rfl
      · simpa using hpt 0
      · simpa using hpt (1/2)
    rw [if_neg (by simp), Tess.optMapM, this]
    rfl

end projection

/-! ### Transformation and inversion -/

/-- An affine transformation keeps the trimming curves and moves the surface, so every point under a trimming curve moves
    with it. -/
theorem C85_transform (m : Curve.Matrix4 K W) (hc : m.c = 0) (hd : m.d ≠ 0)
    {t : Serde.Trimmed (Surface K (W × K)) (UvCurve K)} (h : t.surface.Good eps)
    (hw : ∀ row ∈ t.surface.cps, ∀ p ∈ row, p.2 ≠ 0) :
    ∃ t', Trimmed.transform m t = .ok t' ∧ t'.exterior = t.exterior ∧ t'.interiors = t.interiors ∧
      (∀ x, (domRect t'.surface).Mem x ↔ (domRect t.surface).Mem x) ∧
      ∀ c, Over eps t.surface c → ∀ s, c.lo ≤ s → s ≤ c.hi → ∃ uv, c.pointAt eps s = .ok uv ∧
        t'.surface.pointAt eps uv.1 uv.2 = (t.surface.pointAt eps uv.1 uv.2).map fun q => m.d⁻¹ • (m.A q + m.b) := by
  obtain ⟨S', e, hg, hu, hv, hp⟩ := C15_surface_transform m hc hd h hw
  have hS : (domRect S').Mem = (domRect t.surface).Mem := by
    have e1 : S' = mapNet (affineMap m) t.surface := by
      have := e
      rw [Surface.transform, mapM_ok (g := fun row => row.map (affineMap m)) (fun row hrow =>
        mapM_ok (g := affineMap m) fun p hp => transformPoint_affine m hc hd (hw row hrow p hp))] at this
      exact (Except.ok.inj this).symm
    funext x
    rw [e1]
    simp [Rect.Mem, domRect, Surface.ulo, Surface.uhi, Surface.vlo, Surface.vhi, mapNet, Surface.cols]
  refine ⟨{ t with surface := S' }, by rw [Trimmed.transform, e, ok_bind]; rfl, rfl, rfl, fun x => by rw [← hS], ?_⟩
  intro c hov s h1 h2
  obtain ⟨m1, m2, m3, m4⟩ := hov.mem h1 h2
  exact ⟨_, hov.pointAt h1 h2, hp _ _ m1 m2 m3 m4⟩

/-- `invert` reverses every trimming curve and both directions of the surface, without moving the trimming curves in the
    parameter plane: the point under the inverted curve is the point of the old surface at the old curve mirrored in the
    middle of the domain. -/
theorem C85_invert_mirrors {S : Surface K (W × K)} (h : S.Good eps)
    (hcu : ContKnots (kf S.uKnots) S.uDegree (S.cps.length - 1)) (hcv : ContKnots (kf S.vKnots) S.vDegree (S.cols - 1))
    (hmu : kf S.uKnots 0 + kf S.uKnots (S.uKnots.length - 1) = S.ulo + S.uhi)
    (hmv : kf S.vKnots 0 + kf S.vKnots (S.vKnots.length - 1) = S.vlo + S.vhi)
    {c : UvCurve K} (hov : Over eps S c) (hcc : ContKnots (kf c.knots) c.degree (c.cps.length - 1)) :
    ∃ S' c', Trimmed.invert ⟨S, some c, []⟩ = .ok ⟨S', some c', []⟩ ∧
      (let m := kf c.knots 0 + kf c.knots (c.knots.length - 1)
       c'.lo = m - c.hi ∧ c'.hi = m - c.lo ∧
       ∀ t, c.lo ≤ t → t ≤ c.hi → ∃ uv, c.pointAt eps t = .ok uv ∧ c'.pointAt eps (m - t) = .ok uv ∧
         S'.pointAt eps uv.1 uv.2 = S.pointAt eps (S.ulo + S.uhi - uv.1) (S.vlo + S.vhi - uv.2)) := by
  obtain ⟨S', e1, -, -, -, -, -, -, hS⟩ := C29_invert h hcu hcv
  obtain ⟨c', e2, -, -, hlo, hhi, hc⟩ := C13_invert_reverses hov.good hcc
  refine ⟨S', c', ?_, hlo, hhi, ?_⟩
  · rw [Trimmed.invert]
    simp only [e1, Tess.optMapM, e2, ok_bind, List.mapM_nil]
    rfl
  · intro t h1 h2
    have hp := hov.pointAt h1 h2
    obtain ⟨m1, m2, m3, m4⟩ := hov.mem h1 h2
    refine ⟨_, hp, ?_, ?_⟩
    · rw [← hp, Curve.pointAt, Curve.pointAt, hc t h1 h2]
    · have a1 : S.ulo ≤ S.ulo + S.uhi - (uvPoint c t).1 := by change _ ≤ S.uhi at m2; linarith
      have a2 : S.ulo + S.uhi - (uvPoint c t).1 ≤ S.uhi := by change S.ulo ≤ _ at m1; linarith
      have a3 : S.vlo ≤ S.vlo + S.vhi - (uvPoint c t).2 := by change _ ≤ S.vhi at m4; linarith
      have a4 : S.vlo + S.vhi - (uvPoint c t).2 ≤ S.vhi := by change S.vlo ≤ _ at m3; linarith
      have := hS _ _ a1 a2 a3 a4
      rw [hmu, hmv, sub_sub_cancel, sub_sub_cancel] at this
      rw [Surface.pointAt, Surface.pointAt, this]

theorem exFlat_point {x : ℚ × ℚ} (hx : (domRect exFlat).Mem x) : exFlat.pointAt (1/1000) x.1 x.2 = .ok (x.1, x.2, 0) := by
  obtain ⟨h1, h2, h3, h4⟩ := hx
  obtain ⟨su, eu, pu, nu, iu⟩ := exFlat_good.exists_span_u h1 h2
  obtain ⟨sv, ev, pv, nv, iv⟩ := exFlat_good.exists_span_v h3 h4
  have hev : exFlat.eval x.1 x.2 = ((x.1, x.2, 0), 1) := by
    rw [Surface.eval_eq_isoV exFlat_good, linear_bezier_eval (c := exFlat.isoV x.2)
      (p := (exFlat.row 0).eval x.2) (q := (exFlat.row 1).eval x.2) rfl rfl rfl h1 h2,
      linear_bezier_eval (c := exFlat.row 0) rfl rfl rfl h3 h4,
      linear_bezier_eval (c := exFlat.row 1) rfl rfl rfl h3 h4]
    ext <;> simp <;> ring
  rw [surf_pointAt exFlat_good exFlat_weights ⟨h1, h2, h3, h4⟩, surfPoint, hev]
  simp

/-- Inverting a trimmed surface moves its boundary: the trimmed unit square whose boundary runs through `(1/2, 1/4)`
    has, after inversion, no boundary point there. -/
theorem C85_invert_moves_trim : ∃ S' c', Trimmed.invert ⟨exFlat, some exHook, []⟩ = .ok ⟨S', some c', []⟩ ∧
    (∃ t uv, exHook.lo ≤ t ∧ t ≤ exHook.hi ∧ exHook.pointAt (1/1000) t = .ok uv ∧
      exFlat.pointAt (1/1000) uv.1 uv.2 = .ok (1/2, 1/4, 0)) ∧
    ∀ t uv, c'.lo ≤ t → t ≤ c'.hi → c'.pointAt (1/1000) t = .ok uv → S'.pointAt (1/1000) uv.1 uv.2 ≠ .ok (1/2, 1/4, 0) := by
  obtain ⟨S', c', e, hlo, hhi, hp⟩ := C85_invert_mirrors exFlat_good (fun i h1 h2 => by
      replace h1 : 1 < i := h1; replace h2 : i + 1 ≤ 1 := h2; omega) (fun i h1 h2 => by
      replace h1 : 1 < i := h1; replace h2 : i + 1 ≤ 1 := h2; omega) (by decide +kernel) (by decide +kernel) exHook_over
    (fun i h1 h2 => by replace h1 : 1 < i := h1; replace h2 : i + 1 ≤ 2 := h2; omega)
  refine ⟨S', c', e, ⟨1/4, (1/2, 1/4), by decide +kernel, by decide +kernel, by decide +kernel,
    exFlat_point (x := (1/2, 1/4)) (by refine ⟨?_, ?_, ?_, ?_⟩ <;> decide +kernel)⟩, ?_⟩
  intro t uv h1 h2 ht hbad
  obtain ⟨m, hm⟩ : ∃ m, m = kf exHook.knots 0 + kf exHook.knots (exHook.knots.length - 1) := ⟨_, rfl⟩
  rw [← hm] at hlo hhi hp
  have t1 : exHook.lo ≤ m - t := by rw [hhi] at h2; linarith
  have t2 : m - t ≤ exHook.hi := by rw [hlo] at h1; linarith
  obtain ⟨uv', a1, a2, a3⟩ := hp (m - t) t1 t2
  rw [sub_sub_cancel, ht] at a2
  obtain rfl := Except.ok.inj a2
  have hmem : (domRect exFlat).Mem uv := by
    have := exHook_over.mem t1 t2
    rw [exHook_over.pointAt t1 t2] at a1
    rwa [Except.ok.inj a1] at this
  obtain ⟨q, b1, b2⟩ := C10_half_space exHook_over.good exHook_over.pos t1 t2 (LinearMap.snd ℚ ℚ ℚ - LinearMap.fst ℚ ℚ ℚ) 0
    (by decide +kernel)
  rw [a1] at b1
  obtain rfl := Except.ok.inj b1
  have hm' : (domRect exFlat).Mem (exFlat.ulo + exFlat.uhi - uv.1, exFlat.vlo + exFlat.vhi - uv.2) := by
    obtain ⟨m1, m2, m3, m4⟩ := hmem
    refine ⟨?_, ?_, ?_, ?_⟩ <;> simp only [domRect] at * <;> linarith
  rw [a3, exFlat_point hm'] at hbad
  have hb := Except.ok.inj hbad
  simp only [Prod.mk.injEq] at hb
  have k1 : exFlat.ulo + exFlat.uhi = 1 := by decide +kernel
  have k2 : exFlat.vlo + exFlat.vhi = 1 := by decide +kernel
  simp at b2
  rw [k1, k2] at hb
  linarith [hb.1, hb.2.1]

/-! ### Only the control points are mapped -/

/-- A unit square whose first parameter runs quadratically. -/
def exSquash : Surface ℚ ((ℚ × ℚ × ℚ) × ℚ) where
  uDegree := 2
  vDegree := 1
  uKnots := [0, 0, 0, 1, 1, 1]
  vKnots := [0, 0, 1, 1]
  cps := [[((0, 0, 0), 1), ((0, 1, 0), 1)], [((0, 0, 0), 1), ((0, 1, 0), 1)], [((1, 0, 0), 1), ((1, 1, 0), 1)]]

theorem exSquash_good : exSquash.Good (1/1000) where
  rows_pos := by decide
  u_len := by decide
  u_good := ⟨by norm_num, by decide, mono_of_sorted (by decide +kernel) (by decide), by decide +kernel, by decide +kernel,
    by decide +kernel, by decide +kernel⟩
  cols_pos := by decide
  v_good := ⟨by norm_num, by decide, mono_of_sorted (by decide +kernel) (by decide), by decide +kernel, by decide +kernel,
    by decide +kernel, by decide +kernel⟩
  rect := by decide

theorem exSquash_weights : ∀ row ∈ exSquash.cps, ∀ p ∈ row, 0 < p.2 := by decide +kernel

theorem exSquash_point {u v : ℚ} (h1 : 0 ≤ u) (h2 : u ≤ 1) (h3 : 0 ≤ v) (h4 : v ≤ 1) :
    exSquash.pointAt (1/1000) u v = .ok (u ^ 2, v, 0) := by
  have hev : exSquash.eval u v = ((u ^ 2, v, 0), 1) := by
    rw [Surface.eval_eq_isoV exSquash_good, quadratic_bezier_eval (c := exSquash.isoV v)
      (p := (exSquash.row 0).eval v) (q := (exSquash.row 1).eval v) (r := (exSquash.row 2).eval v) rfl rfl rfl h1 h2,
      linear_bezier_eval (c := exSquash.row 0) rfl rfl rfl h3 h4,
      linear_bezier_eval (c := exSquash.row 1) rfl rfl rfl h3 h4,
      linear_bezier_eval (c := exSquash.row 2) rfl rfl rfl h3 h4]
    ext <;> simp <;> ring
  have := surf_pointAt exSquash_good exSquash_weights (x := (u, v)) ⟨h1, h2, h3, h4⟩
  rw [this, surfPoint, hev]
  simp

/-- The diagonal of the square. -/
def exDiagonal : Curve ℚ ((ℚ × ℚ × ℚ) × ℚ) := ⟨1, [((0, 0, 0), 1), ((1, 1, 0), 1)], [0, 0, 1, 1]⟩

/-- The diagonal of the parameter plane. -/
def exUvDiagonal : UvCurve ℚ := ⟨1, [((0, 0), 1), ((1, 1), 1)], [0, 0, 1, 1]⟩

/-- With exact parameters for all points of the surface, a curve that lies on the surface is not reproduced: only its
    control points are mapped, and between them the trimming curve leaves the given curve. -/
theorem C85_control_points_only : ∃ (find : ℚ × ℚ × ℚ → Res (ℚ × ℚ)) (c' : UvCurve ℚ),
    (∀ u v, 0 ≤ u → u ≤ 1 → 0 ≤ v → v ≤ 1 → ∃ p, exSquash.pointAt (1/1000) u v = .ok p ∧ find p = .ok (u, v)) ∧
    tryMapClosestPoint find exSquash (some exDiagonal) [] = .ok ⟨exSquash, some c', []⟩ ∧
    (∀ t, 0 ≤ t → t ≤ 1 → exDiagonal.pointAt (1/1000) t = .ok (t, t, 0)) ∧
    ∀ t, 0 ≤ t → t ≤ 1 → ∃ uv, c'.pointAt (1/1000) t = .ok uv ∧ exSquash.pointAt (1/1000) uv.1 uv.2 = .ok (t ^ 2, t, 0) := by
  classical
  obtain ⟨find, hfind⟩ : ∃ find : ℚ × ℚ × ℚ → Res (ℚ × ℚ), ∀ u, 0 ≤ u → ∀ v z, find (u ^ 2, v, z) = .ok (u, v) := by
    refine ⟨fun p => if h : ∃ u, 0 ≤ u ∧ u ^ 2 = p.1 then .ok (h.choose, p.2.1) else .error .err, ?_⟩
    intro u hu v z
    have h : ∃ w, 0 ≤ w ∧ w ^ 2 = u ^ 2 := ⟨u, hu, rfl⟩
    have hc := h.choose_spec
    have e : h.choose = u := (pow_left_inj₀ hc.1 hu (by norm_num)).1 hc.2
    show (if h : ∃ w, 0 ≤ w ∧ w ^ 2 = u ^ 2 then Except.ok (h.choose, v) else Except.error Fault.err) = _
    rw [dif_pos h, e]
  have f0 : find (0, 0, 0) = .ok (0, 0) := by simpa using hfind 0 le_rfl 0 0
  have f1 : find (1, 1, 0) = .ok (1, 1) := by simpa using hfind 1 zero_le_one 1 0
  have hcg : exDiagonal.Good (1/1000) := ⟨by decide, by decide, by norm_num, by decide,
    mono_of_sorted (by decide +kernel) (by decide), by decide +kernel, by decide +kernel, by decide +kernel, by decide +kernel⟩
  have hcw : ∀ p ∈ exDiagonal.cps, 0 < p.2 := by decide +kernel
  have hmap : mapCurve find exDiagonal = .ok exUvDiagonal := by
    have hn : Curve.tryNew exDiagonal.degree exUvDiagonal.cps exDiagonal.knots = .ok exUvDiagonal :=
      Surface.tryNew_sorted (by decide) (by decide) hcg.pre.sorted
    rw [mapCurve, dehomogenizedCps_eq hcw, ok_bind]
    have : ((exDiagonal.cps.map fun p => p.2⁻¹ • p.1).zip exDiagonal.weights) = [((0, 0, 0), 1), ((1, 1, 0), 1)] := by decide +kernel
    rw [this, List.mapM_cons, List.mapM_cons, List.mapM_nil]
    simp only [f0, f1, ok_bind, pure_eq_ok]
    rw [← hn]
    congr 1
    decide +kernel
  refine ⟨find, exUvDiagonal, fun u v h1 h2 h3 h4 => ⟨_, exSquash_point h1 h2 h3 h4, hfind u h1 v 0⟩, ?_, ?_, ?_⟩
  · rw [tryMapClosestPoint, mapAll, if_neg (by simp), Tess.optMapM, hmap]
    rfl
  · intro t h1 h2
    obtain ⟨e, -⟩ := C09_point_at_positive_weights hcg hcw (show exDiagonal.lo ≤ t from h1) (show t ≤ exDiagonal.hi from h2)
    rw [e, linear_bezier_eval (c := exDiagonal) rfl rfl rfl h1 h2]
    simp
  · intro t h1 h2
    have hug : exUvDiagonal.Good (1/1000) := ⟨by decide, by decide, by norm_num, by decide,
      mono_of_sorted (by decide +kernel) (by decide), by decide +kernel, by decide +kernel, by decide +kernel, by decide +kernel⟩
    obtain ⟨e, -⟩ := C09_point_at_positive_weights hug (by decide +kernel) (show exUvDiagonal.lo ≤ t from h1)
      (show t ≤ exUvDiagonal.hi from h2)
    refine ⟨(t, t), ?_, exSquash_point h1 h2 h1 h2⟩
    rw [e, linear_bezier_eval (c := exUvDiagonal) rfl rfl rfl h1 h2]
    simp

/-! ### Witnesses -/

/-- A search on the unit square: the first two coordinates, if they are in the square. -/
def exFind (p : ℚ × ℚ × ℚ) : Res (ℚ × ℚ) :=
  if 0 ≤ p.1 ∧ p.1 ≤ 1 ∧ 0 ≤ p.2.1 ∧ p.2.1 ≤ 1 then .ok (p.1, p.2.1) else .error .err

/-- A rational quadratic in the square. -/
def exBow : Curve ℚ ((ℚ × ℚ × ℚ) × ℚ) := ⟨2, [((0, 0, 0), 1), ((2, 0, 0), 2), ((1, 1, 0), 1)], [0, 0, 0, 1, 1, 1]⟩

theorem exBow_good : exBow.Good (1/1000) := ⟨by decide, by decide, by norm_num, by decide,
  mono_of_sorted (by decide +kernel) (by decide), by decide +kernel, by decide +kernel, by decide +kernel, by decide +kernel⟩

theorem exBow_weights : ∀ p ∈ exBow.cps, 0 < p.2 := by decide +kernel

example : ∃ t c', tryMapClosestPoint exFind exFlat (some exBow) [] = .ok t ∧ t.exterior = some c' ∧
    ∀ s, exBow.lo ≤ s → s ≤ exBow.hi → ∃ uv q, c'.pointAt (1/1000) s = .ok uv ∧ exBow.pointAt (1/1000) s = .ok q ∧
      exFlat.pointAt (1/1000) uv.1 uv.2 = .ok q := by
  obtain ⟨t, e, hb⟩ := C85_closest_point (find := exFind) (S := exFlat) (ext := some exBow) (ints := []) (eps := 1/1000)
    (.inl (by simp)) (by
      intro c hc
      rcases hc with hc | hc
      · obtain rfl := Option.some.inj hc
        refine ⟨exBow_good, exBow_weights, fun p hp => ?_⟩
        simp only [exBow, List.mem_cons, List.not_mem_nil, or_false] at hp
        rcases hp with rfl | rfl | rfl
        exacts [⟨(0, 0), by decide +kernel⟩, ⟨(1, 0), by decide +kernel⟩, ⟨(1, 1), by decide +kernel⟩]
      · cases hc)
  have hx := hb.exterior
  rcases hte : t.exterior with _ | c'
  · rw [hte] at hx; exact hx.elim
  · rw [hte] at hx
    refine ⟨t, c', e, hte, fun s h1 h2 => ?_⟩
    refine C85_plane (o := 0) (a := (1, 0, 0)) (b := (0, 1, 0)) hx exBow_good exBow_weights (fun x hx => ?_) ?_ h1 h2
    · rw [exFlat_point hx]; simp
    · intro p hp x hx
      have hz : (p.2⁻¹ • p.1).2.2 = 0 := by
        simp only [exBow, List.mem_cons, List.not_mem_nil, or_false] at hp
        rcases hp with rfl | rfl | rfl <;> simp
      rw [exFind] at hx
      split_ifs at hx with hc
      obtain rfl := Except.ok.inj hx
      have hm : (domRect exFlat).Mem ((p.2⁻¹ • p.1).1, (p.2⁻¹ • p.1).2.1) := hc
      exact ⟨hm, by rw [exFlat_point hm, ← hz]⟩

/-- The far end of this line misses the square. -/
example : tryMapClosestPoint exFind exFlat none [exBow, ⟨1, [((0, 0, 0), 1), ((2, 1, 0), 1)], [0, 0, 1, 1]⟩] = .error .err := by
  refine C85_search_failure (eps := 1/1000) (c := ⟨1, [((0, 0, 0), 1), ((2, 1, 0), 1)], [0, 0, 1, 1]⟩) (p := ((2, 1, 0), 1)) ?_ ?_
    (by simp) (by simp) (by decide +kernel)
  · intro c hc
    simp at hc
    rcases hc with rfl | rfl
    · exact ⟨exBow_good, exBow_weights⟩
    · exact ⟨⟨by decide, by decide, by norm_num, by decide, mono_of_sorted (by decide +kernel) (by decide), by decide +kernel,
        by decide +kernel, by decide +kernel, by decide +kernel⟩, by decide +kernel⟩
  · intro p
    rw [exFind]
    split_ifs
    · exact .inl ⟨_, rfl⟩
    · exact .inr rfl

/-- Three units below the unit square, looking up. -/
def exBelow : Curve ℚ ((Fin 3 → ℚ) × ℚ) := ⟨1, [(![0, 0, -3], 1), (![1/2, 0, -3], 1)], [0, 0, 1, 1]⟩

example : ∃ b0 b1 r t, (Surface.plane 0 ![1, 0, 0] ![0, 1, 0] : Surface ℚ ((Fin 3 → ℚ) × ℚ)).boundingBox 100 = .ok b0 ∧
    Box.ofCurve 100 exBelow = .ok b1 ∧
    ray (fun a b => ∑ i, |a i - b i|) ![0, 0, 1] (rayLength (fun v => ∑ i, |v i|) b0 b1 ![0, 0, 1]) ((1 : ℚ)⁻¹ • ![1/2, 0, -3]) = .ok r ∧
    r.lo ≤ t ∧ t ≤ r.hi ∧ r.pointAt (1/1000) t = .ok ((1 : ℚ)⁻¹ • ![1/2, 0, -3] + (3 : ℚ) • ![0, 0, 1]) := by
  refine C85_ray_reaches (S := Surface.plane 0 ![1, 0, 0] ![0, 1, 0]) (c := exBelow) (p := (![1/2, 0, -3], 1)) (x := (3/4, 1/2))
    (by norm_num) (by norm_num) (plane_good (by norm_num) (by norm_num) _ _ _) ?_ (by simp [exBelow]) (by simp [Fin.sum_univ_three])
    (.inl ?_) ?_ ?_ ?_ (by simp [exBelow]) ?_ (by norm_num) ?_
  · simp [Surface.plane, Curve.homogenize]; aesop
  · intro i; fin_cases i <;> simp
  · intro v
    simp only [Fin.sum_univ_three]
    have := abs_nonneg (v 0)
    have := abs_nonneg (v 1)
    have := le_abs_self (v 2)
    simp
    linarith
  · intro v; exact Finset.sum_nonneg fun i _ => abs_nonneg _
  · intro a b hab
    obtain ⟨i, hi⟩ : ∃ i, a i ≠ b i := by
      by_contra hh; push Not at hh; exact hab (funext hh)
    exact Finset.sum_pos' (fun i _ => abs_nonneg _) ⟨i, Finset.mem_univ _, abs_pos.2 (sub_ne_zero.2 hi)⟩
  · refine ⟨?_, ?_, ?_, ?_⟩ <;> simp [domRect, Surface.ulo, Surface.uhi, Surface.vlo, Surface.vhi, Surface.plane, Surface.cols, kf] <;>
      norm_num
  · rw [C31_plane (by norm_num) (by norm_num) _ _ _ (by norm_num) (by norm_num) (by norm_num) (by norm_num)]
    congr 1
    funext i
    fin_cases i <;> norm_num

end Curvo.Props

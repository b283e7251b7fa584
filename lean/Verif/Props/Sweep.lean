/-
  C77: swept surfaces.
-/
import Verif.Props.Frame
import Verif.Props.Loft
import Verif.Props.Surface2

set_option linter.unusedSectionVars false

namespace Curvo.Props

open Curvo.Knots Curvo.Spec Curvo.Interp Curvo.Loft Curvo.Frame Matrix

section unify

variable {K : Type} [Field K] [LinearOrder K] [IsStrictOrderedRing K]
variable {V : Type} [AddCommGroup V] [Module K V]

theorem setUnionGo_self {eps : K} (he : 0 < eps) : ∀ (n : ℕ) (l : List K), l.length ≤ n → Curve.setUnionGo eps n l l = l
  | 0, l, h => by
    obtain rfl : l = [] := List.length_eq_zero_iff.1 (by omega)
    rfl
  | n + 1, [], _ => rfl
  | n + 1, a :: as, h => by
    rw [Curve.setUnionGo, if_pos (by simpa using he), setUnionGo_self he n as (by simpa using h)]

theorem setUnion_self {eps : K} (he : 0 < eps) (l : List K) : Curve.setUnion eps l l = l :=
  setUnionGo_self he _ _ (by omega)

theorem setUnion_nil {eps : K} (l : List K) : Curve.setUnion eps l [] = l := by
  unfold Curve.setUnion
  cases l with
  | nil => rfl
  | cons a as => rfl

theorem setSub_self {eps : K} (he : 0 < eps) : ∀ l : List K, Curve.setSub eps l l = []
  | [] => rfl
  | a :: as => by rw [Curve.setSub, if_pos (by simpa using he), setSub_self he as]

/-- Unifying curves that already share their degree and their knots only moves the start of the knots to zero. -/
theorem unify_same {eps a b : K} (he : 0 < eps) {cs : List (Curve K V)} (hne : cs ≠ []) {p : ℕ} {ks : List K}
    (hdeg : ∀ c ∈ cs, c.degree = p) (hk : ∀ c ∈ cs, c.knots = ks) (ha : ks.head? = some a) (hb : ks.getLast? = some b)
    (hab : a < b) : Curve.tryUnify eps cs = .ok (cs.map fun c => { c with knots := ks.map (· - a) }) := by
  have hl : 0 < ks.length := by
    cases ks with
    | nil => simp at ha
    | cons => simp
  rw [List.head?_eq_getElem?, List.getElem?_eq_getElem hl] at ha
  rw [List.getLast?_eq_getElem?, List.getElem?_eq_getElem (by omega)] at hb
  have ha := Option.some.inj ha
  have hb := Option.some.inj hb
  have e1 : cs.mapM (fun c => if c.degree < p then c.tryElevateDegree p else pure c) = .ok cs := by
    rw [mapM_ok (g := id) (fun c hc => by rw [if_neg (by have := hdeg c hc; omega)]; rfl), List.map_id]
  have e2 : cs.mapM (fun c => do
      let a ← getR c.knots 0
      let l ← subR c.knots.length 1
      let b ← getR c.knots l
      pure (a, b)) = (.ok (cs.map fun _ => (a, b)) : Res (List (K × K))) := by
    refine mapM_ok fun c hc => ?_
    rw [hk c hc, getR_eq_ok hl, ok_bind, subR_eq_ok (by omega), ok_bind, getR_eq_ok (by omega), ok_bind, ha, hb]
    rfl
  have e3 : ((cs.map fun _ => (a, b)).map fun iv : K × K => iv.2 - iv.1).foldl (fun x a => max a x) 0 = b - a := by
    rw [List.map_map]
    refine foldl_max_eq ?_ ?_ (sub_nonneg.2 hab.le)
    · intro x hx
      obtain ⟨c, hc, rfl⟩ := List.mem_map.1 hx
      exact le_refl _
    · obtain ⟨c, hc⟩ := List.exists_mem_of_ne_nil cs hne
      exact List.mem_map.2 ⟨c, hc, rfl⟩
  have e4 : (cs.zip (cs.map fun _ => (a, b))).mapM (fun ci : Curve K V × K × K => do
      let scale ← divR (b - a) (ci.2.2 - ci.2.1)
      pure { ci.1 with knots := (ci.1.knots.map (· - ci.2.1)).map (· * scale) }) =
        (.ok (cs.map fun c => { c with knots := ks.map (· - a) }) : Res (List (Curve K V))) := by
    have hz : cs.zip (cs.map fun _ => (a, b)) = cs.map fun c => (c, a, b) := by
      clear * -
      induction cs with
      | nil => rfl
      | cons c cs ih => simp only [List.map_cons, List.zip_cons_cons, ih]
    have hg : ∀ ci ∈ cs.map fun c => (c, a, b),
        (do let scale ← divR (b - a) (ci.2.2 - ci.2.1)
            pure { ci.1 with knots := (ci.1.knots.map (· - ci.2.1)).map (· * scale) } : Res (Curve K V)) =
          .ok { ci.1 with knots := ks.map (· - a) } := by
      intro ci hci
      obtain ⟨c, hc, rfl⟩ := List.mem_map.1 hci
      have hne' : b - a ≠ 0 := (sub_pos.2 hab).ne'
      simp only
      rw [divR_eq_ok hne', ok_bind, div_self hne', hk c hc, List.map_map]
      simp [Function.comp_def]
    rw [hz, mapM_ok (g := fun ci => { ci.1 with knots := ks.map (· - a) }) hg, List.map_map]
    rfl
  have e5 : ∀ (l : List (Curve K V)) (acc : List K), (acc = [] ∧ l ≠ [] ∨ acc = ks.map (· - a)) →
      (∀ c ∈ l, c.knots = ks.map (· - a)) → l.foldl (fun a c => Curve.setUnion eps c.knots a) acc = ks.map (· - a) := by
    intro l
    induction l with
    | nil =>
      rintro acc (⟨-, h⟩ | h) -
      · exact absurd rfl h
      · exact h
    | cons c l ih =>
      rintro acc h hc
      rw [List.foldl_cons]
      refine ih _ (Or.inr ?_) fun c hc' => hc c (List.mem_cons_of_mem _ hc')
      rw [hc c (by simp)]
      rcases h with ⟨rfl, -⟩ | rfl
      · exact setUnion_nil _
      · exact setUnion_self he _
  rw [Curve.tryUnify]
  simp only [foldl_max_degree hne hdeg]
  rw [e1, ok_bind, e2, ok_bind]
  simp only [e3]
  rw [e4, ok_bind, e5 _ _ (Or.inl ⟨rfl, by simpa using hne⟩) (by
    intro c hc
    obtain ⟨d, -, rfl⟩ := List.mem_map.1 hc
    rfl), mapM_ok (g := id) (fun c hc => by
    obtain ⟨d, -, rfl⟩ := List.mem_map.1 hc
    simp [setSub_self he]), List.map_id]

end unify

/-- Where a frame puts a point given in its coordinates: the tangent is its z axis, the normal its y axis. -/
noncomputable def frameAct (f : FrenetFrame) (q : V3) : V3 :=
  f.position + (q 0 • (-f.binormal) + q 1 • f.normal + q 2 • f.tangent)

/-- The same on homogeneous points. -/
noncomputable def place (f : FrenetFrame) : (V3 × ℝ) →ₗ[ℝ] (V3 × ℝ) where
  toFun p := (p.2 • f.position + (p.1 0 • (-f.binormal) + p.1 1 • f.normal + p.1 2 • f.tangent), p.2)
  map_add' x y := by
    refine Prod.ext ?_ rfl
    simp only [Prod.fst_add, Prod.snd_add, Pi.add_apply]
    module
  map_smul' a x := by
    refine Prod.ext ?_ rfl
    simp only [Prod.smul_fst, Prod.smul_snd, Pi.smul_apply, smul_eq_mul, RingHom.id_apply]
    module

theorem frameMatrix_eq {f : FrenetFrame} (h : RightHanded f) : ∃ m, frameMatrix f = .ok m ∧ m.c = 0 ∧ m.d = 1 ∧
    m.b = f.position ∧ ∀ q, m.A q = q 0 • (-f.binormal) + q 1 • f.normal + q 2 • f.tangent := by
  have hx := C75_matrix h 0
  have key : faceTowards f.tangent f.normal = .ok (-f.binormal, f.normal, f.tangent) := by
    have e0 := C75_matrix h ![1, 0, 0]
    have e1 := C75_matrix h ![0, 1, 0]
    have e2 := C75_matrix h ![0, 0, 1]
    unfold FrenetFrame.apply at e0 e1 e2
    cases hf : faceTowards f.tangent f.normal with
    | error e => rw [hf] at e0; cases e0
    | ok r =>
      rw [hf] at e0 e1 e2
      have e0 := Except.ok.inj e0
      have e1 := Except.ok.inj e1
      have e2 := Except.ok.inj e2
      simp only [Matrix.cons_val, one_smul, zero_smul, add_zero, zero_add, add_right_inj] at e0 e1 e2
      congr 1
      exact Prod.ext e0 (Prod.ext e1 e2)
  rw [frameMatrix, key, ok_bind]
  exact ⟨_, rfl, rfl, rfl, rfl, fun q => rfl⟩

theorem frame_transform {f : FrenetFrame} (h : RightHanded f) {c : Curve ℝ (V3 × ℝ)} (hw : ∀ p ∈ c.cps, p.2 ≠ 0) :
    (do let m ← frameMatrix f
        c.transform m) = .ok (c.mapCps (place f)) := by
  obtain ⟨m, e1, e2, e3, e4, e5⟩ := frameMatrix_eq h
  rw [e1, ok_bind, Curve.transform, mapM_ok (g := place f) (fun p hp => ?_)]
  · rfl
  · have hp2 := hw p hp
    rw [Curve.transformPoint, divR_eq_ok hp2, ok_bind, Curve.Matrix4.apply, e2, e3]
    simp only [LinearMap.zero_apply, zero_add, mul_one]
    rw [divR_eq_ok one_ne_zero, ok_bind, pure_eq_ok]
    congr 1
    refine Prod.ext ?_ rfl
    simp only [place, LinearMap.coe_mk, AddHom.coe_mk, e4, e5, div_one, one_smul, Pi.smul_apply, smul_eq_mul, one_div]
    rw [smul_add, add_comm]
    congr 1
    simp only [smul_add, smul_smul]
    congr 1
    · congr 1
      · congr 1; field_simp
      · congr 1; field_simp
    · congr 1; field_simp

theorem place_pointAt (f : FrenetFrame) (eps : ℝ) (c : Curve ℝ (V3 × ℝ)) (u : ℝ) :
    (c.mapCps (place f)).pointAt eps u = (c.pointAt eps u).map (frameAct f) := by
  unfold Curve.pointAt
  rw [Curve.point_mapCps]
  cases c.point eps u with
  | error e => rfl
  | ok p =>
    simp only [Except.map, ok_bind]
    have e5 : (place f p).2 = p.2 := rfl
    unfold Curve.dehomogenize
    rw [e5]
    by_cases hp : p.2 = 0
    · simp [hp, unwrapR]
    · simp only [ne_eq, hp, not_false_eq_true, if_true, unwrapR]
      congr 1
      simp only [place, LinearMap.coe_mk, AddHom.coe_mk, frameAct, Pi.smul_apply, smul_eq_mul, smul_add, smul_smul]
      rw [inv_mul_cancel₀ hp, one_smul]

/-- The parameters along the rail run from the start to the end of its domain. -/
theorem railParameters_eq {eps : ℝ} {rail : Curve ℝ (V3 × ℝ)} (hr : rail.Good eps) :
    railParameters rail = .ok ((List.range (rail.cps.length * 2)).map fun (i : ℕ) =>
      rail.lo + (i : ℝ) * ((rail.hi - rail.lo) / ((rail.cps.length * 2 - 1 : ℕ) : ℝ))) := by
  have hpos := hr.cps_pos
  have hne : ((rail.cps.length * 2 - 1 : ℕ) : ℝ) ≠ 0 := by
    have : rail.cps.length * 2 - 1 ≠ 0 := by omega
    exact_mod_cast this
  simp only [railParameters, knotsDomain_eq hr, ok_bind]
  rw [subR_eq_ok (by omega), ok_bind, divR_eq_ok hne, ok_bind]
  rfl

/-- What a sweep lofts: the profile placed by the frames at equally spaced parameters of the rail, twice as many as the rail
    has control points. -/
theorem sweepSections_ok {eps : ℝ} (he1 : eps < 1) {profile rail : Curve ℝ (V3 × ℝ)} (hr : rail.Good eps)
    (hw : ∀ p ∈ profile.cps, p.2 ≠ 0) {cs : List (Curve ℝ (V3 × ℝ))} (h : sweepSections eps profile rail = .ok cs) :
    ∃ fs : List FrenetFrame, cs = fs.map (fun f => profile.mapCps (place f)) ∧ fs.length = rail.cps.length * 2 ∧
      (fs.map fun f => (f.tangent, f.normal)).IsChain Carried ∧
      ∀ i (hi : i < fs.length), RightHanded fs[i] ∧
        rail.pointAt eps (rail.lo + i * ((rail.hi - rail.lo) / ((rail.cps.length * 2 - 1 : ℕ) : ℝ))) = .ok fs[i].position ∧
        ∃ T, rail.tangentAt eps (rail.lo + i * ((rail.hi - rail.lo) / ((rail.cps.length * 2 - 1 : ℕ) : ℝ))) = .ok T ∧ T ≠ 0 ∧
          fs[i].tangent = (Frame.norm T)⁻¹ • T := by
  rw [sweepSections, railParameters_eq hr, ok_bind] at h
  obtain ⟨fs, hf, h⟩ := bind_eq_ok.1 h
  have ho := C75_frames_orthonormal he1 hf
  have hl : fs.length = rail.cps.length * 2 := by rw [← ho.length_eq]; simp
  have hi : ∀ i (hi : i < fs.length), _ := fun i hi => ho.get (i := i) (by simp; omega) hi
  have hrh : ∀ f ∈ fs, RightHanded f := by
    intro f hf
    obtain ⟨i, hi', rfl⟩ := List.mem_iff_getElem.1 hf
    exact (hi i hi').1
  rw [mapM_ok (g := fun f => profile.mapCps (place f)) (fun f hf => frame_transform (hrh f hf) hw)] at h
  refine ⟨fs, (Except.ok.inj h).symm, hl, C75_frames_carried he1 hf, fun i hi' => ?_⟩
  have := hi i hi'
  simpa using this

/-- The profile placed by a frame, with its knots moved to start at zero. -/
noncomputable def placed (profile : Curve ℝ (V3 × ℝ)) (f : FrenetFrame) : Curve ℝ (V3 × ℝ) :=
  { profile.mapCps (place f) with knots := profile.knots.map (· - profile.lo) }

theorem placed_spec {eps : ℝ} {profile : Curve ℝ (V3 × ℝ)} (hp : profile.Good eps) (f : FrenetFrame) :
    (profile.mapCps (place f)).Good eps ∧ (placed profile f).Good eps ∧ (placed profile f).lo = 0 ∧
    (placed profile f).hi = profile.hi - profile.lo ∧
    ∀ u, profile.lo ≤ u → u ≤ profile.hi → (placed profile f).eval (u - profile.lo) = (profile.mapCps (place f)).eval u := by
  have hshift : placed profile f =
      { profile.mapCps (place f) with knots := (profile.mapCps (place f)).knots.map fun x => 1 * x + -profile.lo } := by
    simp only [placed, Curve.mapCps, one_mul]
    rfl
  have hgm : (profile.mapCps (place f)).Good eps :=
    ⟨by simpa [Curve.mapCps] using hp.cps_pos, by simpa [Curve.mapCps] using hp.knots_len, by
      simpa [Curve.mapCps] using hp.good⟩
  have hlo : (profile.mapCps (place f)).lo = profile.lo := rfl
  have hhi : (profile.mapCps (place f)).hi = profile.hi := by simp [Curve.hi, Curve.mapCps]
  have hsg := Curve.affine_good hgm (α := 1) (β := -profile.lo) (le_refl _)
  rw [← hshift] at hsg
  simp only [hlo, hhi, one_mul, ← sub_eq_add_neg] at hsg
  exact ⟨hgm, hsg.1, by rw [hsg.2.1, sub_self], hsg.2.2.1, hsg.2.2.2⟩

/-- The sections of a sweep, unified, are ready to be lofted. -/
theorem sweep_ready {eps : ℝ} (he : 0 < eps) (he1 : eps < 1) {dist : V3 × ℝ → V3 × ℝ → ℝ}
    {profile rail : Curve ℝ (V3 × ℝ)} (hp : profile.Good eps) (hw : ∀ p ∈ profile.cps, p.2 ≠ 0)
    (hends : profile.knots.head? = some profile.lo ∧ profile.knots.getLast? = some profile.hi) (hr : rail.Good eps)
    {degreeV : Option ℕ} (hv : 1 ≤ degreeV.getD profile.degree) {cs : List (Curve ℝ (V3 × ℝ))}
    (hcs : sweepSections eps profile rail = .ok cs)
    (hsp : ∀ i, i < profile.cps.length → Spaced eps dist (columnPoints cs i)) :
    ∃ fs : List FrenetFrame, fs.length = rail.cps.length * 2 ∧
      (fs.map fun f => (f.tangent, f.normal)).IsChain Carried ∧
      (∀ i (hi : i < fs.length), RightHanded fs[i] ∧
        rail.pointAt eps (rail.lo + i * ((rail.hi - rail.lo) / ((rail.cps.length * 2 - 1 : ℕ) : ℝ))) = .ok fs[i].position ∧
        ∃ T, rail.tangentAt eps (rail.lo + i * ((rail.hi - rail.lo) / ((rail.cps.length * 2 - 1 : ℕ) : ℝ))) = .ok T ∧ T ≠ 0 ∧
          fs[i].tangent = (Frame.norm T)⁻¹ • T) ∧
      Curve.tryUnify eps cs = .ok (fs.map (placed profile)) ∧
      LoftReady eps dist (fs.map (placed profile)) degreeV profile.degree (profile.knots.map (· - profile.lo)) ∧
      (∀ i, i < profile.cps.length → columnPoints (fs.map (placed profile)) i = fs.map fun f => place f (profile.cps.getD i 0)) := by
  obtain ⟨fs, hfs, hl, hchain, hfr⟩ := sweepSections_ok he1 hr hw hcs
  have hrpos := hr.cps_pos
  have hdom : profile.lo < profile.hi := hp.pre.dom
  have hne : cs ≠ [] := by
    intro e
    have := congrArg List.length hfs
    rw [e] at this
    simp at this; omega
  have hcd : ∀ c ∈ cs, c.degree = profile.degree ∧ c.knots = profile.knots := by
    intro c hc
    rw [hfs] at hc
    obtain ⟨f, -, rfl⟩ := List.mem_map.1 hc
    exact ⟨rfl, rfl⟩
  have hu := unify_same he hne (fun c hc => (hcd c hc).1) (fun c hc => (hcd c hc).2) hends.1 hends.2 hdom
  have hus : (cs.map fun c => ({ c with knots := profile.knots.map (· - profile.lo) } : Curve ℝ (V3 × ℝ))) =
      fs.map (placed profile) := by
    rw [hfs, List.map_map]; rfl
  rw [hus] at hu
  have hcol : ∀ i, columnPoints (fs.map (placed profile)) i = columnPoints cs i := by
    intro i
    rw [← hus, columnPoints, columnPoints, List.map_map]; rfl
  have hkl := hp.knots_len
  refine ⟨fs, hl, hchain, hfr, hu, ⟨⟨?_, ?_, ?_⟩, by simp; omega, hv, fun i hi => ?_⟩, fun i hi => ?_⟩
  · intro c hc
    obtain ⟨f, -, rfl⟩ := List.mem_map.1 hc
    exact (placed_spec hp f).2.1
  · intro c hc
    obtain ⟨f, -, rfl⟩ := List.mem_map.1 hc
    rfl
  · intro c hc
    obtain ⟨f, -, rfl⟩ := List.mem_map.1 hc
    rfl
  · rw [hcol]
    refine hsp i ?_
    simp at hi; omega
  · rw [columnPoints, List.map_map]
    refine List.map_congr_left fun f _ => ?_
    simp [placed, Curve.mapCps, List.getD_eq_getElem?_getD, hi]

/-- What a sweep lofts, and how the surface relates to the placed profiles. -/
theorem sweep_core {eps : ℝ} (he : 0 < eps) (he1 : eps < 1) {dist : V3 × ℝ → V3 × ℝ → ℝ}
    {solve : List (List ℝ) → List (V3 × ℝ) → Option (List (V3 × ℝ))} (hs : SolverSound solve)
    {profile rail : Curve ℝ (V3 × ℝ)} (hp : profile.Good eps) (hw : ∀ p ∈ profile.cps, p.2 ≠ 0)
    (hends : profile.knots.head? = some profile.lo ∧ profile.knots.getLast? = some profile.hi) (hr : rail.Good eps)
    {degreeV : Option ℕ} (hv : 1 ≤ degreeV.getD profile.degree)
    (hsp : ∀ cs, sweepSections eps profile rail = .ok cs → ∀ i, i < profile.cps.length → Spaced eps dist (columnPoints cs i))
    {S : Surface ℝ (V3 × ℝ)} (h : trySweep eps dist solve profile rail degreeV = .ok S) :
    ∃ (fs : List FrenetFrame) (us : List (Curve ℝ (V3 × ℝ))), fs.length = rail.cps.length * 2 ∧
      (fs.map fun f => (f.tangent, f.normal)).IsChain Carried ∧
      (∀ i (hi : i < fs.length), RightHanded fs[i] ∧
        rail.pointAt eps (rail.lo + i * ((rail.hi - rail.lo) / ((rail.cps.length * 2 - 1 : ℕ) : ℝ))) = .ok fs[i].position ∧
        ∃ T, rail.tangentAt eps (rail.lo + i * ((rail.hi - rail.lo) / ((rail.cps.length * 2 - 1 : ℕ) : ℝ))) = .ok T ∧ T ≠ 0 ∧
          fs[i].tangent = (Frame.norm T)⁻¹ • T) ∧
      us.length = fs.length ∧ LoftReady eps dist us degreeV profile.degree (profile.knots.map (· - profile.lo)) ∧
      (∀ i, i < profile.cps.length → columnPoints us i = fs.map fun f => place f (profile.cps.getD i 0)) ∧
      loftSections eps dist solve us degreeV = .ok S ∧
      S.ulo = 0 ∧ S.uhi = profile.hi - profile.lo ∧
      ∀ k (hk : k < us.length) (hk' : k < fs.length) v, 0 ≤ v → v ≤ 1 → (∀ x, S.eval x v = us[k].eval x) →
        ∀ u, profile.lo ≤ u → u ≤ profile.hi →
          S.pointAt eps (u - profile.lo) v = (profile.pointAt eps u).map (frameAct fs[k]) := by
  rw [trySweep] at h
  obtain ⟨cs, hcs, h⟩ := bind_eq_ok.1 h
  obtain ⟨fs, hl, hchain, hfr, hu, hR, hcol⟩ := sweep_ready he he1 hp hw hends hr hv hcs (hsp cs hcs)
  have hrpos := hr.cps_pos
  rw [tryLoft, hu, ok_bind] at h
  obtain ⟨hG, s1, s2, s3, s4, s5, s6, s7⟩ := C76_shape hs he.le hR h
  have h0 : 0 < fs.length := by omega
  have hkl := hp.knots_len
  have hsp := placed_spec hp
  have hulo : S.ulo = 0 := by
    rw [Surface.ulo, s1, s2]
    exact (hsp fs[0]).2.2.1
  have huhi : S.uhi = profile.hi - profile.lo := by
    have := (hsp fs[0]).2.2.2.1
    rw [Surface.uhi, s2, show S.cps.length = profile.cps.length by simp at s7; omega]
    simpa [Curve.hi, placed, Curve.mapCps] using this
  refine ⟨fs, fs.map (placed profile), hl, hchain, hfr, by simp, hR, hcol, h, hulo, huhi,
    fun k hk hk' v v1 v2 e u hu1 hu2 => ?_⟩
  have b1 : S.ulo ≤ u - profile.lo := by rw [hulo]; linarith
  have b2 : u - profile.lo ≤ S.uhi := by rw [huhi]; linarith
  have e := e (u - profile.lo)
  rw [List.getElem_map, (hsp fs[k]).2.2.2.2 u hu1 hu2] at e
  rw [← place_pointAt, Surface.pointAt, C28_point hG b1 b2 (by rwa [s4]) (by rwa [s5]), Curve.pointAt,
    Curve.point_eq_eval (hsp fs[k]).1 hu1 (by
      rw [show (profile.mapCps (place fs[k])).hi = profile.hi by simp [Curve.hi, Curve.mapCps]]; exact hu2), e]

/-- **C77**: with v degree one a solver that finds existing solutions never fails: the sweep exists as soon as the placed
    profiles do. -/
theorem C77_degree_one {eps : ℝ} (he : 0 < eps) (he1 : eps < 1) {dist : V3 × ℝ → V3 × ℝ → ℝ}
    {solve : List (List ℝ) → List (V3 × ℝ) → Option (List (V3 × ℝ))} (hs : SolverSound solve) (hc : SolverComplete solve)
    {profile rail : Curve ℝ (V3 × ℝ)} (hp : profile.Good eps) (hw : ∀ p ∈ profile.cps, p.2 ≠ 0)
    (hends : profile.knots.head? = some profile.lo ∧ profile.knots.getLast? = some profile.hi) (hr : rail.Good eps)
    {cs : List (Curve ℝ (V3 × ℝ))} (hcs : sweepSections eps profile rail = .ok cs)
    (hsp : ∀ i, i < profile.cps.length → Spaced eps dist (columnPoints cs i)) :
    ∃ S, trySweep eps dist solve profile rail (some 1) = .ok S := by
  obtain ⟨fs, hl, hchain, hfr, hu, hR, hcol⟩ := sweep_ready he he1 hp hw hends hr (degreeV := some 1) (le_refl 1) hcs hsp
  have hrpos := hr.cps_pos
  obtain ⟨S, hS⟩ := C76_degree_one hs hc he.le hR (by simp; omega)
  exact ⟨S, by rw [trySweep, hcs, ok_bind, tryLoft, hu, ok_bind, hS]⟩

/-- **C77**: the ends of a sweep are the profile placed by the frames of the rail at its two ends. -/
theorem C77_sweep {eps : ℝ} (he : 0 < eps) (he1 : eps < 1) {dist : V3 × ℝ → V3 × ℝ → ℝ}
    {solve : List (List ℝ) → List (V3 × ℝ) → Option (List (V3 × ℝ))} (hs : SolverSound solve)
    {profile rail : Curve ℝ (V3 × ℝ)} (hp : profile.Good eps) (hw : ∀ p ∈ profile.cps, p.2 ≠ 0)
    (hends : profile.knots.head? = some profile.lo ∧ profile.knots.getLast? = some profile.hi) (hr : rail.Good eps)
    {degreeV : Option ℕ} (hv : 1 ≤ degreeV.getD profile.degree)
    (hsp : ∀ cs, sweepSections eps profile rail = .ok cs → ∀ i, i < profile.cps.length → Spaced eps dist (columnPoints cs i))
    {S : Surface ℝ (V3 × ℝ)} (h : trySweep eps dist solve profile rail degreeV = .ok S) :
    ∃ f₀ f₁ : FrenetFrame, RightHanded f₀ ∧ RightHanded f₁ ∧ rail.pointAt eps rail.lo = .ok f₀.position ∧
      rail.pointAt eps rail.hi = .ok f₁.position ∧
      (∃ T, rail.tangentAt eps rail.lo = .ok T ∧ T ≠ 0 ∧ f₀.tangent = (Frame.norm T)⁻¹ • T) ∧
      (∃ T, rail.tangentAt eps rail.hi = .ok T ∧ T ≠ 0 ∧ f₁.tangent = (Frame.norm T)⁻¹ • T) ∧
      S.Good eps ∧ S.ulo = 0 ∧ S.uhi = profile.hi - profile.lo ∧ S.vlo = 0 ∧ S.vhi = 1 ∧
      S.vDegree = min (degreeV.getD profile.degree) (rail.cps.length * 2 - 1) ∧
      ∀ u, profile.lo ≤ u → u ≤ profile.hi →
        S.pointAt eps (u - profile.lo) 0 = (profile.pointAt eps u).map (frameAct f₀) ∧
        S.pointAt eps (u - profile.lo) 1 = (profile.pointAt eps u).map (frameAct f₁) := by
  obtain ⟨fs, us, hl, -, hfr, hul, hR, -, h', hulo, huhi, key⟩ := sweep_core he he1 hs hp hw hends hr hv hsp h
  have hrpos := hr.cps_pos
  obtain ⟨hG, s1, s2, s3, s4, s5, s6, s7⟩ := C76_shape hs he.le hR h'
  have h0 : 0 < fs.length := by omega
  have h1 : fs.length - 1 < fs.length := by omega
  have hend := fun u => C76_end_sections hs he.le hR h' (u := u) (a := us[0]) (b := us[us.length - 1])
    (by rw [List.head?_eq_getElem?, List.getElem?_eq_getElem (by omega)])
    (by rw [List.getLast?_eq_getElem?, List.getElem?_eq_getElem (by omega)])
  have f0 := hfr 0 h0
  have f1 := hfr (fs.length - 1) h1
  have hm : ((rail.cps.length * 2 - 1 : ℕ) : ℝ) ≠ 0 := by
    have : rail.cps.length * 2 - 1 ≠ 0 := by omega
    exact_mod_cast this
  rw [show rail.lo + ((0 : ℕ) : ℝ) * ((rail.hi - rail.lo) / ((rail.cps.length * 2 - 1 : ℕ) : ℝ)) = rail.lo by simp] at f0
  rw [show rail.lo + ((fs.length - 1 : ℕ) : ℝ) * ((rail.hi - rail.lo) / ((rail.cps.length * 2 - 1 : ℕ) : ℝ)) = rail.hi by
    rw [hl]; field_simp; ring] at f1
  refine ⟨fs[0], fs[fs.length - 1], f0.1, f1.1, f0.2.1, f1.2.1, f0.2.2, f1.2.2, hG, hulo, huhi, s4, s5,
    by rw [s3, hul, hl], fun u hu1 hu2 => ⟨?_, ?_⟩⟩
  · exact key 0 (by omega) h0 0 le_rfl zero_le_one (fun x => (hend x).1) u hu1 hu2
  · refine key (fs.length - 1) (by omega) h1 1 zero_le_one le_rfl (fun x => ?_) u hu1 hu2
    rw [(hend x).2]
    simp only [hul]

/-! ### Straight rails -/

/-- Euclidean distance of homogeneous points. -/
noncomputable def homDist (a b : V3 × ℝ) : ℝ := Real.sqrt ((b.1 - a.1) ⬝ᵥ (b.1 - a.1) + (b.2 - a.2) ^ 2)

/-- Euclidean distance of points. -/
noncomputable def pointDist (a b : V3) : ℝ := Frame.norm (b - a)

/-- Placing a point by frames that only differ in their position scales all distances alike. -/
theorem place_dist {f g : FrenetFrame} (ht : f.tangent = g.tangent) (hn : f.normal = g.normal)
    (hb : f.binormal = g.binormal) (p : V3 × ℝ) : homDist (place f p) (place g p) = |p.2| * pointDist f.position g.position := by
  have e : (place g p).1 - (place f p).1 = p.2 • (g.position - f.position) := by
    simp only [place, LinearMap.coe_mk, AddHom.coe_mk, ht, hn, hb]
    module
  have e2 : (place g p).2 - (place f p).2 = 0 := sub_self _
  rw [homDist, e, e2, pointDist, Frame.norm, smul_dotProduct, dotProduct_smul, smul_eq_mul, smul_eq_mul, ← mul_assoc,
    ← sq, zero_pow two_ne_zero, add_zero, Real.sqrt_mul (sq_nonneg _), Real.sqrt_sq_eq_abs]

/-- Frames that only differ in their position. -/
def Parallel (fs : List FrenetFrame) : Prop :=
  ∀ f ∈ fs, ∀ g ∈ fs, f.tangent = g.tangent ∧ f.normal = g.normal ∧ f.binormal = g.binormal

theorem place_chord {fs : List FrenetFrame} (hpar : Parallel fs) {p : V3 × ℝ} {i : ℕ} (hi : i < fs.length) :
    chordLength homDist (fs.map fun f => place f p) i = |p.2| * chordLength pointDist (fs.map fun f => f.position) i := by
  rw [chordLength, chordLength, Finset.mul_sum]
  refine Finset.sum_congr rfl fun j hj => ?_
  have hj := Finset.mem_range.1 hj
  have h1 : j < fs.length := by omega
  have h2 : j + 1 < fs.length := by omega
  obtain ⟨a, b, c⟩ := hpar fs[j] (List.getElem_mem _) fs[j + 1] (List.getElem_mem _)
  simp only [List.getD_eq_getElem?_getD, List.getElem?_map, List.getElem?_eq_getElem h1, List.getElem?_eq_getElem h2,
    Option.map_some, Option.getD_some]
  exact place_dist a b c p

theorem place_chordParam {fs : List FrenetFrame} (hpar : Parallel fs) {p : V3 × ℝ} (hw : p.2 ≠ 0) {i : ℕ} (hi : i < fs.length) :
    chordParam homDist (fs.map fun f => place f p) i = chordParam pointDist (fs.map fun f => f.position) i := by
  rw [chordParam, chordParam, place_chord hpar hi, List.length_map, List.length_map, place_chord hpar (by omega),
    mul_div_mul_left _ _ (abs_pos.2 hw).ne']

/-- If the tangents of carried frames agree, the frames only differ in their position. -/
theorem parallel_of_tangents {fs : List FrenetFrame} (hr : ∀ f ∈ fs, RightHanded f) {d : V3} (ht : ∀ f ∈ fs, f.tangent = d)
    (hc : (fs.map fun f => (f.tangent, f.normal)).IsChain Carried) : Parallel fs := by
  suffices hn : ∃ n, ∀ f ∈ fs, f.normal = n by
    obtain ⟨n, hn⟩ := hn
    intro f hf g hg
    refine ⟨by rw [ht f hf, ht g hg], by rw [hn f hf, hn g hg], ?_⟩
    rw [(hr f hf).binormal, (hr g hg).binormal, ht f hf, ht g hg, hn f hf, hn g hg]
  clear hr
  cases fs with
  | nil => exact ⟨0, by simp⟩
  | cons f fs =>
    refine ⟨f.normal, ?_⟩
    induction fs generalizing f with
    | nil => simp
    | cons g fs ih =>
      rw [List.map_cons, List.map_cons, List.isChain_cons_cons] at hc
      have hgn : g.normal = f.normal := by
        have := hc.1
        rw [Carried, if_pos (by simp only [ht f (by simp), ht g (by simp), cross_self])] at this
        exact this
      have := ih g (fun x hx => ht x (List.mem_cons_of_mem _ hx)) (by rw [List.map_cons]; exact hc.2)
      intro x hx
      rcases List.mem_cons.1 hx with rfl | hx
      · rfl
      · rw [this x hx, hgn]

/-- The position of the rail at its `k`-th sample. -/
noncomputable def railParam (rail : Curve ℝ (V3 × ℝ)) (k : ℕ) : ℝ :=
  rail.lo + k * ((rail.hi - rail.lo) / ((rail.cps.length * 2 - 1 : ℕ) : ℝ))

/-- Along a rail of constant direction the frames are parallel and the columns are spaced as the rail is. -/
theorem straight_spaced {eps : ℝ} (he1 : eps < 1)
    {profile rail : Curve ℝ (V3 × ℝ)} (hw : ∀ p ∈ profile.cps, p.2 ≠ 0) (hr : rail.Good eps) {d : V3} {pos : ℕ → V3}
    (hT : ∀ k, k < rail.cps.length * 2 → ∀ T, rail.tangentAt eps (railParam rail k) = .ok T → (Frame.norm T)⁻¹ • T = d)
    (hpos : ∀ k, k < rail.cps.length * 2 → rail.pointAt eps (railParam rail k) = .ok (pos k))
    (hsp : Spaced eps pointDist ((List.range (rail.cps.length * 2)).map pos)) :
    (∀ fs : List FrenetFrame, fs.length = rail.cps.length * 2 →
      (fs.map fun f => (f.tangent, f.normal)).IsChain Carried →
      (∀ i (hi : i < fs.length), RightHanded fs[i] ∧ rail.pointAt eps (railParam rail i) = .ok fs[i].position ∧
        ∃ T, rail.tangentAt eps (railParam rail i) = .ok T ∧ T ≠ 0 ∧ fs[i].tangent = (Frame.norm T)⁻¹ • T) →
      (∀ f ∈ fs, f.tangent = d) ∧ Parallel fs ∧
        fs.map (fun f => f.position) = (List.range (rail.cps.length * 2)).map pos) ∧
    ∀ cs, sweepSections eps profile rail = .ok cs → ∀ i, i < profile.cps.length → Spaced eps homDist (columnPoints cs i) := by
  have hrpos := hr.cps_pos
  have hmap : ∀ fs : List FrenetFrame, fs.length = rail.cps.length * 2 →
      (∀ i (hi : i < fs.length), rail.pointAt eps (railParam rail i) = .ok fs[i].position) →
      fs.map (fun f => f.position) = (List.range (rail.cps.length * 2)).map pos := by
    intro fs hl hf
    apply List.ext_getElem (by simpa using hl)
    intro i h1 h2
    have hi : i < fs.length := by simpa using h1
    have := hf i hi
    rw [hpos i (by omega)] at this
    simpa using (Except.ok.inj this).symm
  have hcols : ∀ fs : List FrenetFrame, fs.length = rail.cps.length * 2 → Parallel fs →
      fs.map (fun f => f.position) = (List.range (rail.cps.length * 2)).map pos → ∀ p : V3 × ℝ, p.2 ≠ 0 →
      Spaced eps homDist (fs.map fun f => place f p) := by
    intro fs hl hpar hm p hp2
    have hsp' := hsp
    rw [← hm] at hsp'
    refine ⟨fun i hi => ?_, ?_, ?_⟩
    · have hi : i + 1 < fs.length := by simpa using hi
      have h1 : i < fs.length := by omega
      have := hsp'.pos i (by simpa using hi)
      obtain ⟨a, b, c⟩ := hpar fs[i] (List.getElem_mem _) fs[i + 1] (List.getElem_mem _)
      simp only [List.getD_eq_getElem?_getD, List.getElem?_map, List.getElem?_eq_getElem h1, List.getElem?_eq_getElem hi,
        Option.map_some, Option.getD_some] at this ⊢
      rw [place_dist a b c]
      exact mul_pos (abs_pos.2 hp2) this
    · rw [place_chordParam hpar hp2 (by omega)]; exact hsp'.first
    · have := hsp'.last
      rw [List.length_map] at this ⊢
      rw [place_chordParam hpar hp2 (by omega)]
      exact this
  have hpar : ∀ fs : List FrenetFrame, fs.length = rail.cps.length * 2 →
      (fs.map fun f => (f.tangent, f.normal)).IsChain Carried →
      (∀ i (hi : i < fs.length), RightHanded fs[i] ∧ rail.pointAt eps (railParam rail i) = .ok fs[i].position ∧
        ∃ T, rail.tangentAt eps (railParam rail i) = .ok T ∧ T ≠ 0 ∧ fs[i].tangent = (Frame.norm T)⁻¹ • T) →
      (∀ f ∈ fs, f.tangent = d) ∧ Parallel fs := by
    intro fs hl hc hf
    have ht : ∀ f ∈ fs, f.tangent = d := by
      intro f hf'
      obtain ⟨i, hi, rfl⟩ := List.mem_iff_getElem.1 hf'
      obtain ⟨-, -, T, h1, -, h2⟩ := hf i hi
      rw [h2]; exact hT i (by omega) T h1
    refine ⟨ht, parallel_of_tangents (fun f hf' => ?_) ht hc⟩
    obtain ⟨i, hi, rfl⟩ := List.mem_iff_getElem.1 hf'
    exact (hf i hi).1
  refine ⟨fun fs hl hc hf => ⟨(hpar fs hl hc hf).1, (hpar fs hl hc hf).2, hmap fs hl fun i hi => (hf i hi).2.1⟩, ?_⟩
  intro cs hcs i hi
  obtain ⟨fs, hfs, hl, hc, hfr⟩ := sweepSections_ok he1 hr hw hcs
  obtain ⟨-, hp2⟩ := hpar fs hl hc hfr
  have e : columnPoints cs i = fs.map fun f => place f (profile.cps.getD i 0) := by
    rw [hfs, columnPoints, List.map_map]
    refine List.map_congr_left fun f _ => ?_
    simp [Curve.mapCps, List.getD_eq_getElem?_getD, hi]
  rw [e]
  refine hcols fs hl hp2 (hmap fs hl fun i hi => (hfr i hi).2.1) _ ?_
  rw [List.getD_eq_getElem?_getD, List.getElem?_eq_getElem hi]
  exact hw _ (List.getElem_mem _)

/-- **C77**: along a rail of constant direction the sweep passes through the profile moved to every sample of the rail: all
    placements share their axes, and the `k`-th one is found at the chord parameter of the `k`-th point of the rail. -/
theorem C77_straight {eps : ℝ} (he : 0 < eps) (he1 : eps < 1)
    {solve : List (List ℝ) → List (V3 × ℝ) → Option (List (V3 × ℝ))} (hs : SolverSound solve)
    {profile rail : Curve ℝ (V3 × ℝ)} (hp : profile.Good eps) (hw : ∀ p ∈ profile.cps, p.2 ≠ 0)
    (hends : profile.knots.head? = some profile.lo ∧ profile.knots.getLast? = some profile.hi) (hr : rail.Good eps)
    {degreeV : Option ℕ} (hv : 1 ≤ degreeV.getD profile.degree) {d : V3} {pos : ℕ → V3}
    (hT : ∀ k, k < rail.cps.length * 2 → ∀ T, rail.tangentAt eps (railParam rail k) = .ok T → (Frame.norm T)⁻¹ • T = d)
    (hpos : ∀ k, k < rail.cps.length * 2 → rail.pointAt eps (railParam rail k) = .ok (pos k))
    (hsp : Spaced eps pointDist ((List.range (rail.cps.length * 2)).map pos))
    {S : Surface ℝ (V3 × ℝ)} (h : trySweep eps homDist solve profile rail degreeV = .ok S) :
    ∃ n, d ⬝ᵥ d = 1 ∧ n ⬝ᵥ n = 1 ∧ d ⬝ᵥ n = 0 ∧ ∀ k, k < rail.cps.length * 2 → ∀ u, profile.lo ≤ u → u ≤ profile.hi →
      S.pointAt eps (u - profile.lo) (chordParam pointDist ((List.range (rail.cps.length * 2)).map pos) k) =
        (profile.pointAt eps u).map fun q => pos k + (q 0 • (-(d ⨯₃ n)) + q 1 • n + q 2 • d) := by
  have hrpos := hr.cps_pos
  obtain ⟨hpar, hcols⟩ := straight_spaced he1 hw hr hT hpos hsp
  have hcp : ∀ i, i < profile.cps.length → (profile.cps.getD i 0).2 ≠ 0 := by
    intro i hi
    rw [List.getD_eq_getElem?_getD, List.getElem?_eq_getElem hi]
    exact hw _ (List.getElem_mem _)
  obtain ⟨fs, us, hl, hc, hfr, hul, hR, hcol, h', hulo, huhi, key⟩ := sweep_core he he1 hs hp hw hends hr hv hcols h
  obtain ⟨ht, hp2, hm⟩ := hpar fs hl hc hfr
  have h0 : 0 < fs.length := by omega
  have ht0 := ht fs[0] (List.getElem_mem _)
  have r0 := (hfr 0 h0).1
  refine ⟨fs[0].normal, ?_, r0.normal, ?_, fun k hk u hu1 hu2 => ?_⟩
  · rw [← ht0]; exact r0.tangent
  · rw [← ht0]; exact r0.orthogonal
  have hkl := hp.knots_len
  have hsec := fun x => C76_equal_spacing hs he.le hR h'
    (t := chordParam pointDist ((List.range (rail.cps.length * 2)).map pos)) (fun i hi k hk => by
      have hi : i < profile.cps.length := by simp at hi; omega
      rw [hcol i hi, place_chordParam hp2 (hcp i hi) (by omega), hm]) (k := k) (by omega) x
  obtain ⟨e0, e1⟩ := chordParam_ends hsp.pos (by simp; omega)
  have hb : 0 ≤ chordParam pointDist ((List.range (rail.cps.length * 2)).map pos) k ∧
      chordParam pointDist ((List.range (rail.cps.length * 2)).map pos) k ≤ 1 := by
    constructor
    · rw [← e0]; exact chordParam_le hsp.pos (by omega) (by simpa using hk)
    · rw [← e1]
      exact chordParam_le hsp.pos (by simp; omega) (by simp; omega)
  rw [key k (by omega) (by omega) _ hb.1 hb.2 hsec u hu1 hu2]
  have hk' : k < fs.length := by omega
  have hfk : frameAct fs[k] = fun q => pos k + (q 0 • (-(d ⨯₃ fs[0].normal)) + q 1 • fs[0].normal + q 2 • d) := by
    funext q
    obtain ⟨a, b, c⟩ := hp2 fs[k] (List.getElem_mem _) fs[0] (List.getElem_mem _)
    have hpk : fs[k].position = pos k := by
      have := (hfr k hk').2.1
      rw [show rail.lo + (k : ℝ) * ((rail.hi - rail.lo) / ((rail.cps.length * 2 - 1 : ℕ) : ℝ)) = railParam rail k from rfl,
        hpos k hk] at this
      exact (Except.ok.inj this).symm
    rw [frameAct, a, b, c, hpk, r0.binormal, ht0]
  rw [hfk]

/-! ### Witness -/

/-- Witness: a unit segment along the x axis. -/
noncomputable def exRail : Curve ℝ (V3 × ℝ) where
  degree := 1
  cps := [(![0, 0, 0], 1), (![1, 0, 0], 1)]
  knots := [0, 0, 1, 1]

/-- Witness: a segment across. -/
noncomputable def exProfile : Curve ℝ (V3 × ℝ) where
  degree := 1
  cps := [(![0, 0, 0], 1), (![0, 2, 0], 1)]
  knots := [0, 0, 1, 1]

theorem exRail_good : exRail.Good (1/1000) where
  cps_pos := by simp [exRail]
  knots_len := by simp [exRail]
  good := by
    refine ⟨by norm_num, by simp [exRail], ?_, ?_, ?_, ?_, ?_⟩
    · exact mono_of_sorted (by norm_num [exRail]) (by simp [exRail])
    all_goals norm_num [exRail, kf]

theorem exProfile_good : exProfile.Good (1/1000) where
  cps_pos := by simp [exProfile]
  knots_len := by simp [exProfile]
  good := by
    refine ⟨by norm_num, by simp [exProfile], ?_, ?_, ?_, ?_, ?_⟩
    · exact mono_of_sorted (by norm_num [exProfile]) (by simp [exProfile])
    all_goals norm_num [exProfile, kf]

theorem exRail_lo : exRail.lo = 0 := by simp [exRail, Curve.lo, kf]

theorem exRail_hi : exRail.hi = 1 := by simp [exRail, Curve.hi, kf]

theorem exRail_span : {t | Spec.InSpan (kf exRail.knots) exRail.hi t 1} = Set.Icc 0 1 := by
  have := Bezier.span (s := exRail) (eps := 1/1000) ⟨exRail_good, rfl, by simp [exRail]⟩
  rw [exRail_lo, exRail_hi] at this
  rw [exRail_hi]
  exact this

theorem exRail_eval {t : ℝ} (ht : t ∈ Set.Icc (0 : ℝ) 1) : exRail.eval t = (![t, 0, 0], 1) := by
  have hin : Spec.InSpan (kf exRail.knots) exRail.hi t 1 := by
    rw [← exRail_span] at ht; exact ht
  have hin' : Spec.InSpan (kf ([0, 0, 1, 1] : List ℝ)) 1 t 1 := by rw [exRail_hi] at hin; exact hin
  have h0 : ¬ Spec.InSpan (kf ([0, 0, 1, 1] : List ℝ)) 1 t 0 := by
    intro h; have := Curve.inSpan_lt h; simp [kf] at this
  have h2 : ¬ Spec.InSpan (kf ([0, 0, 1, 1] : List ℝ)) 1 t 2 := by
    intro h; have := Curve.inSpan_lt h; simp [kf] at this
  have e : exRail.eval t = Spec.N (kf ([0, 0, 1, 1] : List ℝ)) 1 1 0 t • ((![0, 0, 0] : V3), (1 : ℝ)) +
      Spec.N (kf ([0, 0, 1, 1] : List ℝ)) 1 1 1 t • ((![1, 0, 0] : V3), (1 : ℝ)) := by
    simp [Curve.eval, Spec.curve, exRail, Finset.sum_range_succ, kf]
  rw [e]
  simp only [Spec.N, if_neg h0, if_neg h2, if_pos hin']
  simp [kf]

theorem exRail_deriv {t : ℝ} (ht : t ∈ Set.Icc (0 : ℝ) 1) :
    derivWithin (fun t => (exRail.eval t).2⁻¹ • (exRail.eval t).1) {t | Spec.InSpan (kf exRail.knots) exRail.hi t 1} t =
      ![1, 0, 0] := by
  rw [exRail_span]
  have hpt : ∀ u ∈ Set.Icc (0 : ℝ) 1, (exRail.eval u).2⁻¹ • (exRail.eval u).1 = (![u, 0, 0] : V3) := by
    intro u hu
    rw [exRail_eval hu]; simp
  rw [derivWithin_congr hpt (hpt t ht)]
  apply HasDerivWithinAt.derivWithin _ (uniqueDiffOn_Icc one_pos t ht)
  apply hasDerivWithinAt_pi.2
  intro i
  fin_cases i
  · exact (hasDerivAt_id t).hasDerivWithinAt
  · simpa using hasDerivWithinAt_const t (Set.Icc (0 : ℝ) 1) (0 : ℝ)
  · simpa using hasDerivWithinAt_const t (Set.Icc (0 : ℝ) 1) (0 : ℝ)

theorem exRail_param {k : ℕ} (hk : k < 4) : railParam exRail k = k / 3 ∧ (k : ℝ) / 3 ∈ Set.Icc (0 : ℝ) 1 := by
  have hk' : (k : ℝ) ≤ 3 := by exact_mod_cast (show k ≤ 3 by omega)
  constructor
  · rw [railParam, exRail_lo, exRail_hi]
    norm_num [exRail]
    ring
  · constructor
    · positivity
    · rw [div_le_one (by norm_num)]; exact hk'

theorem exRail_tangent {u : ℝ} (hu : u ∈ Set.Icc (0 : ℝ) 1) : exRail.tangentAt (1/1000) u = .ok ![1, 0, 0] := by
  have hin : Spec.InSpan (kf exRail.knots) exRail.hi u 1 := by
    have := hu
    rw [← exRail_span] at this; exact this
  rw [(C26_tangent exRail_good (by rw [exRail_lo]; exact hu.1) (by rw [exRail_hi]; exact hu.2) (s := 1) (by simp [exRail])
    hin (by rw [exRail_eval hu]; exact one_ne_zero)).1, exRail_deriv hu]

theorem exRail_point {u : ℝ} (hu : u ∈ Set.Icc (0 : ℝ) 1) : exRail.pointAt (1/1000) u = .ok ![u, 0, 0] := by
  have := (C09_point_at_positive_weights exRail_good (by simp [exRail]) (u := u) (by rw [exRail_lo]; exact hu.1)
    (by rw [exRail_hi]; exact hu.2)).1
  rw [this, exRail_eval hu]; simp

theorem exRail_unit : (Frame.norm ![1, 0, 0])⁻¹ • (![1, 0, 0] : V3) = ![1, 0, 0] := by
  have : Frame.norm ![1, 0, 0] = 1 := by simp [Frame.norm, Matrix.vec3_dotProduct]
  rw [this, inv_one, one_smul]

theorem exRail_spaced : Spaced (1/1000) pointDist ((List.range (exRail.cps.length * 2)).map fun k : ℕ => (![(k : ℝ) / 3, 0, 0] : V3)) := by
  have hl : exRail.cps.length * 2 = 4 := by simp [exRail]
  rw [hl]
  have hd : ∀ k, k < 3 → pointDist (((List.range 4).map fun k : ℕ => (![(k : ℝ) / 3, 0, 0] : V3)).getD k 0)
      (((List.range 4).map fun k : ℕ => (![(k : ℝ) / 3, 0, 0] : V3)).getD (k + 1) 0) = 1 / 3 := by
    intro k hk
    rw [Surface.getD_map_range (by omega), Surface.getD_map_range (by omega), pointDist, Frame.norm,
      show (![((k + 1 : ℕ) : ℝ) / 3, 0, 0] : V3) - ![(k : ℝ) / 3, 0, 0] = ![1/3, 0, 0] by
        apply ext3
        · simp only [Pi.sub_apply, Matrix.cons_val]; push_cast; ring
        · simp only [Pi.sub_apply, Matrix.cons_val]; ring
        · simp only [Pi.sub_apply, Matrix.cons_val]; ring,
      Matrix.vec3_dotProduct]
    simp only [Matrix.cons_val]
    rw [show (1 / 3 * (1 / 3) + 0 * 0 + 0 * 0 : ℝ) = (1 / 3) ^ 2 by norm_num, Real.sqrt_sq (by norm_num)]
  have hc : ∀ k, k ≤ 3 → chordLength pointDist ((List.range 4).map fun k : ℕ => (![(k : ℝ) / 3, 0, 0] : V3)) k = k / 3 := by
    intro k hk
    rw [chordLength, Finset.sum_congr rfl fun j hj => hd j (by have := Finset.mem_range.1 hj; omega)]
    simp; ring
  refine ⟨fun i hi => ?_, ?_, ?_⟩
  · rw [hd i (by simp at hi; omega)]; norm_num
  · rw [chordParam, hc 1 (by norm_num), List.length_map, List.length_range, hc (4 - 1) (by norm_num)]
    norm_num
  · rw [chordParam, List.length_map, List.length_range, hc (4 - 2) (by norm_num), hc (4 - 1) (by norm_num)]
    norm_num

/-- A solver that answers exactly when there is a solution. -/
noncomputable def idealSolver {K V : Type} [Field K] [AddCommGroup V] [Module K V] (A : List (List K)) (b : List V) :
    Option (List V) := open Classical in if h : ∃ x, Solves A b x then some h.choose else none

theorem idealSolver_sound {K V : Type} [Field K] [AddCommGroup V] [Module K V] :
    SolverSound (idealSolver (K := K) (V := V)) := by
  intro A b x _ _ h
  unfold idealSolver at h
  split at h
  · rename_i hx
    obtain rfl := Option.some.inj h
    exact hx.choose_spec
  · cases h

theorem idealSolver_complete {K V : Type} [Field K] [AddCommGroup V] [Module K V] :
    SolverComplete (idealSolver (K := K) (V := V)) := by
  intro A b h
  unfold idealSolver
  rw [dif_pos h]; rfl

theorem exRail_hT : ∀ k, k < exRail.cps.length * 2 → ∀ T, exRail.tangentAt (1/1000) (railParam exRail k) = .ok T →
    (Frame.norm T)⁻¹ • T = ![1, 0, 0] := by
  intro k hk T hT
  obtain ⟨e, hm⟩ := exRail_param (k := k) (by simpa [exRail] using hk)
  rw [e, exRail_tangent hm] at hT
  obtain rfl := Except.ok.inj hT
  exact exRail_unit

theorem exRail_hpos : ∀ k, k < exRail.cps.length * 2 →
    exRail.pointAt (1/1000) (railParam exRail k) = .ok ![(k : ℝ) / 3, 0, 0] := by
  intro k hk
  obtain ⟨e, hm⟩ := exRail_param (k := k) (by simpa [exRail] using hk)
  rw [e, exRail_point hm]

/-- The sweep of the witness exists and contains the moved profile at every sample. -/
example : ∃ S n, trySweep (1/1000) homDist idealSolver exProfile exRail (some 1) = .ok S ∧ n ⬝ᵥ n = 1 ∧
    ∀ k, k < 4 → ∀ u, 0 ≤ u → u ≤ 1 →
      S.pointAt (1/1000) u (chordParam pointDist ((List.range 4).map fun k : ℕ => (![(k : ℝ) / 3, 0, 0] : V3)) k) =
        (exProfile.pointAt (1/1000) u).map fun q =>
          ![(k : ℝ) / 3, 0, 0] + (q 0 • (-(![1, 0, 0] ⨯₃ n)) + q 1 • n + q 2 • ![1, 0, 0]) := by
  have hlo : exProfile.lo = 0 := by simp [exProfile, Curve.lo, kf]
  have hhi : exProfile.hi = 1 := by simp [exProfile, Curve.hi, kf]
  have hw : ∀ p ∈ exProfile.cps, p.2 ≠ 0 := by simp [exProfile]
  have he : (0 : ℝ) < 1/1000 := by norm_num
  have he1 : (1/1000 : ℝ) < 1 := by norm_num
  have hends : exProfile.knots.head? = some exProfile.lo ∧ exProfile.knots.getLast? = some exProfile.hi := by
    rw [hlo, hhi]; simp [exProfile]
  have hrl : exRail.cps.length * 2 = 4 := rfl
  -- the frames exist
  have hsec : ∃ cs, sweepSections (1/1000) exProfile exRail = .ok cs := by
    obtain ⟨fs, hf⟩ := C75_frames_exist he1 (c := exRail)
      (params := (List.range (exRail.cps.length * 2)).map fun (i : ℕ) =>
        exRail.lo + (i : ℝ) * ((exRail.hi - exRail.lo) / ((exRail.cps.length * 2 - 1 : ℕ) : ℝ))) (by simp [hrl]) (by
      intro u hu
      obtain ⟨k, hk, rfl⟩ := List.mem_map.1 hu
      have hk := List.mem_range.1 hk
      obtain ⟨e, hm⟩ := exRail_param (k := k) (by omega)
      refine ⟨⟨_, exRail_hpos k hk⟩, ![1, 0, 0], ?_, ?_⟩
      · change exRail.tangentAt (1/1000) (railParam exRail k) = _
        rw [e, exRail_tangent hm]
      · intro h0
        have := congrFun h0 0
        simp at this)
    have ho := C75_frames_orthonormal he1 hf
    rw [sweepSections, railParameters_eq exRail_good, ok_bind, hf, ok_bind,
      mapM_ok (g := fun f => exProfile.mapCps (place f)) (fun f hf' => by
        obtain ⟨i, hi, rfl⟩ := List.mem_iff_getElem.1 hf'
        exact frame_transform (ho.get (i := i) (by rw [ho.length_eq]; exact hi) hi).1 hw)]
    exact ⟨_, rfl⟩
  obtain ⟨cs, hcs⟩ := hsec
  obtain ⟨-, hcols⟩ := straight_spaced he1 hw exRail_good exRail_hT exRail_hpos exRail_spaced
  obtain ⟨S, hS⟩ := C77_degree_one he he1 idealSolver_sound idealSolver_complete exProfile_good hw hends exRail_good hcs
    (hcols cs hcs)
  obtain ⟨n, -, hn, -, hk⟩ := C77_straight he he1 idealSolver_sound exProfile_good hw hends exRail_good (le_refl 1) exRail_hT
    exRail_hpos exRail_spaced hS
  refine ⟨S, n, hS, hn, fun k hk' u hu1 hu2 => ?_⟩
  have := hk k hk' u (by rwa [hlo]) (by rwa [hhi])
  rwa [hlo, sub_zero] at this

end Curvo.Props

/-
  Constructors agree with each other: C109.
-/
import Verif.Props.Reversed
import Verif.Props.Loft
import Verif.Props.InterpUnique
import Verif.Props.Curve3
import Verif.Props.Surface2

set_option linter.unusedSectionVars false
set_option linter.unusedSimpArgs false

namespace Curvo.Props

open Curvo Curvo.Knots Curvo.Spec Curvo.Curve Curvo.Interp Curvo.Loft

variable {K : Type} [Field K] [LinearOrder K] [IsStrictOrderedRing K]
variable {V : Type} [AddCommGroup V] [Module K V]
variable {W : Type} [AddCommGroup W] [Module K W]

theorem getD_mat {n m i j : ℕ} {f : ℕ → ℕ → K} (hi : i < n) (hj : j < m) : ((mat n m f).getD i []).getD j 0 = f i j := by
  simp [mat, vec, List.getD_eq_getElem?_getD, List.getElem?_map, List.getElem?_range hi, List.getElem?_range hj]

/-- **C109**: interpolating with degree one is making the normalised polyline: the same control points and knots. -/
theorem C109_interpolate_degree_one {eps : K} {dist : W → W → K} {solve : List (List K) → List W → Option (List W)} {pts : List W}
    (hs : SolverSound solve) (hc : SolverComplete solve) (hn : 2 ≤ pts.length) (he : 0 ≤ eps)
    (hd : ∀ i, i + 1 < pts.length → 0 < dist (pts.getD i 0) (pts.getD (i + 1) 0))
    (h1 : eps ≤ chordParam dist pts 1) (h2 : chordParam dist pts (pts.length - 2) + eps ≤ 1) :
    ∃ c, tryInterpolate eps dist solve pts 1 = .ok c ∧ polyline dist pts true = .ok c := by
  obtain ⟨ks, hks, hgk, k0, k1, hcp⟩ := controlPoints_eq (eps := eps) le_rfl hn he hd h1 h2
  have hA : Solves (mat pts.length pts.length fun i j => N (interpKnot dist pts 1) 1 1 j (chordParam dist pts i)) pts pts := by
    refine ⟨rfl, fun i hi => ?_⟩
    rw [Finset.sum_eq_single i]
    · rw [getD_mat hi hi, C35_degree_one hn hd hi hi, if_pos rfl, one_smul]
    · intro j hj hne
      rw [getD_mat hi (Finset.mem_range.1 hj), C35_degree_one hn hd hi (Finset.mem_range.1 hj), if_neg (Ne.symm hne), zero_smul]
    · intro h; exact absurd (Finset.mem_range.2 hi) h
  obtain ⟨x, hx⟩ := Option.isSome_iff_exists.1 (hc _ _ ⟨pts, hA⟩)
  have hxs := hs _ _ _ (by simp [mat]) (by intro row hr; obtain ⟨i, -, rfl⟩ := List.mem_map.1 hr; simp) hx
  have hxp : x = pts := by
    apply List.ext_getElem hxs.1
    intro i g1 g2
    have := hxs.2 i g2
    rw [Finset.sum_eq_single i] at this
    · rw [getD_mat g2 g2, C35_degree_one hn hd g2 g2, if_pos rfl, one_smul, getD_eq_getElem g1, getD_eq_getElem g2] at this
      exact this
    · intro j hj hne
      rw [getD_mat g2 (Finset.mem_range.1 hj), C35_degree_one hn hd g2 (Finset.mem_range.1 hj), if_neg (Ne.symm hne), zero_smul]
    · intro h; exact absurd (Finset.mem_range.2 g2) h
  obtain ⟨e0, e1⟩ := chordParam_ends hd (by omega)
  have htot : chordLength dist pts (pts.length - 1) ≠ 0 := by
    intro e
    rw [chordParam, e, div_zero] at e1
    exact zero_ne_one e1
  refine ⟨⟨1, pts.map homogenize, ks⟩, ?_, ?_⟩
  · rw [tryInterpolate, hcp, hx, hxp]; rfl
  · obtain ⟨p1, p2, p3, p4⟩ := polyKnots dist pts hn
    have hct : chordTotal dist pts = chordLength dist pts (pts.length - 1) := chordTotal_eq dist pts (by omega)
    rw [polyline, subR_eq_ok (by omega)]
    simp only [ok_bind, if_true]
    rw [mapM_ok (g := fun k => k / chordTotal dist pts) (fun x _ => divR_eq_ok (by rw [hct]; exact htot)), ok_bind]
    show Except.ok _ = Except.ok _
    congr 2
    refine ext_getD (d := 0) ?_ ?_
    · rw [List.length_map, p1, hks, vec_length]
    · intro i hi
      rw [List.length_map, p1] at hi
      show kf _ i = kf _ i
      rw [kf_map (fun k => k / chordTotal dist pts) (by rw [p1]; exact hi), hks, kf_vec (by omega)]
      rcases Nat.eq_zero_or_pos i with rfl | hpos
      · rw [p2, zero_div, interpKnot, if_pos (by omega)]
      · obtain ⟨l, rfl⟩ : ∃ l, i = l + 1 := ⟨i - 1, by omega⟩
        rcases Nat.lt_or_ge l pts.length with hl | hl
        · rw [p3 l hl, hct, ← chordParam, interpKnot]
          split
          · rw [show l = 0 by omega, e0]
          · split
            · simp [avgParam]
            · rw [show l = pts.length - 1 by omega, e1]
        · rw [show l = pts.length by omega, p4, hct, div_self htot, interpKnot, if_neg (by omega), if_neg (by omega)]

/-- **C109**: curves that agree in degree and knots are only moved to start at zero when their knots are unified. -/
theorem C109_unify_compatible {eps : K} (he : 0 < eps) {cs : List (Curve K V)} {p : ℕ} {ks : List K} (hne : cs ≠ [])
    (ht : ∀ c ∈ cs, Tame eps c) (hdeg : ∀ c ∈ cs, c.degree = p) (hk : ∀ c ∈ cs, c.knots = ks)
    (hends : ∀ c ∈ cs, c.knots.head? = some c.lo ∧ c.knots.getLast? = some c.hi)
    (hsep : ∀ x ∈ ks, ∀ y ∈ ks, |x - y| < eps → x = y) :
    tryUnify eps cs = .ok (cs.map fun c => shifted (-c.lo) c) := by
  obtain ⟨c0, hc0⟩ := List.exists_mem_of_ne_nil cs hne
  have hlo : ∀ c ∈ cs, c.lo = c0.lo := fun c hc => by simp only [Curve.lo, hdeg c hc, hdeg c0 hc0, hk c hc, hk c0 hc0]
  have hlen : ∀ c ∈ cs, c.cps.length = c0.cps.length := fun c hc => by
    have a := (ht c hc).good.knots_len
    have b := (ht c0 hc0).good.knots_len
    rw [hdeg c hc, hk c hc] at a
    rw [hdeg c0 hc0, hk c0 hc0] at b
    omega
  have hhi : ∀ c ∈ cs, c.hi = c0.hi := fun c hc => by simp only [Curve.hi, hlen c hc, hk c hc, hk c0 hc0]
  have hpar : ∀ c ∈ cs, ∀ x, unifiedParam (c0.hi - c0.lo) c x = x + -c.lo := by
    intro c hc x
    have hp := sub_pos.2 (ht c0 hc0).good.pre.dom
    rw [unifiedParam, hlo c hc, hhi c hc, div_self hp.ne', mul_one, sub_eq_add_neg]
  obtain ⟨us, merged, hu, hm, hcnt, hf⟩ := C49_unify (S := c0.hi - c0.lo) he hdeg (fun c hc => (ht c hc).good) hends
    (fun c hc => by rw [hlo c hc, hhi c hc]) ⟨c0, hc0, rfl⟩ (by
      intro c hc d hd x hx y hy h
      rw [hpar c hc, hpar d hd, hlo c hc, hlo d hd] at h ⊢
      rw [hsep x (hk c hc ▸ hx) y (hk d hd ▸ hy) (by simpa using h)])
  rw [hu]
  congr 1
  have hmerged : ∀ c ∈ cs, merged = (shifted (-c.lo) c).knots := by
    intro c hc
    show merged = c.knots.map fun x => x + -c.lo
    have hs : (c.knots.map fun x => x + -c.lo).Pairwise (· ≤ ·) := by
      rw [List.pairwise_map]
      exact (ht c hc).good.pre.sorted.imp (by intro a b h; linarith)
    refine List.Perm.eq_of_pairwise (le := (· ≤ ·)) (fun a b _ _ h1 h2 => le_antisymm h1 h2) hm hs (List.perm_iff_count.2 fun x => ?_)
    obtain ⟨d, hd, hx⟩ := (hcnt x).2
    rw [← hx]
    congr 1
    rw [hk d hd, ← hk c hc]
    refine List.map_congr_left fun y _ => ?_
    rw [hpar d hd, hlo c hc, hlo d hd]
  have hl := hf.length_eq
  apply List.ext_getElem (by simp [hl])
  intro i h1 h2
  have hi : i < cs.length := by omega
  obtain ⟨q1, q2, q3, q4, q5, q6⟩ := hf.get (i := i) hi h1
  have hmem : cs[i] ∈ cs := List.getElem_mem _
  simp only [List.get_eq_getElem] at *
  rw [List.getElem_map]
  obtain ⟨sg, slo, shi, sev⟩ := shifted_spec (ht _ hmem).good (-(cs[i]).lo)
  have st : Tame eps (shifted (-(cs[i]).lo) cs[i]) := by
    refine ⟨sg, ?_, ?_⟩
    · intro x hx
      obtain ⟨y, hy, rfl⟩ := List.mem_map.1 hx
      have := (ht _ hmem).inside y hy
      rw [slo, shi]; constructor <;> linarith [this.1, this.2]
    · intro x
      have : x = (x + (cs[i]).lo) + -(cs[i]).lo := by ring
      rw [this]
      show ((cs[i]).knots.map fun x => x + -(cs[i]).lo).count _ ≤ _
      rw [List.count_map_of_injective _ _ (add_left_injective _)]
      exact (ht _ hmem).count _
  refine st.unique q1 (q2.trans (hdeg _ hmem).symm) (q3.trans (hmerged _ hmem)) fun u hu1 hu2 => ?_
  rw [slo] at hu1
  rw [shi] at hu2
  have e : u = (u + (cs[i]).lo) + -(cs[i]).lo := by ring
  have g1 : (cs[i]).lo ≤ u + (cs[i]).lo := by linarith
  have g2 : u + (cs[i]).lo ≤ (cs[i]).hi := by linarith
  have hp := q6 _ g1 g2
  rw [hpar _ hmem, ← e] at hp
  rw [Curve.point_eq_eval (ht _ hmem).good g1 g2, Curve.point_eq_eval q1 (by rw [q4]; linarith) (by rw [q5]; have := hhi _ hmem; have := hlo _ hmem; linarith)] at hp
  rw [Except.ok.inj hp]
  conv_rhs => rw [e]
  exact (sev _ g1 g2).symm

/-- The translation by `t` as a transformation. -/
def translation (t : W) : Matrix4 K W := ⟨LinearMap.id, t, 0, 1⟩

theorem translate_ok {c : Curve K (W × K)} (hw : ∀ p ∈ c.cps, p.2 ≠ 0) (t : W) :
    c.transform (translation t) = .ok (c.mapCps (shiftMap t 1)) := by
  rw [Curve.transform, mapM_ok (g := fun p => shiftMap t 1 p)]
  · rfl
  · intro p hp
    have h := hw p hp
    rw [transformPoint, divR_eq_ok h, ok_bind]
    simp only [translation, Matrix4.apply, LinearMap.id_apply, LinearMap.zero_apply, zero_add, mul_one, one_smul]
    rw [divR_eq_ok one_ne_zero, ok_bind]
    show Except.ok _ = Except.ok _
    congr 1
    ext
    · simp [shiftMap, smul_add, smul_smul, h]
    · simp [shiftMap]

theorem mapCps_good {eps : K} {c : Curve K V} {V' : Type} [AddCommGroup V'] [Module K V'] (L : V →ₗ[K] V') (h : c.Good eps) :
    (c.mapCps L).Good eps := by
  obtain ⟨h1, h2, h3⟩ := h
  exact ⟨by simpa [Curve.mapCps] using h1, by simpa [Curve.mapCps] using h2, by simpa [Curve.mapCps] using h3⟩

theorem mapCps_lo {c : Curve K V} {V' : Type} [AddCommGroup V'] [Module K V'] (L : V →ₗ[K] V') :
    (c.mapCps L).lo = c.lo ∧ (c.mapCps L).hi = c.hi := by
  constructor
  · rfl
  · simp [Curve.hi, Curve.mapCps]

/-- **C109**: lofting from the translated copy of a curve to the curve succeeds and is the extrusion of the curve, with the two
    parameters in the other order. -/
theorem C109_loft_is_extrusion {eps : K} (he : 0 < eps) (he1 : eps ≤ 1) {dist : W × K → W × K → K}
    (hdist : ∀ p q, p ≠ q → 0 < dist p q) {solve : List (List K) → List (W × K) → Option (List (W × K))}
    (hs : SolverSound solve) (hcs : SolverComplete solve) {c : Curve K (W × K)} (ht : Tame eps c)
    (hw : ∀ p ∈ c.cps, p.2 ≠ 0) (hends : c.knots.head? = some c.lo ∧ c.knots.getLast? = some c.hi)
    (hsep : ∀ x ∈ c.knots, ∀ y ∈ c.knots, |x - y| < eps → x = y) {t : W} (h0 : t ≠ 0) {degreeV : Option ℕ}
    (hv : 1 ≤ degreeV.getD c.degree) :
    ∃ q S E, c.transform (translation t) = .ok q ∧ tryLoft eps dist solve [q, c] degreeV = .ok S ∧ Surface.extrude c t = .ok E ∧
      ∀ u v, c.lo ≤ u → u ≤ c.hi → 0 ≤ v → v ≤ 1 → S.pointAt eps (u - c.lo) v = E.pointAt eps v u := by
  obtain ⟨E, hE, -, -, -, hEp⟩ := C30_extrude ht.good he1 hw t
  set q := c.mapCps (shiftMap t 1) with hq
  obtain ⟨qlo, qhi⟩ := mapCps_lo (c := c) (shiftMap t 1)
  have qt : Tame eps q := ⟨mapCps_good _ ht.good, fun x hx => by rw [qlo, qhi]; exact ht.inside x hx, ht.count⟩
  have hu : tryUnify eps [q, c] = .ok [shifted (-c.lo) q, shifted (-c.lo) c] := by
    rw [C109_unify_compatible (p := c.degree) (ks := c.knots) he (by simp) (by simp [qt, ht]) (by simp [hq, Curve.mapCps])
      (by simp [hq, Curve.mapCps]) ?_ hsep]
    · simp only [List.map_cons, List.map_nil]; rw [qlo]
    · intro d hd
      rcases List.mem_cons.1 hd with rfl | hd
      · rw [qlo, qhi]; exact hends
      · rw [List.mem_singleton.1 hd]; exact hends
  obtain ⟨sg1, slo1, shi1, sev1⟩ := shifted_spec qt.good (-c.lo)
  obtain ⟨sg2, slo2, shi2, sev2⟩ := shifted_spec ht.good (-c.lo)
  have hR : LoftReady eps dist [shifted (-c.lo) q, shifted (-c.lo) c] degreeV c.degree (shifted (-c.lo) c).knots := by
    refine ⟨⟨by simp [sg1, sg2], by simp [shifted, hq, Curve.mapCps], by simp [shifted, hq, Curve.mapCps]⟩, le_rfl, hv, fun i hi => ?_⟩
    have hi' : i < c.cps.length := by
      have := ht.good.knots_len
      simp only [shifted, List.length_map] at hi
      omega
    have hne : q.cps.getD i 0 ≠ c.cps.getD i 0 := by
      rw [getD_eq_getElem hi', getD_eq_getElem (by simpa [hq, Curve.mapCps] using hi')]
      simp only [hq, Curve.mapCps, List.getElem_map]
      intro h
      have h := congrArg Prod.fst h
      simp only [shiftMap, LinearMap.coe_mk, AddHom.coe_mk, add_eq_left, one_mul] at h
      exact (smul_ne_zero (hw _ (List.getElem_mem _)) h0) h
    have hpos := hdist _ _ hne
    have hcol : columnPoints [shifted (-c.lo) q, shifted (-c.lo) c] i = [q.cps.getD i 0, c.cps.getD i 0] := rfl
    rw [hcol]
    refine ⟨fun k hk => ?_, ?_, ?_⟩
    · obtain rfl : k = 0 := by simp at hk; omega
      simpa using hpos
    · have : chordParam dist [q.cps.getD i 0, c.cps.getD i 0] 1 = 1 := by
        simp only [chordParam, chordLength, List.length_cons, List.length_nil, Nat.reduceAdd, Nat.add_one_sub_one, Finset.sum_range_one,
          List.getD_cons_zero, List.getD_cons_succ, zero_add]
        exact div_self hpos.ne'
      rw [this]; exact he1
    · simp [chordParam, chordLength]
      exact he1
  obtain ⟨S, hS⟩ := C76_degree_one hs hcs he.le hR (by simp; omega)
  refine ⟨q, S, E, translate_ok hw t, by rw [tryLoft, hu, ok_bind, hS], hE, fun u v h1 h2 h3 h4 => ?_⟩
  obtain ⟨hG, s1, s2, s3, s4, s5, s6, s7⟩ := C76_shape hs he.le hR hS
  have hSu0 : S.ulo = c.lo + -c.lo := by rw [← slo2, Surface.ulo, Curve.lo, s1, s2]; rfl
  have hSu1 : S.uhi = c.hi + -c.lo := by
    rw [← shi2, Surface.uhi, Curve.hi, s2]; congr 1
    have hk := sg2.knots_len
    have hd : (shifted (-c.lo) c).degree = c.degree := rfl
    omega
  rw [hEp v u h3 h4 h1 h2, Surface.pointAt, Surface.point_eq_eval hG (by rw [hSu0]; linarith) (by rw [hSu1]; linarith)
    (by rw [s4]; exact h3) (by rw [s5]; exact h4), ok_bind, C76_ruled hs he.le hR hS _ h3 h4, sub_eq_add_neg u,
    sev1 u (by rw [qlo]; exact h1) (by rw [qhi]; exact h2), sev2 u h1 h2, hq, eval_mapCps _ ht.good.cps_pos,
    Curve.pointAt, Curve.point_eq_eval ht.good h1 h2, ok_bind]
  have hev : (1 - v) • (shiftMap t 1 (c.eval u)) + v • c.eval u = ((c.eval u).1 + ((1 - v) * (c.eval u).2) • t, (c.eval u).2) := by
    ext
    · simp only [shiftMap, LinearMap.coe_mk, AddHom.coe_mk, Prod.fst_add, Prod.smul_fst]
      module
    · simp only [shiftMap, LinearMap.coe_mk, AddHom.coe_mk, Prod.snd_add, Prod.smul_snd, smul_eq_mul]
      ring
  rw [hev, Curve.dehomogenize, Curve.dehomogenize]
  by_cases hz : (c.eval u).2 = 0
  · simp [hz, unwrapR]; rfl
  · simp only [ne_eq, hz, not_false_eq_true, if_true, unwrapR]
    show Except.ok _ = Except.ok _
    congr 1
    rw [smul_add, smul_smul]
    congr 2
    field_simp

/-- **C109**: a plane patch is the extrusion of its edge. -/
theorem C109_plane_is_extrusion {eps : K} (he : 0 ≤ eps) (he1 : eps ≤ 1) {dist : W → W → K} {center x y : W}
    (hd : 0 < dist (center + x - y) (center + x + y)) :
    ∃ e E, polyline dist [center + x - y, center + x + y] true = .ok e ∧ Surface.extrude e (-((2 : K) • x)) = .ok E ∧
      ∀ u v, 0 ≤ u → u ≤ 1 → 0 ≤ v → v ≤ 1 →
        E.pointAt eps u v = (Surface.plane center x y : Surface K (W × K)).pointAt eps u v := by
  set p := center + x - y
  set r := center + x + y
  have hpl : polyline dist [p, r] true = .ok ⟨1, [homogenize p, homogenize r], [0, 0, 1, 1]⟩ := by
    rw [polyline, subR_eq_ok (by simp)]
    simp only [ok_bind, if_true]
    rw [mapM_ok (g := fun k => k / chordTotal dist [p, r]) (fun x _ => divR_eq_ok (by simp [chordTotal_eq, chordLength]; exact hd.ne'))]
    simp [chordGo, chordTotal_eq, chordLength, div_self hd.ne']
  have hg : (⟨1, [homogenize p, homogenize r], [0, 0, 1, 1]⟩ : Curve K (W × K)).Good eps := by
    refine ⟨by simp, by simp, he, by simp, mono_of_sorted (by simp) (by simp), ?_, ?_, ?_, ?_⟩ <;> simp [kf, he1]
  obtain ⟨E, hE, -, -, -, hp⟩ := C30_extrude hg he1 (by simp [homogenize]) (-((2 : K) • x))
  refine ⟨_, E, hpl, hE, fun u v h1 h2 h3 h4 => ?_⟩
  have hlo : (⟨1, [homogenize p, homogenize r], [0, 0, 1, 1]⟩ : Curve K (W × K)).lo = 0 := by simp [Curve.lo, kf]
  have hhi : (⟨1, [homogenize p, homogenize r], [0, 0, 1, 1]⟩ : Curve K (W × K)).hi = 1 := by simp [Curve.hi, kf]
  rw [hp u v h1 h2 (by rw [hlo]; exact h3) (by rw [hhi]; exact h4), C31_plane he he1 center x y h1 h2 h3 h4, Curve.pointAt,
    Curve.point_eq_eval hg (by rw [hlo]; exact h3) (by rw [hhi]; exact h4),
    linear_bezier_eval (p := homogenize p) (q := homogenize r) rfl rfl rfl h3 h4, ok_bind]
  have : (1 - v) • (homogenize p : W × K) + v • homogenize r = ((1 - v) • p + v • r, 1) := by
    simp [homogenize]
  rw [this]
  simp [dehomogenize, unwrapR]
  show Except.ok _ = Except.ok _
  congr 1
  simp only [p, r]
  module

/-! ### Concrete cases -/

/-- The polyline through the four points of `exData`. -/
example : ∃ c, tryInterpolate (1/1000) axisDist idealSolver exData 1 = .ok c ∧ polyline axisDist exData true = .ok c := by
  refine C109_interpolate_degree_one idealSolver_sound idealSolver_complete (by decide) (by norm_num) (fun i hi => ?_)
    (by decide +kernel) (by decide +kernel)
  have : ∀ i, i < 3 → 0 < axisDist (exData.getD i 0) (exData.getD (i + 1) 0) := by decide +kernel
  exact this i (by have : exData.length = 4 := rfl; omega)

theorem exCurve_tame : Tame (1/1000) exCurve :=
  ⟨exCurve_good, exPoly_tame.inside, exPoly_tame.count⟩

theorem axisDistW_pos (p q : (ℚ × ℚ) × ℚ) (h : p ≠ q) : 0 < axisDistW p q := by
  by_contra hn
  apply h
  have a := abs_nonneg (p.1.1 - q.1.1)
  have b := abs_nonneg (p.1.2 - q.1.2)
  have c := abs_nonneg (p.2 - q.2)
  have hs : |p.1.1 - q.1.1| + |p.1.2 - q.1.2| + |p.2 - q.2| ≤ 0 := not_lt.1 hn
  have a' := abs_eq_zero.1 (le_antisymm (by linarith) a)
  have b' := abs_eq_zero.1 (le_antisymm (by linarith) b)
  have c' := abs_eq_zero.1 (le_antisymm (by linarith) c)
  exact Prod.ext (Prod.ext (sub_eq_zero.1 a') (sub_eq_zero.1 b')) (sub_eq_zero.1 c')

/-- Three different curves over the same knots. -/
example : tryUnify (1/1000) [exCurve, exPoly, exCurve] =
    .ok ([exCurve, exPoly, exCurve].map fun c => shifted (-c.lo) c) :=
  C109_unify_compatible (p := 2) (ks := exKnots) (by norm_num) (by simp)
    (List.forall_mem_cons.2 ⟨exCurve_tame, List.forall_mem_cons.2 ⟨exPoly_tame, by rintro c hc; rw [List.mem_singleton.1 hc]; exact exCurve_tame⟩⟩)
    (by decide +kernel)
    (by decide +kernel) (by decide +kernel) (by decide +kernel)

/-- A rational curve with different weights, lofted with its translate. -/
example : ∃ q S E, exCurve.transform (translation ((1 : ℚ), (-2 : ℚ))) = .ok q ∧
    tryLoft (1/1000) axisDistW idealSolver [q, exCurve] (some 3) = .ok S ∧ Surface.extrude exCurve ((1 : ℚ), (-2 : ℚ)) = .ok E ∧
    ∀ u v, exCurve.lo ≤ u → u ≤ exCurve.hi → 0 ≤ v → v ≤ 1 →
      S.pointAt (1/1000) (u - exCurve.lo) v = E.pointAt (1/1000) v u :=
  C109_loft_is_extrusion (by norm_num) (by norm_num) axisDistW_pos idealSolver_sound idealSolver_complete exCurve_tame
    (by decide +kernel) (by decide +kernel) (by decide +kernel) (by simp) (by decide)

example : ∃ e E, polyline axisDist [((1, 2) + (3, 0) - (0, 5) : ℚ × ℚ), (1, 2) + (3, 0) + (0, 5)] true = .ok e ∧
    Surface.extrude e (-((2 : ℚ) • ((3, 0) : ℚ × ℚ))) = .ok E ∧ ∀ u v, 0 ≤ u → u ≤ 1 → 0 ≤ v → v ≤ 1 →
      E.pointAt (1/1000) u v = (Surface.plane ((1, 2) : ℚ × ℚ) (3, 0) (0, 5) : Surface ℚ ((ℚ × ℚ) × ℚ)).pointAt (1/1000) u v :=
  C109_plane_is_extrusion (by norm_num) (by norm_num) (by decide +kernel)

end Curvo.Props

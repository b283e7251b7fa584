/-
  C124: conversions between scalar types.
-/
import Verif.Model.Cast
import Verif.Lemmas.Natural
import Verif.Props.RoundedRefine
import Verif.Props.RoundedBox
import Verif.Props.RoundedLength

set_option linter.unusedSectionVars false
set_option linter.unusedSimpArgs false

namespace Curvo.Props

open Curvo Curvo.Spec

/-! ### An exact conversion -/

section exact

variable {K L : Type} [Field K] [LinearOrder K] [IsStrictOrderedRing K] [Field L] [LinearOrder L] [IsStrictOrderedRing L] {d : ℕ}
  {φ : K →+* L}

theorem divR_cast (φ : K →+* L) (a b : K) : divR (φ a) (φ b) = Except.map φ (divR a b) := by
  rw [divR, divR]
  by_cases h : b = 0
  · rw [if_pos h, if_pos (by rw [h, map_zero])]; rfl
  · rw [if_neg h, if_neg (fun e => h ((map_eq_zero φ).1 e)), ← map_div₀]; rfl

theorem spanGo_cast (hφ : StrictMono φ) (ks : List K) (u : K) : ∀ fuel lo hi mid : ℕ,
    Knots.spanGo (ks.map φ) (φ u) fuel lo hi mid = Knots.spanGo ks u fuel lo hi mid
  | 0, _, _, _ => rfl
  | fuel + 1, lo, hi, mid => by
    rw [Knots.spanGo, Knots.spanGo, getR_map, bind_map']
    refine bind_congr fun km => ?_
    simp only [hφ.lt_iff_lt]
    split
    · split
      · rfl
      · exact spanGo_cast hφ ks u fuel _ _ _
    · rw [getR_map, bind_map']
      refine bind_congr fun km1 => ?_
      simp only [hφ.le_iff_le]
      split
      · split
        · rfl
        · exact spanGo_cast hφ ks u fuel _ _ _
      · rfl

theorem findSpan_cast (hφ : StrictMono φ) (eps : K) (ks : List K) (n p : ℕ) (u : K) :
    Knots.findKnotSpanIndex (φ eps) (ks.map φ) n p (φ u) = Knots.findKnotSpanIndex eps ks n p u := by
  rw [Knots.findKnotSpanIndex, Knots.findKnotSpanIndex, getR_map, bind_map']
  refine bind_congr fun kn => ?_
  simp only [← map_sub, hφ.lt_iff_lt]
  split
  · rfl
  · rw [getR_map, bind_map']
    refine bind_congr fun kd => ?_
    simp only [← map_add, hφ.lt_iff_lt, spanGo_cast hφ]

theorem leftAt_cast (ks : List K) (s : ℕ) (u : K) (j : ℕ) : Knots.leftAt (ks.map φ) s (φ u) j = Except.map φ (Knots.leftAt ks s u j) := by
  simp only [Knots.leftAt, getR_map, bind_map', map_bind', map_pure', map_sub]

theorem rightAt_cast (ks : List K) (s : ℕ) (u : K) (j : ℕ) : Knots.rightAt (ks.map φ) s (φ u) j = Except.map φ (Knots.rightAt ks s u j) := by
  simp only [Knots.rightAt, getR_map, bind_map', map_bind', map_pure', map_sub]

theorem basisInner_cast (ks : List K) (s : ℕ) (u : K) (j : ℕ) : ∀ (bs : List K) (r : ℕ) (saved : K),
    Knots.basisInner (ks.map φ) s (φ u) j r (φ saved) (bs.map φ) = Except.map (List.map φ) (Knots.basisInner ks s u j r saved bs)
  | [], r, saved => rfl
  | b :: bs, r, saved => by
    rw [List.map_cons, Knots.basisInner, Knots.basisInner, rightAt_cast, bind_map', map_bind']
    refine bind_congr fun rr => ?_
    rw [leftAt_cast, bind_map', map_bind']
    refine bind_congr fun ll => ?_
    rw [← map_add, divR_cast, bind_map', map_bind']
    refine bind_congr fun temp => ?_
    rw [← map_mul, basisInner_cast ks s u j bs, bind_map', map_bind']
    refine bind_congr fun rest => ?_
    rw [map_pure', List.map_cons, map_add, map_mul]

theorem basis_cast (ks : List K) (s : ℕ) (u : K) : ∀ p : ℕ,
    Knots.basisFunctions (ks.map φ) s (φ u) p = Except.map (List.map φ) (Knots.basisFunctions ks s u p)
  | 0 => by simp [Knots.basisFunctions, pure_eq_ok, Except.map]
  | p + 1 => by
    rw [Knots.basisFunctions, Knots.basisFunctions, basis_cast ks s u p, bind_map', map_bind']
    refine bind_congr fun row => ?_
    rw [leftAt_cast, bind_map', map_bind']
    refine bind_congr fun _ => ?_
    rw [rightAt_cast, bind_map', map_bind']
    refine bind_congr fun _ => ?_
    rw [← basisInner_cast, map_zero]

theorem castPoint_add_smul (acc p : (Fin d → K) × K) (b : K) :
    castPoint φ (acc + b • p) = castPoint φ acc + φ b • castPoint φ p := by
  refine Prod.ext (funext fun i => ?_) ?_
  · show φ (acc.1 i + b * p.1 i) = φ (acc.1 i) + φ b * φ (p.1 i); rw [map_add, map_mul]
  · show φ (acc.2 + b * p.2) = φ acc.2 + φ b * φ p.2; rw [map_add, map_mul]

theorem castPoint_zero : castPoint φ (0 : (Fin d → K) × K) = 0 := by
  refine Prod.ext (funext fun i => ?_) ?_
  · exact map_zero φ
  · exact map_zero φ

theorem curvePoint_cast (hφ : StrictMono φ) (eps : K) (c : Curve K ((Fin d → K) × K)) (t : K) :
    (c.cast φ).point (φ eps) (φ t) = Except.map (castPoint φ) (c.point eps t) := by
  have hl : (c.cast φ).lastIndex = c.lastIndex := by simp [Curve.lastIndex, Curve.cast, Knots.cast]
  rw [Curve.point, Curve.point, hl, map_bind']
  refine bind_congr fun n => ?_
  show (Knots.findKnotSpanIndex (φ eps) (c.knots.map φ) n c.degree (φ t) >>= _) = _
  rw [findSpan_cast hφ, map_bind']
  refine bind_congr fun s => ?_
  show (Knots.basisFunctions (c.knots.map φ) s (φ t) c.degree >>= _) = _
  rw [basis_cast, bind_map', map_bind']
  refine bind_congr fun basis => ?_
  rw [map_bind']
  refine bind_congr fun off => ?_
  rw [Curve.sumPoints, Curve.sumPoints, ← castPoint_zero (φ := φ)]
  refine foldlM_map' (castPoint φ) (fun acc i => ?_) _ _
  show (getR (c.cps.map (castPoint φ)) (off + i) >>= _) = _
  simp only [getR_map, bind_map', map_bind', map_pure', castPoint_add_smul]

theorem dehomogenize_cast (p : (Fin d → K) × K) :
    unwrapR (Curve.dehomogenize (castPoint φ p)) = Except.map (fun x i => φ (x i)) (unwrapR (Curve.dehomogenize p)) := by
  have e : (castPoint φ p).2 = φ p.2 := rfl
  rw [Curve.dehomogenize, Curve.dehomogenize]
  by_cases h : p.2 = 0
  · have h' : (castPoint φ p).2 = 0 := by rw [e, h, map_zero]
    rw [if_neg (not_not.2 h), if_neg (not_not.2 h')]; rfl
  · have h' : (castPoint φ p).2 ≠ 0 := by rw [e]; exact fun e => h ((map_eq_zero φ).1 e)
    rw [if_pos h, if_pos h']
    show Except.ok _ = Except.ok _
    congr 1
    funext i
    show (φ p.2)⁻¹ * φ (p.1 i) = φ (p.2⁻¹ * p.1 i)
    rw [map_mul, map_inv₀]

/-- **An exact conversion**: when the scalar type is enlarged, evaluation commutes with the conversion, of curves and of surfaces, and
    also where it fails; so do the ends of the domain. -/
theorem C124_exact (hφ : StrictMono φ) (eps : K) (c : Curve K ((Fin d → K) × K)) (S : Surface K ((Fin d → K) × K)) (u v : K) :
    (c.cast φ).pointAt (φ eps) (φ u) = Except.map (fun x i => φ (x i)) (c.pointAt eps u) ∧
    (S.cast φ).pointAt (φ eps) (φ u) (φ v) = Except.map (fun x i => φ (x i)) (S.pointAt eps u v) ∧
    (c.cast φ).knotsDomain = Except.map (Prod.map φ φ) c.knotsDomain := by
  refine ⟨?_, ?_, ?_⟩
  · rw [Curve.pointAt, Curve.pointAt, curvePoint_cast hφ, bind_map', map_bind']
    exact bind_congr fun p => dehomogenize_cast p
  · rw [Surface.pointAt, Surface.pointAt]
    have hp : (S.cast φ).point (φ eps) (φ u) (φ v) = Except.map (castPoint φ) (S.point eps u v) := by
      have h1 : (S.cast φ).uKnots = S.uKnots.map φ := rfl
      have h2 : (S.cast φ).vKnots = S.vKnots.map φ := rfl
      have h3 : (S.cast φ).uDegree = S.uDegree := rfl
      have h4 : (S.cast φ).vDegree = S.vDegree := rfl
      rw [Surface.point, Surface.point, h1, h2, h3, h4]
      simp only [List.length_map, map_bind', findSpan_cast hφ, basis_cast, bind_map']
      refine bind_congr fun n0 => bind_congr fun n => bind_congr fun m0 => bind_congr fun m => bind_congr fun su =>
        bind_congr fun sv => bind_congr fun bu => bind_congr fun bv => bind_congr fun uind => ?_
      rw [← castPoint_zero (φ := φ)]
      refine foldlM_map' (castPoint φ) (fun acc l => ?_) _ _
      rw [map_bind']
      refine bind_congr fun v0 => ?_
      have hi : (S.cast φ).isoPoint (bu.map φ) uind (v0 + l) = Except.map (castPoint φ) (S.isoPoint bu uind (v0 + l)) := by
        rw [Surface.isoPoint, Surface.isoPoint, h3, ← castPoint_zero (φ := φ)]
        refine foldlM_map' (castPoint φ) (fun acc k => ?_) _ _
        show (getR (S.cps.map fun row => row.map (castPoint φ)) (uind + k) >>= _) = _
        simp only [getR_map, bind_map', map_bind', map_pure', castPoint_add_smul]
      rw [hi, bind_map', map_bind']
      simp only [getR_map, bind_map', map_bind', map_pure', castPoint_add_smul]
    rw [hp, bind_map', map_bind']
    exact bind_congr fun p => dehomogenize_cast p
  · show Knots.domain (c.knots.map φ) c.degree = Except.map (Prod.map φ φ) (Knots.domain c.knots c.degree)
    simp only [Knots.domain, getR_map, List.length_map, bind_map', map_bind', map_pure', Prod.map]

end exact

/-! ### There and back -/

section back

variable {K L : Type} {d : ℕ}

/-- **There and back**: a conversion that is undone by another one (double precision of a single precision number and back) loses
    nothing: knots, curves, surfaces, boxes and meshes return to what they were. -/
theorem C124_back {wide : K → L} {narrow : L → K} (h : ∀ x, narrow (wide x) = x) (c : Curve K ((Fin d → K) × K))
    (S : Surface K ((Fin d → K) × K)) (b : Box K d) (m : Surface.Tessellation K (Fin d → K)) :
    (c.cast wide).cast narrow = c ∧ (S.cast wide).cast narrow = S ∧ (b.cast wide).cast narrow = b ∧ (m.cast wide).cast narrow = m := by
  have hp : ∀ p : (Fin d → K) × K, castPoint narrow (castPoint wide p) = p := fun p =>
    Prod.ext (funext fun i => h _) (h _)
  refine ⟨?_, ?_, ?_, ?_⟩
  · cases c
    simp [Curve.cast, Knots.cast, Function.comp_def, hp, h]
  · cases S
    simp [Surface.cast, Knots.cast, Function.comp_def, hp, h]
  · cases b
    simp [Box.cast, h]
  · cases m
    simp [Surface.Tessellation.cast, Function.comp_def, h]

/-- **Meshes**: the vertices of every triangle of a converted mesh are the converted vertices of the same triangle, in the same order,
    with their normals and parameters. -/
theorem C124_mesh (conv : K → L) (m : Surface.Tessellation K (Fin d → K)) :
    (m.cast conv).faces = m.faces ∧ (m.cast conv).points.length = m.points.length ∧
    (∀ i (h : i < m.points.length) j, ((m.cast conv).points[i]?).map (fun p => p j) = some (conv (m.points[i] j))) ∧
    (∀ i (h : i < m.normals.length) j, ((m.cast conv).normals[i]?).map (fun p => p j) = some (conv (m.normals[i] j))) ∧
    (∀ i (h : i < m.uvs.length), (m.cast conv).uvs[i]? = some (conv m.uvs[i].1, conv m.uvs[i].2)) := by
  refine ⟨rfl, by simp [Surface.Tessellation.cast], ?_, ?_, ?_⟩
  all_goals intro i h; simp [Surface.Tessellation.cast, h]

example : ((⟨[![0, 1 / 3], ![1, 2], ![5, 5]], [], [(0, 1, 2)], []⟩ : Surface.Tessellation ℚ (Fin 2 → ℚ)).cast (fun x => 2 * x)).points[0]?.map (fun p => p 1) =
    some (2 / 3) := by
  rw [(C124_mesh (fun x : ℚ => 2 * x) ⟨[![0, 1 / 3], ![1, 2], ![5, 5]], [], [(0, 1, 2)], []⟩).2.2.1 0 (by decide) 1]
  show some (2 * (1 / 3 : ℚ)) = _
  norm_num

end back

/-! ### A rounding conversion -/

section rounded

variable {K : Type} [Field K] [LinearOrder K] [IsStrictOrderedRing K] {d : ℕ} {fl : K → K} {μ eps big : K}

theorem Rounds.pos' (h : Rounds fl μ) {x : K} (hx : 0 < x) : 0 < fl x := by
  have h1 := (abs_le.1 (h.err x)).1
  rw [abs_of_pos hx] at h1
  have := h.lt_one
  nlinarith

theorem Rounds.zero' (h : Rounds fl μ) : fl 0 = 0 := by
  have := h.err 0
  rw [abs_zero, mul_zero, sub_zero] at this
  exact abs_eq_zero.1 (le_antisymm this (abs_nonneg _))

theorem Rounds.gap (h : Rounds fl μ) {a b e : K} (hg : a + e + μ * (|a| + |b|) ≤ b) : fl a + e ≤ fl b := by
  have h1 := (abs_le.1 (h.err a)).2
  have h2 := (abs_le.1 (h.err b)).1
  linarith

theorem kf_cast (h : Rounds fl μ) (ks : List K) (i : ℕ) : kf (Knots.cast fl ks) i = fl (kf ks i) := by
  by_cases hi : i < ks.length
  · simp [kf, Knots.cast, hi]
  · simp [kf, Knots.cast, List.getElem?_eq_none (not_lt.1 hi), h.zero']

/-- **The shape survives a rounding conversion**: as many control points and knots as before, of the same degree, knots in order, equal
    knots stay equal, positive weights stay positive, and the domain ends at the converted ends. -/
theorem C124_shape (h : Rounds fl μ) (c : Curve K ((Fin d → K) × K)) :
    (c.cast fl).degree = c.degree ∧ (c.cast fl).cps.length = c.cps.length ∧ (c.cast fl).knots.length = c.knots.length ∧
    (c.knots.Pairwise (· ≤ ·) → (c.cast fl).knots.Pairwise (· ≤ ·)) ∧
    (∀ k ∈ (c.cast fl).knots, ∃ k₀ ∈ c.knots, k = fl k₀ ∧ |k - k₀| ≤ μ * |k₀| ∧ c.knots.count k₀ ≤ (c.cast fl).knots.count k) ∧
    ((∀ q ∈ c.cps, 0 < q.2) → ∀ q ∈ (c.cast fl).cps, 0 < q.2) ∧
    (c.cast fl).lo = fl c.lo ∧ (c.cast fl).hi = fl c.hi := by
  refine ⟨rfl, by simp [Curve.cast], by simp [Curve.cast, Knots.cast], fun hs => ?_, fun k hk => ?_, fun hw q hq => ?_, ?_, ?_⟩
  · exact List.pairwise_map.2 (hs.imp fun hab => h.mono _ _ hab)
  · obtain ⟨k₀, hk₀, rfl⟩ := List.mem_map.1 hk
    exact ⟨k₀, hk₀, rfl, h.err k₀, List.count_le_count_map⟩
  · obtain ⟨q₀, hq₀, rfl⟩ := List.mem_map.1 hq
    exact h.pos' (hw q₀ hq₀)
  · exact kf_cast h c.knots c.degree
  · show kf (Knots.cast fl c.knots) (c.cps.map _).length = _
    rw [List.length_map]
    exact kf_cast h c.knots c.cps.length

/-- **When the converted curve can be evaluated**: if the first and the last span of the domain are longer than the errors of the conversion
    by more than the tolerance of the new type, then the converted curve evaluates on its whole domain, and it stays in the box of its
    converted control points. -/
theorem C124_good (h : Rounds fl μ) {eps' : K} {c : Curve K ((Fin d → K) × K)} (hg : c.Good eps) (he : 0 ≤ eps')
    (h1 : kf c.knots c.degree + eps' + μ * (|kf c.knots c.degree| + |kf c.knots (c.degree + 1)|) < kf c.knots (c.degree + 1))
    (h2 : kf c.knots (c.cps.length - 1) + eps' + μ * (|kf c.knots (c.cps.length - 1)| + |kf c.knots c.cps.length|) < kf c.knots c.cps.length)
    (hw : ∀ q ∈ c.cps, 0 < q.2) :
    (c.cast fl).Good eps' ∧ ∀ t, fl c.lo ≤ t → t ≤ fl c.hi → ∃ x, (c.cast fl).pointAt eps' t = .ok x := by
  have hpos := hg.cps_pos
  have hn : (c.cast fl).cps.length = c.cps.length := by simp [Curve.cast]
  have hk : ∀ i, kf (c.cast fl).knots i = fl (kf c.knots i) := kf_cast h c.knots
  have key : ∀ {a b : K}, a + eps' + μ * (|a| + |b|) < b → fl a + eps' ≤ fl b ∧ fl a < fl b := by
    intro a b hab
    refine ⟨h.gap hab.le, ?_⟩
    have := h.gap (a := a) (b := b) (e := b - a - μ * (|a| + |b|)) (by linarith)
    linarith
  have hgood : (c.cast fl).Good eps' := by
    refine ⟨by omega, ?_, ?_⟩
    · have := hg.knots_len
      rw [hn]
      simpa [Curve.cast, Knots.cast] using this
    · rw [hn]
      refine ⟨he, hg.good.le, ?_, ?_, ?_, ?_, ?_⟩
      · intro i j hij hj
        rw [hk, hk]
        exact h.mono _ _ (hg.good.mono i j hij hj)
      · show kf (c.cast fl).knots c.degree < kf (c.cast fl).knots (c.degree + 1)
        rw [hk, hk]; exact (key h1).2
      · rw [hk, hk, Nat.sub_add_cancel hpos]; exact (key h2).2
      · show kf (c.cast fl).knots c.degree + _ ≤ kf (c.cast fl).knots (c.degree + 1)
        rw [hk, hk]; exact (key h1).1
      · rw [hk, hk, Nat.sub_add_cancel hpos]; exact (key h2).1
  refine ⟨hgood, fun t t1 t2 => ?_⟩
  obtain ⟨-, -, -, -, -, hw', hlo, hhi⟩ := C124_shape h c
  exact ⟨_, (C09_point_at_positive_weights hgood (hw' hw) (by rw [hlo]; exact t1) (by rw [hhi]; exact t2)).1⟩

/-- The quotient of two sums of rounded numbers with weights that add up to one. -/
theorem quotient_cast (hμ : μ < 1) {x w x' w' M : K} (hw : 0 < w) (hx : |x| ≤ M * w) (h1 : |x' - x| ≤ μ * (M * w))
    (h2 : |w' - w| ≤ μ * w) : |w'⁻¹ * x' - w⁻¹ * x| ≤ 2 * μ / (1 - μ) * M := by
  have hp : 0 < 1 - μ := by linarith
  have hw' : (1 - μ) * w ≤ w' := by have := (abs_le.1 h2).1; linarith
  have hw0' : 0 < w' := (mul_pos hp hw).trans_le hw'
  have hq : |x / w| ≤ M := by rw [abs_div, abs_of_pos hw, div_le_iff₀ hw]; exact hx
  have e1 : w'⁻¹ * x' - w⁻¹ * x = ((x' - x) - x / w * (w' - w)) / w' := by field_simp; ring
  rw [e1, abs_div, abs_of_pos hw0', div_le_iff₀ hw0']
  have e2 : |(x' - x) - x / w * (w' - w)| ≤ 2 * μ * (M * w) := by
    refine (abs_sub _ _).trans ?_
    rw [abs_mul]
    have := mul_le_mul hq h2 (abs_nonneg _) ((abs_nonneg _).trans hq)
    calc _ ≤ μ * (M * w) + M * (μ * w) := add_le_add h1 this
      _ = _ := by ring
  refine e2.trans ?_
  have hM : 0 ≤ 2 * μ * M := by
    have hM0 : 0 ≤ M := (abs_nonneg _).trans hq
    have : 0 ≤ μ * w := (abs_nonneg _).trans h2
    have : 0 ≤ μ := by by_contra hc; push Not at hc; nlinarith
    positivity
  calc 2 * μ * (M * w) = 2 * μ / (1 - μ) * M * ((1 - μ) * w) := by field_simp
    _ ≤ 2 * μ / (1 - μ) * M * w' := mul_le_mul_of_nonneg_left hw' (by
      rw [show 2 * μ / (1 - μ) * M = 2 * μ * M / (1 - μ) by ring]; exact div_nonneg hM hp.le)

/-- **The points of a converted curve**: if the knots are numbers of the new type, then the converted curve runs along the original one; a
    coordinate of a point is off by at most `2 μ / (1 - μ)` times the largest such coordinate of the control points. -/
theorem C124_points (h : Rounds fl μ) {c : Curve K ((Fin d → K) × K)} (hg : c.Good eps) (hw : ∀ q ∈ c.cps, 0 < q.2)
    (hks : ∀ k ∈ c.knots, fl k = k) {t : K} (h1 : c.lo ≤ t) (h2 : t ≤ c.hi) :
    ∃ x x', c.pointAt eps t = .ok x ∧ (c.cast fl).pointAt eps t = .ok x' ∧
      ∀ (i : Fin d) (M : K), (∀ q ∈ c.cps, |q.1 i / q.2| ≤ M) → |x' i - x i| ≤ 2 * μ / (1 - μ) * M := by
  have hkn : (c.cast fl).knots = c.knots := by
    show c.knots.map fl = c.knots
    exact (List.map_congr_left hks).trans (List.map_id' _)
  have hn : (c.cast fl).cps.length = c.cps.length := by simp [Curve.cast]
  have hg' : (c.cast fl).Good eps := by
    refine ⟨by rw [hn]; exact hg.cps_pos, by rw [hkn, hn]; exact hg.knots_len, ?_⟩
    rw [hkn, hn]; exact hg.good
  obtain ⟨-, -, -, -, -, hw', -, -⟩ := C124_shape h c
  have hlo' : (c.cast fl).lo = c.lo := by rw [Curve.lo, hkn]; rfl
  have hhi' : (c.cast fl).hi = c.hi := by rw [Curve.hi, hkn, hn]; rfl
  obtain ⟨e1, p1⟩ := C09_point_at_positive_weights hg hw h1 h2
  obtain ⟨e2, p2⟩ := C09_point_at_positive_weights (u := t) hg' (hw' hw) (by rw [hlo']; exact h1) (by rw [hhi']; exact h2)
  refine ⟨_, _, e1, e2, fun i M hM => ?_⟩
  have hpre := hg.pre
  obtain ⟨s, hps, hsn, hin⟩ := hpre.exists_span h1 h2
  have hd := hpre.deg_lt
  have hm' := hpre.mono
  have E : c.eval t = _ := curve_eq_span hm' (fun j => c.cps.getD j 0) hps (by omega)
    (by rw [Nat.sub_add_cancel (by omega)]; exact hin)
  have E' : (c.cast fl).eval t = ∑ r ∈ Finset.range (c.degree + 1),
      NS (kf c.knots) s c.degree (s - c.degree + r) t • (c.cast fl).cps.getD (s - c.degree + r) 0 := by
    unfold Curve.eval
    rw [hkn, hn]
    exact curve_eq_span hm' (fun j => (c.cast fl).cps.getD j 0) hps (by omega)
      (by rw [Nat.sub_add_cancel (by omega)]; exact hin)
  have hb : ∀ r ∈ Finset.range (c.degree + 1), 0 ≤ NS (kf c.knots) s c.degree (s - c.degree + r) t := by
    intro r hr
    have := Finset.mem_range.1 hr
    exact NS_nonneg hm' (Curve.inSpan_le hin).1 (Curve.inSpan_le hin).2 _ _ (by omega)
  have hc : ∀ j < c.cps.length, (c.cast fl).cps.getD j 0 = castPoint fl (c.cps.getD j 0) := by
    intro j hj
    simp [Curve.cast, hj]
  have hq : ∀ j < c.cps.length, 0 < (c.cps.getD j 0).2 ∧ |(c.cps.getD j 0).1 i| ≤ M * (c.cps.getD j 0).2 := by
    intro j hj
    have := hw _ (getD_mem (x := 0) hj)
    refine ⟨this, ?_⟩
    have h3 := hM _ (getD_mem (x := 0) hj)
    rwa [abs_div, abs_of_pos this, div_le_iff₀ this] at h3
  show |((c.cast fl).eval t).2⁻¹ * ((c.cast fl).eval t).1 i - (c.eval t).2⁻¹ * (c.eval t).1 i| ≤ _
  have w1 : (c.eval t).2 = ∑ r ∈ Finset.range (c.degree + 1), NS (kf c.knots) s c.degree (s - c.degree + r) t * (c.cps.getD (s - c.degree + r) 0).2 := by
    rw [E, Prod.snd_sum]; rfl
  have w2 : ((c.cast fl).eval t).2 = ∑ r ∈ Finset.range (c.degree + 1), NS (kf c.knots) s c.degree (s - c.degree + r) t * fl (c.cps.getD (s - c.degree + r) 0).2 := by
    rw [E', Prod.snd_sum]
    refine Finset.sum_congr rfl fun r hr => ?_
    have := Finset.mem_range.1 hr
    show _ * ((c.cast fl).cps.getD _ 0).2 = _
    rw [hc _ (by omega)]; rfl
  have x1 : (c.eval t).1 i = ∑ r ∈ Finset.range (c.degree + 1), NS (kf c.knots) s c.degree (s - c.degree + r) t * (c.cps.getD (s - c.degree + r) 0).1 i := by
    rw [E, Prod.fst_sum, Finset.sum_apply]; rfl
  have x2 : ((c.cast fl).eval t).1 i = ∑ r ∈ Finset.range (c.degree + 1), NS (kf c.knots) s c.degree (s - c.degree + r) t * fl ((c.cps.getD (s - c.degree + r) 0).1 i) := by
    rw [E', Prod.fst_sum, Finset.sum_apply]
    refine Finset.sum_congr rfl fun r hr => ?_
    have := Finset.mem_range.1 hr
    show _ * ((c.cast fl).cps.getD _ 0).1 i = _
    rw [hc _ (by omega)]; rfl
  refine quotient_cast h.lt_one p1 ?_ ?_ ?_
  · rw [x1, w1, Finset.mul_sum]
    refine (Finset.abs_sum_le_sum_abs _ _).trans (Finset.sum_le_sum fun r hr => ?_)
    have := Finset.mem_range.1 hr
    rw [abs_mul, abs_of_nonneg (hb r hr)]
    have := mul_le_mul_of_nonneg_left (hq (s - c.degree + r) (by omega)).2 (hb r hr)
    linarith
  · rw [x1, x2, w1, ← Finset.sum_sub_distrib, Finset.mul_sum, Finset.mul_sum]
    refine (Finset.abs_sum_le_sum_abs _ _).trans (Finset.sum_le_sum fun r hr => ?_)
    have := Finset.mem_range.1 hr
    rw [← mul_sub, abs_mul, abs_of_nonneg (hb r hr)]
    have k1 := h.err ((c.cps.getD (s - c.degree + r) 0).1 i)
    have k2 := mul_le_mul_of_nonneg_left (hq (s - c.degree + r) (by omega)).2 h.nonneg
    have := mul_le_mul_of_nonneg_left (k1.trans k2) (hb r hr)
    linarith
  · rw [w1, w2, ← Finset.sum_sub_distrib, Finset.mul_sum]
    refine (Finset.abs_sum_le_sum_abs _ _).trans (Finset.sum_le_sum fun r hr => ?_)
    have := Finset.mem_range.1 hr
    rw [← mul_sub, abs_mul, abs_of_nonneg (hb r hr)]
    have k1 := h.err (c.cps.getD (s - c.degree + r) 0).2
    rw [abs_of_pos (hq (s - c.degree + r) (by omega)).1] at k1
    have := mul_le_mul_of_nonneg_left k1 (hb r hr)
    linarith

/-- **Boxes**: the converted box of converted points: containment and overlap survive, and the box of a curve without weights is the converted
    box of the original curve. -/
theorem C124_box (h : Rounds fl μ) (h1 : fl 1 = 1) (hb : fl big = big) (hb' : fl (-big) = -big) (c : Curve K ((Fin d → K) × K))
    (hw : ∀ q ∈ c.cps, q.2 = 1) (a b : Box K d) (p : Fin d → K) :
    Box.ofCurve big (c.cast fl) = Except.map (Box.cast fl) (Box.ofCurve big c) ∧
    (a.contains p = true → (a.cast fl).contains (fun i => fl (p i)) = true) ∧
    ((∀ i, a.min i ≤ a.max i) → (∀ i, b.min i ≤ b.max i) → Box.intersects 0 a b = true → Box.intersects 0 (a.cast fl) (b.cast fl) = true) := by
  have hmono : Monotone fl := fun x y hxy => h.mono x y hxy
  refine ⟨?_, ?_, ?_⟩
  · have e1 : ∀ l : List ((Fin d → K) × K), (∀ q ∈ l, q.2 = 1) → (l.mapM fun p => unwrapR (Curve.dehomogenize p)) = .ok (l.map Prod.fst) := by
      intro l hl
      induction l with
      | nil => rfl
      | cons q l ih =>
        rw [List.mapM_cons, ih fun x hx => hl x (List.mem_cons_of_mem _ hx), Curve.dehomogenize, hl q (by simp), if_pos one_ne_zero,
          inv_one, one_smul]
        rfl
    have e2 : ∀ (l : List (Fin d → K)) (b0 : Box K d), (l.map fun p i => fl (p i)).foldl Box.extend (b0.cast fl) = (l.foldl Box.extend b0).cast fl := by
      intro l
      induction l with
      | nil => intro b0; rfl
      | cons q l ih =>
        intro b0
        rw [List.map_cons, List.foldl_cons, List.foldl_cons, ← ih]
        congr 1
        show Box.mk _ _ = Box.mk _ _
        congr 1
        · funext i; exact (hmono.map_min).symm
        · funext i; exact (hmono.map_max).symm
    rw [Box.ofCurve, Box.ofCurve, Curve.dehomogenizedCps, Curve.dehomogenizedCps, e1 c.cps hw, e1 (c.cast fl).cps]
    · simp only [ok_bind, pure_eq_ok]
      show Except.ok _ = Except.ok _
      congr 1
      rw [Box.ofPoints, Box.ofPoints, ← e2]
      have : (c.cast fl).cps.map Prod.fst = (c.cps.map Prod.fst).map fun p i => fl (p i) := by
        simp [Curve.cast, castPoint, Function.comp_def]
      rw [this]
      congr 1
      show _ = Box.mk _ _
      simp only [hb, hb']
    · intro q hq
      obtain ⟨q0, hq0, rfl⟩ := List.mem_map.1 hq
      show fl q0.2 = 1
      rw [hw q0 hq0, h1]
  · intro hc
    rw [Box.contains, List.all_eq_true] at hc ⊢
    intro i hi
    have := hc i hi
    simp only [Bool.and_eq_true, decide_eq_true_eq] at this ⊢
    exact ⟨hmono this.1, hmono this.2⟩
  · intro ha hb2 hi
    rw [Box.intersects, List.all_eq_true] at hi ⊢
    intro i hm
    have k := hi i hm
    have a1 := ha i
    have b1 := hb2 i
    simp only [Box.overlap1, sub_zero, add_zero, Bool.not_eq_true', decide_eq_false_iff_not, not_lt] at k ⊢
    have m1 : b.min i ≤ a.max i := by
      by_contra hc; push Not at hc
      have : 0 < (b.min i - a.max i) * (b.max i - a.min i) := mul_pos (by linarith) (by linarith)
      linarith
    have m2 : a.min i ≤ b.max i := by
      by_contra hc; push Not at hc
      have : 0 < (b.min i - a.max i) * (b.max i - a.min i) := mul_pos_of_neg_of_neg (by linarith) (by linarith)
      linarith
    exact mul_nonpos_of_nonpos_of_nonneg (sub_nonpos.2 (hmono m1)) (sub_nonneg.2 (hmono m2))

theorem basis_collapsed {ks : List K} {k : K} {s : ℕ} (hk : ∀ x ∈ ks, x = k) (hs : s + 1 < ks.length) : ∀ p : ℕ,
    Knots.basisFunctions ks s k (p + 1) = .error .nonfinite
  | 0 => by
    have g : ∀ i, i < ks.length → getR ks i = .ok k := fun i hi => by rw [getR_eq_ok hi, hk _ (List.getElem_mem hi)]
    have l1 : Knots.leftAt ks s k 1 = .ok 0 := by
      rw [Knots.leftAt, subR, if_pos (by omega), ok_bind, g _ (by omega), ok_bind, sub_self]; rfl
    have r1 : Knots.rightAt ks s k 1 = .ok 0 := by
      rw [Knots.rightAt, g _ (by omega), ok_bind, sub_self]; rfl
    rw [Knots.basisFunctions, Knots.basisFunctions, pure_eq_ok, ok_bind, l1, ok_bind, r1, ok_bind, Knots.basisInner, r1, ok_bind]
    show (Knots.leftAt ks s k 1 >>= _) = _
    rw [l1, ok_bind, add_zero, divR, if_pos rfl]
    rfl
  | p + 1 => by
    rw [Knots.basisFunctions, basis_collapsed hk hs p]
    rfl

/-- **A short domain collapses**: if all knots become the same number, then the converted curve cannot be evaluated any more. -/
theorem C124_collapses {c : Curve K ((Fin d → K) × K)} (hl : c.knots.length = c.cps.length + c.degree + 1) (hc : 0 < c.cps.length)
    (hp : 0 < c.degree) {k : K} (hk : ∀ x ∈ c.knots, fl x = k) (heps : 0 < eps) :
    (c.cast fl).pointAt eps k = .error .nonfinite := by
  have hk' : ∀ x ∈ (c.cast fl).knots, x = k := by
    intro x hx
    obtain ⟨x0, h0, rfl⟩ := List.mem_map.1 hx
    exact hk x0 h0
  have hl' : (c.cast fl).knots.length = c.cps.length + c.degree + 1 := by rw [← hl]; simp [Curve.cast, Knots.cast]
  have hli : (c.cast fl).lastIndex = .ok (c.cps.length - 1) := by
    rw [Curve.lastIndex, hl']
    show (subR _ c.degree >>= _) = _
    rw [subR, if_pos (by omega), ok_bind, subR, if_pos (by omega)]
    congr 1
    omega
  have hs : Knots.findKnotSpanIndex eps (c.cast fl).knots (c.cps.length - 1) (c.cast fl).degree k = .ok (c.cps.length - 1) := by
    rw [Knots.findKnotSpanIndex, getR_eq_ok (by omega), ok_bind, hk' _ (List.getElem_mem _), if_pos (by linarith)]
    rfl
  obtain ⟨q, hq⟩ : ∃ q, (c.cast fl).degree = q + 1 := ⟨c.degree - 1, by show c.degree = _; omega⟩
  rw [Curve.pointAt, Curve.point, hli, ok_bind, hs, ok_bind, hq, basis_collapsed hk' (by omega)]
  rfl

end rounded

/-! ### Single precision -/

section single

variable {K : Type} [Field K] [LinearOrder K] [IsStrictOrderedRing K] [FloorRing K] {d : ℕ}

/-- A unit in the last place of `x` in single precision. -/
def ulp32 (x : K) : K := 2 ^ (Int.log 2 |x| - 23)

/-- Rounding to the nearest number of single precision, ties upwards. -/
def fl32 (x : K) : K := (round (x / ulp32 x) : K) * ulp32 x

theorem ulp32_pos (x : K) : 0 < ulp32 x := zpow_pos (by norm_num) _

theorem ulp32_bounds {x : K} (hx : x ≠ 0) : 2 ^ 23 * ulp32 x ≤ |x| ∧ |x| < 2 ^ 24 * ulp32 x := by
  have hp := abs_pos.2 hx
  have e1 := Int.zpow_log_le_self (b := 2) (by norm_num) hp
  have e2 := Int.lt_zpow_succ_log_self (b := 2) (by norm_num) |x|
  have k1 : (2 : K) ^ 23 * ulp32 x = 2 ^ Int.log 2 |x| := by
    rw [ulp32, ← zpow_natCast, ← zpow_add₀ (by norm_num)]; congr 1; push_cast; ring
  have k2 : (2 : K) ^ 24 * ulp32 x = 2 ^ (Int.log 2 |x| + 1) := by
    rw [ulp32, ← zpow_natCast, ← zpow_add₀ (by norm_num)]; congr 1; push_cast; ring
  rw [k1, k2]
  exact ⟨by exact_mod_cast e1, by exact_mod_cast e2⟩

theorem fl32_err (x : K) : |fl32 x - x| ≤ ulp32 x / 2 := by
  have hu := ulp32_pos x
  have := abs_sub_round (x / ulp32 x)
  rw [show fl32 x - x = -((x / ulp32 x - round (x / ulp32 x)) * ulp32 x) by
    rw [fl32, sub_mul, div_mul_cancel₀ _ hu.ne']; ring, abs_neg, abs_mul, abs_of_pos hu]
  nlinarith

theorem fl32_nearest : Nearest (Binary K 24) (fl32 : K → K) := by
  intro x
  have hu := ulp32_pos x
  by_cases hx : x = 0
  · subst hx
    have : fl32 (0 : K) = 0 := by simp [fl32]
    rw [this]
    exact ⟨⟨0, 0, by norm_num, by simp⟩, by simp⟩
  obtain ⟨b1, b2⟩ := ulp32_bounds hx
  have hmul : ∀ z : ℤ, |fl32 x - x| ≤ |(z : K) * ulp32 x - x| := by
    intro z
    have := round_le (x / ulp32 x) z
    have e : ∀ w : ℤ, |(w : K) * ulp32 x - x| = |x / ulp32 x - w| * ulp32 x := by
      intro w
      rw [show (w : K) * ulp32 x - x = -((x / ulp32 x - w) * ulp32 x) by rw [sub_mul, div_mul_cancel₀ _ hu.ne']; ring, abs_neg, abs_mul,
        abs_of_pos hu]
    rw [fl32, e, e]
    exact mul_le_mul_of_nonneg_right this hu.le
  constructor
  · refine ⟨round (x / ulp32 x), Int.log 2 |x| - 23, ?_, rfl⟩
    have hb : |x / ulp32 x| ≤ 2 ^ 24 := by
      rw [abs_div, abs_of_pos hu, div_le_iff₀ hu]; exact b2.le
    have rmono : ∀ {a b : K}, a ≤ b → round a ≤ round b := by
      intro a b hab
      rw [round_eq, round_eq]
      exact Int.floor_mono (by linarith)
    rw [abs_le] at hb ⊢
    constructor
    · have := rmono hb.1
      rwa [show (-2 ^ 24 : K) = ((-2 ^ 24 : ℤ) : K) by norm_num, round_intCast] at this
    · have := rmono hb.2
      rwa [show (2 ^ 24 : K) = ((2 ^ 24 : ℤ) : K) by norm_num, round_intCast] at this
  · rintro y ⟨m, e, hm, rfl⟩
    by_cases he : Int.log 2 |x| - 23 ≤ e
    · obtain ⟨n, hn⟩ := Int.eq_ofNat_of_zero_le (sub_nonneg.2 he)
      have : (m : K) * 2 ^ e = ((m * 2 ^ n : ℤ) : K) * ulp32 x := by
        rw [ulp32, show e = (n : ℤ) + (Int.log 2 |x| - 23) by omega, zpow_add₀ (by norm_num), zpow_natCast]
        push_cast; ring
      rw [this]
      exact hmul _
    · have hy : |(m : K) * 2 ^ e| ≤ 2 ^ 23 * ulp32 x := by
        rw [abs_mul, abs_of_pos (zpow_pos (by norm_num : (0 : K) < 2) e)]
        have h1 : |(m : K)| ≤ 2 ^ 24 := by exact_mod_cast hm
        have h2 : (2 : K) ^ e ≤ 2 ^ (Int.log 2 |x| - 24) := zpow_le_zpow_right₀ (by norm_num) (by omega)
        have h3 : (2 : K) ^ (Int.log 2 |x| - 24) * 2 = ulp32 x := by
          rw [ulp32, ← zpow_add_one₀ (by norm_num)]; congr 1; ring
        have h4 : (0 : K) < 2 ^ e := zpow_pos (by norm_num) e
        nlinarith [abs_nonneg (m : K)]
      rcases lt_or_gt_of_ne hx with hs | hs
      · have := hmul (-2 ^ 23)
        rw [abs_of_neg hs] at b1
        refine this.trans ?_
        push_cast
        rw [abs_of_nonneg (by linarith), abs_of_nonneg (by have := (abs_le.1 hy).1; linarith)]
        have := (abs_le.1 hy).1
        linarith
      · have := hmul (2 ^ 23)
        rw [abs_of_pos hs] at b1
        refine this.trans ?_
        push_cast
        rw [abs_of_nonpos (by linarith), abs_of_nonpos (by have := (abs_le.1 hy).2; linarith)]
        have := (abs_le.1 hy).2
        linarith

theorem binary24_dense (x : K) : ∃ y ∈ Binary K 24, |y - x| ≤ (2 ^ 24)⁻¹ * |x| := by
  refine ⟨fl32 x, (fl32_nearest x).1, ?_⟩
  by_cases hx : x = 0
  · subst hx; simp [fl32]
  · have := fl32_err x
    have := (ulp32_bounds hx).1
    have : ulp32 x / 2 ≤ (2 ^ 24)⁻¹ * |x| := by
      rw [inv_mul_eq_div, le_div_iff₀ (by norm_num)]
      linarith
    linarith [fl32_err x]

/-- **Single precision**: whatever the ties are rounded to, a rounding to the nearest number with 24 significant bits has unit
    roundoff `2⁻²⁴`. -/
theorem C124_single {fl : K → K} (h : Nearest (Binary K 24) fl) : Rounds fl ((2 : K) ^ 24)⁻¹ :=
  h.rounds (by positivity) (by rw [inv_lt_one₀ (by positivity)]; norm_num) binary24_dense


theorem nat_single {fl : K → K} (h : Nearest (Binary K 24) fl) {m : ℕ} (hm : m ≤ 2 ^ 24) : fl (m : K) = m :=
  h.fix ⟨m, 0, by rw [abs_of_nonneg (by positivity)]; exact_mod_cast hm, by simp⟩

/-- A number just above one becomes one. -/
theorem near_one_single {fl : K → K} (h : Nearest (Binary K 24) fl) : fl (1 + (2 ^ 30)⁻¹ : K) = 1 := by
  have h1 : fl (1 : K) = 1 := by simpa using nat_single h (m := 1) (by norm_num)
  have hR := C124_single h
  have e1 : (1 : K) ≤ fl (1 + (2 ^ 30)⁻¹) := by
    have := hR.mono 1 (1 + (2 ^ 30)⁻¹) (by have : (0 : K) < (2 ^ 30)⁻¹ := by positivity
                                           linarith)
    rwa [h1] at this
  obtain ⟨⟨m, e, hm, hx⟩, hn⟩ := h (1 + (2 ^ 30)⁻¹)
  have hb : fl (1 + (2 ^ 30)⁻¹ : K) ≤ 1 + 2 * (2 ^ 30)⁻¹ := by
    have k := hn 1 ⟨1, 0, by norm_num, by simp⟩
    have : |(1 : K) - (1 + (2 ^ 30)⁻¹)| = (2 ^ 30)⁻¹ := by
      rw [show (1 : K) - (1 + (2 ^ 30)⁻¹) = -(2 ^ 30)⁻¹ by ring, abs_neg, abs_of_pos (by positivity)]
    rw [this] at k
    have := (abs_le.1 k).2
    linarith
  by_contra hne
  have hgt : (1 : K) < fl (1 + (2 ^ 30)⁻¹) := lt_of_le_of_ne e1 (Ne.symm hne)
  rw [hx] at hgt hb
  have hm' : (m : K) ≤ 2 ^ 24 := by
    have : m ≤ 2 ^ 24 := (le_abs_self m).trans hm
    exact_mod_cast this
  have hp : (0 : K) < 2 ^ e := zpow_pos (by norm_num) e
  -- the exponent is at least `-23`
  have he : -24 < e := by
    by_contra hc
    have hc : e ≤ -24 := by omega
    have : (2 : K) ^ e ≤ 2 ^ (-24 : ℤ) := zpow_le_zpow_right₀ (by norm_num) hc
    have h3 : (m : K) * 2 ^ e ≤ 2 ^ 24 * 2 ^ (-24 : ℤ) := mul_le_mul hm' this hp.le (by positivity)
    have h4 : (2 : K) ^ 24 * 2 ^ (-24 : ℤ) = 1 := by rw [← zpow_natCast, ← zpow_add₀ (by norm_num)]; norm_num
    linarith
  obtain ⟨n, hn'⟩ : ∃ n : ℕ, e = (n : ℤ) + (-23) := ⟨(e + 23).toNat, by omega⟩
  have hz : (m : K) * 2 ^ e = ((m * 2 ^ n : ℤ) : K) * 2 ^ (-23 : ℤ) := by
    rw [hn', zpow_add₀ (by norm_num), zpow_natCast]; push_cast; ring
  rw [hz] at hgt hb
  have h5 : (2 : K) ^ (-23 : ℤ) = (2 ^ 23)⁻¹ := by rw [zpow_neg]; norm_cast
  rw [h5] at hgt hb
  have l1 : (2 ^ 23 : K) < ((m * 2 ^ n : ℤ) : K) := by
    rwa [← div_eq_mul_inv, lt_div_iff₀ (by positivity), one_mul] at hgt
  have l2 : ((m * 2 ^ n : ℤ) : K) < 2 ^ 23 + 1 := by
    rw [← div_eq_mul_inv, div_le_iff₀ (by positivity)] at hb
    refine hb.trans_lt ?_
    norm_num
  have l1' : (2 ^ 23 : ℤ) < m * 2 ^ n := by exact_mod_cast l1
  have l2' : m * 2 ^ n < (2 ^ 23 + 1 : ℤ) := by exact_mod_cast l2
  omega

end single

/-! ### A curve that is torn -/

section torn

/-- A polyline that climbs from `(1, 0)` to `(1, 5)` in a very short time. -/
def exTorn : Curve ℚ ((Fin 2 → ℚ) × ℚ) where
  degree := 1
  cps := [(![0, 0], 1), (![1, 0], 1), (![1, 5], 1), (![2, 5], 1)]
  knots := [0, 0, 1, 1 + 1 / 1073741824, 2, 2]

theorem ok_of_coords {r : Res (Fin 2 → ℚ)} {a b : ℚ} (h : Except.map (fun x => (x 0, x 1)) r = .ok (a, b)) : r = .ok ![a, b] := by
  cases r with
  | error e => cases h
  | ok x =>
    obtain ⟨rfl, rfl⟩ := Prod.mk.inj (Except.ok.inj h)
    congr 1
    funext i
    fin_cases i <;> rfl

theorem near_one_q {fl : ℚ → ℚ} (h : Nearest (Binary ℚ 24) fl) : fl (1 + 1 / 1073741824) = 1 := by
  have := near_one_single h
  norm_num at this ⊢
  exact this

theorem exTorn_cast {fl : ℚ → ℚ} (h : Nearest (Binary ℚ 24) fl) :
    exTorn.cast fl = ⟨1, [(![0, 0], 1), (![1, 0], 1), (![1, 5], 1), (![2, 5], 1)], [0, 0, 1, 1, 2, 2]⟩ := by
  have e0 : fl 0 = 0 := by simpa using nat_single h (m := 0) (by norm_num)
  have e1 : fl 1 = 1 := by simpa using nat_single h (m := 1) (by norm_num)
  have e2 : fl 2 = 2 := by simpa using nat_single h (m := 2) (by norm_num)
  have e5 : fl 5 = 5 := by simpa using nat_single h (m := 5) (by norm_num)
  have en := near_one_q h
  have hv : ∀ a b : ℚ, (fun i => fl ((![a, b] : Fin 2 → ℚ) i)) = ![fl a, fl b] := by
    intro a b
    funext i
    fin_cases i <;> rfl
  simp only [exTorn, Curve.cast, Knots.cast, castPoint, List.map_cons, List.map_nil, hv, e0, e1, e2, e5, en]

theorem torn_point {eps t : ℚ} (h0 : 0 ≤ t) (h2 : t ≤ 2) (he' : eps ≤ 1 / 2) :
    Curve.pointAt eps (⟨1, [(![0, 0], 1), (![1, 0], 1), (![1, 5], 1), (![2, 5], 1)], [0, 0, 1, 1, 2, 2]⟩ : Curve ℚ ((Fin 2 → ℚ) × ℚ)) t =
      .ok (if t < 1 then ![t, 0] else ![t, 5]) := by
  have hspan : Knots.findKnotSpanIndex eps ([0, 0, 1, 1, 2, 2] : List ℚ) 3 1 t = .ok (if t < 1 then 1 else 3) := by
    rw [Knots.findKnotSpanIndex]
    simp only [getR, List.getElem?_cons_succ, List.getElem?_cons_zero, ok_bind, pure_eq_ok]
    by_cases c1 : 2 - eps < t
    · rw [if_pos c1, if_neg (by linarith)]
    · rw [if_neg c1]
      by_cases c2 : t < 0 + eps
      · rw [if_pos c2, if_pos (by linarith)]
      · rw [if_neg c2]
        by_cases c3 : t < 1
        · simp [Knots.spanGo, getR, ok_bind, c3, not_lt.2 h0, not_le.2 c3, pure_eq_ok]
        · rcases h2.lt_or_eq with c4 | c4
          · simp [Knots.spanGo, getR, ok_bind, c3, not_lt.1 c3, not_le.2 c4, pure_eq_ok]
          · subst c4
            simp [Knots.spanGo, getR, ok_bind, pure_eq_ok]
            try norm_num
  have hl : (⟨1, [(![0, 0], 1), (![1, 0], 1), (![1, 5], 1), (![2, 5], 1)], [0, 0, 1, 1, 2, 2]⟩ : Curve ℚ ((Fin 2 → ℚ) × ℚ)).lastIndex = .ok 3 := rfl
  rw [Curve.pointAt, Curve.point, hl, ok_bind, hspan, ok_bind]
  by_cases c : t < 1
  · rw [if_pos c, if_pos c]
    have hb : Knots.basisFunctions ([0, 0, 1, 1, 2, 2] : List ℚ) 1 t 1 = .ok [1 - t, t] := by
      simp [Knots.basisFunctions, Knots.basisInner, Knots.leftAt, Knots.rightAt, subR, getR, divR, ok_bind, pure_eq_ok]
    rw [hb, ok_bind, subR, if_pos le_rfl, ok_bind]
    simp [Curve.sumPoints, List.range_succ, getR, ok_bind, pure_eq_ok, Curve.dehomogenize, unwrapR]
  · rw [if_neg c, if_neg c]
    have hb : Knots.basisFunctions ([0, 0, 1, 1, 2, 2] : List ℚ) 3 t 1 = .ok [2 - t, t - 1] := by
      simp [Knots.basisFunctions, Knots.basisInner, Knots.leftAt, Knots.rightAt, subR, getR, divR, ok_bind, pure_eq_ok]
      try norm_num
    rw [hb, ok_bind, subR, if_pos (by norm_num), ok_bind]
    simp [Curve.sumPoints, List.range_succ, getR, ok_bind, pure_eq_ok, Curve.dehomogenize, unwrapR]
    rw [if_neg (by norm_num)]
    show Except.ok _ = Except.ok _
    congr 1
    funext i
    fin_cases i
    · show ((2 : ℚ) - 1)⁻¹ * (2 - t + (t - 1) * 2) = t; ring
    · show ((2 : ℚ) - 1)⁻¹ * ((2 - t) * 5 + (t - 1) * 5) = 5; ring

/-- **A conversion can tear a curve**: two different knots of an unbroken polyline become one of single precision, and the converted curve
    jumps: it stays on the line `y = 0` before the parameter one and on `y = 5` from there on, so the half way point, which the original
    curve passes, is not on it. -/
theorem C124_tears {fl : ℚ → ℚ} (h : Nearest (Binary ℚ 24) fl) {eps : ℚ} (he : eps ≤ 1 / 2) :
    exTorn.pointAt 0 (1 + 1 / 2147483648) = .ok ![1, 5 / 2] ∧
    (exTorn.cast fl).knotsDomain = .ok (0, 2) ∧
    ∀ t, 0 ≤ t → t ≤ 2 → ∃ x, (exTorn.cast fl).pointAt eps t = .ok x ∧ (t < 1 → x = ![t, 0]) ∧ (1 ≤ t → x = ![t, 5]) ∧ x ≠ ![1, 5 / 2] := by
  refine ⟨ok_of_coords (by decide +kernel), by rw [exTorn_cast h]; rfl, fun t h0 h2 => ?_⟩
  rw [exTorn_cast h, torn_point h0 h2 he]
  refine ⟨_, rfl, fun c => if_pos c, fun c => if_neg (not_lt.2 c), fun e => ?_⟩
  split at e
  · have := congrFun e 1; norm_num at this
  · have := congrFun e 1; norm_num at this

end torn

/-! ### Cases that meet the hypotheses -/

section witnesses

/-- A rational curve with control points that are not numbers of single precision. -/
def exThird : Curve ℚ ((Fin 2 → ℚ) × ℚ) where
  degree := 2
  cps := [(![1 / 3, 4], 1), (![2, 1 / 7], 2 / 3), (![3, -1], 1), (![6, 3], 1)]
  knots := [0, 0, 0, 1, 2, 2, 2]

theorem exThird_good : exThird.Good (1/1000) where
  cps_pos := by decide
  knots_len := by decide
  good := by
    refine ⟨by norm_num, by decide, ?_, ?_, ?_, ?_, ?_⟩
    · intro i j hij hj
      exact (by decide +kernel : ∀ i ≤ 6, ∀ j ≤ 6, i ≤ j → kf exThird.knots i ≤ kf exThird.knots j)
        i (by have : j ≤ 6 := hj; omega) j hj hij
    all_goals simp [exThird, kf]; try norm_num

theorem exThird_pos : ∀ q ∈ exThird.cps, 0 < q.2 := by simp [exThird]

theorem exThird_single : ∀ k ∈ exThird.knots, (fl32 : ℚ → ℚ) k = k := by
  intro k hk
  have : (k = 0 ∨ k = 1) ∨ k = 2 := by simp [exThird] at hk; tauto
  rcases this with (rfl | rfl) | rfl
  · simpa using nat_single (fl32_nearest (K := ℚ)) (m := 0) (by norm_num)
  · simpa using nat_single (fl32_nearest (K := ℚ)) (m := 1) (by norm_num)
  · simpa using nat_single (fl32_nearest (K := ℚ)) (m := 2) (by norm_num)

/-- In single precision the curve is the same up to `10⁻⁶`, and it is another curve. -/
example {t : ℚ} (h0 : 0 ≤ t) (h2 : t ≤ 2) : ∃ x x', exThird.pointAt (1/1000) t = .ok x ∧ (exThird.cast fl32).pointAt (1/1000) t = .ok x' ∧
    |x' 0 - x 0| ≤ 1 / 10 ^ 6 := by
  obtain ⟨x, x', e1, e2, e3⟩ := C124_points (C124_single (fl32_nearest (K := ℚ))) exThird_good exThird_pos exThird_single (t := t) h0 h2
  refine ⟨x, x', e1, e2, (e3 0 6 ?_).trans (by norm_num)⟩
  simp only [exThird, List.mem_cons, List.not_mem_nil, or_false]
  rintro q (rfl | rfl | rfl | rfl) <;> norm_num

example : (fl32 (1 / 3 : ℚ)) ≠ 1 / 3 := by decide +kernel

example : (exThird.cast fl32).Good (1/1000) :=
  (C124_good (C124_single (fl32_nearest (K := ℚ))) exThird_good (by norm_num) (by simp [exThird, kf]; norm_num)
    (by simp [exThird, kf]; norm_num) exThird_pos).1

/-- A knot that is not a number of single precision is moved, the domain with it. -/
example : ((⟨1, [(![0, 0], 1), (![1, 0], 1)], [1 / 3, 1 / 3, 5, 5]⟩ : Curve ℚ ((Fin 2 → ℚ) × ℚ)).cast fl32).lo = 11184811 / 33554432 := by
  decide +kernel

/-- The conversion from the rational to the real numbers is exact. -/
example (u : ℚ) : (exThird.cast (Rat.castHom ℝ)).pointAt ((1 / 1000 : ℚ) : ℝ) (u : ℝ) =
    Except.map (fun x i => ((x i : ℚ) : ℝ)) (exThird.pointAt (1 / 1000) u) :=
  (C124_exact (φ := Rat.castHom ℝ) (fun a b h => by simpa using h) (1 / 1000) exThird ⟨0, 0, [], [], []⟩ u u).1

/-- Numbers of single precision as a type: widening them and rounding them back. -/
example (c : Curve (Binary ℚ 24) ((Fin 2 → Binary ℚ 24) × Binary ℚ 24)) :
    (c.cast (fun x : Binary ℚ 24 => (x : ℚ))).cast (fun x => (⟨fl32 x, (fl32_nearest x).1⟩ : Binary ℚ 24)) = c :=
  (C124_back (fun x => Subtype.ext (fl32_nearest.fix x.2)) c ⟨0, 0, [], [], []⟩ ⟨fun _ => ⟨0, 0, 0, by norm_num, by simp⟩,
    fun _ => ⟨0, 0, 0, by norm_num, by simp⟩⟩ ⟨[], [], [], []⟩).1

example : Box.ofCurve 1000 (exTorn.cast fl32) = Except.map (Box.cast fl32) (Box.ofCurve 1000 exTorn) :=
  (C124_box (C124_single (fl32_nearest (K := ℚ))) (by decide +kernel) (by decide +kernel) (by decide +kernel) exTorn
    (by simp [exTorn]) ⟨fun _ => 0, fun _ => 0⟩ ⟨fun _ => 0, fun _ => 0⟩ (fun _ => 0)).1

/-- A domain too short for single precision. -/
def exFlash : Curve ℚ ((Fin 2 → ℚ) × ℚ) where
  degree := 1
  cps := [(![0, 0], 1), (![1, 0], 1)]
  knots := [1, 1, 1 + 1 / 1073741824, 1 + 1 / 1073741824]

example {fl : ℚ → ℚ} (h : Nearest (Binary ℚ 24) fl) : exFlash.pointAt 0 (1 + 1 / 2147483648) = .ok ![1 / 2, 0] ∧
    (exFlash.cast fl).pointAt (1 / 8388608) 1 = .error .nonfinite := by
  refine ⟨ok_of_coords (by decide +kernel), C124_collapses rfl (by decide) (by decide) ?_ (by norm_num)⟩
  have e1 : fl 1 = 1 := by simpa using nat_single h (m := 1) (by norm_num)
  intro x hx
  have : x = 1 ∨ x = 1 + 1 / 1073741824 := by simp only [exFlash, List.mem_cons, List.not_mem_nil, or_false] at hx; tauto
  rcases this with rfl | rfl
  · exact e1
  · exact near_one_q h

example : exTorn.Good 0 ∧ (exTorn.cast fl32).pointAt (1 / 8388608) 1 = .ok ![1, 5] := by
  refine ⟨⟨by decide, by decide, ⟨le_rfl, by decide, ?_, ?_, ?_, ?_, ?_⟩⟩, ok_of_coords (by decide +kernel)⟩
  · intro i j hij hj
    exact (by decide +kernel : ∀ i ≤ 5, ∀ j ≤ 5, i ≤ j → kf exTorn.knots i ≤ kf exTorn.knots j)
      i (by have : j ≤ 5 := hj; omega) j hj hij
  all_goals simp [exTorn, kf]; try norm_num

end witnesses

end Curvo.Props

/-
  Completions of earlier claims: normalised polylines are straight between their vertices (C17), regular tessellations without
  divisions in the second direction (C34).
-/
import Verif.Props.Curve3
import Verif.Props.Tessellate

set_option linter.unusedSectionVars false

namespace Curvo.Props

open Curvo Curvo.Knots Curvo.Spec Curvo.Curve

variable {K : Type} [Field K] [LinearOrder K] [IsStrictOrderedRing K]
variable {W : Type} [AddCommGroup W] [Module K W]

/-- **C17**: the normalised polyline runs straight and with constant speed from vertex `i` to vertex `i + 1`, on the interval
    between the `i`-th and the next chord length divided by the total length. -/
theorem C17_normalized_segments {eps : K} (he : 0 ≤ eps) (dist : W → W → K) {pts : List W} (h2 : 2 ≤ pts.length)
    (hpos : ∀ i, i + 1 < pts.length → 0 < dist (pts.getD i 0) (pts.getD (i + 1) 0))
    (hg1 : eps * chordLength dist pts (pts.length - 1) ≤ dist (pts.getD 0 0) (pts.getD 1 0))
    (hg2 : eps * chordLength dist pts (pts.length - 1) ≤ dist (pts.getD (pts.length - 2) 0) (pts.getD (pts.length - 1) 0)) :
    ∃ c, polyline dist pts true = .ok c ∧ ∀ i, i + 1 < pts.length → ∀ t, 0 ≤ t → t ≤ 1 →
      c.pointAt eps ((chordLength dist pts i + t * dist (pts.getD i 0) (pts.getD (i + 1) 0)) / chordLength dist pts (pts.length - 1))
        = .ok (pts.getD i 0 + t • (pts.getD (i + 1) 0 - pts.getD i 0)) := by
  obtain ⟨h1, h3, h4, h5⟩ := polyKnots dist pts h2
  have hsucc : ∀ i, chordLength dist pts (i + 1) =
      chordLength dist pts i + dist (pts.getD i 0) (pts.getD (i + 1) 0) := by
    intro i; simp [chordLength, Finset.sum_range_succ]
  have hτ : ∀ i, i + 1 < pts.length → chordLength dist pts i < chordLength dist pts (i + 1) := by
    intro i hi; rw [hsucc]; have := hpos i hi; linarith
  have htot : 0 < chordLength dist pts (pts.length - 1) := by
    apply Finset.sum_pos
    · intro j hj; exact hpos j (by have := Finset.mem_range.1 hj; omega)
    · exact ⟨0, Finset.mem_range.2 (by omega)⟩
  generalize hT : chordLength dist pts (pts.length - 1) = tot at *
  have hct : chordTotal dist pts = tot := by rw [chordTotal_eq dist pts (by omega), hT]
  rw [hct] at h1 h3 h4 h5
  have hlen : (([0, 0] ++ chordGo dist 0 pts ++ [tot]).map (fun k => k / tot)).length = pts.length + 2 := by
    rw [List.length_map]; exact h1
  have hmap : ∀ j, j < pts.length + 2 →
      kf (([0, 0] ++ chordGo dist 0 pts ++ [tot]).map (fun k => k / tot)) j =
        kf ([0, 0] ++ chordGo dist 0 pts ++ [tot]) j / tot := by
    intro j hj; rw [kf_map (fun k => k / tot) (by rw [h1]; exact hj)]
  have hτ' : ∀ i, i + 1 < pts.length → chordLength dist pts i / tot < chordLength dist pts (i + 1) / tot :=
    fun i hi => div_lt_div_of_pos_right (hτ i hi) htot
  obtain ⟨-, -, -, -, k5⟩ := poly_eval (W := W) he h2 hlen (τ := fun i => chordLength dist pts i / tot)
    (by rw [hmap 0 (by omega), h3]; simp [chordLength])
    (fun i hi => by rw [hmap _ (by omega), h4 i hi])
    (by rw [hmap _ (by omega), h5]; simp only [hT]) hτ'
    (by
      rw [← le_sub_iff_add_le', ← sub_div, le_div_iff₀ htot, hsucc 0]
      simpa [chordLength] using hg1)
    (by
      have e : pts.length - 1 = pts.length - 2 + 1 := by omega
      rw [← le_sub_iff_add_le', ← sub_div, le_div_iff₀ htot, e, hsucc]
      rw [e] at hg2; linarith)
  refine ⟨⟨1, pts.map homogenize, ([0, 0] ++ chordGo dist 0 pts ++ [tot]).map (fun k => k / tot)⟩, ?_, fun i hi t ht0 ht1 => ?_⟩
  · rw [polyline, subR_eq_ok (by omega)]
    simp only [ok_bind, if_true, hct]
    rw [mapM_ok (g := fun k => k / tot) (fun x _ => divR_eq_ok htot.ne')]
    rfl
  · have hd := hpos i hi
    rw [k5 i hi _ (div_le_div_of_nonneg_right (by nlinarith) htot.le)
      (div_le_div_of_nonneg_right (by rw [hsucc]; nlinarith) htot.le)]
    have key : ((chordLength dist pts i + t * dist (pts.getD i 0) (pts.getD (i + 1) 0)) / tot - chordLength dist pts i / tot) /
        (chordLength dist pts (i + 1) / tot - chordLength dist pts i / tot) = t := by
      rw [hsucc, ← sub_div, ← sub_div, div_div_div_cancel_right₀ htot.ne', add_sub_cancel_left, add_sub_cancel_left,
        mul_div_assoc, div_self hd.ne', mul_one]
    rw [key]

/-- Witness: the middle of the second segment of a polyline of length five, at parameter 4/5. -/
example : ∃ c, polyline (fun a b : ℚ => |b - a|) [0, 3, 1] true = .ok c ∧ c.pointAt (1/1000) (4/5) = .ok 2 := by
  obtain ⟨c, h1, h2⟩ := C17_normalized_segments (W := ℚ) (eps := (1/1000 : ℚ)) (by norm_num)
    (fun a b : ℚ => |b - a|) (pts := [0, 3, 1]) (by simp)
    (by
      intro i hi
      have : i = 0 ∨ i = 1 := by simp at hi; omega
      rcases this with rfl | rfl <;> norm_num)
    (by norm_num [chordLength, Finset.sum_range_succ]) (by norm_num [chordLength, Finset.sum_range_succ])
  refine ⟨c, h1, ?_⟩
  have := h2 1 (by simp) (1/2) (by norm_num) (by norm_num)
  norm_num [chordLength, Finset.sum_range_succ] at this
  exact this

/-- **C34**: zero divisions in the second direction, too, make the equal spacing non finite, whatever the number in the first. -/
theorem C34_zero_divisions_v {cross : W → W → W} {normalize : W → W} {eps : K} {S : Surface K (W × K)} (h : S.Good eps)
    (du : ℕ) : S.regularTessellate cross normalize eps du 0 = .error .nonfinite := by
  rcases Nat.eq_zero_or_pos du with rfl | hdu
  · exact C34_zero_divisions h 0
  have hr := h.rows_pos
  have hul := h.u_len
  have hvl := h.v_len
  have hle := h.v_good.le
  have hcp := h.cols_pos
  obtain ⟨Lu, eu, -⟩ := C66_regularly_spaced (n := S.cps.length - 1) (by omega) h.u_good hdu
  have hdom : domain S.vKnots S.vDegree = .ok (S.vlo, S.vhi) := by
    rw [domain, getR_kf (by omega), ok_bind, subR_eq_ok (by omega), ok_bind, subR_eq_ok (by omega), ok_bind,
      getR_kf (by omega), ok_bind, show S.vKnots.length - 1 - S.vDegree = S.cols by omega]
    rfl
  have : regularlySpacedSpan S.vKnots S.vDegree 0 = .error .nonfinite := by
    rw [regularlySpacedSpan, subR_eq_ok (by omega), ok_bind, subR_eq_ok (by omega), ok_bind, hdom, ok_bind]
    simp [divR]
  rw [Surface.regularTessellate, Surface.regularSamplePoints, eu, ok_bind, regularlySpacedBasisFunctions, this]
  rfl

/-- Witness: a surface of degrees one and one. -/
example : exSurf.regularTessellate (fun a _ => a) (fun a => a) (1/1000) 3 0 = .error .nonfinite := C34_zero_divisions_v exSurf_good 3

end Curvo.Props

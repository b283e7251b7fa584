/-
  The surface operations are natural: they commute with linear maps of the homogeneous control points.
-/
import Verif.Lemmas.Natural
import Verif.Props.Surface2

set_option linter.unusedSectionVars false
set_option linter.unusedSimpArgs false

namespace Curvo

theorem pushAt_map {α β : Type} (f : α → β) (t : List (List α)) (jp : ℕ × α) :
    Misc.pushAt (t.map (List.map f)) (jp.1, f jp.2) = Except.map (List.map (List.map f)) (Misc.pushAt t jp) := by
  simp only [Misc.pushAt, getR_map, map_bind', bind_map']
  refine bind_congr fun row => ?_
  rw [← setR_map]
  simp

theorem foldlM_map_list {σ τ α β : Type} (φ : σ → τ) (g : α → β) {step : σ → α → Res σ} {step' : τ → β → Res τ}
    (h : ∀ s x, step' (φ s) (g x) = Except.map φ (step s x)) : ∀ (xs : List α) (s : σ),
    (xs.map g).foldlM step' (φ s) = Except.map φ (xs.foldlM step s)
  | [], s => rfl
  | x :: xs, s => by
    rw [List.map_cons, List.foldlM_cons, List.foldlM_cons, h, bind_map', map_bind']
    exact bind_congr fun a => foldlM_map_list φ g h xs a

theorem pushRow_map {α β : Type} (f : α → β) (t : List (List α)) (row : List α) :
    Misc.pushRow (t.map (List.map f)) (row.map f) = Except.map (List.map (List.map f)) (Misc.pushRow t row) := by
  rw [Misc.pushRow, Misc.pushRow]
  rw [show ((row.map f).zipIdx.map fun x => (x.2, x.1)) = (row.zipIdx.map fun x => (x.2, x.1)).map (fun jp => (jp.1, f jp.2)) by
    rw [List.zipIdx_map]; simp]
  exact foldlM_map_list _ _ (fun s x => pushAt_map f s x) _ _

theorem transpose_map {α β : Type} (f : α → β) (pts : List (List α)) :
    Misc.transpose (pts.map (List.map f)) = Except.map (List.map (List.map f)) (Misc.transpose pts) := by
  simp only [Misc.transpose, getR_map, map_bind', bind_map', List.length_map]
  refine bind_congr fun row0 => ?_
  rw [← foldlM_map_list (List.map (List.map f)) (List.map f) (fun s x => pushRow_map f s x)]
  simp

namespace Surface
open Curve Props

variable {K : Type} [Field K] [LinearOrder K] {V V' : Type} [AddCommGroup V] [Module K V] [AddCommGroup V'] [Module K V']
  (L : V →ₗ[K] V')

theorem rows_map (f : List V → Res (Curve K V)) (f' : List V' → Res (Curve K V'))
    (h : ∀ row, f' (row.map L) = Except.map (mapCps L) (f row)) (rows : List (List V)) :
    (rows.map (List.map L)).mapM f' = Except.map (List.map (mapCps L)) (rows.mapM f) :=
  mapM_map' (mapCps L) h rows

theorem tryRefineKnot_map (eps : K) (S : Surface K V) (xs : List K) (dir : UV) :
    (mapNet L S).tryRefineKnot eps xs dir = Except.map (mapNet L) (S.tryRefineKnot eps xs dir) := by
  have hcur : ∀ (d : ℕ) (ks : List K) (row : List V),
      (do let c ← Curve.tryNew d (row.map L) ks; c.tryRefineKnot eps xs) =
        Except.map (mapCps L) (do let c ← Curve.tryNew d row ks; c.tryRefineKnot eps xs) := by
    intro d ks row
    simp only [tryNew_map, bind_map', map_bind', Curve.tryRefineKnot_map]
  cases dir with
  | u =>
    simp only [tryRefineKnot, show (mapNet L S).cps = S.cps.map (List.map L) from rfl, transpose_map, map_bind', bind_map',
      show (mapNet L S).uDegree = S.uDegree from rfl, show (mapNet L S).uKnots = S.uKnots from rfl]
    refine bind_congr fun rows => ?_
    rw [mapM_map' (mapCps L) (hcur _ _), bind_map']
    refine bind_congr fun refined => ?_
    cases refined with
    | nil => rfl
    | cons c cs =>
      simp only [List.map_cons, map_bind']
      rw [show (mapCps L c).cps :: (cs.map (mapCps L)).map Curve.cps = (c.cps :: cs.map Curve.cps).map (List.map L) by
        simp only [List.map_cons, List.map_map]; rfl]
      rw [transpose_map, bind_map']
      rfl
  | v =>
    simp only [tryRefineKnot, show (mapNet L S).cps = S.cps.map (List.map L) from rfl, map_bind', bind_map',
      show (mapNet L S).vDegree = S.vDegree from rfl, show (mapNet L S).vKnots = S.vKnots from rfl]
    rw [mapM_map' (mapCps L) (hcur _ _), bind_map']
    refine bind_congr fun refined => ?_
    cases refined with
    | nil => rfl
    | cons c cs =>
      simp only [List.map_cons, map_pure', mapNet, List.map_map]
      rfl

theorem splitCurves_map (eps : K) (rows : List (List V)) (ks : List K) (d : ℕ) (t : K) :
    splitCurves eps (rows.map (List.map L)) ks d t = Except.map (List.map (mapCps L)) (splitCurves eps rows ks d t) := by
  rw [splitCurves, splitCurves]
  refine mapM_map' (mapCps L) (fun row => ?_) rows
  simp only [tryNew_map, bind_map', map_bind', Curve.tryRefineKnot_map]

theorem splitRows_map (s d : ℕ) (cs : List (Curve K V)) :
    splitRows s d (cs.map (mapCps L)) = Except.map (fun x => ((x.1.1.map (List.map L), x.1.2), x.2.1.map (List.map L), x.2.2))
      (splitRows s d cs) := by
  simp only [splitRows, map_bind']
  rw [mapM_map' (List.map L) (f := fun c : Curve K V => sliceR c.cps 0 (s + 1)) (fun c => sliceR_map L c.cps _ _), bind_map']
  refine bind_congr fun pts0 => ?_
  rw [mapM_map' (List.map L) (f := fun c : Curve K V => sliceR c.cps (s + 1) c.cps.length) (fun c => by
    rw [show (mapCps L c).cps = c.cps.map L from rfl, List.length_map, sliceR_map]), bind_map']
  refine bind_congr fun pts1 => ?_
  rw [List.getLast?_map]
  cases cs.getLast? with
  | none => rfl
  | some c =>
    simp only [Option.map_some, map_bind', map_pure']
    rfl

theorem trySplit_map (eps : K) (S : Surface K V) (t : K) (dir : UV) :
    (mapNet L S).trySplit eps t dir = Except.map (fun r => (mapNet L r.1, mapNet L r.2)) (S.trySplit eps t dir) := by
  cases dir with
  | u =>
    simp only [trySplit, show (mapNet L S).cps = S.cps.map (List.map L) from rfl, transpose_map, map_bind', bind_map',
      show (mapNet L S).uDegree = S.uDegree from rfl, show (mapNet L S).uKnots = S.uKnots from rfl, splitCurves_map, splitRows_map]
    rfl
  | v =>
    simp only [trySplit, show (mapNet L S).cps = S.cps.map (List.map L) from rfl, transpose_map, map_bind', bind_map',
      show (mapNet L S).vDegree = S.vDegree from rfl, show (mapNet L S).vKnots = S.vKnots from rfl, splitCurves_map, splitRows_map]
    rfl

theorem tryIsocurve_map (eps : K) (S : Surface K V) (t : K) (dir : UV) :
    (mapNet L S).tryIsocurve eps t dir = Except.map (mapCps L) (S.tryIsocurve eps t dir) := by
  cases dir with
  | u =>
    simp only [tryIsocurve, show (mapNet L S).uDegree = S.uDegree from rfl, show (mapNet L S).uKnots = S.uKnots from rfl, map_bind',
      map_ite', tryRefineKnot_map, bind_map']
    refine bind_congr fun mult => ?_
    have hk : ∀ R : Surface K V, (do
        let last ← subR (mapNet L R).cps.length 1
        let s ← isoSpan eps S.uKnots S.uDegree last t
        let row ← getR (mapNet L R).cps s
        Curve.tryNew (mapNet L R).vDegree row (mapNet L R).vKnots) = (do
        let last ← subR R.cps.length 1
        let s ← isoSpan eps S.uKnots S.uDegree last t
        let row ← getR R.cps s
        Except.map (mapCps L) (Curve.tryNew R.vDegree row R.vKnots)) := by
      intro R
      simp only [show (mapNet L R).cps = R.cps.map (List.map L) from rfl, List.length_map, getR_map, bind_map', tryNew_map]
      rfl
    split
    · exact bind_congr hk
    · exact hk S
  | v =>
    simp only [tryIsocurve, show (mapNet L S).vDegree = S.vDegree from rfl, show (mapNet L S).vKnots = S.vKnots from rfl, map_bind',
      map_ite', tryRefineKnot_map, bind_map']
    refine bind_congr fun mult => ?_
    have hk : ∀ R : Surface K V, (do
        let row0 ← getR (mapNet L R).cps 0
        let last ← subR row0.length 1
        let s ← isoSpan eps S.vKnots S.vDegree last t
        let col ← (mapNet L R).cps.mapM fun row => getR row s
        Curve.tryNew (mapNet L R).uDegree col (mapNet L R).uKnots) = (do
        let row0 ← getR R.cps 0
        let last ← subR row0.length 1
        let s ← isoSpan eps S.vKnots S.vDegree last t
        let col ← R.cps.mapM fun row => getR row s
        Except.map (mapCps L) (Curve.tryNew R.uDegree col R.uKnots)) := by
      intro R
      simp only [show (mapNet L R).cps = R.cps.map (List.map L) from rfl, List.length_map, getR_map, bind_map', map_bind']
      refine bind_congr fun r0 => bind_congr fun last => bind_congr fun s => ?_
      rw [mapM_map' L (f := fun row : List V => getR row s) (fun row => getR_map L row s), bind_map']
      refine bind_congr fun col => ?_
      rw [tryNew_map]
      rfl
    split
    · exact bind_congr hk
    · exact hk S

theorem tryBoundaryCurves_map (eps : K) (S : Surface K V) :
    (mapNet L S).tryBoundaryCurves eps = Except.map (List.map (mapCps L)) (S.tryBoundaryCurves eps) := by
  simp only [tryBoundaryCurves, show (mapNet L S).uDomain = S.uDomain from rfl, show (mapNet L S).vDomain = S.vDomain from rfl,
    tryIsocurve_map, map_bind', bind_map', map_pure']
  rfl

theorem flip_map (S : Surface K V) (dir : Flip) : (mapNet L S).flip dir = Except.map (mapNet L) (S.flip dir) := by
  cases dir <;> simp only [flip, map_bind', bind_assoc, pure_bind] <;>
    simp [pure_eq_ok, Except.map, mapNet, Function.comp_def, List.map_reverse]

theorem invert_map (S : Surface K V) : (mapNet L S).invert = Except.map (mapNet L) S.invert := by
  simp only [invert, map_bind']
  simp [pure_eq_ok, Except.map, mapNet, Function.comp_def, List.map_reverse]

end Surface
end Curvo

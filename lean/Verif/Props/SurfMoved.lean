/-
  Property theorems: derivatives, normals and tessellations of moved surfaces, C106.
-/
import Verif.Props.MovedMeasure
import Verif.Lemmas.SurfNat
import Verif.Model.Tess
import Verif.Model.Frame

set_option linter.unusedSectionVars false
set_option linter.unusedSimpArgs false

namespace Curvo.Props

open Curvo Curvo.Curve Curvo.Spec

section
variable {K : Type} [Field K] [LinearOrder K]

theorem get2R_map {α β : Type} (f : α → β) (l : List (List α)) (i j : ℕ) :
    get2R (l.map (·.map f)) i j = Except.map f (get2R l i j) := by
  rw [get2R, get2R, getR_map (List.map f) l i, bind_map', map_bind']
  exact bind_congr fun r => getR_map f r j

theorem set2R_map {α β : Type} (f : α → β) (l : List (List α)) (i j : ℕ) (a : α) :
    set2R (l.map (·.map f)) i j (f a) = Except.map (List.map (List.map f)) (set2R l i j a) := by
  rw [set2R, set2R, getR_map (List.map f) l i, bind_map', map_bind']
  refine bind_congr fun r => ?_
  rw [setR_map, bind_map', map_bind']
  exact bind_congr fun r' => setR_map (List.map f) l i r'

theorem mapM_nat {α β γ : Type} (φ : β → γ) {f : α → Res β} {f' : α → Res γ} (h : ∀ x, f' x = Except.map φ (f x)) (xs : List α) :
    xs.mapM f' = Except.map (List.map φ) (xs.mapM f) := by
  have := mapM_map' (g := id) φ (f := f) (f' := f') h xs
  rwa [List.map_id] at this

variable {V V' : Type} [AddCommGroup V] [Module K V] [AddCommGroup V'] [Module K V']

theorem derColumns_map (L : V →ₗ[K] V') (S : Surface K V) (uders : List (List K)) (su sv k : ℕ) :
    (mapNet L S).derColumns uders su sv k = Except.map (List.map L) (S.derColumns uders su sv k) := by
  rw [Surface.derColumns, Surface.derColumns]
  simp only [show (mapNet L S).uDegree = S.uDegree from rfl, show (mapNet L S).vDegree = S.vDegree from rfl,
    show (mapNet L S).cps = S.cps.map (·.map L) from rfl]
  have := mapM_map' (g := id) L (f := fun s => (List.range (S.uDegree + 1)).foldlM (fun acc r => do
      let ou ← subR su S.uDegree
      let row ← getR S.cps (ou + r)
      let ov ← subR sv S.vDegree
      let p ← getR row (ov + s)
      let b ← get2R uders k r
      pure (acc + b • p)) 0) (f' := fun s => (List.range (S.uDegree + 1)).foldlM (fun acc r => do
      let ou ← subR su S.uDegree
      let row ← getR (S.cps.map (·.map L)) (ou + r)
      let ov ← subR sv S.vDegree
      let p ← getR row (ov + s)
      let b ← get2R uders k r
      pure (acc + b • p)) 0) (fun s => by
        simp only [id]
        rw [show (0 : V') = L 0 from (map_zero L).symm]
        refine foldlM_map' L (fun acc r => ?_) _ _
        rw [map_bind']
        refine bind_congr fun ou => ?_
        rw [getR_map, bind_map', map_bind']
        refine bind_congr fun row => ?_
        rw [map_bind']
        refine bind_congr fun ov => ?_
        rw [getR_map, bind_map', map_bind']
        refine bind_congr fun p => ?_
        rw [map_bind']
        exact bind_congr fun b => by simp only [pure_eq_ok, map_ok', map_add, map_smul]) (List.range (S.vDegree + 1))
  rw [List.map_id] at this
  exact this

theorem surf_derivatives_map (L : V →ₗ[K] V') (eps : K) (S : Surface K V) (u v : K) (n : ℕ) :
    (mapNet L S).derivatives eps u v n = Except.map (List.map (List.map L)) (S.derivatives eps u v n) := by
  rw [Surface.derivatives, Surface.derivatives]
  simp only [show (mapNet L S).uDegree = S.uDegree from rfl, show (mapNet L S).vDegree = S.vDegree from rfl,
    show (mapNet L S).uKnots = S.uKnots from rfl, show (mapNet L S).vKnots = S.vKnots from rfl, derColumns_map, map_bind']
  refine bind_congr fun a => bind_congr fun b => bind_congr fun c => bind_congr fun d => bind_congr fun su => bind_congr fun sv =>
    bind_congr fun uders => bind_congr fun vders => ?_
  rw [show List.replicate (n + 1) (List.replicate (n + 1) (0 : V')) = List.map (List.map L) (List.replicate (n + 1) (List.replicate (n + 1) 0)) by
    simp]
  refine foldlM_map' (List.map (List.map L)) (fun skl k => ?_) _ _
  rw [bind_map', map_bind']
  refine bind_congr fun temp => ?_
  rw [map_bind']
  refine bind_congr fun nk => ?_
  refine foldlM_map' (List.map (List.map L)) (fun skl l => ?_) _ _
  refine foldlM_map' (List.map (List.map L)) (fun skl s => ?_) _ _
  rw [getR_map, bind_map', map_bind']
  refine bind_congr fun item => ?_
  rw [map_bind']
  refine bind_congr fun b => ?_
  rw [get2R_map, bind_map', map_bind']
  refine bind_congr fun col => ?_
  rw [← set2R_map, map_add, map_smul]

theorem isoPoint_map (L : V →ₗ[K] V') (S : Surface K V) (bu : List K) (i j : ℕ) :
    (mapNet L S).isoPoint bu i j = Except.map L (S.isoPoint bu i j) := by
  rw [Surface.isoPoint, Surface.isoPoint, show (0 : V') = L 0 from (map_zero L).symm]
  refine foldlM_map' L (fun acc k => ?_) _ _
  rw [show (mapNet L S).cps = S.cps.map (List.map L) from rfl, getR_map, bind_map', map_bind']
  refine bind_congr fun row => ?_
  rw [getR_map, bind_map', map_bind']
  refine bind_congr fun p => ?_
  rw [map_bind']
  exact bind_congr fun b => by simp only [pure_eq_ok, map_ok', map_add, map_smul]

theorem surf_point_map (L : V →ₗ[K] V') (eps : K) (S : Surface K V) (u v : K) :
    (mapNet L S).point eps u v = Except.map L (S.point eps u v) := by
  rw [Surface.point, Surface.point]
  simp only [show (mapNet L S).uDegree = S.uDegree from rfl, show (mapNet L S).vDegree = S.vDegree from rfl,
    show (mapNet L S).uKnots = S.uKnots from rfl, show (mapNet L S).vKnots = S.vKnots from rfl, map_bind']
  refine bind_congr fun a => bind_congr fun b => bind_congr fun c => bind_congr fun d => bind_congr fun su => bind_congr fun sv =>
    bind_congr fun bu => bind_congr fun bv => bind_congr fun uind => ?_
  rw [show (0 : V') = L 0 from (map_zero L).symm]
  refine foldlM_map' L (fun acc k => ?_) _ _
  rw [map_bind']
  refine bind_congr fun v0 => ?_
  rw [isoPoint_map, bind_map', map_bind']
  refine bind_congr fun p => ?_
  rw [map_bind']
  exact bind_congr fun b => by simp only [pure_eq_ok, map_ok', map_add, map_smul]

theorem pointGivenBases_map (L : V →ₗ[K] V') (S : Surface K V) (su sv : ℕ) (bu bv : List K) :
    (mapNet L S).pointGivenBases su sv bu bv = Except.map L (S.pointGivenBases su sv bu bv) := by
  rw [Surface.pointGivenBases, Surface.pointGivenBases]
  simp only [show (mapNet L S).uDegree = S.uDegree from rfl, show (mapNet L S).vDegree = S.vDegree from rfl, map_bind']
  refine bind_congr fun uind => bind_congr fun v0 => ?_
  rw [show (0 : V') = L 0 from (map_zero L).symm]
  refine foldlM_map' L (fun acc k => ?_) _ _
  rw [isoPoint_map, bind_map', map_bind']
  refine bind_congr fun p => ?_
  rw [map_bind']
  exact bind_congr fun b => by simp only [pure_eq_ok, map_ok', map_add, map_smul]

theorem derivativesGivenBases_map (L : V →ₗ[K] V') (S : Surface K V) (su sv : ℕ) (bu bv : List (List K)) (n : ℕ) :
    (mapNet L S).derivativesGivenBases su sv bu bv n = Except.map (List.map (List.map L)) (S.derivativesGivenBases su sv bu bv n) := by
  rw [Surface.derivativesGivenBases, Surface.derivativesGivenBases]
  simp only [show (mapNet L S).uDegree = S.uDegree from rfl, show (mapNet L S).vDegree = S.vDegree from rfl, derColumns_map]
  rw [show ∀ a b, List.replicate a (List.replicate b (0 : V')) = List.map (List.map L) (List.replicate a (List.replicate b 0)) by
    simp]
  refine foldlM_map' (List.map (List.map L)) (fun skl k => ?_) _ _
  rw [bind_map', map_bind']
  refine bind_congr fun temp => ?_
  rw [map_bind']
  refine bind_congr fun nk => ?_
  refine foldlM_map' (List.map (List.map L)) (fun skl l => ?_) _ _
  rw [show (0 : V') = L 0 from (map_zero L).symm, foldlM_map' L (step := fun acc s => do
      let item ← getR temp s
      let b ← get2R bv l s
      pure (acc + b • item)) (fun acc s => by
    rw [getR_map, bind_map', map_bind']
    refine bind_congr fun item => ?_
    rw [map_bind']
    exact bind_congr fun b => by simp only [pure_eq_ok, map_ok', map_add, map_smul]), bind_map', map_bind']
  exact bind_congr fun v => set2R_map L skl k l v

theorem regularSampleDerivatives_map (L : V →ₗ[K] V') (eps : K) (S : Surface K V) (divsU divsV n : ℕ) :
    (mapNet L S).regularSampleDerivatives eps divsU divsV n =
      Except.map (List.map (List.map (List.map (List.map L)))) (S.regularSampleDerivatives eps divsU divsV n) := by
  rw [Surface.regularSampleDerivatives, Surface.regularSampleDerivatives]
  simp only [show (mapNet L S).uDegree = S.uDegree from rfl, show (mapNet L S).vDegree = S.vDegree from rfl,
    show (mapNet L S).uKnots = S.uKnots from rfl, show (mapNet L S).vKnots = S.vKnots from rfl, map_bind']
  refine bind_congr fun bu => bind_congr fun bv => ?_
  refine mapM_nat _ (fun i => mapM_nat _ (fun j => ?_) _) _
  rw [map_bind']
  refine bind_congr fun x => ?_
  rw [map_bind']
  exact bind_congr fun y => derivativesGivenBases_map L S _ _ _ _ _

end

section
variable {K : Type} [Field K] [LinearOrder K] [IsStrictOrderedRing K] {W W' : Type} [AddCommGroup W] [Module K W]
  [AddCommGroup W'] [Module K W']

/-- What an affine map does to the derivative of order `(k, l)`: the point is moved, the derivatives are mapped by the linear part. -/
def movedEntry (A : W →ₗ[K] W') (t : W') (k l : ℕ) (x : W) : W' := A x + (if k = 0 ∧ l = 0 then t else 0)

theorem movedEntry_zero (A : W →ₗ[K] W') (t : W') (x : W) : movedEntry A t 0 0 x = A x + t := by simp [movedEntry]

theorem movedEntry_left (A : W →ₗ[K] W') (t : W') (k l : ℕ) : movedEntry A t (k + 1) l = A := by
  funext x; simp [movedEntry]

theorem movedEntry_right (A : W →ₗ[K] W') (t : W') (k l : ℕ) : movedEntry A t k (l + 1) = A := by
  funext x; simp [movedEntry]

/-- The table of the derivatives after an affine map. -/
def movedTable (A : W →ₗ[K] W') (t : W') (T : List (List W)) : List (List W') :=
  T.mapIdx fun k row => row.mapIdx (movedEntry A t k)

theorem getR_mapIdx {α β : Type} (f : ℕ → α → β) (l : List α) (i : ℕ) : getR (l.mapIdx f) i = Except.map (f i) (getR l i) := by
  unfold getR
  rw [List.getElem?_mapIdx]
  cases l[i]? <;> rfl

theorem get2R_moved (A : W →ₗ[K] W') (t : W') (T : List (List W)) (k l : ℕ) :
    get2R (movedTable A t T) k l = Except.map (movedEntry A t k l) (get2R T k l) := by
  rw [get2R, get2R, movedTable, getR_mapIdx, bind_map', map_bind']
  exact bind_congr fun row => getR_mapIdx _ _ _

theorem range_succ_map (m : ℕ) : (List.range (m + 1)).map (· + 1) = (List.range m).map (· + 1) ++ [m + 1] := by
  rw [List.range_succ, List.map_append]; rfl

theorem subR_before {m k : ℕ} (hk : k < m) : subR (m + 1) (k + 1) = .ok ((m - k - 1) + 1) := by
  rw [subR, if_pos (by omega)]; congr 1; omega

theorem subR_self' (m : ℕ) : subR m m = .ok 0 := by rw [subR, if_pos le_rfl, Nat.sub_self]

theorem rationalEntry_moved (A : W →ₗ[K] W') (t : W') (ders : List (List (W × K))) {skl : List (List W)} {skl' : List (List W')}
    {row : List W} {row' : List W'} {k l : ℕ} (hs : ∀ o c, get2R skl' o c = Except.map (movedEntry A t o c) (get2R skl o c))
    (hr : ∀ o, getR row' o = Except.map (movedEntry A t k o) (getR row o)) :
    Surface.rationalEntry ((ders.map (·.map (affHom A t))).map (·.map Prod.fst)) ((ders.map (·.map (affHom A t))).map (·.map Prod.snd)) skl' row' k l =
      Except.map (movedEntry A t k l) (Surface.rationalEntry (ders.map (·.map Prod.fst)) (ders.map (·.map Prod.snd)) skl row k l) := by
  have hw : (ders.map (·.map (affHom A t))).map (·.map Prod.snd) = ders.map (·.map Prod.snd) := by
    simp [affHom, Function.comp_def]
  have ha : (ders.map (·.map (affHom A t))).map (·.map Prod.fst) = ders.map (·.map (fun p => A p.1 + p.2 • t)) := by
    simp [affHom, Function.comp_def]
  rw [hw, ha, Surface.rationalEntry, Surface.rationalEntry, get2R_map (fun p : W × K => A p.1 + p.2 • t), get2R_map (Prod.fst : W × K → W)]
  cases hp : get2R ders k l with
  | error e => rfl
  | ok p =>
    have hwk : get2R (ders.map (·.map Prod.snd)) k l = .ok p.2 := by rw [get2R_map, hp]; rfl
    simp only [map_ok', ok_bind]
    generalize hW : ders.map (·.map Prod.snd) = w at hwk ⊢
    -- the first loop
    have F1 : ((List.range l).map (· + 1)).foldlM (fun v j => do
          let wj ← get2R w 0 j
          let o ← subR l j
          let x ← getR row' o
          pure (v - (binomGet l j * wj) • x)) (A p.1 + p.2 • t) =
        Except.map (fun v => A v + (if k = 0 ∧ 0 < l then 0 else p.2) • t) (((List.range l).map (· + 1)).foldlM (fun v j => do
          let wj ← get2R w 0 j
          let o ← subR l j
          let x ← getR row o
          pure (v - (binomGet l j * wj) • x)) p.1) := by
      cases l with
      | zero => simp [pure_eq_ok, map_ok']
      | succ m =>
        rw [range_succ_map, List.foldlM_append, List.foldlM_append]
        rw [foldlM_map_mem (fun v => A v + p.2 • t) (step := fun v j => do
          let wj ← get2R w 0 j
          let o ← subR (m + 1) j
          let x ← getR row o
          pure (v - (binomGet (m + 1) j * wj) • x)) _ (fun i hi v => by
            obtain ⟨j, hj, rfl⟩ := List.mem_map.1 hi
            have hj : j < m := List.mem_range.1 hj
            rw [map_bind']
            refine bind_congr fun wj => ?_
            rw [subR_before hj, ok_bind, ok_bind, hr, movedEntry_right, bind_map', map_bind']
            refine bind_congr fun x => ?_
            simp only [pure_eq_ok, map_ok', map_sub, map_smul]
            congr 1; abel), bind_map', map_bind']
        refine bind_congr fun v => ?_
        simp only [List.foldlM_cons, List.foldlM_nil, bind_pure]
        rw [subR_self']
        simp only [ok_bind]
        rw [hr, map_bind']
        cases k with
        | zero =>
          rw [hwk]
          simp only [ok_bind]
          rw [bind_map', map_bind']
          refine bind_congr fun x => ?_
          rw [movedEntry_zero]
          simp only [pure_eq_ok, map_ok', map_sub, map_smul, binomGet_eq, Nat.choose_self, Nat.cast_one, one_mul, true_and, Nat.succ_pos,
            if_true, zero_smul, smul_add]
          congr 1; abel
        | succ k =>
          refine bind_congr fun wj => ?_
          rw [movedEntry_left, bind_map', map_bind']
          refine bind_congr fun x => ?_
          simp only [pure_eq_ok, map_ok', map_sub, map_smul, Nat.succ_ne_zero, false_and, if_false]
          congr 1; abel
    rw [F1, bind_map', map_bind']
    refine bind_congr fun v => ?_
    -- the second loop
    have F2 : ((List.range k).map (· + 1)).foldlM (fun v i => do
          let wi ← get2R w i 0
          let o ← subR k i
          let x ← get2R skl' o l
          let v := v - (binomGet k i * wi) • x
          let v2 ← ((List.range l).map (· + 1)).foldlM (fun v2 j => do
            let o ← subR k i
            let o' ← subR l j
            let x ← get2R skl' o o'
            let wij ← get2R w i j
            pure (v2 + wij • ((binomGet l j : K) • x))) 0
          pure (v - (binomGet k i : K) • v2)) (A v + (if k = 0 ∧ 0 < l then 0 else p.2) • t) =
        Except.map (fun v => A v + (if k = 0 ∧ l = 0 then p.2 else 0) • t) (((List.range k).map (· + 1)).foldlM (fun v i => do
          let wi ← get2R w i 0
          let o ← subR k i
          let x ← get2R skl o l
          let v := v - (binomGet k i * wi) • x
          let v2 ← ((List.range l).map (· + 1)).foldlM (fun v2 j => do
            let o ← subR k i
            let o' ← subR l j
            let x ← get2R skl o o'
            let wij ← get2R w i j
            pure (v2 + wij • ((binomGet l j : K) • x))) 0
          pure (v - (binomGet k i : K) • v2)) v) := by
      cases k with
      | zero =>
        rcases Nat.eq_zero_or_pos l with rfl | hl
        · simp [pure_eq_ok, map_ok']
        · simp [pure_eq_ok, map_ok', hl, hl.ne']
      | succ m =>
        simp only [Nat.succ_ne_zero, false_and, if_false]
        rw [range_succ_map m, List.foldlM_append, List.foldlM_append]
        rw [foldlM_map_mem (fun v => A v + p.2 • t) (step := fun v i => do
          let wi ← get2R w i 0
          let o ← subR (m + 1) i
          let x ← get2R skl o l
          let v := v - (binomGet (m + 1) i * wi) • x
          let v2 ← ((List.range l).map (· + 1)).foldlM (fun v2 j => do
            let o ← subR (m + 1) i
            let o' ← subR l j
            let x ← get2R skl o o'
            let wij ← get2R w i j
            pure (v2 + wij • ((binomGet l j : K) • x))) 0
          pure (v - (binomGet (m + 1) i : K) • v2)) _ (fun i hi v => by
            obtain ⟨i, hi', rfl⟩ := List.mem_map.1 hi
            have hi : i < m := List.mem_range.1 hi'
            rw [map_bind']
            refine bind_congr fun wi => ?_
            rw [subR_before hi]
            simp only [ok_bind]
            rw [hs, movedEntry_left, bind_map', map_bind']
            refine bind_congr fun x => ?_
            rw [show (0 : W') = A 0 from (map_zero A).symm, foldlM_map' A (step := fun v2 j => do
              let o' ← subR l j
              let x ← get2R skl (m - i - 1 + 1) o'
              let wij ← get2R w (i + 1) j
              pure (v2 + wij • ((binomGet l j : K) • x))) (fun v2 j => by
                rw [map_bind']
                refine bind_congr fun o' => ?_
                rw [hs, movedEntry_left, bind_map', map_bind']
                refine bind_congr fun x => ?_
                rw [map_bind']
                exact bind_congr fun wij => by simp only [pure_eq_ok, map_ok', map_add, map_smul]), bind_map', map_bind']
            refine bind_congr fun v2 => ?_
            simp only [pure_eq_ok, map_ok', map_sub, map_smul]
            congr 1; abel), bind_map', map_bind']
        refine bind_congr fun v => ?_
        simp only [List.foldlM_cons, List.foldlM_nil, bind_pure, subR_self', ok_bind]
        rw [map_bind']
        cases l with
        | zero =>
          rw [hwk]
          simp only [ok_bind, List.range_zero, List.map_nil, List.foldlM_nil, pure_eq_ok, smul_zero, sub_zero]
          rw [hs, bind_map', map_bind']
          refine bind_congr fun x => ?_
          rw [movedEntry_zero]
          simp only [map_ok', map_sub, map_smul, binomGet_eq, Nat.choose_self, Nat.cast_one, one_mul, zero_smul, smul_add]
          congr 1; abel
        | succ n =>
          refine bind_congr fun wi => ?_
          rw [hs, movedEntry_right, bind_map', map_bind']
          refine bind_congr fun x => ?_
          rw [range_succ_map n, List.foldlM_append, List.foldlM_append]
          rw [show (0 : W') = A 0 from (map_zero A).symm, foldlM_map_mem A (step := fun v2 j => do
              let o' ← subR (n + 1) j
              let x ← get2R skl 0 o'
              let wij ← get2R w (m + 1) j
              pure (v2 + wij • ((binomGet (n + 1) j : K) • x))) _ (fun j hj v2 => by
                obtain ⟨j, hj', rfl⟩ := List.mem_map.1 hj
                have hj : j < n := List.mem_range.1 hj'
                rw [subR_before hj]
                simp only [ok_bind]
                rw [hs, movedEntry_right, bind_map', map_bind']
                refine bind_congr fun x => ?_
                rw [map_bind']
                exact bind_congr fun wij => by simp only [pure_eq_ok, map_ok', map_add, map_smul])]
          simp only [bind_assoc]
          rw [bind_map', map_bind']
          refine bind_congr fun v2 => ?_
          simp only [List.foldlM_cons, List.foldlM_nil, bind_pure, subR_self', ok_bind, hwk, bind_assoc]
          rw [hs, bind_map', map_bind']
          refine bind_congr fun y => ?_
          rw [movedEntry_zero]
          simp only [pure_eq_ok, ok_bind, map_ok', map_sub, map_add, map_smul, binomGet_eq, Nat.choose_self, Nat.cast_one, one_mul, one_smul,
            zero_smul, smul_add]
          congr 1; abel
    rw [F2, bind_map', map_bind']
    refine bind_congr fun v => ?_
    by_cases h0 : k = 0 ∧ l = 0
    · obtain ⟨rfl, rfl⟩ := h0
      rw [hwk]
      simp only [ok_bind, and_self, if_true]
      by_cases hz : p.2 = 0
      · simp [divV, hz, Except.map]
      · simp [divV, hz, Except.map, movedEntry, smul_smul, inv_mul_cancel₀ hz]
    · rw [map_bind']
      refine bind_congr fun w00 => ?_
      rw [if_neg h0, zero_smul, add_zero, divV_map, show movedEntry A t k l = A from by funext x; simp [movedEntry, h0]]

theorem rationalTable_moved (A : W →ₗ[K] W') (t : W') (ders : List (List (W × K))) (n : ℕ) :
    Surface.rationalTable (ders.map (·.map (affHom A t))) n = Except.map (movedTable A t) (Surface.rationalTable ders n) := by
  rw [Surface.rationalTable, Surface.rationalTable]
  generalize n + 1 = N
  suffices H : _ ∧ ∀ T, (List.range N).foldlM (fun skl k => do
      let m ← subR n k
      let row ← (List.range (m + 1)).foldlM (fun row l => do
        let v ← Surface.rationalEntry (ders.map fun x : List (W × K) => x.map Prod.fst) (ders.map fun x : List (W × K) => x.map Prod.snd) skl row k l
        pure (row ++ [v])) []
      pure (skl ++ [row])) ([] : List (List W)) = .ok T → T.length = N from H.1
  induction N with
  | zero => exact ⟨rfl, fun T h => by rw [← Except.ok.inj h]; rfl⟩
  | succ N ih =>
    obtain ⟨ih1, ih2⟩ := ih
    rw [List.range_succ, List.foldlM_append, List.foldlM_append, ih1, bind_map', map_bind']
    constructor
    · cases hG : (List.range N).foldlM (fun skl k => do
          let m ← subR n k
          let row ← (List.range (m + 1)).foldlM (fun row l => do
            let v ← Surface.rationalEntry (ders.map fun x : List (W × K) => x.map Prod.fst) (ders.map fun x : List (W × K) => x.map Prod.snd) skl row k l
            pure (row ++ [v])) []
          pure (skl ++ [row])) ([] : List (List W)) with
      | error e => rfl
      | ok T =>
        have hl := ih2 T hG
        rw [ok_bind, ok_bind]
        simp only [List.foldlM_cons, List.foldlM_nil, bind_pure]
        rw [map_bind']
        refine bind_congr fun m => ?_
        have hrow : ∀ M, (List.range M).foldlM (fun row l => do
              let v ← Surface.rationalEntry ((ders.map (·.map (affHom A t))).map (·.map Prod.fst))
                ((ders.map (·.map (affHom A t))).map (·.map Prod.snd)) (movedTable A t T) row N l
              pure (row ++ [v])) [] = Except.map (List.mapIdx (movedEntry A t N)) ((List.range M).foldlM (fun row l => do
              let v ← Surface.rationalEntry (ders.map fun x : List (W × K) => x.map Prod.fst) (ders.map fun x : List (W × K) => x.map Prod.snd) T row N l
              pure (row ++ [v])) []) ∧ ∀ r, (List.range M).foldlM (fun row l => do
              let v ← Surface.rationalEntry (ders.map fun x : List (W × K) => x.map Prod.fst) (ders.map fun x : List (W × K) => x.map Prod.snd) T row N l
              pure (row ++ [v])) [] = .ok r → r.length = M := by
          intro M
          induction M with
          | zero => exact ⟨rfl, fun T h => by rw [← Except.ok.inj h]; rfl⟩
          | succ M ihM =>
            obtain ⟨i1, i2⟩ := ihM
            rw [List.range_succ, List.foldlM_append, List.foldlM_append, i1, bind_map', map_bind']
            constructor
            · cases hR : (List.range M).foldlM (fun row l => do
                  let v ← Surface.rationalEntry (ders.map fun x : List (W × K) => x.map Prod.fst) (ders.map fun x : List (W × K) => x.map Prod.snd) T row N l
                  pure (row ++ [v])) [] with
              | error e => rfl
              | ok r =>
                have hrl := i2 r hR
                rw [ok_bind, ok_bind]
                simp only [List.foldlM_cons, List.foldlM_nil, bind_pure]
                rw [rationalEntry_moved A t ders (skl := T) (row := r) (fun o c => get2R_moved A t T o c) (fun o => getR_mapIdx _ _ _),
                  bind_map', map_bind']
                refine bind_congr fun v => ?_
                simp only [pure_eq_ok, map_ok', List.mapIdx_append, List.mapIdx_cons, List.mapIdx_nil, Nat.zero_add, hrl]
            · intro r h
              obtain ⟨r0, h0, h⟩ := bind_eq_ok.1 h
              simp only [List.foldlM_cons, List.foldlM_nil, bind_pure] at h
              obtain ⟨_, _, h⟩ := bind_eq_ok.1 h
              rw [← Except.ok.inj h, List.length_append, i2 r0 h0]; rfl
        rw [(hrow (m + 1)).1, bind_map', map_bind']
        refine bind_congr fun r => ?_
        simp only [pure_eq_ok, map_ok', movedTable, List.mapIdx_append, List.mapIdx_cons, List.mapIdx_nil, Nat.zero_add, hl]
    · intro l h
      obtain ⟨l0, h0, h⟩ := bind_eq_ok.1 h
      simp only [List.foldlM_cons, List.foldlM_nil, bind_pure] at h
      obtain ⟨_, _, h⟩ := bind_eq_ok.1 h
      obtain ⟨_, _, h⟩ := bind_eq_ok.1 h
      rw [← Except.ok.inj h, List.length_append, ih2 l0 h0]; rfl

/-- **Derivatives**: the rational derivatives of a moved surface, of every order and at every pair of parameters. -/
theorem C106_derivatives (A : W →ₗ[K] W') (t : W') (eps : K) (S : Surface K (W × K)) (u v : K) (n : ℕ) :
    (mapNet (affHom A t) S).rationalDerivatives eps u v n = Except.map (movedTable A t) (S.rationalDerivatives eps u v n) := by
  rw [Surface.rationalDerivatives, Surface.rationalDerivatives, surf_derivatives_map, bind_map', map_bind']
  exact bind_congr fun ders => rationalTable_moved A t ders n

theorem normalAt_moved {A : W →ₗ[K] W'} {t : W'} {cross : W → W → W} {cross' : W' → W' → W'} (h : ∀ x y, cross' (A x) (A y) = A (cross x y))
    (eps : K) (S : Surface K (W × K)) (u v : K) :
    (mapNet (affHom A t) S).normalAt cross' eps u v = Except.map A (S.normalAt cross eps u v) := by
  rw [Surface.normalAt, Surface.normalAt, C106_derivatives, bind_map', map_bind']
  refine bind_congr fun d => ?_
  rw [get2R_moved, movedEntry_left, bind_map', map_bind']
  refine bind_congr fun v0 => ?_
  rw [get2R_moved, movedEntry_right, bind_map', map_bind']
  exact bind_congr fun v1 => by simp only [pure_eq_ok, map_ok', h]

/-- **Mirrored surfaces**: the normal points to the other side of the mirrored tangent plane. -/
theorem C106_mirrored {A : W →ₗ[K] W'} {t : W'} {cross : W → W → W} {cross' : W' → W' → W'} (h : ∀ x y, cross' (A x) (A y) = -A (cross x y))
    (eps : K) (S : Surface K (W × K)) (u v : K) :
    (mapNet (affHom A t) S).normalAt cross' eps u v = Except.map (fun x => -A x) (S.normalAt cross eps u v) := by
  rw [Surface.normalAt, Surface.normalAt, C106_derivatives, bind_map', map_bind']
  refine bind_congr fun d => ?_
  rw [get2R_moved, movedEntry_left, bind_map', map_bind']
  refine bind_congr fun v0 => ?_
  rw [get2R_moved, movedEntry_right, bind_map', map_bind']
  exact bind_congr fun v1 => by simp only [pure_eq_ok, map_ok', h]

/-! ### Tessellation -/

open Curvo.Tess

/-- The linear part `A` respects the operations of the metric: rotations. -/
structure TurnsBy (A : W →ₗ[K] W') (M : Metric K W) (M' : Metric K W') : Prop where
  cross : ∀ x y, M'.cross (A x) (A y) = A (M.cross x y)
  normalize : ∀ x, M'.normalize (A x) = A (M.normalize x)
  normSq : ∀ x, M'.normSq (A x) = M.normSq x

/-- A moved surface point. -/
def movedS (A : W →ₗ[K] W') (t : W') (p : SPoint K W) : SPoint K W' where
  uv := p.uv
  point := A p.point + t
  normal := A p.normal
  degenerate := p.degenerate
  uConstraint := p.uConstraint
  vConstraint := p.vConstraint
  uMin := p.uMin
  uMax := p.uMax
  vMin := p.vMin
  vMax := p.vMax

/-- A moved node. -/
def movedN (A : W →ₗ[K] W') (t : W') (n : Node K W) : Node K W' where
  id := n.id
  children := n.children
  corners := fun i => movedS A t (n.corners i)
  neighbors := n.neighbors
  direction := n.direction
  uvCenter := n.uvCenter

/-- A moved tessellation: points moved, normals turned, the same faces and parameters. -/
def movedT (A : W →ₗ[K] W') (t : W') (T : Surface.Tessellation K W) : Surface.Tessellation K W' where
  points := T.points.map fun x => A x + t
  normals := T.normals.map A
  faces := T.faces
  uvs := T.uvs

variable {A : W →ₗ[K] W'} {t : W'} {M : Metric K W} {M' : Metric K W'}

theorem evaluateSurface_moved (h : TurnsBy A M M') (eps : K) (S : Surface K (W × K)) (uv : K × K) :
    evaluateSurface M' eps (mapNet (affHom A t) S) uv = Except.map (movedS A t) (evaluateSurface M eps S uv) := by
  rw [evaluateSurface, evaluateSurface, C106_derivatives, bind_map', map_bind']
  refine bind_congr fun d => ?_
  rw [get2R_moved, bind_map', map_bind']
  refine bind_congr fun pt => ?_
  rw [get2R_moved, movedEntry_left, bind_map', map_bind']
  refine bind_congr fun v0 => ?_
  rw [get2R_moved, movedEntry_right, bind_map', map_bind']
  refine bind_congr fun v1 => ?_
  simp only [pure_eq_ok, map_ok', h.cross, h.normSq, movedEntry_zero, movedS, h.normalize]
  congr 2
  split <;> rfl

theorem evaluateBoundary_moved (h : TurnsBy A M M') (eps : K) (S : Surface K (W × K)) (uv : K × K) :
    evaluateBoundary M' eps (mapNet (affHom A t) S) uv = Except.map (movedS A t) (evaluateBoundary M eps S uv) := by
  rw [evaluateBoundary, evaluateBoundary, C106_derivatives, bind_map', map_bind']
  refine bind_congr fun d => ?_
  rw [get2R_moved, bind_map', map_bind']
  refine bind_congr fun pt => ?_
  rw [get2R_moved, movedEntry_left, bind_map', map_bind']
  refine bind_congr fun v0 => ?_
  rw [get2R_moved, movedEntry_right, bind_map', map_bind']
  refine bind_congr fun v1 => ?_
  simp only [pure_eq_ok, map_ok', h.cross, h.normSq, movedEntry_zero, movedS]

theorem gridPoint_moved (h : TurnsBy A M M') (eps : K) (S : Surface K (W × K)) (c : Constraints K) (divsU divsV : ℕ) (u v : K) (iu iv : ℕ) :
    gridPoint M' eps (mapNet (affHom A t) S) c divsU divsV u v iu iv = Except.map (movedS A t) (gridPoint M eps S c divsU divsV u v iu iv) := by
  rw [gridPoint, gridPoint, map_bind']
  refine bind_congr fun lv => ?_
  rw [map_bind']
  refine bind_congr fun lu => ?_
  rw [C106_derivatives, bind_map', map_bind']
  refine bind_congr fun d => ?_
  rw [get2R_moved, movedEntry_left, bind_map', map_bind']
  refine bind_congr fun v0 => ?_
  rw [get2R_moved, movedEntry_right, bind_map', map_bind']
  refine bind_congr fun v1 => ?_
  rw [get2R_moved, bind_map', map_bind']
  refine bind_congr fun pt => ?_
  simp only [pure_eq_ok, map_ok', h.cross, h.normalize, movedEntry_zero, movedS]

theorem boundaryEval_moved (h : TurnsBy A M M') (eps : K) (S : Surface K (W × K)) (c : Constraints K) :
    BoundaryEval.new M' eps (mapNet (affHom A t) S) c = Except.map (fun b : BoundaryEval K W =>
      { uAtVMin := b.uAtVMin.map (List.map (movedS A t)), uAtVMax := b.uAtVMax.map (List.map (movedS A t)),
        vAtUMin := b.vAtUMin.map (List.map (movedS A t)), vAtUMax := b.vAtUMax.map (List.map (movedS A t)) }) (BoundaryEval.new M eps S c) := by
  have ho : ∀ (g : K → K × K) (x : Option (List K)), optMapM (fun us : List K => us.mapM fun u => evaluateBoundary M' eps (mapNet (affHom A t) S) (g u)) x =
      Except.map (Option.map (List.map (movedS A t))) (optMapM (fun us : List K => us.mapM fun u => evaluateBoundary M eps S (g u)) x) := by
    intro g x
    cases x with
    | none => rfl
    | some us =>
      rw [optMapM, optMapM]
      have := mapM_map' (g := id) (movedS A t) (f := fun u : K => evaluateBoundary M eps S (g u))
        (f' := fun u : K => evaluateBoundary M' eps (mapNet (affHom A t) S) (g u)) (fun u => evaluateBoundary_moved h eps S (g u)) us
      rw [List.map_id] at this
      rw [this, bind_map', map_bind']
      rfl
  rw [BoundaryEval.new, BoundaryEval.new]
  rw [show (mapNet (affHom A t) S).uDomain = S.uDomain from rfl, show (mapNet (affHom A t) S).vDomain = S.vDomain from rfl, map_bind']
  refine bind_congr fun du => ?_
  obtain ⟨u0, u1⟩ := du
  dsimp only
  rw [map_bind']
  refine bind_congr fun dv => ?_
  obtain ⟨v0, v1⟩ := dv
  dsimp only
  rw [ho, bind_map', map_bind']
  refine bind_congr fun a => ?_
  rw [ho, bind_map', map_bind']
  refine bind_congr fun b => ?_
  rw [ho, bind_map', map_bind']
  refine bind_congr fun d => ?_
  rw [ho, bind_map', map_bind']
  rfl

theorem getEdgeCorners_moved (A : W →ₗ[K] W') (t : W') (nodes : List (Node K W)) (e : Fin 4) : ∀ (fuel id : ℕ),
    getEdgeCorners (nodes.map (movedN A t)) e fuel id = Except.map (List.map (movedS A t)) (getEdgeCorners nodes e fuel id)
  | 0, _ => rfl
  | fuel + 1, id => by
    rw [getEdgeCorners, getEdgeCorners, getR_map, bind_map', map_bind']
    refine bind_congr fun n => ?_
    rw [show (movedN A t n).children = n.children from rfl, show (movedN A t n).direction = n.direction from rfl]
    cases n.children with
    | none => rfl
    | some c =>
      dsimp only
      rw [mapM_nat (List.map (movedS A t)) fun i => getEdgeCorners_moved A t nodes e fuel i, bind_map', map_bind']
      refine bind_congr fun parts => ?_
      simp only [pure_eq_ok, map_ok', List.map_flatten]

theorem getAllCorners_moved (A : W →ₗ[K] W') (t : W') (eps : K) (nodes : List (Node K W)) (n : Node K W) (e : Fin 4) :
    getAllCorners eps (nodes.map (movedN A t)) (movedN A t n) e = Except.map (List.map (movedS A t)) (getAllCorners eps nodes n e) := by
  rw [getAllCorners, getAllCorners, show (movedN A t n).neighbors e = n.neighbors e from rfl]
  cases n.neighbors e with
  | none => rfl
  | some m =>
    dsimp only
    rw [List.length_map, getEdgeCorners_moved, bind_map', map_bind']
    refine bind_congr fun cs => ?_
    simp only [pure_eq_ok, map_ok', List.map_cons, List.map_reverse, List.filter_map]
    rfl

theorem fixNormal_moved (A : W →ₗ[K] W') (t : W') (cs : Fin 4 → SPoint K W) (i : Fin 4) :
    fixNormal (fun j => movedS A t (cs j)) i = fun j => movedS A t (fixNormal cs i j) := by
  unfold fixNormal
  rw [show (movedS A t (cs i)).degenerate = (cs i).degenerate from rfl]
  split
  · funext j
    dsimp only
    split
    · show _ = movedS A t _
      rw [movedS]
      simp only [movedS]
      congr 1
      by_cases hb : (cs (i + 1)).degenerate = true <;> simp [hb]
    · rfl
  · rfl

theorem fixNormals_moved (A : W →ₗ[K] W') (t : W') (n : Node K W) : (movedN A t n).fixNormals = movedN A t n.fixNormals := by
  simp only [Node.fixNormals, movedN, List.foldl_cons, List.foldl_nil, fixNormal_moved]

theorem shouldDivide_moved (h : TurnsBy A M M') (o : Options K) (n : Node K W) (depth : ℕ) :
    (movedN A t n).shouldDivide M' o depth = (movedN A t (n.shouldDivide M o depth).1, (n.shouldDivide M o depth).2) := by
  unfold Node.shouldDivide
  split
  · rfl
  · split
    · rfl
    · rw [show (movedN A t n).hasBadNormals = n.hasBadNormals from rfl]
      split
      · rw [fixNormals_moved]
      · simp only [movedN, movedS, ← map_sub, h.normSq]

theorem new_moved (A : W →ₗ[K] W') (t : W') (i : ℕ) (c0 c1 c2 c3 : SPoint K W) (nb : Fin 4 → Option ℕ) :
    Node.new i ![movedS A t c0, movedS A t c1, movedS A t c2, movedS A t c3] nb = movedN A t (Node.new i ![c0, c1, c2, c3] nb) := by
  simp only [Node.new, movedN]
  congr 1
  funext j
  fin_cases j <;> rfl

theorem splitNode_moved (A : W →ₗ[K] W') (t : W') {ev : K × K → Res (SPoint K W)} {ev' : K × K → Res (SPoint K W')}
    (he : ∀ uv, ev' uv = Except.map (movedS A t) (ev uv)) (n : Node K W) (i j : ℕ) :
    splitNode ev' (movedN A t n) i j = Except.map (Prod.map (movedN A t) (movedN A t)) (splitNode ev n i j) := by
  rw [splitNode, splitNode, show (movedN A t n).direction = n.direction from rfl]
  cases n.direction with
  | u =>
    dsimp only
    rw [he, bind_map', map_bind']
    refine bind_congr fun east => ?_
    rw [he, bind_map', map_bind']
    refine bind_congr fun west => ?_
    simp only [pure_eq_ok, map_ok', Prod.map, ← new_moved]
    rfl
  | v =>
    dsimp only
    rw [he, bind_map', map_bind']
    refine bind_congr fun east => ?_
    rw [he, bind_map', map_bind']
    refine bind_congr fun west => ?_
    simp only [pure_eq_ok, map_ok', Prod.map, ← new_moved]
    rfl

theorem iterate_moved (h : TurnsBy A M M') {ev : K × K → Res (SPoint K W)} {ev' : K × K → Res (SPoint K W')}
    (he : ∀ uv, ev' uv = Except.map (movedS A t) (ev uv)) (o : Options K) : ∀ (fuel : ℕ) (nodes : List (Node K W)) (id depth : ℕ) (dir : UV),
    iterate M' ev' o fuel (nodes.map (movedN A t)) id depth dir = Except.map (List.map (movedN A t)) (iterate M ev o fuel nodes id depth dir)
  | 0, _, _, _, _ => rfl
  | fuel + 1, nodes, id, depth, dir => by
    rw [iterate, iterate]
    dsimp only
    rw [List.length_map, getR_map, bind_map', map_bind']
    refine bind_congr fun node => ?_
    rw [shouldDivide_moved h]
    obtain ⟨nd, dv⟩ := node.shouldDivide M o depth
    cases dv with
    | none => exact setR_map _ _ _ _
    | some d =>
      dsimp only
      rw [show ({ movedN A t nd with direction := d.dir dir } : Node K W') = movedN A t { nd with direction := d.dir dir } from rfl,
        splitNode_moved A t he, bind_map', map_bind']
      refine bind_congr fun cc => ?_
      obtain ⟨c0, c1⟩ := cc
      dsimp only [Prod.map]
      rw [show setR (List.map (movedN A t) nodes) id { movedN A t nd with direction := d.dir dir, children := some (nodes.length, nodes.length + 1) } =
        Except.map (List.map (movedN A t)) (setR nodes id { nd with direction := d.dir dir, children := some (nodes.length, nodes.length + 1) }) from
          setR_map (movedN A t) nodes id { nd with direction := d.dir dir, children := some (nodes.length, nodes.length + 1) }, bind_map', map_bind']
      refine bind_congr fun nodes' => ?_
      rw [show List.map (movedN A t) nodes' ++ [movedN A t c0, movedN A t c1] = (nodes' ++ [c0, c1]).map (movedN A t) by simp,
        iterate_moved h he o fuel, bind_map', map_bind']
      exact bind_congr fun nodes'' => iterate_moved h he o fuel _ _ _ _

theorem divideAll_moved (h : TurnsBy A M M') {ev : K × K → Res (SPoint K W)} {ev' : K × K → Res (SPoint K W')}
    (he : ∀ uv, ev' uv = Except.map (movedS A t) (ev uv)) (o : Options K) (uDegree fuel divsU divsV : ℕ) (nodes : List (Node K W)) :
    divideAll M' ev' o uDegree fuel divsU divsV (nodes.map (movedN A t)) =
      Except.map (List.map (movedN A t)) (divideAll M ev o uDegree fuel divsU divsV nodes) := by
  rw [divideAll, divideAll]
  refine foldlM_map' (List.map (movedN A t)) (fun nodes iv => ?_) _ _
  refine foldlM_map' (List.map (movedN A t)) (fun nodes iu => ?_) _ _
  rw [divide, divide]
  exact iterate_moved h he o _ _ _ _ _

theorem minBy_moved {α β : Type} (f : α → β) {key : α → K} {key' : β → K} (hk : ∀ a, key' (f a) = key a) (l : List α) :
    minBy key' (l.map f) = (minBy key l).map f := by
  cases l with
  | nil => rfl
  | cons a l =>
    simp only [List.map_cons, minBy, Option.map_some]
    congr 1
    induction l generalizing a with
    | nil => rfl
    | cons b l ih =>
      simp only [List.map_cons, List.foldl_cons]
      rw [← ih, hk, hk]
      split <;> rfl

theorem closestPoint_moved (h : TurnsBy A M M') (p : SPoint K W) (ps : List (SPoint K W)) :
    closestPoint M' (movedS A t p) (ps.map (movedS A t)) = Except.map (movedS A t) (closestPoint M p ps) := by
  rw [closestPoint, closestPoint, minBy_moved (movedS A t) (key := fun q => M.normSq (q.point - p.point)) (fun q => by
    show M'.normSq (A q.point + t - (A p.point + t)) = _
    rw [show A q.point + t - (A p.point + t) = A (q.point - p.point) by rw [map_sub]; abel, h.normSq])]
  cases minBy (fun q : SPoint K W => M.normSq (q.point - p.point)) ps <;> rfl

/-- The boundary evaluation of the moved surface. -/
def movedB (A : W →ₗ[K] W') (t : W') (b : BoundaryEval K W) : BoundaryEval K W' where
  uAtVMin := b.uAtVMin.map (List.map (movedS A t))
  uAtVMax := b.uAtVMax.map (List.map (movedS A t))
  vAtUMin := b.vAtUMin.map (List.map (movedS A t))
  vAtUMax := b.vAtUMax.map (List.map (movedS A t))

theorem snap_moved (h : TurnsBy A M M') (b : BoundaryEval K W) (p : SPoint K W) :
    snap M' (movedB A t b) (movedS A t p) = Except.map (movedS A t) (snap M b p) := by
  have ho : ∀ (c : Bool) (x : Option (List (SPoint K W))), (if c then x.map (List.map (movedS A t)) else none) =
      (if c then x else none).map (List.map (movedS A t)) := fun c x => by cases c <;> rfl
  rw [snap, snap]
  simp only [movedB, show (movedS A t p).uMin = p.uMin from rfl, show (movedS A t p).uMax = p.uMax from rfl,
    show (movedS A t p).vMin = p.vMin from rfl, show (movedS A t p).vMax = p.vMax from rfl, ho]
  cases (if p.uMin then b.uAtVMin else none) with
  | some ps => exact closestPoint_moved h p ps
  | none =>
    dsimp only [Option.map_none]
    cases (if p.uMax then b.uAtVMax else none) with
    | some ps => exact closestPoint_moved h p ps
    | none =>
      dsimp only [Option.map_none]
      cases (if p.vMin then b.vAtUMin else none) with
      | some ps => exact closestPoint_moved h p ps
      | none =>
        dsimp only [Option.map_none]
        cases (if p.vMax then b.vAtUMax else none) with
        | some ps => exact closestPoint_moved h p ps
        | none => rfl

theorem snapAll_moved (h : TurnsBy A M M') (b : Option (BoundaryEval K W)) (ps : List (SPoint K W)) :
    snapAll M' (b.map (movedB A t)) (ps.map (movedS A t)) = Except.map (List.map (movedS A t)) (snapAll M b ps) := by
  cases b with
  | none => rfl
  | some b => exact mapM_map' (movedS A t) (f := snap M b) (f' := snap M' (movedB A t b)) (fun p => snap_moved h b p) ps

theorem splitId_moved {α β : Type} (f : α → β) (l : List (List α)) : splitId (l.map (List.map f)) = splitId l := by
  unfold splitId
  rw [List.findIdx?_map]
  simp only [Function.comp_def, List.length_map]

theorem triangulate_moved (h : TurnsBy A M M') (eps : K) {ev : K × K → Res (SPoint K W)} {ev' : K × K → Res (SPoint K W')}
    (he : ∀ uv, ev' uv = Except.map (movedS A t) (ev uv)) (nodes : List (Node K W)) (b : Option (BoundaryEval K W))
    (T : Surface.Tessellation K W) (n : Node K W) :
    triangulate M' eps ev' (nodes.map (movedN A t)) (b.map (movedB A t)) (movedT A t T) (movedN A t n) =
      Except.map (movedT A t) (triangulate M eps ev nodes b T n) := by
  rw [triangulate, triangulate, show (movedN A t n).isLeaf = n.isLeaf from rfl, map_ite']
  split
  · rw [mapM_nat (List.map (movedS A t)) (fun e : Fin 4 => getAllCorners_moved A t eps nodes n e), bind_map', map_bind']
    refine bind_congr fun cs => ?_
    dsimp only
    rw [← List.map_flatten, snapAll_moved h, bind_map', map_bind']
    refine bind_congr fun ps => ?_
    rw [List.length_map, splitId_moved, map_ite']
    split
    · rw [map_ite']
      split
      · rfl
      · simp only [pure_eq_ok, map_ok', movedT, List.map_append, List.map_map, List.length_map]
        rfl
    · rw [show (movedN A t n).uvCenter = n.uvCenter from rfl, he, bind_map', map_bind']
      refine bind_congr fun c => ?_
      rw [map_bind']
      refine bind_congr fun _ => ?_
      simp only [pure_eq_ok, map_ok', movedT, List.map_append, List.map_map, List.length_map]
      rfl
  · rfl

theorem triangulateAll_moved (h : TurnsBy A M M') (eps : K) {ev : K × K → Res (SPoint K W)} {ev' : K × K → Res (SPoint K W')}
    (he : ∀ uv, ev' uv = Except.map (movedS A t) (ev uv)) (nodes : List (Node K W)) (b : Option (BoundaryEval K W)) :
    triangulateAll M' eps ev' (nodes.map (movedN A t)) (b.map (movedB A t)) = Except.map (movedT A t) (triangulateAll M eps ev nodes b) := by
  rw [triangulateAll, triangulateAll]
  exact foldlM_map_list (movedT A t) (movedN A t) (fun T n => triangulate_moved h eps he nodes b T n) nodes
    { points := [], normals := [], faces := [], uvs := [] }

theorem gridNode_moved (A : W →ₗ[K] W') (t : W') (pts : List (List (SPoint K W))) (divsU divsV iv iu : ℕ) :
    gridNode (pts.map (·.map (movedS A t))) divsU divsV iv iu = Except.map (movedN A t) (gridNode pts divsU divsV iv iu) := by
  rw [gridNode, gridNode, map_bind']
  refine bind_congr fun r => ?_
  rw [map_bind']
  refine bind_congr fun r1 => ?_
  rw [get2R_map, bind_map', map_bind']
  refine bind_congr fun c0 => ?_
  rw [get2R_map, bind_map', map_bind']
  refine bind_congr fun c1 => ?_
  rw [get2R_map, bind_map', map_bind']
  refine bind_congr fun c2 => ?_
  rw [get2R_map, bind_map', map_bind']
  refine bind_congr fun c3 => ?_
  dsimp only
  rw [map_bind']
  refine bind_congr fun s => ?_
  rw [map_bind']
  refine bind_congr fun e => ?_
  rw [map_bind']
  refine bind_congr fun n => ?_
  rw [map_bind']
  refine bind_congr fun w => ?_
  rw [new_moved]; rfl

theorem adaptiveGrid_moved (h : TurnsBy A M M') (eps : K) (S : Surface K (W × K)) (c : Option (Constraints K)) (o : Options K) :
    adaptiveGrid M' eps (mapNet (affHom A t) S) c o =
      Except.map (fun r => (r.1.map (movedN A t), r.2)) (adaptiveGrid M eps S c o) := by
  rw [adaptiveGrid, adaptiveGrid]
  simp only [show (mapNet (affHom A t) S).uDegree = S.uDegree from rfl, show (mapNet (affHom A t) S).vDegree = S.vDegree from rfl,
    show (mapNet (affHom A t) S).uKnots = S.uKnots from rfl, show (mapNet (affHom A t) S).vKnots = S.vKnots from rfl,
    show (mapNet (affHom A t) S).cps = S.cps.map (·.map (affHom A t)) from rfl, List.length_map]
  rw [map_bind']
  refine bind_congr fun us => ?_
  rw [getR_map (List.map (affHom A t)) S.cps 0, bind_map', map_bind']
  refine bind_congr fun row0 => ?_
  rw [List.length_map, map_bind']
  refine bind_congr fun vs => ?_
  rw [map_bind']
  refine bind_congr fun divsU => ?_
  rw [map_bind']
  refine bind_congr fun divsV => ?_
  rw [mapM_nat (List.map (movedS A t)) fun v : K × ℕ => mapM_nat (movedS A t) (fun u : K × ℕ =>
    gridPoint_moved h eps S (c.getD {}) divsU divsV u.1 v.1 u.2 v.2) _, bind_map', map_bind']
  refine bind_congr fun pts => ?_
  rw [mapM_nat (List.map (movedN A t)) fun iv : ℕ => mapM_nat (movedN A t) (fun iu : ℕ => gridNode_moved A t pts divsU divsV iv iu) _,
    bind_map', map_bind']
  refine bind_congr fun nodes => ?_
  simp only [pure_eq_ok, map_ok', List.map_flatten]

/-- **Tessellation**: the mesh of the rotated and translated surface is the rotated and translated mesh: the same faces and parameters,
    the moved points and the rotated normals; with every option and constraint, failures included. -/
theorem C106_tessellate (h : TurnsBy A M M') (eps : K) (fuel : ℕ) (S : Surface K (W × K)) (c : Option (Constraints K)) (o : Option (Options K))
    (dflt : Options K) :
    tessellateSurface M' eps fuel (mapNet (affHom A t) S) c o dflt = Except.map (movedT A t) (tessellateSurface M eps fuel S c o dflt) := by
  rw [tessellateSurface, tessellateSurface, adaptiveGrid_moved h, bind_map', map_bind']
  refine bind_congr fun r => ?_
  obtain ⟨nodes, divsU, divsV⟩ := r
  dsimp only
  have hb : optMapM (BoundaryEval.new M' eps (mapNet (affHom A t) S)) c =
      Except.map (Option.map (movedB A t)) (optMapM (BoundaryEval.new M eps S) c) := by
    cases c with
    | none => rfl
    | some c =>
      rw [optMapM, optMapM, boundaryEval_moved h, bind_map', map_bind']
      rfl
  have he := fun uv => evaluateSurface_moved (t := t) h eps S uv
  have hk : ∀ nodes : List (Node K W), (do
      let b ← optMapM (BoundaryEval.new M' eps (mapNet (affHom A t) S)) c
      triangulateAll M' eps (evaluateSurface M' eps (mapNet (affHom A t) S)) (nodes.map (movedN A t)) b) = Except.map (movedT A t) (do
      let b ← optMapM (BoundaryEval.new M eps S) c
      triangulateAll M eps (evaluateSurface M eps S) nodes b) := by
    intro nodes
    rw [hb, bind_map', map_bind']
    exact bind_congr fun b => triangulateAll_moved h eps he nodes b
  split
  · rw [show (mapNet (affHom A t) S).uDegree = S.uDegree from rfl, divideAll_moved h he, bind_map', map_bind']
    exact bind_congr fun nodes => hk nodes
  · exact hk nodes

/-! ### Closest points -/

open Curvo.Closest

variable {nrm : W → K} {nrm' : W' → K} {dot : W → W → K} {dot' : W' → W' → K}

theorem surf_pointAt_affine (A : W →ₗ[K] W') (t : W') (eps : K) (S : Surface K (W × K)) (u v : K) :
    (mapNet (affHom A t) S).pointAt eps u v = Except.map (fun x => A x + t) (S.pointAt eps u v) := by
  rw [Surface.pointAt, Surface.pointAt, surf_point_map, bind_map', map_bind']
  exact bind_congr fun p => dehom_moved A t p

theorem moved_sub (A : W →ₗ[K] W') (t : W') (p q : W) : A p + t - (A q + t) = A (p - q) := by rw [map_sub]; abel

theorem distanceCost_moved (hn : ∀ x, nrm' (A x) = nrm x) (eps : K) (S : Surface K (W × K)) (pt : W) (uv : K × K) :
    distanceCost nrm' eps (mapNet (affHom A t) S) (A pt + t) uv = distanceCost nrm eps S pt uv := by
  rw [distanceCost, distanceCost, surf_pointAt_affine, bind_map']
  exact bind_congr fun p => by rw [moved_sub, hn]

theorem propose_moved (hn : ∀ x, nrm' (A x) = nrm x) (hd : ∀ x y, dot' (A x) (A y) = dot x y) (eps : K) (S : Surface K (W × K)) (pt : W)
    (uv : K × K) : propose nrm' dot' eps (mapNet (affHom A t) S) (A pt + t) uv = propose nrm dot eps S pt uv := by
  rw [propose, propose, surf_pointAt_affine, bind_map']
  refine bind_congr fun p => ?_
  rw [C106_derivatives, bind_map']
  refine bind_congr fun e => ?_
  simp only [get2R_moved, movedEntry_left, show movedEntry A t 0 1 = A from movedEntry_right A t 0 0,
    show movedEntry A t 0 2 = A from movedEntry_right A t 0 1, show movedEntry A t 1 0 = A from movedEntry_left A t 0 0,
    show movedEntry A t 2 0 = A from movedEntry_left A t 1 0, show movedEntry A t 1 1 = A from movedEntry_left A t 0 1,
    bind_map', moved_sub, hn, hd]

theorem surfaceStep_moved (hn : ∀ x, nrm' (A x) = nrm x) (hd : ∀ x y, dot' (A x) (A y) = dot x y) (eps : K) (S : Surface K (W × K)) (pt : W)
    (du dv : K × K) (cu cv : Bool) : surfaceStep nrm' dot' eps (mapNet (affHom A t) S) (A pt + t) du dv cu cv =
      surfaceStep nrm dot eps S pt du dv cu cv := by
  funext st
  rw [surfaceStep, surfaceStep, propose_moved hn hd]
  simp only [distanceCost_moved hn]

theorem unwrapR_map {α β : Type} (f : α → β) (x : Option α) : unwrapR (x.map f) = Except.map f (unwrapR x) := by
  cases x <;> rfl

theorem uClosed_moved (hn : ∀ x, nrm' (A x) = nrm x) (eps : K) (pts : List (List W)) :
    uClosed nrm' eps (pts.map (List.map fun x => A x + t)) = uClosed nrm eps pts := by
  rw [uClosed, uClosed, List.head?_map, List.getLast?_map, unwrapR_map, unwrapR_map, bind_map']
  refine bind_congr fun u0 => ?_
  rw [bind_map']
  refine bind_congr fun u1 => ?_
  simp only [List.length_map, getR_map, bind_map', moved_sub, hn]

theorem vClosed_moved (hn : ∀ x, nrm' (A x) = nrm x) (eps : K) (pts : List (List W)) :
    vClosed nrm' eps (pts.map (List.map fun x => A x + t)) = vClosed nrm eps pts := by
  rw [vClosed, vClosed, List.foldlM_map]
  simp only [List.head?_map, List.getLast?_map, unwrapR_map, bind_map', moved_sub, hn]

theorem keepVertex_moved (h : TurnsBy A M M') (pt : W) (st : Option K × (K × K)) (v : W × (K × K)) :
    keepVertex M'.normSq (A pt + t) st (A v.1 + t, v.2) = keepVertex M.normSq pt st v := by
  simp only [keepVertex, moved_sub, h.normSq]

theorem surf_dehomogenizedCps_moved (A : W →ₗ[K] W') (t : W') (S : Surface K (W × K)) :
    (mapNet (affHom A t) S).dehomogenizedCps = Except.map (List.map (List.map fun x => A x + t)) S.dehomogenizedCps := by
  rw [Surface.dehomogenizedCps, Surface.dehomogenizedCps]
  exact mapM_map' (g := List.map (affHom A t)) (List.map fun x => A x + t) (fun row =>
    mapM_map' (g := affHom A t) (fun x => A x + t) (dehom_moved A t) row) S.cps

/-- **Closest parameters** on the moved surface from the moved point. -/
theorem C106_closest_parameter (h : TurnsBy A M M') (hn : ∀ x, nrm' (A x) = nrm x) (hd : ∀ x y, dot' (A x) (A y) = dot x y) (nrm2 : K × K → K)
    (eps : K) (fuel : ℕ) (dflt : Options K) (S : Surface K (W × K)) (pt : W) :
    findClosestParameterS nrm' dot' nrm2 M' eps fuel dflt (mapNet (affHom A t) S) (A pt + t) =
      findClosestParameterS nrm dot nrm2 M eps fuel dflt S pt := by
  rw [findClosestParameterS, findClosestParameterS]
  simp only [show (mapNet (affHom A t) S).uDomain = S.uDomain from rfl, show (mapNet (affHom A t) S).vDomain = S.vDomain from rfl,
    show (mapNet (affHom A t) S).cps = S.cps.map (List.map (affHom A t)) from rfl, List.length_map, getR_map, bind_map']
  refine bind_congr fun du => bind_congr fun dv => bind_congr fun nu => bind_congr fun row0 => bind_congr fun nv => ?_
  rw [C106_tessellate h, bind_map']
  refine bind_congr fun T => ?_
  rw [surf_dehomogenizedCps_moved, bind_map']
  refine bind_congr fun pts => ?_
  rw [uClosed_moved hn, vClosed_moved hn]
  have e : (((movedT A t T).points.zip (movedT A t T).uvs).foldl (keepVertex M'.normSq (A pt + t)) (none, (du.1, dv.1))).2 =
      ((T.points.zip T.uvs).foldl (keepVertex M.normSq pt) (none, (du.1, dv.1))).2 := by
    rw [movedT]
    dsimp only
    rw [List.zip_map_left, List.foldl_map]
    simp only [Prod.map, id, keepVertex_moved h]
  rw [e]
  simp only [distanceCost_moved hn, surfaceStep_moved hn hd]

/-- **Closest points** on the moved surface. -/
theorem C106_closest_point (h : TurnsBy A M M') (hn : ∀ x, nrm' (A x) = nrm x) (hd : ∀ x y, dot' (A x) (A y) = dot x y) (nrm2 : K × K → K)
    (eps : K) (fuel : ℕ) (dflt : Options K) (S : Surface K (W × K)) (pt : W) :
    findClosestPointS nrm' dot' nrm2 M' eps fuel dflt (mapNet (affHom A t) S) (A pt + t) =
      Except.map (fun x => A x + t) (findClosestPointS nrm dot nrm2 M eps fuel dflt S pt) := by
  rw [findClosestPointS, findClosestPointS, C106_closest_parameter h hn hd, map_bind']
  exact bind_congr fun uv => surf_pointAt_affine A t eps S uv.1 uv.2

/-! ### Regular sampling -/

theorem regularSamplePoints_moved (A : W →ₗ[K] W') (t : W') (eps : K) (S : Surface K (W × K)) (divsU divsV : ℕ) :
    (mapNet (affHom A t) S).regularSamplePoints eps divsU divsV =
      Except.map (List.map (List.map fun x => A x + t)) (S.regularSamplePoints eps divsU divsV) := by
  rw [Surface.regularSamplePoints, Surface.regularSamplePoints]
  simp only [show (mapNet (affHom A t) S).uDegree = S.uDegree from rfl, show (mapNet (affHom A t) S).vDegree = S.vDegree from rfl,
    show (mapNet (affHom A t) S).uKnots = S.uKnots from rfl, show (mapNet (affHom A t) S).vKnots = S.vKnots from rfl, map_bind']
  refine bind_congr fun bu => bind_congr fun bv => ?_
  refine mapM_nat _ (fun i => mapM_nat _ (fun j => ?_) _) _
  rw [map_bind']
  refine bind_congr fun x => ?_
  rw [map_bind']
  refine bind_congr fun y => ?_
  rw [pointGivenBases_map, bind_map', map_bind']
  exact bind_congr fun p => dehom_moved A t p

theorem regularSampleRational_moved (A : W →ₗ[K] W') (t : W') (eps : K) (S : Surface K (W × K)) (divsU divsV n : ℕ) :
    (mapNet (affHom A t) S).regularSampleRationalDerivatives eps divsU divsV n =
      Except.map (List.map (List.map (movedTable A t))) (S.regularSampleRationalDerivatives eps divsU divsV n) := by
  rw [Surface.regularSampleRationalDerivatives, Surface.regularSampleRationalDerivatives, regularSampleDerivatives_map, bind_map', map_bind']
  refine bind_congr fun ders => ?_
  refine mapM_nat _ (fun i => mapM_nat _ (fun j => ?_) _) _
  rw [get2R_map (List.map (List.map (affHom A t))) ders i j, bind_map', map_bind']
  exact bind_congr fun d => rationalTable_moved A t d n

/-- **Regular tessellation** of the moved surface. -/
theorem C106_regular {cross : W → W → W} {cross' : W' → W' → W'} {normalize : W → W} {normalize' : W' → W'}
    (hc : ∀ x y, cross' (A x) (A y) = A (cross x y)) (hz : ∀ x, normalize' (A x) = A (normalize x)) (eps : K) (S : Surface K (W × K))
    (divsU divsV : ℕ) :
    (mapNet (affHom A t) S).regularTessellate cross' normalize' eps divsU divsV =
      Except.map (movedT A t) (S.regularTessellate cross normalize eps divsU divsV) := by
  have hnor : (mapNet (affHom A t) S).regularSampleNormals cross' normalize' eps divsU divsV =
      Except.map (List.map (List.map A)) (S.regularSampleNormals cross normalize eps divsU divsV) := by
    rw [Surface.regularSampleNormals, Surface.regularSampleNormals, regularSampleRational_moved, bind_map', map_bind']
    refine bind_congr fun ders => ?_
    refine mapM_map' (g := List.map (movedTable A t)) (List.map A) (fun row => ?_) ders
    refine mapM_map' (g := movedTable A t) A (fun d => ?_) row
    rw [get2R_moved, movedEntry_left, bind_map', map_bind']
    refine bind_congr fun v0 => ?_
    rw [get2R_moved, movedEntry_right, bind_map', map_bind']
    exact bind_congr fun v1 => by simp only [pure_eq_ok, map_ok', hc, hz]
  rw [Surface.regularTessellate, Surface.regularTessellate, regularSamplePoints_moved, bind_map', map_bind']
  refine bind_congr fun pts => ?_
  rw [hnor, bind_map', map_bind']
  refine bind_congr fun ders => ?_
  rw [show (mapNet (affHom A t) S).uDegree = S.uDegree from rfl, show (mapNet (affHom A t) S).vDegree = S.vDegree from rfl,
    show (mapNet (affHom A t) S).uKnots = S.uKnots from rfl, show (mapNet (affHom A t) S).vKnots = S.vKnots from rfl, map_bind']
  refine bind_congr fun us => ?_
  rw [map_bind']
  refine bind_congr fun vs => ?_
  simp only [pure_eq_ok, map_ok', movedT, List.map_flatten]

/-! ### Constructions -/

/-- **Extrusions** of moved profiles and **planes** through moved points. -/
theorem C106_extrude (A : W →ₗ[K] W') (t : W') (c : Curve K (W × K)) (v : W) :
    Surface.extrude (c.mapCps (affHom A t)) (A v) = Except.map (mapNet (affHom A t)) (Surface.extrude c v) := by
  rw [Surface.extrude, Surface.extrude, dehomogenizedCps_moved, bind_map', map_bind']
  refine bind_congr fun pts => ?_
  dsimp only
  rw [show (c.mapCps (affHom A t)).weights = c.weights by simp [weights, mapCps, affHom], List.length_map]
  rw [mapM_nat (fun r : (W × K) × (W × K) × (W × K) => (affHom A t r.1, affHom A t r.2.1, affHom A t r.2.2)) (f := fun i => do
    let p ← getR pts i
    let w ← getR c.weights i
    pure (((w • (p + v), w) : W × K), ((w • (p + (1 / 2 : K) • v), w) : W × K), ((w • p, w) : W × K))) (fun i => by
      rw [getR_map, bind_map', map_bind']
      refine bind_congr fun p => ?_
      rw [map_bind']
      refine bind_congr fun w => ?_
      simp only [pure_eq_ok, map_ok', affHom, LinearMap.coe_mk, AddHom.coe_mk, map_smul, map_add, smul_add]
      refine congrArg Except.ok (Prod.ext (Prod.ext ?_ rfl) (Prod.ext (Prod.ext ?_ rfl) (Prod.ext rfl rfl)))
      · simp only; abel
      · simp only; abel), bind_map', map_bind']
  refine bind_congr fun cols => ?_
  simp only [pure_eq_ok, map_ok', mapNet, List.map_map, List.map_cons, List.map_nil]
  rfl

theorem C106_plane (A : W →ₗ[K] W') (t : W') (c x y : W) :
    Surface.plane (K := K) (A c + t) (A x) (A y) = mapNet (affHom A t) (Surface.plane c x y) := by
  simp only [Surface.plane, mapNet, homogenize, affHom, LinearMap.coe_mk, AddHom.coe_mk, List.map_cons, List.map_nil, map_add, map_sub, one_smul]
  congr 4 <;> (try congr 1) <;> abel_nf

/-! ### Transformations -/

/-- **Transforming a surface by a rotation and a translation**: the mesh, the closest parameters and the closest points. -/
theorem C106_transform {M : Metric K W} {nrm : W → K} {dot : W → W → K} {m : Matrix4 K W} (hc : m.c = 0) (hd : m.d ≠ 0)
    (h : TurnsBy (m.d⁻¹ • m.A) M M) (hn : ∀ x, nrm (m.d⁻¹ • m.A x) = nrm x)
    (hdot : ∀ x y, dot (m.d⁻¹ • m.A x) (m.d⁻¹ • m.A y) = dot x y) (eps : K) {S : Surface K (W × K)}
    (hw : ∀ row ∈ S.cps, ∀ p ∈ row, p.2 ≠ 0) :
    ∃ S', S.transform m = .ok S' ∧
      (∀ fuel c o dflt T, tessellateSurface M eps fuel S c o dflt = .ok T →
        ∃ T', tessellateSurface M eps fuel S' c o dflt = .ok T' ∧ T'.faces = T.faces ∧ T'.uvs = T.uvs ∧
          T'.points = T.points.map (fun x => m.d⁻¹ • (m.A x + m.b)) ∧ T'.normals = T.normals.map fun x => m.d⁻¹ • m.A x) ∧
      (∀ u v x, S.normalAt M.cross eps u v = .ok x → S'.normalAt M.cross eps u v = .ok (m.d⁻¹ • m.A x)) ∧
      ∀ nrm2 fuel dflt pt, findClosestParameterS nrm dot nrm2 M eps fuel dflt S' (m.d⁻¹ • (m.A pt + m.b)) =
          findClosestParameterS nrm dot nrm2 M eps fuel dflt S pt ∧
        ∀ q, findClosestPointS nrm dot nrm2 M eps fuel dflt S pt = .ok q →
          findClosestPointS nrm dot nrm2 M eps fuel dflt S' (m.d⁻¹ • (m.A pt + m.b)) = .ok (m.d⁻¹ • (m.A q + m.b)) := by
  have hpt : ∀ x, m.d⁻¹ • (m.A x + m.b) = (m.d⁻¹ • m.A) x + m.d⁻¹ • m.b := fun x => smul_add _ _ _
  refine ⟨_, surface_transform_eq hc hd hw, fun fuel c o dflt T hT => ?_, fun u v x hx => ?_, fun nrm2 fuel dflt pt => ⟨?_, fun q hq => ?_⟩⟩
  · refine ⟨movedT (m.d⁻¹ • m.A) (m.d⁻¹ • m.b) T, ?_, rfl, rfl, ?_, rfl⟩
    · rw [affineMap_eq, C106_tessellate h, hT]; rfl
    · simp only [hpt]; rfl
  · rw [affineMap_eq, normalAt_moved h.cross, hx]; rfl
  · rw [affineMap_eq, hpt, C106_closest_parameter h hn hdot]
  · rw [affineMap_eq, hpt, hpt, C106_closest_point h hn hdot, hq]; rfl

end

/-! ### Witnesses -/

open Curvo.Frame Matrix Curvo.Tess

/-- The rotation about the third axis. -/
noncomputable def rotZ (θ : ℝ) : V3 →ₗ[ℝ] V3 where
  toFun v := ![Real.cos θ * v 0 - Real.sin θ * v 1, Real.sin θ * v 0 + Real.cos θ * v 1, v 2]
  map_add' x y := by
    ext i; fin_cases i <;> simp <;> ring
  map_smul' a x := by
    ext i; fin_cases i <;> simp <;> ring

theorem rotZ_dot (θ : ℝ) (v w : V3) : rotZ θ v ⬝ᵥ rotZ θ w = v ⬝ᵥ w := by
  simp only [rotZ, LinearMap.coe_mk, AddHom.coe_mk, Matrix.vec3_dotProduct, Matrix.cons_val_zero, Matrix.cons_val_one, Matrix.cons_val]
  linear_combination (v 0 * w 0 + v 1 * w 1) * Real.cos_sq_add_sin_sq θ

theorem rotZ_cross (θ : ℝ) (v w : V3) : crossProduct (rotZ θ v) (rotZ θ w) = rotZ θ (crossProduct v w) := by
  simp only [rotZ, LinearMap.coe_mk, AddHom.coe_mk, cross_apply]
  ext i
  fin_cases i
  · simp; ring
  · simp; ring
  · simp; linear_combination (v 0 * w 1 - v 1 * w 0) * Real.cos_sq_add_sin_sq θ

/-- The euclidean metric of space, with any flatness test. -/
noncomputable def euclidMetric (flat : V3 → V3 → V3 → ℝ → Bool) : Metric ℝ V3 where
  cross v w := crossProduct v w
  normalize v := (Frame.norm v)⁻¹ • v
  normSq v := v ⬝ᵥ v
  flat := flat

theorem rotZ_turns (θ : ℝ) (flat : V3 → V3 → V3 → ℝ → Bool) : TurnsBy (rotZ θ) (euclidMetric flat) (euclidMetric flat) where
  cross := rotZ_cross θ
  normalize v := by
    show (Frame.norm (rotZ θ v))⁻¹ • rotZ θ v = rotZ θ ((Frame.norm v)⁻¹ • v)
    rw [map_smul, Frame.norm, rotZ_dot]; rfl
  normSq v := rotZ_dot θ v v

/-- Every surface of space, rotated about the third axis by any angle and translated: the mesh is the moved mesh. -/
example (θ : ℝ) (b : V3) (flat : V3 → V3 → V3 → ℝ → Bool) (eps : ℝ) (fuel : ℕ) (S : Surface ℝ (V3 × ℝ)) (c : Option (Constraints ℝ))
    (o : Option (Options ℝ)) (dflt : Options ℝ) :
    tessellateSurface (euclidMetric flat) eps fuel (mapNet (affHom (rotZ θ) b) S) c o dflt =
      Except.map (movedT (rotZ θ) b) (tessellateSurface (euclidMetric flat) eps fuel S c o dflt) :=
  C106_tessellate (rotZ_turns θ flat) eps fuel S c o dflt

/-- Reflections do not satisfy the hypothesis of the meshes, but that of `C106_mirrored`. -/
example : (∀ x y : V3, crossProduct (-x) (-y) = -((-LinearMap.id : V3 →ₗ[ℝ] V3) (crossProduct x y))) ∧
    ¬ ∀ x y : V3, crossProduct (-x) (-y) = -(crossProduct x y) := by
  constructor
  · intro x y
    simp
  · intro h
    have := congrFun (h ![1, 0, 0] ![0, 1, 0]) 2
    simp [cross_apply, Matrix.cons_val] at this
    norm_num at this

end Curvo.Props

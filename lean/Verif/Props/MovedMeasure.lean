/-
  Property theorems: measurements of moved curves, C105.
-/
import Verif.Props.Moved
import Verif.Props.InterpSymmetry
import Verif.Lemmas.Rational
import Verif.Model.Length
import Verif.Model.Closest
import Verif.Model.Misc
import Verif.Props.Length

set_option linter.unusedSectionVars false
set_option linter.unusedSimpArgs false

namespace Curvo.Props

open Curvo Curvo.Curve Curvo.Spec

section
variable {K : Type} [Field K] [LinearOrder K]

theorem map_ok' {α β : Type} (f : α → β) (x : α) : Except.map f (.ok x : Res α) = .ok (f x) := rfl

theorem mapM_mem_map {α β γ : Type} {f : α → Res γ} {h : β → Res γ} {k : α → β} : ∀ {xs : List α},
    (∀ x ∈ xs, f x = h (k x)) → xs.mapM f = (xs.map k).mapM h
  | [], _ => rfl
  | x :: xs, hx => by
    rw [List.map_cons, List.mapM_cons, List.mapM_cons, hx x (by simp), mapM_mem_map fun y hy => hx y (by simp [hy])]

theorem foldlM_map_mem {σ τ α : Type} (φ : σ → τ) {step : σ → α → Res σ} {step' : τ → α → Res τ} :
    ∀ (xs : List α), (∀ x ∈ xs, ∀ s, step' (φ s) x = Except.map φ (step s x)) → ∀ s,
      xs.foldlM step' (φ s) = Except.map φ (xs.foldlM step s)
  | [], _, _ => rfl
  | x :: xs, h, s => by
    rw [List.foldlM_cons, List.foldlM_cons, h x (by simp), bind_map', map_bind']
    exact bind_congr fun s' => foldlM_map_mem φ xs (fun y hy => h y (by simp [hy])) s'

variable {V V' : Type} [AddCommGroup V] [Module K V] [AddCommGroup V'] [Module K V']

theorem derivatives_map (L : V →ₗ[K] V') (eps : K) (c : Curve K V) (u : K) (n : ℕ) :
    (c.mapCps L).derivatives eps u n = Except.map (List.map L) (c.derivatives eps u n) := by
  rw [derivatives, derivatives]
  simp only [show (c.mapCps L).knots = c.knots from rfl, show (c.mapCps L).degree = c.degree from rfl,
    show (c.mapCps L).lastIndex = c.lastIndex from rfl, show (c.mapCps L).cps = c.cps.map L from rfl, map_bind']
  refine bind_congr fun m => bind_congr fun s => bind_congr fun nders => ?_
  rw [show (List.replicate (n + 1) (0 : V')) = List.map L (List.replicate (n + 1) 0) by simp]
  refine foldlM_map' (List.map L) (fun ders k => ?_) _ _
  refine foldlM_map' (List.map L) (fun ders j => ?_) _ _
  rw [map_bind']
  refine bind_congr fun off => ?_
  rw [getR_map, bind_map', map_bind']
  refine bind_congr fun p => ?_
  rw [map_bind']
  refine bind_congr fun b => ?_
  rw [getR_map, bind_map', map_bind']
  refine bind_congr fun col => ?_
  rw [← setR_map, map_add, map_smul]

end

section
variable {K : Type} [Field K] [LinearOrder K] [IsStrictOrderedRing K] {W W' : Type} [AddCommGroup W] [Module K W]
  [AddCommGroup W'] [Module K W']

/-- What an affine map does to a list of derivatives: the point is moved, the derivatives are mapped by the linear part. -/
def movedDers (A : W →ₗ[K] W') (t : W') : List W → List W'
  | [] => []
  | x :: xs => (A x + t) :: xs.map A

theorem movedDers_length (A : W →ₗ[K] W') (t : W') (l : List W) : (movedDers A t l).length = l.length := by
  cases l <;> simp [movedDers]

theorem movedDers_append (A : W →ₗ[K] W') (t : W') {l : List W} (h : l ≠ []) (x : W) :
    movedDers A t (l ++ [x]) = movedDers A t l ++ [A x] := by
  cases l with
  | nil => exact absurd rfl h
  | cons y l => simp [movedDers]

theorem getR_movedDers_zero (A : W →ₗ[K] W') (t : W') (l : List W) : getR (movedDers A t l) 0 = Except.map (fun x => A x + t) (getR l 0) := by
  cases l <;> rfl

theorem getR_movedDers_succ (A : W →ₗ[K] W') (t : W') (l : List W) (i : ℕ) :
    getR (movedDers A t l) (i + 1) = Except.map A (getR l (i + 1)) := by
  cases l with
  | nil => rfl
  | cons x l =>
    have := getR_map A l i
    simpa [movedDers, getR] using this

theorem getR_movedDers_one (A : W →ₗ[K] W') (t : W') (l : List W) : getR (movedDers A t l) 1 = Except.map A (getR l 1) :=
  getR_movedDers_succ A t l 0

theorem getR_movedDers_two (A : W →ₗ[K] W') (t : W') (l : List W) : getR (movedDers A t l) 2 = Except.map A (getR l 2) :=
  getR_movedDers_succ A t l 1

theorem divV_map (A : W →ₗ[K] W') (v : W) (w : K) : divV (A v) w = Except.map A (divV v w) := by
  unfold divV
  split <;> simp [Except.map]

theorem rationalGo_moved (A : W →ₗ[K] W') (t : W') (ders : List (W × K)) (n : ℕ) :
    rationalGo ((ders.map (affHom A t)).map Prod.fst) ((ders.map (affHom A t)).map Prod.snd) n =
      Except.map (movedDers A t) (rationalGo (ders.map Prod.fst) (ders.map Prod.snd) n) := by
  have hw : (ders.map (affHom A t)).map Prod.snd = ders.map Prod.snd := by simp [affHom]
  have ha : (ders.map (affHom A t)).map Prod.fst = ders.map (fun p => A p.1 + p.2 • t) := by simp [affHom]
  rw [hw, ha, rationalGo, rationalGo]
  generalize n + 1 = N
  suffices H : _ ∧ ∀ l, (List.range N).foldlM (fun ck k => do
      let v ← getR (ders.map Prod.fst) k
      let v ← ((List.range k).map (· + 1)).foldlM (fun v i => do
        let w ← getR (ders.map Prod.snd) i
        let o ← subR k i
        let x ← getR ck o
        pure (v - (binomGet k i * w) • x)) v
      let w0 ← getR (ders.map Prod.snd) 0
      let d ← divV v w0
      pure (ck ++ [d])) [] = .ok l → l.length = N from H.1
  induction N with
  | zero => exact ⟨rfl, fun l h => by rw [← Except.ok.inj h]; rfl⟩
  | succ N ih =>
    obtain ⟨ih1, ih2⟩ := ih
    rw [List.range_succ, List.foldlM_append, List.foldlM_append, ih1, bind_map', map_bind']
    constructor
    · cases hG : (List.range N).foldlM (fun ck k => do
          let v ← getR (ders.map Prod.fst) k
          let v ← ((List.range k).map (· + 1)).foldlM (fun v i => do
            let w ← getR (ders.map Prod.snd) i
            let o ← subR k i
            let x ← getR ck o
            pure (v - (binomGet k i * w) • x)) v
          let w0 ← getR (ders.map Prod.snd) 0
          let d ← divV v w0
          pure (ck ++ [d])) ([] : List W) with
      | error e => rfl
      | ok l =>
        have hl := ih2 l hG
        rw [ok_bind, ok_bind]
        simp only [List.foldlM_cons, List.foldlM_nil, bind_pure]
        rw [getR_map (fun p : W × K => A p.1 + p.2 • t) ders N, getR_map (Prod.fst : W × K → W) ders N]
        cases hp : getR ders N with
        | error e => rfl
        | ok p =>
          simp only [map_ok', ok_bind]
          cases N with
          | zero =>
            obtain rfl : l = [] := List.length_eq_zero_iff.1 hl
            simp only [List.range_zero, List.map_nil, List.foldlM_nil, pure_eq_ok, ok_bind]
            rw [getR_map, hp]
            simp only [map_ok', ok_bind]
            by_cases h0 : p.2 = 0
            · simp [divV, h0, Except.map]
            · simp [divV, h0, movedDers, smul_smul, Except.map]
          | succ m =>
            have hne : l ≠ [] := by rintro rfl; simp at hl
            have hin : ∀ i ∈ (List.range m).map (· + 1), ∀ v : W, (do
                let w ← getR (ders.map Prod.snd) i
                let o ← subR (m + 1) i
                let x ← getR (movedDers A t l) o
                pure ((A v + p.2 • t) - (binomGet (m + 1) i * w) • x) : Res W') = Except.map (fun v => A v + p.2 • t) (do
                let w ← getR (ders.map Prod.snd) i
                let o ← subR (m + 1) i
                let x ← getR l o
                pure (v - (binomGet (m + 1) i * w) • x)) := by
              intro i hi v
              obtain ⟨k, hk, rfl⟩ := List.mem_map.1 hi
              have hk : k < m := List.mem_range.1 hk
              rw [map_bind']
              refine bind_congr fun w => ?_
              have e : subR (m + 1) (k + 1) = .ok ((m - k - 1) + 1) := by
                rw [subR, if_pos (by omega)]; congr 1; omega
              rw [e, ok_bind, ok_bind, getR_movedDers_succ, bind_map', map_bind']
              refine bind_congr fun x => ?_
              simp only [pure_eq_ok, map_ok', map_sub, map_smul]
              congr 1; abel
            rw [List.range_succ, List.map_append, List.foldlM_append, List.foldlM_append,
              foldlM_map_mem (fun v => A v + p.2 • t) _ hin, bind_map', map_bind']
            simp only [bind_assoc]
            refine bind_congr fun v => ?_
            simp only [List.map_cons, List.map_nil, List.foldlM_cons, List.foldlM_nil, bind_pure]
            rw [getR_map, hp]
            simp only [map_ok', ok_bind]
            have e : subR (m + 1) (m + 1) = .ok 0 := by rw [subR, if_pos le_rfl, Nat.sub_self]
            rw [e, ok_bind, ok_bind, getR_movedDers_zero]
            cases hx : getR l 0 with
            | error e => rfl
            | ok x =>
              simp only [map_ok', ok_bind, pure_eq_ok]
              cases hw0 : getR (ders.map Prod.snd) 0 with
              | error e => rfl
              | ok w0 =>
                simp only [ok_bind]
                have e : A v + p.2 • t - (binomGet (m + 1) (m + 1) * p.2) • (A x + t) =
                    A (v - (binomGet (m + 1) (m + 1) * p.2) • x) := by
                  rw [binomGet_eq, Nat.choose_self, Nat.cast_one, one_mul, smul_add, map_sub, map_smul]; abel
                rw [e, divV_map]
                cases divV (v - (binomGet (m + 1) (m + 1) * p.2) • x) w0 with
                | error e => rfl
                | ok d => simp only [map_ok', ok_bind]; rw [movedDers_append A t hne]
    · intro l h
      obtain ⟨l0, h0, h⟩ := bind_eq_ok.1 h
      simp only [List.foldlM_cons, List.foldlM_nil, bind_pure] at h
      obtain ⟨_, _, h⟩ := bind_eq_ok.1 h
      obtain ⟨_, _, h⟩ := bind_eq_ok.1 h
      obtain ⟨_, _, h⟩ := bind_eq_ok.1 h
      obtain ⟨_, _, h⟩ := bind_eq_ok.1 h
      rw [← Except.ok.inj h, List.length_append, ih2 l0 h0]; rfl

/-- **Derivatives**: the rational derivatives of a moved curve, of every order and at every parameter. -/
theorem C105_derivatives (A : W →ₗ[K] W') (t : W') (eps : K) (c : Curve K (W × K)) (u : K) (n : ℕ) :
    (c.mapCps (affHom A t)).rationalDerivatives eps u n = Except.map (movedDers A t) (c.rationalDerivatives eps u n) := by
  rw [rationalDerivatives, rationalDerivatives, derivatives_map, bind_map', map_bind']
  exact bind_congr fun ders => rationalGo_moved A t ders n

theorem tangentAt_moved (A : W →ₗ[K] W') (t : W') (eps : K) (c : Curve K (W × K)) (u : K) :
    (c.mapCps (affHom A t)).tangentAt eps u = Except.map A (c.tangentAt eps u) := by
  rw [tangentAt, tangentAt, C105_derivatives, bind_map', map_bind']
  exact bind_congr fun d => getR_movedDers_succ A t d 0

/-! ### Lengths -/

open Curvo.Length

variable {A : W →ₗ[K] W'} {t : W'} {nrm : W → K} {nrm' : W' → K} {s : K}

theorem speed_moved (h : ∀ x, nrm' (A x) = s * nrm x) (eps : K) (c : Curve K (W × K)) (u : K) :
    speed nrm' eps (c.mapCps (affHom A t)) u = Except.map (s * ·) (speed nrm eps c u) := by
  rw [speed, speed, C105_derivatives, bind_map', map_bind']
  refine bind_congr fun d => ?_
  rw [getR_movedDers_succ, bind_map', map_bind']
  exact bind_congr fun v => by rw [h]; rfl

theorem integrate_scaled (rule : List (K × K)) (a b : K) {f f' : K → Res K} (h : ∀ x, f' x = Except.map (s * ·) (f x)) :
    integrate rule a b f' = Except.map (s * ·) (integrate rule a b f) := by
  rw [integrate, integrate]
  have := mapM_map' (g := id) (s * ·) (f := fun xw : K × K => do
    let y ← f ((b - a) / 2 * xw.1 + (a + b) / 2)
    pure (y * xw.2)) (f' := fun xw : K × K => do
    let y ← f' ((b - a) / 2 * xw.1 + (a + b) / 2)
    pure (y * xw.2)) (fun xw => by
      simp only [id]
      rw [h, bind_map', map_bind']
      exact bind_congr fun y => by simp only [pure_eq_ok, Except.map, mul_assoc]) rule
  rw [List.map_id] at this
  rw [this, bind_map', map_bind']
  refine bind_congr fun ys => ?_
  simp only [pure_eq_ok, Except.map]
  rw [List.sum_map_mul_left, List.map_id']
  congr 1; ring

theorem segmentLength_moved (h : ∀ x, nrm' (A x) = s * nrm x) (rule : List (K × K)) (eps : K) (c : Curve K (W × K)) (u : K) :
    segmentLength nrm' rule eps (c.mapCps (affHom A t)) u = Except.map (s * ·) (segmentLength nrm rule eps c u) := by
  rw [segmentLength, segmentLength, map_bind']
  refine bind_congr fun d => ?_
  rw [map_ite', integrate_scaled _ _ _ (speed_moved h eps c)]
  split <;> simp [Except.map, pure_eq_ok]

/-- **Length**: a similarity of ratio `s` multiplies the computed length by `s`, whatever the quadrature rule. -/
theorem C105_length (h : ∀ x, nrm' (A x) = s * nrm x) (rule : ℕ → List (K × K)) (eps : K) (c : Curve K (W × K))
    (hc : c.isClamped eps = .ok true) :
    tryLength nrm' rule eps (c.mapCps (affHom A t)) = Except.map (s * ·) (tryLength nrm rule eps c) := by
  rw [tryLength, tryLength]
  simp only [show (c.mapCps (affHom A t)).knots = c.knots from rfl, show (c.mapCps (affHom A t)).degree = c.degree from rfl,
    show (c.mapCps (affHom A t)).knotsDomain = c.knotsDomain from rfl, map_bind', tryDecompose_map _ _ _ hc, bind_map', List.length_map]
  refine bind_congr fun mult => bind_congr fun start => bind_congr fun stop => bind_congr fun segs => ?_
  have hk : ∀ j, (do
      let segs ← sliceR (List.map (mapCps (affHom A t)) segs) (c.degree + 1 - start.2) j
      let d ← c.knotsDomain
      if segs.length ≤ 1 then segmentLength nrm' (rule (16 + c.degree)) eps (mapCps (affHom A t) c) d.2
      else do
        let ls ← segs.mapM fun s => segmentLength nrm' (rule (16 + c.degree)) eps s d.2
        match ls with
        | [] => .error .err
        | l :: ls => pure (ls.foldl (· + ·) l)) = Except.map (s * ·) (do
      let segs ← sliceR segs (c.degree + 1 - start.2) j
      let d ← c.knotsDomain
      if segs.length ≤ 1 then segmentLength nrm (rule (16 + c.degree)) eps c d.2
      else do
        let ls ← segs.mapM fun s => segmentLength nrm (rule (16 + c.degree)) eps s d.2
        match ls with
        | [] => .error .err
        | l :: ls => pure (ls.foldl (· + ·) l)) := by
    intro j
    rw [sliceR_map, bind_map', map_bind']
    refine bind_congr fun segs => ?_
    rw [map_bind']
    refine bind_congr fun d => ?_
    rw [map_ite', List.length_map]
    split
    · exact segmentLength_moved h _ _ _ _
    · rw [mapM_map' (g := mapCps (affHom A t)) (s * ·) (f := fun x => segmentLength nrm (rule (16 + c.degree)) eps x d.2)
        (f' := fun x => segmentLength nrm' (rule (16 + c.degree)) eps x d.2) (fun x => segmentLength_moved h _ _ _ _), bind_map', map_bind']
      refine bind_congr fun ls => ?_
      cases ls with
      | nil => rfl
      | cons l ls =>
        simp only [List.map_cons, pure_eq_ok, Except.map]
        congr 1
        clear hc
        induction ls generalizing l with
        | nil => rfl
        | cons a ls ih => simp only [List.map_cons, List.foldl_cons]; rw [← mul_add, ih]
  split
  · rw [map_bind']; exact bind_congr fun j => hk j
  · rw [map_bind']; exact bind_congr fun j => hk j

/-! ### Parameters at lengths and divisions -/

theorem map_one_mul (x : Res K) : Except.map ((1 : K) * ·) x = x := by
  cases x <;> simp [Except.map]

theorem segmentLength_isometry (h : ∀ x, nrm' (A x) = nrm x) (rule : List (K × K)) (eps : K) (c : Curve K (W × K)) (u : K) :
    segmentLength nrm' rule eps (c.mapCps (affHom A t)) u = segmentLength nrm rule eps c u := by
  rw [segmentLength_moved (s := 1) (nrm := nrm) fun x => by rw [h, one_mul], map_one_mul]

theorem segmentParameter_isometry (h : ∀ x, nrm' (A x) = nrm x) (fuel : ℕ) (rule : List (K × K)) (eps : K) (c : Curve K (W × K))
    (len tol total : K) :
    segmentParameter fuel nrm' rule eps (c.mapCps (affHom A t)) len tol total = segmentParameter fuel nrm rule eps c len tol total := by
  rw [segmentParameter, segmentParameter, show segmentLength nrm' rule eps (c.mapCps (affHom A t)) = segmentLength nrm rule eps c from
    funext fun u => segmentLength_isometry h rule eps c u]
  rfl

theorem parameterGo_isometry (h : ∀ x, nrm' (A x) = nrm x) (fuel : ℕ) (rule : List (K × K)) (eps len tol : K) :
    ∀ (segs : List (Curve K (W × K))) (acc : K),
      parameterGo fuel nrm' rule eps len tol (segs.map (mapCps (affHom A t))) acc = parameterGo fuel nrm rule eps len tol segs acc
  | [], _ => rfl
  | c :: segs, acc => by
    rw [List.map_cons, parameterGo, parameterGo]
    refine bind_congr fun d => ?_
    rw [segmentLength_isometry h]
    refine bind_congr fun sl => ?_
    rw [segmentParameter_isometry h, parameterGo_isometry h]

/-- **Parameters at given lengths** do not change under isometries. -/
theorem C105_parameter (h : ∀ x, nrm' (A x) = nrm x) (fuel : ℕ) (rule : ℕ → List (K × K)) (eps : K) (c : Curve K (W × K))
    (hc : c.isClamped eps = .ok true) (len : K) (tol : Option K) :
    tryParameterAtLength fuel nrm' rule eps (c.mapCps (affHom A t)) len tol = tryParameterAtLength fuel nrm rule eps c len tol := by
  rw [tryParameterAtLength, tryParameterAtLength]
  split
  · rfl
  · rw [tryDecompose_map _ _ _ hc, bind_map']
    exact bind_congr fun segs => parameterGo_isometry h _ _ _ _ _ _ _

theorem divideGo_isometry (h : ∀ x, nrm' (A x) = nrm x) (fuel : ℕ) (rule : List (K × K)) (eps len : K) :
    ∀ (segs : List (Curve K (W × K))) (ls : List K) (acc lc : K),
      divideGo fuel nrm' rule eps len ((segs.map (mapCps (affHom A t))).zip ls) acc lc = divideGo fuel nrm rule eps len (segs.zip ls) acc lc
  | [], _, _, _ => by simp [divideGo]
  | _ :: _, [], _, _ => by simp [divideGo]
  | c :: segs, l :: ls, acc, lc => by
    rw [List.map_cons, List.zip_cons_cons, List.zip_cons_cons, divideGo, divideGo]
    simp only [segmentParameter_isometry h]
    refine bind_congr fun r => ?_
    rw [divideGo_isometry h fuel rule eps len segs ls]

/-- **Divisions** by length and by count do not change under isometries: the same parameters and lengths. -/
theorem C105_divide (h : ∀ x, nrm' (A x) = nrm x) (fuel : ℕ) (rule : ℕ → List (K × K)) {eps : K} {c : Curve K (W × K)} (hg : c.Good eps)
    (hsep : ∀ x ∈ c.knots, ∀ y ∈ c.knots, x ≠ y → eps < |x - y|)
    (hc : c.isClamped eps = .ok true) (hcount : ∀ x ∈ c.knots, c.knots.count x ≤ c.degree + 1) :
    (∀ len, tryDivideByLength fuel nrm' rule eps (c.mapCps (affHom A t)) len = tryDivideByLength fuel nrm rule eps c len) ∧
    ∀ n, tryDivideByCount fuel nrm' rule eps (c.mapCps (affHom A t)) n = tryDivideByCount fuel nrm rule eps c n := by
  have hg' : (c.mapCps (affHom A t)).Good eps :=
    ⟨by simpa [mapCps] using hg.cps_pos, by simpa [mapCps] using hg.knots_len, by simpa [mapCps] using hg.good⟩
  obtain ⟨segs, P⟩ := pieces hg hsep hc hcount
  obtain ⟨segs', P'⟩ := pieces hg' hsep hc hcount
  have e : segs' = segs.map (mapCps (affHom A t)) := by
    have := P'.ok
    rw [tryDecompose_map _ _ _ hc, P.ok] at this
    exact (Except.ok.inj this).symm
  have hlen : ∀ s ∈ segs, tryLength nrm' rule eps (s.mapCps (affHom A t)) = tryLength nrm rule eps s := by
    intro s hs
    rw [P.length nrm rule s hs, P'.length nrm' rule (s.mapCps (affHom A t)) (by rw [e]; exact List.mem_map_of_mem hs)]
    rw [show (s.mapCps (affHom A t)).hi = s.hi by simp [Curve.hi, mapCps]]
    exact segmentLength_isometry (t := t) h (rule (16 + c.degree)) eps s s.hi
  have hdiv : ∀ len, tryDivideByLength fuel nrm' rule eps (c.mapCps (affHom A t)) len = tryDivideByLength fuel nrm rule eps c len := by
    intro len
    rw [tryDivideByLength, tryDivideByLength]
    split
    · rw [tryDecompose_map _ _ _ hc, P.ok, map_ok', ok_bind, ok_bind]
      have := mapM_mem_map (xs := segs) (f := tryLength nrm rule eps) (h := tryLength nrm' rule eps) (k := mapCps (affHom A t))
        fun s hs => (hlen s hs).symm
      rw [← this]
      refine bind_congr fun ls => ?_
      split
      · refine bind_congr fun k0 => ?_
        rw [divideGo_isometry h]; rfl
      · rfl
    · rfl
  refine ⟨hdiv, fun n => ?_⟩
  rw [tryDivideByCount, tryDivideByCount, C105_length (s := 1) (nrm := nrm) (fun x => by rw [h, one_mul]) _ _ _ hc, map_one_mul]
  exact bind_congr fun l => bind_congr fun u => hdiv u

/-! ### Closest points -/

open Curvo.Closest

variable {dot : W → W → K} {dot' : W' → W' → K}

theorem segmentClosest_isometry (h : ∀ x, nrm' (A x) = nrm x) (hd : ∀ x y, dot' (A x) (A y) = dot x y) (eps : K) (pt a b : W) (u v : K) :
    segmentClosest nrm' dot' eps (A pt + t) (A a + t) (A b + t) u v =
      ((segmentClosest nrm dot eps pt a b u v).1, A (segmentClosest nrm dot eps pt a b u v).2 + t) := by
  have e1 : A b + t - (A a + t) = A (b - a) := by rw [map_sub]; abel
  have e2 : A pt + t - (A a + t) = A (pt - a) := by rw [map_sub]; abel
  unfold segmentClosest
  simp only [e1, e2, h, ← map_smul, hd]
  split
  · rfl
  · split
    · rfl
    · split
      · rfl
      · refine Prod.ext rfl ?_
        simp only [map_add, map_smul]; abel

theorem keepNearest_isometry (h : ∀ x, nrm' (A x) = nrm x) (hd : ∀ x y, dot' (A x) (A y) = dot x y) (eps : K) (pt : W)
    (st : Option K × K) (s : (K × W) × (K × W)) :
    keepNearest nrm' dot' eps (A pt + t) st ((s.1.1, A s.1.2 + t), (s.2.1, A s.2.2 + t)) = keepNearest nrm dot eps pt st s := by
  unfold keepNearest
  simp only [segmentClosest_isometry h hd]
  rw [show A pt + t - (A (segmentClosest nrm dot eps pt s.1.2 s.2.2 s.1.1 s.2.1).2 + t) =
    A (pt - (segmentClosest nrm dot eps pt s.1.2 s.2.2 s.1.1 s.2.1).2) by rw [map_sub]; abel, h]

theorem sample_moved (A : W →ₗ[K] W') (t : W') (eps : K) (c : Curve K (W × K)) (a b : K) (n : ℕ) :
    (c.mapCps (affHom A t)).sampleRegularRangeWithParameter eps a b n =
      Except.map (List.map fun x => (x.1, A x.2 + t)) (c.sampleRegularRangeWithParameter eps a b n) := by
  rw [sampleRegularRangeWithParameter, sampleRegularRangeWithParameter]
  have := mapM_map' (g := id) (fun x : K × W => (x.1, A x.2 + t)) (f := fun i : ℕ => do
    let step ← divR (b - a) ((n : K) - 1)
    let u := a + (i : K) * step
    let p ← c.pointAt eps u
    pure (u, p)) (f' := fun i : ℕ => do
    let step ← divR (b - a) ((n : K) - 1)
    let u := a + (i : K) * step
    let p ← (c.mapCps (affHom A t)).pointAt eps u
    pure (u, p)) (fun i => by
      simp only [id]
      rw [map_bind']
      refine bind_congr fun step => ?_
      rw [pointAt_affine, bind_map', map_bind']
      rfl) (List.range n)
  rw [List.map_id] at this
  exact this

theorem guess_isometry (h : ∀ x, nrm' (A x) = nrm x) (hd : ∀ x y, dot' (A x) (A y) = dot x y) (eps : K) (c : Curve K (W × K)) (pt : W) :
    guess nrm' dot' eps (c.mapCps (affHom A t)) (A pt + t) = guess nrm dot eps c pt := by
  rw [guess, guess]
  simp only [show (c.mapCps (affHom A t)).knotsDomain = c.knotsDomain from rfl, show (c.mapCps (affHom A t)).degree = c.degree from rfl,
    show (c.mapCps (affHom A t)).cps.length = c.cps.length by simp [mapCps], sample_moved, bind_map', List.length_map]
  refine bind_congr fun d => bind_congr fun pts => bind_congr fun _ => ?_
  rw [← List.map_tail, List.zip_map, List.foldl_map]
  simp only [Prod.map, keepNearest_isometry h hd]

theorem gradient_isometry (hd : ∀ x y, dot' (A x) (A y) = dot x y) (eps : K) (c : Curve K (W × K)) (pt : W) (u : K) :
    gradient dot' eps (c.mapCps (affHom A t)) (A pt + t) u = gradient dot eps c pt u := by
  rw [gradient, gradient, pointTangentAt, pointTangentAt, C105_derivatives]
  simp only [bind_assoc, bind_map', getR_movedDers_zero, getR_movedDers_one, pure_eq_ok, ok_bind]
  refine bind_congr fun d => bind_congr fun p => bind_congr fun v => ?_
  rw [show A p + t - (A pt + t) = A (p - pt) by rw [map_sub]; abel, hd]

theorem hessian_isometry (hd : ∀ x y, dot' (A x) (A y) = dot x y) (eps : K) (c : Curve K (W × K)) (pt : W) (u : K) :
    hessian dot' eps (c.mapCps (affHom A t)) (A pt + t) u = hessian dot eps c pt u := by
  rw [hessian, hessian, C105_derivatives]
  simp only [bind_map', getR_movedDers_zero, getR_movedDers_one, getR_movedDers_two]
  refine bind_congr fun d => bind_congr fun e0 => bind_congr fun e2 => bind_congr fun e1 => ?_
  rw [show A e0 + t - (A pt + t) = A (e0 - pt) by rw [map_sub]; abel, hd, hd]

theorem newtonStep_isometry (hd : ∀ x y, dot' (A x) (A y) = dot x y) (eps : K) (c : Curve K (W × K)) (pt : W) (d : K × K) (closed : Bool) :
    newtonStep dot' eps (c.mapCps (affHom A t)) (A pt + t) d closed = newtonStep dot eps c pt d closed := by
  funext u
  rw [newtonStep, newtonStep, gradient_isometry hd, hessian_isometry hd]

theorem dehom_moved (A : W →ₗ[K] W') (t : W') (p : W × K) :
    unwrapR (dehomogenize (affHom A t p)) = Except.map (fun x => A x + t) (unwrapR (dehomogenize p)) := by
  have e5 : affHom A t p = (A p.1 + p.2 • t, p.2) := rfl
  rw [e5]
  unfold Curve.dehomogenize
  by_cases hp : p.2 = 0
  · simp [hp, unwrapR, Except.map]
  · simp [hp, unwrapR, Except.map, smul_smul, inv_mul_cancel₀ hp]

theorem dehomogenizedCps_moved (A : W →ₗ[K] W') (t : W') (c : Curve K (W × K)) :
    (c.mapCps (affHom A t)).dehomogenizedCps = Except.map (List.map fun x => A x + t) c.dehomogenizedCps := by
  rw [dehomogenizedCps, dehomogenizedCps]
  exact mapM_map' (g := affHom A t) (fun x => A x + t) (f := fun p => unwrapR (dehomogenize p)) (f' := fun p => unwrapR (dehomogenize p))
    (dehom_moved A t) c.cps

theorem isClosed_isometry (h : ∀ x, nrm' (A x) = nrm x) (eps : K) (c : Curve K (W × K)) :
    (c.mapCps (affHom A t)).isClosed eps (fun a b => nrm' (a - b)) = c.isClosed eps (fun a b => nrm (a - b)) := by
  have hn : ∀ a b : W, nrm' (A a + t - (A b + t)) = nrm (a - b) := fun a b => by
    rw [show A a + t - (A b + t) = A (a - b) by rw [map_sub]; abel, h]
  rw [isClosed, isClosed]
  simp only [show (c.mapCps (affHom A t)).knotsDomain = c.knotsDomain from rfl, show (c.mapCps (affHom A t)).degree = c.degree from rfl,
    show (c.mapCps (affHom A t)).knots = c.knots from rfl,
    show (c.mapCps (affHom A t)).cps.length = c.cps.length by simp [mapCps], dehomogenizedCps_moved, pointAt_affine, bind_map', getR_map, hn]

/-- **Closest parameter**: the search from the moved point on the moved curve takes the same steps, on every curve and from every
    point, failures included. -/
theorem C105_closest_parameter (h : ∀ x, nrm' (A x) = nrm x) (hd : ∀ x y, dot' (A x) (A y) = dot x y) (eps : K) (c : Curve K (W × K)) (pt : W) :
    findClosestParameter nrm' dot' eps (c.mapCps (affHom A t)) (A pt + t) = findClosestParameter nrm dot eps c pt := by
  rw [findClosestParameter, findClosestParameter, guess_isometry h hd, isClosed_isometry h]
  simp only [newtonStep_isometry hd]
  rfl

/-- **Closest point**: the point found is the moved point. -/
theorem C105_closest_point (h : ∀ x, nrm' (A x) = nrm x) (hd : ∀ x y, dot' (A x) (A y) = dot x y) (eps : K) (c : Curve K (W × K)) (pt : W) :
    findClosestPoint nrm' dot' eps (c.mapCps (affHom A t)) (A pt + t) = Except.map (fun x => A x + t) (findClosestPoint nrm dot eps c pt) := by
  rw [findClosestPoint, findClosestPoint, C105_closest_parameter h hd, map_bind']
  exact bind_congr fun u => pointAt_affine A t eps c u

/-! ### Tessellation of curves -/

theorem adaptive_moved {M : Tess.Metric K W} {M' : Tess.Metric K W'} (f : W → W')
    (hn : ∀ p q, M'.normSq (f p - f q) = M.normSq (p - q)) (hf : ∀ p q r tol, M'.flat (f p) (f q) (f r) tol = M.flat p q r tol)
    (floor : K) (rnd : ℕ → K) {pointAt : K → Res W} {pointAt' : K → Res W'} (hp : ∀ u, pointAt' u = Except.map f (pointAt u)) (tol : K) :
    ∀ (fuel : ℕ) (a b : K) (pos : ℕ), Tess.adaptive M' floor rnd pointAt' tol fuel a b pos =
      Except.map (fun r => (r.1.map f, r.2)) (Tess.adaptive M floor rnd pointAt tol fuel a b pos)
  | 0, _, _, _ => rfl
  | fuel + 1, a, b, pos => by
    rw [Tess.adaptive, Tess.adaptive, hp, bind_map', map_bind']
    refine bind_congr fun p1 => ?_
    dsimp only
    rw [map_ite']
    split
    · rfl
    · rw [hp, bind_map', map_bind']
      refine bind_congr fun p3 => ?_
      rw [hp, bind_map', map_bind']
      refine bind_congr fun p2 => ?_
      rw [hn, hn, hf, map_ite']
      split
      · rw [adaptive_moved f hn hf floor rnd hp tol fuel, bind_map', map_bind']
        refine bind_congr fun l => ?_
        obtain ⟨left, pos'⟩ := l
        dsimp only
        rw [adaptive_moved f hn hf floor rnd hp tol fuel, bind_map', map_bind']
        refine bind_congr fun r => ?_
        simp only [pure_eq_ok, map_ok', List.map_append, List.map_dropLast]
      · rfl

/-- **Tessellation**: the polyline of the moved curve consists of the moved points and uses as many random numbers. -/
theorem C105_tessellate {M : Tess.Metric K W} {M' : Tess.Metric K W'} (hn : ∀ x, M'.normSq (A x) = M.normSq x)
    (hf : ∀ p q r tol, M'.flat (A p + t) (A q + t) (A r + t) tol = M.flat p q r tol)
    (eps floor : K) (rnd : ℕ → K) (fuel : ℕ) (c : Curve K (W × K)) (tol : K) :
    Tess.tessellateCurve M' eps floor rnd fuel (c.mapCps (affHom A t)) tol =
      Except.map (fun r => (r.1.map fun x => A x + t, r.2)) (Tess.tessellateCurve M eps floor rnd fuel c tol) := by
  rw [Tess.tessellateCurve, Tess.tessellateCurve, map_ite']
  split
  · rename_i hdeg
    rw [if_pos (show c.degree = 1 from hdeg)]
    have := dehomogenizedCps_moved A t c
    rw [dehomogenizedCps, dehomogenizedCps] at this
    rw [this, bind_map', map_bind']
    rfl
  · rename_i hdeg
    rw [if_neg (show ¬ c.degree = 1 from hdeg), map_bind']
    refine bind_congr fun d => ?_
    exact adaptive_moved (fun x => A x + t) (fun p q => by
      rw [show A p + t - (A q + t) = A (p - q) by rw [map_sub]; abel, hn]) hf floor rnd (fun u => pointAt_affine A t eps c u) tol _ _ _ _

/-! ### Transformations -/

theorem affineMap_eq (m : Matrix4 K W) : affineMap m = affHom (m.d⁻¹ • m.A) (m.d⁻¹ • m.b) := by
  ext p
  · simp [affineMap, affHom]
  · simp [affineMap, affHom]
  · simp [affineMap, affHom]
  · simp [affineMap, affHom]

/-- **Transforming by a similarity** multiplies the length, and its linear part maps the derivatives. -/
theorem C105_similarity {m : Matrix4 K W} (hc : m.c = 0) (hd : m.d ≠ 0) (h : ∀ x, nrm (m.d⁻¹ • m.A x) = s * nrm x) (eps : K)
    {c : Curve K (W × K)} (hw : ∀ p ∈ c.cps, p.2 ≠ 0) :
    ∃ c', c.transform m = .ok c' ∧ (∀ u e, c.tangentAt eps u = .error e → c'.tangentAt eps u = .error e) ∧
      (∀ u v, c.tangentAt eps u = .ok v → c'.tangentAt eps u = .ok (m.d⁻¹ • m.A v)) ∧
      (c.isClamped eps = .ok true → ∀ rule l, tryLength nrm rule eps c = .ok l → tryLength nrm rule eps c' = .ok (s * l)) := by
  refine ⟨_, transform_eq hc hd hw, fun u e he => ?_, fun u v hv => ?_, fun hcl rule l hl => ?_⟩
  · rw [affineMap_eq, tangentAt_moved, he]; rfl
  · rw [affineMap_eq, tangentAt_moved, hv]; rfl
  · rw [affineMap_eq, C105_length h rule eps c hcl, hl]; rfl

/-- **Transforming by an isometry** changes neither the parameters at given lengths nor the parameter closest to the moved point; the
    closest point is moved along. -/
theorem C105_isometry {m : Matrix4 K W} (hc : m.c = 0) (hd : m.d ≠ 0) (h : ∀ x, nrm (m.d⁻¹ • m.A x) = nrm x)
    (hdot : ∀ x y, dot (m.d⁻¹ • m.A x) (m.d⁻¹ • m.A y) = dot x y) (eps : K) {c : Curve K (W × K)} (hw : ∀ p ∈ c.cps, p.2 ≠ 0) :
    ∃ c', c.transform m = .ok c' ∧
      (c.isClamped eps = .ok true → ∀ fuel rule len tol,
        tryParameterAtLength fuel nrm rule eps c' len tol = tryParameterAtLength fuel nrm rule eps c len tol) ∧
      ∀ pt, findClosestParameter nrm dot eps c' (m.d⁻¹ • (m.A pt + m.b)) = findClosestParameter nrm dot eps c pt ∧
        ∀ q, findClosestPoint nrm dot eps c pt = .ok q →
          findClosestPoint nrm dot eps c' (m.d⁻¹ • (m.A pt + m.b)) = .ok (m.d⁻¹ • (m.A q + m.b)) := by
  refine ⟨_, transform_eq hc hd hw, fun hcl fuel rule len tol => ?_, fun pt => ⟨?_, fun q hq => ?_⟩⟩
  · rw [affineMap_eq, C105_parameter h fuel rule eps c hcl]
  · rw [affineMap_eq, smul_add]
    exact C105_closest_parameter (A := m.d⁻¹ • m.A) h hdot eps c pt
  · have := C105_closest_point (A := m.d⁻¹ • m.A) (t := m.d⁻¹ • m.b) (nrm := nrm) (nrm' := nrm) (dot := dot) (dot' := dot) h hdot eps c pt
    rw [hq] at this
    rw [affineMap_eq, smul_add, smul_add]
    exact this

end

/-! ### Witnesses -/

/-- The rotation of the plane by an angle. -/
noncomputable def planeRot (θ : ℝ) : (ℝ × ℝ) →ₗ[ℝ] (ℝ × ℝ) where
  toFun v := (Real.cos θ * v.1 - Real.sin θ * v.2, Real.sin θ * v.1 + Real.cos θ * v.2)
  map_add' x y := by ext <;> simp <;> ring
  map_smul' a x := by ext <;> simp <;> ring

/-- The inner product of the plane. -/
def planeDot (v w : ℝ × ℝ) : ℝ := v.1 * w.1 + v.2 * w.2

/-- The norm of the plane. -/
noncomputable def planeNorm (v : ℝ × ℝ) : ℝ := Real.sqrt (planeDot v v)

theorem planeRot_dot (θ : ℝ) (v w : ℝ × ℝ) : planeDot (planeRot θ v) (planeRot θ w) = planeDot v w := by
  simp only [planeDot, planeRot, LinearMap.coe_mk, AddHom.coe_mk]
  linear_combination (v.1 * w.1 + v.2 * w.2) * Real.cos_sq_add_sin_sq θ

theorem planeRot_norm (θ : ℝ) (v : ℝ × ℝ) : planeNorm (planeRot θ v) = planeNorm v := by
  rw [planeNorm, planeRot_dot]; rfl

/-- Rotations of the plane by any angle followed by any translation: every curve, every point. -/
example (θ : ℝ) (b : ℝ × ℝ) (eps : ℝ) (c : Curve ℝ ((ℝ × ℝ) × ℝ)) (pt : ℝ × ℝ) :
    Closest.findClosestPoint planeNorm planeDot eps (c.mapCps (affHom (planeRot θ) b)) (planeRot θ pt + b) =
      Except.map (fun x => planeRot θ x + b) (Closest.findClosestPoint planeNorm planeDot eps c pt) :=
  C105_closest_point (planeRot_norm θ) (planeRot_dot θ) eps c pt

/-- The witness curve of the plane, its control points rotated: the hypotheses on the curve hold. -/
example (θ : ℝ) : ∃ c', (⟨2, [((0, 0), 1), ((1, 2), 2), ((3, 0), 1)], [0, 0, 0, 1, 1, 1]⟩ : Curve ℝ ((ℝ × ℝ) × ℝ)).transform
      ⟨(2 : ℝ) • planeRot θ, (1, 5), 0, 2⟩ = .ok c' ∧ c'.knots = [0, 0, 0, 1, 1, 1] := by
  obtain ⟨c', h, -⟩ := C105_isometry (m := ⟨(2 : ℝ) • planeRot θ, (1, 5), 0, 2⟩) (nrm := planeNorm) (dot := planeDot) rfl (by norm_num)
    (fun x => by
      simp only [LinearMap.smul_apply]
      rw [smul_smul, inv_mul_cancel₀ (by norm_num), one_smul, planeRot_norm])
    (fun x y => by
      simp only [LinearMap.smul_apply]
      rw [smul_smul, inv_mul_cancel₀ (by norm_num), one_smul, smul_smul, inv_mul_cancel₀ (by norm_num), one_smul, planeRot_dot]) (1/1000)
    (c := ⟨2, [((0, 0), 1), ((1, 2), 2), ((3, 0), 1)], [0, 0, 0, 1, 1, 1]⟩) (by
      intro p hp
      simp only [List.mem_cons, List.not_mem_nil, or_false] at hp
      rcases hp with rfl | rfl | rfl <;> norm_num)
  refine ⟨c', h, ?_⟩
  obtain ⟨cps, -, h⟩ := bind_eq_ok.1 h
  rw [← Except.ok.inj h]

/-- The witness walk reflected and translated by five: the same divisions; doubled: twice the length. -/
example : Length.tryDivideByLength 40 (fun v : ℚ => |v|) exRule (1/1000) (exWalk.mapCps (affHom (-LinearMap.id) 5)) (1/2) =
      .ok [(0, 0), (513/1024, 1/2), (1, 1), (1537/1024, 3/2), (2049/1024, 2), (2561/1024, 5/2), (3, 3)] ∧
    Length.tryLength (fun v : ℚ => |v|) exRule (1/1000) (exWalk.mapCps (affHom ((2 : ℚ) • LinearMap.id) 5)) = .ok 6 := by
  constructor
  · rw [(C105_divide (A := -LinearMap.id) (t := (5 : ℚ)) (nrm := fun v : ℚ => |v|) (fun x => by simp) 40 exRule exWalk_good exWalk_sep
      (by decide +kernel) (by decide +kernel)).1]
    decide +kernel
  · rw [C105_length (A := (2 : ℚ) • LinearMap.id) (s := 2) (nrm := fun v : ℚ => |v|) (fun x => by simp [abs_mul]) exRule _ _
      (by decide +kernel)]
    decide +kernel

/-- Tessellation in the plane with the flatness test of the code: rotations keep the determinant. -/
example (θ : ℝ) (b : ℝ × ℝ) (N : ℝ × ℝ → ℝ × ℝ) (C : ℝ × ℝ → ℝ × ℝ → ℝ × ℝ) (eps floor : ℝ) (rnd : ℕ → ℝ) (fuel : ℕ)
    (c : Curve ℝ ((ℝ × ℝ) × ℝ)) (tol : ℝ) :
    Tess.tessellateCurve ⟨C, N, fun v => planeDot v v, Misc.threePointsAreFlat2⟩ eps floor rnd fuel (c.mapCps (affHom (planeRot θ) b)) tol =
      Except.map (fun r => (r.1.map fun x => planeRot θ x + b, r.2))
        (Tess.tessellateCurve ⟨C, N, fun v => planeDot v v, Misc.threePointsAreFlat2⟩ eps floor rnd fuel c tol) := by
  refine C105_tessellate (fun x => planeRot_dot θ x x) (fun p q r tol => ?_) eps floor rnd fuel c tol
  simp only [Misc.threePointsAreFlat2]
  congr 3
  simp only [planeRot, LinearMap.coe_mk, AddHom.coe_mk, Prod.fst_add, Prod.snd_add]
  linear_combination ((q.1 - p.1) * (r.2 - p.2) - (q.2 - p.2) * (r.1 - p.1)) * Real.cos_sq_add_sin_sq θ

end Curvo.Props

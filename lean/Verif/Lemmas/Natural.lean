/-
  The curve operations are natural: they commute with linear maps of the homogeneous control points.
-/
import Verif.Model.Elevate
import Verif.Props.Curve2

set_option linter.unusedSectionVars false
set_option linter.unusedSimpArgs false

namespace Curvo

section
variable {α β γ : Type}

theorem map_bind' (x : Res α) (g : α → Res β) (h : β → γ) : Except.map h (x >>= g) = x >>= fun a => Except.map h (g a) := by
  cases x <;> rfl

theorem bind_map' (x : Res α) (f : α → β) (g : β → Res γ) : (Except.map f x >>= g) = x >>= fun a => g (f a) := by
  cases x <;> rfl

theorem bind_of_map {x : Res α} {x' : Res β} (f : α → β) (hx : x' = Except.map f x) {g' : β → Res γ} {g : α → Res γ}
    (h : ∀ a, g' (f a) = g a) : (x' >>= g') = x >>= g := by
  rw [hx, bind_map']
  exact bind_congr h

theorem map_pure' (x : α) (f : α → β) : Except.map f (pure x : Res α) = pure (f x) := rfl

theorem map_ite' (c : Prop) [Decidable c] (x y : Res α) (f : α → β) :
    Except.map f (if c then x else y) = if c then Except.map f x else Except.map f y := by
  split <;> rfl

theorem getR_map (f : α → β) (l : List α) (i : ℕ) : getR (l.map f) i = Except.map f (getR l i) := by
  unfold getR
  rw [List.getElem?_map]
  cases l[i]? <;> rfl

theorem setR_map (f : α → β) (l : List α) (i : ℕ) (v : α) : setR (l.map f) i (f v) = Except.map (List.map f) (setR l i v) := by
  unfold setR
  rw [List.length_map]
  split
  · simp [Except.map]
  · rfl

theorem sliceR_map (f : α → β) (l : List α) (a b : ℕ) : sliceR (l.map f) a b = Except.map (List.map f) (sliceR l a b) := by
  unfold sliceR
  rw [List.length_map]
  split
  · simp [Except.map, List.map_drop, List.map_take]
  · rfl

theorem foldlM_map' {σ τ : Type} (φ : σ → τ) {step : σ → α → Res σ} {step' : τ → α → Res τ}
    (h : ∀ s x, step' (φ s) x = Except.map φ (step s x)) : ∀ (xs : List α) (s : σ),
    xs.foldlM step' (φ s) = Except.map φ (xs.foldlM step s)
  | [], s => rfl
  | x :: xs, s => by
    rw [List.foldlM_cons, List.foldlM_cons, h, bind_map', map_bind']
    exact bind_congr fun a => foldlM_map' φ h xs a

theorem mapM_map' {σ τ : Type} (φ : σ → τ) {f : α → Res σ} {f' : β → Res τ} {g : α → β}
    (h : ∀ x, f' (g x) = Except.map φ (f x)) : ∀ xs : List α,
    (xs.map g).mapM f' = Except.map (List.map φ) (xs.mapM f)
  | [] => rfl
  | x :: xs => by
    rw [List.map_cons, List.mapM_cons, List.mapM_cons, h, bind_map', map_bind']
    refine bind_congr fun a => ?_
    rw [mapM_map' φ h xs, bind_map', map_bind']
    rfl

end

namespace Curve

variable {K : Type} [Field K] [LinearOrder K] {V V' : Type} [AddCommGroup V] [Module K V] [AddCommGroup V'] [Module K V']
  (L : V →ₗ[K] V')

/-- The image of the state of the refinement. -/
def RefState.map (s : RefState K V) : RefState K V' := { cp := s.cp.map L, kn := s.kn, k := s.k, i := s.i }

theorem lerp_map (p q : V) (t : K) : lerp (L p) (L q) t = L (lerp p q t) := by
  simp [lerp, map_add, map_smul]

theorem copyRange_map {α β : Type} (f : α → β) (src : List α) (d lo hi : ℕ) (dst : List α) :
    copyRange (src.map f) d lo hi (dst.map f) = Except.map (List.map f) (copyRange src d lo hi dst) := by
  rw [copyRange, copyRange]
  refine foldlM_map' _ (fun s x => ?_) _ _
  rw [copyShift, copyShift, getR_map, bind_map', map_bind']
  exact bind_congr fun a => setR_map f _ _ _

theorem refineWhile_map (c : Curve K V) (a : ℕ) (x : K) : ∀ (fuel : ℕ) (s : RefState K V),
    refineWhile (c.mapCps L) a x fuel (s.map L) = Except.map (RefState.map L) (refineWhile c a x fuel s)
  | 0, s => rfl
  | fuel + 1, s => by
    have hs1 : (s.map L).i = s.i := rfl
    have hs2 : (s.map L).k = s.k := rfl
    have hs3 : (s.map L).kn = s.kn := rfl
    have hs4 : (s.map L).cp = s.cp.map L := rfl
    have hk : (c.mapCps L).knots = c.knots := rfl
    have hd : (c.mapCps L).degree = c.degree := rfl
    have hc : (c.mapCps L).cps = c.cps.map L := rfl
    rw [refineWhile, refineWhile, hs1, hs2, hs3, hs4, hk, hd, hc]
    simp only [getR_map, setR_map, map_bind', bind_map', map_ite', map_pure']
    refine bind_congr fun ki => ?_
    split
    · refine bind_congr fun a1 => bind_congr fun a2 => bind_congr fun a3 => bind_congr fun a4 => bind_congr fun a5 => ?_
      refine bind_congr fun a6 => bind_congr fun a7 => bind_congr fun a8 => bind_congr fun a9 => ?_
      exact refineWhile_map c a x fuel { cp := a6, kn := a7, k := a8, i := a9 }
    · rfl

theorem refineAlpha_map (eps : K) (c : Curve K V) (x : K) (kn : List K) (k i : ℕ) (cp : List V) (l : ℕ) :
    refineAlpha eps (c.mapCps L) x kn k i (cp.map L) l = Except.map (List.map L) (refineAlpha eps c x kn k i cp l) := by
  have hk : (c.mapCps L).knots = c.knots := rfl
  have hd : (c.mapCps L).degree = c.degree := rfl
  simp only [refineAlpha, hk, hd, getR_map, setR_map, map_bind', bind_map', map_ite', map_pure', List.length_map, lerp_map]

theorem refineStep_map (eps : K) (c : Curve K V) (a : ℕ) (s : RefState K V) (x : K) :
    refineStep eps (c.mapCps L) a (s.map L) x = Except.map (RefState.map L) (refineStep eps c a s x) := by
  have hd : (c.mapCps L).degree = c.degree := rfl
  rw [refineStep, refineStep, show (s.map L).i = s.i from rfl, refineWhile_map]
  simp only [map_bind', bind_map', hd]
  refine bind_congr fun s' => ?_
  have hs1 : (s'.map L).i = s'.i := rfl
  have hs2 : (s'.map L).k = s'.k := rfl
  have hs3 : (s'.map L).kn = s'.kn := rfl
  have hs4 : (s'.map L).cp = s'.cp.map L := rfl
  rw [hs1, hs2, hs3, hs4]
  simp only [getR_map, setR_map, map_bind', bind_map']
  refine bind_congr fun a1 => bind_congr fun a2 => bind_congr fun a3 => bind_congr fun a4 => ?_
  rw [foldlM_map' (List.map L) (fun cp l => refineAlpha_map L eps c x s'.kn s'.k s'.i cp l), bind_map']
  rfl

theorem tryRefineKnot_map (eps : K) (c : Curve K V) (xs : List K) :
    (c.mapCps L).tryRefineKnot eps xs = Except.map (mapCps L) (c.tryRefineKnot eps xs) := by
  cases xs with
  | nil => rfl
  | cons x0 rest =>
    have hk : (c.mapCps L).knots = c.knots := rfl
    have hd : (c.mapCps L).degree = c.degree := rfl
    have hc : (c.mapCps L).cps = c.cps.map L := rfl
    have hz : ∀ n, List.replicate n (0 : V') = (List.replicate n (0 : V)).map L := fun n => by simp
    simp only [tryRefineKnot, hk, hd, hc, hz, List.length_map, sliceR_map, map_bind', bind_map', ← List.map_drop, ← List.map_append,
      copyRange_map]
    refine bind_congr fun a1 => bind_congr fun a2 => bind_congr fun a3 => bind_congr fun a4 => bind_congr fun a5 => ?_
    refine bind_congr fun a6 => bind_congr fun a7 => bind_congr fun a8 => bind_congr fun a9 => bind_congr fun a10 => ?_
    have := foldlM_map' (RefState.map L) (fun s x => refineStep_map L eps c a3 s x) (x0 :: rest).reverse
      { cp := a8, kn := a10, i := a4 + 1 + c.degree - 1, k := a4 + 1 + c.degree + rest.length }
    rw [RefState.map] at this
    simp only at this
    rw [this, bind_map']
    rfl

theorem tryNew_map (degree : ℕ) (cps : List V) (knots : List K) :
    tryNew degree (cps.map L) knots = Except.map (mapCps L) (tryNew degree cps knots) := by
  simp only [tryNew, List.length_map]
  split
  · rfl
  · split <;> rfl

theorem trySplit_map (eps : K) (c : Curve K V) (u : K) :
    (c.mapCps L).trySplit eps u = Except.map (fun r => (r.1.mapCps L, r.2.mapCps L)) (c.trySplit eps u) := by
  have hk : (c.mapCps L).knots = c.knots := rfl
  have hd : (c.mapCps L).degree = c.degree := rfl
  have hl : (c.mapCps L).lastIndex = c.lastIndex := rfl
  simp only [trySplit, hk, hd, hl, tryRefineKnot_map, map_bind', bind_map']
  refine bind_congr fun a1 => bind_congr fun cl => bind_congr fun a3 => bind_congr fun a4 => ?_
  have hk : (cl.mapCps L).knots = cl.knots := rfl
  have hc : (cl.mapCps L).cps = cl.cps.map L := rfl
  simp only [hk, hc, List.length_map, sliceR_map, tryNew_map, map_bind', bind_map']
  rfl

theorem tryTrimRange_map (eps : K) (c : Curve K V) (t0 t1 : K) :
    (c.mapCps L).tryTrimRange eps t0 t1 = Except.map (List.map (mapCps L)) (c.tryTrimRange eps t0 t1) := by
  simp only [tryTrimRange, trySplit_map, map_bind', bind_map', map_ite']
  rfl

/-! ### Degree elevation -/

/-- The image of the state of the elevation. -/
def Elev.map (s : Elev K V) : Elev K V' :=
  { bpts := s.bpts.map L, ebpts := s.ebpts.map L, nbpts := s.nbpts.map L, qw := s.qw.map L, uh := s.uh, kind := s.kind,
    cind := s.cind, a := s.a, b := s.b, r := s.r, ua := s.ua }

theorem lerp1_map (x y : V) (t : K) : lerp1 (L x) (L y) t = L (lerp1 x y t) := by
  simp [lerp1, map_add, map_smul]

theorem elevInsert_map (c : Curve K V) (ub : K) (mul r : ℕ) (s : Elev K V) :
    elevInsert (c.mapCps L) ub mul r (s.map L) = Except.map (Elev.map L) (elevInsert c ub mul r s) := by
  have hk : (c.mapCps L).knots = c.knots := rfl
  have hd : (c.mapCps L).degree = c.degree := rfl
  have h1 : (s.map L).ua = s.ua := rfl
  have h2 : (s.map L).a = s.a := rfl
  have h3 : ((s.map L).bpts, (s.map L).nbpts) = Prod.map (List.map L) (List.map L) (s.bpts, s.nbpts) := rfl
  simp only [elevInsert, hk, hd, h1, h2, h3, map_bind']
  refine bind_congr fun alfs => ?_
  rw [foldlM_map' (Prod.map (List.map L) (List.map L)) (fun st j => ?_), bind_map']
  · rfl
  · simp only [map_bind']
    rw [show (Prod.map (List.map L) (List.map L) st).1 = st.1.map L from rfl,
      foldlM_map' (List.map L) (step := fun bpts k => do
        let x ← getR bpts k
        let y ← getR bpts (k - 1)
        let al ← getR alfs (k - (mul + j))
        setR bpts k (lerp1 x y al)) (fun bpts k => by
        simp only [getR_map, setR_map, map_bind', bind_map', lerp1_map]), bind_map']
    refine bind_congr fun bp => ?_
    rw [show (Prod.map (List.map L) (List.map L) st).2 = st.2.map L from rfl]
    simp only [getR_map, setR_map, map_bind', bind_map']
    rfl

theorem elevSegment_map (p inc : ℕ) (bez : List (List K)) (lbz : ℕ) (bpts ebpts : List V) :
    elevSegment p inc bez lbz (bpts.map L) (ebpts.map L) = Except.map (List.map L) (elevSegment p inc bez lbz bpts ebpts) := by
  rw [elevSegment, elevSegment]
  refine foldlM_map' _ (fun e d => ?_) _ _
  simp only [map_bind']
  rw [← map_zero L, setR_map, bind_map']
  refine bind_congr fun e => bind_congr fun lo => ?_
  refine foldlM_map' _ (fun e d => ?_) _ _
  simp only [getR_map, setR_map, map_bind', bind_map', ← map_smul, ← map_add]

theorem elevRemoveInner_map (ph lbz : ℕ) (oldr tr : ℤ) (ub den bet : K) (s : Elev K V) : ∀ (fuel i j kj : ℕ) (qw ebpts : List V),
    elevRemoveInner ph lbz oldr tr ub den bet (s.map L) fuel i j kj (qw.map L) (ebpts.map L) =
      Except.map (Prod.map (List.map L) (List.map L)) (elevRemoveInner ph lbz oldr tr ub den bet s fuel i j kj qw ebpts)
  | 0, _, _, _, _, _ => rfl
  | fuel + 1, i, j, kj, qw, ebpts => by
    have h1 : (s.map L).ua = s.ua := rfl
    have h2 : (s.map L).uh = s.uh := rfl
    have h3 : (s.map L).cind = s.cind := rfl
    have h4 : (s.map L).kind = s.kind := rfl
    rw [elevRemoveInner, elevRemoveInner, h1, h2, h3, h4, map_ite']
    split
    · have e1 : ((if i < s.cind then do
          let u ← getR s.uh i
          let alf ← divR (ub - u) (s.ua - u)
          let i1 ← subR i 1
          let x ← getR (qw.map L) i
          let y ← getR (qw.map L) i1
          setR (qw.map L) i (lerp1 x y alf)
        else pure (qw.map L) : Res (List V'))) = Except.map (List.map L) (if i < s.cind then do
          let u ← getR s.uh i
          let alf ← divR (ub - u) (s.ua - u)
          let i1 ← subR i 1
          let x ← getR qw i
          let y ← getR qw i1
          setR qw i (lerp1 x y alf)
        else pure qw) := by
        simp only [getR_map, setR_map, map_bind', bind_map', lerp1_map, map_ite', map_pure']
      rw [e1, bind_map', map_bind']
      refine bind_congr fun q => ?_
      simp only [getR_map, setR_map, map_bind', bind_map', lerp1_map, map_ite', map_pure']
      have e2 : ((if lbz ≤ j then
          if (j : ℤ) - tr ≤ (s.kind : ℤ) - (ph : ℤ) + oldr then do
            let jt ← subR j tr.toNat
            let u ← getR s.uh jt
            let gam ← divR (ub - u) den
            let x ← getR ebpts kj
            let y ← getR ebpts (kj + 1)
            Except.map (List.map L) (setR ebpts kj (lerp1 x y gam))
          else pure (ebpts.map L)
        else do
          let x ← getR ebpts kj
          let y ← getR ebpts (kj + 1)
          Except.map (List.map L) (setR ebpts kj (lerp1 x y bet)) : Res (List V'))) = Except.map (List.map L) (if lbz ≤ j then
          if (j : ℤ) - tr ≤ (s.kind : ℤ) - (ph : ℤ) + oldr then do
            let jt ← subR j tr.toNat
            let u ← getR s.uh jt
            let gam ← divR (ub - u) den
            let x ← getR ebpts kj
            let y ← getR ebpts (kj + 1)
            setR ebpts kj (lerp1 x y gam)
          else pure ebpts
        else do
          let x ← getR ebpts kj
          let y ← getR ebpts (kj + 1)
          setR ebpts kj (lerp1 x y bet)) := by
        simp only [getR_map, setR_map, map_bind', bind_map', lerp1_map, map_ite', map_pure']
      rw [e2, bind_map']
      refine bind_congr fun e => bind_congr fun j' => bind_congr fun kj' => ?_
      exact elevRemoveInner_map ph lbz oldr tr ub den bet s fuel (i + 1) j' kj' q e
    · rfl

theorem elevRemove_map (ph lbz : ℕ) (oldr : ℤ) (ub : K) (s : Elev K V) :
    elevRemove ph lbz oldr ub (s.map L) = Except.map (Elev.map L) (elevRemove ph lbz oldr ub s) := by
  have h1 : (s.map L).ua = s.ua := rfl
  have h2 : (s.map L).uh = s.uh := rfl
  have h4 : (s.map L).kind = s.kind := rfl
  have h5 : (s.map L).qw = s.qw.map L := rfl
  have h6 : (s.map L).ebpts = s.ebpts.map L := rfl
  simp only [elevRemove, h1, h2, h4, h5, h6, map_bind']
  refine bind_congr fun a1 => bind_congr fun a2 => bind_congr fun a3 => bind_congr fun a4 => ?_
  have := fun l => foldlM_map' (fun st : ℕ × ℕ × List V × List V =>
      ((st.1, st.2.1, st.2.2.1.map L, st.2.2.2.map L) : ℕ × ℕ × List V' × List V'))
    (step := fun (st : ℕ × ℕ × List V × List V) (tr : ℤ) => do
      let kj ← subR st.2.1 s.kind
      let x ← elevRemoveInner ph lbz oldr tr ub (ub - s.ua) a4 s (st.2.1 + 1) st.1 st.2.1 (kj + 1) st.2.2.1 st.2.2.2
      let first ← subR st.1 1
      pure (first, st.2.1 + 1, x.1, x.2))
    (step' := fun (st : ℕ × ℕ × List V' × List V') (tr : ℤ) => do
      let kj ← subR st.2.1 s.kind
      let x ← elevRemoveInner ph lbz oldr tr ub (ub - s.ua) a4 (s.map L) (st.2.1 + 1) st.1 st.2.1 (kj + 1) st.2.2.1 st.2.2.2
      let first ← subR st.1 1
      pure (first, st.2.1 + 1, x.1, x.2)) (fun st tr => by
        simp only [elevRemoveInner_map, bind_map', map_bind', map_pure']
        rfl) l (a1, s.kind, s.qw, s.ebpts)
  simp only at this
  rw [this, bind_map']
  rfl

theorem elevKnots_map (p ph : ℕ) (oldr : ℤ) (s : Elev K V) :
    elevKnots p ph oldr (s.map L) = Except.map (Elev.map L) (elevKnots p ph oldr s) := by
  have h1 : (s.map L).ua = s.ua := rfl
  have h2 : (s.map L).uh = s.uh := rfl
  have h3 : (s.map L).a = s.a := rfl
  have h4 : (s.map L).kind = s.kind := rfl
  simp only [elevKnots, h1, h2, h3, h4, map_ite', map_bind', map_pure']
  rfl

theorem elevStep_map (c : Curve K V) (inc m : ℕ) (bez : List (List K)) (s : Elev K V) :
    elevStep (c.mapCps L) inc m bez (s.map L) = Except.map (Elev.map L) (elevStep c inc m bez s) := by
  have hk : (c.mapCps L).knots = c.knots := rfl
  have hd : (c.mapCps L).degree = c.degree := rfl
  have hc : (c.mapCps L).cps = c.cps.map L := rfl
  simp only [elevStep, hk, hd, hc, show (s.map L).b = s.b from rfl, show (s.map L).r = s.r from rfl, map_bind']
  refine bind_congr fun b => bind_congr fun ub => ?_
  -- inserting
  have e1 : ∀ s : Elev K V, (if 0 < (c.degree : ℤ) - ((b - s.b + 1 : ℕ) : ℤ) then elevInsert (c.mapCps L) ub (b - s.b + 1)
        ((c.degree : ℤ) - ((b - s.b + 1 : ℕ) : ℤ)).toNat
        { (s.map L) with b := b, r := (c.degree : ℤ) - ((b - s.b + 1 : ℕ) : ℤ) }
      else pure { (s.map L) with b := b, r := (c.degree : ℤ) - ((b - s.b + 1 : ℕ) : ℤ) }) =
      Except.map (Elev.map L) (if 0 < (c.degree : ℤ) - ((b - s.b + 1 : ℕ) : ℤ) then elevInsert c ub (b - s.b + 1)
        ((c.degree : ℤ) - ((b - s.b + 1 : ℕ) : ℤ)).toNat
        { s with b := b, r := (c.degree : ℤ) - ((b - s.b + 1 : ℕ) : ℤ) }
      else pure { s with b := b, r := (c.degree : ℤ) - ((b - s.b + 1 : ℕ) : ℤ) }) := by
    intro s
    rw [map_ite', ← elevInsert_map]
    rfl
  rw [e1, bind_map']
  refine bind_congr fun s1 => ?_
  rw [show (s1.map L).bpts = s1.bpts.map L from rfl, show (s1.map L).ebpts = s1.ebpts.map L from rfl, elevSegment_map, bind_map']
  refine bind_congr fun eb => ?_
  -- removing
  have e2 : ∀ (lbz : ℕ), (if 1 < s.r then elevRemove (c.degree + inc) lbz s.r ub { (s1.map L) with ebpts := eb.map L }
      else pure { (s1.map L) with ebpts := eb.map L }) = Except.map (Elev.map L)
      (if 1 < s.r then elevRemove (c.degree + inc) lbz s.r ub { s1 with ebpts := eb } else pure { s1 with ebpts := eb }) := by
    intro lbz
    rw [map_ite', ← elevRemove_map]
    rfl
  refine bind_of_map (Elev.map L) (e2 _) fun s2 => ?_
  rw [elevKnots_map, bind_map']
  refine bind_congr fun s3 => ?_
  rw [show (s3.map L).ebpts = s3.ebpts.map L from rfl, show (s3.map L).qw = s3.qw.map L from rfl,
    show (s3.map L).cind = s3.cind from rfl]
  have e3 : ∀ (lbz : ℕ) (l : List ℕ), l.foldlM (fun (st : List V' × ℕ) d => do
        let x ← getR (s3.ebpts.map L) (lbz + d)
        let qw ← setR st.1 st.2 x
        pure (qw, st.2 + 1)) (s3.qw.map L, s3.cind) = Except.map (fun st : List V × ℕ => (st.1.map L, st.2))
      (l.foldlM (fun (st : List V × ℕ) d => do
        let x ← getR s3.ebpts (lbz + d)
        let qw ← setR st.1 st.2 x
        pure (qw, st.2 + 1)) (s3.qw, s3.cind)) := by
    intro lbz l
    refine foldlM_map' (fun st : List V × ℕ => (st.1.map L, st.2)) (fun st d => ?_) l (s3.qw, s3.cind)
    simp only [getR_map, setR_map, map_bind', bind_map', map_pure']
  rw [e3, bind_map']
  refine bind_congr fun st => ?_
  simp only
  split
  · rw [show (s3.map L).nbpts = s3.nbpts.map L from rfl, show (s3.map L).bpts = s3.bpts.map L from rfl]
    simp only [sliceR_map, map_bind', bind_map', ← List.map_drop, ← List.map_append]
    refine bind_congr fun ur => bind_congr fun src => bind_congr fun x => bind_congr fun bp => ?_
    rw [foldlM_map' (List.map L) (step := fun bpts d => do
      let x ← getR c.cps (bp + (ur + d))
      setR bpts (ur + d) x) (fun bpts d => by simp only [getR_map, setR_map, map_bind', bind_map']), bind_map']
    rfl
  · rw [map_bind']
    rfl

theorem elevLoop_map (c : Curve K V) (inc m : ℕ) (bez : List (List K)) : ∀ (fuel : ℕ) (s : Elev K V),
    elevLoop (c.mapCps L) inc m bez fuel (s.map L) = Except.map (Elev.map L) (elevLoop c inc m bez fuel s)
  | 0, s => rfl
  | fuel + 1, s => by
    rw [elevLoop, elevLoop, show (s.map L).b = s.b from rfl, map_ite']
    split
    · rw [elevStep_map, bind_map', map_bind']
      exact bind_congr fun s' => elevLoop_map c inc m bez fuel s'
    · rfl

theorem tryElevateDegree_map (c : Curve K V) (target : ℕ) :
    (c.mapCps L).tryElevateDegree target = Except.map (mapCps L) (c.tryElevateDegree target) := by
  have hk : (c.mapCps L).knots = c.knots := rfl
  have hd : (c.mapCps L).degree = c.degree := rfl
  have hc : (c.mapCps L).cps = c.cps.map L := rfl
  have hz : ∀ n, List.replicate n (0 : V') = (List.replicate n (0 : V)).map L := fun n => by simp
  simp only [tryElevateDegree, hk, hd, hc, hz, map_ite', map_bind', bind_map', List.length_map, getR_map, setR_map, sliceR_map,
    ← List.map_drop, ← List.map_append]
  split
  · rfl
  · refine bind_congr fun a1 => bind_congr fun a2 => bind_congr fun a3 => bind_congr fun a4 => bind_congr fun a5 => ?_
    refine bind_congr fun a6 => bind_congr fun a7 => bind_congr fun a8 => ?_
    exact bind_of_map (Elev.map L) (elevLoop_map L c _ _ _ _ ⟨_, _, _, _, _, _, _, _, _, _, _⟩) fun s => rfl

theorem tryUnify_map (eps : K) (cs : List (Curve K V)) :
    tryUnify eps (cs.map (mapCps L)) = Except.map (List.map (mapCps L)) (tryUnify eps cs) := by
  have hdeg : (cs.map (mapCps L)).foldl (fun d c => max d c.degree) 0 = cs.foldl (fun d c => max d c.degree) 0 := by
    rw [List.foldl_map]; rfl
  rw [tryUnify, tryUnify, hdeg, mapM_map' (mapCps L) (f := fun c => if c.degree < cs.foldl (fun d c => max d c.degree) 0 then
    c.tryElevateDegree (cs.foldl (fun d c => max d c.degree) 0) else pure c) (fun c => by
      rw [show (c.mapCps L).degree = c.degree from rfl, tryElevateDegree_map, map_ite']; rfl), bind_map', map_bind']
  refine bind_congr fun cs1 => ?_
  rw [map_bind', mapM_map' id (f := fun c : Curve K V => do
    let a ← getR c.knots 0
    let l ← subR c.knots.length 1
    let b ← getR c.knots l
    pure (a, b)) (fun c => by
      rw [show (c.mapCps L).knots = c.knots from rfl]
      simp only [map_bind', map_pure']
      rfl), bind_map']
  refine bind_congr fun ivs => ?_
  simp only [List.map_id, map_bind', List.zip_map_left]
  refine bind_of_map (List.map (mapCps L)) (mapM_map' (mapCps L) (fun c => ?_) _) fun cs2 => ?_
  · simp only [map_bind', map_pure']
    rfl
  rw [List.foldl_map]
  refine mapM_map' (mapCps L) (fun c => ?_) cs2
  rw [map_ite', tryRefineKnot_map]
  rfl

/-! ### Inversion and Bezier segments -/

theorem invert_map (c : Curve K V) : (c.mapCps L).invert = Except.map (mapCps L) c.invert := by
  simp only [invert, show (c.mapCps L).knots = c.knots from rfl, show (c.mapCps L).cps = c.cps.map L from rfl, map_bind', map_pure',
    ← List.map_reverse]
  rfl

end Curve

namespace Curve
variable {K : Type} [Field K] [LinearOrder K] {W W' : Type} [AddCommGroup W] [Module K W] [AddCommGroup W'] [Module K W']
  (L : (W × K) →ₗ[K] (W' × K))

theorem tryDecompose_map (eps : K) (c : Curve K (W × K)) (hc : c.isClamped eps = .ok true) :
    (c.mapCps L).tryDecomposeBezierSegments eps = Except.map (List.map (mapCps L)) (c.tryDecomposeBezierSegments eps) := by
  have hc' : (c.mapCps L).isClamped eps = .ok true := hc
  rw [tryDecomposeBezierSegments, tryDecomposeBezierSegments, hc, hc', ok_bind, ok_bind, if_pos rfl, if_pos rfl, pure_eq_ok, pure_eq_ok,
    ok_bind, ok_bind]
  simp only [show (c.mapCps L).knots = c.knots from rfl, show (c.mapCps L).degree = c.degree from rfl, map_bind']
  refine bind_congr fun mults => ?_
  rw [foldlM_map' (mapCps L) (step := decomposeRefine eps (c.degree + 1)) (fun s m => by
    rw [decomposeRefine, decomposeRefine, map_ite', tryRefineKnot_map]; rfl), bind_map']
  refine bind_congr fun cl => ?_
  have hk : (cl.mapCps L).knots = cl.knots := rfl
  have hcp : (cl.mapCps L).cps = cl.cps.map L := rfl
  rw [hk, hcp]
  refine bind_congr fun dv => ?_
  have := mapM_map' (g := id) (mapCps L) (f := fun i : ℕ => do
    let knots ← sliceR cl.knots (i * (c.degree + 1)) (i * (c.degree + 1) + (c.degree + 1) * 2)
    let cps ← sliceR cl.cps (i * (c.degree + 1)) (i * (c.degree + 1) + (c.degree + 1))
    pure ({ degree := c.degree, cps := cps, knots := knots } : Curve K (W × K)))
    (f' := fun i : ℕ => do
    let knots ← sliceR cl.knots (i * (c.degree + 1)) (i * (c.degree + 1) + (c.degree + 1) * 2)
    let cps ← sliceR (cl.cps.map L) (i * (c.degree + 1)) (i * (c.degree + 1) + (c.degree + 1))
    pure ({ degree := c.degree, cps := cps, knots := knots } : Curve K (W' × K))) (fun i => by
      simp only [sliceR_map, map_bind', bind_map', map_pure', id]
      rfl) (List.range dv)
  rw [List.map_id] at this
  rw [this, bind_map']
  refine bind_congr fun segs => ?_
  rw [List.length_map, map_ite']
  rfl

end Curve
end Curvo

/-
  Isocurves of refined and of cut surfaces, refinements of surfaces in any order: C117.
-/
import Verif.Props.Cutting
import Verif.Props.Surface3
import Verif.Props.Isocurve

set_option linter.unusedSectionVars false
set_option linter.unusedSimpArgs false

namespace Curvo.Props

open Curvo Curvo.Knots Curvo.Spec Curvo.Surface

variable {K : Type} [Field K] [LinearOrder K] [IsStrictOrderedRing K]
variable {V : Type} [AddCommGroup V] [Module K V]

theorem TameNet.isoU {eps : K} {S : Surface K V} (h : TameNet eps S) (u : K) : Tame eps (S.isoU u) :=
  ⟨h.good.isoU u, fun x hx => by rw [isoU_lo, isoU_hi]; exact h.vin x hx, h.vcount⟩

theorem TameNet.isoV {eps : K} {S : Surface K V} (h : TameNet eps S) (v : K) : Tame eps (S.isoV v) :=
  ⟨h.good.isoV v, fun x hx => by rw [isoV_lo, isoV_hi]; exact h.uin x hx, h.ucount⟩

/-! ### Refining in any order -/

/-- `S'` refines `S` by the knots `xs` in u and `ys` in v. -/
structure SurfRefines (eps : K) (S S' : Surface K V) (xs ys : List K) : Prop where
  good : S'.Good eps
  uDegree : S'.uDegree = S.uDegree
  vDegree : S'.vDegree = S.vDegree
  uSorted : S'.uKnots.Pairwise (· ≤ ·)
  vSorted : S'.vKnots.Pairwise (· ≤ ·)
  uKnots : S'.uKnots.Perm (xs ++ S.uKnots)
  vKnots : S'.vKnots.Perm (ys ++ S.vKnots)
  ulo : S'.ulo = S.ulo
  uhi : S'.uhi = S.uhi
  vlo : S'.vlo = S.vlo
  vhi : S'.vhi = S.vhi
  eval : ∀ u v, S.ulo ≤ u → u ≤ S.uhi → S.vlo ≤ v → v ≤ S.vhi → S'.eval u v = S.eval u v

theorem surf_uSorted {eps : K} {S : Surface K V} (h : S.Good eps) : S.uKnots.Pairwise (· ≤ ·) := (h.col 0).pre.sorted
theorem surf_vSorted {eps : K} {S : Surface K V} (h : S.Good eps) : S.vKnots.Pairwise (· ≤ ·) := (h.isoU 0).pre.sorted

theorem SurfRefines.refl {eps : K} {S : Surface K V} (h : S.Good eps) : SurfRefines eps S S [] [] :=
  ⟨h, rfl, rfl, surf_uSorted h, surf_vSorted h, List.Perm.refl _, List.Perm.refl _, rfl, rfl, rfl, rfl, fun _ _ _ _ _ _ => rfl⟩

theorem SurfRefines.unique {eps : K} {S S' S'' : Surface K V} {xs ys xs' ys' : List K} (h' : SurfRefines eps S S' xs ys)
    (h'' : SurfRefines eps S S'' xs' ys') (px : xs.Perm xs') (py : ys.Perm ys') (hS : TameNet eps S)
    (hx : ∀ x ∈ xs, S.ulo ≤ x ∧ x ≤ S.uhi) (hy : ∀ y ∈ ys, S.vlo ≤ y ∧ y ≤ S.vhi)
    (cx : ∀ x, (xs ++ S.uKnots).count x ≤ S.uDegree + 1) (cy : ∀ y, (ys ++ S.vKnots).count y ≤ S.vDegree + 1) : S'' = S' := by
  have ku : S''.uKnots = S'.uKnots := by
    refine List.Perm.eq_of_pairwise (fun a b _ _ h1 h2 => le_antisymm h1 h2) h''.uSorted h'.uSorted ?_
    exact h''.uKnots.trans ((px.symm.append_right _).trans h'.uKnots.symm)
  have kv : S''.vKnots = S'.vKnots := by
    refine List.Perm.eq_of_pairwise (fun a b _ _ h1 h2 => le_antisymm h1 h2) h''.vSorted h'.vSorted ?_
    exact h''.vKnots.trans ((py.symm.append_right _).trans h'.vKnots.symm)
  refine C107_surface_determined ⟨h'.good, ?_, ?_, ?_, ?_⟩ h''.good (h''.uDegree.trans h'.uDegree.symm) (h''.vDegree.trans h'.vDegree.symm)
    ku kv ?_
  · intro x hx'
    rw [h'.ulo, h'.uhi]
    rcases List.mem_append.1 (h'.uKnots.mem_iff.1 hx') with h | h
    exacts [hx x h, hS.uin x h]
  · intro x hx'
    rw [h'.vlo, h'.vhi]
    rcases List.mem_append.1 (h'.vKnots.mem_iff.1 hx') with h | h
    exacts [hy x h, hS.vin x h]
  · intro x; rw [h'.uKnots.count_eq, h'.uDegree]; exact cx x
  · intro x; rw [h'.vKnots.count_eq, h'.vDegree]; exact cy x
  · intro u v h1 h2 h3 h4
    rw [h'.ulo] at h1; rw [h'.uhi] at h2; rw [h'.vlo] at h3; rw [h'.vhi] at h4
    rw [h'.eval u v h1.le h2.le h3.le h4.le, h''.eval u v h1.le h2.le h3.le h4.le]

/-- Refining one direction after another. -/
def refineAll (eps : K) (steps : List (UV × List K)) (S : Surface K V) : Res (Surface K V) :=
  steps.foldlM (fun S s => S.tryRefineKnot eps s.2 s.1) S

/-- The new knots of a direction. -/
def newKnots (steps : List (UV × List K)) (dir : UV) : List K := steps.flatMap fun s => if s.1 = dir then s.2 else []

theorem refineAll_refines {eps : K} : ∀ (steps : List (UV × List K)) {S : Surface K V}, S.Good eps →
    (∀ s ∈ steps, s.2.Pairwise (· ≤ ·)) →
    (∀ x ∈ newKnots steps .u, S.ulo < x ∧ x < S.uhi) → (∀ x ∈ newKnots steps .v, S.vlo < x ∧ x < S.vhi) →
    (∀ x ∈ newKnots steps .u, ∀ y ∈ newKnots steps .u ++ S.uKnots, |y - x| < eps → y = x) →
    (∀ x ∈ newKnots steps .v, ∀ y ∈ newKnots steps .v ++ S.vKnots, |y - x| < eps → y = x) →
    ∃ S', refineAll eps steps S = .ok S' ∧ SurfRefines eps S S' (newKnots steps .u) (newKnots steps .v) := by
  intro steps
  induction steps with
  | nil => intro S h _ _ _ _ _; exact ⟨S, rfl, SurfRefines.refl h⟩
  | cons s steps ih =>
    intro S h hs hu hv su sv
    obtain ⟨dir, xs⟩ := s
    have hsort : xs.Pairwise (· ≤ ·) := hs (dir, xs) (by simp)
    cases dir with
    | u =>
      have nu : newKnots ((UV.u, xs) :: steps) .u = xs ++ newKnots steps .u := by simp [newKnots]
      have nv : newKnots ((UV.u, xs) :: steps) .v = newKnots steps .v := by simp [newKnots]
      rw [nu] at hu su ⊢
      rw [nv] at hv sv ⊢
      obtain ⟨S1, e1, d1, d2, k2, s1, p1, l1, r1, -, ev, g⟩ := C33_refine_u h hsort (fun x hx => ⟨(hu x (by simp [hx])).1.le, (hu x (by simp [hx])).2.le⟩)
        (fun x hx y hy => su x (by simp [hx]) y (by
          rcases List.mem_append.1 hy with hy | hy <;> simp [hy]))
      obtain ⟨g1, lo1, hi1, -⟩ := g fun x hx => hu x (by simp [hx])
      have hcols : S1.cols = S.cols := by
        have a := g1.v_len
        have b := h.v_len
        rw [k2, d2] at a; omega
      have vl : S1.vlo = S.vlo := by rw [Surface.vlo, Surface.vlo, k2, d2]
      have vh : S1.vhi = S.vhi := by rw [Surface.vhi, Surface.vhi, k2, hcols]
      obtain ⟨S', e2, r⟩ := ih g1 (fun s hs' => hs s (by simp [hs'])) (fun x hx => by rw [lo1, hi1]; exact hu x (by simp [hx]))
        (fun x hx => by rw [vl, vh]; exact hv x hx) (fun x hx y hy => su x (by simp [hx]) y (by
          rcases List.mem_append.1 hy with hy | hy
          · simp [hy]
          · rcases List.mem_append.1 (p1.mem_iff.1 hy) with hy | hy <;> simp [hy]))
        (fun x hx y hy => sv x hx y (by rw [k2] at hy; exact hy))
      refine ⟨S', by rw [refineAll, List.foldlM_cons, e1]; exact e2, r.good, r.uDegree.trans d1, r.vDegree.trans d2, r.uSorted, r.vSorted, ?_, ?_,
        r.ulo.trans lo1, r.uhi.trans hi1, r.vlo.trans vl, r.vhi.trans vh, ?_⟩
      · refine r.uKnots.trans ((p1.append_left _).trans ?_)
        rw [← List.append_assoc]
        exact List.perm_append_comm.append_right _
      · rw [← k2]; exact r.vKnots
      · intro u v h1 h2 h3 h4
        rw [r.eval u v (by rwa [lo1]) (by rwa [hi1]) (by rwa [vl]) (by rwa [vh]), ev u v h1 h2]
    | v =>
      have nu : newKnots ((UV.v, xs) :: steps) .v = xs ++ newKnots steps .v := by simp [newKnots]
      have nv : newKnots ((UV.v, xs) :: steps) .u = newKnots steps .u := by simp [newKnots]
      rw [nu] at hv sv ⊢
      rw [nv] at hu su ⊢
      obtain ⟨S1, e1, d1, d2, k2, s1, p1, l1, r1, -, ev, g⟩ := C33_refine_v h hsort (fun x hx => ⟨(hv x (by simp [hx])).1.le, (hv x (by simp [hx])).2.le⟩)
        (fun x hx y hy => sv x (by simp [hx]) y (by
          rcases List.mem_append.1 hy with hy | hy <;> simp [hy]))
      obtain ⟨g1, lo1, hi1, -⟩ := g fun x hx => hv x (by simp [hx])
      have ul : S1.ulo = S.ulo := by rw [Surface.ulo, Surface.ulo, k2, d1]
      have uh : S1.uhi = S.uhi := by rw [Surface.uhi, Surface.uhi, k2, l1]
      obtain ⟨S', e2, r⟩ := ih g1 (fun s hs' => hs s (by simp [hs'])) (fun x hx => by rw [ul, uh]; exact hu x hx)
        (fun x hx => by rw [lo1, hi1]; exact hv x (by simp [hx])) (fun x hx y hy => su x hx y (by rw [k2] at hy; exact hy))
        (fun x hx y hy => sv x (by simp [hx]) y (by
          rcases List.mem_append.1 hy with hy | hy
          · simp [hy]
          · rcases List.mem_append.1 (p1.mem_iff.1 hy) with hy | hy <;> simp [hy]))
      refine ⟨S', by rw [refineAll, List.foldlM_cons, e1]; exact e2, r.good, r.uDegree.trans d1, r.vDegree.trans d2, r.uSorted, r.vSorted, ?_, ?_,
        r.ulo.trans ul, r.uhi.trans uh, r.vlo.trans lo1, r.vhi.trans hi1, ?_⟩
      · rw [← k2]; exact r.uKnots
      · refine r.vKnots.trans ((p1.append_left _).trans ?_)
        rw [← List.append_assoc]
        exact List.perm_append_comm.append_right _
      · intro u v h1 h2 h3 h4
        rw [r.eval u v (by rwa [ul]) (by rwa [uh]) (by rwa [lo1]) (by rwa [hi1]), ev u v h3 h4]

/-- **C117**: refining a surface step by step, in u and in v in whatever order and however the new knots are grouped, gives the same
    surface. -/
theorem C117_refine_any_order {eps : K} {S : Surface K V} {as bs : List (UV × List K)} (h : TameNet eps S)
    (sa : ∀ s ∈ as, s.2.Pairwise (· ≤ ·)) (sb : ∀ s ∈ bs, s.2.Pairwise (· ≤ ·))
    (pu : (newKnots as .u).Perm (newKnots bs .u)) (pv : (newKnots as .v).Perm (newKnots bs .v))
    (hu : ∀ x ∈ newKnots as .u, S.ulo < x ∧ x < S.uhi) (hv : ∀ x ∈ newKnots as .v, S.vlo < x ∧ x < S.vhi)
    (su : ∀ x ∈ newKnots as .u, ∀ y ∈ newKnots as .u ++ S.uKnots, |y - x| < eps → y = x)
    (sv : ∀ x ∈ newKnots as .v, ∀ y ∈ newKnots as .v ++ S.vKnots, |y - x| < eps → y = x)
    (cu : ∀ x, (newKnots as .u ++ S.uKnots).count x ≤ S.uDegree + 1) (cv : ∀ x, (newKnots as .v ++ S.vKnots).count x ≤ S.vDegree + 1) :
    ∃ S', refineAll eps as S = .ok S' ∧ refineAll eps bs S = .ok S' := by
  obtain ⟨A, e1, r1⟩ := refineAll_refines as h.good sa hu hv su sv
  obtain ⟨B, e2, r2⟩ := refineAll_refines bs h.good sb (fun x hx => hu x (pu.mem_iff.2 hx)) (fun x hx => hv x (pv.mem_iff.2 hx))
    (fun x hx y hy => su x (pu.mem_iff.2 hx) y ((pu.append_right _).mem_iff.2 hy))
    (fun x hx y hy => sv x (pv.mem_iff.2 hx) y ((pv.append_right _).mem_iff.2 hy))
  have := r1.unique r2 pu pv h (fun x hx => ⟨(hu x hx).1.le, (hu x hx).2.le⟩) (fun x hx => ⟨(hv x hx).1.le, (hv x hx).2.le⟩) cu cv
  exact ⟨A, e1, by rw [e2, this]⟩

/-! ### Isocurves of refined surfaces -/

/-- **C117**: taking an isocurve and refining commute: refining the surface along the curve refines the isocurve, refining it across
    leaves the isocurve as it is. -/
theorem C117_isocurve_refined {eps : K} {S : Surface K V} (h : TameNet eps S) (heps : 0 < eps)
    (hd : ∀ x ∈ S.uKnots, ∀ y ∈ S.uKnots, x ≠ y → eps < |x - y|) {t : K} (h1 : S.ulo ≤ t) (h2 : t ≤ S.uhi)
    (hsep : ∀ y ∈ S.uKnots, |y - t| < eps → y = t) (hmult : t < S.uhi → t ≠ kf S.uKnots 0 → S.uKnots.count t ≤ 1) {ys : List K}
    (sort : ys.Pairwise (· ≤ ·)) (dom : ∀ y ∈ ys, S.vlo < y ∧ y < S.vhi)
    (sep : ∀ x ∈ ys, ∀ y ∈ ys ++ S.vKnots, |y - x| < eps → y = x) (count : ∀ x, (ys ++ S.vKnots).count x ≤ S.vDegree + 1) :
    ∃ S' c c', S.tryRefineKnot eps ys .v = .ok S' ∧ S.tryIsocurve eps t .u = .ok c ∧ c.tryRefineKnot eps ys = .ok c' ∧
      S'.tryIsocurve eps t .u = .ok c' := by
  obtain ⟨S', e1, d1, d2, k1, s2, p2, l1, -, -, ev, g⟩ := C33_refine_v h.good sort (fun x hx => ⟨(dom x hx).1.le, (dom x hx).2.le⟩) sep
  obtain ⟨g', lo', hi', -⟩ := g dom
  have ul : S'.ulo = S.ulo := by rw [Surface.ulo, Surface.ulo, k1, d1]
  have uh : S'.uhi = S.uhi := by rw [Surface.uhi, Surface.uhi, k1, l1]
  obtain ⟨c, e2, gc, dc, kc, lc, pc⟩ := C32_isocurve_u h.good heps hd h1 h2 hsep hmult
  obtain ⟨c2, e3, gc2, dc2, kc2, lc2, pc2⟩ := C32_isocurve_u g' heps (by rw [k1]; exact hd) (t := t) (by rwa [ul]) (by rwa [uh])
    (by rw [k1]; exact hsep) (by rw [uh, k1]; exact hmult)
  have clo : c.lo = S.vlo := by rw [Curve.lo, kc, dc]; rfl
  have chi : c.hi = S.vhi := by rw [Curve.hi, kc, lc]; rfl
  have clo2 : c2.lo = S.vlo := by rw [Curve.lo, kc2, dc2, ← lo']; rfl
  have chi2 : c2.hi = S.vhi := by rw [Curve.hi, kc2, lc2, ← hi']; rfl
  obtain ⟨c', e4, r⟩ := Curve.tryRefineKnot_refines gc sort (fun x hx => by rw [clo, chi]; exact ⟨(dom x hx).1.le, (dom x hx).2.le⟩)
    (by rw [kc]; exact sep)
  refine ⟨S', c, c', e1, e2, e4, ?_⟩
  rw [e3]
  congr 1
  have kk : c2.knots = c'.knots := by
    refine List.Perm.eq_of_pairwise (fun a b _ _ h1 h2 => le_antisymm h1 h2) gc2.pre.sorted r.pre.sorted ?_
    rw [kc2]
    refine p2.trans (List.Perm.trans ?_ r.knots.symm)
    rw [kc]
  refine C107_determined r.pre gc2.pre (allMatter_of_count r.pre ?_ ?_) (by rw [dc2, r.degree, dc, d2]) kk ?_
  · intro x hx
    rw [r.lo, r.hi, clo, chi]
    rcases List.mem_append.1 (r.knots.mem_iff.1 hx) with hx | hx
    · exact ⟨(dom x hx).1.le, (dom x hx).2.le⟩
    · rw [kc] at hx; exact h.vin x hx
  · intro x _
    rw [r.knots.count_eq, r.degree, kc, dc]
    exact count x
  · intro v g1 g2
    rw [r.lo, clo] at g1
    rw [r.hi, chi] at g2
    have q1 := pc v g1.le g2.le
    have q2 := pc2 v (by rw [lo']; exact g1.le) (by rw [hi']; exact g2.le)
    rw [Curve.point_eq_eval gc (by rw [clo]; exact g1.le) (by rw [chi]; exact g2.le),
      Surface.point_eq_eval h.good h1 h2 g1.le g2.le] at q1
    rw [Curve.point_eq_eval gc2 (by rw [clo2]; exact g1.le) (by rw [chi2]; exact g2.le),
      Surface.point_eq_eval g' (by rwa [ul]) (by rwa [uh]) (by rw [lo']; exact g1.le) (by rw [hi']; exact g2.le), ev t v g1.le g2.le] at q2
    rw [r.eval gc.pre (by rw [clo]; exact g1.le) (by rw [chi]; exact g2.le), Except.ok.inj q1, Except.ok.inj q2]

/-- Refining across an isocurve, away from it, leaves it as it is. -/
theorem C117_isocurve_across {eps : K} {S : Surface K V} (h : TameNet eps S) (heps : 0 < eps)
    (hd : ∀ x ∈ S.uKnots, ∀ y ∈ S.uKnots, x ≠ y → eps < |x - y|) {t : K} (h1 : S.ulo ≤ t) (h2 : t ≤ S.uhi)
    (hsep : ∀ y ∈ S.uKnots, |y - t| < eps → y = t) (hmult : t < S.uhi → t ≠ kf S.uKnots 0 → S.uKnots.count t ≤ 1) {xs : List K}
    (sort : xs.Pairwise (· ≤ ·)) (dom : ∀ x ∈ xs, S.ulo < x ∧ x < S.uhi)
    (sep : ∀ x ∈ xs, ∀ y ∈ xs ++ S.uKnots, y ≠ x → eps < |y - x|) (away : ∀ x ∈ xs, eps ≤ |x - t|) :
    ∃ S' c, S.tryRefineKnot eps xs .u = .ok S' ∧ S.tryIsocurve eps t .u = .ok c ∧ S'.tryIsocurve eps t .u = .ok c := by
  have sep' : ∀ x ∈ xs, ∀ y ∈ xs ++ S.uKnots, |y - x| < eps → y = x := by
    intro x hx y hy hlt
    by_contra hne
    exact absurd (sep x hx y hy hne) (not_lt.2 hlt.le)
  obtain ⟨S', e1, d1, d2, k2, s1, p1, l1, -, -, ev, g⟩ := C33_refine_u h.good sort (fun x hx => ⟨(dom x hx).1.le, (dom x hx).2.le⟩) sep'
  obtain ⟨g', lo', hi', -⟩ := g dom
  have hcols : S'.cols = S.cols := by
    have a := g'.v_len
    have b := h.good.v_len
    rw [k2, d2] at a; omega
  have vl : S'.vlo = S.vlo := by rw [Surface.vlo, Surface.vlo, k2, d2]
  have vh : S'.vhi = S.vhi := by rw [Surface.vhi, Surface.vhi, k2, hcols]
  have tn : t ∉ xs := fun ht => by have := away t ht; rw [sub_self, abs_zero] at this; linarith
  have k0 : ∀ T : Surface K V, T.Good eps → (∀ x ∈ T.uKnots, T.ulo ≤ x) → kf T.uKnots 0 = T.ulo := by
    intro T gT hin
    have hl := gT.u_len
    have hc := (gT.col 0).pre
    refine le_antisymm ?_ (hin _ ?_)
    · exact hc.mono 0 T.uDegree (by omega) (by
        have := gT.rows_pos
        simp [Surface.col]; omega)
    · rw [kf_eq (by omega)]; exact List.getElem_mem _
  have z1 := k0 S h.good fun x hx => (h.uin x hx).1
  have z2 := k0 S' g' fun x hx => by
    rw [lo']
    rcases List.mem_append.1 (p1.mem_iff.1 hx) with hx | hx
    exacts [(dom x hx).1.le, (h.uin x hx).1]
  obtain ⟨c, e2, gc, dc, kc, lc, pc⟩ := C32_isocurve_u h.good heps hd h1 h2 hsep hmult
  obtain ⟨c2, e3, gc2, dc2, kc2, lc2, pc2⟩ := C32_isocurve_u g' heps (t := t) (by
      intro x hx y hy hne
      rcases List.mem_append.1 (p1.mem_iff.1 hx) with hx' | hx'
      · rw [abs_sub_comm]
        exact sep x hx' y (p1.mem_iff.1 hy) (Ne.symm hne)
      · rcases List.mem_append.1 (p1.mem_iff.1 hy) with hy' | hy'
        · exact sep y hy' x (p1.mem_iff.1 hx) hne
        · exact hd x hx' y hy' hne) (by rwa [lo']) (by rwa [hi']) (by
      intro y hy hlt
      rcases List.mem_append.1 (p1.mem_iff.1 hy) with hy | hy
      · exact absurd hlt (not_lt.2 (away y hy))
      · exact hsep y hy hlt) (by
      intro g1 g2
      rw [hi'] at g1
      rw [z2, lo', ← z1] at g2
      rw [p1.count_eq, List.count_append, List.count_eq_zero.2 tn, zero_add]
      exact hmult g1 g2)
  have clo : c.lo = S.vlo := by rw [Curve.lo, kc, dc]; rfl
  have chi : c.hi = S.vhi := by rw [Curve.hi, kc, lc]; rfl
  have clo2 : c2.lo = S.vlo := by rw [Curve.lo, kc2, dc2, ← vl]; rfl
  have chi2 : c2.hi = S.vhi := by rw [Curve.hi, kc2, lc2, ← vh]; rfl
  refine ⟨S', c, e1, e2, ?_⟩
  rw [e3]
  congr 1
  refine C107_determined gc.pre gc2.pre (allMatter_of_count gc.pre ?_ ?_) (by rw [dc2, dc, d2]) (by rw [kc2, kc, k2]) ?_
  · intro x hx
    rw [clo, chi]
    rw [kc] at hx; exact h.vin x hx
  · intro x _
    rw [kc, dc]
    exact h.vcount x
  · intro v g1 g2
    rw [clo] at g1
    rw [chi] at g2
    have q1 := pc v g1.le g2.le
    have q2 := pc2 v (by rw [vl]; exact g1.le) (by rw [vh]; exact g2.le)
    rw [Curve.point_eq_eval gc (by rw [clo]; exact g1.le) (by rw [chi]; exact g2.le),
      Surface.point_eq_eval h.good h1 h2 g1.le g2.le] at q1
    rw [Curve.point_eq_eval gc2 (by rw [clo2]; exact g1.le) (by rw [chi2]; exact g2.le),
      Surface.point_eq_eval g' (by rwa [lo']) (by rwa [hi']) (by rw [vl]; exact g1.le) (by rw [vh]; exact g2.le), ev t v h1 h2] at q2
    rw [Except.ok.inj q1, Except.ok.inj q2]

/-- `C117_isocurve_refined` for the isocurves in the other direction. -/
theorem C117_isocurve_refined_v {eps : K} {S : Surface K V} (h : TameNet eps S) (heps : 0 < eps)
    (hd : ∀ x ∈ S.vKnots, ∀ y ∈ S.vKnots, x ≠ y → eps < |x - y|) {t : K} (h1 : S.vlo ≤ t) (h2 : t ≤ S.vhi)
    (hsep : ∀ y ∈ S.vKnots, |y - t| < eps → y = t) (hmult : t < S.vhi → t ≠ kf S.vKnots 0 → S.vKnots.count t ≤ 1) {xs : List K}
    (sort : xs.Pairwise (· ≤ ·)) (dom : ∀ y ∈ xs, S.ulo < y ∧ y < S.uhi)
    (sep : ∀ x ∈ xs, ∀ y ∈ xs ++ S.uKnots, |y - x| < eps → y = x) (count : ∀ x, (xs ++ S.uKnots).count x ≤ S.uDegree + 1) :
    ∃ S' c c', S.tryRefineKnot eps xs .u = .ok S' ∧ S.tryIsocurve eps t .v = .ok c ∧ c.tryRefineKnot eps xs = .ok c' ∧
      S'.tryIsocurve eps t .v = .ok c' := by
  obtain ⟨S', e1, d1, d2, k2, s2, p2, l1, -, -, ev, g⟩ := C33_refine_u h.good sort (fun x hx => ⟨(dom x hx).1.le, (dom x hx).2.le⟩) sep
  obtain ⟨g', lo', hi', -⟩ := g dom
  have hcols : S'.cols = S.cols := by
    have a := g'.v_len
    have b := h.good.v_len
    rw [k2, d2] at a; omega
  have vl : S'.vlo = S.vlo := by rw [Surface.vlo, Surface.vlo, k2, d2]
  have vh : S'.vhi = S.vhi := by rw [Surface.vhi, Surface.vhi, k2, hcols]
  obtain ⟨c, e2, gc, dc, kc, lc, pc⟩ := C32_isocurve_v h.good heps hd h1 h2 hsep hmult
  obtain ⟨c2, e3, gc2, dc2, kc2, lc2, pc2⟩ := C32_isocurve_v g' heps (by rw [k2]; exact hd) (t := t) (by rwa [vl]) (by rwa [vh])
    (by rw [k2]; exact hsep) (by rw [vh, k2]; exact hmult)
  have clo : c.lo = S.ulo := by rw [Curve.lo, kc, dc]; rfl
  have chi : c.hi = S.uhi := by rw [Curve.hi, kc, lc]; rfl
  have clo2 : c2.lo = S.ulo := by rw [Curve.lo, kc2, dc2, ← lo']; rfl
  have chi2 : c2.hi = S.uhi := by rw [Curve.hi, kc2, lc2, ← hi']; rfl
  obtain ⟨c', e4, r⟩ := Curve.tryRefineKnot_refines gc sort (fun x hx => by rw [clo, chi]; exact ⟨(dom x hx).1.le, (dom x hx).2.le⟩)
    (by rw [kc]; exact sep)
  refine ⟨S', c, c', e1, e2, e4, ?_⟩
  rw [e3]
  congr 1
  have kk : c2.knots = c'.knots := by
    refine List.Perm.eq_of_pairwise (fun a b _ _ h1 h2 => le_antisymm h1 h2) gc2.pre.sorted r.pre.sorted ?_
    rw [kc2]
    refine p2.trans (List.Perm.trans ?_ r.knots.symm)
    rw [kc]
  refine C107_determined r.pre gc2.pre (allMatter_of_count r.pre ?_ ?_) (by rw [dc2, r.degree, dc, d1]) kk ?_
  · intro x hx
    rw [r.lo, r.hi, clo, chi]
    rcases List.mem_append.1 (r.knots.mem_iff.1 hx) with hx | hx
    · exact ⟨(dom x hx).1.le, (dom x hx).2.le⟩
    · rw [kc] at hx; exact h.uin x hx
  · intro x _
    rw [r.knots.count_eq, r.degree, kc, dc]
    exact count x
  · intro u g1 g2
    rw [r.lo, clo] at g1
    rw [r.hi, chi] at g2
    have q1 := pc u g1.le g2.le
    have q2 := pc2 u (by rw [lo']; exact g1.le) (by rw [hi']; exact g2.le)
    rw [Curve.point_eq_eval gc (by rw [clo]; exact g1.le) (by rw [chi]; exact g2.le),
      Surface.point_eq_eval h.good g1.le g2.le h1 h2] at q1
    rw [Curve.point_eq_eval gc2 (by rw [clo2]; exact g1.le) (by rw [chi2]; exact g2.le),
      Surface.point_eq_eval g' (by rw [lo']; exact g1.le) (by rw [hi']; exact g2.le) (by rwa [vl]) (by rwa [vh]), ev u t g1.le g2.le] at q2
    rw [r.eval gc.pre (by rw [clo]; exact g1.le) (by rw [chi]; exact g2.le), Except.ok.inj q1, Except.ok.inj q2]

/-- `C117_isocurve_across` for the isocurves in the other direction. -/
theorem C117_isocurve_across_v {eps : K} {S : Surface K V} (h : TameNet eps S) (heps : 0 < eps)
    (hd : ∀ x ∈ S.vKnots, ∀ y ∈ S.vKnots, x ≠ y → eps < |x - y|) {t : K} (h1 : S.vlo ≤ t) (h2 : t ≤ S.vhi)
    (hsep : ∀ y ∈ S.vKnots, |y - t| < eps → y = t) (hmult : t < S.vhi → t ≠ kf S.vKnots 0 → S.vKnots.count t ≤ 1) {ys : List K}
    (sort : ys.Pairwise (· ≤ ·)) (dom : ∀ x ∈ ys, S.vlo < x ∧ x < S.vhi)
    (sep : ∀ x ∈ ys, ∀ y ∈ ys ++ S.vKnots, y ≠ x → eps < |y - x|) (away : ∀ x ∈ ys, eps ≤ |x - t|) :
    ∃ S' c, S.tryRefineKnot eps ys .v = .ok S' ∧ S.tryIsocurve eps t .v = .ok c ∧ S'.tryIsocurve eps t .v = .ok c := by
  have sep' : ∀ x ∈ ys, ∀ y ∈ ys ++ S.vKnots, |y - x| < eps → y = x := by
    intro x hx y hy hlt
    by_contra hne
    exact absurd (sep x hx y hy hne) (not_lt.2 hlt.le)
  obtain ⟨S', e1, d1, d2, k1, s1, p1, l1, -, -, ev, g⟩ := C33_refine_v h.good sort (fun x hx => ⟨(dom x hx).1.le, (dom x hx).2.le⟩) sep'
  obtain ⟨g', lo', hi', -⟩ := g dom
  have ul : S'.ulo = S.ulo := by rw [Surface.ulo, Surface.ulo, k1, d1]
  have uh : S'.uhi = S.uhi := by rw [Surface.uhi, Surface.uhi, k1, l1]
  have tn : t ∉ ys := fun ht => by have := away t ht; rw [sub_self, abs_zero] at this; linarith
  have k0 : ∀ T : Surface K V, T.Good eps → (∀ x ∈ T.vKnots, T.vlo ≤ x) → kf T.vKnots 0 = T.vlo := by
    intro T gT hin
    have hl := gT.v_len
    have hc := (gT.isoU 0).pre
    refine le_antisymm ?_ (hin _ ?_)
    · exact hc.mono 0 T.vDegree (by omega) (by
        have := gT.cols_pos
        simp [Surface.isoU]; omega)
    · have := gT.cols_pos
      rw [kf_eq (by omega)]; exact List.getElem_mem _
  have z1 := k0 S h.good fun x hx => (h.vin x hx).1
  have z2 := k0 S' g' fun x hx => by
    rw [lo']
    rcases List.mem_append.1 (p1.mem_iff.1 hx) with hx | hx
    exacts [(dom x hx).1.le, (h.vin x hx).1]
  obtain ⟨c, e2, gc, dc, kc, lc, pc⟩ := C32_isocurve_v h.good heps hd h1 h2 hsep hmult
  obtain ⟨c2, e3, gc2, dc2, kc2, lc2, pc2⟩ := C32_isocurve_v g' heps (t := t) (by
      intro x hx y hy hne
      rcases List.mem_append.1 (p1.mem_iff.1 hx) with hx' | hx'
      · rw [abs_sub_comm]
        exact sep x hx' y (p1.mem_iff.1 hy) (Ne.symm hne)
      · rcases List.mem_append.1 (p1.mem_iff.1 hy) with hy' | hy'
        · exact sep y hy' x (p1.mem_iff.1 hx) hne
        · exact hd x hx' y hy' hne) (by rwa [lo']) (by rwa [hi']) (by
      intro y hy hlt
      rcases List.mem_append.1 (p1.mem_iff.1 hy) with hy | hy
      · exact absurd hlt (not_lt.2 (away y hy))
      · exact hsep y hy hlt) (by
      intro g1 g2
      rw [hi'] at g1
      rw [z2, lo', ← z1] at g2
      rw [p1.count_eq, List.count_append, List.count_eq_zero.2 tn, zero_add]
      exact hmult g1 g2)
  have clo : c.lo = S.ulo := by rw [Curve.lo, kc, dc]; rfl
  have chi : c.hi = S.uhi := by rw [Curve.hi, kc, lc]; rfl
  have clo2 : c2.lo = S.ulo := by rw [Curve.lo, kc2, dc2, ← ul]; rfl
  have chi2 : c2.hi = S.uhi := by rw [Curve.hi, kc2, lc2, ← uh]; rfl
  refine ⟨S', c, e1, e2, ?_⟩
  rw [e3]
  congr 1
  refine C107_determined gc.pre gc2.pre (allMatter_of_count gc.pre ?_ ?_) (by rw [dc2, dc, d1]) (by rw [kc2, kc, k1]) ?_
  · intro x hx
    rw [clo, chi]
    rw [kc] at hx; exact h.uin x hx
  · intro x _
    rw [kc, dc]
    exact h.ucount x
  · intro u g1 g2
    rw [clo] at g1
    rw [chi] at g2
    have q1 := pc u g1.le g2.le
    have q2 := pc2 u (by rw [ul]; exact g1.le) (by rw [uh]; exact g2.le)
    rw [Curve.point_eq_eval gc (by rw [clo]; exact g1.le) (by rw [chi]; exact g2.le),
      Surface.point_eq_eval h.good g1.le g2.le h1 h2] at q1
    rw [Curve.point_eq_eval gc2 (by rw [clo2]; exact g1.le) (by rw [chi2]; exact g2.le),
      Surface.point_eq_eval g' (by rw [ul]; exact g1.le) (by rw [uh]; exact g2.le) (by rwa [lo']) (by rwa [hi']), ev u t h1 h2] at q2
    rw [Except.ok.inj q1, Except.ok.inj q2]

/-! ### Isocurves of the pieces -/

/-- **C117**: cutting a surface along the isocurves cuts the isocurves. -/
theorem C117_isocurve_split {eps : K} {S : Surface K V} (h : TameNet eps S) (heps : 0 < eps)
    (hd : ∀ x ∈ S.uKnots, ∀ y ∈ S.uKnots, x ≠ y → eps < |x - y|) {t : K} (h1 : S.ulo ≤ t) (h2 : t ≤ S.uhi)
    (hsep : ∀ y ∈ S.uKnots, |y - t| < eps → y = t) (hmult : t < S.uhi → t ≠ kf S.uKnots 0 → S.uKnots.count t ≤ 1) {b : K}
    (b1 : S.vlo < b) (b2 : b < S.vhi) (hb : ClearOf eps S.vKnots b) :
    ∃ B T c l r, S.trySplit eps b .v = .ok (B, T) ∧ S.tryIsocurve eps t .u = .ok c ∧ c.trySplit eps b = .ok (l, r) ∧
      B.tryIsocurve eps t .u = .ok l ∧ T.tryIsocurve eps t .u = .ok r := by
  obtain ⟨B, T, e1, x⟩ := halves_v h b1 b2 hb
  obtain ⟨c, e2, gc, dc, kc, lc, pc⟩ := C32_isocurve_u h.good heps hd h1 h2 hsep hmult
  obtain ⟨l', e3, gl, dl, kl, ll, pl⟩ := C32_isocurve_u x.lt.good heps (by rw [x.luk]; exact hd) (t := t) (by rwa [x.lulo]) (by rwa [x.luhi])
    (by rw [x.luk]; exact hsep) (by rw [x.luhi, x.luk]; exact hmult)
  obtain ⟨r', e4, gr, dr, kr, lr, pr⟩ := C32_isocurve_u x.rt.good heps (by rw [x.ruk]; exact hd) (t := t) (by rwa [x.rulo]) (by rwa [x.ruhi])
    (by rw [x.ruk]; exact hsep) (by rw [x.ruhi, x.ruk]; exact hmult)
  have clo : c.lo = S.vlo := by rw [Curve.lo, kc, dc]; rfl
  have chi : c.hi = S.vhi := by rw [Curve.hi, kc, lc]; rfl
  have llo : l'.lo = S.vlo := by rw [Curve.lo, kl, dl, ← x.llo]; rfl
  have lhi : l'.hi = b := by rw [Curve.hi, kl, ll, ← x.lhi]; rfl
  have rlo : r'.lo = b := by rw [Curve.lo, kr, dr, ← x.rlo]; rfl
  have rhi : r'.hi = S.vhi := by rw [Curve.hi, kr, lr, ← x.rhi]; rfl
  have tc : Tame eps c := ⟨gc, fun y hy => by rw [clo, chi]; rw [kc] at hy; exact h.vin y hy, fun y => by rw [kc, dc]; exact h.vcount y⟩
  obtain ⟨l, r, e5, s⟩ := split_halves tc (u := b) (by rwa [clo]) (by rwa [chi]) (by rw [kc]; exact hb.1) (by rw [kc]; exact hb.2)
  have ev : ∀ v, S.vlo ≤ v → v ≤ S.vhi → c.eval v = S.eval t v := fun v g1 g2 => by
    have q := pc v g1 g2
    rw [Curve.point_eq_eval gc (by rwa [clo]) (by rwa [chi]), Surface.point_eq_eval h.good h1 h2 g1 g2] at q
    exact Except.ok.inj q
  have ql : l' = l := by
    refine s.lt.unique gl (by rw [dl, s.ld, dc, x.ld]) (by rw [kl, x.lk, s.lk, kc, dc]) fun v g1 g2 => ?_
    rw [s.llo, clo] at g1
    rw [s.lhi] at g2
    have q := pl v (by rw [x.llo]; exact g1.le) (by rw [x.lhi]; exact g2.le)
    rw [Curve.point_eq_eval gl (by rw [llo]; exact g1.le) (by rw [lhi]; exact g2.le),
      Surface.point_eq_eval x.lt.good (by rwa [x.lulo]) (by rwa [x.luhi]) (by rw [x.llo]; exact g1.le) (by rw [x.lhi]; exact g2.le)] at q
    rw [Except.ok.inj q, x.le t v h1 h2 g1.le g2.le, s.le v (by rw [clo]; exact g1.le) g2.le, ev v g1.le (g2.trans b2).le]
  have qr : r' = r := by
    refine s.rt.unique gr (by rw [dr, s.rd, dc, x.rd]) (by rw [kr, x.rk, s.rk, kc, dc]) fun v g1 g2 => ?_
    rw [s.rlo] at g1
    rw [s.rhi, chi] at g2
    have q := pr v (by rw [x.rlo]; exact g1.le) (by rw [x.rhi]; exact g2.le)
    rw [Curve.point_eq_eval gr (by rw [rlo]; exact g1.le) (by rw [rhi]; exact g2.le),
      Surface.point_eq_eval x.rt.good (by rwa [x.rulo]) (by rwa [x.ruhi]) (by rw [x.rlo]; exact g1.le) (by rw [x.rhi]; exact g2.le)] at q
    rw [Except.ok.inj q, x.re t v h1 h2 g1.le g2.le, s.re v g1.le (by rw [chi]; exact g2.le), ev v (b1.trans g1).le g2.le]
  subst ql qr
  exact ⟨B, T, c, _, _, e1, e2, e5, e3, e4⟩

/-- `C117_isocurve_split` for the isocurves in the other direction. -/
theorem C117_isocurve_split_v {eps : K} {S : Surface K V} (h : TameNet eps S) (heps : 0 < eps)
    (hd : ∀ x ∈ S.vKnots, ∀ y ∈ S.vKnots, x ≠ y → eps < |x - y|) {t : K} (h1 : S.vlo ≤ t) (h2 : t ≤ S.vhi)
    (hsep : ∀ y ∈ S.vKnots, |y - t| < eps → y = t) (hmult : t < S.vhi → t ≠ kf S.vKnots 0 → S.vKnots.count t ≤ 1) {a : K}
    (a1 : S.ulo < a) (a2 : a < S.uhi) (ha : ClearOf eps S.uKnots a) :
    ∃ L R c l r, S.trySplit eps a .u = .ok (L, R) ∧ S.tryIsocurve eps t .v = .ok c ∧ c.trySplit eps a = .ok (l, r) ∧
      L.tryIsocurve eps t .v = .ok l ∧ R.tryIsocurve eps t .v = .ok r := by
  obtain ⟨B, T, e1, x⟩ := halves_u h a1 a2 ha
  obtain ⟨c, e2, gc, dc, kc, lc, pc⟩ := C32_isocurve_v h.good heps hd h1 h2 hsep hmult
  obtain ⟨l', e3, gl, dl, kl, ll, pl⟩ := C32_isocurve_v x.lt.good heps (by rw [x.lvk]; exact hd) (t := t) (by rwa [x.lvlo]) (by rwa [x.lvhi])
    (by rw [x.lvk]; exact hsep) (by rw [x.lvhi, x.lvk]; exact hmult)
  obtain ⟨r', e4, gr, dr, kr, lr, pr⟩ := C32_isocurve_v x.rt.good heps (by rw [x.rvk]; exact hd) (t := t) (by rwa [x.rvlo]) (by rwa [x.rvhi])
    (by rw [x.rvk]; exact hsep) (by rw [x.rvhi, x.rvk]; exact hmult)
  have clo : c.lo = S.ulo := by rw [Curve.lo, kc, dc]; rfl
  have chi : c.hi = S.uhi := by rw [Curve.hi, kc, lc]; rfl
  have llo : l'.lo = S.ulo := by rw [Curve.lo, kl, dl, ← x.llo]; rfl
  have lhi : l'.hi = a := by rw [Curve.hi, kl, ll, ← x.lhi]; rfl
  have rlo : r'.lo = a := by rw [Curve.lo, kr, dr, ← x.rlo]; rfl
  have rhi : r'.hi = S.uhi := by rw [Curve.hi, kr, lr, ← x.rhi]; rfl
  have tc : Tame eps c := ⟨gc, fun y hy => by rw [clo, chi]; rw [kc] at hy; exact h.uin y hy, fun y => by rw [kc, dc]; exact h.ucount y⟩
  obtain ⟨l, r, e5, s⟩ := split_halves tc (u := a) (by rwa [clo]) (by rwa [chi]) (by rw [kc]; exact ha.1) (by rw [kc]; exact ha.2)
  have ev : ∀ u, S.ulo ≤ u → u ≤ S.uhi → c.eval u = S.eval u t := fun u g1 g2 => by
    have q := pc u g1 g2
    rw [Curve.point_eq_eval gc (by rwa [clo]) (by rwa [chi]), Surface.point_eq_eval h.good g1 g2 h1 h2] at q
    exact Except.ok.inj q
  have ql : l' = l := by
    refine s.lt.unique gl (by rw [dl, s.ld, dc, x.ld]) (by rw [kl, x.lk, s.lk, kc, dc]) fun u g1 g2 => ?_
    rw [s.llo, clo] at g1
    rw [s.lhi] at g2
    have q := pl u (by rw [x.llo]; exact g1.le) (by rw [x.lhi]; exact g2.le)
    rw [Curve.point_eq_eval gl (by rw [llo]; exact g1.le) (by rw [lhi]; exact g2.le),
      Surface.point_eq_eval x.lt.good (by rw [x.llo]; exact g1.le) (by rw [x.lhi]; exact g2.le) (by rwa [x.lvlo]) (by rwa [x.lvhi])] at q
    rw [Except.ok.inj q, x.le u t g1.le g2.le h1 h2, s.le u (by rw [clo]; exact g1.le) g2.le, ev u g1.le (g2.trans a2).le]
  have qr : r' = r := by
    refine s.rt.unique gr (by rw [dr, s.rd, dc, x.rd]) (by rw [kr, x.rk, s.rk, kc, dc]) fun u g1 g2 => ?_
    rw [s.rlo] at g1
    rw [s.rhi, chi] at g2
    have q := pr u (by rw [x.rlo]; exact g1.le) (by rw [x.rhi]; exact g2.le)
    rw [Curve.point_eq_eval gr (by rw [rlo]; exact g1.le) (by rw [rhi]; exact g2.le),
      Surface.point_eq_eval x.rt.good (by rw [x.rlo]; exact g1.le) (by rw [x.rhi]; exact g2.le) (by rwa [x.rvlo]) (by rwa [x.rvhi])] at q
    rw [Except.ok.inj q, x.re u t g1.le g2.le h1 h2, s.re u g1.le (by rw [chi]; exact g2.le), ev u (a1.trans g1).le g2.le]
  subst ql qr
  exact ⟨B, T, c, _, _, e1, e2, e5, e3, e4⟩

/-! ### Witnesses -/

example : ∃ T, refineAll (1/1000) [(.u, [(1/2 : ℚ)]), (.v, [2]), (.u, [1])] exSurf = .ok T ∧
    refineAll (1/1000) [(.v, [(2 : ℚ)]), (.u, [1/2, 1])] exSurf = .ok T :=
  C117_refine_any_order exSurf_tame (by decide +kernel) (by decide +kernel) (by decide +kernel) (by decide +kernel) (by decide +kernel)
    (by decide +kernel) (by decide +kernel) (by decide +kernel) (count_le_of_mem (by decide +kernel)) (count_le_of_mem (by decide +kernel))

example : ∃ S' c c', exSurf.tryRefineKnot (1/1000) [2] .v = .ok S' ∧ exSurf.tryIsocurve (1/1000) (1/2) .u = .ok c ∧
    c.tryRefineKnot (1/1000) [2] = .ok c' ∧ S'.tryIsocurve (1/1000) (1/2) .u = .ok c' :=
  C117_isocurve_refined exSurf_tame (by norm_num) (by decide +kernel) (by decide +kernel) (by decide +kernel) (by decide +kernel)
    (by decide +kernel) (by decide +kernel) (by decide +kernel) (by decide +kernel) (count_le_of_mem (by decide +kernel))

example : ∃ S' c, exSurf.tryRefineKnot (1/1000) [1/4, 1] .u = .ok S' ∧ exSurf.tryIsocurve (1/1000) (1/2) .u = .ok c ∧
    S'.tryIsocurve (1/1000) (1/2) .u = .ok c :=
  C117_isocurve_across exSurf_tame (by norm_num) (by decide +kernel) (by decide +kernel) (by decide +kernel) (by decide +kernel)
    (by decide +kernel) (by decide +kernel) (by decide +kernel) (by decide +kernel) (by decide +kernel)

example : ∃ S' c c', exSurf.tryRefineKnot (1/1000) [1/2, 1] .u = .ok S' ∧ exSurf.tryIsocurve (1/1000) 2 .v = .ok c ∧
    c.tryRefineKnot (1/1000) [1/2, 1] = .ok c' ∧ S'.tryIsocurve (1/1000) 2 .v = .ok c' :=
  C117_isocurve_refined_v exSurf_tame (by norm_num) (by decide +kernel) (by decide +kernel) (by decide +kernel) (by decide +kernel)
    (by decide +kernel) (by decide +kernel) (by decide +kernel) (by decide +kernel) (count_le_of_mem (by decide +kernel))

example : ∃ S' c, exSurf.tryRefineKnot (1/1000) [1/4, 1] .v = .ok S' ∧ exSurf.tryIsocurve (1/1000) 2 .v = .ok c ∧
    S'.tryIsocurve (1/1000) 2 .v = .ok c :=
  C117_isocurve_across_v exSurf_tame (by norm_num) (by decide +kernel) (by decide +kernel) (by decide +kernel) (by decide +kernel)
    (by decide +kernel) (by decide +kernel) (by decide +kernel) (by decide +kernel) (by decide +kernel)

example : ∃ B T c l r, exSurf.trySplit (1/1000) 2 .v = .ok (B, T) ∧ exSurf.tryIsocurve (1/1000) (1/2) .u = .ok c ∧
    c.trySplit (1/1000) 2 = .ok (l, r) ∧ B.tryIsocurve (1/1000) (1/2) .u = .ok l ∧ T.tryIsocurve (1/1000) (1/2) .u = .ok r :=
  C117_isocurve_split exSurf_tame (by norm_num) (by decide +kernel) (by decide +kernel) (by decide +kernel) (by decide +kernel)
    (by decide +kernel) (by decide +kernel) (by decide +kernel) ⟨by decide +kernel, by decide +kernel⟩

example : ∃ L R c l r, exSurf.trySplit (1/1000) (1/2) .u = .ok (L, R) ∧ exSurf.tryIsocurve (1/1000) 2 .v = .ok c ∧
    c.trySplit (1/1000) (1/2) = .ok (l, r) ∧ L.tryIsocurve (1/1000) 2 .v = .ok l ∧ R.tryIsocurve (1/1000) 2 .v = .ok r :=
  C117_isocurve_split_v exSurf_tame (by norm_num) (by decide +kernel) (by decide +kernel) (by decide +kernel) (by decide +kernel)
    (by decide +kernel) (by decide +kernel) (by decide +kernel) ⟨by decide +kernel, by decide +kernel⟩

end Curvo.Props

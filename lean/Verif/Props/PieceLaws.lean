/-
  Bezier pieces and measured lengths depend on the shape only: C112.
-/
import Verif.Props.Unique
import Verif.Props.Reversed
import Verif.Props.LengthReal

set_option linter.unusedSectionVars false
set_option linter.unusedSimpArgs false

namespace Curvo.Props

open Curvo Curvo.Knots Curvo.Spec Curvo.Curve Curvo.Length

variable {K : Type} [Field K] [LinearOrder K] [IsStrictOrderedRing K]
variable {W : Type} [AddCommGroup W] [Module K W]

/-- A clamped curve with separated knots, none repeated more than `degree + 1` times. -/
structure Plain {V : Type} [AddCommGroup V] [Module K V] (eps : K) (c : Curve K V) : Prop extends Tame eps c where
  sep : ∀ x ∈ c.knots, ∀ y ∈ c.knots, x ≠ y → eps < |x - y|
  first : c.degree < c.knots.count c.lo
  last : c.degree < c.knots.count c.hi

theorem Plain.clamped {V : Type} [AddCommGroup V] [Module K V] {eps : K} {c : Curve K V} (h : Plain eps c) : c.isClamped eps = .ok true := by
  have hl := h.good.knots_len
  have hne : c.knots ≠ [] := by intro he; rw [he] at hl; simp at hl
  obtain ⟨k0, k1⟩ := h.toTame.ends
  have f0 : c.knots.head hne = c.lo := by rw [← k0, kf_eq (by omega), List.head_eq_getElem]
  have f1 : c.knots.getLast hne = c.hi := by rw [← k1, kf_eq (by omega), List.getLast_eq_getElem]
  obtain ⟨b, eb, hb⟩ := C06_is_clamped h.good.good.eps_nonneg hne h.good.pre.sorted h.sep c.degree
  rw [f0, f1] at hb
  have : b = true := hb.2 ⟨h.first, h.last⟩
  rw [this] at eb
  exact eb

theorem strict_ext {l l' : List K} (h : l.Pairwise (· < ·)) (h' : l'.Pairwise (· < ·)) (hm : ∀ x, x ∈ l ↔ x ∈ l') : l = l' := by
  refine List.Perm.eq_of_pairwise (fun a b _ _ h1 h2 => absurd (h1.trans h2) (lt_irrefl _)) h h' ?_
  exact (List.perm_ext_iff_of_nodup (h.imp fun h => h.ne) (h'.imp fun h => h.ne)).2 hm

/-- A Bezier piece is determined by its points. -/
theorem bezier_determined {V : Type} [AddCommGroup V] [Module K V] {eps : K} {c d : Curve K V} {a b : K} (hc : c.Good eps) (hd : d.Good eps)
    (hab : a < b) (e1 : c.knots = List.replicate (c.degree + 1) a ++ List.replicate (c.degree + 1) b) (h1 : d.degree = c.degree)
    (h2 : d.knots = c.knots) (hlo : c.lo = a) (hhi : c.hi = b) (he : ∀ u, a < u → u < b → d.eval u = c.eval u) : d = c := by
  have ht : Tame eps c := by
    refine ⟨hc, ?_, ?_⟩
    · intro x hx
      rw [e1] at hx
      rw [hlo, hhi]
      rcases List.mem_append.1 hx with hx | hx
      · rw [List.eq_of_mem_replicate hx]; exact ⟨le_rfl, hab.le⟩
      · rw [List.eq_of_mem_replicate hx]; exact ⟨hab.le, le_rfl⟩
    · intro x
      rw [e1, List.count_append, List.count_replicate, List.count_replicate]
      by_cases hx : a = x
      · subst hx
        simp [hab.ne']
      · by_cases hx' : b = x
        · subst hx'; simp [hab.ne]
        · simp [hx, hx']
  exact ht.unique hd h1 h2 fun u u1 u2 => he u (hlo ▸ u1) (hhi ▸ u2)

/-- **C112**: the Bezier pieces depend on the points of the curve, its degree and its distinct knots only. -/
theorem C112_same_pieces {eps : K} {c d : Curve K (W × K)} (hc : Plain eps c) (hd : Plain eps d) (hdeg : d.degree = c.degree)
    (hk : ∀ x, x ∈ d.knots ↔ x ∈ c.knots) (he : ∀ u, c.lo < u → u < c.hi → d.eval u = c.eval u) :
    d.lo = c.lo ∧ d.hi = c.hi ∧ d.tryDecomposeBezierSegments eps = c.tryDecomposeBezierSegments eps := by
  obtain ⟨ss, xs, e1, p1, m1, l1, lo1, hi1, s1⟩ := C23_segments hc.good hc.sep hc.clamped (fun x _ => hc.count x)
  obtain ⟨ts, ys, e2, p2, m2, l2, lo2, hi2, s2⟩ := C23_segments hd.good hd.sep hd.clamped (fun x _ => hd.count x)
  have hxy : ys = xs := strict_ext p2 p1 fun x => by rw [m1, m2, hk]
  subst hxy
  have hlen : ts.length = ss.length := by omega
  have q1 : d.lo = c.lo := by rw [← lo1, ← lo2]
  have q2 : d.hi = c.hi := by rw [← hi1, ← hi2, hlen]
  refine ⟨q1, q2, ?_⟩
  rw [e1, e2]
  congr 1
  refine List.ext_getElem hlen fun i h2 h1 => ?_
  obtain ⟨a1, -, a3, a4, a5, a6, a7⟩ := s1 i h1
  obtain ⟨b1, -, b3, b4, b5, b6, b7⟩ := s2 i h2
  have hlt : kf ys i < kf ys (i + 1) := by
    rw [kf_eq (by omega), kf_eq (by omega)]
    exact List.pairwise_iff_getElem.1 p1 i (i + 1) (by omega) (by omega) (by omega)
  have hb : ∀ j, j ≤ ss.length → c.lo ≤ kf ys j ∧ kf ys j ≤ c.hi := by
    intro j hj
    have : kf ys j ∈ c.knots := by rw [← m1, kf_eq (by omega)]; exact List.getElem_mem _
    exact hc.inside _ this
  refine bezier_determined a4 b4 hlt (by rw [a1]; exact a3) (by rw [b1, a1, hdeg]) (by rw [b3, a3, hdeg]) a5 a6 ?_
  intro u u1 u2
  have w1 := a7 u u1.le (Or.inl u2)
  have w2 := b7 u u1.le (Or.inl u2)
  have g1 : c.lo < u := lt_of_le_of_lt (hb i (by omega)).1 u1
  have g2 : u < c.hi := lt_of_lt_of_le u2 (hb (i + 1) (by omega)).2
  rw [point_eq_eval a4 (by rw [a5]; exact u1.le) (by rw [a6]; exact u2.le), point_eq_eval hc.good g1.le g2.le] at w1
  rw [point_eq_eval b4 (by rw [b5]; exact u1.le) (by rw [b6]; exact u2.le), point_eq_eval hd.good (by rw [q1]; exact g1.le)
    (by rw [q2]; exact g2.le)] at w2
  rw [Except.ok.inj w1, Except.ok.inj w2, he u g1 g2]

/-- **C112**: so do the length, the parameters at given lengths and the division by length, for every norm and quadrature rule. -/
theorem C112_same_measures {eps : K} {c d : Curve K (W × K)} (hc : Plain eps c) (hd : Plain eps d) (hdeg : d.degree = c.degree)
    (hk : ∀ x, x ∈ d.knots ↔ x ∈ c.knots) (he : ∀ u, c.lo < u → u < c.hi → d.eval u = c.eval u)
    (nrm : W → K) (rule : ℕ → List (K × K)) :
    tryLength nrm rule eps d = tryLength nrm rule eps c ∧
    (∀ fuel l tol, tryParameterAtLength fuel nrm rule eps d l tol = tryParameterAtLength fuel nrm rule eps c l tol) ∧
    (∀ fuel l, tryDivideByLength fuel nrm rule eps d l = tryDivideByLength fuel nrm rule eps c l) ∧
    ∀ fuel n, tryDivideByCount fuel nrm rule eps d n = tryDivideByCount fuel nrm rule eps c n := by
  obtain ⟨q1, q2, q3⟩ := C112_same_pieces hc hd hdeg hk he
  obtain ⟨ss, hp⟩ := pieces hc.good hc.sep hc.clamped (fun x _ => hc.count x)
  obtain ⟨ts, hp'⟩ := pieces hd.good hd.sep hd.clamped (fun x _ => hd.count x)
  have hst : ts = ss := by
    have := hp'.ok
    rw [q3, hp.ok] at this
    exact (Except.ok.inj this).symm
  subst hst
  have a1 : tryLength nrm rule eps d = tryLength nrm rule eps c := by
    rw [tryLength_clamped hc.good hc.clamped hp.ok, tryLength_clamped hd.good hd.clamped hp'.ok, q2, hdeg]
    by_cases h1 : ts.length ≤ 1
    · have w1 := hp.single h1
      have w2 := hp'.single h1
      rw [w1] at w2
      have : c = d := by simpa using w2
      rw [this]
    · rw [if_neg h1, if_neg h1]
  have a3 : ∀ fuel l, tryDivideByLength fuel nrm rule eps d l = tryDivideByLength fuel nrm rule eps c l := by
    intro fuel l
    have hf : Knots.first d.knots = Knots.first c.knots := by
      have hf : ∀ {x : Curve K (W × K)}, Plain eps x → Knots.first x.knots = .ok x.lo := by
        intro x hx
        have hl := hx.good.knots_len
        have := hx.toTame.ends.1
        rw [kf_eq (by omega)] at this
        rw [Knots.first, ← this]
        exact getR_eq_ok (by omega)
      rw [hf hc, hf hd, q1]
    unfold tryDivideByLength
    rw [q3, hdeg, hf]
  refine ⟨a1, ?_, a3, ?_⟩
  · intro fuel l tol
    unfold tryParameterAtLength
    rw [q3, hdeg, knotsDomain_eq hc.good, knotsDomain_eq hd.good, q1, q2]
  · intro fuel n
    unfold tryDivideByCount
    rw [a1]
    simp only [a3]

/-- **C112**: inserting further copies of knots changes neither the Bezier pieces nor any measurement. -/
theorem C112_more_copies {eps : K} {c : Curve K (W × K)} (h : Plain eps c) {xs : List K} (hsort : xs.Pairwise (· ≤ ·))
    (hx : ∀ x ∈ xs, x ∈ c.knots ∧ c.lo < x ∧ x < c.hi) (hcount : ∀ x, (xs ++ c.knots).count x ≤ c.degree + 1) :
    ∃ d, c.tryRefineKnot eps xs = .ok d ∧ d.cps.length = c.cps.length + xs.length ∧
      d.tryDecomposeBezierSegments eps = c.tryDecomposeBezierSegments eps ∧
      ∀ nrm rule, tryLength nrm rule eps d = tryLength nrm rule eps c ∧
        (∀ fuel l tol, tryParameterAtLength fuel nrm rule eps d l tol = tryParameterAtLength fuel nrm rule eps c l tol) ∧
        (∀ fuel l, tryDivideByLength fuel nrm rule eps d l = tryDivideByLength fuel nrm rule eps c l) ∧
        ∀ fuel n, tryDivideByCount fuel nrm rule eps d n = tryDivideByCount fuel nrm rule eps c n := by
  have hg := h.good
  have hmem : ∀ y ∈ xs ++ c.knots, y ∈ c.knots := by
    intro y hy
    rcases List.mem_append.1 hy with hy | hy
    · exact (hx y hy).1
    · exact hy
  have hsep : ∀ x ∈ xs, ∀ y ∈ xs ++ c.knots, |y - x| < eps → y = x := by
    intro x hx' y hy hlt
    by_contra hne
    exact absurd hlt (not_lt.2 (h.sep y (hmem y hy) x (hx x hx').1 hne).le)
  obtain ⟨d, e, r⟩ := tryRefineKnot_refines hg hsort (fun x hx' => ⟨(hx x hx').2.1.le, (hx x hx').2.2.le⟩) hsep
  have gd := r.good hg (fun x hx' => (hx x hx').2) (fun x hx y hy => hsep x hx y (List.mem_append_right _ hy))
  have hk : ∀ x, x ∈ d.knots ↔ x ∈ c.knots := by
    intro x
    rw [r.knots.mem_iff]
    exact ⟨hmem x, fun hx => List.mem_append_right _ hx⟩
  have hev : ∀ u, c.lo < u → u < c.hi → d.eval u = c.eval u := by
    intro u u1 u2
    exact r.eval hg.pre u1.le u2.le
  have hd : Plain eps d := by
    refine ⟨⟨gd, ?_, ?_⟩, ?_, ?_, ?_⟩
    · intro x hx'; rw [r.lo, r.hi]; exact h.inside x ((hk x).1 hx')
    · intro x; rw [r.knots.count_eq, r.degree]; exact hcount x
    · intro x hx' y hy; exact h.sep x ((hk x).1 hx') y ((hk y).1 hy)
    · rw [r.knots.count_eq, r.degree, r.lo, List.count_append]; have := h.first; omega
    · rw [r.knots.count_eq, r.degree, r.hi, List.count_append]; have := h.last; omega
  exact ⟨d, e, r.cps_len, (C112_same_pieces h hd r.degree hk hev).2.2, fun nrm rule => C112_same_measures h hd r.degree hk hev nrm rule⟩

/-- The reversed curve of a clamped continuous curve. -/
theorem invert_plain {V : Type} [AddCommGroup V] [Module K V] {eps : K} {c c' : Curve K V} (h : Plain eps c)
    (u1 : Unbroken eps c') (d1 : c'.degree = c.degree) (k1 : c'.knots = c.knots.reverse.map (fun k => c.lo + c.hi - k))
    (lo1 : c'.lo = c.lo) (hi1 : c'.hi = c.hi) : Plain eps c' := by
  have hcount : ∀ x, c'.knots.count x = c.knots.count (c.lo + c.hi - x) := by
    intro x
    have hinj : Function.Injective fun k : K => c.lo + c.hi - k := fun a b hab => by simpa using hab
    have := List.count_map_of_injective c.knots.reverse _ hinj (c.lo + c.hi - x)
    rw [List.count_reverse] at this
    rw [k1, ← this]
    congr 1
    ring
  refine ⟨u1.toTame, ?_, ?_, ?_⟩
  · intro x hx y hy hne
    rw [k1] at hx hy
    obtain ⟨a, ha, rfl⟩ := List.mem_map.1 hx
    obtain ⟨b, hb, rfl⟩ := List.mem_map.1 hy
    rw [show c.lo + c.hi - a - (c.lo + c.hi - b) = b - a by ring]
    exact h.sep b (by simpa using hb) a (by simpa using ha) fun he => hne (by rw [he])
  · rw [hcount, lo1, d1, show c.lo + c.hi - c.lo = c.hi by ring]; exact h.last
  · rw [hcount, hi1, d1, show c.lo + c.hi - c.hi = c.lo by ring]; exact h.first

/-- A Bezier piece is unbroken. -/
theorem bezier_unbroken {V : Type} [AddCommGroup V] [Module K V] {eps : K} {s : Curve K V} {a b : K} (hg : s.Good eps) (hab : a < b)
    (hk : s.knots = List.replicate (s.degree + 1) a ++ List.replicate (s.degree + 1) b) (hlo : s.lo = a) (hhi : s.hi = b) :
    Unbroken eps s := by
  refine ⟨⟨hg, ?_, ?_⟩, ?_⟩
  · intro x hx
    rw [hk] at hx
    rw [hlo, hhi]
    rcases List.mem_append.1 hx with hx | hx
    · rw [List.eq_of_mem_replicate hx]; exact ⟨le_rfl, hab.le⟩
    · rw [List.eq_of_mem_replicate hx]; exact ⟨hab.le, le_rfl⟩
  · intro x
    rw [hk, List.count_append, List.count_replicate, List.count_replicate]
    by_cases hx : a = x
    · subst hx; simp [hab.ne']
    · by_cases hx' : b = x
      · subst hx'; simp [hab.ne]
      · simp [hx, hx']
  · intro x h1 h2
    rw [hlo] at h1; rw [hhi] at h2
    rw [hk, List.count_append, List.count_replicate, List.count_replicate]
    simp [h1.ne, h2.ne']

theorem pieces_unbroken {eps : K} {c : Curve K (W × K)} (h : Plain eps c) {segs : List (Curve K (W × K))}
    (hs : c.tryDecomposeBezierSegments eps = .ok segs) : ∀ s ∈ segs, Unbroken eps s := by
  obtain ⟨ss, xs, e1, x1, m1, l1, b1, t1, s1⟩ := C23_segments h.good h.sep h.clamped (fun x _ => h.count x)
  rw [e1] at hs
  obtain rfl := Except.ok.inj hs
  intro s hs
  obtain ⟨i, hi, rfl⟩ := List.mem_iff_getElem.1 hs
  obtain ⟨a1, -, a3, a4, a5, a6, a7⟩ := s1 i hi
  refine bezier_unbroken a4 ?_ (by rw [a1]; exact a3) a5 a6
  rw [kf_eq (by omega), kf_eq (by omega)]
  exact List.pairwise_iff_getElem.1 x1 i (i + 1) (by omega) (by omega) (by omega)

/-- **C112**: the Bezier pieces of the reversed curve are the reversed pieces in the other order, moved to their place in the
    parameter range. -/
theorem C112_pieces_reversed {eps : K} {c : Curve K (W × K)} (h : Plain eps c) (hu : Unbroken eps c) :
    ∃ c' segs segs', c.invert = .ok c' ∧ c.tryDecomposeBezierSegments eps = .ok segs ∧
      c'.tryDecomposeBezierSegments eps = .ok segs' ∧
      List.Forall₂ (fun s s' => ∃ r, s.invert = .ok r ∧ s' = shifted (c.lo + c.hi - s.lo - s.hi) r) segs segs'.reverse := by
  obtain ⟨c', e, u1, d1, p1, k1, lo1, hi1, ev1⟩ := invert_unbroken hu
  have h' := invert_plain h u1 d1 k1 lo1 hi1
  obtain ⟨ss, xs, e1, x1, m1, l1, b1, t1, s1⟩ := C23_segments h.good h.sep h.clamped (fun x _ => h.count x)
  obtain ⟨ts, ys, e2, x2, m2, l2, b2, t2, s2⟩ := C23_segments h'.good h'.sep h'.clamped (fun x _ => h'.count x)
  have hxy : ys = xs.reverse.map (fun k => c.lo + c.hi - k) := by
    refine strict_ext x2 ?_ ?_
    · rw [List.pairwise_map, List.pairwise_reverse]
      exact x1.imp fun hlt => by linarith
    · intro x
      rw [m2, k1]
      simp only [List.mem_map, List.mem_reverse, m1]
  have hlen : ts.length = ss.length := by rw [hxy] at l2; simp at l2; omega
  have hy : ∀ j, j ≤ ss.length → kf ys j = c.lo + c.hi - kf xs (ss.length - j) := by
    intro j hj
    rw [kf_eq (by omega), kf_eq (by omega)]
    simp only [hxy, List.getElem_map, List.getElem_reverse]
    congr 2
    omega
  refine ⟨c', ss, ts, e, e1, e2, ?_⟩
  rw [List.forall₂_iff_get]
  refine ⟨by simp [hlen], ?_⟩
  intro i h1 h2
  have hi' : ss.length - 1 - i < ts.length := by omega
  have hget : ts.reverse.get ⟨i, h2⟩ = ts[ss.length - 1 - i] := by
    rw [List.get_eq_getElem, List.getElem_reverse]
    have : ts.length - 1 - i = ss.length - 1 - i := by omega
    simp only [this]
  rw [hget, List.get_eq_getElem]
  obtain ⟨a1, -, a3, a4, a5, a6, a7⟩ := s1 i h1
  obtain ⟨q1, -, q3, q4, q5, q6, q7⟩ := s2 (ss.length - 1 - i) hi'
  rw [hy _ (by omega), show ss.length - (ss.length - 1 - i) = i + 1 by omega] at q3 q5 q7
  rw [hy _ (by omega), show ss.length - (ss.length - 1 - i + 1) = i by omega] at q3 q6 q7
  have hlt : kf xs i < kf xs (i + 1) := by
    rw [kf_eq (by omega), kf_eq (by omega)]
    exact List.pairwise_iff_getElem.1 x1 i (i + 1) (by omega) (by omega) (by omega)
  have hb : ∀ j, j ≤ ss.length → c.lo ≤ kf xs j ∧ kf xs j ≤ c.hi := by
    intro j hj
    have : kf xs j ∈ c.knots := by rw [← m1, kf_eq (by omega)]; exact List.getElem_mem _
    exact h.inside _ this
  have us := bezier_unbroken a4 hlt (by rw [a1]; exact a3) a5 a6
  obtain ⟨r, er, ur, dr, pr, kr, lor, hir, evr⟩ := invert_unbroken us
  rw [a5, a6] at kr evr
  rw [a5] at lor; rw [a6] at hir
  obtain ⟨sg, slo, shi, sev⟩ := shifted_spec ur.good (c.lo + c.hi - ss[i].lo - ss[i].hi)
  refine ⟨r, er, ?_⟩
  rw [a5, a6] at sg slo shi sev ⊢
  symm
  refine bezier_determined q4 sg (by linarith : c.lo + c.hi - kf xs (i + 1) < c.lo + c.hi - kf xs i) (by rw [q1]; exact q3)
    (by show r.degree = _; rw [dr, a1, q1, d1]) ?_ q5 q6 ?_
  · show r.knots.map _ = _
    rw [kr, a3, q3, d1, List.reverse_append, List.reverse_replicate, List.reverse_replicate, List.map_append, List.map_append,
      List.map_replicate, List.map_replicate, List.map_replicate, List.map_replicate]
    congr 2 <;> ring
  · intro u g1 g2
    have z1 := sev (u - (c.lo + c.hi - kf xs i - kf xs (i + 1))) (by rw [lor]; linarith) (by rw [hir]; linarith)
    rw [sub_add_cancel] at z1
    have z2 := evr (c.lo + c.hi - u) (by linarith) (by linarith)
    rw [show kf xs i + kf xs (i + 1) - (c.lo + c.hi - u) = u - (c.lo + c.hi - kf xs i - kf xs (i + 1)) by ring] at z2
    have b1 := (hb i (by omega)).1
    have b2 := (hb (i + 1) (by omega)).2
    have z3 := a7 (c.lo + c.hi - u) (by linarith) (Or.inl (by linarith))
    rw [point_eq_eval a4 (by rw [a5]; linarith) (by rw [a6]; linarith), point_eq_eval h.good (by linarith) (by linarith)] at z3
    have z4 := q7 u g1.le (Or.inl g2)
    rw [point_eq_eval q4 (by rw [q5]; linarith) (by rw [q6]; linarith), point_eq_eval h'.good (by rw [lo1]; linarith) (by rw [hi1]; linarith)] at z4
    have z5 := ev1 (c.lo + c.hi - u) (by linarith) (by linarith)
    rw [show c.lo + c.hi - (c.lo + c.hi - u) = u by ring] at z5
    rw [z1, z2, Except.ok.inj z3, Except.ok.inj z4, z5]

section real

variable {X : Type} [NormedAddCommGroup X] [NormedSpace ℝ X]

/-- The velocity of a mirrored Bezier piece is the negative velocity at the mirrored parameter. -/
theorem velocity_mirror {eps : ℝ} {s s' : Curve ℝ (X × ℝ)} {L : ℝ} (h : Bezier eps s) (hlo : s'.lo = L - s.hi) (hhi : s'.hi = L - s.lo)
    (he : ∀ u, s.lo ≤ u → u ≤ s.hi → s'.eval (L - u) = s.eval u) {t : ℝ} (h1 : s.lo ≤ t) (h2 : t ≤ s.hi) :
    velocity s' (L - t) = -velocity s t := by
  have hlt := lo_lt_hi h.good
  have hd : HasDerivWithinAt (curvePoint s) (velocity s t) (Set.Icc s.lo s.hi) t :=
    ((h.contDiffOn.differentiableOn (by norm_num)) t ⟨h1, h2⟩).hasDerivWithinAt
  have hm : Set.MapsTo (fun x : ℝ => L - x) (Set.Icc s'.lo s'.hi) (Set.Icc s.lo s.hi) := by
    intro x hx
    rw [hlo, hhi] at hx
    exact ⟨by linarith [hx.2], by linarith [hx.1]⟩
  have hl : HasDerivWithinAt (fun x : ℝ => L - x) (-1) (Set.Icc s'.lo s'.hi) (L - t) := by
    simpa using (hasDerivWithinAt_id (L - t) (Set.Icc s'.lo s'.hi)).const_sub L
  have hd' : HasDerivWithinAt (curvePoint s) (velocity s t) (Set.Icc s.lo s.hi) (L - (L - t)) := by
    rw [show L - (L - t) = t by ring]; exact hd
  have hc := HasDerivWithinAt.scomp (L - t) hd' hl hm
  have hmem : L - t ∈ Set.Icc s'.lo s'.hi := by rw [hlo, hhi]; exact ⟨by linarith, by linarith⟩
  have hpt : ∀ x ∈ Set.Icc s'.lo s'.hi, curvePoint s' x = (curvePoint s ∘ fun x => L - x) x := by
    intro x hx
    have hx' := hm hx
    have := he (L - x) hx'.1 hx'.2
    rw [show L - (L - x) = x by ring] at this
    simp only [Function.comp, curvePoint, this]
  have := (hc.congr hpt (hpt _ hmem)).derivWithin (uniqueDiffOn_Icc (by rw [hlo, hhi]; linarith) _ hmem)
  rw [velocity, this, neg_one_smul]

/-- A symmetric quadrature rule gives the same length in both directions. -/
theorem quad_mirror {eps : ℝ} {s s' : Curve ℝ (X × ℝ)} {L : ℝ} (h : Bezier eps s) (hlo : s'.lo = L - s.hi) (hhi : s'.hi = L - s.lo)
    (he : ∀ u, s.lo ≤ u → u ≤ s.hi → s'.eval (L - u) = s.eval u) {rule : List (ℝ × ℝ)} (hr : ∀ x ∈ rule, -1 ≤ x.1 ∧ x.1 ≤ 1)
    (hs : (rule.map fun xw => (-xw.1, xw.2)).Perm rule) : quad rule s' s'.hi = quad rule s s.hi := by
  have hlt := lo_lt_hi h.good
  unfold quad
  rw [hlo, hhi, show L - s.lo - (L - s.hi) = s.hi - s.lo by ring]
  congr 1
  have hp := (hs.map fun xw : ℝ × ℝ => ‖velocity s ((s.hi - s.lo) / 2 * xw.1 + (s.lo + s.hi) / 2)‖ * xw.2).sum_eq
  rw [← hp, List.map_map]
  congr 1
  apply List.map_congr_left
  intro xw hx
  obtain ⟨b1, b2⟩ := hr xw hx
  obtain ⟨a1, a2⟩ := node_mem hlt.le (x := -xw.1) (by linarith) (by linarith)
  have := velocity_mirror h hlo hhi he a1 a2
  rw [show L - ((s.hi - s.lo) / 2 * -xw.1 + (s.lo + s.hi) / 2) = (s.hi - s.lo) / 2 * xw.1 + (L - s.hi + (L - s.lo)) / 2 by ring] at this
  simp only [Function.comp]
  rw [this, norm_neg]

/-- **C112**: the reversed curve has the same measured length, for every symmetric quadrature rule. -/
theorem C112_length_reversed {eps : ℝ} {c : Curve ℝ (X × ℝ)} (h : Plain eps c) (hu : Unbroken eps c) (hw : ∀ p ∈ c.cps, 0 < p.2)
    {rule : ℕ → List (ℝ × ℝ)} (hr : ∀ n, ∀ x ∈ rule n, -1 ≤ x.1 ∧ x.1 ≤ 1)
    (hs : ∀ n, ((rule n).map fun xw => (-xw.1, xw.2)).Perm (rule n)) :
    ∃ c' total, c.invert = .ok c' ∧ tryLength (fun v : X => ‖v‖) rule eps c = .ok total ∧
      tryLength (fun v : X => ‖v‖) rule eps c' = .ok total := by
  obtain ⟨c', segs, segs', e, e1, e2, hf⟩ := C112_pieces_reversed h hu
  obtain ⟨c'', e', u1, d1, p1, k1, lo1, hi1, ev1⟩ := invert_unbroken hu
  rw [e] at e'
  obtain rfl := Except.ok.inj e'
  have h' := invert_plain h u1 d1 k1 lo1 hi1
  obtain ⟨ss, hp⟩ := pieces h.good h.sep h.clamped (fun x _ => h.count x)
  obtain ⟨ts, hp'⟩ := pieces h'.good h'.sep h'.clamped (fun x _ => h'.count x)
  have q1 : ss = segs := by have := hp.ok; rw [e1] at this; exact (Except.ok.inj this).symm
  have q2 : ts = segs' := by have := hp'.ok; rw [e2] at this; exact (Except.ok.inj this).symm
  subst q1 q2
  have hw' : ∀ p ∈ c'.cps, 0 < p.2 := by rw [p1]; intro p hp; exact hw p (by simpa using hp)
  have bez : ∀ {c : Curve ℝ (X × ℝ)} {ss}, Pieces eps c ss → (∀ p ∈ c.cps, 0 < p.2) → ∀ s ∈ ss, Bezier eps s := by
    intro c ss hp hw s hs
    refine ⟨hp.good s hs, by rw [hp.cps s hs, hp.degree s hs], ?_⟩
    refine hp.hull s hs (fun p => 0 < p.2) ?_ hw
    intro p q t t0 t1 hp hq
    simp only [Prod.snd_add, Prod.smul_snd, smul_eq_mul]
    rcases eq_or_lt_of_le t0 with h | h
    · rw [← h]; simpa using hq
    · exact add_pos_of_pos_of_nonneg (mul_pos h hp) (mul_nonneg (sub_nonneg.2 t1) hq.le)
  have len : ∀ {c : Curve ℝ (X × ℝ)} {ss}, c.Good eps → c.isClamped eps = .ok true → Pieces eps c ss → (∀ p ∈ c.cps, 0 < p.2) →
      tryLength (fun v : X => ‖v‖) rule eps c = .ok (ss.map fun s => quad (rule (16 + c.degree)) s s.hi).sum := by
    intro c ss hg hc hp hw
    rw [C54_length hg hc hp]
    refine ⟨_, ?_, rfl⟩
    rw [List.forall₂_map_right_iff, List.forall₂_same]
    intro s hs
    rw [C54_quadrature (bez hp hw s hs) (hr _) (lo_lt_hi (hp.good s hs)).le le_rfl, if_pos (hp.gap s hs)]
  refine ⟨c', _, e, len h.good h.clamped hp hw, ?_⟩
  rw [len h'.good h'.clamped hp' hw', d1]
  congr 1
  rw [← List.sum_reverse, ← List.map_reverse]
  congr 1
  symm
  have key : ∀ {l l' : List (Curve ℝ (X × ℝ))}, List.Forall₂ (fun s s' => ∃ r, s.invert = .ok r ∧ s' = shifted (c.lo + c.hi - s.lo - s.hi) r) l l' →
      (∀ s ∈ l, s ∈ ss) → l.map (fun s => quad (rule (16 + c.degree)) s s.hi) = l'.map (fun s => quad (rule (16 + c.degree)) s s.hi) := by
    intro l l' hl
    induction hl with
    | nil => intro _; rfl
    | cons hx _ ih =>
      rename_i s s' l l' hh
      intro hm
      rw [List.map_cons, List.map_cons, ih fun x hx => hm x (by simp [hx])]
      congr 1
      obtain ⟨r, er, rfl⟩ := hx
      have hss := hm s (by simp)
      have us : Unbroken eps s := pieces_unbroken h hp.ok s hss
      obtain ⟨r', er', ur, dr, pr, kr, lor, hir, evr⟩ := invert_unbroken us
      rw [er] at er'
      obtain rfl := Except.ok.inj er'
      obtain ⟨sg, slo, shi, sev⟩ := shifted_spec ur.good (c.lo + c.hi - s.lo - s.hi)
      refine (quad_mirror (L := c.lo + c.hi) (bez hp hw s hss) (by rw [slo, lor]; ring) (by rw [shi, hir]; ring) ?_ (hr _) (hs _)).symm
      intro u g1 g2
      have z1 := sev (s.lo + s.hi - u) (by rw [lor]; linarith) (by rw [hir]; linarith)
      rw [show s.lo + s.hi - u + (c.lo + c.hi - s.lo - s.hi) = c.lo + c.hi - u by ring] at z1
      rw [z1, evr u g1 g2]
  exact key hf fun s hs => hs

end real

/-! ### Witnesses -/

theorem exWalk_plain : Plain (1/1000) exWalk :=
  ⟨⟨exWalk_good, by decide +kernel, count_le_of_mem (by decide +kernel)⟩, exWalk_sep, by decide +kernel, by decide +kernel⟩

theorem exWalk_unbroken : Unbroken (1/1000) exWalk := by
  refine ⟨exWalk_plain.toTame, ?_⟩
  intro x h1 h2
  by_cases hx : x ∈ exWalk.knots
  · exact (by decide +kernel : ∀ x ∈ exWalk.knots, exWalk.lo < x → x < exWalk.hi → exWalk.knots.count x ≤ exWalk.degree) x hx h1 h2
  · rw [List.count_eq_zero.2 hx]; omega

/-- A second copy of the knot 1 of the broken line through 0, 1 and 3. -/
example : ∃ d, exWalk.tryRefineKnot (1/1000) [1] = .ok d ∧ d.cps.length = exWalk.cps.length + 1 ∧
    d.tryDecomposeBezierSegments (1/1000) = exWalk.tryDecomposeBezierSegments (1/1000) ∧
    ∀ nrm rule, tryLength nrm rule (1/1000) d = tryLength nrm rule (1/1000) exWalk ∧
      (∀ fuel l tol, tryParameterAtLength fuel nrm rule (1/1000) d l tol = tryParameterAtLength fuel nrm rule (1/1000) exWalk l tol) ∧
      (∀ fuel l, tryDivideByLength fuel nrm rule (1/1000) d l = tryDivideByLength fuel nrm rule (1/1000) exWalk l) ∧
      ∀ fuel n, tryDivideByCount fuel nrm rule (1/1000) d n = tryDivideByCount fuel nrm rule (1/1000) exWalk n :=
  C112_more_copies exWalk_plain (by simp) (by decide +kernel) (count_le_of_mem (by decide +kernel))

example : ∃ c' segs segs', exWalk.invert = .ok c' ∧ exWalk.tryDecomposeBezierSegments (1/1000) = .ok segs ∧
    c'.tryDecomposeBezierSegments (1/1000) = .ok segs' ∧
    List.Forall₂ (fun s s' => ∃ r, s.invert = .ok r ∧ s' = shifted (exWalk.lo + exWalk.hi - s.lo - s.hi) r) segs segs'.reverse :=
  C112_pieces_reversed exWalk_plain exWalk_unbroken

/-- Witness over the reals: from 0 to 1 and on to 3, with weights 1, 2 and 1. -/
noncomputable def exWalkR : Curve ℝ (ℝ × ℝ) where
  degree := 1
  cps := [(0, 1), (2, 2), (3, 1)]
  knots := [0, 0, 1, 3, 3]

theorem exWalkR_good : exWalkR.Good (1/1000) where
  cps_pos := by decide
  knots_len := by decide
  good := ⟨by norm_num, by decide, by
    show Spec.MonoUpTo (kf [0, 0, 1, 3, 3]) (2 + 1 + 1)
    exact mono_of_sorted (by norm_num) (by decide), by norm_num [exWalkR, kf], by
    norm_num [exWalkR, kf], by norm_num [exWalkR, kf], by norm_num [exWalkR, kf]⟩

theorem exWalkR_lo : exWalkR.lo = 0 := by simp [exWalkR, Curve.lo, kf]
theorem exWalkR_hi : exWalkR.hi = 3 := by simp [exWalkR, Curve.hi, kf]

theorem exWalkR_plain : Plain (1/1000) exWalkR := by
  refine ⟨⟨exWalkR_good, ?_, count_le_of_mem ?_⟩, ?_, ?_, ?_⟩
  · rw [exWalkR_lo, exWalkR_hi]; norm_num [exWalkR]
  · norm_num [exWalkR, List.count_cons]
  · simp only [exWalkR]
    intro x hx y hy hne
    simp only [List.mem_cons, List.not_mem_nil, or_false] at hx hy
    rcases hx with rfl | rfl | rfl | rfl | rfl <;> rcases hy with rfl | rfl | rfl | rfl | rfl <;> first | exact absurd rfl hne | norm_num [abs_of_neg, abs_of_pos]
  · rw [exWalkR_lo]; norm_num [exWalkR, List.count_cons]
  · rw [exWalkR_hi]; norm_num [exWalkR, List.count_cons]

theorem exWalkR_unbroken : Unbroken (1/1000) exWalkR := by
  refine ⟨exWalkR_plain.toTame, ?_⟩
  intro x h1 h2
  rw [exWalkR_lo] at h1; rw [exWalkR_hi] at h2
  have e3 : (3 : ℝ) ≠ x := h2.ne'
  have e0 : (0 : ℝ) ≠ x := h1.ne
  by_cases e1 : (1 : ℝ) = x
  · subst e1; norm_num [exWalkR, List.count_cons]
  · simp [exWalkR, List.count_cons, e0, e1, e3]

/-- The two point rule is symmetric. -/
example : ∃ c' total, exWalkR.invert = .ok c' ∧ tryLength (fun v : ℝ => ‖v‖) (fun _ => [(-1/2, 1), (1/2, 1)]) (1/1000) exWalkR = .ok total ∧
    tryLength (fun v : ℝ => ‖v‖) (fun _ => [(-1/2, 1), (1/2, 1)]) (1/1000) c' = .ok total :=
  C112_length_reversed exWalkR_plain exWalkR_unbroken (by simp [exWalkR]) (fun _ => by norm_num) (fun _ => by
    norm_num
    exact List.Perm.swap _ _ _)

end Curvo.Props

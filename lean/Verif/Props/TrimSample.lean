/-
  C83: sampling of the trimming curves of a trimmed surface.
-/
import Verif.Model.Trimmed
import Verif.Props.BfgsCurves
import Verif.Props.TessParams
import Verif.Props.TessClaims
import Verif.Props.Curve4

set_option linter.unusedSectionVars false

namespace Curvo.Props

open Curvo Curvo.Knots Curvo.Spec Curvo.Trimmed Curvo.Tess

variable {K : Type} [Field K] [LinearOrder K] [IsStrictOrderedRing K]
variable {W : Type} [AddCommGroup W] [Module K W]
variable {eps floor tol : K}

/-! ### The recursion -/

section recursion
variable {pt : K → Res ((K × K) × (K × K))} {P T : K → K × K} {lo hi : K}
  {test : (K × K) × (K × K) → (K × K) × (K × K) → (K × K) × (K × K) → Res Bool} {R : K → K → Bool}

theorem iterateUv_mono : ∀ {n m : ℕ} {a b : K} {r : List (K × K)}, iterateUv floor pt test n a b = .ok r → n ≤ m →
    iterateUv floor pt test m a b = .ok r
  | 0, _, _, _, _, h, _ => by simp [iterateUv] at h
  | n + 1, 0, _, _, _, _, hm => by omega
  | n + 1, m + 1, a, b, r, h, hm => by
    unfold iterateUv at h ⊢
    obtain ⟨p1, e1, h⟩ := bind_eq_ok.1 h
    rw [e1, ok_bind]
    by_cases hd : b - a < floor
    · rw [if_pos hd] at h ⊢; exact h
    · rw [if_neg hd] at h ⊢
      simp only [] at h ⊢
      obtain ⟨p2, e2, h⟩ := bind_eq_ok.1 h
      rw [e2, ok_bind]
      obtain ⟨p3, e3, h⟩ := bind_eq_ok.1 h
      rw [e3, ok_bind]
      obtain ⟨fl, e4, h⟩ := bind_eq_ok.1 h
      rw [e4, ok_bind]
      cases fl with
      | false => exact h
      | true =>
        simp only [if_true] at h ⊢
        obtain ⟨l, el, h⟩ := bind_eq_ok.1 h
        obtain ⟨r', er, h⟩ := bind_eq_ok.1 h
        rw [iterateUv_mono el (by omega), ok_bind, iterateUv_mono er (by omega), ok_bind]
        exact h

/-- Assumptions on the evaluation: it succeeds over the domain, and `R x y` is the outcome of the test. -/
structure Sampler (pt : K → Res ((K × K) × (K × K))) (P T : K → K × K) (lo hi : K)
    (test : (K × K) × (K × K) → (K × K) × (K × K) → (K × K) × (K × K) → Res Bool) (R : K → K → Bool) : Prop where
  pt : ∀ t, lo ≤ t → t ≤ hi → pt t = .ok (P t, T t)
  test : ∀ x y, lo ≤ x → x ≤ y → y ≤ hi →
    test (P x, T x) (P (x + (y - x) * (1 / 2)), T (x + (y - x) * (1 / 2))) (P y, T y) = .ok (R x y)

theorem iterateUv_short (h : Sampler pt P T lo hi test R) (fuel : ℕ) {a b : K} (h1 : lo ≤ a) (h2 : a ≤ hi)
    (hs : b - a < floor) : iterateUv floor pt test (fuel + 1) a b = .ok [P a] := by
  rw [iterateUv, h.pt a h1 h2, ok_bind, if_pos hs]
  rfl

theorem iterateUv_straight (h : Sampler pt P T lo hi test R) (fuel : ℕ) {a b : K} (h1 : lo ≤ a) (h2 : a ≤ b) (h3 : b ≤ hi)
    (hs : floor ≤ b - a) (hR : R a b = false) : iterateUv floor pt test (fuel + 1) a b = .ok [P a, P b] := by
  have hh := half_bounds h2
  rw [iterateUv, h.pt a h1 (h2.trans h3), ok_bind, if_neg (not_lt.2 hs)]
  simp only []
  rw [h.pt _ (h1.trans hh.1) (hh.2.trans h3), ok_bind, h.pt b (h1.trans h2) h3, ok_bind, h.test a b h1 h2 h3, ok_bind, hR]
  rfl

theorem iterateUv_split (h : Sampler pt P T lo hi test R) (fuel : ℕ) {a b : K} (h1 : lo ≤ a) (h2 : a ≤ b) (h3 : b ≤ hi)
    (hs : floor ≤ b - a) (hR : R a b = true) {l r : List (K × K)}
    (hl : iterateUv floor pt test fuel a (a + (b - a) * (1 / 2)) = .ok l)
    (hr : iterateUv floor pt test fuel (a + (b - a) * (1 / 2)) b = .ok r) :
    iterateUv floor pt test (fuel + 1) a b = .ok (l.dropLast ++ r) := by
  have hh := half_bounds h2
  rw [iterateUv, h.pt a h1 (h2.trans h3), ok_bind, if_neg (not_lt.2 hs)]
  simp only []
  rw [h.pt _ (h1.trans hh.1) (hh.2.trans h3), ok_bind, h.pt b (h1.trans h2) h3, ok_bind, h.test a b h1 h2 h3, ok_bind, hR,
    if_pos rfl, hl, ok_bind, hr, ok_bind]
  rfl

/-- In every case the recursion ends and returns points of the curve at strictly increasing parameters. -/
theorem iterateUv_spec (h : Sampler pt P T lo hi test R) : ∀ (fuel : ℕ) (a b : K), lo ≤ a → a ≤ b → b ≤ hi →
    b - a < floor * 2 ^ fuel →
    ∃ ts : List K, iterateUv floor pt test (fuel + 1) a b = .ok (ts.map P) ∧ ts ≠ [] ∧ ts.Pairwise (· < ·) ∧
      ∀ t ∈ ts, a ≤ t ∧ t ≤ b := by
  intro fuel
  induction fuel with
  | zero =>
    intro a b h1 h2 h3 h4
    rw [pow_zero, mul_one] at h4
    exact ⟨[a], iterateUv_short h 0 h1 (h2.trans h3) h4, by simp, by simp, by simpa using h2⟩
  | succ fuel ih =>
    intro a b h1 h2 h3 h4
    by_cases hs : b - a < floor
    · exact ⟨[a], iterateUv_short h _ h1 (h2.trans h3) hs, by simp, by simp, by simpa using h2⟩
    rw [not_lt] at hs
    have hh := half_bounds h2
    cases hR : R a b with
    | true =>
      have hlt : b - a < floor * 2 ^ fuel * 2 := by rw [pow_succ, ← mul_assoc] at h4; exact h4
      obtain ⟨tl, el, nl, sl, bl⟩ := ih a (a + (b - a) * (1 / 2)) h1 hh.1 (by linarith) (by linarith)
      obtain ⟨tr, er, nr, sr, br⟩ := ih (a + (b - a) * (1 / 2)) b (by linarith) hh.2 h3 (by linarith)
      refine ⟨tl.dropLast ++ tr, ?_, by simp [nr], ?_, ?_⟩
      · rw [iterateUv_split h _ h1 h2 h3 hs hR el er, List.map_append, List.map_dropLast]
      · rw [List.pairwise_append]
        refine ⟨sl.sublist (List.dropLast_sublist _), sr, ?_⟩
        intro x hx y hy
        have hlast : x < tl.getLast nl := by
          have := sl
          rw [← List.dropLast_append_getLast nl, List.pairwise_append] at this
          exact this.2.2 x hx _ (by simp)
        have h1 := (bl _ (List.getLast_mem nl)).2
        have h2 := (br y hy).1
        linarith
      · intro t ht
        rcases List.mem_append.1 ht with ht | ht
        · have := bl t (List.mem_of_mem_dropLast ht)
          exact ⟨this.1, by linarith⟩
        · have := br t ht
          exact ⟨by linarith, this.2⟩
    | false =>
      refine ⟨[a, b], iterateUv_straight h _ h1 h2 h3 hs hR, by simp, ?_, ?_⟩
      · rcases h2.lt_or_eq with h2 | rfl
        · simpa using h2
        · exfalso
          have : (0 : K) < floor * 2 ^ (fuel + 1) := by rw [sub_self] at h4; exact h4
          have : 0 < floor := by
            by_contra hn
            have := mul_nonpos_of_nonpos_of_nonneg (not_lt.1 hn) (pow_nonneg (zero_le_two : (0 : K) ≤ 2) (fuel + 1))
            linarith
          linarith
      · intro t ht
        simp only [List.mem_cons, List.not_mem_nil, or_false] at ht
        rcases ht with rfl | rfl
        · exact ⟨le_refl _, h2⟩
        · exact ⟨h2, le_refl _⟩

/-- When every piece shorter than twice the floor passes the test, first and last sample are the ends and every piece
    between consecutive samples passed the test. -/
theorem iterateUv_ends (h : Sampler pt P T lo hi test R) (hf : 0 < floor)
    (hsmall : ∀ a b, lo ≤ a → b ≤ hi → a ≤ b → b - a < 2 * floor → R a b = false) :
    ∀ (fuel : ℕ) (a b : K), lo ≤ a → floor ≤ b - a → b ≤ hi → b - a < floor * 2 ^ fuel →
      ∃ ts : List K, iterateUv floor pt test (fuel + 1) a b = .ok (ts.map P) ∧
        ts.head? = some a ∧ ts.getLast? = some b ∧ ts.IsChain fun x y => x < y ∧ R x y = false := by
  intro fuel
  induction fuel with
  | zero =>
    intro a b h1 h2 h3 h4
    rw [pow_zero, mul_one] at h4
    exact absurd h4 (not_lt.2 h2)
  | succ fuel ih =>
    intro a b h1 h2 h3 h4
    have hab : a ≤ b := by linarith
    have hh := half_bounds hab
    cases hR : R a b with
    | true =>
      have hbig : 2 * floor ≤ b - a := by
        by_contra hcon
        have := hsmall a b h1 h3 hab (not_le.1 hcon)
        rw [hR] at this
        cases this
      have hlt : b - a < floor * 2 ^ fuel * 2 := by rw [pow_succ, ← mul_assoc] at h4; exact h4
      obtain ⟨tl, el, hl, ll, cl⟩ := ih a (a + (b - a) * (1 / 2)) h1 (by linarith) (by linarith) (by linarith)
      obtain ⟨tr, er, hr', lr, cr⟩ := ih (a + (b - a) * (1 / 2)) b (by linarith) (by linarith) h3 (by linarith)
      have nl : tl ≠ [] := by rintro rfl; simp at hl
      obtain ⟨m, tr', rfl⟩ : ∃ m tr', tr = m :: tr' := by
        cases tr with
        | nil => simp at hr'
        | cons m t => exact ⟨m, t, rfl⟩
      have em : m = a + (b - a) * (1 / 2) := by simpa using hr'
      have eL : tl = tl.dropLast ++ [m] := by
        have := List.dropLast_append_getLast nl
        rw [List.getLast?_eq_getLast_of_ne_nil nl] at ll
        rw [em, ← Option.some.inj ll]
        exact this.symm
      have eC : tl.dropLast ++ m :: tr' = tl ++ tr' := by
        conv_rhs => rw [eL]
        simp
      refine ⟨tl.dropLast ++ m :: tr', ?_, ?_, ?_, ?_⟩
      · rw [iterateUv_split h _ h1 hab h3 h2 hR el er, List.map_append, List.map_dropLast]
      · rw [eC, List.head?_append, hl]; rfl
      · rw [List.getLast?_append, lr]; rfl
      · rw [eL] at cl
        exact List.isChain_split.2 ⟨cl, cr⟩
    | false =>
      refine ⟨[a, b], iterateUv_straight h _ h1 hab h3 h2 hR, rfl, rfl, ?_⟩
      rw [List.isChain_pair]
      exact ⟨by linarith, hR⟩

/-- If the test refuses every piece, a single sample remains, less than one floor before the end. -/
theorem iterateUv_refused (h : Sampler pt P T lo hi test R)
    (href : ∀ a b, lo ≤ a → b ≤ hi → floor ≤ b - a → R a b = true) :
    ∀ (fuel : ℕ) (a b : K), lo ≤ a → a ≤ b → b ≤ hi → b - a < floor * 2 ^ fuel →
      ∃ t, iterateUv floor pt test (fuel + 1) a b = .ok [P t] ∧ a ≤ t ∧ t ≤ b ∧ b - floor < t := by
  intro fuel
  induction fuel with
  | zero =>
    intro a b h1 h2 h3 h4
    rw [pow_zero, mul_one] at h4
    exact ⟨a, iterateUv_short h 0 h1 (h2.trans h3) h4, le_refl _, h2, by linarith⟩
  | succ fuel ih =>
    intro a b h1 h2 h3 h4
    by_cases hs : b - a < floor
    · exact ⟨a, iterateUv_short h _ h1 (h2.trans h3) hs, le_refl _, h2, by linarith⟩
    rw [not_lt] at hs
    have hh := half_bounds h2
    have hlt : b - a < floor * 2 ^ fuel * 2 := by rw [pow_succ, ← mul_assoc] at h4; exact h4
    obtain ⟨tl, el, l1, l2, l3⟩ := ih a (a + (b - a) * (1 / 2)) h1 hh.1 (by linarith) (by linarith)
    obtain ⟨tr, er, r1, r2, r3⟩ := ih (a + (b - a) * (1 / 2)) b (by linarith) hh.2 h3 (by linarith)
    refine ⟨tr, ?_, by linarith, r2, r3⟩
    rw [iterateUv_split h _ h1 h2 h3 hs (href a b h1 h3 hs) el er]
    rfl

/-- One piece of a knot-to-knot sampling. -/
def piece (floor : K) (pt : K → Res ((K × K) × (K × K)))
    (test : (K × K) × (K × K) → (K × K) × (K × K) → (K × K) × (K × K) → Res Bool) (fuel : ℕ) (k : ℕ → K) (i : ℕ) :
    Res (List (K × K)) := do
  let pts ← iterateUv floor pt test fuel (k i) (k (i + 1))
  pure (if i = 1 then pts else pts.drop 1)

theorem range_drop (n : ℕ) : (List.range (n + 3)).drop 1 = (List.range (n + 2)).drop 1 ++ [n + 2] := by
  rw [List.range_succ, List.drop_append_of_le_length (by simp)]

theorem stitch (h : Sampler pt P T lo hi test R) (fuel : ℕ) (k : ℕ → K) (h1 : lo ≤ k 1) : ∀ n : ℕ,
    (∀ i, 1 ≤ i → i ≤ n + 1 → k i ≤ k (i + 1)) → k (n + 2) ≤ hi →
    (∀ i, 1 ≤ i → i ≤ n + 1 → k (i + 1) - k i < floor * 2 ^ fuel) →
    ∃ (parts : List (List (K × K))) (ts : List K),
      ((List.range (n + 2)).drop 1).mapM (piece floor pt test (fuel + 1) k) = .ok parts ∧ parts.flatten = ts.map P ∧
      ts ≠ [] ∧ ts.Pairwise (· < ·) ∧ ∀ t ∈ ts, k 1 ≤ t ∧ t ≤ k (n + 2) := by
  intro n
  induction n with
  | zero =>
    intro hk hn hs
    obtain ⟨ts, e, n, s, b⟩ := iterateUv_spec h fuel (k 1) (k 2) h1 (hk 1 (by omega) (by omega)) hn (hs 1 (by omega) (by omega))
    refine ⟨[ts.map P], ts, ?_, by simp, n, s, b⟩
    have : (List.range (0 + 2)).drop 1 = [1] := rfl
    rw [this, mapM_ok (g := fun _ => ts.map P)]
    · rfl
    · intro x hx
      rw [List.mem_singleton] at hx
      subst hx
      rw [piece, e, ok_bind, if_pos rfl]; rfl
  | succ n ih =>
    intro hk hn hs
    obtain ⟨parts, ts, e, ef, ne, st, b⟩ := ih (fun i a c => hk i a (by omega)) ((hk (n + 2) (by omega) (by omega)).trans hn)
      (fun i a c => hs i a (by omega))
    have hmono : k 1 ≤ k (n + 2) := by
      have := b _ (List.head_mem ne)
      exact this.1.trans this.2
    obtain ⟨tr, e', nr, sr, br⟩ := iterateUv_spec h fuel (k (n + 2)) (k (n + 3)) (h1.trans hmono)
      (hk (n + 2) (by omega) (by omega)) hn (hs (n + 2) (by omega) (by omega))
    obtain ⟨t0, tr', rfl⟩ := List.exists_cons_of_ne_nil nr
    rw [List.pairwise_cons] at sr
    refine ⟨parts ++ [tr'.map P], ts ++ tr', ?_, ?_, by simp [ne], ?_, ?_⟩
    · rw [range_drop, List.mapM_append, e, ok_bind, mapM_ok (g := fun _ => tr'.map P)]
      · rfl
      · intro x hx
        rw [List.mem_singleton] at hx
        subst hx
        rw [piece, e', ok_bind, if_neg (by omega)]; rfl
    · rw [List.flatten_append, ef, List.map_append]; simp
    · rw [List.pairwise_append]
      refine ⟨st, sr.2, fun x hx y hy => ?_⟩
      have h1 := (b x hx).2
      have h2 := (br t0 (by simp)).1
      have h3 := sr.1 y hy
      linarith
    · intro t ht
      have hkk := hk (n + 2) (by omega) (by omega)
      rcases List.mem_append.1 ht with ht | ht
      · exact ⟨(b t ht).1, (b t ht).2.trans hkk⟩
      · have := br t (List.mem_cons_of_mem _ ht)
        exact ⟨hmono.trans this.1, this.2⟩

/-- The samples of a piece of length zero or at least the floor. -/
theorem piece_ends (h : Sampler pt P T lo hi test R) (hf : 0 < floor)
    (hsmall : ∀ a b, lo ≤ a → b ≤ hi → a ≤ b → b - a < 2 * floor → R a b = false) (fuel : ℕ) {a b : K} (h1 : lo ≤ a)
    (h2 : a = b ∨ floor ≤ b - a) (h3 : b ≤ hi) (h4 : b - a < floor * 2 ^ fuel) :
    ∃ ts : List K, iterateUv floor pt test (fuel + 1) a b = .ok ((a :: ts).map P) ∧
      (a :: ts).getLast? = some b ∧ (a :: ts).IsChain fun x y => x < y ∧ R x y = false := by
  rcases h2 with rfl | h2
  · exact ⟨[], iterateUv_short h fuel h1 h3 (by rw [sub_self]; exact hf), rfl, by simp⟩
  · obtain ⟨ts, e, hh, hl, hc⟩ := iterateUv_ends h hf hsmall fuel a b h1 h2 h3 h4
    cases ts with
    | nil => simp at hh
    | cons x ts =>
      obtain rfl : x = a := by simpa using hh
      exact ⟨ts, e, hl, hc⟩

theorem stitch_ends (h : Sampler pt P T lo hi test R) (hf : 0 < floor)
    (hsmall : ∀ a b, lo ≤ a → b ≤ hi → a ≤ b → b - a < 2 * floor → R a b = false)
    (fuel : ℕ) (k : ℕ → K) (h1 : lo ≤ k 1) : ∀ n : ℕ,
    (∀ i, 1 ≤ i → i ≤ n + 1 → k i = k (i + 1) ∨ floor ≤ k (i + 1) - k i) → k (n + 2) ≤ hi →
    (∀ i, 1 ≤ i → i ≤ n + 1 → k (i + 1) - k i < floor * 2 ^ fuel) →
    ∃ (parts : List (List (K × K))) (ts : List K),
      ((List.range (n + 2)).drop 1).mapM (piece floor pt test (fuel + 1) k) = .ok parts ∧ parts.flatten = ts.map P ∧
      ts.head? = some (k 1) ∧ ts.getLast? = some (k (n + 2)) ∧ (ts.IsChain fun x y => x < y ∧ R x y = false) ∧
      (∀ i, 1 ≤ i → i ≤ n + 2 → k i ∈ ts) := by
  intro n
  induction n with
  | zero =>
    intro hk hn hs
    obtain ⟨ts, e, l, c⟩ := piece_ends h hf hsmall fuel h1 (hk 1 (by omega) (by omega)) hn (hs 1 (by omega) (by omega))
    refine ⟨[(k 1 :: ts).map P], k 1 :: ts, ?_, by simp, rfl, l, c, ?_⟩
    · have : (List.range (0 + 2)).drop 1 = [1] := rfl
      rw [this, mapM_ok (g := fun _ => (k 1 :: ts).map P)]
      · rfl
      · intro x hx
        rw [List.mem_singleton] at hx
        subst hx
        rw [piece, e, ok_bind, if_pos rfl]; rfl
    · intro i a b
      obtain rfl | rfl : i = 1 ∨ i = 2 := by omega
      · simp
      · exact List.mem_of_getLast? l
  | succ n ih =>
    intro hk hn hs
    have hkk : k (n + 2) ≤ k (n + 3) := by
      rcases hk (n + 2) (by omega) (by omega) with h | h
      · exact h.le
      · linarith
    obtain ⟨parts, ts, e, ef, hh, hl, hc, hm⟩ := ih (fun i a c => hk i a (by omega)) (hkk.trans hn)
      (fun i a c => hs i a (by omega))
    have hmono : k 1 ≤ k (n + 2) := by
      have : ∀ m, m ≤ n + 1 → k 1 ≤ k (m + 1) := by
        intro m
        induction m with
        | zero => intro _; exact le_refl _
        | succ m ihm =>
          intro hm
          refine (ihm (by omega)).trans ?_
          rcases hk (m + 1) (by omega) (by omega) with h | h
          · exact h.le
          · linarith
      exact this (n + 1) (by omega)
    obtain ⟨tr, e', l', c'⟩ := piece_ends h hf hsmall fuel (h1.trans hmono) (hk (n + 2) (by omega) (by omega)) hn
      (hs (n + 2) (by omega) (by omega))
    have nl : ts ≠ [] := by rintro rfl; simp at hh
    have eL : ts = ts.dropLast ++ [k (n + 2)] := by
      have := List.dropLast_append_getLast nl
      rw [List.getLast?_eq_getLast_of_ne_nil nl] at hl
      rw [← Option.some.inj hl]
      exact this.symm
    have eC : ts ++ tr = ts.dropLast ++ k (n + 2) :: tr := by
      conv_lhs => rw [eL]
      simp
    refine ⟨parts ++ [tr.map P], ts ++ tr, ?_, ?_, ?_, ?_, ?_, ?_⟩
    · rw [range_drop, List.mapM_append, e, ok_bind, mapM_ok (g := fun _ => tr.map P)]
      · rfl
      · intro x hx
        rw [List.mem_singleton] at hx
        subst hx
        rw [piece, e', ok_bind, if_neg (by omega)]; rfl
    · rw [List.flatten_append, ef, List.map_append]; simp
    · rw [List.head?_append, hh]; rfl
    · rw [eC, List.getLast?_append, l']; rfl
    · rw [eC]
      rw [eL] at hc
      exact List.isChain_split.2 ⟨hc, c'⟩
    · intro i a b
      rcases Nat.lt_or_ge i (n + 3) with hi | hi
      · exact List.mem_append_left _ (hm i a (by omega))
      · obtain rfl : i = n + 3 := by omega
        rw [eC]
        exact List.mem_append_right _ (List.mem_of_getLast? l')

end recursion

/-! ### Trimming curves -/

/-- The point of a trimming curve. -/
def uvPoint (c : UvCurve K) (t : K) : K × K := (c.eval t).2⁻¹ • (c.eval t).1

/-- A trimming curve with positive weights and control points over the domain of the surface. -/
structure Over (eps : K) (S : Surface K (W × K)) (c : UvCurve K) : Prop where
  good : c.Good eps
  pos : ∀ p ∈ c.cps, 0 < p.2
  inside : ∀ p ∈ c.cps, (domRect S).Mem (p.2⁻¹ • p.1)

theorem Over.pointAt {S : Surface K (W × K)} {c : UvCurve K} (h : Over eps S c) {t : K} (h1 : c.lo ≤ t) (h2 : t ≤ c.hi) :
    c.pointAt eps t = .ok (uvPoint c t) := (C09_point_at_positive_weights h.good h.pos h1 h2).1

/-- The trimming curve stays over the domain of the surface. -/
theorem Over.mem {S : Surface K (W × K)} {c : UvCurve K} (h : Over eps S c) {t : K} (h1 : c.lo ≤ t) (h2 : t ≤ c.hi) :
    (domRect S).Mem (uvPoint c t) := by
  have key : ∀ (f : (K × K) →ₗ[K] K) (b : K), (∀ x, (domRect S).Mem x → f x ≤ b) → f (uvPoint c t) ≤ b := by
    intro f b hb
    obtain ⟨q, e, hq⟩ := C10_half_space h.good h.pos h1 h2 f b fun p hp => hb _ (h.inside p hp)
    rw [h.pointAt h1 h2] at e
    rwa [Except.ok.inj e]
  refine ⟨?_, ?_, ?_, ?_⟩
  · have := key (-LinearMap.fst K K K) (-(domRect S).u0) fun x hx => by simpa using hx.1
    simpa using this
  · have := key (LinearMap.fst K K K) (domRect S).u1 fun x hx => by simpa using hx.2.1
    simpa using this
  · have := key (-LinearMap.snd K K K) (-(domRect S).v0) fun x hx => by simpa using hx.2.2.1
    simpa using this
  · have := key (LinearMap.snd K K K) (domRect S).v1 fun x hx => by simpa using hx.2.2.2
    simpa using this

/-- The acceptance test between two parameters, in terms of the queries of the API: the tangents of the trimming curve
    (not asked for linear curves) and the normals of the surface at start, middle and end have second differences of
    norm at most the tolerance. -/
def Straight (E : Space K W) (eps : K) (S : Surface K (W × K)) (c : UvCurve K) (tol x y : K) : Prop :=
  (c.degree ≠ 1 → ∀ t₀ t₁ t₂, c.tangentAt eps x = .ok t₀ → c.tangentAt eps ((x + y) / 2) = .ok t₁ →
    c.tangentAt eps y = .ok t₂ → E.norm2 ((t₁ - t₀) - (t₂ - t₁)) ≤ tol) ∧
  ∀ n₀ n₁ n₂, S.normalAt E.cross eps (uvPoint c x).1 (uvPoint c x).2 = .ok n₀ →
    S.normalAt E.cross eps (uvPoint c ((x + y) / 2)).1 (uvPoint c ((x + y) / 2)).2 = .ok n₁ →
    S.normalAt E.cross eps (uvPoint c y).1 (uvPoint c y).2 = .ok n₂ → E.norm ((n₁ - n₀) - (n₂ - n₁)) ≤ tol

theorem Over.tangent {S : Surface K (W × K)} {c : UvCurve K} (h : Over eps S c) {t : K} (h1 : c.lo ≤ t) (h2 : t ≤ c.hi) :
    ∃ d, c.tangentAt eps t = .ok d ∧ c.pointTangentAt eps t = .ok (uvPoint c t, d) := by
  obtain ⟨p, e, hp⟩ := curve_anywhere h.good t
  rw [Curve.point_eq_eval h.good h1 h2] at e
  obtain rfl := Except.ok.inj e
  rcases hp with ⟨-, d, ed⟩ | ⟨h0, -⟩
  · exact ⟨d, by rw [Curve.tangentAt, ed, ok_bind]; rfl, by rw [Curve.pointTangentAt, ed, ok_bind]; rfl⟩
  · exact absurd h0 (eval_weight_pos h.good h1 h2 h.pos).ne'

theorem normal_ok {S : Surface K (W × K)} (hS : S.Good eps) (hw : ∀ row ∈ S.cps, ∀ p ∈ row, 0 < p.2)
    (cross : W → W → W) {x : K × K} (hx : (domRect S).Mem x) : ∃ n, S.normalAt cross eps x.1 x.2 = .ok n := by
  obtain ⟨a, b, e⟩ := first_derivatives hS hw hx
  exact ⟨cross a b, by rw [Surface.normalAt, e, ok_bind]; rfl⟩

theorem Over.sampler {S : Surface K (W × K)} (hS : S.Good eps) (hw : ∀ row ∈ S.cps, ∀ p ∈ row, 0 < p.2)
    {c : UvCurve K} (h : Over eps S c) (E : Space K W) (tol : K) :
    ∃ (T : K → K × K) (R : K → K → Bool), Sampler (c.pointTangentAt eps) (uvPoint c) T c.lo c.hi
      (bends E eps S c.degree tol) R ∧
      ∀ x y, c.lo ≤ x → x ≤ y → y ≤ c.hi → (R x y = false ↔ Straight E eps S c tol x y) := by
  classical
  have ht : ∃ T : K → K × K, ∀ t, c.lo ≤ t → t ≤ c.hi →
      c.tangentAt eps t = .ok (T t) ∧ c.pointTangentAt eps t = .ok (uvPoint c t, T t) := by
    refine ⟨fun t => if hh : c.lo ≤ t ∧ t ≤ c.hi then (h.tangent hh.1 hh.2).choose else 0, fun t h1 h2 => ?_⟩
    simp only [dif_pos (And.intro h1 h2)]
    exact (h.tangent h1 h2).choose_spec
  obtain ⟨T, hT⟩ := ht
  refine ⟨T, fun x y => decide (¬ Straight E eps S c tol x y), ⟨fun t h1 h2 => (hT t h1 h2).2, ?_⟩, ?_⟩
  · intro x y h1 h2 h3
    have hm : x + (y - x) * (1 / 2) = (x + y) / 2 := by ring
    rw [hm]
    have hh := half_bounds h2
    rw [hm] at hh
    obtain ⟨n0, e0⟩ := normal_ok hS hw E.cross (h.mem h1 (h2.trans h3))
    obtain ⟨n1, e1⟩ := normal_ok hS hw E.cross (h.mem (h1.trans hh.1) (hh.2.trans h3))
    obtain ⟨n2, e2⟩ := normal_ok hS hw E.cross (h.mem (h1.trans h2) h3)
    have t0 := (hT x h1 (h2.trans h3)).1
    have t1 := (hT _ (h1.trans hh.1) (hh.2.trans h3)).1
    have t2 := (hT y (h1.trans h2) h3).1
    have hS' : Straight E eps S c tol x y ↔
        (c.degree ≠ 1 → E.norm2 ((T ((x + y) / 2) - T x) - (T y - T ((x + y) / 2))) ≤ tol) ∧
        E.norm ((n1 - n0) - (n2 - n1)) ≤ tol := by
      constructor
      · exact fun hs => ⟨fun hd => hs.1 hd _ _ _ t0 t1 t2, hs.2 _ _ _ e0 e1 e2⟩
      · refine fun hs => ⟨fun hd a b c' ha hb hc => ?_, fun a b c' ha hb hc => ?_⟩
        · rw [t0] at ha; rw [t1] at hb; rw [t2] at hc
          rw [← Except.ok.inj ha, ← Except.ok.inj hb, ← Except.ok.inj hc]
          exact hs.1 hd
        · rw [e0] at ha; rw [e1] at hb; rw [e2] at hc
          rw [← Except.ok.inj ha, ← Except.ok.inj hb, ← Except.ok.inj hc]
          exact hs.2
    rw [bends]
    by_cases hb : c.degree ≠ 1 ∧ tol < E.norm2 ((T ((x + y) / 2) - T x) - (T y - T ((x + y) / 2)))
    · rw [if_pos hb]
      have : ¬ Straight E eps S c tol x y := fun hs => absurd ((hS'.1 hs).1 hb.1) (not_le.2 hb.2)
      simp only [this, not_false_eq_true, decide_true]
      rfl
    · rw [if_neg hb]
      simp only [e0, e1, e2, ok_bind]
      have : Straight E eps S c tol x y ↔ E.norm ((n1 - n0) - (n2 - n1)) ≤ tol := by
        rw [hS']
        refine ⟨fun hs => hs.2, fun hs => ⟨fun hd => ?_, hs⟩⟩
        by_contra hn
        exact hb ⟨hd, not_le.1 hn⟩
      simp only [this, not_le]
      rfl
  · intro x y _ _ _
    simp

theorem vertexAt_ok {S : Surface K (W × K)} (hS : S.Good eps) (hw : ∀ row ∈ S.cps, ∀ p ∈ row, 0 < p.2) (E : Space K W)
    {x : K × K} (hx : (domRect S).Mem x) :
    ∃ v : Vertex K W, vertexAt E eps S x = .ok v ∧ v.uv = x ∧ S.pointAt eps x.1 x.2 = .ok v.point ∧
      S.normalAt E.cross eps x.1 x.2 = .ok v.normal := by
  obtain ⟨n, en⟩ := normal_ok hS hw E.cross hx
  have ep := surf_pointAt hS hw hx
  exact ⟨⟨surfPoint S x, n, x⟩, by rw [vertexAt, ep, ok_bind, en, ok_bind]; rfl, rfl, ep, en⟩

/-- A vertex that lies over the trimming curve at a parameter, and on the surface. -/
def IsSample (E : Space K W) (eps : K) (S : Surface K (W × K)) (c : UvCurve K) (t : K) (v : Vertex K W) : Prop :=
  c.pointAt eps t = .ok v.uv ∧ S.pointAt eps v.uv.1 v.uv.2 = .ok v.point ∧ S.normalAt E.cross eps v.uv.1 v.uv.2 = .ok v.normal

theorem lift_samples {S : Surface K (W × K)} (hS : S.Good eps) (hw : ∀ row ∈ S.cps, ∀ p ∈ row, 0 < p.2)
    {c : UvCurve K} (h : Over eps S c) (E : Space K W) : ∀ {ts : List K}, (∀ t ∈ ts, c.lo ≤ t ∧ t ≤ c.hi) →
    ∃ vs, (ts.map (uvPoint c)).mapM (vertexAt E eps S) = .ok vs ∧ List.Forall₂ (IsSample E eps S c) ts vs
  | [], _ => ⟨[], rfl, .nil⟩
  | t :: ts, ht => by
    obtain ⟨vs, e, hv⟩ := lift_samples hS hw h E fun t h' => ht t (List.mem_cons_of_mem _ h')
    have htt := ht t (by simp)
    obtain ⟨v, ev, e1, e2, e3⟩ := vertexAt_ok hS hw E (h.mem htt.1 htt.2)
    refine ⟨v :: vs, ?_, .cons ⟨?_, ?_, ?_⟩ hv⟩
    · rw [List.map_cons, List.mapM_cons, ev, ok_bind, e, ok_bind]; rfl
    · rw [e1]; exact h.pointAt htt.1 htt.2
    · rw [e1]; exact e2
    · rw [e1]; exact e3

theorem mapM_congr' {A B : Type} {f g : A → Res B} : ∀ {l : List A}, (∀ x ∈ l, f x = g x) → l.mapM f = l.mapM g
  | [], _ => rfl
  | a :: l, h => by
    rw [List.mapM_cons, List.mapM_cons, h a (by simp), mapM_congr' fun x hx => h x (List.mem_cons_of_mem _ hx)]

theorem uvSamples_linear {S : Surface K (W × K)} {c : UvCurve K} (h : c.Good eps) (E : Space K W) (hd : c.degree = 1)
    (fuel : ℕ) {r : List (List (K × K))}
    (hr : ((List.range (c.cps.length - 2 + 2)).drop 1).mapM
      (piece floor (c.pointTangentAt eps) (bends E eps S c.degree tol) fuel (kf c.knots)) = .ok r) :
    uvSamples E eps floor fuel c S tol = .ok r.flatten := by
  have hl := h.knots_len
  have := h.cps_pos
  have := h.good.le
  rw [uvSamples]
  simp only []
  rw [if_pos hd, subR_eq_ok (by omega), ok_bind, show c.knots.length - 2 = c.cps.length - 2 + 2 by omega,
    mapM_congr' (g := piece floor (c.pointTangentAt eps) (bends E eps S c.degree tol) fuel (kf c.knots)), hr, ok_bind]
  · rfl
  · intro i hi
    have hi : i < c.cps.length - 2 + 2 := List.mem_range.1 (List.mem_of_mem_drop hi)
    rw [getR_kf (by omega), ok_bind, getR_kf (by omega), ok_bind]
    rfl

theorem uvSamples_curved {S : Surface K (W × K)} {c : UvCurve K} (h : c.Good eps) (E : Space K W) (hd : c.degree ≠ 1)
    (fuel : ℕ) : uvSamples E eps floor fuel c S tol =
      iterateUv floor (c.pointTangentAt eps) (bends E eps S c.degree tol) fuel c.lo c.hi := by
  rw [uvSamples]
  simp only []
  rw [if_neg hd, knotsDomain_eq h, ok_bind]

/-- The vertices of a trimming curve of a trimmed surface, for every tolerance: the sampling ends and gives at least one
    vertex; the vertices lie on the surface, over points of the trimming curve at strictly increasing parameters. -/
theorem C83_increasing [Archimedean K] {S : Surface K (W × K)} (hS : S.Good eps)
    (hw : ∀ row ∈ S.cps, ∀ p ∈ row, 0 < p.2) {c : UvCurve K} (h : Over eps S c) (E : Space K W) (tol : K)
    (hf : 0 < floor) :
    ∃ (n : ℕ) (ts : List K) (vs : List (Vertex K W)), (∀ fuel, n ≤ fuel → uvVertices E eps floor fuel S tol c = .ok vs) ∧
      ts ≠ [] ∧ ts.Pairwise (· < ·) ∧ (∀ t ∈ ts, c.lo ≤ t ∧ t ≤ c.hi) ∧ List.Forall₂ (IsSample E eps S c) ts vs := by
  obtain ⟨T, R, hs, -⟩ := h.sampler hS hw E tol
  obtain ⟨n, hn⟩ := exists_fuel (x := c.hi - c.lo) hf
  have hlt := lo_lt_hi h.good
  have hpos := h.good.cps_pos
  have hle := h.good.good.le
  have key : ∃ ts : List K, (∀ fuel, n + 1 ≤ fuel → uvSamples E eps floor fuel c S tol = .ok (ts.map (uvPoint c))) ∧
      ts ≠ [] ∧ ts.Pairwise (· < ·) ∧ ∀ t ∈ ts, c.lo ≤ t ∧ t ≤ c.hi := by
    by_cases hd : c.degree = 1
    · rw [hd] at hle
      have hlo : kf c.knots 1 = c.lo := by rw [Curve.lo, hd]
      have hhi : kf c.knots (c.cps.length - 2 + 2) = c.hi := by rw [Curve.hi]; congr 1; omega
      have hm : ∀ i j, i ≤ j → j ≤ c.cps.length → kf c.knots i ≤ kf c.knots j :=
        fun i j a b => h.good.good.mono i j a (by omega)
      have hb : ∀ i, 1 ≤ i → i ≤ c.cps.length - 2 + 1 → kf c.knots (i + 1) - kf c.knots i < floor * 2 ^ n := by
        intro i h1 h2
        have h3 := hm 1 i h1 (by omega)
        have h4 := hm (i + 1) c.cps.length (by omega) (by omega)
        rw [hlo] at h3
        have h5 : kf c.knots (i + 1) ≤ c.hi := h4
        linarith
      obtain ⟨parts, ts, e, ef, ne, st, bd⟩ := stitch hs n (kf c.knots) hlo.ge (c.cps.length - 2)
        (fun i a b => hm i (i + 1) (by omega) (by omega)) hhi.le hb
      rw [hlo, hhi] at bd
      refine ⟨ts, fun fuel hfu => ?_, ne, st, bd⟩
      rw [← ef]
      refine uvSamples_linear h.good E hd fuel ?_
      obtain ⟨f', rfl⟩ : ∃ f', fuel = f' + 1 := ⟨fuel - 1, by omega⟩
      have hb' : ∀ i, 1 ≤ i → i ≤ c.cps.length - 2 + 1 → kf c.knots (i + 1) - kf c.knots i < floor * 2 ^ f' := by
        intro i h1 h2
        refine (hb i h1 h2).trans_le (mul_le_mul_of_nonneg_left ?_ hf.le)
        exact pow_le_pow_right₀ one_le_two (by omega)
      rw [← e]
      apply mapM_congr'
      intro i hi
      have hi1 : 1 ≤ i := by
        obtain ⟨j, hj, rfl⟩ := List.mem_drop_iff_getElem.1 hi
        simp
      have hi2 : i < c.cps.length - 2 + 2 := List.mem_range.1 (List.mem_of_mem_drop hi)
      have h3 := hm 1 i hi1 (by omega)
      have h4 := hm (i + 1) c.cps.length (by omega) (by omega)
      rw [hlo] at h3
      have h5 : kf c.knots (i + 1) ≤ c.hi := h4
      obtain ⟨us, eu, -⟩ := iterateUv_spec hs n (kf c.knots i) (kf c.knots (i + 1)) h3 (hm i (i + 1) (by omega) (by omega)) h5
        (hb i hi1 (by omega))
      rw [piece, piece, eu, iterateUv_mono eu hfu]
    · obtain ⟨ts, e, ne, st, bd⟩ := iterateUv_spec hs n c.lo c.hi (le_refl _) hlt.le (le_refl _) hn
      refine ⟨ts, fun fuel hfu => ?_, ne, st, bd⟩
      rw [uvSamples_curved h.good E hd]
      exact iterateUv_mono e hfu
  obtain ⟨ts, e, ne, st, bd⟩ := key
  obtain ⟨vs, ev, hv⟩ := lift_samples hS hw h E bd
  exact ⟨n + 1, ts, vs, fun fuel hfu => by rw [uvVertices, e fuel hfu, ok_bind, ev], ne, st, bd, hv⟩

/-- When every piece shorter than twice the smallest length passes the test, the samples run from the start of the
    trimming curve to its end and every piece between consecutive samples passed the test; a linear curve (with knot
    spans that are empty or not below the smallest length) is sampled at all its knots. -/
theorem C83_ends [Archimedean K] {S : Surface K (W × K)} (hS : S.Good eps)
    (hw : ∀ row ∈ S.cps, ∀ p ∈ row, 0 < p.2) {c : UvCurve K} (h : Over eps S c) (E : Space K W) (tol : K)
    (hf : 0 < floor)
    (hsmall : ∀ x y, c.lo ≤ x → x ≤ y → y ≤ c.hi → y - x < 2 * floor → Straight E eps S c tol x y)
    (hspans : if c.degree = 1 then ∀ i, 1 ≤ i → i < c.cps.length →
        c.knots.getD i 0 = c.knots.getD (i + 1) 0 ∨ floor ≤ c.knots.getD (i + 1) 0 - c.knots.getD i 0
      else floor ≤ c.hi - c.lo) :
    ∃ (fuel : ℕ) (ts : List K) (vs : List (Vertex K W)), uvVertices E eps floor fuel S tol c = .ok vs ∧
      ts.head? = some c.lo ∧ ts.getLast? = some c.hi ∧ List.Forall₂ (IsSample E eps S c) ts vs ∧
      (ts.IsChain fun x y => x < y ∧ Straight E eps S c tol x y) ∧
      (c.degree = 1 → ∀ k ∈ c.knots, c.lo ≤ k → k ≤ c.hi → k ∈ ts) := by
  obtain ⟨T, R, hs, hR⟩ := h.sampler hS hw E tol
  obtain ⟨n, hn⟩ := exists_fuel (x := c.hi - c.lo) hf
  have hlt := lo_lt_hi h.good
  have hpos := h.good.cps_pos
  have hle := h.good.good.le
  have hsm : ∀ a b, c.lo ≤ a → b ≤ c.hi → a ≤ b → b - a < 2 * floor → R a b = false :=
    fun a b h1 h2 h3 h4 => (hR a b h1 h3 h2).2 (hsmall a b h1 h3 h2 h4)
  have key : ∃ ts : List K, uvSamples E eps floor (n + 1) c S tol = .ok (ts.map (uvPoint c)) ∧
      ts.head? = some c.lo ∧ ts.getLast? = some c.hi ∧ (ts.IsChain fun x y => x < y ∧ R x y = false) ∧
      (c.degree = 1 → ∀ i, 1 ≤ i → i ≤ c.cps.length → kf c.knots i ∈ ts) := by
    by_cases hd : c.degree = 1
    · rw [if_pos hd] at hspans
      rw [hd] at hle
      have hlo : kf c.knots 1 = c.lo := by rw [Curve.lo, hd]
      have hhi : kf c.knots (c.cps.length - 2 + 2) = c.hi := by rw [Curve.hi]; congr 1; omega
      have hm : ∀ i j, i ≤ j → j ≤ c.cps.length → kf c.knots i ≤ kf c.knots j :=
        fun i j a b => h.good.good.mono i j a (by omega)
      obtain ⟨parts, ts, e, ef, th, tl, tc, tm⟩ := stitch_ends hs hf hsm n (kf c.knots) hlo.ge (c.cps.length - 2)
        (fun i a b => hspans i a (by omega)) hhi.le (by
          intro i h1 h2
          have h3 := hm 1 i h1 (by omega)
          have h4 := hm (i + 1) c.cps.length (by omega) (by omega)
          rw [hlo] at h3
          have h5 : kf c.knots (i + 1) ≤ c.hi := h4
          linarith)
      rw [hlo] at th
      rw [hhi] at tl
      refine ⟨ts, ?_, th, tl, tc, fun _ i a b => tm i a (by omega)⟩
      rw [← ef]
      exact uvSamples_linear h.good E hd _ e
    · rw [if_neg hd] at hspans
      obtain ⟨ts, e, th, tl, tc⟩ := iterateUv_ends hs hf hsm n c.lo c.hi (le_refl _) hspans (le_refl _) hn
      refine ⟨ts, ?_, th, tl, tc, fun h' => absurd h' hd⟩
      rw [uvSamples_curved h.good E hd]
      exact e
  obtain ⟨ts, e, th, tl, tc, tm⟩ := key
  have srt : ts.Pairwise (· < ·) := by
    rw [← List.isChain_iff_pairwise]
    exact tc.imp fun _ _ h => h.1
  have bd : ∀ t ∈ ts, c.lo ≤ t ∧ t ≤ c.hi := by
    intro t ht
    have ne : ts ≠ [] := List.ne_nil_of_mem ht
    constructor
    · obtain ⟨a, l, rfl⟩ := List.exists_cons_of_ne_nil ne
      obtain rfl : a = c.lo := by simpa using th
      rcases List.mem_cons.1 ht with rfl | ht
      · exact le_refl _
      · exact ((List.pairwise_cons.1 srt).1 t ht).le
    · rw [List.getLast?_eq_getLast_of_ne_nil ne] at tl
      rw [← Option.some.inj tl]
      rw [← List.dropLast_append_getLast ne] at ht srt
      rw [List.pairwise_append] at srt
      rcases List.mem_append.1 ht with ht | ht
      · exact (srt.2.2 t ht _ (by simp)).le
      · exact (List.mem_singleton.1 ht).le
  obtain ⟨vs, ev, hv⟩ := lift_samples hS hw h E bd
  refine ⟨n + 1, ts, vs, by rw [uvVertices, e, ok_bind, ev], th, tl, hv, ?_, ?_⟩
  · have : ∀ l : List K, (∀ t ∈ l, c.lo ≤ t ∧ t ≤ c.hi) → (l.IsChain fun x y => x < y ∧ R x y = false) →
        l.IsChain fun x y => x < y ∧ Straight E eps S c tol x y := by
      intro l
      induction l with
      | nil => intro _ _; simp
      | cons a l ih =>
        intro hb hc
        cases l with
        | nil => simp
        | cons b l =>
          rw [List.isChain_cons_cons] at hc ⊢
          refine ⟨⟨hc.1.1, (hR a b (hb a (by simp)).1 hc.1.1.le (hb b (by simp)).2).1 hc.1.2⟩, ?_⟩
          exact ih (fun t ht => hb t (List.mem_cons_of_mem _ ht)) hc.2
    exact this ts bd tc
  · intro hd k hk h1 h2
    obtain ⟨i, hi, rfl⟩ := List.mem_iff_getElem.1 hk
    rw [← kf_eq hi] at h1 h2 ⊢
    have hl := h.good.knots_len
    have hm := h.good.good.mono
    by_cases ha : i = 0
    · subst ha
      have : kf c.knots 0 = c.lo := le_antisymm (by rw [Curve.lo]; exact hm _ _ (by omega) (by omega)) h1
      rw [this]
      exact List.mem_of_head? th
    by_cases hb : i ≤ c.cps.length
    · exact tm hd i (by omega) hb
    · have : kf c.knots i = c.hi := le_antisymm h2 (by rw [Curve.hi]; exact hm _ _ (by omega) (by omega))
      rw [this]
      exact List.mem_of_getLast? tl

/-- A trimming curve that fails the test on every piece, as a curved one at tolerance zero, is reduced to a single
    vertex, less than the smallest length before its end: its start is lost. -/
theorem C83_refused [Archimedean K] {S : Surface K (W × K)} (hS : S.Good eps)
    (hw : ∀ row ∈ S.cps, ∀ p ∈ row, 0 < p.2) {c : UvCurve K} (h : Over eps S c) (E : Space K W) (tol : K)
    (hf : 0 < floor) (hd : c.degree ≠ 1)
    (href : ∀ x y, c.lo ≤ x → x < y → y ≤ c.hi → ¬ Straight E eps S c tol x y) :
    ∃ (fuel : ℕ) (t : K) (v : Vertex K W), uvVertices E eps floor fuel S tol c = .ok [v] ∧ IsSample E eps S c t v ∧
      c.hi - floor < t := by
  obtain ⟨T, R, hs, hR⟩ := h.sampler hS hw E tol
  obtain ⟨n, hn⟩ := exists_fuel (x := c.hi - c.lo) hf
  have hlt := lo_lt_hi h.good
  obtain ⟨t, e, h1, h2, h3⟩ := iterateUv_refused hs (fun a b ha hb hab => by
    have hab' : a < b := by linarith
    by_contra hcon
    exact href a b ha hab' hb ((hR a b ha hab'.le hb).1 (Bool.eq_false_iff.2 hcon))) n c.lo c.hi (le_refl _) hlt.le (le_refl _) hn
  obtain ⟨vs, ev, hv⟩ := lift_samples hS hw h E (ts := [t]) (by simpa using ⟨h1, h2⟩)
  cases hv with
  | cons hv hnil =>
    cases hnil
    exact ⟨n + 1, t, _, by rw [uvVertices, uvSamples_curved h.good E hd, e, ok_bind]; exact ev, hv, h3⟩

/-! ### Witnesses -/

/-- A unit square in the plane. -/
def exFlat : Surface ℚ ((ℚ × ℚ × ℚ) × ℚ) where
  uDegree := 1
  vDegree := 1
  uKnots := [0, 0, 1, 1]
  vKnots := [0, 0, 1, 1]
  cps := [[((0, 0, 0), 1), ((0, 1, 0), 1)], [((1, 0, 0), 1), ((1, 1, 0), 1)]]

theorem exFlat_good : exFlat.Good (1/1000) where
  rows_pos := by decide
  u_len := by decide
  u_good := ⟨by norm_num, by decide, mono_of_sorted (by decide +kernel) (by decide), by decide +kernel, by decide +kernel,
    by decide +kernel, by decide +kernel⟩
  cols_pos := by decide
  v_good := ⟨by norm_num, by decide, mono_of_sorted (by decide +kernel) (by decide), by decide +kernel, by decide +kernel,
    by decide +kernel, by decide +kernel⟩
  rect := by decide

theorem exFlat_weights : ∀ row ∈ exFlat.cps, ∀ p ∈ row, 0 < p.2 := by decide +kernel

/-- Space with the maximum norm. -/
def exSpace : Space ℚ (ℚ × ℚ × ℚ) where
  cross := spaceMetric.cross
  norm := fun v => max |v.1| (max |v.2.1| |v.2.2|)
  norm2 := fun v => max |v.1| |v.2|

theorem exFlat_patch (u v : ℚ) : exFlat.patchDer 1 1 0 0 u v = ((u, v, 0), 1) ∧
    exFlat.patchDer 1 1 1 0 u v = ((1, 0, 0), 0) ∧ exFlat.patchDer 1 1 0 1 u v = ((0, 1, 0), 0) := by
  refine ⟨?_, ?_, ?_⟩
  · simp [Surface.patchDer, exFlat, Finset.sum_range_succ, Surface.bder, spanPoly, kf, Surface.cp]
    refine ⟨⟨?_, ?_⟩, ?_⟩ <;> ring
  · simp [Surface.patchDer, exFlat, Finset.sum_range_succ, Surface.bder, spanPoly, kf, Surface.cp]
  · simp [Surface.patchDer, exFlat, Finset.sum_range_succ, Surface.bder, spanPoly, kf, Surface.cp]
    ring

theorem exFlat_normal {x : ℚ × ℚ} (hx : (domRect exFlat).Mem x) :
    exFlat.normalAt exSpace.cross (1/1000) x.1 x.2 = .ok (0, 0, 1) := by
  obtain ⟨h1, h2, h3, h4⟩ := hx
  obtain ⟨su, eu, pu, nu, iu⟩ := exFlat_good.exists_span_u h1 h2
  obtain ⟨sv, ev, pv, nv, iv⟩ := exFlat_good.exists_span_v h3 h4
  obtain rfl : su = 1 := le_antisymm nu pu
  obtain rfl : sv = 1 := le_antisymm nv pv
  obtain ⟨e, _, _⟩ := surf_span exFlat_good h1 h2 h3 h4 (by decide) (by decide) iu iv 1
  obtain ⟨p00, p10, p01⟩ := exFlat_patch x.1 x.2
  obtain ⟨Q, eQ, hQ⟩ := Surface.rationalTable_spec (m := 1)
    (F := fun k l => if k + l ≤ 1 then exFlat.patchDer 1 1 k l x.1 x.2 else 0) (by simp [p00])
  have q00 := hQ 0 0 (by omega)
  have q10 := hQ 1 0 (by omega)
  have q01 := hQ 0 1 (by omega)
  simp [Surface.leib, Finset.sum_range_succ, p00, p10, p01] at q00 q10 q01
  rw [Surface.normalAt, Surface.rationalDerivatives, e, ok_bind, eQ, ok_bind]
  show Except.ok (exSpace.cross (Q 1 0) (Q 0 1)) = _
  rw [q10, q01]
  decide +kernel

/-- A cubic trimming curve with an inflection. -/
def exSwing : UvCurve ℚ where
  degree := 3
  knots := [0, 0, 0, 0, 1, 1, 1, 1]
  cps := [((0, 0), 1), ((1/3, 1), 1), ((2/3, 0), 1), ((1, 1), 1)]

/-- A bent polyline as trimming curve. -/
def exHook : UvCurve ℚ where
  degree := 1
  knots := [0, 0, 1/4, 1, 1]
  cps := [((0, 0), 1), ((1, 1/2), 2), ((1, 1), 1)]

theorem exSwing_over : Over (1/1000) exFlat exSwing where
  good := ⟨by decide, by decide, by norm_num, by decide, mono_of_sorted (by decide +kernel) (by decide), by decide +kernel,
    by decide +kernel, by decide +kernel, by decide +kernel⟩
  pos := by decide +kernel
  inside := by
    intro p hp
    simp only [exSwing, List.mem_cons, List.not_mem_nil, or_false] at hp
    rcases hp with rfl | rfl | rfl | rfl <;>
    · refine ⟨?_, ?_, ?_, ?_⟩ <;> decide +kernel

theorem exHook_over : Over (1/1000) exFlat exHook where
  good := ⟨by decide, by decide, by norm_num, by decide, mono_of_sorted (by decide +kernel) (by decide), by decide +kernel,
    by decide +kernel, by decide +kernel, by decide +kernel⟩
  pos := by decide +kernel
  inside := by
    intro p hp
    simp only [exHook, List.mem_cons, List.not_mem_nil, or_false] at hp
    rcases hp with rfl | rfl | rfl <;>
    · refine ⟨?_, ?_, ?_, ?_⟩ <;> decide +kernel

example := C83_increasing exFlat_good exFlat_weights exSwing_over exSpace (1/100) (floor := 1/100000000) (by norm_num)
example := C83_increasing exFlat_good exFlat_weights exHook_over exSpace (1/100) (floor := 1/100000000) (by norm_num)

theorem exSwing_tangent {t : ℚ} (h1 : 0 ≤ t) (h2 : t ≤ 1) :
    exSwing.tangentAt (1/1000) t = .ok (1, 12 * t ^ 2 - 12 * t + 3) := by
  have hw : (exSwing.eval t).2 ≠ 0 := (eval_weight_pos exSwing_over.good h1 h2 exSwing_over.pos).ne'
  obtain ⟨s, e, hp, hn, hin⟩ := exSwing_over.good.exists_span h1 h2
  obtain rfl : s = 3 := le_antisymm hn hp
  have ed := Curve.derivatives_spec exSwing_over.good e hp hn (Curve.inSpan_lt hin) (m := 1)
  obtain ⟨ders, Q, e1, e2, l1, l2, hQ, -⟩ := C26_leibniz exSwing_over.good h1 h2 hw 1
  rw [ed] at e1
  obtain rfl := Except.ok.inj e1
  have d0 : exSwing.pieceDer 3 0 t = ((t, 4 * t ^ 3 - 6 * t ^ 2 + 3 * t), 1) := by
    simp [Curve.pieceDer, exSwing, Finset.sum_range_succ, spanPoly, kf]
    refine ⟨⟨?_, ?_⟩, ?_⟩ <;> ring
  have d1 : exSwing.pieceDer 3 1 t = ((1, 12 * t ^ 2 - 12 * t + 3), 0) := by
    simp [Curve.pieceDer, exSwing, Finset.sum_range_succ, spanPoly, kf]
    refine ⟨⟨?_, ?_⟩, ?_⟩ <;> ring
  have q1 := hQ 1 (le_refl _)
  have g0 : ((vec (1 + 1) fun n => exSwing.pieceDer 3 n t).getD 0 0) = exSwing.pieceDer 3 0 t := rfl
  have g1 : ((vec (1 + 1) fun n => exSwing.pieceDer 3 n t).getD 1 0) = exSwing.pieceDer 3 1 t := rfl
  simp only [Finset.sum_range_succ, Finset.sum_range_zero, g0, g1, d0, d1] at q1
  rw [Curve.tangentAt, e2, ok_bind]
  obtain ⟨a, b, rfl⟩ : ∃ a b, Q = [a, b] := by
    match Q, l2 with
    | [a, b], _ => exact ⟨a, b, rfl⟩
  simp at q1
  show Except.ok b = _
  rw [q1]

/-- The cubic fails the test at tolerance zero on every piece. -/
example : ∃ (fuel : ℕ) (t : ℚ) (v : Vertex ℚ (ℚ × ℚ × ℚ)),
    uvVertices exSpace (1/1000) (1/100000000) fuel exFlat 0 exSwing = .ok [v] ∧
      IsSample exSpace (1/1000) exFlat exSwing t v ∧ 1 - 1/100000000 < t :=
  C83_refused exFlat_good exFlat_weights exSwing_over exSpace 0 (by norm_num) (by decide) (by
    intro x y (h1 : 0 ≤ x) hxy (h2 : y ≤ 1) hs
    have := hs.1 (by decide) _ _ _ (exSwing_tangent h1 (by linarith)) (exSwing_tangent (by linarith) (by linarith))
      (exSwing_tangent (by linarith) h2)
    have h3 : |(((1 : ℚ), 12 * ((x + y) / 2) ^ 2 - 12 * ((x + y) / 2) + 3) - ((1 : ℚ), 12 * x ^ 2 - 12 * x + 3) -
      (((1 : ℚ), 12 * y ^ 2 - 12 * y + 3) - ((1 : ℚ), 12 * ((x + y) / 2) ^ 2 - 12 * ((x + y) / 2) + 3))).2| ≤ 0 :=
      (le_max_right _ _).trans this
    rw [abs_nonpos_iff] at h3
    simp only [Prod.snd_sub] at h3
    have : (y - x) ^ 2 = 0 := by linarith
    have : 0 < (y - x) ^ 2 := pow_pos (by linarith) 2
    linarith)

example : ∃ (fuel : ℕ) (ts : List ℚ) (vs : List (Vertex ℚ (ℚ × ℚ × ℚ))),
    uvVertices exSpace (1/1000) (1/100000000) fuel exFlat 0 exHook = .ok vs ∧
      ts.head? = some 0 ∧ ts.getLast? = some 1 ∧ List.Forall₂ (IsSample exSpace (1/1000) exFlat exHook) ts vs ∧
      (ts.IsChain fun x y => x < y ∧ Straight exSpace (1/1000) exFlat exHook 0 x y) ∧
      (exHook.degree = 1 → ∀ k ∈ exHook.knots, exHook.lo ≤ k → k ≤ exHook.hi → k ∈ ts) :=
  C83_ends exFlat_good exFlat_weights exHook_over exSpace 0 (by norm_num) (by
    intro x y h1 hxy h2 _
    refine ⟨fun h => absurd rfl h, fun a b c ha hb hc => ?_⟩
    rw [exFlat_normal (exHook_over.mem h1 (hxy.trans h2))] at ha
    rw [exFlat_normal (exHook_over.mem (by linarith) (by linarith))] at hb
    rw [exFlat_normal (exHook_over.mem (h1.trans hxy) h2)] at hc
    rw [← Except.ok.inj ha, ← Except.ok.inj hb, ← Except.ok.inj hc]
    decide +kernel) (by
    rw [if_pos (show exHook.degree = 1 from rfl)]
    intro i h1 h2
    replace h2 : i < 3 := h2
    rcases i with _ | _ | _ | i <;> first | omega | decide +kernel)

/-! ### Curved trimming curves that pass for straight -/

/-- The parabola `v = u²` over the unit square. -/
theorem exParabola_over : Over (1/1000) exFlat exParabola where
  good := exParabola_good
  pos := by decide +kernel
  inside := by
    intro p hp
    simp only [exParabola, List.mem_cons, List.not_mem_nil, or_false] at hp
    rcases hp with rfl | rfl | rfl <;>
    · refine ⟨?_, ?_, ?_, ?_⟩ <;> decide +kernel

/-- The test compares tangents, not points: the tangents of a parabola over a flat surface are evenly spaced, so its trim is
    replaced by the chord from its first to its last point, whatever the tolerance. -/
theorem C83_parabola_cut {tol floor : ℚ} (ht : 0 ≤ tol) (hf : floor ≤ 1) (fuel : ℕ) :
    uvSamples exSpace (1/1000) floor (fuel + 1) exParabola exFlat tol = .ok [(0, 0), (1, 1)] ∧
    exParabola.pointAt (1/1000) (1/2) = .ok (1/2, 1/4) := by
  refine ⟨?_, by decide +kernel⟩
  obtain ⟨T, R, hs, hR⟩ := exParabola_over.sampler exFlat_good exFlat_weights exSpace tol
  rw [uvSamples_curved exParabola_over.good exSpace (by decide)]
  have h0 : uvPoint exParabola 0 = (0, 0) := by
    have := exParabola_over.pointAt (t := 0) (by decide +kernel) (by decide +kernel)
    have e : exParabola.pointAt (1/1000) 0 = .ok (0, 0) := by decide +kernel
    rw [e] at this
    exact (Except.ok.inj this).symm
  have h1 : uvPoint exParabola 1 = (1, 1) := by
    have := exParabola_over.pointAt (t := 1) (by decide +kernel) (by decide +kernel)
    have e : exParabola.pointAt (1/1000) 1 = .ok (1, 1) := by decide +kernel
    rw [e] at this
    exact (Except.ok.inj this).symm
  have hlo : exParabola.lo = 0 := by decide +kernel
  have hhi : exParabola.hi = 1 := by decide +kernel
  have := iterateUv_straight (floor := floor) hs fuel (a := exParabola.lo) (b := exParabola.hi) (le_refl _)
    (by decide +kernel) (le_refl _) (by rw [hlo, hhi]; linarith) ((hR _ _ (le_refl _) (by decide +kernel) (le_refl _)).2 (by
      have t0 : exParabola.tangentAt (1/1000) exParabola.lo = .ok (1, 0) := by decide +kernel
      have t1 : exParabola.tangentAt (1/1000) ((exParabola.lo + exParabola.hi) / 2) = .ok (1, 1) := by decide +kernel
      have t2 : exParabola.tangentAt (1/1000) exParabola.hi = .ok (1, 2) := by decide +kernel
      refine ⟨fun _ a b c ha hb hc => ?_, fun a b c ha hb hc => ?_⟩
      · rw [t0] at ha; rw [t1] at hb; rw [t2] at hc
        rw [← Except.ok.inj ha, ← Except.ok.inj hb, ← Except.ok.inj hc]
        have : exSpace.norm2 (((1 : ℚ), (1 : ℚ)) - (1, 0) - ((1, 2) - (1, 1))) = 0 := by decide +kernel
        rw [this]; exact ht
      · rw [exFlat_normal (exParabola_over.mem (le_refl _) (by decide +kernel))] at ha
        rw [exFlat_normal (exParabola_over.mem (by decide +kernel) (by decide +kernel))] at hb
        rw [exFlat_normal (exParabola_over.mem (by decide +kernel) (le_refl _))] at hc
        rw [← Except.ok.inj ha, ← Except.ok.inj hb, ← Except.ok.inj hc]
        have : exSpace.norm (((0 : ℚ), (0 : ℚ), (1 : ℚ)) - (0, 0, 1) - ((0, 0, 1) - (0, 0, 1))) = 0 := by decide +kernel
        rw [this]; exact ht))
  rw [this, hlo, hhi, h0, h1]

end Curvo.Props

import Verif.Poly.Lemmas
import Mathlib.Algebra.Polynomial.Roots
import Mathlib.Analysis.Calculus.IteratedDeriv.Lemmas
import Mathlib.Analysis.Calculus.Deriv.Pow
import Mathlib.Algebra.Order.Field.Rat
import Mathlib.Tactic.NormNum

set_option linter.unusedSectionVars false

/-! Properties of the polynomial helpers (C55 - C59). -/

namespace Wafo.Poly

variable {α : Type*} [Field α]

section inj
open Polynomial

noncomputable def toPoly (l : List α) : Polynomial α := l.foldl (fun acc c => acc * X + C c) 0

theorem toPoly_append (l : List α) (c : α) : toPoly (l ++ [c]) = toPoly l * X + C c := by simp [toPoly]

theorem toPoly_eval (l : List α) (t : α) : (toPoly l).eval t = peval l t := by
  induction l using List.reverseRecOn with
  | nil => simp [toPoly, peval]
  | append_singleton l c ih => rw [toPoly_append, peval_append_singleton]; simp [ih]

theorem peval_inj [Infinite α] (p q : List α) (hl : p.length = q.length) (h : ∀ t, peval p t = peval q t) :
    p = q := by
  have hpoly : toPoly p = toPoly q := Polynomial.funext (fun t => by rw [toPoly_eval, toPoly_eval, h])
  clear h
  induction p using List.reverseRecOn generalizing q with
  | nil => exact (List.length_eq_zero_iff.1 (by simpa using hl.symm)).symm
  | append_singleton p c ih =>
    rcases List.eq_nil_or_concat q with rfl | ⟨q, d, rfl⟩
    · simp at hl
    · rw [List.concat_eq_append] at hpoly hl ⊢
      rw [toPoly_append, toPoly_append] at hpoly
      have h0 := congrArg (fun r => r.coeff 0) hpoly
      simp at h0
      subst h0
      have h1 : toPoly p * X = toPoly q * X := by simpa using hpoly
      have h2 : toPoly p = toPoly q := mul_right_cancel₀ X_ne_zero h1
      rw [ih q (by simpa using hl) h2]

end inj

/-! ### C55: integration and differentiation -/

theorem polyintRec_ok (m : ℕ) : ∀ (p k : List α), m ≤ k.length →
    ∃ P, polyintRec m p k = .ok P ∧ P.length = p.length + m := by
  induction m with
  | zero => intro p k _; exact ⟨p, rfl, rfl⟩
  | succ m ih =>
    intro p k hk
    cases k with
    | nil => simp at hk
    | cons k0 k =>
      obtain ⟨P, h1, h2⟩ := ih (int1 p k0) k (by simpa using hk)
      exact ⟨P, h1, by rw [h2, int1_length]; omega⟩

theorem polyderRec_add (a b : ℕ) (p : List α) : polyderRec (a + b) p = polyderRec b (polyderRec a p) := by
  induction a generalizing p with
  | zero => simp [polyderRec]
  | succ a ih => rw [show a + 1 + b = (a + b) + 1 by omega]; simp only [polyderRec]; exact ih _

theorem polyintRec_der [CharZero α] (m : ℕ) : ∀ (p k P : List α), polyintRec m p k = .ok P → polyderRec m P = p ∧
    ∀ j < m, peval (polyderRec j P) 0 = k.getD (m - j - 1) 0 := by
  induction m with
  | zero =>
    intro p k P h
    simp only [polyintRec, Except.ok.injEq] at h
    exact ⟨by simp [polyderRec, h], by intro j hj; omega⟩
  | succ m ih =>
    intro p k P h
    cases k with
    | nil => simp [polyintRec] at h
    | cons k0 k =>
      obtain ⟨h1, h2⟩ := ih (int1 p k0) k P h
      constructor
      · rw [polyderRec_add m 1, h1]; simp [polyderRec, der1_int1]
      · intro j hj
        by_cases hjm : j = m
        · subst hjm
          rw [h1, show j + 1 - j - 1 = 0 by omega, int1, peval_append_singleton]; simp
        · rw [h2 j (by omega), show m + 1 - j - 1 = (m - j - 1) + 1 by omega]; simp

/-- **C55**  With `m >= 0` and enough integration constants, `polyint` succeeds, differentiating `m` times returns
the coefficients exactly, and the `j`-th derivative of the result at 0 is `k[m-j-1]`. -/
theorem C55_polyder_polyint [CharZero α] (p k : List α) (m : ℕ) (hk : m ≤ k.length) (hk1 : k.length = 1 → m ≤ 1) :
    ∃ P, polyint p m (some k) = .ok P ∧ P.length = p.length + m ∧ polyder P m = .ok p ∧
      ∀ j < m, ∃ D, polyder P j = .ok D ∧ k[m - j - 1]? = some (peval D 0) := by
  have hkeep : intConsts m (some k) = k := by
    rcases k with _ | ⟨c, _ | ⟨d, k⟩⟩
    · rfl
    · have := hk1 rfl
      show (if 1 < m then List.replicate m c else [c]) = [c]
      rw [if_neg (by omega)]
    · rfl
  obtain ⟨P, hP, hlen⟩ := polyintRec_ok m p k hk
  obtain ⟨h1, h2⟩ := polyintRec_der m p k P hP
  refine ⟨P, ?_, hlen, ?_, ?_⟩
  · unfold polyint
    rw [if_neg (by omega)]
    simp only [Int.toNat_natCast, hkeep]
    rw [if_neg (by omega)]
    exact hP
  · simp [polyder, h1]
  · intro j hj
    refine ⟨polyderRec j P, by simp [polyder], ?_⟩
    rw [h2 j hj, List.getD_eq_getElem?_getD]
    rw [List.getElem?_eq_getElem (by omega)]
    simp

/-- **C55** for the default and the scalar constant: without `k` the constants are zero, a single constant is
used `m` times. -/
theorem C55_default_constants [CharZero α] (p : List α) (m : ℕ) (c : α) :
    polyint p m none = polyint p m (some [0]) ∧
    ∃ P, polyint p m (some [c]) = .ok P ∧ polyder P m = .ok p ∧
      ∀ j < m, ∃ D, polyder P j = .ok D ∧ peval D 0 = c := by
  have hkeep : ∀ c : α, m ≥ 1 → intConsts m (some [c]) = List.replicate m c := by
    intro c hm
    show (if 1 < m then List.replicate m c else [c]) = _
    by_cases h1 : 1 < m
    · rw [if_pos h1]
    · have : m = 1 := by omega
      subst this; simp
  constructor
  · unfold polyint
    simp only [Int.toNat_natCast]
    rcases Nat.eq_zero_or_pos m with rfl | hm
    · simp [polyintRec, intConsts]
    · rw [hkeep 0 hm]; simp [intConsts]
  · rcases Nat.eq_zero_or_pos m with rfl | hm
    · exact ⟨p, by simp [polyint, polyintRec], by simp [polyder, polyderRec], by intro j hj; omega⟩
    · obtain ⟨P, hP, hlen⟩ := polyintRec_ok m p (List.replicate m c) (by simp)
      obtain ⟨h1, h2⟩ := polyintRec_der m p _ P hP
      refine ⟨P, ?_, by simp [polyder, h1], ?_⟩
      · unfold polyint
        simp only [Int.toNat_natCast]
        rw [hkeep c hm]
        simp [hP]
      · intro j hj
        refine ⟨polyderRec j P, by simp [polyder], ?_⟩
        rw [h2 j hj]
        rw [List.getD_eq_getElem?_getD, List.getElem?_replicate, if_pos (by omega)]; rfl

/-- **C55**, errors: negative orders and too few constants raise ValueError. -/
theorem C55_errors (p k : List α) (m : ℤ) :
    (m < 0 → polyint p m (some k) = .error .valueError ∧ polyder p m = .error .valueError) ∧
    (k.length ≠ 1 → (k.length : ℤ) < m → polyint p m (some k) = .error .valueError) := by
  constructor
  · intro h; simp [polyint, polyder, h]
  · intro h1 h2
    unfold polyint
    split
    · rfl
    · rcases k with _ | ⟨c, _ | ⟨d, k⟩⟩
      · exact if_pos h2
      · simp at h1
      · exact if_pos h2

example : polyint [(3 : ℚ), 2] 2 (some [5, 7]) = .ok [1 / 2, 1, 5, 7] := by decide +kernel

/-! ### C56: the derivative -/

theorem der1_hasDerivAt (p : List ℝ) (t : ℝ) : HasDerivAt (peval p) (peval (der1 p) t) t := by
  induction p with
  | nil =>
    have : peval ([] : List ℝ) = fun _ => 0 := by funext; rfl
    rw [this]; simpa [der1, peval] using hasDerivAt_const t (0 : ℝ)
  | cons c l ih =>
    have hf : peval (c :: l) = fun t => c * t ^ l.length + peval l t := by funext t; rw [peval_cons]
    rw [hf]
    have h1 := ((hasDerivAt_pow l.length t).const_mul c).add ih
    refine h1.congr_deriv ?_
    by_cases hl : l = []
    · subst hl; simp [der1, peval]
    · rw [der1_cons c l hl, peval_cons, der1_length]; ring

/-- **C56**  `polyder(p, m)` evaluates to the `m`-th derivative of the evaluated polynomial. -/
theorem C56_polyder (p : List ℝ) (m : ℕ) :
    ∃ D, polyder p m = .ok D ∧ ∀ t, peval D t = iteratedDeriv m (peval p) t := by
  refine ⟨polyderRec m p, by simp [polyder], ?_⟩
  intro t
  induction m generalizing p with
  | zero => simp [polyderRec]
  | succ m ih =>
    rw [iteratedDeriv_succ']
    have : deriv (peval p) = peval (der1 p) := by funext s; exact (der1_hasDerivAt p s).deriv
    rw [this]; exact ih (der1 p)

example : polyder [(1 : ℚ), 1, 1, 1] 2 = .ok [6, 2] := by decide +kernel

/-! ### C57: moving and scaling -/

/-- **C57** (floating point coefficients) `polyreloc` moves the graph by `(x, y)` and `polyrescl` scales it by `x` along
the abscissa and by `y` along the ordinate, at every point. -/
theorem C57_reloc_rescl_partial (p : List α) (hp : p ≠ []) (x y : α) :
    (∃ r, polyreloc id p x y = .ok r ∧ r.length = p.length ∧ ∀ t, peval r t = peval p (t - x) + y) ∧
    (x ≠ 0 → (polyrescl p x y).length = p.length ∧ ∀ t, peval (polyrescl p x y) t = y * peval p (t / x)) :=
  ⟨polyreloc_eval p hp x y, fun hx => ⟨polyrescl_length p x y, fun t => polyrescl_eval p x y t hx⟩⟩

/-- Truncation towards zero, numpy's conversion of a float assigned into an integer array. -/
def truncInt (q : ℚ) : ℚ := ((q.num.tdiv q.den : ℤ) : ℚ)

/-- **C57** negated for integer coefficients: the array keeps the integer type of `p`, so that every intermediate
value is truncated.  `x**2` given as `[1, 0, 0]` and moved by 1/2 becomes `x**2`, its value at 1/2 is 1/4 not 0. -/
theorem C57_integer_refuted :
    ∃ r, polyreloc truncInt [(1 : ℚ), 0, 0] (1 / 2) 0 = .ok r ∧ peval r (1 / 2) ≠ peval [(1 : ℚ), 0, 0] 0 := by
  refine ⟨[1, 0, 0], by decide +kernel, by decide +kernel⟩

example : polyreloc id [(1 : ℚ), 0, 0] 1 5 = .ok [1, -2, 6] := by decide +kernel

/-! ### C58: change of interval -/

variable [DecidableEq α]

theorem polyishift_eval (p : List α) (hp : p ≠ []) (a b : α) (hab : a ≠ b) (h2 : (2 : α) ≠ 0) :
    ∃ r, polyishift p a b = .ok r ∧ r.length = p.length ∧ ∀ t, peval r t = peval p ((t * (b - a) + (b + a)) / 2) := by
  have hba : b - a ≠ 0 := fun h => hab (sub_eq_zero.1 h).symm
  unfold polyishift
  by_cases h : a = -1 ∧ b = 1
  · rw [if_pos h]
    refine ⟨p, rfl, rfl, ?_⟩
    intro t
    congr 1
    rw [h.1, h.2]; field_simp; ring
  · rw [if_neg h, if_neg hba]
    have hx : (2 / (b - a)) ≠ 0 := div_ne_zero h2 hba
    obtain ⟨r, e1, e2, e3⟩ := polyreloc_eval (polyrescl p (2 / (b - a)) 1)
      (by intro h0; have := polyrescl_length p (2 / (b - a)) 1; rw [h0] at this
          exact hp (List.length_eq_zero_iff.1 this.symm)) (-(a + b) / (b - a)) 0
    refine ⟨r, e1, by rw [e2, polyrescl_length], ?_⟩
    intro t
    rw [e3, polyrescl_eval _ _ _ _ hx, one_mul, add_zero]
    congr 1
    field_simp
    ring

theorem polyshift_eval (p : List α) (hp : p ≠ []) (a b : α) (hab : a ≠ b) (h2 : (2 : α) ≠ 0) :
    ∃ r, polyshift p a b = .ok r ∧ r.length = p.length ∧ ∀ t, peval r t = peval p ((t - (b + a) / 2) * (2 / (b - a))) := by
  have hba : b - a ≠ 0 := fun h => hab (sub_eq_zero.1 h).symm
  unfold polyshift
  by_cases h : a = -1 ∧ b = 1
  · rw [if_pos h]
    refine ⟨p, rfl, rfl, ?_⟩
    intro t
    congr 1
    rw [h.1, h.2, show (1 : α) - -1 = 2 by norm_num]
    simp [h2]
  · rw [if_neg h, if_neg hba]
    have hne : -(2 + b + a) / (b - a) ≠ (2 - b - a) / (b - a) := by
      intro e
      rw [div_left_inj' hba] at e
      have : (2 : α) * 2 = 0 := by linear_combination -e
      exact h2 ((mul_self_eq_zero).1 this)
    obtain ⟨r, e1, e2, e3⟩ := polyishift_eval p hp _ _ hne h2
    refine ⟨r, e1, e2, ?_⟩
    intro t
    rw [e3]
    congr 1
    field_simp
    ring

/-- **C58**  `polyshift(p, a, b)` evaluates `p` at the image of `x` under the affine map `[a, b] -> [-1, 1]`,
`polyishift(p, a, b)` at the image under the map `[-1, 1] -> [a, b]`, and either one undoes the other, coefficient
by coefficient. -/
theorem C58_polyshift [Infinite α] (p : List α) (hp : p ≠ []) (a b : α) (hab : a ≠ b) (h2 : (2 : α) ≠ 0) :
    ∃ r s, polyshift p a b = .ok r ∧ polyishift p a b = .ok s ∧
      (∀ t, peval r t = peval p (mapFromInterval t a b)) ∧
      (∀ t, peval s t = peval p (mapToInterval t a b)) ∧
      polyishift r a b = .ok p ∧ polyshift s a b = .ok p := by
  have hba : b - a ≠ 0 := fun h => hab (sub_eq_zero.1 h).symm
  obtain ⟨r, r1, r2, r3⟩ := polyshift_eval p hp a b hab h2
  obtain ⟨s, s1, s2, s3⟩ := polyishift_eval p hp a b hab h2
  have hr : r ≠ [] := by intro h; rw [h] at r2; exact hp (List.length_eq_zero_iff.1 r2.symm)
  have hs : s ≠ [] := by intro h; rw [h] at s2; exact hp (List.length_eq_zero_iff.1 s2.symm)
  refine ⟨r, s, r1, s1, r3, s3, ?_, ?_⟩
  · obtain ⟨u, u1, u2, u3⟩ := polyishift_eval r hr a b hab h2
    rw [u1]
    congr 1
    apply peval_inj u p (by rw [u2, r2])
    intro t
    rw [u3, r3]
    congr 1
    field_simp; ring
  · obtain ⟨u, u1, u2, u3⟩ := polyshift_eval s hs a b hab h2
    rw [u1]
    congr 1
    apply peval_inj u p (by rw [u2, s2])
    intro t
    rw [u3, s3]
    congr 1
    field_simp; ring

/-- The two interval maps send the end points to the end points and are inverse to each other. -/
theorem C58_interval_maps (a b t : α) (hab : a ≠ b) (h2 : (2 : α) ≠ 0) :
    mapFromInterval a a b = -1 ∧ mapFromInterval b a b = 1 ∧ mapToInterval (-1) a b = a ∧
    mapToInterval 1 a b = b ∧ mapToInterval (mapFromInterval t a b) a b = t ∧
    mapFromInterval (mapToInterval t a b) a b = t := by
  have hba : b - a ≠ 0 := fun h => hab (sub_eq_zero.1 h).symm
  simp only [mapFromInterval, mapToInterval]
  refine ⟨?_, ?_, ?_, ?_, ?_, ?_⟩ <;> field_simp <;> ring

example : polyshift [(1 : ℚ), 0] 0 5 = .ok [2 / 5, -1] := by decide +kernel

/-! ### C59: polytrim -/

theorem go_true (l : List α) : polytrim.go true l = l := by
  induction l with
  | nil => rfl
  | cons c l ih => simp [polytrim.go, ih]

theorem polytrim_cons (c : α) (l : List α) : polytrim (c :: l) = if c = 0 then polytrim l else c :: l := by
  unfold polytrim
  by_cases h : c = 0
  · simp [polytrim.go, h]
  · simp only [polytrim.go, Bool.false_or, h, if_false]
    rw [show (c != 0) = true by simpa using h]; simp [go_true]

/-- **C59**  `polytrim` does not change the function, the result has a non-zero leading coefficient (or is empty), it is a
suffix of the input after zeros, and trimming twice changes nothing. -/
theorem C59_polytrim (p : List α) :
    (∀ t, peval (polytrim p) t = peval p t) ∧ (∀ c, (polytrim p).head? = some c → c ≠ 0) ∧
    (∃ n, p = List.replicate n 0 ++ polytrim p) ∧ polytrim (polytrim p) = polytrim p := by
  induction p with
  | nil => exact ⟨fun t => rfl, by simp [polytrim, polytrim.go], ⟨0, rfl⟩, rfl⟩
  | cons c l ih =>
    rw [polytrim_cons]
    by_cases h : c = 0
    · rw [if_pos h]
      obtain ⟨h1, h2, ⟨n, h3⟩, h4⟩ := ih
      refine ⟨fun t => ?_, h2, ⟨n + 1, ?_⟩, h4⟩
      · rw [h1, peval_cons, h]; ring
      · rw [List.replicate_succ, List.cons_append, ← h3, h]
    · rw [if_neg h]
      refine ⟨fun t => rfl, ?_, ⟨0, rfl⟩, ?_⟩
      · intro d hd; simp at hd; rw [← hd]; exact h
      · rw [polytrim_cons, if_neg h]

example : polytrim [(0 : ℚ), 0, 1, 0, 2] = [1, 0, 2] := by decide +kernel

end Wafo.Poly

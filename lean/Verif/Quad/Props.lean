import Verif.Quad.Final

/-! Properties C113 to C124: numerical integration (`wafo/integrate.py`). -/

set_option linter.unusedSectionVars false

namespace Wafo.Quad

open Polynomial Finset Real MeasureTheory

/-! ## C113: Clenshaw-Curtis -/

/-- C113.  `clencurt` with parameter `n` integrates polynomials of degree up to `2 n + 1` exactly,
whatever the limits. -/
theorem C113_exact_partial (a b : ℝ) (n : ℕ) (hn : n ≠ 0) (P : ℝ[X]) (hP : P.degree < ((2 * n + 2 : ℕ) : WithBot ℕ)) :
    ∃ err, clencurt (.call fun x => P.eval x) a b n = .ok (∫ x in a..b, P.eval x, err) := by
  refine ⟨(b - a) * |ccTerm n (ccVal (2 * n) a b fun x => P.eval x) n|, ?_⟩
  rw [clencurt_call _ a b n hn, cc_value a b n hn P hP]

example : ∃ err, clencurt (.call fun x => (X ^ 11 : ℝ[X]).eval x) 0 1 5
    = .ok (∫ x in (0 : ℝ)..1, (X ^ 11 : ℝ[X]).eval x, err) :=
  C113_exact_partial 0 1 5 (by norm_num) _ (by rw [degree_X_pow]; norm_num)

/-- C113.  The error estimate is 0 for polynomials of degree less than `2 n`. -/
theorem C113_error_zero (a b : ℝ) (n : ℕ) (hn : n ≠ 0) (P : ℝ[X])
    (hP : P.degree < ((2 * n : ℕ) : WithBot ℕ)) :
    clencurt (.call fun x => P.eval x) a b n = .ok (∫ x in a..b, P.eval x, 0) := by
  rw [clencurt_call _ a b n hn, cc_value a b n hn P (lt_of_lt_of_le hP (by
    exact_mod_cast (by omega : 2 * n ≤ 2 * n + 2))), cc_err a b n hn P hP]
  simp

example : clencurt (.call fun x => (X ^ 9 : ℝ[X]).eval x) 2 1 5
    = .ok (∫ x in (2 : ℝ)..1, (X ^ 9 : ℝ[X]).eval x, 0) :=
  C113_error_zero 2 1 5 (by norm_num) _ (by rw [degree_X_pow]; norm_num)

/-- C113.  A callable and `n ≥ 1` always give a result; `n = 0` raises, and so does every table of
values, although tables are documented to be accepted. -/
theorem C113_errors (a b : ℝ) (n : ℕ) (f : ℝ → ℝ) (rows : List (List ℝ)) :
    (n ≠ 0 → ∃ r, clencurt (.call f) a b n = .ok r) ∧
    clencurt (.call f) a b 0 = .error .valueError ∧
    clencurt (.table rows) a b n = .error .valueError :=
  ⟨fun hn => ⟨_, clencurt_call f a b n hn⟩, by simp [clencurt], rfl⟩

/-- C113, refuted for the error estimate: with the limits in descending order it is negative, for
`x ^ 2` between `1` and `-1` it is `-1/3`. -/
theorem C113_negative_error_refuted :
    ∃ v, clencurt (.call fun x => x ^ 2) 1 (-1) 1 = .ok (v, -1 / 3) := by
  have c2 : cos (π * (2 * 1 : ℕ)) = 1 := by
    rw [show π * ((2 * 1 : ℕ) : ℝ) = 2 * π by push_cast; ring]; exact cos_two_pi
  have e : ccTerm 1 (ccVal (2 * 1) 1 (-1) fun x => x ^ 2) 1 = 1 / 6 := by
    simp only [ccTerm, ccCoef, c2]
    norm_num [realFft, ccVal, ccNode, List.range_succ]
  refine ⟨(1 - -1) * ((List.range (1 + 1)).map fun k : ℕ =>
    ccTerm 1 (ccVal (2 * 1) 1 (-1) fun x => x ^ 2) k).sum, ?_⟩
  rw [clencurt_call _ 1 (-1) 1 one_ne_zero, e]
  norm_num [abs_of_pos]

/-! ## C114: Romberg -/

/-- C114.  With limits for which it runs at all, `romberg` either raises a `ValueError`, or returns what
`dea3` makes of three successive diagonal entries of the extrapolation table, at the first row
`j ≥ 2` where the error meets the tolerance. -/
theorem C114_result (dea3 : ℝ → ℝ → ℝ → ℝ × ℝ) (f : ℝ → ℝ) (a b releps abseps : ℝ)
    (hab : 2 ^ 31 / 10 ^ 9 ≤ b - a) :
    let D := fun i => romTable f a b i i
    let r := fun i => dea3 (D (i - 2)) (D (i - 1)) (D i)
    let ok := fun i => (r i).2 ≤ max abseps (releps * |(r i).1|)
    (∃ j, 2 ≤ j ∧ j < 30 ∧ ok j ∧ (∀ l, 2 ≤ l → l < j → ¬ ok l) ∧
      romberg dea3 f a b releps abseps = .ok (r j)) ∨
    ((∀ l, 2 ≤ l → l < 30 → ¬ ok l) ∧ romberg dea3 f a b releps abseps = .error .valueError) :=
  romberg_spec dea3 f a b releps abseps 30 (tableLimit_long _ hab) (by norm_num)

/-- C114.  Entry `(i, k)` of the table is exact for polynomials of degree up to `2 k + 1`. -/
theorem C114_table_partial (a b : ℝ) (i k : ℕ) (hk : k ≤ i) (P : ℝ[X]) (hP : P.natDegree ≤ 2 * k + 1) :
    romTable (fun x => P.eval x) a b i k = ∫ x in a..b, P.eval x :=
  romTable_exact a b i k hk P hP

/-- C114.  If `dea3` returns a constant sequence's value with an error estimate within the tolerance,
`romberg` returns the exact integral of linear functions. -/
theorem C114_linear (dea3 : ℝ → ℝ → ℝ → ℝ × ℝ) (a b releps abseps : ℝ)
    (hab : 2 ^ 31 / 10 ^ 9 ≤ b - a)
    (hd : ∀ v, (dea3 v v v).1 = v ∧ (dea3 v v v).2 ≤ max abseps (releps * |v|))
    (P : ℝ[X]) (hP : P.natDegree ≤ 1) :
    ∃ err, romberg dea3 (fun x => P.eval x) a b releps abseps = .ok (∫ x in a..b, P.eval x, err) ∧
      err ≤ max abseps (releps * |∫ x in a..b, P.eval x|) := by
  set I := ∫ x in a..b, P.eval x with hI
  have hD : ∀ i, romTable (fun x => P.eval x) a b i i = I := fun i =>
    romTable_exact a b i i le_rfl P (by omega)
  have h := C114_result dea3 (fun x => P.eval x) a b releps abseps hab
  simp only [hD] at h
  obtain ⟨h1, h2⟩ := hd I
  rcases h with ⟨j, _, _, _, _, hr⟩ | ⟨hn, _⟩
  · refine ⟨(dea3 I I I).2, ?_, h2⟩
    rw [hr]
    conv_lhs => rw [← Prod.mk.eta (p := dea3 I I I), h1]
  · exfalso
    refine hn 2 le_rfl (by norm_num) ?_
    rw [h1]; exact h2

example : ∃ err, romberg (fun _ _ v => (v, 0)) (fun x => (X : ℝ[X]).eval x) 0 3 0 1
    = .ok (∫ x in (0 : ℝ)..3, (X : ℝ[X]).eval x, err) ∧
      err ≤ max 1 (0 * |∫ x in (0 : ℝ)..3, (X : ℝ[X]).eval x|) :=
  C114_linear _ 0 3 0 1 (by norm_num) (fun v => ⟨rfl, by simp⟩) X natDegree_X_le

/-- C114, refuted: for every integrand, an interval longer than `8e-9` and shorter than about `1.07`
raises a `TypeError`, because the length of the table is a float; so does every pair of limits in
descending order. -/
theorem C114_type_error_refuted (dea3 : ℝ → ℝ → ℝ → ℝ × ℝ) (f : ℝ → ℝ) (a b releps abseps : ℝ)
    (h : (8 / 10 ^ 9 ≤ b - a ∧ b - a ≤ 2 ^ 30 / 10 ^ 9) ∨ b < a) :
    romberg dea3 f a b releps abseps = .error .typeError := by
  have ht : tableLimit (b - a) = .error .typeError := by
    rcases h with ⟨h1, h2⟩ | h
    · exact tableLimit_type _ h1 h2
    · simp only [tableLimit]; rw [if_pos (by linarith)]
  simp only [romberg, ht]

example (dea3 : ℝ → ℝ → ℝ → ℝ × ℝ) : romberg dea3 (fun x => x) 0 1 (1 / 1000) (1 / 1000)
    = .error .typeError :=
  C114_type_error_refuted dea3 _ 0 1 _ _ (Or.inl (by norm_num))

/-! ## C115: symmetric expansion of the computed half of the roots -/

/-- C115.  From the computed half `ys` (with the middle root, 0, at the end when `n` is odd) and an even
weight function, `_expand_roots` makes `n` nodes symmetric about 0, each with its weight. -/
theorem C115_expand_partial (n : ℕ) (ys : List ℝ) (hn : 2 ≤ n) (hl : ys.length = n / 2) (W : ℝ → ℝ)
    (hW : ∀ v, W (-v) = W v) :
    let mid := if Odd n then [(0 : ℝ)] else []
    let N := ys ++ mid ++ (ys.map fun v => -v).reverse
    expandRoots (ys ++ mid) ((ys ++ mid).map W) n (half n) = (N, N.map W) ∧ N.length = n := by
  intro mid N
  exact ⟨expandRoots_spec n ys hn hl W hW, expand_length n ys hl⟩

example : expandRoots [-3, 0] [5, 8] 3 (half 3) = ([-3, 0, 3], [5, 8, 5]) := by
  norm_num [expandRoots, half, sliceRev]

/-- C115, refuted for one node: the single node comes back twice. -/
theorem C115_one_refuted (x w : ℝ) : expandRoots [x] [w] 1 (half 1) = ([0, 0], [w, w]) := by
  simp [expandRoots, half, sliceRev]

/-! ## C116: closed form rules -/

/-- C116.  `q5_roots(n)`, `q6_roots(n)` and `q7_roots(n)` integrate polynomials of degree less than `2 n`
exactly with their weight functions. -/
theorem C116_closed (n : ℕ) (hn : n ≠ 0) (P : ℝ[X]) (hP : P.degree < ((2 * n : ℕ) : WithBot ℕ)) :
    applyRule (q5Roots n) (fun x => P.eval x) = ∫ x in (-1 : ℝ)..1, P.eval x / √((x + 1) * (1 - x)) ∧
    applyRule (q6Roots n) (fun x => P.eval x) = ∫ x in (-1 : ℝ)..1, P.eval x * √((x + 1) * (1 - x)) ∧
    applyRule (q7Roots n) (fun x => P.eval x) = ∫ x in (0 : ℝ)..1, P.eval x * √(x / (1 - x)) :=
  ⟨q5_exact n hn P hP, q6_exact n P hP, q7_exact n P hP⟩

example : applyRule (q7Roots 2) (fun x => (X ^ 3 : ℝ[X]).eval x)
    = ∫ x in (0 : ℝ)..1, (X ^ 3 : ℝ[X]).eval x * √(x / (1 - x)) :=
  (C116_closed 2 (by norm_num) _ (by rw [degree_X_pow]; norm_num)).2.2

/-- The starting points of the last sweep are the roots: distinct, in the interval, the positive half
(then 0, when `n` is odd) for the symmetric cases, and zeros of the polynomial the sweep computes. -/
structure Converged (z : Starts) : Prop where
  leg : ∀ n, 2 ≤ n → ∃ xs : List ℝ, z.leg n = xs ++ (if Odd n then [0] else []) ∧ xs.length = n / 2 ∧
    xs.Nodup ∧ ∀ v ∈ xs, 0 < v ∧ v < 1 ∧ (legPair v (n - 1)).2 = 0
  her : ∀ n, 2 ≤ n → ∃ xs : List ℝ, z.her n = xs ++ (if Odd n then [0] else []) ∧ xs.length = n / 2 ∧
    xs.Nodup ∧ ∀ v ∈ xs, 0 < v ∧ (herPair v n).2 = 0
  lag : ∀ n α, n ≠ 0 → -1 < α → (z.lag n α).length = n ∧ (z.lag n α).Nodup ∧
    ∀ v ∈ z.lag n α, 0 < v ∧ (lagPair α v n).2 = 0
  jac : ∀ n α β, n ≠ 0 → -1 < α → -1 < β → (z.jac n α β).length = n ∧ (z.jac n α β).Nodup ∧
    ∀ v ∈ z.jac n α β, -1 < v ∧ v < 1 ∧ (jacPair α β v (n - 1)).2 = 0

/-- Such points exist for every number of nodes and all parameters: the polynomials of the sweeps
have as many distinct roots in the interval as their degree. -/
theorem C121_converged_exists : ∃ z, Converged z := by
  classical
  have hl : ∀ n, ∃ l : List ℝ, 2 ≤ n → ∃ xs : List ℝ, l = xs ++ (if Odd n then [0] else []) ∧
      xs.length = n / 2 ∧ xs.Nodup ∧ ∀ v ∈ xs, 0 < v ∧ v < 1 ∧ (legPair v (n - 1)).2 = 0 := by
    intro n
    by_cases h : 2 ≤ n
    · obtain ⟨xs, hx⟩ := legStart_exists n h
      exact ⟨_, fun _ => ⟨xs, rfl, hx⟩⟩
    · exact ⟨[], fun h' => absurd h' h⟩
  have hh : ∀ n, ∃ l : List ℝ, 2 ≤ n → ∃ xs : List ℝ, l = xs ++ (if Odd n then [0] else []) ∧
      xs.length = n / 2 ∧ xs.Nodup ∧ ∀ v ∈ xs, 0 < v ∧ (herPair v n).2 = 0 := by
    intro n
    by_cases h : 2 ≤ n
    · obtain ⟨xs, hx⟩ := herStart_exists n h
      exact ⟨_, fun _ => ⟨xs, rfl, hx⟩⟩
    · exact ⟨[], fun h' => absurd h' h⟩
  have ha : ∀ n, ∀ α : ℝ, ∃ l : List ℝ, n ≠ 0 → -1 < α → l.length = n ∧ l.Nodup ∧
      ∀ v ∈ l, 0 < v ∧ (lagPair α v n).2 = 0 := by
    intro n α
    by_cases h : n ≠ 0 ∧ -1 < α
    · obtain ⟨l, hx⟩ := lagStart_exists h.2 n h.1
      exact ⟨l, fun _ _ => hx⟩
    · exact ⟨[], fun h1 h2 => absurd ⟨h1, h2⟩ h⟩
  have hj : ∀ n, ∀ α β : ℝ, ∃ l : List ℝ, n ≠ 0 → -1 < α → -1 < β → l.length = n ∧ l.Nodup ∧
      ∀ v ∈ l, -1 < v ∧ v < 1 ∧ (jacPair α β v (n - 1)).2 = 0 := by
    intro n α β
    by_cases h : n ≠ 0 ∧ -1 < α ∧ -1 < β
    · obtain ⟨l, hx⟩ := jacStart_exists h.2.1 h.2.2 n h.1
      exact ⟨l, fun _ _ _ => hx⟩
    · exact ⟨[], fun h1 h2 h3 => absurd ⟨h1, h2, h3⟩ h⟩
  choose L hL using hl
  choose H hH using hh
  choose A hA using ha
  choose J hJ using hj
  exact ⟨⟨L, H, A, J⟩, ⟨hL, hH, hA, hJ⟩⟩

/-! ## C121: Gauss-Legendre -/

/-- C121.  At the roots, both Newton methods of `p_roots` return the same rule. -/
theorem C121_methods_agree (z : Starts) (hz : Converged z) (n : ℕ) (hn : 2 ≤ n) :
    pRootsNewton n (z.leg n) = pRootsNewton1 n (z.leg n) := by
  obtain ⟨xs, h1, h2, h3, h4⟩ := hz.leg n hn
  rw [h1, (pRoots_same n hn xs h4).1, (pRoots_same n hn xs h4).2]

/-- C121.  `p_roots(n, a=a, b=b)` integrates polynomials of degree less than `2 n` exactly over
`[a, b]`, for every `n ≥ 2` and all limits. -/
theorem C121_exact_partial (z : Starts) (hz : Converged z) (n : ℕ) (hn : 2 ≤ n) (a b : ℝ) (P : ℝ[X])
    (hP : P.degree < ((2 * n : ℕ) : WithBot ℕ)) :
    applyRule (pMap a b (pRoots z n)) (fun t => P.eval t) = ∫ x in a..b, P.eval x := by
  obtain ⟨xs, h1, h2, h3, h4⟩ := hz.leg n hn
  refine pMap_exact a b _ (2 * n) (fun Q hQ => ?_) P hP
  rw [pRoots, h1]
  exact pRoots_exact n hn xs h2 h3 h4 Q hQ

/-- The two point rule, from the root `1 / √3`. -/
example (P : ℝ[X]) (hP : P.degree < ((2 * 2 : ℕ) : WithBot ℕ)) :
    applyRule ((pRootsNewton 2 [1 / √3]).1.zip (pRootsNewton 2 [1 / √3]).2) (fun t => P.eval t)
      = ∫ t in (-1 : ℝ)..1, P.eval t := by
  have h3 : (0 : ℝ) < √3 := by positivity
  have hsq : √3 ^ 2 = 3 := sq_sqrt (by norm_num)
  have := pRoots_exact 2 le_rfl [1 / √3] rfl (List.nodup_singleton _) (by
    intro v hv
    simp at hv; subst hv
    refine ⟨by positivity, ?_, ?_⟩
    · apply inv_lt_one_of_one_lt₀
      rw [lt_sqrt (by norm_num)]; norm_num
    · simp only [legPair]
      field_simp
      norm_num) P hP
  rw [if_neg (by decide)] at this
  exact this

/-- C121, refuted for one node: `p_roots(1)` returns the node 0 twice with weight 2 each, so that the
integral of 1 over `[-1, 1]` comes out as 4. -/
theorem C121_one_refuted :
    applyRule ((pRootsNewton 1 [0]).1.zip (pRootsNewton 1 [0]).2) (fun _ => 1) = 4 ∧
    applyRule ((pRootsNewton1 1 [0]).1.zip (pRootsNewton1 1 [0]).2) (fun _ => 1) = 4 ∧
    (∫ _x in (-1 : ℝ)..1, (1 : ℝ)) = 2 := by
  refine ⟨?_, ?_, by norm_num⟩
  · norm_num [pRootsNewton, pNewtonPoint, legPair', half, expandRoots, sliceRev, applyRule]
  · norm_num [pRootsNewton1, legStep, legDeriv, legPair, half, expandRoots, sliceRev, applyRule]

/-! ## C122: Gauss-Hermite -/

/-- C122.  `h_roots(n)` integrates polynomials of degree less than `2 n` with the weight
`exp(-x ^ 2)` exactly, for every `n ≥ 2`. -/
theorem C122_exact_partial (z : Starts) (hz : Converged z) (n : ℕ) (hn : 2 ≤ n) (P : ℝ[X])
    (hP : P.degree < ((2 * n : ℕ) : WithBot ℕ)) :
    applyRule ((hRootsNewton n (z.her n)).1.zip (hRootsNewton n (z.her n)).2) (fun t => P.eval t)
      = ∫ t : ℝ, P.eval t * exp (-t ^ 2) := by
  obtain ⟨xs, h1, h2, h3, h4⟩ := hz.her n hn
  rw [h1]
  exact hRoots_exact n hn xs h2 h3 h4 P hP

/-- The two point rule, from the root `1 / √2`. -/
example (P : ℝ[X]) (hP : P.degree < ((2 * 2 : ℕ) : WithBot ℕ)) :
    applyRule ((hRootsNewton 2 [1 / √2]).1.zip (hRootsNewton 2 [1 / √2]).2) (fun t => P.eval t)
      = ∫ t : ℝ, P.eval t * exp (-t ^ 2) := by
  have := hRoots_exact 2 le_rfl [1 / √2] rfl (List.nodup_singleton _) (by
    intro v hv
    simp at hv; subst hv
    refine ⟨by positivity, ?_⟩
    have e : √(2 : ℝ) ≠ 0 := by positivity
    norm_num [herPair]) P hP
  rw [if_neg (by decide)] at this
  exact this

/-- C122, refuted for one node: the integral of the weight comes out twice as large as it is. -/
theorem C122_one_refuted :
    applyRule ((hRootsNewton 1 [0]).1.zip (hRootsNewton 1 [0]).2) (fun _ => 1)
      = 2 * ∫ t : ℝ, exp (-t ^ 2) := by
  have h := integral_gaussian 1
  simp only [div_one, neg_mul, one_mul] at h
  rw [h]
  have h2 : (2 : ℝ) / (√2 * π ^ (-(1 : ℝ) / 4)) ^ 2 = √π := by
    rw [mul_pow, sq_sqrt (by norm_num), ← rpow_natCast (π ^ _), ← rpow_mul pi_pos.le, sqrt_eq_rpow]
    rw [show (-(1 : ℝ) / 4) * ((2 : ℕ) : ℝ) = -(1 / 2) by push_cast; ring, rpow_neg pi_pos.le]
    have : π ^ ((1 : ℝ) / 2) ≠ 0 := (rpow_pos_of_pos pi_pos _).ne'
    field_simp
  simp [hRootsNewton, herPair, herDeriv, half, expandRoots, sliceRev, applyRule]
  rw [show (-1 : ℝ) / 4 = -(1 : ℝ) / 4 by ring, h2]
  ring

/-! ## C123: Gauss-Laguerre -/

/-- C123.  `la_roots(n, alpha)` integrates polynomials of degree less than `2 n` with the weight
`x ^ alpha * exp(-x)` exactly, for every `n ≥ 1` and `alpha > -1`. -/
theorem C123_exact_partial (z : Starts) (hz : Converged z) (n : ℕ) (hn : n ≠ 0) (α : ℝ) (hα : -1 < α) (P : ℝ[X])
    (hP : P.degree < ((2 * n : ℕ) : WithBot ℕ)) :
    applyRule (laRootsNewton n α (z.lag n α)) (fun t => P.eval t)
      = ∫ t in Set.Ioi (0 : ℝ), P.eval t * t ^ α * exp (-t) := by
  obtain ⟨h1, h2, h3⟩ := hz.lag n α hn hα
  exact laRoots_exact hα n hn _ h1 h2 h3 P hP

/-- The one point rule. -/
example (P : ℝ[X]) (hP : P.degree < ((2 * 1 : ℕ) : WithBot ℕ)) :
    applyRule (laRootsNewton 1 3 [4]) (fun t => P.eval t)
      = ∫ t in Set.Ioi (0 : ℝ), P.eval t * t ^ (3 : ℝ) * exp (-t) :=
  laRoots_exact (by norm_num) 1 one_ne_zero [4] rfl (List.nodup_singleton _)
    (by intro v hv; simp at hv; subst hv; norm_num [lagPair]) P hP

/-! ## C124: Gauss-Jacobi -/

/-- C124.  `j_roots(n, alpha, beta)` integrates polynomials of degree less than `2 n` with the weight
`(1 - x) ^ alpha * (1 + x) ^ beta` exactly, for every `n ≥ 1` and `alpha, beta > -1`. -/
theorem C124_exact_partial (z : Starts) (hz : Converged z) (n : ℕ) (hn : n ≠ 0) (α β : ℝ) (hα : -1 < α)
    (hβ : -1 < β) (P : ℝ[X]) (hP : P.degree < ((2 * n : ℕ) : WithBot ℕ)) :
    applyRule (jRootsNewton n α β (z.jac n α β)) (fun t => P.eval t)
      = ∫ t in (-1 : ℝ)..1, P.eval t * ((1 - t) ^ α * (1 + t) ^ β) := by
  obtain ⟨h1, h2, h3⟩ := hz.jac n α β hn hα hβ
  exact jRoots_exact hα hβ n hn _ h1 h2 h3 P hP

/-- The one point rule for `(1 - x) * (1 + x) ^ 2`. -/
example (P : ℝ[X]) (hP : P.degree < ((2 * 1 : ℕ) : WithBot ℕ)) :
    applyRule (jRootsNewton 1 1 2 [1 / 5]) (fun t => P.eval t)
      = ∫ t in (-1 : ℝ)..1, P.eval t * ((1 - t) ^ (1 : ℝ) * (1 + t) ^ (2 : ℝ)) :=
  jRoots_exact (by norm_num) (by norm_num) 1 one_ne_zero [1 / 5] rfl (List.nodup_singleton _)
    (by intro v hv; simp at hv; subst hv; norm_num [jacPair]) P hP

/-- C124, refuted for `qrule`: with `wfun = 4` it documents the weight `(x + 1) ^ alpha * (1 - x) ^ beta`,
the exponents the other way round.  For `alpha = 1`, `beta = 2` and the integrand `x` the documented
integral is `-4/15`; the rule gives `4/15`. -/
theorem C124_orientation_refuted (z : Starts) (hz : Converged z) (n : ℕ) (hn : n ≠ 0) :
    ∃ r, qrule z n 4 1 2 = .ok r ∧ applyRule r (fun t => t) = 4 / 15 ∧
      target 4 (-1) 1 1 2 (fun t => t) = -4 / 15 := by
  refine ⟨_, rfl, ?_, ?_⟩
  · have h := C124_exact_partial z hz n hn 1 2 (by norm_num) (by norm_num) X (by
      rw [degree_X]; exact_mod_cast (by omega : 1 < 2 * n))
    simp only [eval_X] at h
    rw [h]
    have e : ∀ t : ℝ, t * ((1 - t) ^ (1 : ℝ) * (1 + t) ^ (2 : ℝ)) = t + t ^ 2 - t ^ 3 - t ^ 4 := by
      intro t; rw [rpow_one, rpow_two]; ring
    simp only [e]
    have := integral_quartic (-1) 1 1 1 (-1) (-1)
    norm_num at this ⊢
    rw [← this]
    exact intervalIntegral.integral_congr fun t _ => by ring
  · have e : ∀ t : ℝ, t * ((t - -1) ^ (1 : ℝ) * (1 - t) ^ (2 : ℝ)) = t - t ^ 2 - t ^ 3 + t ^ 4 := by
      intro t; rw [rpow_one, rpow_two]; ring
    simp only [target, e]
    have := integral_quartic (-1) 1 1 (-1) (-1) 1
    norm_num at this ⊢
    rw [← this]
    exact intervalIntegral.integral_congr fun t _ => by ring

/-! ## C117: rules with an inverse square root and a square root -/

/-- C117.  `q8_roots(n)` and `q9_roots(n)`, made from `p_roots`, integrate polynomials of degree less than
`2 n` over `[0, 1]` exactly with the weights `1 / sqrt(1 - x)` and `sqrt(1 - x)`. -/
theorem C117_sqrt_partial (z : Starts) (hz : Converged z) (n : ℕ) (hn : n ≠ 0) (P : ℝ[X])
    (hP : P.degree < ((2 * n : ℕ) : WithBot ℕ)) :
    applyRule (q8Roots (pRoots z (2 * n))) (fun x => P.eval x) = ∫ x in (0 : ℝ)..1, P.eval x / √(1 - x) ∧
    applyRule (q9Roots (pRoots z (2 * n + 1))) (fun x => P.eval x)
      = ∫ x in (0 : ℝ)..1, P.eval x * √(1 - x) := by
  constructor
  · obtain ⟨xs, h1, h2, h3, h4⟩ := hz.leg (2 * n) (by omega)
    have hs := pRoots_sym (2 * n) (by omega) xs h2 h4
    rw [pRoots, h1]
    refine q8_exact n _ hs.1 (hs.2 ⟨n, by ring⟩) (fun Q hQ => ?_) P hP
    exact pRoots_exact (2 * n) (by omega) xs h2 h3 h4 Q (by rwa [show 2 * (2 * n) = 4 * n by ring])
  · obtain ⟨xs, h1, h2, h3, h4⟩ := hz.leg (2 * n + 1) (by omega)
    have hs := pRoots_sym (2 * n + 1) (by omega) xs h2 h4
    rw [pRoots, h1]
    refine q9_exact n _ hs.1 (fun Q hQ => ?_) P hP
    exact pRoots_exact (2 * n + 1) (by omega) xs h2 h3 h4 Q hQ

/-- The hypotheses can be met. -/
example : ∃ z, applyRule (q8Roots (pRoots z (2 * 3))) (fun x => (X ^ 5 : ℝ[X]).eval x)
    = ∫ x in (0 : ℝ)..1, (X ^ 5 : ℝ[X]).eval x / √(1 - x) := by
  obtain ⟨z, hz⟩ := C121_converged_exists
  exact ⟨z, (C117_sqrt_partial z hz 3 (by norm_num) _ (by rw [degree_X_pow]; norm_num)).1⟩

/-! ## C118: Boole's rule -/

/-- C118.  On `4 m + 1` equally spaced points, `m ≥ 1`, `boole` integrates polynomials of degree up to
five exactly. -/
theorem C118_exact_partial (m : ℕ) (hm : m ≠ 0) (a b : ℝ) (P : ℝ[X])
    (hP : P.degree < ((6 : ℕ) : WithBot ℕ)) :
    boole (4 * m + 1) (fun i => P.eval (a + (i : ℝ) * ((b - a) / ((4 * m : ℕ) : ℝ))))
      (fun i => a + (i : ℝ) * ((b - a) / ((4 * m : ℕ) : ℝ))) = ∫ x in a..b, P.eval x :=
  boole_exact m hm a b P hP

example : boole (4 * 2 + 1) (fun i => (X ^ 5 : ℝ[X]).eval (0 + (i : ℝ) * ((1 - 0) / ((4 * 2 : ℕ) : ℝ))))
    (fun i => 0 + (i : ℝ) * ((1 - 0) / ((4 * 2 : ℕ) : ℝ))) = ∫ x in (0 : ℝ)..1, (X ^ 5 : ℝ[X]).eval x :=
  C118_exact_partial 2 (by norm_num) 0 1 _ (by rw [degree_X_pow]; norm_num)

/-- C118, refuted for other numbers of points: three points integrate the constant 1 to 46/45 of the
length of the interval, without an error. -/
theorem C118_three_points_refuted (a b : ℝ) :
    boole 3 (fun _ => 1) (fun i => a + (i : ℝ) * ((b - a) / 2)) = 46 / 45 * (b - a) := by
  simp only [boole, sliceSum_eq]
  have e1 : ({x ∈ Finset.range 2 | 2 ≤ x ∧ (x - 2) % 4 = 0} : Finset ℕ).card = 0 := by decide
  have e2 : ({x ∈ Finset.range 2 | 1 ≤ x ∧ (x - 1) % 2 = 0} : Finset ℕ).card = 1 := by decide
  norm_num [Finset.sum_range_succ, e1, e2]
  ring

/-! ## C119: `quadgr` -/

/-- The rule with the nodes `xn` and weights `w` is exact on `[-1, 1]` for degree less than `D`. -/
def ExactOn (n D : ℕ) (xn w : ℕ → ℝ) : Prop :=
  ∀ Q : ℝ[X], Q.degree < (D : ℕ) →
    ∑ j ∈ range n, w j * Q.eval (xn j) = ∫ t in (-1 : ℝ)..1, Q.eval t

/-- C119.  With a base rule that is exact for degree less than `D` (24 for the tabulated one, up to
the rounding of the table), `quadgr` returns the exact integral of such polynomials for any finite
limits, in either order, for any positive tolerance; the error estimate is the rounding unit. -/
theorem C119_polynomial_partial (fill eps : ℝ) (n D : ℕ) (xn w : ℕ → ℝ) (hr : ExactOn n D xn w) (P : ℝ[X])
    (hP : P.degree < (D : ℕ)) (a b abseps : ℝ) (hab : a ≠ b) (hpos : 0 < abseps) :
    quadgrLim fill eps n xn w (fun x => P.eval x) (.fin a) (.fin b) abseps
      = some (∫ x in a..b, P.eval x, 2 * eps) := by
  have key : ∀ a b, quadIntegrate fill eps n xn w (fun x => P.eval x) a b abseps
      = (∫ x in a..b, P.eval x, 2 * eps) := fun a b =>
    quadIntegrate_stop fill eps n xn w _ a b abseps hpos _ (quadVal0_exact n D xn w hr a b P hP)
  unfold quadgrLim
  rw [if_neg (by simpa using hab)]
  by_cases h : a > b
  · rw [if_pos (show Lim.gt (.fin a) (.fin b) from h)]
    simp only [quadOrdered]
    rw [key b a]
    simp only
    rw [intervalIntegral.integral_symm a b, neg_neg]
  · rw [if_neg (show ¬ Lim.gt (.fin a) (.fin b) from h)]
    simp only [quadOrdered]
    rw [key a b]

/-- The midpoint rule as an example of a base rule. -/
example : ExactOn 1 2 (fun _ => 0) (fun _ => 2) := by
  intro Q hQ
  have hd : Q.natDegree < 2 := by
    rcases eq_or_ne Q 0 with h | h
    · rw [h]; simp
    · exact (natDegree_lt_iff_degree_lt h).2 hQ
  have hev : ∀ t, Q.eval t = Q.coeff 0 + Q.coeff 1 * t := by
    intro t; rw [eval_eq_sum_range' hd]; simp [Finset.sum_range_succ]
  simp only [hev]
  rw [intervalIntegral.integral_add (by simp) (by
    exact (continuous_const.mul continuous_id).intervalIntegrable _ _), intervalIntegral.integral_const_mul]
  rw [intervalIntegral.integral_const, integral_id]
  simp
  ring_nf
  try simp

/-- C119.  Exchanging the limits negates the value and keeps the error estimate, for every integrand
and all different limits, finite or not; equal finite limits give `(0, 0)`, equal infinite ones `nan`. -/
theorem C119_reverse (fill eps : ℝ) (n : ℕ) (xn w : ℕ → ℝ) (f : ℝ → ℝ) (a b : Lim) (abseps : ℝ) :
    (a ≠ b → ∃ v e, quadgrLim fill eps n xn w f a b abseps = some (v, e) ∧
      quadgrLim fill eps n xn w f b a abseps = some (-v, e)) ∧
    (∀ x : ℝ, quadgrLim fill eps n xn w f (.fin x) (.fin x) abseps = some (0, 0)) ∧
    quadgrLim fill eps n xn w f .pos .pos abseps = none ∧
    quadgrLim fill eps n xn w f .neg .neg abseps = none := by
  refine ⟨fun hab => ?_, fun x => ?_, ?_, ?_⟩
  · have hasym : (a.gt b ∧ ¬ b.gt a) ∨ (b.gt a ∧ ¬ a.gt b) := by
      cases a <;> cases b <;> simp_all [Lim.gt]
      rename_i x y
      rcases lt_or_gt_of_ne hab with h | h
      · right; exact ⟨h, h.le⟩
      · left; exact ⟨h, h.le⟩
    rcases hasym with ⟨h1, h2⟩ | ⟨h1, h2⟩
    · refine ⟨-(quadOrdered fill eps n xn w f abseps b a).1, (quadOrdered fill eps n xn w f abseps b a).2,
        ?_, ?_⟩
      · unfold quadgrLim; rw [if_neg hab, if_pos h1]
      · unfold quadgrLim; rw [if_neg hab.symm, if_neg h2, neg_neg]
    · refine ⟨(quadOrdered fill eps n xn w f abseps a b).1, (quadOrdered fill eps n xn w f abseps a b).2,
        ?_, ?_⟩
      · unfold quadgrLim; rw [if_neg hab, if_neg h2]
      · unfold quadgrLim; rw [if_neg hab.symm, if_pos h1]
  · simp [quadgrLim]
  · simp [quadgrLim]
  · simp [quadgrLim]

/-- C119.  What is returned in general: after some round `k` between 1 and 16, one of the candidate
values (the composite rule, its Richardson extrapolation from round 4 on, the second extrapolation from
round 6 on), the one that changed least in that round; the error estimate is that change plus the
rounding unit, and it was below the tolerance unless the rounds were used up. -/
theorem C119_stopping (fill eps : ℝ) (n : ℕ) (xn w : ℕ → ℝ) (f : ℝ → ℝ) (a b abseps : ℝ) :
    let v0 := quadVal0 n xn w f a b
    let v1 := quadVal1 fill v0
    let v2 := quadVal2 fill v1
    ∃ k, 1 ≤ k ∧ k ≤ 16 ∧ ∃ p ∈ quadPairs v0 v1 v2 k,
      quadIntegrate fill eps n xn w f a b abseps = (p.1, |p.1 - p.2| + 2 * eps) ∧
      (∀ q ∈ quadPairs v0 v1 v2 k, |p.1 - p.2| ≤ |q.1 - q.2|) ∧
      (|p.1 - p.2| < abseps ∨ k = 16) := by
  intro v0 v1 v2
  obtain ⟨m, h1, h2, h3, h4⟩ := quadLoop_spec v0 v1 v2 abseps 15 1
  have hne : quadPairs v0 v1 v2 m ≠ [] := by
    unfold quadPairs; split_ifs <;> simp
  obtain ⟨h5, h6⟩ := argminPair_spec _ hne
  refine ⟨m, h1, by omega, _, h5, ?_, h6, by simpa using h4⟩
  simp only [quadIntegrate]
  rw [h3]

/-- C119.  The result does not depend on the entries of the extrapolation tables that are never
computed. -/
theorem C119_no_uncomputed (fill fill' eps : ℝ) (n : ℕ) (xn w : ℕ → ℝ) (f : ℝ → ℝ) (a b abseps : ℝ) :
    quadIntegrate fill eps n xn w f a b abseps = quadIntegrate fill' eps n xn w f a b abseps :=
  quadIntegrate_fill fill fill' eps n xn w f a b abseps

/-- C119.  The changes of variable for infinite limits preserve the integral, for every integrand. -/
theorem C119_change_of_variable (f : ℝ → ℝ) (a b : ℝ) :
    (∫ t in (0 : ℝ)..1, toInf f a t) = ∫ x in Set.Ioi a, f x ∧
    (∫ t in (-1 : ℝ)..0, fromInf f b t) = ∫ x in Set.Iio b, f x :=
  ⟨integral_toInf f a, integral_fromInf f b⟩

/-- C119.  Integrals from `a` to infinity of `u ^ 2 * P(u)`, `u = 1 / (1 + x - a)`, and their mirror images
from minus infinity, are exact for `P` of degree less than `D`. -/
theorem C119_infinite_partial (fill eps : ℝ) (n D : ℕ) (xn w : ℕ → ℝ) (hr : ExactOn n D xn w)
    (hx : ∀ j < n, |xn j| < 1) (P : ℝ[X]) (hP : P.degree < (D : ℕ)) (a abseps : ℝ) (hpos : 0 < abseps) :
    let f := fun x : ℝ => (1 / (1 + (x - a))) ^ 2 * P.eval (1 / (1 + (x - a)))
    let g := fun x : ℝ => (1 / (1 + (a - x))) ^ 2 * P.eval (1 / (1 + (a - x)))
    quadgrLim fill eps n xn w f (.fin a) .pos abseps = some (∫ x in Set.Ioi a, f x, 2 * eps) ∧
    quadgrLim fill eps n xn w g .neg (.fin a) abseps = some (∫ x in Set.Iio a, g x, 2 * eps) := by
  intro f g
  constructor
  · have ht : ∀ t, 0 < t → t < 1 → toInf f a t = (affPoly P (-1) 1).eval t := by
      intro t h0 h1
      have h2 : 1 - t ≠ 0 := by linarith
      have e : 1 / (1 + (a + t / (1 - t) - a)) = 1 - t := by
        rw [add_sub_cancel_left]; field_simp; ring
      simp only [toInf, f, affPoly_eval, e]
      rw [show -1 * t + 1 = 1 - t by ring]
      field_simp
    have hI : (∫ x in Set.Ioi a, f x) = ∫ t in (0 : ℝ)..1, (affPoly P (-1) 1).eval t := by
      rw [← integral_toInf]
      refine intervalIntegral.integral_congr_ae ?_
      have : ∀ᵐ t : ℝ, t ≠ 1 := by simp [ae_iff]
      filter_upwards [this] with t h1 ht'
      rw [Set.uIoc_of_le (by norm_num)] at ht'
      exact ht t ht'.1 (lt_of_le_of_ne ht'.2 h1)
    unfold quadgrLim
    rw [if_neg (by simp), if_neg (show ¬ Lim.gt (.fin a) .pos from id), hI]
    simp only [quadOrdered]
    congr 1
    refine quadIntegrate_stop fill eps n xn w _ 0 1 abseps hpos _ fun k => ?_
    rw [quadVal0_congr n xn w hx _ _ 0 1 one_pos ht k]
    exact quadVal0_exact n D xn w hr 0 1 _ (affPoly_degree P _ _ D hP) k
  · have ht : ∀ t, -1 < t → t < 0 → fromInf g a t = (affPoly P 1 1).eval t := by
      intro t h0 h1
      have h2 : 1 + t ≠ 0 := by linarith
      have e : 1 / (1 + (a - (a + t / (1 + t)))) = 1 + t := by
        rw [show a - (a + t / (1 + t)) = -(t / (1 + t)) by ring]; field_simp; ring
      simp only [fromInf, g, affPoly_eval, e]
      rw [show 1 * t + 1 = 1 + t by ring]
      field_simp
    have hI : (∫ x in Set.Iio a, g x) = ∫ t in (-1 : ℝ)..0, (affPoly P 1 1).eval t := by
      rw [← integral_fromInf]
      refine intervalIntegral.integral_congr_ae ?_
      have : ∀ᵐ t : ℝ, t ≠ 0 := by simp [ae_iff]
      filter_upwards [this] with t h1 ht'
      rw [Set.uIoc_of_le (by norm_num)] at ht'
      exact ht t ht'.1 (lt_of_le_of_ne ht'.2 h1)
    unfold quadgrLim
    rw [if_neg (by simp), if_neg (show ¬ Lim.gt .neg (.fin a) from id), hI]
    simp only [quadOrdered]
    congr 1
    refine quadIntegrate_stop fill eps n xn w _ (-1) 0 abseps hpos _ fun k => ?_
    rw [quadVal0_congr n xn w hx _ _ (-1) 0 (by norm_num) ht k]
    exact quadVal0_exact n D xn w hr (-1) 0 _ (affPoly_degree P _ _ D hP) k

/-- C119.  Richardson's extrapolation is exact for `L + A * r ^ k` when `r ≤ 1 / 1.07`. -/
theorem C119_richardson (L A r : ℝ) (k : ℕ) (hk : 2 ≤ k) (hA : A ≠ 0) (h0 : r ≠ 0)
    (hr : 7 / 100 ≤ 1 / r - 1) : richardson (fun j => L + A * r ^ j) k = L := by
  refine richardson_geom L A r k hk hA h0 (fun h => ?_) hr
  rw [h] at hr; norm_num at hr

example : richardson (fun j => 3 + 5 * (1 / 4 : ℝ) ^ j) 4 = 3 :=
  C119_richardson 3 5 (1 / 4) 4 (by norm_num) (by norm_num) (by norm_num) (by norm_num)

/-! ## C120: `gaussq` -/

/-- C120.  `qrule(n, wfun, alpha, beta)` for `n ≥ 2`: exact for degree less than `2 n` with the documented
weight function, except that for `wfun = 4` the two exponents are exchanged; unknown weight functions
raise. -/
theorem C120_qrule_partial (z : Starts) (hz : Converged z) (n : ℕ) (hn : 2 ≤ n) (wfun : ℕ) (α β : ℝ)
    (hα : -1 < α) (hβ : -1 < β) :
    (1 ≤ wfun → wfun ≤ 9 → ∃ r, qrule z n wfun α β = .ok r ∧
      ExactRule wfun (if wfun = 4 then β else α) (if wfun = 4 then α else β) r (2 * n)) ∧
    (wfun = 0 ∨ 9 < wfun → qrule z n wfun α β = .error .valueError) := by
  have hn0 : n ≠ 0 := by omega
  constructor
  · intro h1 h9
    have hcases : wfun = 1 ∨ wfun = 2 ∨ wfun = 3 ∨ wfun = 4 ∨ wfun = 5 ∨ wfun = 6 ∨ wfun = 7 ∨ wfun = 8
      ∨ wfun = 9 := by omega
    rcases hcases with rfl | rfl | rfl | rfl | rfl | rfl | rfl | rfl | rfl
    · refine ⟨_, rfl, fun Q hQ => ?_⟩
      have := C121_exact_partial z hz n hn (-1) 1 Q hQ
      simpa [target, refA, pMap] using this
    · refine ⟨_, rfl, fun Q hQ => ?_⟩
      simpa [target] using C122_exact_partial z hz n hn Q hQ
    · refine ⟨_, rfl, fun Q hQ => ?_⟩
      simpa [target] using C123_exact_partial z hz n hn0 α hα Q hQ
    · refine ⟨_, rfl, fun Q hQ => ?_⟩
      rw [C124_exact_partial z hz n hn0 α β hα hβ Q hQ]
      simp only [target, refA, if_true]
      rw [if_neg (by norm_num)]
      refine intervalIntegral.integral_congr fun t _ => ?_
      simp only [sub_neg_eq_add]
      rw [add_comm t 1]; ring
    · refine ⟨_, rfl, fun Q hQ => ?_⟩
      rw [(C116_closed n hn0 Q hQ).1]
      simp [target, refA]
    · refine ⟨_, rfl, fun Q hQ => ?_⟩
      rw [(C116_closed n hn0 Q hQ).2.1]
      simp [target, refA]
    · refine ⟨_, rfl, fun Q hQ => ?_⟩
      rw [(C116_closed n hn0 Q hQ).2.2]
      simp [target, refA]
    · refine ⟨_, rfl, fun Q hQ => ?_⟩
      rw [(C117_sqrt_partial z hz n hn0 Q hQ).1]
      simp [target, refA]
    · refine ⟨_, rfl, fun Q hQ => ?_⟩
      rw [(C117_sqrt_partial z hz n hn0 Q hQ).2]
      simp [target, refA]
  · intro h
    match wfun, h with
    | 0, _ => rfl
    | k + 10, _ => rfl

/-- C120.  `gaussq` on a polynomial of degree less than 16, for any of the nine weight functions,
limits in ascending order and tolerances below `1e100`: the value is the integral with the weight
function (exponents exchanged for `wfun = 4`); for degree less than 8 the error estimate is 0. -/
theorem C120_polynomial_partial (z : Starts) (hz : Converged z) (wfun : ℕ) (hw : 1 ≤ wfun ∧ wfun ≤ 9)
    (a b releps abseps α β : ℝ) (hab : a < b) (hα : -1 < α) (hβ : -1 < β) (habs : abseps < 10 ^ 100)
    (rule : ℕ → List (ℝ × ℝ)) (hrule : ∀ n, qrule z n wfun α β = .ok (rule n))
    (P : ℝ[X]) (hP : P.degree < ((16 : ℕ) : WithBot ℕ)) (dx : ℝ)
    (hdx : getDx wfun (getJacob wfun a b) α β = .ok dx)
    (hbig : ∀ m < 2, |releps * gaussRound (rule (2 ^ (m + 1))) wfun a b dx (fun x => P.eval x)| < 10 ^ 100) :
    ∃ err, gaussq rule (fun x => P.eval x) a b releps abseps α β wfun
      = .ok (target wfun a b (if wfun = 4 then β else α) (if wfun = 4 then α else β) (fun x => P.eval x),
        err) ∧ (P.degree < ((8 : ℕ) : WithBot ℕ) → err = 0) := by
  have hR : ∀ m, 1 ≤ m → P.degree < ((2 * 2 ^ (m + 1) : ℕ) : WithBot ℕ) →
      gaussRound (rule (2 ^ (m + 1))) wfun a b dx (fun x => P.eval x)
        = target wfun a b (if wfun = 4 then β else α) (if wfun = 4 then α else β) (fun x => P.eval x) := by
    intro m hm hd
    have h2 : 2 ≤ 2 ^ (m + 1) := by
      calc 2 = 2 ^ 1 := by norm_num
        _ ≤ 2 ^ (m + 1) := Nat.pow_le_pow_right (by norm_num) (by omega)
    obtain ⟨r, e1, e2⟩ := (C120_qrule_partial z hz (2 ^ (m + 1)) h2 wfun α β hα hβ).1 hw.1 hw.2
    have : r = rule (2 ^ (m + 1)) := by
      have := (hrule (2 ^ (m + 1))).symm.trans e1
      injection this with this
      exact this.symm
    subst this
    exact gaussRound_exact wfun (2 * 2 ^ (m + 1)) hw a b α β _ _ dx hab (by split_ifs <;> ring) _ e2 hdx P hd
  have hdeg : ∀ m, 2 ≤ m → P.degree < ((2 * 2 ^ (m + 1) : ℕ) : WithBot ℕ) := by
    intro m hm
    refine lt_of_lt_of_le hP ?_
    have : 2 ^ 3 ≤ 2 ^ (m + 1) := Nat.pow_le_pow_right (by norm_num) (by omega)
    exact_mod_cast (by omega : 16 ≤ 2 * 2 ^ (m + 1))
  obtain ⟨m, h1, h2, h3, h4⟩ := gaussq_spec rule (fun x => P.eval x) a b releps abseps α β dx wfun hdx habs hbig
  have hm := hR m (by omega) (hdeg m h1)
  refine ⟨|gaussRound (rule (2 ^ (m - 1 + 1))) wfun a b dx (fun x => P.eval x)
    - target wfun a b (if wfun = 4 then β else α) (if wfun = 4 then α else β) (fun x => P.eval x)|, ?_,
    fun h8 => ?_⟩
  · rw [h3]; simp only [hm]
  have : P.degree < ((2 * 2 ^ (m - 1 + 1) : ℕ) : WithBot ℕ) := by
    refine lt_of_lt_of_le h8 ?_
    have : 2 ^ 2 ≤ 2 ^ (m - 1 + 1) := Nat.pow_le_pow_right (by norm_num) (by omega)
    exact_mod_cast (by omega : 8 ≤ 2 * 2 ^ (m - 1 + 1))
  rw [hR (m - 1) (by omega) this]
  simp

/-- The hypotheses can be met: Jacobi weight, `x ^ 3` over `[0, 2]`. -/
example : ∃ (rule : ℕ → List (ℝ × ℝ)) (err : ℝ),
    gaussq rule (fun x => (X ^ 3 : ℝ[X]).eval x) 0 2 0 1 1 2 4
      = .ok (target 4 0 2 2 1 (fun x => (X ^ 3 : ℝ[X]).eval x), err) := by
  obtain ⟨z, hz⟩ := C121_converged_exists
  obtain ⟨err, h, _⟩ := C120_polynomial_partial z hz 4 (by norm_num) 0 2 0 1 1 2 (by norm_num) (by norm_num)
    (by norm_num) (by norm_num) (fun n => jRootsNewton n 1 2 (z.jac n 1 2)) (fun n => rfl) (X ^ 3)
    (by rw [degree_X_pow]; norm_num) _ rfl (fun m _ => by simp)
  exact ⟨_, err, by simpa using h⟩

/-- C120.  In general `gaussq` returns the value of some round `m`, `2 ≤ m ≤ 10` (with `2 ^ (m + 1)`
nodes), and as error the distance to the round before; the tolerance is met unless `m = 10`. -/
theorem C120_stopping (rule : ℕ → List (ℝ × ℝ)) (f : ℝ → ℝ) (a b releps abseps α β dx : ℝ) (wfun : ℕ)
    (hdx : getDx wfun (getJacob wfun a b) α β = .ok dx) (habs : abseps < 10 ^ 100) :
    let R := fun m => gaussRound (rule (2 ^ (m + 1))) wfun a b dx f
    (∀ m < 2, |releps * R m| < 10 ^ 100) →
    ∃ m, 2 ≤ m ∧ m ≤ 10 ∧
      gaussq rule f a b releps abseps α β wfun = .ok (R m, |R (m - 1) - R m|) ∧
      (|R (m - 1) - R m| ≤ max |releps * R m| abseps ∨ m = 10) :=
  gaussq_spec rule f a b releps abseps α β dx wfun hdx habs

/-- C120, refuted for `wfun = 4`: the documented weight is `(x - a) ^ alpha * (b - x) ^ beta`.  For
`alpha = 1`, `beta = 0` and the integrand `x` over `[0, 1]` the documented integral is 1/3, `gaussq`
returns 1/6 with the error estimate 0. -/
theorem C120_orientation_refuted (z : Starts) (hz : Converged z) :
    gaussq (fun n => jRootsNewton n 1 0 (z.jac n 1 0)) (fun x => x) 0 1 0 (1 / 1000) 1 0 4 = .ok (1 / 6, 0) ∧
    target 4 0 1 1 0 (fun x => x) = 1 / 3 := by
  constructor
  · obtain ⟨err, h, h0⟩ := C120_polynomial_partial z hz 4 (by norm_num) 0 1 0 (1 / 1000) 1 0 (by norm_num)
      (by norm_num) (by norm_num) (by norm_num) (fun n => jRootsNewton n 1 0 (z.jac n 1 0)) (fun n => rfl) X
      (by rw [degree_X]; norm_num) _ rfl (fun m _ => by simp)
    have e0 : err = 0 := h0 (by rw [degree_X]; norm_num)
    subst e0
    simp only [eval_X, if_true] at h
    rw [h]
    congr 2
    have e : ∀ x : ℝ, x * ((x - 0) ^ (0 : ℝ) * (1 - x) ^ (1 : ℝ)) = 1 * x + -1 * x ^ 2 + 0 * x ^ 3 + 0 * x ^ 4 := by
      intro t; rw [rpow_one, rpow_zero]; ring
    simp only [target, e]
    rw [integral_quartic]; norm_num
  · have e : ∀ x : ℝ, x * ((x - 0) ^ (1 : ℝ) * (1 - x) ^ (0 : ℝ)) = 0 * x + 1 * x ^ 2 + 0 * x ^ 3 + 0 * x ^ 4 := by
      intro t; rw [rpow_one, rpow_zero]; ring
    simp only [target, e]
    rw [integral_quartic]; norm_num

/-- C120, refuted for descending limits with `wfun` 5 and 6: exchanging the limits reflects the
nodes but does not change the sign, so with a symmetric rule the same value comes back. -/
theorem C120_reverse_refuted (rule : ℕ → List (ℝ × ℝ)) (a b dx : ℝ) (wfun : ℕ) (hw : wfun = 5 ∨ wfun = 6)
    (n : ℕ) (hs : ((rule n).map fun p => (-p.1, p.2)).Perm (rule n)) (f : ℝ → ℝ)
    (hdx : getDx wfun (getJacob wfun a b) 0 0 = .ok dx) :
    getDx wfun (getJacob wfun b a) 0 0 = .ok dx ∧
    gaussRound (rule n) wfun b a dx f = gaussRound (rule n) wfun a b dx f := by
  constructor
  · rcases hw with rfl | rfl
    · exact hdx
    · rw [← hdx]; simp only [getDx, getJacob]; norm_num; ring
  · unfold gaussRound applyRule
    congr 1
    have hsum := (hs.map fun p : ℝ × ℝ => p.2 * f ((p.1 + shift wfun) * getJacob wfun b a + lowerLimit wfun b)).sum_eq
    rw [← hsum, List.map_map]
    congr 1
    refine List.map_congr_left fun p _ => ?_
    simp only [Function.comp_def]
    congr 2
    rcases hw with rfl | rfl <;> (simp [shift, getJacob, lowerLimit]; ring)

/-- C120.  The weight functions 0 and 10 and above raise. -/
theorem C120_unknown (rule : ℕ → List (ℝ × ℝ)) (f : ℝ → ℝ) (a b releps abseps α β : ℝ) (k : ℕ) :
    gaussq rule f a b releps abseps α β 0 = .error .typeError ∧
    gaussq rule f a b releps abseps α β (10 + k) = .error .indexError := by
  constructor
  · rfl
  · simp only [gaussq]
    rw [show 10 + k = k + 10 by ring]
    rfl

/-- C120.  The cache of rules: every entry is a rule computed for some parameters with the same
formatted name, and this stays so. -/
theorem C120_cache {κ : Type*} [DecidableEq κ] (fmt : ℝ → κ)
    (rules : ℕ → ℕ → ℝ → ℝ → List (ℝ × ℝ)) (store : List ((ℕ × ℕ × κ × κ) × List (ℝ × ℝ)))
    (hs : StoreOk fmt rules store) (n wfun : ℕ) (α β : ℝ) :
    StoreOk fmt rules (lookupRule fmt rules store n wfun α β).2 ∧
    ∃ α' β', fmt α' = fmt α ∧ fmt β' = fmt β ∧
      (lookupRule fmt rules store n wfun α β).1 = rules n wfun α' β' :=
  lookupRule_ok fmt rules store hs n wfun α β

/-- C120.  If different parameters were formatted differently, the rule would always be the right one. -/
theorem C120_cache_injective {κ : Type*} [DecidableEq κ] (fmt : ℝ → κ) (hf : Function.Injective fmt)
    (rules : ℕ → ℕ → ℝ → ℝ → List (ℝ × ℝ)) (store : List ((ℕ × ℕ × κ × κ) × List (ℝ × ℝ)))
    (hs : StoreOk fmt rules store) (n wfun : ℕ) (α β : ℝ) :
    (lookupRule fmt rules store n wfun α β).1 = rules n wfun α β := by
  obtain ⟨_, α', β', h1, h2, h3⟩ := lookupRule_ok fmt rules store hs n wfun α β
  rw [h3, hf h1, hf h2]

example : StoreOk (fun x : ℝ => x) (fun _ _ _ _ => [(0, 2)]) [((1, 4, 0, 0), [(0, 2)])] := by
  intro e he
  simp at he
  exact ⟨4, 1, 0, 0, he⟩

/-- C120, refuted for a format that keeps six digits: after a call with `alpha` the rule for `alpha'` with
the same six digits is the rule for `alpha`. -/
theorem C120_cache_refuted {κ : Type*} [DecidableEq κ] (fmt : ℝ → κ)
    (rules : ℕ → ℕ → ℝ → ℝ → List (ℝ × ℝ)) (n wfun : ℕ) (α α' β : ℝ) (hf : fmt α' = fmt α) :
    (lookupRule fmt rules (lookupRule fmt rules [] n wfun α β).2 n wfun α' β).1 = rules n wfun α β := by
  simp [lookupRule, hf]

/-- Two different parameters with the same six decimals. -/
example : npRound ((1 / 2 + 1 / 10 ^ 8) * 10 ^ 6) = npRound (1 / 2 * 10 ^ 6) := by
  have h1 : ⌊((1 / 2 + 1 / 10 ^ 8) * 10 ^ 6 : ℝ)⌋ = 500000 := by
    rw [Int.floor_eq_iff]; norm_num
  have h2 : ⌊(1 / 2 * 10 ^ 6 : ℝ)⌋ = 500000 := by
    rw [Int.floor_eq_iff]; norm_num
  unfold npRound
  rw [h1, h2]
  norm_num

end Wafo.Quad

import Verif.Quad.Clenshaw
import Mathlib.NumberTheory.Bernoulli
import Mathlib.Analysis.SpecialFunctions.Integrals.Basic

/-! The extrapolation table of `romberg`. -/

set_option linter.unusedSectionVars false

namespace Wafo.Quad

open Polynomial Finset Real MeasureTheory

/-- The composite trapezoidal rule with `m` intervals. -/
noncomputable def trapSum (f : ℝ → ℝ) (a b : ℝ) (m : ℕ) : ℝ :=
  (b - a) / m * ((f a + f b) / 2 + ∑ j ∈ range (m - 1), f (a + ((j : ℝ) + 1) * ((b - a) / m)))

/-- Romberg's table: trapezoidal rules with `2^i` intervals, extrapolated `k` times. -/
noncomputable def romTable (f : ℝ → ℝ) (a b : ℝ) : ℕ → ℕ → ℝ
  | i, 0 => trapSum f a b (2 ^ i)
  | i, k + 1 => romTable f a b i k + (romTable f a b i k - romTable f a b (i - 1) k) / (4 ^ (k + 1) - 1)

theorem fP_eq (k : ℕ) : fP k = 4 ^ (k + 1) := by
  induction k with
  | zero => norm_num [fP]
  | succ k ih => rw [fP, ih]; ring

/-- The trapezoidal sum as a sum over the left ends plus a boundary term. -/
theorem trapSum_left (f : ℝ → ℝ) (a b : ℝ) (m : ℕ) (hm : m ≠ 0) :
    trapSum f a b m = (b - a) / m * ((∑ j ∈ range m, f (a + (j : ℝ) * ((b - a) / m))) + (f b - f a) / 2) := by
  obtain ⟨k, rfl⟩ : ∃ k, m = k + 1 := ⟨m - 1, by omega⟩
  rw [trapSum, show k + 1 - 1 = k by omega, Finset.sum_range_succ' _ k]
  congr 1
  push_cast
  rw [zero_mul, add_zero]
  ring

theorem sum_even_odd (g : ℕ → ℝ) (m : ℕ) :
    ∑ j ∈ range (2 * m), g j = (∑ j ∈ range m, g (2 * j)) + ∑ j ∈ range m, g (2 * j + 1) := by
  induction m with
  | zero => simp
  | succ m ih =>
    rw [show 2 * (m + 1) = 2 * m + 1 + 1 by ring, sum_range_succ, sum_range_succ, ih, sum_range_succ,
      sum_range_succ]
    ring

/-- Halving the step. -/
theorem trapSum_double (f : ℝ → ℝ) (a b : ℝ) (m : ℕ) (hm : m ≠ 0) :
    trapSum f a b (2 * m) = 1 / 2 * trapSum f a b m
      + (∑ j ∈ range m, f (a + (2 * (j : ℝ) + 1) * ((b - a) / (2 * m : ℕ)))) * ((b - a) / (2 * m : ℕ)) := by
  have hmr : (m : ℝ) ≠ 0 := by exact_mod_cast hm
  rw [trapSum_left _ _ _ _ (by omega), trapSum_left _ _ _ _ hm, sum_even_odd]
  have e1 : ∀ j : ℕ, f (a + ((2 * j : ℕ) : ℝ) * ((b - a) / ((2 * m : ℕ) : ℝ)))
      = f (a + (j : ℝ) * ((b - a) / m)) := by
    intro j; congr 2; push_cast; field_simp
  have e2 : ∀ j : ℕ, f (a + ((2 * j + 1 : ℕ) : ℝ) * ((b - a) / ((2 * m : ℕ) : ℝ)))
      = f (a + (2 * (j : ℝ) + 1) * ((b - a) / ((2 * m : ℕ) : ℝ))) := by
    intro j; congr 2; push_cast; rfl
  simp only [e1, e2]
  have e3 : (b - a) / ((2 * m : ℕ) : ℝ) = 1 / 2 * ((b - a) / m) := by push_cast; field_simp
  rw [e3]
  ring

/-- Rows of the table computed by the code. -/
theorem romRow_eq (f : ℝ → ℝ) (a b : ℝ) (i : ℕ) (prev : ℕ → ℝ) (u : ℝ)
    (hp : ∀ k ≤ i, prev k = romTable f a b i k)
    (hu : u = (∑ j ∈ range (2 ^ i), f (a + (2 * (j : ℝ) + 1) * ((b - a) / (2 ^ (i + 1) : ℕ))))
      * ((b - a) / (2 ^ (i + 1) : ℕ))) :
    ∀ k ≤ i + 1, romRow prev u k = romTable f a b (i + 1) k := by
  intro k
  induction k with
  | zero =>
    intro _
    rw [romRow, romTable, hp 0 (by omega), romTable, hu, pow_succ, mul_comm (2 ^ i) 2,
      trapSum_double _ _ _ _ (by positivity)]
  | succ k ih =>
    intro hk
    rw [romRow, romTable, ih (by omega), hp k (by omega), fP_eq, show i + 1 - 1 = i by omega]

/-- What `romberg` returns: the extrapolation of three consecutive diagonal entries, in the first
round `i ≥ 2` that meets the tolerance. -/
theorem romLoop_spec (dea3 : ℝ → ℝ → ℝ → ℝ × ℝ) (f : ℝ → ℝ) (a b releps abseps : ℝ) (fuel : ℕ) :
    let D := fun i => romTable f a b i i
    let r := fun i => dea3 (D (i - 2)) (D (i - 1)) (D i)
    let ok := fun i => (r i).2 ≤ max abseps (releps * |(r i).1|)
    ∀ (i : ℕ) (prev : ℕ → ℝ) (q2 : ℝ), 1 ≤ i → (∀ k ≤ i - 1, prev k = romTable f a b (i - 1) k) →
    (2 ≤ i → q2 = D (i - 2)) →
    (∃ j, 2 ≤ j ∧ i ≤ j ∧ j < i + fuel ∧ ok j ∧ (∀ l, 2 ≤ l → i ≤ l → l < j → ¬ ok l) ∧
      romLoop dea3 f a releps abseps i ((b - a) / (2 ^ (i - 1) : ℕ)) (2 ^ (i - 1)) prev q2 (D (i - 1)) fuel
        = .ok (r j)) ∨
    ((∀ l, 2 ≤ l → i ≤ l → l < i + fuel → ¬ ok l) ∧
      romLoop dea3 f a releps abseps i ((b - a) / (2 ^ (i - 1) : ℕ)) (2 ^ (i - 1)) prev q2 (D (i - 1)) fuel
        = .error .valueError) := by
  intro D r ok
  induction fuel with
  | zero =>
    intro i prev q2 hi hp hq
    exact Or.inr ⟨fun l _ h1 h2 => by omega, rfl⟩
  | succ fuel ih =>
    intro i prev q2 hi hp hq
    obtain ⟨i, rfl⟩ : ∃ k, i = k + 1 := ⟨i - 1, by omega⟩
    have hh : (b - a) / ((2 ^ (i + 1 - 1) : ℕ) : ℝ) * (1 / 2) = (b - a) / ((2 ^ (i + 1) : ℕ) : ℝ) := by
      rw [show i + 1 - 1 = i by omega, pow_succ]
      push_cast
      field_simp
    rw [romLoop]
    simp only [hh]
    set u := ((List.range (2 ^ (i + 1 - 1))).map fun j : ℕ =>
      f (a + (2 * (j : ℝ) + 1) * ((b - a) / ((2 ^ (i + 1) : ℕ) : ℝ)))).sum
        * ((b - a) / ((2 ^ (i + 1) : ℕ) : ℝ)) with hu
    have hrow := romRow_eq f a b i prev u (by simpa using hp) (by
      rw [hu, list_sum_range, show i + 1 - 1 = i by omega])
    rw [hrow (i + 1) le_rfl]
    change _ ∨ (_ ∧ (if 2 ≤ i + 1 ∧ (dea3 q2 (D (i + 1 - 1)) (D (i + 1))).2 ≤ _ then _ else _) = _)
    by_cases h2 : 2 ≤ i + 1
    · have hr : dea3 q2 (D (i + 1 - 1)) (D (i + 1)) = r (i + 1) := by
        simp only [r]; rw [hq h2]
      by_cases hok : ok (i + 1)
      · left
        refine ⟨i + 1, h2, le_rfl, by omega, hok, fun l _ h3 h4 => by omega, ?_⟩
        rw [if_pos]
        · rw [hr]
        · rw [hr]; exact ⟨h2, hok⟩
      · have hneg : ¬ (2 ≤ i + 1 ∧ (dea3 q2 (D (i + 1 - 1)) (D (i + 1))).2
            ≤ max abseps (releps * |(dea3 q2 (D (i + 1 - 1)) (D (i + 1))).1|)) := by
          rw [hr]; exact fun h => hok h.2
        have := ih (i + 1 + 1) (romRow prev u) (D i) (by omega) hrow (fun _ => by simp)
        rw [show i + 1 + 1 - 1 = i + 1 by omega] at this
        rcases this with ⟨j, a1, a2, a3, a4, a5, a6⟩ | ⟨b1, b2⟩
        · left
          refine ⟨j, a1, by omega, by omega, a4, fun l l1 l2 l3 => ?_, ?_⟩
          · rcases eq_or_lt_of_le l2 with h | h
            · rw [← h]; exact hok
            · exact a5 l l1 h l3
          · rw [if_neg hneg, ← a6, pow_succ]
            rfl
        · right
          refine ⟨fun l l1 l2 l3 => ?_, ?_⟩
          · rcases eq_or_lt_of_le l2 with h | h
            · rw [← h]; exact hok
            · exact b1 l l1 h (by omega)
          · rw [if_neg hneg, ← b2, pow_succ]
            rfl
    · have hneg : ¬ (2 ≤ i + 1 ∧ (dea3 q2 (D (i + 1 - 1)) (D (i + 1))).2
            ≤ max abseps (releps * |(dea3 q2 (D (i + 1 - 1)) (D (i + 1))).1|)) := fun h => h2 h.1
      have hi0 : i = 0 := by omega
      subst hi0
      have := ih 2 (romRow prev u) (D 0) (by omega) hrow (fun _ => by simp)
      rcases this with ⟨j, a1, a2, a3, a4, a5, a6⟩ | ⟨b1, b2⟩
      · left
        refine ⟨j, a1, by omega, by omega, a4, fun l l1 l2 l3 => a5 l l1 l1 l3, ?_⟩
        rw [if_neg hneg, ← a6]
        rfl
      · right
        refine ⟨fun l l1 l2 l3 => b1 l l1 l1 (by omega), ?_⟩
        rw [if_neg hneg, ← b2]
        rfl

theorem romberg_spec (dea3 : ℝ → ℝ → ℝ → ℝ × ℝ) (f : ℝ → ℝ) (a b releps abseps : ℝ) (lim : ℕ)
    (hl : tableLimit (b - a) = .ok lim) (hl3 : 3 ≤ lim) :
    let D := fun i => romTable f a b i i
    let r := fun i => dea3 (D (i - 2)) (D (i - 1)) (D i)
    let ok := fun i => (r i).2 ≤ max abseps (releps * |(r i).1|)
    (∃ j, 2 ≤ j ∧ j < lim ∧ ok j ∧ (∀ l, 2 ≤ l → l < j → ¬ ok l) ∧
      romberg dea3 f a b releps abseps = .ok (r j)) ∨
    ((∀ l, 2 ≤ l → l < lim → ¬ ok l) ∧ romberg dea3 f a b releps abseps = .error .valueError) := by
  intro D r ok
  have ht : (b - a) * (f a + f b) / 2 = D 0 := by
    simp only [D]; rw [romTable, trapSum]; simp; ring
  have h := romLoop_spec dea3 f a b releps abseps (lim - 1) 1
    (fun k => if k = 0 then (b - a) * (f a + f b) / 2 else 0) 0 le_rfl (by
      intro k hk
      have : k = 0 := by omega
      subst this
      rw [if_pos rfl, ht]) (by omega)
  have e : romberg dea3 f a b releps abseps = romLoop dea3 f a releps abseps 1
      ((b - a) / ((2 ^ (1 - 1) : ℕ) : ℝ)) (2 ^ (1 - 1))
      (fun k => if k = 0 then (b - a) * (f a + f b) / 2 else 0) 0 (D (1 - 1)) (lim - 1) := by
    simp only [romberg, hl]
    rw [show (1 : ℕ) - 1 = 0 from rfl, ← ht]
    norm_num
  rw [e]
  rcases h with ⟨j, a1, a2, a3, a4, a5, a6⟩ | ⟨b1, b2⟩
  · exact Or.inl ⟨j, a1, by omega, a4, fun l l1 l2 => a5 l l1 (by omega) l2, a6⟩
  · exact Or.inr ⟨fun l l1 l2 => b1 l l1 (by omega) (by omega), b2⟩

/-! ### Exactness -/

/-- Coefficients of the error expansion of the trapezoidal rule for a power. -/
noncomputable def emCoef (p : ℕ) (L : ℝ) (r : ℕ) : ℝ :=
  if 1 ≤ r ∧ 2 * r ≤ p then
    ((bernoulli (2 * r) : ℚ) : ℝ) * ((p + 1).choose (2 * r) : ℝ) * L ^ (p + 1) / ((p : ℝ) + 1)
  else 0

/-- The trapezoidal rule for a power, as the integral plus even powers of the step
(Euler-Maclaurin, from Faulhaber's formula). -/
theorem trap_pow (p m : ℕ) (hm : m ≠ 0) (L : ℝ) :
    trapSum (fun x => x ^ p) 0 L m = (∫ x in (0 : ℝ)..L, x ^ p)
      + ∑ r ∈ range (p + 1), emCoef p L r * (1 / (m : ℝ) ^ 2) ^ r := by
  have hmr : (m : ℝ) ≠ 0 := by exact_mod_cast hm
  have hp1 : (p : ℝ) + 1 ≠ 0 := by positivity
  rw [trapSum_left _ _ _ _ hm, integral_pow]
  have e1 : ∀ j : ℕ, (0 + (j : ℝ) * ((L - 0) / m)) ^ p = (L / m) ^ p * (j : ℝ) ^ p := by
    intro j; rw [zero_add, sub_zero, mul_pow, mul_comm]
  simp only [e1]
  rw [← Finset.mul_sum]
  have hF : (∑ j ∈ range m, (j : ℝ) ^ p)
      = ∑ i ∈ range (p + 1), ((bernoulli i : ℚ) : ℝ) * ((p + 1).choose i : ℝ) * (m : ℝ) ^ (p + 1 - i)
        / ((p : ℝ) + 1) := by
    have := sum_range_pow m p
    have h2 := congrArg (fun q : ℚ => (q : ℝ)) this
    push_cast at h2
    exact h2
  rw [hF]
  set t : ℕ → ℝ := fun i => if i ≤ p then
    ((bernoulli i : ℚ) : ℝ) * ((p + 1).choose i : ℝ) * L ^ (p + 1) / ((p : ℝ) + 1) * (1 / (m : ℝ)) ^ i
    else 0 with ht
  have hsum : (L - 0) / m * ((L / m) ^ p * ∑ i ∈ range (p + 1),
      ((bernoulli i : ℚ) : ℝ) * ((p + 1).choose i : ℝ) * (m : ℝ) ^ (p + 1 - i) / ((p : ℝ) + 1))
      = ∑ i ∈ range (2 * (p + 1)), t i := by
    have : ∑ i ∈ range (2 * (p + 1)), t i = ∑ i ∈ range (p + 1), t i := by
      symm
      refine Finset.sum_subset (fun i hi => ?_) (fun i _ hi => ?_)
      · rw [mem_range] at hi ⊢; omega
      · rw [mem_range] at hi
        simp only [ht]
        rw [if_neg (by omega)]
    rw [this, ← mul_assoc, Finset.mul_sum]
    refine Finset.sum_congr rfl fun i hi => ?_
    rw [mem_range] at hi
    simp only [ht]
    rw [if_pos (by omega), sub_zero]
    have hpow : (m : ℝ) ^ (p + 1) = (m : ℝ) ^ (p + 1 - i) * (m : ℝ) ^ i := by
      rw [← pow_add]; congr 1; omega
    rw [div_pow, one_div, inv_pow]
    have h1 : L / (m : ℝ) * (L ^ p / (m : ℝ) ^ p) = L ^ (p + 1) / (m : ℝ) ^ (p + 1) := by
      rw [pow_succ, pow_succ]; field_simp
    rw [h1, hpow]
    have := pow_ne_zero (p + 1 - i) hmr
    field_simp
  rw [mul_add, hsum, sum_even_odd]
  have hodd : ∑ j ∈ range (p + 1), t (2 * j + 1) = t 1 := by
    rw [Finset.sum_range_succ']
    rw [Finset.sum_eq_zero, zero_add]
    intro j _
    simp only [ht]
    split_ifs
    · have : bernoulli (2 * (j + 1) + 1) = 0 := by
        rw [bernoulli_eq_bernoulli'_of_ne_one (by omega)]
        exact bernoulli'_eq_zero_of_odd ⟨j + 1, by ring⟩ (by omega)
      rw [this]; simp
    · rfl
  have hbd : t 1 + (L - 0) / m * ((L ^ p - 0 ^ p) / 2) = 0 := by
    simp only [ht]
    rcases Nat.eq_zero_or_pos p with h | h
    · subst h; simp
    · rw [if_pos (by omega), bernoulli_one, zero_pow (by omega), Nat.choose_one_right]
      push_cast
      field_simp
      ring
  have hev : ∑ j ∈ range (p + 1), t (2 * j) = (L ^ (p + 1) - 0 ^ (p + 1)) / (p + 1)
      + ∑ r ∈ range (p + 1), emCoef p L r * (1 / (m : ℝ) ^ 2) ^ r := by
    rw [Finset.sum_range_succ', Finset.sum_range_succ' (fun r => emCoef p L r * _)]
    have z1 : t (2 * 0) = (L ^ (p + 1) - 0 ^ (p + 1)) / (p + 1) := by
      simp [ht]
    have z2 : emCoef p L 0 = 0 := by simp [emCoef]
    rw [z1, z2, zero_mul, add_zero, add_comm]
    congr 1
    refine Finset.sum_congr rfl fun r _ => ?_
    simp only [ht, emCoef]
    by_cases h : 2 * (r + 1) ≤ p
    · rw [if_pos h, if_pos ⟨by omega, h⟩, pow_mul, one_div_pow]
    · rw [if_neg h, if_neg (fun hh => h hh.2), zero_mul]
  rw [hodd, hev]
  linear_combination hbd

theorem trapSum_shift (f : ℝ → ℝ) (a b : ℝ) (m : ℕ) :
    trapSum f a b m = trapSum (fun x => f (x + a)) 0 (b - a) m := by
  simp only [trapSum, sub_zero, zero_add, sub_add_cancel]
  congr 2
  refine Finset.sum_congr rfl fun j _ => ?_
  rw [add_comm a]

theorem trapSum_add (f g : ℝ → ℝ) (a b : ℝ) (m : ℕ) :
    trapSum (fun x => f x + g x) a b m = trapSum f a b m + trapSum g a b m := by
  simp only [trapSum, Finset.sum_add_distrib]; ring

theorem trapSum_smul (c : ℝ) (f : ℝ → ℝ) (a b : ℝ) (m : ℕ) :
    trapSum (fun x => c * f x) a b m = c * trapSum f a b m := by
  simp only [trapSum, ← Finset.mul_sum]; ring

/-- The expansion for polynomials. -/
theorem trap_expand0 (L : ℝ) (N : ℕ) (P : ℝ[X]) (hP : P.natDegree ≤ N) :
    ∃ c : ℕ → ℝ, (∀ r, ¬ (1 ≤ r ∧ 2 * r ≤ N) → c r = 0) ∧
      ∀ m : ℕ, m ≠ 0 → trapSum (fun x => P.eval x) 0 L m
        = (∫ x in (0 : ℝ)..L, P.eval x) + ∑ r ∈ range (N + 1), c r * (1 / (m : ℝ) ^ 2) ^ r := by
  refine ⟨fun r => ∑ p ∈ range (N + 1), P.coeff p * emCoef p L r, ?_, ?_⟩
  · intro r hr
    refine Finset.sum_eq_zero fun p hp => ?_
    rw [mem_range] at hp
    rw [emCoef, if_neg (by omega), mul_zero]
  · intro m hm
    have hev : ∀ x, P.eval x = ∑ p ∈ range (N + 1), P.coeff p * x ^ p := fun x =>
      eval_eq_sum_range' (by omega) x
    have hT : trapSum (fun x => P.eval x) 0 L m
        = ∑ p ∈ range (N + 1), P.coeff p * trapSum (fun x => x ^ p) 0 L m := by
      simp only [hev]
      generalize N + 1 = M
      induction M with
      | zero => simp [trapSum]
      | succ M ih =>
        simp only [Finset.sum_range_succ]
        rw [trapSum_add, trapSum_smul, ih]
    have hI : (∫ x in (0 : ℝ)..L, P.eval x)
        = ∑ p ∈ range (N + 1), P.coeff p * ∫ x in (0 : ℝ)..L, x ^ p := by
      simp only [hev]
      rw [intervalIntegral.integral_finsetSum (fun i _ => (by fun_prop : Continuous _).intervalIntegrable _ _)]
      refine Finset.sum_congr rfl fun p _ => ?_
      rw [intervalIntegral.integral_const_mul]
    rw [hT, hI]
    simp only [Finset.sum_mul]
    rw [Finset.sum_comm, ← Finset.sum_add_distrib]
    refine Finset.sum_congr rfl fun p hp => ?_
    rw [mem_range] at hp
    rw [trap_pow p m hm, mul_add, Finset.mul_sum]
    congr 1
    have hext : ∑ r ∈ range (N + 1), P.coeff p * emCoef p L r * (1 / (m : ℝ) ^ 2) ^ r
        = ∑ r ∈ range (p + 1), P.coeff p * emCoef p L r * (1 / (m : ℝ) ^ 2) ^ r := by
      symm
      refine Finset.sum_subset (fun i hi => ?_) (fun i _ hi => ?_)
      · rw [mem_range] at hi ⊢; omega
      · rw [mem_range] at hi
        rw [emCoef, if_neg (by omega)]; ring
    rw [hext]
    refine Finset.sum_congr rfl fun r _ => ?_
    ring

theorem trap_expand (a b : ℝ) (N : ℕ) (P : ℝ[X]) (hP : P.natDegree ≤ N) :
    ∃ c : ℕ → ℝ, (∀ r, ¬ (1 ≤ r ∧ 2 * r ≤ N) → c r = 0) ∧
      ∀ m : ℕ, m ≠ 0 → trapSum (fun x => P.eval x) a b m
        = (∫ x in a..b, P.eval x) + ∑ r ∈ range (N + 1), c r * (1 / (m : ℝ) ^ 2) ^ r := by
  obtain ⟨c, h1, h2⟩ := trap_expand0 (b - a) N (affPoly P 1 a) (by
    refine le_trans natDegree_comp_le ?_
    have : (Polynomial.C 1 * X + Polynomial.C a : ℝ[X]).natDegree ≤ 1 := natDegree_linear_le
    calc _ ≤ P.natDegree * 1 := by gcongr
      _ ≤ N := by omega)
  refine ⟨c, h1, fun m hm => ?_⟩
  have := h2 m hm
  simp only [affPoly_eval, one_mul] at this
  rw [trapSum_shift, this, intervalIntegral.integral_comp_add_right (fun x => P.eval x)]
  simp

/-- What `k` Richardson steps do to the `r`-th error term. -/
noncomputable def richFac : ℕ → ℕ → ℝ
  | 0, _ => 1
  | k + 1, r => richFac k r * (1 + (1 - 4 ^ r) / (4 ^ (k + 1) - 1))

theorem richFac_zero (k r : ℕ) (h1 : 1 ≤ r) (h2 : r ≤ k) : richFac k r = 0 := by
  induction k with
  | zero => omega
  | succ k ih =>
    rw [richFac]
    rcases eq_or_lt_of_le h2 with h | h
    · subst h
      have : (4 : ℝ) ^ (k + 1) - 1 ≠ 0 := by
        have : (1 : ℝ) < 4 ^ (k + 1) := one_lt_pow₀ (by norm_num) (by omega)
        linarith
      have e : 1 + (1 - (4 : ℝ) ^ (k + 1)) / (4 ^ (k + 1) - 1) = 0 := by
        field_simp; ring
      rw [e, mul_zero]
    · rw [ih (by omega), zero_mul]

theorem romTable_expand (f : ℝ → ℝ) (a b I : ℝ) (N : ℕ) (c : ℕ → ℝ)
    (h : ∀ m : ℕ, m ≠ 0 → trapSum f a b m = I + ∑ r ∈ range N, c r * (1 / (m : ℝ) ^ 2) ^ r) (k : ℕ) :
    ∀ i, k ≤ i → romTable f a b i k = I + ∑ r ∈ range N, c r * richFac k r * (1 / 4 ^ i) ^ r := by
  induction k with
  | zero =>
    intro i _
    rw [romTable, h _ (by positivity)]
    congr 1
    refine Finset.sum_congr rfl fun r _ => ?_
    rw [richFac, mul_one]
    congr 3
    push_cast
    rw [← pow_mul, mul_comm, pow_mul]; norm_num
  | succ k ih =>
    intro i hi
    rw [romTable, ih i (by omega), ih (i - 1) (by omega)]
    have hne : (4 : ℝ) ^ (k + 1) - 1 ≠ 0 := by
      have : (1 : ℝ) < 4 ^ (k + 1) := one_lt_pow₀ (by norm_num) (by omega)
      linarith
    have hx : ∀ r : ℕ, ((1 : ℝ) / 4 ^ (i - 1)) ^ r = 4 ^ r * (1 / 4 ^ i) ^ r := by
      intro r
      rw [← mul_pow]
      congr 1
      obtain ⟨j, rfl⟩ : ∃ j, i = j + 1 := ⟨i - 1, by omega⟩
      rw [show j + 1 - 1 = j by omega, pow_succ]
      field_simp
    simp only [hx]
    rw [add_sub_add_left_eq_sub, ← Finset.sum_sub_distrib, Finset.sum_div, add_assoc,
      ← Finset.sum_add_distrib]
    congr 1
    refine Finset.sum_congr rfl fun r _ => ?_
    rw [richFac]
    field_simp

/-- Entry `(i, k)` of Romberg's table is exact for polynomials of degree at most `2 k + 1`. -/
theorem romTable_exact (a b : ℝ) (i k : ℕ) (hk : k ≤ i) (P : ℝ[X]) (hP : P.natDegree ≤ 2 * k + 1) :
    romTable (fun x => P.eval x) a b i k = ∫ x in a..b, P.eval x := by
  obtain ⟨c, h1, h2⟩ := trap_expand a b (2 * k + 1) P hP
  rw [romTable_expand _ a b _ _ c h2 k i hk, add_eq_left]
  refine Finset.sum_eq_zero fun r _ => ?_
  by_cases h : 1 ≤ r ∧ 2 * r ≤ 2 * k + 1
  · rw [richFac_zero k r h.1 (by omega)]; ring
  · rw [h1 r h]; ring

end Wafo.Quad

import Mathlib.Tactic.FieldSimp
import Mathlib.Tactic.Positivity
import Mathlib.Tactic.LinearCombination
import Verif.Cov.Fft
import Verif.Fourier.Model

set_option linter.unusedSectionVars false

/-!
Properties C225 (`fourier`) and C226 (`num2pistr`) of misc.py.
-/

namespace Wafo.Fourier

open Finset

/-- Times of `q` periods of length `T` with `N` steps each, from `t0`. -/
noncomputable def grid (t0 T : ℝ) (N q : ℕ) : List ℝ := (List.range (q * N + 1)).map fun k : ℕ => t0 + (k : ℝ) * (T / N)

/-- A trigonometric sum with mean `al 0 / 2` and coefficients `al n`, `be n` for `n = 1, ..., M`. -/
noncomputable def signal (al be : ℕ → ℝ) (M : ℕ) (T v : ℝ) : ℝ :=
  al 0 / 2 + ∑ n ∈ range M, (al (n + 1) * Real.cos (((n + 1 : ℕ) : ℝ) * (2 * Real.pi * v / T)) + be (n + 1) * Real.sin (((n + 1 : ℕ) : ℝ) * (2 * Real.pi * v / T)))

/-- The trapezoidal rule for equidistant points. -/
theorem trapz_grid (f : ℕ → ℝ) (t0 h : ℝ) (L : ℕ) :
    Plot.trapz ((List.range (L + 1)).map f) ((List.range (L + 1)).map fun k : ℕ => t0 + (k : ℝ) * h) = h * ∑ k ∈ range L, (f k + f (k + 1)) / 2 := by
  induction L generalizing f t0 with
  | zero => simp [Plot.trapz]
  | succ L ih =>
    have e1 : (List.range (L + 1 + 1)).map f = f 0 :: (List.range (L + 1)).map fun k => f (k + 1) := by
      rw [List.range_succ_eq_map, List.map_cons, List.map_map]; rfl
    have e2 : (List.range (L + 1 + 1)).map (fun k : ℕ => t0 + (k : ℝ) * h) = t0 :: (List.range (L + 1)).map fun k : ℕ => (t0 + h) + (k : ℝ) * h := by
      rw [List.range_succ_eq_map, List.map_cons, List.map_map]
      congr 1
      · simp
      · apply List.map_congr_left
        intro k _
        simp only [Function.comp]
        push_cast
        ring
    have e3 := ih (fun k => f (k + 1)) (t0 + h)
    rw [e1, e2]
    have e4 : (List.range (L + 1)).map (fun k => f (k + 1)) = f 1 :: (List.range L).map fun k => f (k + 2) := by
      rw [List.range_succ_eq_map, List.map_cons, List.map_map]; rfl
    have e5 : (List.range (L + 1)).map (fun k : ℕ => (t0 + h) + (k : ℝ) * h) = (t0 + h) :: (List.range L).map fun k : ℕ => (t0 + h) + ((k + 1 : ℕ) : ℝ) * h := by
      rw [List.range_succ_eq_map, List.map_cons, List.map_map]
      congr 1
      simp
    rw [e4, e5] at e3 ⊢
    rw [Plot.trapz, e3, Finset.sum_range_succ']
    ring

/-- For a function that takes the same value at both ends it is the plain sum. -/
theorem trapz_periodic (f : ℕ → ℝ) (t0 h : ℝ) (L : ℕ) (hp : f L = f 0) :
    Plot.trapz ((List.range (L + 1)).map f) ((List.range (L + 1)).map fun k : ℕ => t0 + (k : ℝ) * h) = h * ∑ k ∈ range L, f k := by
  rw [trapz_grid]
  congr 1
  have h1 : ∑ k ∈ range L, f (k + 1) = ∑ k ∈ range L, f k := by
    have a := Finset.sum_range_succ f L
    have b := Finset.sum_range_succ' f L
    rw [a, hp] at b
    linarith
  rw [← Finset.sum_div, Finset.sum_add_distrib, h1]
  ring

variable {t0 T : ℝ} {N q : ℕ}

theorem phase_eq (hT : 0 < T) (hN : 0 < N) (hq : 0 < q) (j : ℤ) (k : ℕ) :
    (j : ℝ) * (2 * Real.pi * (t0 + (k : ℝ) * (T / N)) / T) = (j : ℝ) * (2 * Real.pi * t0 / T) + 2 * Real.pi * ((j * q : ℤ) : ℝ) * k / ((q * N : ℕ) : ℝ) := by
  have h1 : (N : ℝ) ≠ 0 := by exact_mod_cast hN.ne'
  have h2 : (q : ℝ) ≠ 0 := by exact_mod_cast hq.ne'
  have h3 := hT.ne'
  push_cast
  field_simp

theorem dvd_scaled (hq : 0 < q) (j : ℤ) : ((q * N : ℕ) : ℤ) ∣ j * q ↔ (N : ℤ) ∣ j := by
  have : (q : ℤ) ≠ 0 := by exact_mod_cast hq.ne'
  push_cast
  rw [mul_comm j]
  exact mul_dvd_mul_iff_left this

/-- Sums of cosines and sines over whole periods. -/
theorem sum_cos_grid (hT : 0 < T) (hN : 0 < N) (hq : 0 < q) (j : ℤ) :
    ∑ k ∈ range (q * N), Real.cos ((j : ℝ) * (2 * Real.pi * (t0 + (k : ℝ) * (T / N)) / T)) = if (N : ℤ) ∣ j then ((q * N : ℕ) : ℝ) * Real.cos ((j : ℝ) * (2 * Real.pi * t0 / T)) else 0 := by
  have hqN : 0 < q * N := Nat.mul_pos hq hN
  have h : ∀ k : ℕ, Real.cos ((j : ℝ) * (2 * Real.pi * (t0 + (k : ℝ) * (T / N)) / T)) =
      Real.cos ((j : ℝ) * (2 * Real.pi * t0 / T)) * Real.cos (2 * Real.pi * ((j * q : ℤ) : ℝ) * k / ((q * N : ℕ) : ℝ)) -
      Real.sin ((j : ℝ) * (2 * Real.pi * t0 / T)) * Real.sin (2 * Real.pi * ((j * q : ℤ) : ℝ) * k / ((q * N : ℕ) : ℝ)) := by
    intro k
    rw [phase_eq hT hN hq, Real.cos_add]
  rw [Finset.sum_congr rfl fun k _ => h k, Finset.sum_sub_distrib, ← Finset.mul_sum, ← Finset.mul_sum, Cov.sum_cos _ hqN, Cov.sum_sin _ hqN]
  simp only [dvd_scaled hq]
  split <;> ring

theorem sum_sin_grid (hT : 0 < T) (hN : 0 < N) (hq : 0 < q) (j : ℤ) :
    ∑ k ∈ range (q * N), Real.sin ((j : ℝ) * (2 * Real.pi * (t0 + (k : ℝ) * (T / N)) / T)) = if (N : ℤ) ∣ j then ((q * N : ℕ) : ℝ) * Real.sin ((j : ℝ) * (2 * Real.pi * t0 / T)) else 0 := by
  have hqN : 0 < q * N := Nat.mul_pos hq hN
  have h : ∀ k : ℕ, Real.sin ((j : ℝ) * (2 * Real.pi * (t0 + (k : ℝ) * (T / N)) / T)) =
      Real.sin ((j : ℝ) * (2 * Real.pi * t0 / T)) * Real.cos (2 * Real.pi * ((j * q : ℤ) : ℝ) * k / ((q * N : ℕ) : ℝ)) +
      Real.cos ((j : ℝ) * (2 * Real.pi * t0 / T)) * Real.sin (2 * Real.pi * ((j * q : ℤ) : ℝ) * k / ((q * N : ℕ) : ℝ)) := by
    intro k
    rw [phase_eq hT hN hq, Real.sin_add]
  rw [Finset.sum_congr rfl fun k _ => h k, Finset.sum_add_distrib, ← Finset.mul_sum, ← Finset.mul_sum, Cov.sum_cos _ hqN, Cov.sum_sin _ hqN]
  simp only [dvd_scaled hq]
  split <;> ring

theorem not_dvd {j : ℤ} (h0 : j ≠ 0) (hlt : |j| < N) : ¬ (N : ℤ) ∣ j := by
  intro h
  exact h0 (Int.eq_zero_of_abs_lt_dvd h hlt)

/-- Sums of the products, for frequencies `i`, `n` with `i + n < N` and `n >= 1`. -/
theorem products (hT : 0 < T) (hN : 0 < N) (hq : 0 < q) (i n : ℕ) (hn : 0 < n) (hin : i + n < N) :
    (∑ k ∈ range (q * N), Real.cos ((n : ℝ) * (2 * Real.pi * (t0 + (k : ℝ) * (T / N)) / T)) * Real.cos ((i : ℝ) * (2 * Real.pi * (t0 + (k : ℝ) * (T / N)) / T)) =
      if i = n then ((q * N : ℕ) : ℝ) / 2 else 0) ∧
    (∑ k ∈ range (q * N), Real.sin ((n : ℝ) * (2 * Real.pi * (t0 + (k : ℝ) * (T / N)) / T)) * Real.sin ((i : ℝ) * (2 * Real.pi * (t0 + (k : ℝ) * (T / N)) / T)) =
      if i = n then ((q * N : ℕ) : ℝ) / 2 else 0) ∧
    (∑ k ∈ range (q * N), Real.sin ((n : ℝ) * (2 * Real.pi * (t0 + (k : ℝ) * (T / N)) / T)) * Real.cos ((i : ℝ) * (2 * Real.pi * (t0 + (k : ℝ) * (T / N)) / T)) = 0) ∧
    (∑ k ∈ range (q * N), Real.cos ((n : ℝ) * (2 * Real.pi * (t0 + (k : ℝ) * (T / N)) / T)) * Real.sin ((i : ℝ) * (2 * Real.pi * (t0 + (k : ℝ) * (T / N)) / T)) = 0) := by
  have hs1 : ¬ (N : ℤ) ∣ ((n : ℤ) + i) := not_dvd (by omega) (by rw [abs_of_nonneg (by omega)]; omega)
  have cS := sum_cos_grid (t0 := t0) hT hN hq ((n : ℤ) + i)
  have cD := sum_cos_grid (t0 := t0) hT hN hq ((n : ℤ) - i)
  have sS := sum_sin_grid (t0 := t0) hT hN hq ((n : ℤ) + i)
  have sD := sum_sin_grid (t0 := t0) hT hN hq ((n : ℤ) - i)
  rw [if_neg hs1] at cS sS
  have hD : ((N : ℤ) ∣ ((n : ℤ) - i)) ↔ i = n := by
    constructor
    · intro h
      by_contra hne
      exact not_dvd (by omega) (by rw [abs_lt]; constructor <;> omega) h
    · rintro rfl; simp
  have sD0 : ∑ k ∈ range (q * N), Real.sin ((((n : ℤ) - i : ℤ) : ℝ) * (2 * Real.pi * (t0 + (k : ℝ) * (T / N)) / T)) = 0 := by
    rw [sD]
    split
    · rename_i h
      rw [hD] at h
      subst h
      simp
    · rfl
  have cD0 : ∑ k ∈ range (q * N), Real.cos ((((n : ℤ) - i : ℤ) : ℝ) * (2 * Real.pi * (t0 + (k : ℝ) * (T / N)) / T)) = if i = n then ((q * N : ℕ) : ℝ) else 0 := by
    rw [cD]
    by_cases h : i = n
    · rw [if_pos (hD.2 h), if_pos h]; subst h; simp
    · rw [if_neg (fun hh => h (hD.1 hh)), if_neg h]
  have p1 : ∀ v : ℝ, (((n : ℤ) + i : ℤ) : ℝ) * v = (n : ℝ) * v + (i : ℝ) * v := fun v => by push_cast; ring
  have p2 : ∀ v : ℝ, (((n : ℤ) - i : ℤ) : ℝ) * v = (n : ℝ) * v - (i : ℝ) * v := fun v => by push_cast; ring
  simp only [p1, Real.cos_add, Finset.sum_sub_distrib] at cS
  simp only [p1, Real.sin_add, Finset.sum_add_distrib] at sS
  simp only [p2, Real.cos_sub, Finset.sum_add_distrib] at cD0
  simp only [p2, Real.sin_sub, Finset.sum_sub_distrib] at sD0
  by_cases h : i = n
  · rw [if_pos h] at cD0 ⊢
    refine ⟨?_, ?_, ?_, ?_⟩ <;> linarith
  · rw [if_neg h] at cD0 ⊢
    refine ⟨?_, ?_, ?_, ?_⟩ <;> linarith

/-- Sums of a signal times a cosine or a sine. -/
theorem signal_sums (hT : 0 < T) (hN : 0 < N) (hq : 0 < q) (al be : ℕ → ℝ) (M i : ℕ) (hi : M + i < N) :
    (∑ k ∈ range (q * N), signal al be M T (t0 + (k : ℝ) * (T / N)) * Real.cos ((i : ℝ) * (2 * Real.pi * (t0 + (k : ℝ) * (T / N)) / T)) =
      ((q * N : ℕ) : ℝ) / 2 * (if i ≤ M then al i else 0)) ∧
    (∑ k ∈ range (q * N), signal al be M T (t0 + (k : ℝ) * (T / N)) * Real.sin ((i : ℝ) * (2 * Real.pi * (t0 + (k : ℝ) * (T / N)) / T)) =
      ((q * N : ℕ) : ℝ) / 2 * (if 1 ≤ i ∧ i ≤ M then be i else 0)) := by
  have c0 := sum_cos_grid (t0 := t0) hT hN hq (i : ℤ)
  have s0 := sum_sin_grid (t0 := t0) hT hN hq (i : ℤ)
  simp only [Int.cast_natCast] at c0 s0
  have hdv : ((N : ℤ) ∣ (i : ℤ)) ↔ i = 0 := by
    constructor
    · intro h
      by_contra hne
      exact not_dvd (by omega) (by rw [abs_of_nonneg (by omega)]; omega) h
    · rintro rfl; simp
  have c1 : ∑ k ∈ range (q * N), Real.cos ((i : ℝ) * (2 * Real.pi * (t0 + (k : ℝ) * (T / N)) / T)) = if i = 0 then ((q * N : ℕ) : ℝ) else 0 := by
    rw [c0]
    by_cases h : i = 0
    · rw [if_pos (hdv.2 h), if_pos h]; subst h; simp
    · rw [if_neg (fun hh => h (hdv.1 hh)), if_neg h]
  have s1 : ∑ k ∈ range (q * N), Real.sin ((i : ℝ) * (2 * Real.pi * (t0 + (k : ℝ) * (T / N)) / T)) = 0 := by
    rw [s0]
    by_cases h : i = 0
    · subst h; simp
    · rw [if_neg (fun hh => h (hdv.1 hh))]
  have ite_sum : ∀ (g : ℕ → ℝ), ∑ n ∈ range M, g (n + 1) * (if i = n + 1 then ((q * N : ℕ) : ℝ) / 2 else 0) = if 1 ≤ i ∧ i ≤ M then g i * (((q * N : ℕ) : ℝ) / 2) else 0 := by
    intro g
    by_cases h : 1 ≤ i ∧ i ≤ M
    · rw [if_pos h, Finset.sum_eq_single (i - 1)]
      · rw [if_pos (by omega), show i - 1 + 1 = i by omega]
      · intro b _ hb; rw [if_neg (by omega), mul_zero]
      · intro hh; exact absurd (Finset.mem_range.2 (by omega)) hh
    · rw [if_neg h]
      apply Finset.sum_eq_zero
      intro n hn
      rw [Finset.mem_range] at hn
      rw [if_neg (by omega), mul_zero]
  constructor
  · simp only [signal, add_mul, Finset.sum_add_distrib, Finset.sum_mul, mul_assoc]
    simp only [mul_assoc] at c1
    rw [← Finset.mul_sum, c1, Finset.sum_comm, Finset.sum_comm (s := range (q * N)) (t := range M)]
    simp only [← Finset.mul_sum]
    have e1 : ∑ n ∈ range M, al (n + 1) * ∑ k ∈ range (q * N), Real.cos (((n + 1 : ℕ) : ℝ) * (2 * (Real.pi * (t0 + (k : ℝ) * (T / N))) / T)) *
        Real.cos ((i : ℝ) * (2 * (Real.pi * (t0 + (k : ℝ) * (T / N))) / T)) = if 1 ≤ i ∧ i ≤ M then al i * (((q * N : ℕ) : ℝ) / 2) else 0 := by
      rw [← ite_sum]
      apply Finset.sum_congr rfl
      intro n hn
      rw [Finset.mem_range] at hn
      congr 1
      have := (products (t0 := t0) hT hN hq i (n + 1) (by omega) (by omega)).1
      simpa only [mul_assoc] using this
    have e2 : ∑ n ∈ range M, be (n + 1) * ∑ k ∈ range (q * N), Real.sin (((n + 1 : ℕ) : ℝ) * (2 * (Real.pi * (t0 + (k : ℝ) * (T / N))) / T)) *
        Real.cos ((i : ℝ) * (2 * (Real.pi * (t0 + (k : ℝ) * (T / N))) / T)) = 0 := by
      apply Finset.sum_eq_zero
      intro n hn
      rw [Finset.mem_range] at hn
      have := (products (t0 := t0) hT hN hq i (n + 1) (by omega) (by omega)).2.2.1
      simp only [mul_assoc] at this
      rw [this, mul_zero]
    rw [e1, e2]
    by_cases h : i = 0
    · subst h
      simp
      ring
    · rw [if_neg h]
      by_cases hM : i ≤ M
      · rw [if_pos ⟨by omega, hM⟩, if_pos hM]; ring
      · rw [if_neg (fun hh => hM hh.2), if_neg hM]; ring
  · simp only [signal, add_mul, Finset.sum_add_distrib, Finset.sum_mul, mul_assoc]
    simp only [mul_assoc] at s1
    rw [← Finset.mul_sum, s1, Finset.sum_comm, Finset.sum_comm (s := range (q * N)) (t := range M)]
    simp only [← Finset.mul_sum]
    have e1 : ∑ n ∈ range M, be (n + 1) * ∑ k ∈ range (q * N), Real.sin (((n + 1 : ℕ) : ℝ) * (2 * (Real.pi * (t0 + (k : ℝ) * (T / N))) / T)) *
        Real.sin ((i : ℝ) * (2 * (Real.pi * (t0 + (k : ℝ) * (T / N))) / T)) = if 1 ≤ i ∧ i ≤ M then be i * (((q * N : ℕ) : ℝ) / 2) else 0 := by
      rw [← ite_sum]
      apply Finset.sum_congr rfl
      intro n hn
      rw [Finset.mem_range] at hn
      congr 1
      have := (products (t0 := t0) hT hN hq i (n + 1) (by omega) (by omega)).2.1
      simpa only [mul_assoc] using this
    have e2 : ∑ n ∈ range M, al (n + 1) * ∑ k ∈ range (q * N), Real.cos (((n + 1 : ℕ) : ℝ) * (2 * (Real.pi * (t0 + (k : ℝ) * (T / N))) / T)) *
        Real.sin ((i : ℝ) * (2 * (Real.pi * (t0 + (k : ℝ) * (T / N))) / T)) = 0 := by
      apply Finset.sum_eq_zero
      intro n hn
      rw [Finset.mem_range] at hn
      have := (products (t0 := t0) hT hN hq i (n + 1) (by omega) (by omega)).2.2.2
      simp only [mul_assoc] at this
      rw [this, mul_zero]
    rw [e1, e2]
    split <;> ring

/-- The signal has period `T`. -/
theorem wave_periodic (hT : 0 < T) (hN : 0 < N) (n : ℕ) :
    Real.cos ((n : ℝ) * (2 * Real.pi * (t0 + ((q * N : ℕ) : ℝ) * (T / N)) / T)) = Real.cos ((n : ℝ) * (2 * Real.pi * t0 / T)) ∧
    Real.sin ((n : ℝ) * (2 * Real.pi * (t0 + ((q * N : ℕ) : ℝ) * (T / N)) / T)) = Real.sin ((n : ℝ) * (2 * Real.pi * t0 / T)) := by
  have h1 : (N : ℝ) ≠ 0 := by exact_mod_cast hN.ne'
  have h3 := hT.ne'
  have e : (n : ℝ) * (2 * Real.pi * (t0 + ((q * N : ℕ) : ℝ) * (T / N)) / T) = (n : ℝ) * (2 * Real.pi * t0 / T) + ((n * q : ℕ) : ℝ) * (2 * Real.pi) := by
    push_cast
    field_simp
  rw [e]
  exact ⟨Real.cos_add_nat_mul_two_pi _ _, Real.sin_add_nat_mul_two_pi _ _⟩

theorem signal_periodic (hT : 0 < T) (hN : 0 < N) (al be : ℕ → ℝ) (M : ℕ) :
    signal al be M T (t0 + ((q * N : ℕ) : ℝ) * (T / N)) = signal al be M T t0 := by
  unfold signal
  congr 1
  apply Finset.sum_congr rfl
  intro n _
  rw [(wave_periodic (t0 := t0) (q := q) hT hN (n + 1)).1, (wave_periodic (t0 := t0) (q := q) hT hN (n + 1)).2]

/-- The coefficients computed for `q` whole periods of a trigonometric sum. -/
theorem coefs_grid (hT : 0 < T) (hN : 0 < N) (hq : 0 < q) (al be : ℕ → ℝ) (M i : ℕ) (hi : M + i < N) :
    coefs ((grid t0 T N q).map (signal al be M T)) (grid t0 T N q) T i =
      some ((q : ℝ) * T / (2 * Real.pi) * (if i ≤ M then al i else 0), (q : ℝ) * T / (2 * Real.pi) * (if 1 ≤ i ∧ i ≤ M then be i else 0)) := by
  have h1 : (N : ℝ) ≠ 0 := by exact_mod_cast hN.ne'
  obtain ⟨hc, hs⟩ := signal_sums (t0 := t0) hT hN hq al be M i hi
  have hpi := Real.pi_ne_zero
  have hm : (grid t0 T N q).map (signal al be M T) = (List.range (q * N + 1)).map fun k : ℕ => signal al be M T (t0 + (k : ℝ) * (T / N)) := by
    rw [grid, List.map_map]; rfl
  unfold coefs
  by_cases h0 : i = 0
  · rw [if_pos h0]
    rw [hm, grid, trapz_periodic _ _ _ _ (by rw [signal_periodic hT hN]; simp)]
    subst h0
    simp only [Nat.cast_zero, zero_mul, Real.cos_zero, mul_one, Nat.zero_le, if_true] at hc
    rw [hc]
    rw [if_pos (Nat.zero_le M), if_neg (show ¬ (1 ≤ 0 ∧ 0 ≤ M) by omega), mul_zero]
    push_cast
    congr 2
    field_simp
  · rw [if_neg h0, if_neg hT.ne']
    dsimp only
    have hz : ∀ w : ℝ → ℝ, List.zipWith (fun x v => x * w ((i : ℝ) * v)) ((grid t0 T N q).map (signal al be M T)) ((grid t0 T N q).map fun v => 2 * Real.pi * v / T) =
        (List.range (q * N + 1)).map fun k : ℕ => signal al be M T (t0 + (k : ℝ) * (T / N)) * w ((i : ℝ) * (2 * Real.pi * (t0 + (k : ℝ) * (T / N)) / T)) := by
      intro w
      rw [List.zipWith_map_left, List.zipWith_map_right, grid, List.zipWith_map_left, List.zipWith_map_right, List.zipWith_self]
    rw [hz, hz, grid, trapz_periodic _ _ _ _ (by rw [signal_periodic hT hN, (wave_periodic hT hN i).1]; simp),
      trapz_periodic _ _ _ _ (by rw [signal_periodic hT hN, (wave_periodic hT hN i).2]; simp), hc, hs]
    push_cast
    congr 2 <;> field_simp

/-- C225: for `q` whole periods of a trigonometric sum, sampled with `N` equal steps per period, `fourier` returns exactly the coefficients of the sum, all multiplied by `q T / (2 pi)`, as long as the numbers of harmonics of the signal and
of the result stay together below `N`. -/
theorem C225_coefficients_partial (t0 T : ℝ) (hT : 0 < T) (N q : ℕ) (hN : 0 < N) (hq : 0 < q) (al be : ℕ → ℝ) (M m : ℕ) (hm : 0 < m) (hi : M + m ≤ N) (flat : Bool) :
    (fourier ((grid t0 T N q).map (signal al be M T)) ⟨grid t0 T N q, flat⟩ (some T) (some m)).1 =
      .ok ((List.range m).map fun i => some ((q : ℝ) * T / (2 * Real.pi) * (if i ≤ M then al i else 0), (q : ℝ) * T / (2 * Real.pi) * (if 1 ≤ i ∧ i ≤ M then be i else 0))) := by
  unfold fourier periodOf
  simp only [Option.getD_some, List.length_map, if_neg hm.ne', ne_eq, not_true, if_false]
  congr 1
  apply List.map_congr_left
  intro i hi'
  rw [List.mem_range] at hi'
  exact coefs_grid hT hN hq al be M i (by omega)

/-- C225: hence the documented series with the returned coefficients gives the signal back only if `q T = 2 pi` (or the signal vanishes); in general it gives `q T / (2 pi)` times the signal.  For one period
of length one, the result is too small by the factor `2 pi`. -/
theorem C225_series (T : ℝ) (q : ℕ) (al be : ℕ → ℝ) (M : ℕ) (v : ℝ) :
    signal (fun i => (q : ℝ) * T / (2 * Real.pi) * (if i ≤ M then al i else 0)) (fun i => (q : ℝ) * T / (2 * Real.pi) * (if 1 ≤ i ∧ i ≤ M then be i else 0)) M T v =
      (q : ℝ) * T / (2 * Real.pi) * signal al be M T v ∧
    (signal al be M T v ≠ 0 → ((q : ℝ) * T / (2 * Real.pi) * signal al be M T v = signal al be M T v ↔ (q : ℝ) * T = 2 * Real.pi)) := by
  constructor
  · unfold signal
    rw [mul_add, Finset.mul_sum]
    congr 1
    · simp; ring
    · apply Finset.sum_congr rfl
      intro n hn
      rw [Finset.mem_range] at hn
      dsimp only
      rw [if_pos (by omega), if_pos (by omega)]
      ring
  · intro hne
    have hpi : (2 : ℝ) * Real.pi ≠ 0 := by positivity
    constructor
    · intro h
      have : (q : ℝ) * T / (2 * Real.pi) = 1 := mul_right_cancel₀ hne (by rw [h, one_mul])
      rwa [div_eq_one_iff_eq hpi] at this
    · intro h
      rw [h, div_self hpi, one_mul]

/-- C225: the array of times of the caller is changed by the call: it is a row afterwards.  A second call with the same array and without `period` takes zero for the period, and all
coefficients but the first are nan. -/
theorem C225_mutation_refuted (x : List ℝ) (t : List ℝ) (hl : x.length = t.length) (hne : x ≠ []) (i m : ℕ) (hi : 0 < i) (him : i < m) :
    ∃ c t' d t'', fourier x ⟨t, true⟩ none (some m) = (.ok c, t') ∧ t'.flat = false ∧ t'.vals = t ∧
      fourier x t' none (some m) = (.ok d, t'') ∧ d[i]? = some none ∧ (t.getLast? ≠ t.head? → ∃ v, c[i]? = some (some v)) := by
  obtain ⟨a, l, rfl⟩ : ∃ a l, t = a :: l := by
    rcases t with _ | ⟨a, l⟩
    · exact absurd (List.length_eq_zero_iff.1 hl) hne
    · exact ⟨a, l, rfl⟩
  obtain ⟨b, hb⟩ : ∃ b, (a :: l).getLast? = some b := ⟨_, List.getLast?_eq_some_getLast (List.cons_ne_nil a l)⟩
  have hm : m ≠ 0 := by omega
  refine ⟨(List.range m).map fun j => coefs x (a :: l) (b - a) j, ⟨a :: l, false⟩, (List.range m).map fun j => coefs x (a :: l) 0 j, ⟨a :: l, false⟩, ?_, rfl, rfl, ?_, ?_, ?_⟩
  · simp [fourier, periodOf, hb, hm, hl]
  · simp [fourier, periodOf, hm, hl]
  · rw [List.getElem?_map, List.getElem?_range him]
    simp [coefs, hi.ne']
  · intro hd
    rw [List.getElem?_map, List.getElem?_range him]
    have hba : b - a ≠ 0 := by
      intro h
      apply hd
      rw [hb]
      simp [sub_eq_zero.1 h]
    simp [coefs, hi.ne', hba]

/-- C226: for a fraction with positive numerator below the limit, the text for the opposite number is the text with a minus sign in front. -/
theorem C226_neg_partial (q : ℚ) (hq : 0 < q.num) (f f' : String) (nmax dmax : ℤ) (hn : q.num < nmax) (hd : (q.den : ℤ) < dmax) :
    num2pistr (-q) f' nmax dmax = "-" ++ num2pistr q f nmax dmax := by
  obtain ⟨k, hk⟩ : ∃ k : ℕ, q.num = (k : ℤ) + 1 := ⟨(q.num - 1).toNat, by omega⟩
  have h1 : (-q).num = -q.num := Rat.neg_num q
  have h2 : (-q).den = q.den := Rat.neg_den q
  unfold num2pistr
  rw [h1, h2, if_pos ⟨hd, by omega, by omega⟩, if_pos ⟨hd, hn, by omega⟩]
  have h3 : numText (-q.num) = "-" ++ numText q.num := by
    unfold numText
    rw [Int.natAbs_neg]
    by_cases h : q.num.natAbs = 1
    · have : q.num = 1 := by omega
      rw [this]
      decide
    · rw [if_neg h, if_neg h, hk]
      rw [show -((k : ℤ) + 1) = Int.negSucc k by omega]
      rfl
  rw [h3, String.append_assoc, String.append_assoc, String.append_assoc]

/-- C226: the limit for the numerator is not applied to its absolute value: `-100 pi` is written `-100\pi`, but `100 pi` as a decimal number. -/
theorem C226_large_refuted (f f' : String) : num2pistr (-100) f' 10 10 = "-100\\pi" ∧ num2pistr 100 f 10 10 = f := by
  constructor
  · have h : (-100 : ℚ).num = -100 ∧ (-100 : ℚ).den = 1 := by decide +kernel
    unfold num2pistr
    rw [h.1, h.2, if_pos (by decide)]
    decide +kernel
  · rfl

example : num2pistr (3 / 4) "2.36" 10 10 = "3\\pi/4" ∧ num2pistr (-1 / 4) "-0.785" 10 10 = "-\\pi/4" := by decide +kernel
example : signal (fun i => if i = 0 then 2 else 0) (fun i => if i = 1 then 1 else 0) 1 (2 * Real.pi) (Real.pi / 2) = 2 := by
  have : (2 : ℝ) * Real.pi * (Real.pi / 2) / (2 * Real.pi) = Real.pi / 2 := by
    have := Real.pi_ne_zero
    field_simp
  norm_num [signal, this]

end Wafo.Fourier

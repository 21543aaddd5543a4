import Mathlib.Data.List.GetD
import Verif.Cov.Sim

/-! Property C180: simulation of a Gaussian process from its covariance function. -/

set_option linter.unusedSectionVars false

namespace Wafo.Cov
open Finset RealInnerProductSpace

noncomputable section

/-! ### Specification -/

/-- Independent standard normal random numbers, as far as expectations of products go. -/
structure White {V : Type} [NormedAddCommGroup V] [InnerProductSpace ℝ V] (a b : ℕ → ℕ → V) : Prop where
  aa : ∀ k c l d, ⟪a k c, a l d⟫ = if k = l ∧ c = d then 1 else 0
  bb : ∀ k c l d, ⟪b k c, b l d⟫ = if k = l ∧ c = d then 1 else 0
  ab : ∀ k c l d, ⟪a k c, b l d⟫ = 0

/-- The spectral density of the covariances `r 0, ..., r (n - 1)` at the frequency `w`, up to a factor. -/
def densityOf (r : ℕ → ℝ) (n : ℕ) (w : ℝ) : ℝ := r 0 + 2 * ∑ j ∈ range (n - 1), r (j + 1) * Real.cos (w * ((j + 1 : ℕ) : ℝ))

/-- The density is positive and nowhere smaller than 1e-5 times its largest value. -/
def Flat (f : ℝ → ℝ) : Prop := (∀ w, 0 < f w) ∧ ∀ v w, 1 / 10 ^ 5 * f v ≤ f w

/-- The value in row `i` and column `c` of the result. -/
def SimOut.at {V : Type} (o : SimOut V) (i c : ℕ) : Option V := (o.rows[i]?).bind fun r => r[c]?

/-! ### Lemmas -/

/-- The model of the linear operations on random numbers is the transform that the program computes. -/
theorem outRe_fft (n : ℕ) (s : ℕ → ℝ) (a b : ℕ → ℝ) (j : ℕ) :
    outRe n s a b j = (∑ k ∈ range n, ((a k : ℂ) + Complex.I * b k) * Real.sqrt (s k / n) *
      Complex.exp (-(2 * Real.pi * k * j / n : ℝ) * Complex.I)).re ∧
    outIm n s a b j = (∑ k ∈ range n, ((a k : ℂ) + Complex.I * b k) * Real.sqrt (s k / n) *
      Complex.exp (-(2 * Real.pi * k * j / n : ℝ) * Complex.I)).im := by
  constructor
  · unfold outRe
    rw [Complex.re_sum]
    refine sum_congr rfl fun k _ => ?_
    rw [Complex.mul_re, exp_re, exp_im]
    simp
    ring
  · unfold outIm
    rw [Complex.im_sum]
    refine sum_congr rfl fun k _ => ?_
    rw [Complex.mul_im, exp_re, exp_im]
    simp
    ring

theorem inner_comb {V : Type} [NormedAddCommGroup V] [InnerProductSpace ℝ V] {a b : ℕ → ℕ → V} (hw : White a b) (n : ℕ)
    (p q p' q' : ℕ → ℝ) (c d : ℕ) :
    ⟪∑ k ∈ range n, (p k • a k c + q k • b k c), ∑ k ∈ range n, (p' k • a k d + q' k • b k d)⟫ =
      if c = d then ∑ k ∈ range n, (p k * p' k + q k * q' k) else 0 := by
  have hba : ∀ k c l d, ⟪b k c, a l d⟫ = 0 := fun k c l d => by rw [real_inner_comm]; exact hw.ab l d k c
  rw [sum_inner]
  have h : ∀ k ∈ range n, ⟪p k • a k c + q k • b k c, ∑ l ∈ range n, (p' l • a l d + q' l • b l d)⟫ =
      if c = d then p k * p' k + q k * q' k else 0 := by
    intro k hk
    rw [inner_sum]
    have h2 : ∀ l ∈ range n, ⟪p k • a k c + q k • b k c, p' l • a l d + q' l • b l d⟫ =
        if k = l then (if c = d then p k * p' k + q k * q' k else 0) else 0 := by
      intro l _
      simp only [inner_add_left, inner_add_right, real_inner_smul_left, real_inner_smul_right, hw.aa, hw.bb, hw.ab, hba]
      by_cases h1 : k = l
      · subst h1
        by_cases h2 : c = d
        · simp [h2]; ring
        · simp [h2]
      · simp [h1]
    rw [sum_congr rfl h2, sum_ite_eq, if_pos hk]
  rw [sum_congr rfl h]
  split <;> simp

theorem out_re_re {V : Type} [NormedAddCommGroup V] [InnerProductSpace ℝ V] {a b : ℕ → ℕ → V} (hw : White a b) (n : ℕ)
    (s : ℕ → ℝ) (hs : ∀ k < n, 0 ≤ s k) (c d i j : ℕ) :
    ⟪outRe n s (fun k => a k c) (fun k => b k c) i, outRe n s (fun k => a k d) (fun k => b k d) j⟫ =
      if c = d then (∑ k ∈ range n, s k * Real.cos (2 * Real.pi * k * ((i : ℝ) - j) / n)) / n else 0 := by
  unfold outRe
  rw [inner_comb hw]
  split
  · rw [sum_div]
    refine sum_congr rfl fun k hk => ?_
    have h1 : Real.sqrt (s k / n) * Real.sqrt (s k / n) = s k / n :=
      Real.mul_self_sqrt (div_nonneg (hs k (mem_range.1 hk)) (by positivity))
    rw [show 2 * Real.pi * (k : ℝ) * ((i : ℝ) - j) / n = 2 * Real.pi * k * i / n - 2 * Real.pi * k * j / n by ring, Real.cos_sub]
    linear_combination (Real.cos (2 * Real.pi * k * i / n) * Real.cos (2 * Real.pi * k * j / n) +
      Real.sin (2 * Real.pi * k * i / n) * Real.sin (2 * Real.pi * k * j / n)) * h1
  · rfl

theorem out_im_eq {V : Type} [AddCommGroup V] [Module ℝ V] (n : ℕ) (s : ℕ → ℝ) (a b : ℕ → V) (j : ℕ) :
    outIm n s a b j = ∑ k ∈ range n, ((-(Real.sqrt (s k / n) * Real.sin (2 * Real.pi * k * j / n))) • a k +
      (Real.sqrt (s k / n) * Real.cos (2 * Real.pi * k * j / n)) • b k) := by
  unfold outIm
  refine sum_congr rfl fun k _ => ?_
  rw [neg_smul]
  abel

theorem out_im_im {V : Type} [NormedAddCommGroup V] [InnerProductSpace ℝ V] {a b : ℕ → ℕ → V} (hw : White a b) (n : ℕ)
    (s : ℕ → ℝ) (hs : ∀ k < n, 0 ≤ s k) (c d i j : ℕ) :
    ⟪outIm n s (fun k => a k c) (fun k => b k c) i, outIm n s (fun k => a k d) (fun k => b k d) j⟫ =
      if c = d then (∑ k ∈ range n, s k * Real.cos (2 * Real.pi * k * ((i : ℝ) - j) / n)) / n else 0 := by
  rw [out_im_eq, out_im_eq, inner_comb hw]
  split
  · rw [sum_div]
    refine sum_congr rfl fun k hk => ?_
    have h1 : Real.sqrt (s k / n) * Real.sqrt (s k / n) = s k / n :=
      Real.mul_self_sqrt (div_nonneg (hs k (mem_range.1 hk)) (by positivity))
    rw [show 2 * Real.pi * (k : ℝ) * ((i : ℝ) - j) / n = 2 * Real.pi * k * i / n - 2 * Real.pi * k * j / n by ring, Real.cos_sub]
    linear_combination (Real.cos (2 * Real.pi * k * i / n) * Real.cos (2 * Real.pi * k * j / n) +
      Real.sin (2 * Real.pi * k * i / n) * Real.sin (2 * Real.pi * k * j / n)) * h1
  · rfl

theorem out_re_im {V : Type} [NormedAddCommGroup V] [InnerProductSpace ℝ V] {a b : ℕ → ℕ → V} (hw : White a b) (n : ℕ)
    (s : ℕ → ℝ) (hs : ∀ k < n, 0 ≤ s k) (c d i j : ℕ) :
    ⟪outRe n s (fun k => a k c) (fun k => b k c) i, outIm n s (fun k => a k d) (fun k => b k d) j⟫ =
      if c = d then (∑ k ∈ range n, s k * Real.sin (2 * Real.pi * k * ((i : ℝ) - j) / n)) / n else 0 := by
  unfold outRe
  rw [out_im_eq, inner_comb hw]
  split
  · rw [sum_div]
    refine sum_congr rfl fun k hk => ?_
    have h1 : Real.sqrt (s k / n) * Real.sqrt (s k / n) = s k / n :=
      Real.mul_self_sqrt (div_nonneg (hs k (mem_range.1 hk)) (by positivity))
    rw [show 2 * Real.pi * (k : ℝ) * ((i : ℝ) - j) / n = 2 * Real.pi * k * i / n - 2 * Real.pi * k * j / n by ring, Real.sin_sub]
    linear_combination (Real.sin (2 * Real.pi * k * i / n) * Real.cos (2 * Real.pi * k * j / n) -
      Real.cos (2 * Real.pi * k * i / n) * Real.sin (2 * Real.pi * k * j / n)) * h1
  · rfl

/-- The inverse transform of the real part of the transform. -/
theorem re_inverse (N : ℕ) (v : List ℝ) (d : ℕ) (hd : d < N) :
    (∑ k ∈ range N, (fft N (toC v) k).re * Real.cos (2 * Real.pi * k * d / N)) / N =
      (v.getD d 0 + v.getD (if d = 0 then 0 else N - d) 0) / 2 := by
  have hN : 0 < N := by omega
  have hN' : (N : ℝ) ≠ 0 := by exact_mod_cast hN.ne'
  have h1 : ∑ k ∈ range N, (fft N (toC v) k).re * Real.cos (2 * Real.pi * k * d / N) =
      ∑ m ∈ range N, v.getD m 0 * (((if m = d then (N : ℝ) else 0) + (if m = (if d = 0 then 0 else N - d) then (N : ℝ) else 0)) / 2) := by
    simp only [fft_re, sum_mul]
    rw [sum_comm]
    refine sum_congr rfl fun m hm => ?_
    have hm' := mem_range.1 hm
    have h := sum_cos_cos N hN (m : ℤ) (d : ℤ)
    simp only [Int.cast_natCast] at h
    have e1 : ((N : ℤ) ∣ (m : ℤ) - d) ↔ m = d := by
      constructor
      · intro h
        have := Int.eq_zero_of_abs_lt_dvd h (by rw [abs_lt]; omega)
        omega
      · rintro rfl; simp
    have e2 : ((N : ℤ) ∣ (m : ℤ) + d) ↔ m = (if d = 0 then 0 else N - d) := by
      constructor
      · intro h
        have h' : N ∣ m + d := by exact_mod_cast h
        obtain ⟨q, hq⟩ := h'
        rcases q with _ | _ | q
        · split <;> omega
        · split <;> omega
        · exfalso
          have : N * (q + 1 + 1) = N * q + (N + N) := by ring
          rw [this] at hq
          have : 0 ≤ N * q := Nat.zero_le _
          omega
      · intro hmd
        split at hmd
        · next h0 => rw [h0, hmd]; simp
        · refine ⟨1, ?_⟩
          omega
    simp only [e1, e2] at h
    rw [← h, mul_sum]
    refine sum_congr rfl fun k _ => ?_
    rw [show 2 * Real.pi * (k : ℝ) * d / N = 2 * Real.pi * d * k / N by ring]
    ring
  rw [h1]
  have h2 : ∀ m, v.getD m 0 * (((if m = d then (N : ℝ) else 0) + (if m = (if d = 0 then 0 else N - d) then (N : ℝ) else 0)) / 2) =
      (if m = d then v.getD m 0 * N / 2 else 0) + (if m = (if d = 0 then 0 else N - d) then v.getD m 0 * N / 2 else 0) := by
    intro m
    generalize (if d = 0 then 0 else N - d) = D
    split_ifs <;> ring
  simp only [h2]
  rw [sum_add_distrib, sum_ite_eq', sum_ite_eq', if_pos (mem_range.2 hd), if_pos (mem_range.2 (by split <;> omega))]
  field_simp

theorem re_sin_zero (N : ℕ) (v : List ℝ) (t : ℝ) (hN : 0 < N) (ht : ∃ q : ℤ, t = q) :
    ∑ k ∈ range N, (fft N (toC v) k).re * Real.sin (2 * Real.pi * k * t / N) = 0 := by
  obtain ⟨q, rfl⟩ := ht
  simp only [fft_re, sum_mul]
  rw [sum_comm]
  refine sum_eq_zero fun m _ => ?_
  have h1 := sum_sin N hN ((m : ℤ) + q)
  have h2 := sum_sin N hN (q - (m : ℤ))
  have e : ∀ k ∈ range N, v.getD m 0 * Real.cos (2 * Real.pi * m * k / N) * Real.sin (2 * Real.pi * k * q / N) =
      v.getD m 0 / 2 * Real.sin (2 * Real.pi * ((m : ℤ) + q : ℤ) * k / N) +
      v.getD m 0 / 2 * Real.sin (2 * Real.pi * (q - (m : ℤ) : ℤ) * k / N) := by
    intro k _
    push_cast
    rw [show 2 * Real.pi * ((m : ℝ) + q) * k / N = 2 * Real.pi * m * k / N + 2 * Real.pi * k * q / N by ring,
      show 2 * Real.pi * ((q : ℝ) - m) * k / N = 2 * Real.pi * k * q / N - 2 * Real.pi * m * k / N by ring,
      Real.sin_add, Real.sin_sub]
    ring
  rw [sum_congr rfl e, sum_add_distrib, ← mul_sum, ← mul_sum, h1, h2]
  simp

theorem simSpec_flat (n : ℕ) (p : ℕ → ℝ) (h0 : ∀ k, 0 < p k) (h1 : ∀ k l, 1 / 10 ^ 5 * p k ≤ p l) (k : ℕ) :
    simSpec n p k = p k := by
  have hc : ∀ k, simClip n p k = p k := by
    intro k
    unfold simClip
    have : (List.range n).find? (fun k => decide (2 * peak n p < k ∧ p k < 0)) = none := by
      rw [List.find?_eq_none]
      intro x _
      simp only [decide_eq_true_eq, not_and, not_lt]
      intro _
      exact (h0 x).le
    rw [this]
    simp only []
    rw [if_neg (not_lt.2 (h0 k).le)]
  unfold simSpec
  rw [if_neg]
  · exact hc k
  · rintro ⟨_, _, _, h⟩
    rw [hc, hc] at h
    have := h1 (peak n p) k
    linarith

theorem sim_ok {V : Type} [AddCommGroup V] [Module ℝ V] (acf : Acf) (hv : validAcf acf.data) (ha : 2 ≤ acf.args.length)
    (ns cases : ℕ) (dt : Option ℝ) (a b : ℕ → ℕ → V) (hn : ns + 2 ≤ simNfft acf.data ns) :
    sim acf (some ns) cases dt false a b = .ok { times := (List.range ns).map fun k : ℕ => (k : ℝ) * covPeriod acf
                                                 rows := (List.range ns).map fun j =>
        ((List.range ((cases + 1) / 2)).map fun c => outRe (simNfft acf.data ns) (simSpec (simNfft acf.data ns) (simPer acf.data ns))
          (fun k => a k c) (fun k => b k c) (j + 2)) ++
        ((List.range (cases / 2)).map fun c => outIm (simNfft acf.data ns) (simSpec (simNfft acf.data ns) (simPer acf.data ns))
          (fun k => a k c) (fun k => b k c) (j + 2)) } := by
  unfold sim
  rw [if_neg (not_not.2 hv), if_neg (by omega)]
  simp only []
  rw [if_neg (by omega)]
  simp

/-- The values of the result in column `c`. -/
theorem rows_at {V : Type} (ns cases : ℕ) (f g : ℕ → ℕ → V) (t : List ℝ) (i c : ℕ) (x : V)
    (h : (SimOut.mk t ((List.range ns).map fun j => ((List.range ((cases + 1) / 2)).map fun c => f c j) ++
      ((List.range (cases / 2)).map fun c => g c j))).at i c = some x) :
    i < ns ∧ ((c < (cases + 1) / 2 ∧ x = f c i) ∨ ((cases + 1) / 2 ≤ c ∧ x = g (c - (cases + 1) / 2) i)) := by
  unfold SimOut.at at h
  by_cases hi : i < ns
  · refine ⟨hi, ?_⟩
    simp only [List.getElem?_map, List.getElem?_range hi, Option.map_some, Option.bind_some] at h
    by_cases hc : c < (cases + 1) / 2
    · left
      rw [List.getElem?_append_left (by simpa using hc), List.getElem?_map, List.getElem?_range hc] at h
      exact ⟨hc, (Option.some.inj h).symm⟩
    · right
      rw [List.getElem?_append_right (by simpa using hc), List.length_map, List.length_range, List.getElem?_map] at h
      by_cases hc2 : c - (cases + 1) / 2 < cases / 2
      · rw [List.getElem?_range hc2] at h
        exact ⟨by omega, (Option.some.inj h).symm⟩
      · rw [List.getElem?_eq_none (by simpa using hc2)] at h
        exact absurd h (by simp)
  · rw [List.getElem?_eq_none (by simpa using hi)] at h
    exact absurd h (by simp)

/-- The covariances of the result, whatever the circulant vector, if nothing is truncated. -/
theorem sim_cov {V : Type} [NormedAddCommGroup V] [InnerProductSpace ℝ V] {a b : ℕ → ℕ → V} (hw : White a b) (acf : Acf)
    (hv : validAcf acf.data) (ha : 2 ≤ acf.args.length) (ns cases : ℕ) (dt : Option ℝ) (hn : ns + 2 ≤ simNfft acf.data ns)
    (h2 : 2 * ns ≤ simNfft acf.data ns)
    (h0 : ∀ k, 0 < simPer acf.data ns k) (h1 : ∀ k l, 1 / 10 ^ 5 * simPer acf.data ns k ≤ simPer acf.data ns l) :
    ∃ out, sim acf (some ns) cases dt false a b = .ok out ∧
      out.times = (List.range ns).map (fun k : ℕ => (k : ℝ) * covPeriod acf) ∧
      out.rows.length = ns ∧ (∀ r ∈ out.rows, r.length = cases) ∧
      ∀ i j c d x y, out.at i c = some x → out.at (i + j) d = some y →
        ⟪x, y⟫ = if c = d then ((simVec acf.data ns).getD j 0 +
          (simVec acf.data ns).getD (if j = 0 then 0 else simNfft acf.data ns - j) 0) / 2 else 0 := by
  set N := simNfft acf.data ns with hN
  refine ⟨_, sim_ok acf hv ha ns cases dt a b hn, rfl, by simp, ?_, ?_⟩
  · intro r hr
    simp only [List.mem_map] at hr
    obtain ⟨j, _, rfl⟩ := hr
    simp
    omega
  · have hs : ∀ k, simSpec N (simPer acf.data ns) k = simPer acf.data ns k := simSpec_flat N _ h0 h1
    have hs' : ∀ k < N, 0 ≤ simSpec N (simPer acf.data ns) k := fun k _ => by rw [hs]; exact (h0 k).le
    intro i j c d x y hx hy
    obtain ⟨hi, hx⟩ := rows_at ns cases (fun c j => outRe N (simSpec N (simPer acf.data ns)) (fun k => a k c) (fun k => b k c) (j + 2))
      (fun c j => outIm N (simSpec N (simPer acf.data ns)) (fun k => a k c) (fun k => b k c) (j + 2)) _ i c x hx
    obtain ⟨hj, hy⟩ := rows_at ns cases (fun c j => outRe N (simSpec N (simPer acf.data ns)) (fun k => a k c) (fun k => b k c) (j + 2))
      (fun c j => outIm N (simSpec N (simPer acf.data ns)) (fun k => a k c) (fun k => b k c) (j + 2)) _ (i + j) d y hy
    have hcos : (∑ k ∈ range N, simSpec N (simPer acf.data ns) k *
        Real.cos (2 * Real.pi * k * (((i + 2 : ℕ) : ℝ) - ((i + j + 2 : ℕ) : ℝ)) / N)) / N =
        ((simVec acf.data ns).getD j 0 + (simVec acf.data ns).getD (if j = 0 then 0 else N - j) 0) / 2 := by
      rw [← re_inverse N _ j (by omega)]
      congr 1
      refine sum_congr rfl fun k _ => ?_
      rw [hs]
      unfold simPer
      rw [show 2 * Real.pi * (k : ℝ) * (((i + 2 : ℕ) : ℝ) - ((i + j + 2 : ℕ) : ℝ)) / N = -(2 * Real.pi * k * j / N) by push_cast; ring,
        Real.cos_neg]
    have hsin : ∀ i j : ℕ, ∑ k ∈ range N, simSpec N (simPer acf.data ns) k *
        Real.sin (2 * Real.pi * k * ((i : ℝ) - (j : ℝ)) / N) = 0 := by
      intro i j
      simp only [hs]
      exact re_sin_zero N _ _ (by omega) ⟨(i : ℤ) - j, by push_cast; rfl⟩
    rcases hx with ⟨hc, rfl⟩ | ⟨hc, rfl⟩ <;> rcases hy with ⟨hd, rfl⟩ | ⟨hd, rfl⟩
    · rw [out_re_re hw N _ hs', hcos]
    · rw [out_re_im hw N _ hs', hsin, if_neg (by omega : ¬ c = d)]
      simp
    · rw [real_inner_comm, out_re_im hw N _ hs', hsin, if_neg (by omega : ¬ c = d)]
      simp
    · rw [out_im_im hw N _ hs', hcos]
      by_cases hcd : c = d
      · rw [if_pos hcd, if_pos (by omega)]
      · rw [if_neg hcd, if_neg (by omega)]

/-- The sum over a vector with a part in front, zeros and a part at the end. -/
theorem sum_parts (x y : List ℝ) (z N : ℕ) (hN : N = x.length + z + y.length) (f : ℕ → ℝ) :
    ∑ m ∈ range N, (x ++ List.replicate z 0 ++ y).getD m 0 * f m =
      ∑ m ∈ range x.length, x.getD m 0 * f m + ∑ m ∈ range y.length, y.getD m 0 * f (x.length + z + m) := by
  rw [hN, sum_range_add, sum_range_add]
  have e1 : ∑ m ∈ range x.length, (x ++ List.replicate z 0 ++ y).getD m 0 * f m = ∑ m ∈ range x.length, x.getD m 0 * f m := by
    refine sum_congr rfl fun m hm => ?_
    have := mem_range.1 hm
    rw [List.append_assoc, List.getD_append _ _ _ _ this]
  have e2 : ∑ m ∈ range z, (x ++ List.replicate z 0 ++ y).getD (x.length + m) 0 * f (x.length + m) = 0 := by
    refine sum_eq_zero fun m hm => ?_
    have := mem_range.1 hm
    rw [List.append_assoc, List.getD_append_right _ _ _ _ (by omega), List.getD_append _ _ _ _ (by simp; omega)]
    rw [List.getD_eq_getElem?_getD, List.getElem?_replicate, if_pos (by omega)]
    simp
  have e3 : ∑ m ∈ range y.length, (x ++ List.replicate z 0 ++ y).getD (x.length + z + m) 0 * f (x.length + z + m) =
      ∑ m ∈ range y.length, y.getD m 0 * f (x.length + z + m) := by
    refine sum_congr rfl fun m _ => ?_
    rw [List.getD_append_right _ _ _ _ (by simp), List.length_append, List.length_replicate,
      show x.length + z + m - (x.length + z) = m by omega]
  rw [e1, e2, e3, add_zero]

theorem getD_reverse_drop (x : List ℝ) (p m : ℕ) (hm : m + p < x.length) :
    ((x.drop p).reverse).getD m 0 = x.getD (x.length - 1 - m) 0 := by
  rw [List.getD_eq_getElem?_getD, List.getD_eq_getElem?_getD, List.getElem?_reverse (by simp; omega), List.getElem?_drop]
  congr 2
  simp
  omega

theorem simNfft_le (acf : List ℝ) (ns : ℕ) (h : 1 ≤ ns) :
    2 * ns ≤ simNfft acf ns ∧ 2 * acf.length - 2 ≤ simNfft acf ns ∧
    (floatEps < |lastOf acf| → 2 * acf.length - 1 ≤ simNfft acf ns) ∧ 2 ∣ simNfft acf ns := by
  have hp := le_pow2 (max (if floatEps < |lastOf acf| then 2 * acf.length - 1 else 2 * acf.length - 2) (2 * ns))
    (by have := le_max_right (if floatEps < |lastOf acf| then 2 * acf.length - 1 else 2 * acf.length - 2) (2 * ns); omega)
  have h1 := le_max_right (if floatEps < |lastOf acf| then 2 * acf.length - 1 else 2 * acf.length - 2) (2 * ns)
  have h2 := le_max_left (if floatEps < |lastOf acf| then 2 * acf.length - 1 else 2 * acf.length - 2) (2 * ns)
  refine ⟨h1.trans hp, ?_, ?_, pow2_even _ (by omega)⟩
  · refine le_trans ?_ (h2.trans hp)
    split <;> omega
  · intro h
    rw [if_pos h] at h2 hp
    have e : simNfft acf ns = pow2 (max (2 * acf.length - 1) (2 * ns)) := by unfold simNfft; rw [if_pos h]
    rw [e]
    exact h2.trans hp

/-- The periodogram is the density of the symmetric part. -/
theorem simPer_eq (acf : List ℝ) (ns : ℕ) (hl : 2 ≤ acf.length) (hns : 1 ≤ ns) (k : ℕ) :
    (floatEps < |lastOf acf| →
      simPer acf ns k = densityOf (fun j => acf.getD j 0) acf.length (2 * Real.pi * k / simNfft acf ns)) ∧
    (¬ floatEps < |lastOf acf| →
      simPer acf ns k = densityOf (fun j => if j = 0 then acf.getD 0 0 else (acf.getD j 0 + acf.getD (j + 1) 0) / 2) acf.length
        (2 * Real.pi * k / simNfft acf ns)) := by
  obtain ⟨hN2, hN1, hN3, hev⟩ := simNfft_le acf ns hns
  set N := simNfft acf ns with hN
  obtain ⟨n, hn⟩ : ∃ n, acf.length = n + 2 := ⟨acf.length - 2, by omega⟩
  have hcos : ∀ j : ℕ, Real.cos (2 * Real.pi * k / N * (j : ℝ)) = Real.cos (2 * Real.pi * j * k / N) := by
    intro j; congr 1; ring
  constructor
  · intro h
    have h3 := hN3 h
    unfold simPer densityOf
    rw [← hN, fft_re]
    have e : simVec acf ns = acf ++ List.replicate (N - (2 * acf.length - 1)) 0 ++ (acf.drop 1).reverse := by
      unfold simVec; rw [if_pos h]
    rw [e, sum_parts _ _ _ N (by simp; omega)]
    have e2 : ∑ m ∈ range (acf.drop 1).reverse.length, (acf.drop 1).reverse.getD m 0 *
        Real.cos (2 * Real.pi * ((acf.length + (N - (2 * acf.length - 1)) + m : ℕ) : ℝ) * k / N) =
        ∑ j ∈ range (n + 1), acf.getD (j + 1) 0 * Real.cos (2 * Real.pi * ((j + 1 : ℕ) : ℝ) * k / N) := by
      rw [show (acf.drop 1).reverse.length = n + 1 by simp; omega]
      rw [← sum_range_reflect]
      refine sum_congr rfl fun j hj => ?_
      have := mem_range.1 hj
      rw [getD_reverse_drop _ _ _ (by omega), show acf.length - 1 - (n + 1 - 1 - j) = j + 1 by omega]
      rw [show acf.length + (N - (2 * acf.length - 1)) + (n + 1 - 1 - j) = N - (j + 1) by omega,
        cos_reflect N (by omega) (j + 1) k (by omega)]
    rw [e2, hn, sum_range_succ' _ (n + 1), show n + 2 - 1 = n + 1 by omega]
    simp only [hcos]
    simp
    ring
  · intro h
    unfold simPer densityOf
    rw [← hN, fft_re]
    have e : simVec acf ns = acf ++ List.replicate (N - (2 * acf.length - 2)) 0 ++ (acf.drop 2).reverse := by
      unfold simVec; rw [if_neg h]
    rw [e, sum_parts _ _ _ N (by simp; omega)]
    have e2 : ∑ m ∈ range (acf.drop 2).reverse.length, (acf.drop 2).reverse.getD m 0 *
        Real.cos (2 * Real.pi * ((acf.length + (N - (2 * acf.length - 2)) + m : ℕ) : ℝ) * k / N) =
        ∑ j ∈ range n, acf.getD (j + 2) 0 * Real.cos (2 * Real.pi * ((j + 1 : ℕ) : ℝ) * k / N) := by
      rw [show (acf.drop 2).reverse.length = n by simp; omega]
      rw [← sum_range_reflect]
      refine sum_congr rfl fun j hj => ?_
      have := mem_range.1 hj
      rw [getD_reverse_drop _ _ _ (by omega), show acf.length - 1 - (n - 1 - j) = j + 2 by omega]
      rw [show acf.length + (N - (2 * acf.length - 2)) + (n - 1 - j) = N - (j + 1) by omega,
        cos_reflect N (by omega) (j + 1) k (by omega)]
    rw [e2, hn, sum_range_succ' _ (n + 1), show n + 2 - 1 = n + 1 by omega]
    simp only [hcos]
    have e3 : ∑ j ∈ range (n + 1), (if j + 1 = 0 then acf.getD 0 0 else (acf.getD (j + 1) 0 + acf.getD (j + 1 + 1) 0) / 2) *
        Real.cos (2 * Real.pi * ((j + 1 : ℕ) : ℝ) * k / N) =
        (∑ j ∈ range (n + 1), acf.getD (j + 1) 0 * Real.cos (2 * Real.pi * ((j + 1 : ℕ) : ℝ) * k / N) +
          ∑ j ∈ range n, acf.getD (j + 2) 0 * Real.cos (2 * Real.pi * ((j + 1 : ℕ) : ℝ) * k / N)) / 2 := by
      have hz : acf.getD (n + 2) 0 = 0 := by
        rw [List.getD_eq_getElem?_getD, List.getElem?_eq_none (by omega)]; rfl
      have : ∑ j ∈ range n, acf.getD (j + 2) 0 * Real.cos (2 * Real.pi * ((j + 1 : ℕ) : ℝ) * k / N) =
          ∑ j ∈ range (n + 1), acf.getD (j + 2) 0 * Real.cos (2 * Real.pi * ((j + 1 : ℕ) : ℝ) * k / N) := by
        rw [sum_range_succ, hz]; ring
      rw [this, ← sum_add_distrib, sum_div]
      refine sum_congr rfl fun j _ => ?_
      rw [if_neg (by omega)]
      ring
    rw [e3]
    simp
    ring

theorem simVec_get (acf : List ℝ) (ns : ℕ) (hl : 2 ≤ acf.length) (hns : 1 ≤ ns) (j : ℕ) (hj : j < ns) :
    (floatEps < |lastOf acf| →
      ((simVec acf ns).getD j 0 + (simVec acf ns).getD (if j = 0 then 0 else simNfft acf ns - j) 0) / 2 = acf.getD j 0) ∧
    (¬ floatEps < |lastOf acf| → 1 ≤ j → j + 1 < acf.length →
      ((simVec acf ns).getD j 0 + (simVec acf ns).getD (if j = 0 then 0 else simNfft acf ns - j) 0) / 2 =
        (acf.getD j 0 + acf.getD (j + 1) 0) / 2) := by
  obtain ⟨hN2, hN1, hN3, hev⟩ := simNfft_le acf ns hns
  have hrep : ∀ z m : ℕ, (List.replicate z (0 : ℝ)).getD m 0 = 0 := by
    intro z m
    rw [List.getD_eq_getElem?_getD, List.getElem?_replicate]
    split <;> rfl
  have hout : ∀ (l : List ℝ) m, l.length ≤ m → l.getD m 0 = 0 := by
    intro l m h
    rw [List.getD_eq_getElem?_getD, List.getElem?_eq_none h]; rfl
  constructor
  · intro h
    have h3 := hN3 h
    have e : simVec acf ns = acf ++ (List.replicate (simNfft acf ns - (2 * acf.length - 1)) 0 ++ (acf.drop 1).reverse) := by
      unfold simVec; rw [if_pos h, List.append_assoc]
    have h1 : (simVec acf ns).getD j 0 = acf.getD j 0 := by
      rw [e]
      by_cases hjl : j < acf.length
      · rw [List.getD_append _ _ _ _ hjl]
      · rw [List.getD_append_right _ _ _ _ (by omega), List.getD_append _ _ _ _ (by simp; omega), hrep, hout _ _ (by omega)]
    have h2 : (simVec acf ns).getD (if j = 0 then 0 else simNfft acf ns - j) 0 = acf.getD j 0 := by
      split
      · next h0 => rw [← h0]; exact h1
      · rw [e, List.getD_append_right _ _ _ _ (by omega)]
        by_cases hjl : j < acf.length
        · rw [List.getD_append_right _ _ _ _ (by simp; omega), List.length_replicate, getD_reverse_drop _ _ _ (by omega)]
          congr 1
          omega
        · rw [List.getD_append _ _ _ _ (by simp; omega), hrep, hout _ _ (by omega)]
    rw [h1, h2]
    ring
  · intro h h1 h2
    have e : simVec acf ns = acf ++ (List.replicate (simNfft acf ns - (2 * acf.length - 2)) 0 ++ (acf.drop 2).reverse) := by
      unfold simVec; rw [if_neg h, List.append_assoc]
    rw [e, List.getD_append _ _ _ _ (by omega), if_neg (by omega), List.getD_append_right _ _ _ _ (by omega),
      List.getD_append_right _ _ _ _ (by simp; omega), List.length_replicate, getD_reverse_drop _ _ _ (by omega)]
    congr 3
    omega

/-! ### Properties -/

/-- The simulated process has the covariances of the covariance function, and the columns are uncorrelated, if the last covariance is not
zero and the spectral density is positive and nowhere below 1e-5 of its maximum.  Covariances beyond the last lag are zero. -/
theorem C180_exact_partial {V : Type} [NormedAddCommGroup V] [InnerProductSpace ℝ V] {a b : ℕ → ℕ → V} (hw : White a b)
    (acf : Acf) (n : ℕ) (d : ℝ) (g : OnLags acf n d) (hmax : ∀ v ∈ acf.data, v ≤ acf.data.getD 0 0)
    (hlast : 1 / 2 ^ 52 < |acf.data.getD (n - 1) 0|)
    (hf : Flat (densityOf (fun j => acf.data.getD j 0) n)) (ns cases : ℕ) (hns : 1 ≤ ns) (dt : Option ℝ) :
    ∃ out, sim acf (some ns) cases dt false a b = .ok out ∧
      out.times = (List.range ns).map (fun k : ℕ => (k : ℝ) * d) ∧
      out.rows.length = ns ∧ (∀ r ∈ out.rows, r.length = cases) ∧
      ∀ i j c e x y, out.at i c = some x → out.at (i + j) e = some y → ⟪x, y⟫ = if c = e then acf.data.getD j 0 else 0 := by
  have h2 := g.two
  have hd := g.data
  have hv : validAcf acf.data := by
    cases hdt : acf.data with
    | nil => rw [hdt] at hd; simp at hd; omega
    | cons x l =>
      intro v hv
      have := hmax v (by rw [hdt]; exact List.mem_cons_of_mem _ hv)
      rw [hdt] at this
      simpa using this
  have hl : floatEps < |lastOf acf.data| := by
    unfold lastOf floatEps
    rw [List.getLastD_eq_getLast?, List.getLast?_eq_getElem?, hd, ← List.getD_eq_getElem?_getD]
    exact hlast
  obtain ⟨hN2, _, hN3, hev⟩ := simNfft_le acf.data ns hns
  have hN3 := hN3 hl
  rw [hd] at hN3
  have hper : ∀ k, simPer acf.data ns k = densityOf (fun j => acf.data.getD j 0) n (2 * Real.pi * k / simNfft acf.data ns) := by
    intro k
    rw [(simPer_eq acf.data ns (by omega) hns k).1 hl, hd]
  obtain ⟨out, ho, ht, hr, hc, hcov⟩ := sim_cov hw acf hv (by rw [g.length]; exact h2) ns cases dt (by omega) hN2
    (fun k => by rw [hper]; exact hf.1 _) (fun k l => by rw [hper, hper]; exact hf.2 _ _)
  refine ⟨out, ho, by rw [ht, g.period], hr, hc, fun i j c e x y hx hy => ?_⟩
  rw [hcov i j c e x y hx hy]
  have hj : j < ns := by
    by_contra hc
    unfold SimOut.at at hy
    rw [List.getElem?_eq_none (by omega)] at hy
    exact absurd hy (by simp)
  rw [(simVec_get acf.data ns (by omega) hns j hj).1 hl]

example : OnLags { args := [0, 1], data := [4, 1], derivs := [], lagtype := 't' } 2 1 ∧
    1 / 2 ^ 52 < |([4, 1] : List ℝ).getD (2 - 1) 0| ∧ Flat (densityOf (fun j => ([4, 1] : List ℝ).getD j 0) 2) := by
  refine ⟨⟨by norm_num, by norm_num, by simp [List.range_succ], rfl⟩, ?_, ?_⟩
  · show (1 : ℝ) / 2 ^ 52 < |1|
    norm_num
  · have h : ∀ w, densityOf (fun j => ([4, 1] : List ℝ).getD j 0) 2 w = 4 + 2 * Real.cos w := by
      intro w; simp [densityOf]
    refine ⟨fun w => ?_, fun v w => ?_⟩
    · rw [h]; linarith [Real.neg_one_le_cos w]
    · rw [h, h]; linarith [Real.neg_one_le_cos w, Real.cos_le_one v]

/-- There are such random numbers: an orthonormal basis. -/
example : ∃ a b : ℕ → ℕ → lp (fun _ : (ℕ × ℕ) × Bool => ℝ) 2, White a b := by
  classical
  have h : ∀ i j : (ℕ × ℕ) × Bool, ⟪(lp.single 2 i (1 : ℝ) : lp (fun _ : (ℕ × ℕ) × Bool => ℝ) 2), lp.single 2 j (1 : ℝ)⟫ =
      if i = j then (1 : ℝ) else 0 := by
    intro i j
    rw [lp.inner_single_left, lp.single_apply]
    by_cases hij : i = j
    · subst hij; simp
    · rw [if_neg hij, Pi.single_eq_of_ne hij]; simp
  refine ⟨fun k c => lp.single 2 ((k, c), false) 1, fun k c => lp.single 2 ((k, c), true) 1, ⟨?_, ?_, ?_⟩⟩
  · intro k c l d; rw [h]; simp [Prod.ext_iff]
  · intro k c l d; rw [h]; simp [Prod.ext_iff]
  · intro k c l d; rw [h]; simp

/-- If the last covariance is zero, the covariance of the result at each lag is the mean of the given values at this lag and the next
one. -/
theorem C180_zero_refuted {V : Type} [NormedAddCommGroup V] [InnerProductSpace ℝ V] {a b : ℕ → ℕ → V} (hw : White a b)
    (acf : Acf) (n : ℕ) (d : ℝ) (g : OnLags acf n d) (hmax : ∀ v ∈ acf.data, v ≤ acf.data.getD 0 0)
    (hlast : acf.data.getD (n - 1) 0 = 0)
    (hf : Flat (densityOf (fun j => if j = 0 then acf.data.getD 0 0 else (acf.data.getD j 0 + acf.data.getD (j + 1) 0) / 2) n))
    (ns cases : ℕ) (hns : 2 ≤ ns) (dt : Option ℝ) :
    ∃ out, sim acf (some ns) cases dt false a b = .ok out ∧
      ∀ i j c x y, 1 ≤ j → j + 1 < n → out.at i c = some x → out.at (i + j) c = some y →
        ⟪x, y⟫ = (acf.data.getD j 0 + acf.data.getD (j + 1) 0) / 2 := by
  have h2 := g.two
  have hd := g.data
  have hv : validAcf acf.data := by
    cases hdt : acf.data with
    | nil => rw [hdt] at hd; simp at hd; omega
    | cons x l =>
      intro v hv
      have := hmax v (by rw [hdt]; exact List.mem_cons_of_mem _ hv)
      rw [hdt] at this
      simpa using this
  have hl : ¬ floatEps < |lastOf acf.data| := by
    unfold lastOf floatEps
    rw [List.getLastD_eq_getLast?, List.getLast?_eq_getElem?, hd, ← List.getD_eq_getElem?_getD, hlast]
    norm_num
  obtain ⟨hN2, hN1, _, hev⟩ := simNfft_le acf.data ns (by omega)
  have hper : ∀ k, simPer acf.data ns k = densityOf (fun j => if j = 0 then acf.data.getD 0 0 else
      (acf.data.getD j 0 + acf.data.getD (j + 1) 0) / 2) n (2 * Real.pi * k / simNfft acf.data ns) := by
    intro k
    rw [(simPer_eq acf.data ns (by omega) (by omega) k).2 hl, hd]
  obtain ⟨out, ho, ht, hr, hc, hcov⟩ := sim_cov hw acf hv (by rw [g.length]; exact h2) ns cases dt (by omega) hN2
    (fun k => by rw [hper]; exact hf.1 _) (fun k l => by rw [hper, hper]; exact hf.2 _ _)
  refine ⟨out, ho, fun i j c x y hj1 hjn hx hy => ?_⟩
  rw [hcov i j c c x y hx hy, if_pos rfl]
  have hj : j < ns := by
    by_contra hc
    unfold SimOut.at at hy
    rw [List.getElem?_eq_none (by omega)] at hy
    exact absurd hy (by simp)
  rw [(simVec_get acf.data ns (by omega) (by omega) j hj).2 hl hj1 (by omega)]

example : OnLags { args := [0, 1, 2], data := [4, 1, 0], derivs := [], lagtype := 't' } 3 1 ∧
    Flat (densityOf (fun j => if j = 0 then ([4, 1, 0] : List ℝ).getD 0 0 else
      (([4, 1, 0] : List ℝ).getD j 0 + ([4, 1, 0] : List ℝ).getD (j + 1) 0) / 2) 3) := by
  refine ⟨⟨by norm_num, by norm_num, by simp [List.range_succ], rfl⟩, ?_⟩
  have h : ∀ w, densityOf (fun j => if j = 0 then ([4, 1, 0] : List ℝ).getD 0 0 else
      (([4, 1, 0] : List ℝ).getD j 0 + ([4, 1, 0] : List ℝ).getD (j + 1) 0) / 2) 3 w = 4 + Real.cos w := by
    intro w; simp [densityOf, sum_range_succ]
  refine ⟨fun w => ?_, fun v w => ?_⟩
  · rw [h]; linarith [Real.neg_one_le_cos w]
  · rw [h, h]; linarith [Real.neg_one_le_cos w, Real.cos_le_one v]

/-- The covariance function must be largest at lag zero. -/
theorem C180_rejected {V : Type} [AddCommGroup V] [Module ℝ V] (acf : Acf) (a b : ℕ → ℕ → V) (v : ℝ) (hv : v ∈ acf.data)
    (h : acf.data.getD 0 0 < v) (ns : Option ℕ) (cases : ℕ) (dt : Option ℝ) (der : Bool) :
    sim acf ns cases dt der a b = .error .valueError := by
  unfold sim
  rw [if_pos]
  intro hc
  cases hdt : acf.data with
  | nil => rw [hdt] at hv; simp at hv
  | cons x l =>
    rw [hdt] at hv h hc
    have hx : x < v := by simpa using h
    rcases List.mem_cons.1 hv with rfl | hm
    · exact lt_irrefl _ hx
    · exact absurd (hc v hm) (not_le.2 hx)

/-- The documented default of `ns` does not exist: without `ns` a TypeError is raised. -/
theorem C180_default_refuted {V : Type} [AddCommGroup V] [Module ℝ V] (acf : Acf) (n : ℕ) (d : ℝ) (g : OnLags acf n d)
    (hmax : ∀ v ∈ acf.data, v ≤ acf.data.getD 0 0) (a b : ℕ → ℕ → V) (cases : ℕ) (dt : Option ℝ) (der : Bool) :
    sim acf none cases dt der a b = .error .typeError := by
  have h2 := g.two
  have hd := g.data
  have hv : validAcf acf.data := by
    cases hdt : acf.data with
    | nil => rw [hdt] at hd; simp at hd; omega
    | cons x l =>
      intro v hv
      have := hmax v (by rw [hdt]; exact List.mem_cons_of_mem _ hv)
      rw [hdt] at this
      simpa using this
  unfold sim
  rw [if_neg (not_not.2 hv), if_neg (by rw [g.length]; omega)]

/-- The step `dt` that a caller asks for has no effect: the second time is the step of the covariance function. -/
theorem C180_step_refuted {V : Type} [AddCommGroup V] [Module ℝ V] (acf : Acf) (n : ℕ) (d : ℝ) (g : OnLags acf n d) (ns : ℕ)
    (hns : 2 ≤ ns) (a b : ℕ → ℕ → V) (cases : ℕ) (dt : ℝ) (hdt : dt ≠ d) (der : Bool) (out : SimOut V)
    (h : sim acf (some ns) cases (some dt) der a b = .ok out) : out.times[1]? = some d ∧ out.times[1]? ≠ some dt := by
  have e : out.times[1]? = some d := by
    unfold sim at h
    simp only [] at h
    split at h
    · exact absurd h (by simp)
    · split at h
      · exact absurd h (by simp)
      · split at h
        · exact absurd h (by simp)
        · split at h
          · exact absurd h (by simp)
          · rw [← Except.ok.inj h]
            simp only [List.getElem?_map, List.getElem?_range (show 1 < ns by omega), Option.map_some, g.period]
            simp
  exact ⟨e, by rw [e]; intro hc; exact hdt (Option.some.inj hc).symm⟩

/-- The derivative is not returned: for at least three samples a ValueError is raised. -/
theorem C180_derivative_refuted {V : Type} [AddCommGroup V] [Module ℝ V] (acf : Acf) (n : ℕ) (d : ℝ) (g : OnLags acf n d)
    (hmax : ∀ v ∈ acf.data, v ≤ acf.data.getD 0 0) (a b : ℕ → ℕ → V) (ns cases : ℕ) (hns : 3 ≤ ns) (hc1 : 1 ≤ cases)
    (hc2 : cases ≤ 2 * ns) (dt : Option ℝ) :
    sim acf (some ns) cases dt true a b = .error .valueError := by
  have h2 := g.two
  have hd := g.data
  have hv : validAcf acf.data := by
    cases hdt : acf.data with
    | nil => rw [hdt] at hd; simp at hd; omega
    | cons x l =>
      intro v hv
      have := hmax v (by rw [hdt]; exact List.mem_cons_of_mem _ hv)
      rw [hdt] at this
      simpa using this
  obtain ⟨hN2, _, _, _⟩ := simNfft_le acf.data ns (by omega)
  have hs : derivativeShapes (simNfft acf.data ns) ns cases = false := by
    unfold derivativeShapes broadcast
    rw [if_neg (by omega)]
    by_cases h1 : (cases + 1) / 2 = 1
    · rw [if_pos h1, h1]
      have hcs : cases = 1 ∨ cases = 2 := by omega
      simp only []
      rw [show min 1 (simNfft acf.data ns) = 1 by omega]
      rcases hcs with rfl | rfl
      · simp
      · rw [show min (2 / 2) (simNfft acf.data ns) = 1 by omega]
        simp
        omega
    · rw [if_neg h1, if_neg (by omega)]
  unfold sim
  rw [if_neg (not_not.2 hv), if_neg (by rw [g.length]; omega)]
  simp only []
  rw [if_neg (by omega), hs]
  rfl

end

end Wafo.Cov

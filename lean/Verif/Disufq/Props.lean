import Verif.Disufq.Lemmas

set_option linter.unusedSectionVars false

/-!
# C313, C314: what `disufq` accumulates, and where it writes

Specification.  `B a = A_a e^{i a θ}` is component `a` of a linear wave at phase `θ` (`θ = -2πt/n` for sample `t` of
`fft`).  The second order wave is the double sum over **all ordered pairs** of components
`2 Σ_a Σ_b (E⁺(a,b) Re(B_a B_b) + E⁻(a,b) Re(conj(B_a) B_b))`.
-/

namespace Wafo.Disufq
open Finset Complex

/-- The linear component `a` of case `i` at phase `θ`. -/
noncomputable def comp (rA iA : ℕ → ℝ) (m i : ℕ) (θ : ℝ) (a : ℕ) : ℂ :=
  (⟨rA (a * m + i), iA (a * m + i)⟩ : ℂ) * exp (θ * I) ^ a

/-- The second order wave for the transfer functions `Ep` and `Ed` and the components `n0, ..., nmax - 1`. -/
noncomputable def secondOrder (Ep Ed : ℕ → ℕ → ℝ) (B : ℕ → ℂ) (n0 nmax : ℕ) : ℝ :=
  2 * ∑ a ∈ Ico n0 nmax, ∑ b ∈ Ico n0 nmax,
    (Ep a b * (B a * B b).re + Ed a b * ((starRingEnd ℂ) (B a) * B b).re)

/-- The real part of the discrete Fourier sum of row `i` of the result at phase `θ`. -/
noncomputable def realTransform (m n i : ℕ) (θ : ℝ) (s : Acc) : ℝ :=
  (∑ k ∈ range n, (⟨s.r (k * m + i), s.v (k * m + i)⟩ : ℂ) * exp (θ * I) ^ k).re

theorem conj_exp_mul (θ : ℝ) (a b : ℕ) (hab : a ≤ b) :
    (starRingEnd ℂ) (exp (θ * I) ^ a) * exp (θ * I) ^ b = exp (θ * I) ^ (b - a) := by
  obtain ⟨d, rfl⟩ := Nat.exists_eq_add_of_le hab
  rw [Nat.add_sub_cancel_left, pow_add, ← mul_assoc, ← normSq_eq_conj_mul_self, map_pow]
  have : normSq (exp (θ * I)) = 1 := by
    rw [normSq_eq_norm_sq, norm_exp_ofReal_mul_I]; norm_num
  rw [this]
  simp

theorem transform_zero (m n i : ℕ) (z : ℂ) : transform m n i z Acc.zero = 0 := by
  unfold transform Acc.zero
  apply sum_eq_zero
  intro k _
  have : (⟨0, 0⟩ : ℂ) = 0 := rfl
  simp only [this, zero_mul]

/-- The common part: diagonal terms `D` and pair terms. -/
theorem collect (rA iA : ℕ → ℝ) (m i : ℕ) (θ : ℝ) (n0 nmax : ℕ) (ep ed : ℕ → ℕ → ℝ)
    (hep : ∀ a b, ep a b = ep b a) (hed : ∀ a b, ed a b = ed b a) :
    (∑ a ∈ Ico n0 nmax, ((2 * ep a a * (amp rA iA m i a * exp (θ * I) ^ a) ^ 2 +
        2 * ed a a * normSq (amp rA iA m i a) : ℂ) + ∑ b ∈ Ico (a + 1) nmax,
      (4 * ep a b * (amp rA iA m i a * exp (θ * I) ^ a * (amp rA iA m i b * exp (θ * I) ^ b)) +
        4 * ed a b * ((starRingEnd ℂ) (amp rA iA m i a) * amp rA iA m i b * exp (θ * I) ^ (b - a))))).re =
      secondOrder ep ed (comp rA iA m i θ) n0 nmax := by
  by_cases hn : n0 ≤ nmax
  swap
  · unfold secondOrder
    rw [Ico_eq_empty (by omega)]
    simp
  unfold secondOrder
  rw [mul_sum]
  simp_rw [mul_sum]
  have key := sum_pairs (fun a b => 2 * (ep a b * (comp rA iA m i θ a * comp rA iA m i θ b).re +
    ed a b * ((starRingEnd ℂ) (comp rA iA m i θ a) * comp rA iA m i θ b).re)) (by
      intro a b
      rw [hep a b, hed a b, mul_comm (comp rA iA m i θ a)]
      congr 3
      rw [mul_re, mul_re, conj_re, conj_im, conj_re, conj_im]
      ring) n0 nmax hn
  rw [← key, re_sum]
  apply sum_congr rfl
  intro a _
  rw [add_re, re_sum]
  congr 1
  · have h1 : (starRingEnd ℂ) (comp rA iA m i θ a) * comp rA iA m i θ a = (normSq (amp rA iA m i a) : ℂ) := by
      have e := conj_exp_mul θ a a le_rfl
      rw [Nat.sub_self, pow_zero] at e
      have : (starRingEnd ℂ) (comp rA iA m i θ a) * comp rA iA m i θ a =
          (starRingEnd ℂ) (amp rA iA m i a) * amp rA iA m i a *
            ((starRingEnd ℂ) (exp (θ * I) ^ a) * exp (θ * I) ^ a) := by
        rw [show comp rA iA m i θ a = amp rA iA m i a * exp (θ * I) ^ a from rfl, map_mul]; ring
      rw [this, e, mul_one, normSq_eq_conj_mul_self]
    rw [h1, ofReal_re, add_re]
    have h2 : (2 * (ep a a : ℂ) * (amp rA iA m i a * exp (θ * I) ^ a) ^ 2) =
        ((2 * ep a a : ℝ) : ℂ) * (comp rA iA m i θ a * comp rA iA m i θ a) := by
      rw [show comp rA iA m i θ a = amp rA iA m i a * exp (θ * I) ^ a from rfl]; push_cast; ring
    have h3 : (2 * (ed a a : ℂ) * (normSq (amp rA iA m i a) : ℂ)) =
        ((2 * ed a a * normSq (amp rA iA m i a) : ℝ) : ℂ) := by push_cast; ring
    rw [h2, h3, re_ofReal_mul, ofReal_re]
    ring
  · apply sum_congr rfl
    intro b hb
    rw [mem_Ico] at hb
    have h1 : (starRingEnd ℂ) (comp rA iA m i θ a) * comp rA iA m i θ b =
        (starRingEnd ℂ) (amp rA iA m i a) * amp rA iA m i b * exp (θ * I) ^ (b - a) := by
      rw [← conj_exp_mul θ a b (by omega), show comp rA iA m i θ a = amp rA iA m i a * exp (θ * I) ^ a from rfl,
        show comp rA iA m i θ b = amp rA iA m i b * exp (θ * I) ^ b from rfl, map_mul]
      ring
    rw [← h1, show amp rA iA m i a * exp (θ * I) ^ a = comp rA iA m i θ a from rfl,
      show amp rA iA m i b * exp (θ * I) ^ b = comp rA iA m i θ b from rfl, add_re]
    have h2 : ∀ (x : ℝ) (y : ℂ), (4 * (x : ℂ) * y).re = 4 * x * y.re := by
      intro x y
      rw [show (4 * (x : ℂ)) = ((4 * x : ℝ) : ℂ) by push_cast; ring, re_ofReal_mul]
    rw [h2, h2]
    ring

theorem sumOff_symm (g h w1 w2 k1 k2 : ℝ) : sumOff g h w1 w2 k1 k2 = sumOff g h w2 w1 k2 k1 := by
  unfold sumOff
  rw [add_comm k1 k2, add_comm w1 w2, mul_comm w1 w2]
  ring_nf

theorem difOff_symm (g h w1 w2 k1 k2 : ℝ) : difOff g h w1 w2 k1 k2 = difOff g h w2 w1 k2 k1 := by
  unfold difOff
  have e3 : -0.5 * g * (w1 * k2 * k2 - w2 * k1 * k1) / (w1 * w2 * (w1 - w2)) =
      -0.5 * g * (w2 * k1 * k1 - w1 * k2 * k2) / (w2 * w1 * (w2 - w1)) := by
    rw [show -0.5 * g * (w2 * k1 * k1 - w1 * k2 * k2) = -(-0.5 * g * (w1 * k2 * k2 - w2 * k1 * k1)) by ring,
      show w2 * w1 * (w2 - w1) = -(w1 * w2 * (w1 - w2)) by ring, neg_div_neg_eq]
  have e4 : g * (k1 - k2) / (w1 - w2) / (w1 - w2) * Real.tanh ((k1 - k2) * h) =
      g * (k2 - k1) / (w2 - w1) / (w2 - w1) * Real.tanh ((k2 - k1) * h) := by
    rw [show (k2 - k1) * h = -((k1 - k2) * h) by ring, Real.tanh_neg, div_div, div_div,
      show (w2 - w1) * (w2 - w1) = (w1 - w2) * (w1 - w2) by ring, show g * (k2 - k1) = -(g * (k1 - k2)) by ring,
      neg_div, neg_mul_neg]
  simp only [e3, e4]
  rw [show g * (k1 / w1) * (k2 / w2) = g * (k2 / w2) * (k1 / w1) by ring,
    show w1 * w1 + w2 * w2 - w1 * w2 = w2 * w2 + w1 * w1 - w2 * w1 by ring]

/-- On the diagonal the code evaluates the pair formula at two equal components. -/
theorem sumDiag_eq {g h w k : ℝ} (hg : g ≠ 0) (hw : w ≠ 0) (hk : k ≠ 0) : sumDiag g h w k = sumOff g h w w k k := by
  unfold sumDiag sumOff
  have hw2 : w + w ≠ 0 := by intro e; apply hw; linarith
  have e4 : 0.5 * g * (k / w) * (k / w) / k * Real.tanh (2 * k * h) =
      g * (k + k) / (w + w) / (w + w) * Real.tanh ((k + k) * h) := by
    rw [show (k + k) * h = 2 * k * h by ring, show w + w = 2 * w by ring]
    field_simp
    ring
  have e3 : 0.5 * g * (w * k * k + w * k * k) / (w * w * (w + w)) = 0.5 * g * (k / w) * (k / w) := by
    rw [show w + w = 2 * w by ring]
    field_simp
    ring
  simp only [e4, e3]
  rw [show g * (k / w) * (k / w) - 0.5 / g * (w * w + w * w + w * w) + 0.5 * g * (k / w) * (k / w) =
    3 * (0.5 * g * (k / w) * (k / w) - 0.5 * w * w / g) by ring]
  ring

/-- A flat index of frequency `q < n` lies inside the arrays. -/
theorem idx_bound {m n q i : ℕ} (hi : i < m) (hq : q + 1 ≤ n) : q * m + i < n * m :=
  calc q * m + i < q * m + m := by omega
    _ = (q + 1) * m := by ring
    _ ≤ n * m := Nat.mul_le_mul_right m hq

theorem mem_pyRange {a b x : ℕ} : x ∈ pyRange a b ↔ a ≤ x ∧ x < b := by
  unfold pyRange
  rw [List.mem_range'_1]
  omega

theorem pairUpd_idx {rA iA : ℕ → ℝ} {m n nmax ix jy : ℕ} {ep ed : ℝ} (hn : 2 * nmax ≤ n + 1) (hx : ix < jy)
    (hy : jy < nmax) : ∀ u ∈ pairUpd rA iA m ix jy ep ed, u.idx < n * m := by
  intro u hu
  unfold pairUpd at hu
  rw [List.mem_flatMap] at hu
  obtain ⟨i, hi, hu⟩ := hu
  rw [List.mem_range] at hi
  rw [List.mem_cons, List.mem_cons] at hu
  rcases hu with rfl | rfl | hu
  · show ix * m + jy * m + i < n * m
    rw [← Nat.add_mul]
    exact idx_bound hi (by omega)
  · show jy * m - ix * m + i < n * m
    rw [← Nat.sub_mul]
    exact idx_bound hi (by omega)
  · cases hu

theorem deep_idx {rA iA kw : ℕ → ℝ} {n0 nmax m n : ℕ} (hn : 2 * nmax ≤ n + 1) :
    ∀ u ∈ deepUpd rA iA kw n0 nmax m, u.idx < n * m := by
  intro u hu
  unfold deepUpd at hu
  rw [List.mem_flatMap] at hu
  obtain ⟨ix, hix, hu⟩ := hu
  rw [mem_pyRange] at hix
  rw [List.mem_append] at hu
  rcases hu with hu | hu
  · unfold diagDeep at hu
    rw [List.mem_map] at hu
    obtain ⟨i, hi, rfl⟩ := hu
    rw [List.mem_range] at hi
    show 2 * (ix * m) + i < n * m
    rw [← Nat.mul_assoc]
    exact idx_bound hi (by omega)
  · rw [List.mem_flatMap] at hu
    obtain ⟨jy, hjy, hu⟩ := hu
    rw [mem_pyRange] at hjy
    exact pairUpd_idx hn (by omega) hjy.2 u hu

theorem finite_idx {rA iA w kw : ℕ → ℝ} {h g : ℝ} {n0 nmax m n : ℕ} (hn : 2 * nmax ≤ n + 1) :
    ∀ u ∈ finiteUpd rA iA w kw h g n0 nmax m, u.idx < n * m := by
  intro u hu
  unfold finiteUpd at hu
  rw [List.mem_flatMap] at hu
  obtain ⟨ix, hix, hu⟩ := hu
  rw [mem_pyRange] at hix
  rw [List.mem_append] at hu
  rcases hu with hu | hu
  · unfold diagFinite at hu
    rw [List.mem_flatMap] at hu
    obtain ⟨i, hi, hu⟩ := hu
    rw [List.mem_range] at hi
    rw [List.mem_cons, List.mem_cons] at hu
    rcases hu with rfl | rfl | hu
    · show 2 * (ix * m) + i < n * m
      rw [← Nat.mul_assoc]
      exact idx_bound hi (by omega)
    · show i < n * m
      have := idx_bound (q := 0) (n := n) hi (by omega)
      rwa [Nat.zero_mul, Nat.zero_add] at this
    · cases hu
  · rw [List.mem_flatMap] at hu
    obtain ⟨jy, hjy, hu⟩ := hu
    rw [mem_pyRange] at hjy
    exact pairUpd_idx hn (by omega) hjy.2 u hu

/-! ## The property theorems -/

/-- **C313 (deep water).**  The Fourier sum of the result is the second order wave with the deep water transfer
functions `(k_a + k_b) / 2` and `-|k_a - k_b| / 2`, for every row and every phase. -/
theorem C313_deep (rA iA w kw : ℕ → ℝ) (h g : ℝ) (n0 nmax m n i : ℕ) (θ : ℝ) (hh : 10000 < h) (hi : i < m)
    (hkw : ∀ a b, n0 ≤ a → a < b → b < nmax → kw a ≤ kw b) (s : Acc) (hs : disufq rA iA w kw h g n0 nmax m n = .ok s) :
    realTransform m n i θ s =
      secondOrder (fun a b => (kw a + kw b) / 2) (fun a b => -|kw a - kw b| / 2) (comp rA iA m i θ) n0 nmax := by
  unfold disufq at hs
  rw [if_pos hh] at hs
  have h1 := run_transform hi (exp (θ * I)) _ _ _ hs
  rw [transform_zero, zero_add] at h1
  rw [show realTransform m n i θ s = (transform m n i (exp (θ * I)) s).re from rfl, h1]
  rw [← collect rA iA m i θ n0 nmax (fun a b => (kw a + kw b) / 2) (fun a b => -|kw a - kw b| / 2)
    (fun a b => by ring) (fun a b => by rw [abs_sub_comm])]
  congr 1
  unfold deepUpd
  rw [sum_flatMap, sum_pyRange]
  apply sum_congr rfl
  intro a ha
  rw [mem_Ico] at ha
  rw [List.map_append, List.sum_append, sum_diagDeep rA iA hi, sum_flatMap, sum_pyRange]
  congr 1
  · simp
  · apply sum_congr rfl
    intro b hb
    rw [mem_Ico] at hb
    have hab : |kw a - kw b| = kw b - kw a := by
      rw [abs_sub_comm]; exact abs_of_nonneg (sub_nonneg.2 (hkw a b ha.1 (by omega) hb.2))
    have e1 : ((kw a + kw b) / 2 : ℝ) = 0.5 * (kw b + kw a) := by ring
    have e2 : (-|kw a - kw b| / 2 : ℝ) = -0.5 * (kw b - kw a) := by rw [hab]; ring
    rw [sum_pairUpd rA iA hi, e1, e2]

/-- **C313 (finite depth).**  The same with the finite depth transfer functions: the pair formula for the sum
frequencies **also on the diagonal**, and for the difference frequencies the mean set-down on the diagonal. -/
theorem C313_finite (rA iA w kw : ℕ → ℝ) (h g : ℝ) (n0 nmax m n i : ℕ) (θ : ℝ) (hh : h ≤ 10000) (hi : i < m)
    (hg : g ≠ 0) (hw : ∀ a, n0 ≤ a → a < nmax → w a ≠ 0) (hk : ∀ a, n0 ≤ a → a < nmax → kw a ≠ 0) (s : Acc)
    (hs : disufq rA iA w kw h g n0 nmax m n = .ok s) :
    realTransform m n i θ s =
      secondOrder (fun a b => sumOff g h (w a) (w b) (kw a) (kw b))
        (fun a b => if a = b then difDiag g h (w a) (kw a) else difOff g h (w a) (w b) (kw a) (kw b))
        (comp rA iA m i θ) n0 nmax := by
  unfold disufq at hs
  rw [if_neg (not_lt.2 hh)] at hs
  have h1 := run_transform hi (exp (θ * I)) _ _ _ hs
  rw [transform_zero, zero_add] at h1
  rw [show realTransform m n i θ s = (transform m n i (exp (θ * I)) s).re from rfl, h1]
  rw [← collect rA iA m i θ n0 nmax _ _ (fun a b => sumOff_symm _ _ _ _ _ _) (fun a b => by
    by_cases hab : a = b
    · subst hab; rfl
    · rw [if_neg hab, if_neg (Ne.symm hab), difOff_symm])]
  congr 1
  unfold finiteUpd
  rw [sum_flatMap, sum_pyRange]
  apply sum_congr rfl
  intro a ha
  rw [mem_Ico] at ha
  rw [List.map_append, List.sum_append, sum_diagFinite rA iA hi, sum_flatMap, sum_pyRange,
    sumDiag_eq hg (hw a ha.1 ha.2) (hk a ha.1 ha.2), if_pos rfl]
  congr 1
  apply sum_congr rfl
  intro b hb
  rw [mem_Ico] at hb
  rw [sum_pairUpd rA iA hi, if_neg (by omega)]

/-- **C314.**  All writes stay inside the arrays when `2 * nmax ≤ n + 1`... -/
theorem C314_in_bounds (rA iA w kw : ℕ → ℝ) (h g : ℝ) (n0 nmax m n : ℕ) (hn : 2 * nmax ≤ n + 1) :
    ∃ s, disufq rA iA w kw h g n0 nmax m n = .ok s := by
  unfold disufq
  split_ifs
  · exact run_ok _ _ (deep_idx hn)
  · exact run_ok _ _ (finite_idx hn)

/-- ... and as soon as `nmax` is larger (and the loop runs at all) the function writes outside them, whatever the
amplitudes are: `nmax ≤ n`, as documented, is not enough. -/
theorem C314_out_of_bounds (rA iA w kw : ℕ → ℝ) (h g : ℝ) (n0 nmax m n : ℕ) (hn : n + 1 < 2 * nmax) (h0 : n0 < nmax)
    (hm : 0 < m) : disufq rA iA w kw h g n0 nmax m n = .error .oobWrite := by
  have hge : n * m ≤ 2 * ((nmax - 1) * m) + 0 := by
    rw [← Nat.mul_assoc, Nat.add_zero]
    exact Nat.mul_le_mul_right m (by omega)
  unfold disufq
  split_ifs
  · apply run_error
    exact ⟨_, List.mem_flatMap.2 ⟨nmax - 1, mem_pyRange.2 (by omega), List.mem_append_left _
      (List.mem_map.2 ⟨0, List.mem_range.2 hm, rfl⟩)⟩, hge⟩
  · apply run_error
    exact ⟨_, List.mem_flatMap.2 ⟨nmax - 1, mem_pyRange.2 (by omega), List.mem_append_left _
      (List.mem_flatMap.2 ⟨0, List.mem_range.2 hm, List.mem_cons_self ..⟩)⟩, hge⟩

/-- Non-vacuity of C313 and C314: two cases of four components, `nmin = 2`, `nmax = 3` and arrays for five frequencies. -/
example : ∃ s, disufq (fun j => j) (fun j => 1 - j) (fun a => a) (fun a => a ^ 2) 20000 9.81 1 3 2 5 = .ok s :=
  C314_in_bounds _ _ _ _ _ _ _ _ _ _ (by norm_num)

example : ∀ a b : ℕ, 1 ≤ a → a < b → b < 3 → (a : ℝ) ^ 2 ≤ (b : ℝ) ^ 2 := fun a b _ hab _ => by
  have : (a : ℝ) ≤ b := by exact_mod_cast hab.le
  exact pow_le_pow_left₀ (by positivity) this 2

example : disufq (fun j => j) (fun j => 1 - j) (fun a => a) (fun a => a ^ 2) 20 9.81 1 4 2 6 = .error .oobWrite :=
  C314_out_of_bounds _ _ _ _ _ _ _ _ _ _ (by norm_num) (by norm_num) (by norm_num)

end Wafo.Disufq

import Verif.Savgol.Model
import Mathlib.LinearAlgebra.Matrix.Rank
import Mathlib.Algebra.Polynomial.Taylor
import Mathlib.LinearAlgebra.Lagrange
import Mathlib.Data.List.GetD
import Mathlib.Tactic.LinearCombination

/-! Lemmas about the Savitzky-Golay kernel and the padded signal. -/

set_option linter.unusedSectionVars false

namespace Wafo.Savgol

open Matrix Polynomial

variable {α : Type*} [Field α] [LinearOrder α] [IsStrictOrderedRing α]

/-- The design matrix has linearly independent columns. -/
theorem design_inj (half order : ℕ) (h : order + 2 ≤ 2 * half + 1) (x : Fin (order + 1) → α)
    (hx : design α half order *ᵥ x = 0) : x = 0 := by
  let P : α[X] := ∑ i : Fin (order + 1), C (x i) * X ^ (i : ℕ)
  have hev : ∀ t : α, P.eval t = ∑ i : Fin (order + 1), x i * t ^ (i : ℕ) := by
    intro t
    simp only [P, eval_finsetSum, eval_mul, eval_C, eval_pow, eval_X]
  have hdeg : P.degree < (2 * half + 1 : ℕ) := by
    refine lt_of_le_of_lt (degree_sum_le _ _) ?_
    rw [Finset.sup_lt_iff (by exact_mod_cast WithBot.bot_lt_coe _)]
    intro i _
    refine lt_of_le_of_lt (degree_C_mul_X_pow_le _ _) ?_
    have := i.2
    exact_mod_cast (by omega : (i : ℕ) < 2 * half + 1)
  have hP : P = 0 := by
    refine Polynomial.eq_zero_of_degree_lt_of_eval_index_eq_zero (s := Finset.univ)
      (v := fun k : Fin (2 * half + 1) => ((k : ℕ) : α) - (half : α)) ?_ ?_ ?_
    · intro a _ b _ hab
      have : ((a : ℕ) : α) = ((b : ℕ) : α) := by simpa using hab
      exact Fin.ext (by exact_mod_cast this)
    · simpa using hdeg
    · intro k _
      rw [hev]
      have := congrFun hx k
      simp only [mulVec, dotProduct, design, Pi.zero_apply] at this
      rw [← this]
      exact Finset.sum_congr rfl (fun i _ => mul_comm _ _)
  funext i
  have hc := congrArg (fun p : α[X] => p.coeff (i : ℕ)) hP
  simp only [P, finsetSum_coeff, coeff_C_mul, coeff_X_pow, coeff_zero] at hc
  rw [Finset.sum_eq_single i] at hc
  · simpa using hc
  · intro j _ hj
    rw [if_neg (fun hh => hj (Fin.ext hh.symm)), mul_zero]
  · intro hh; exact absurd (Finset.mem_univ _) hh

theorem gram_unit (half order : ℕ) (h : order + 2 ≤ 2 * half + 1) :
    IsUnit ((design α half order)ᵀ * design α half order).det := by
  rw [← isUnit_iff_isUnit_det, ← mulVec_injective_iff_isUnit]
  intro u v huv
  have h0 : ((design α half order)ᵀ * design α half order) *ᵥ (u - v) = 0 := by
    rw [mulVec_sub]; exact sub_eq_zero.2 huv
  have h1 : (u - v) ∈ LinearMap.ker ((design α half order)ᵀ * design α half order).mulVecLin := by
    rw [LinearMap.mem_ker, mulVecLin_apply]; exact h0
  rw [ker_mulVecLin_transpose_mul_self, LinearMap.mem_ker, mulVecLin_apply] at h1
  exact sub_eq_zero.1 (design_inj half order h _ h1)

/-- The pseudo inverse is a left inverse. -/
theorem pinv_mul (half order : ℕ) (h : order + 2 ≤ 2 * half + 1) :
    pinv α half order * design α half order = 1 := by
  unfold pinv
  rw [Matrix.mul_assoc]
  exact nonsing_inv_mul _ (gram_unit half order h)

/-- Moments of a kernel row. -/
theorem pinv_moment (half order : ℕ) (h : order + 2 ≤ 2 * half + 1) (d i : Fin (order + 1)) :
    ∑ k : Fin (2 * half + 1), pinv α half order d k * (((k : ℕ) : α) - half) ^ (i : ℕ) = if i = d then 1 else 0 := by
  have := congrFun (congrFun (pinv_mul (α := α) half order h) d) i
  rw [Matrix.mul_apply, Matrix.one_apply] at this
  rw [show (if i = d then (1 : α) else 0) = if d = i then 1 else 0 by
    by_cases hh : i = d
    · rw [if_pos hh, if_pos hh.symm]
    · rw [if_neg hh, if_neg (fun e => hh e.symm)]]
  rw [← this]
  rfl

/-- Applying a kernel row to samples of a polynomial, in the order of `np.convolve`. -/
theorem kernel_poly (half order : ℕ) (h : order + 2 ≤ 2 * half + 1) (d : Fin (order + 1)) (P : α[X])
    (hP : P.natDegree ≤ order) (c : α) :
    ∑ k : Fin (2 * half + 1), pinv α half order d k * P.eval (c - (((k : ℕ) : α) - half)) =
      (-1) ^ (d : ℕ) * (hasseDeriv d P).eval c := by
  have hQ : (taylor c P).natDegree < order + 1 := by rw [natDegree_taylor]; omega
  have hev : ∀ u : α, P.eval (c - u) = ∑ i : Fin (order + 1), (taylor c P).coeff i * (-1) ^ (i : ℕ) * u ^ (i : ℕ) := by
    intro u
    have h1 : P.eval (c - u) = (taylor c P).eval (-u) := by rw [taylor_eval]; congr 1; ring
    rw [h1, eval_eq_sum_range' hQ, Fin.sum_univ_eq_sum_range (fun i => (taylor c P).coeff i * (-1) ^ i * u ^ i) (order + 1)]
    apply Finset.sum_congr rfl
    intro i _
    rw [neg_pow]; ring
  simp only [hev, Finset.mul_sum]
  rw [Finset.sum_comm]
  have : ∀ i : Fin (order + 1), ∑ k : Fin (2 * half + 1), pinv α half order d k *
      ((taylor c P).coeff i * (-1) ^ (i : ℕ) * (((k : ℕ) : α) - half) ^ (i : ℕ)) =
      (taylor c P).coeff i * (-1) ^ (i : ℕ) * (if i = d then 1 else 0) := by
    intro i
    rw [← pinv_moment half order h d i, Finset.mul_sum]
    apply Finset.sum_congr rfl
    intro k _
    ring
  simp only [this, mul_ite, mul_one, mul_zero, Finset.sum_ite_eq', Finset.mem_univ, if_true]
  rw [taylor_coeff]; ring

/-! ### Padding and convolution -/

theorem getD_append_left' (l l' : List α) (i : ℕ) (h : i < l.length) : (l ++ l').getD i 0 = l.getD i 0 := by
  simp [List.getD, List.getElem?_append_left h]

theorem getD_append_right' (l l' : List α) (i : ℕ) (h : l.length ≤ i) :
    (l ++ l').getD i 0 = l'.getD (i - l.length) 0 := by
  simp [List.getD, List.getElem?_append_right h]

/-- The padded signal for a signal with more than `half` samples. -/
theorem padded_spec (half : ℕ) (y : List α) (hy : half + 1 ≤ y.length) :
    ∃ p, padded half y = .ok p ∧ p.length = y.length + 2 * half ∧
      (∀ i, i < y.length → p.getD (half + i) 0 = y.getD i 0) ∧
      (∀ i, i < half → p.getD i 0 = y.getD 0 0 - |y.getD (half - i) 0 - y.getD 0 0|) ∧
      (∀ i, i < half → p.getD (half + y.length + i) 0 =
        y.getD (y.length - 1) 0 + |y.getD (y.length - 2 - i) 0 - y.getD (y.length - 1) 0|) := by
  have hpos : 0 < y.length := by omega
  have h1 : y.head? = some (y.getD 0 0) := by
    rw [List.head?_eq_getElem?, List.getElem?_eq_getElem hpos, List.getD_eq_getElem _ _ hpos]
  have h2 : y.getLast? = some (y.getD (y.length - 1) 0) := by
    have : y.length - 1 < y.length := by omega
    rw [List.getLast?_eq_getElem?, List.getElem?_eq_getElem this, List.getD_eq_getElem _ _ this]
  set y0 := y.getD 0 0
  set yl := y.getD (y.length - 1) 0
  set F := ((y.take (half + 1)).drop 1).reverse.map (fun v => y0 - |v - y0|) with hF
  set L := ((y.take (y.length - 1)).drop (y.length - 1 - half)).reverse.map (fun v => yl + |v - yl|) with hL
  have lF : F.length = half := by simp [hF]; omega
  have lL : L.length = half := by simp [hL]; omega
  refine ⟨F ++ y ++ L, ?_, ?_, ?_, ?_, ?_⟩
  · unfold padded; simp only [h1, h2]; rfl
  · simp only [List.length_append, lF, lL]; omega
  · intro i hi
    rw [getD_append_left' _ _ _ (by rw [List.length_append, lF]; omega),
      getD_append_right' _ _ _ (by rw [lF]; omega), lF]
    congr 1; omega
  · intro i hi
    rw [List.append_assoc, getD_append_left' _ _ _ (by omega)]
    have h3 : i < F.length := by omega
    have h4 : half - i < y.length := by omega
    rw [List.getD_eq_getElem _ _ h3, List.getD_eq_getElem _ _ h4]
    simp only [hF, List.getElem_map, List.getElem_reverse, List.getElem_drop, List.getElem_take,
      List.length_drop, List.length_take]
    congr 4; omega
  · intro i hi
    rw [getD_append_right' _ _ _ (by rw [List.length_append, lF]; omega)]
    have h3 : i < L.length := by omega
    have h4 : y.length - 2 - i < y.length := by omega
    rw [show half + y.length + i - (F ++ y).length = i by rw [List.length_append, lF]; omega]
    rw [List.getD_eq_getElem _ _ h3, List.getD_eq_getElem _ _ h4]
    simp only [hL, List.getElem_map, List.getElem_reverse, List.getElem_drop, List.getElem_take,
      List.length_drop, List.length_take]
    congr 4; omega

theorem convAt_kernel (half order : ℕ) (d : Fin (order + 1)) (p : List α) (i : ℕ) :
    convAt p (List.ofFn (fun k => pinv α half order d k)) i =
      ∑ k : Fin (2 * half + 1), pinv α half order d k * p.getD (i + (2 * half - (k : ℕ))) 0 := by
  unfold convAt
  rw [List.length_ofFn, Finset.sum_range]
  apply Finset.sum_congr rfl
  intro k _
  congr 1
  · rw [List.getD_eq_getElem _ _ (by have := k.2; rw [List.length_ofFn]; omega), List.getElem_ofFn]

/-- The result of the filter for a signal with more than `half` samples. -/
theorem filter_spec (half order : ℕ) (h : order + 2 ≤ 2 * half + 1) (d : Fin (order + 1)) (y : List α)
    (hy : half + 1 ≤ y.length) :
    ∃ p ys, padded half y = .ok p ∧
      filterWith half (List.ofFn (fun k => pinv α half order d k)) y = .ok ys ∧ ys.length = y.length ∧
      ∀ i, i < y.length → ys[i]? = some (∑ k : Fin (2 * half + 1), pinv α half order d k *
        p.getD (i + (2 * half - (k : ℕ))) 0) := by
  obtain ⟨p, h1, h2, -⟩ := padded_spec half y hy
  refine ⟨p, convolveValid (List.ofFn (fun k => pinv α half order d k)) p, h1, ?_, ?_, ?_⟩
  · unfold filterWith; rw [h1]
  · unfold convolveValid
    rw [List.length_ofFn, h2]
    split
    · simp; omega
    · simp; omega
  · intro i hi
    rw [← convAt_kernel]
    unfold convolveValid
    rw [List.length_ofFn, h2]
    split
    · rw [List.getElem?_map, List.getElem?_range (by omega)]; rfl
    · -- equal lengths
      have he : y.length = 1 := by omega
      have hh : half = 0 := by omega
      subst hh
      omega

/-- Evaluating `savitzky_golay` for valid arguments. -/
theorem savgol_eq (y : List α) (half order : ℕ) (h : order + 2 ≤ 2 * half + 1) (d : Fin (order + 1)) :
    savitzkyGolay y (2 * half + 1 : ℕ) order (d : ℕ) =
      filterWith half (List.ofFn (fun k => pinv α half order d k)) y := by
  have h1 : ¬ ((2 * half + 1) % 2 ≠ 1 ∨ 2 * half + 1 < 1) := by omega
  have h2 : ¬ (2 * half + 1 < order + 2) := by omega
  have h3 : ¬ (((d : ℕ) : ℤ) < 0) := by omega
  have h4 : (0 : ℤ) ≤ ((d : ℕ) : ℤ) := by omega
  have h5 : (2 * half + 1 - 1) / 2 = half := by omega
  have hk : kernel α half order (d : ℕ) = .ok (List.ofFn (fun k => pinv α half order d k)) := by
    unfold kernel rowIndex
    simp only [h3, if_false, Int.toNat_natCast, d.2, dite_true, h4, if_true]
  unfold savitzkyGolay checkWindow
  simp only [Int.natAbs_natCast, h1, if_false, h2]
  rw [h5, hk]

end Wafo.Savgol

import Verif.Savgol.Lemmas
import Mathlib.Data.Rat.Floor
import Mathlib.Algebra.Order.Field.Rat
import Mathlib.LinearAlgebra.Matrix.Notation
import Mathlib.Tactic.FinCases

/-!
Properties C104 - C106: `savitzky_golay`.
-/

set_option linter.unusedSectionVars false

namespace Wafo.Savgol

open Matrix Polynomial

variable {α : Type*} [Field α] [LinearOrder α] [IsStrictOrderedRing α]

theorem getD_of_some {y : List α} {i : ℕ} {v : α} (h : y[i]? = some v) : y.getD i 0 = v := by
  simp [List.getD, h]

/-- **C104, what the filter computes.**  For samples of a polynomial of degree at most `order`, at every point whose window lies
inside the signal, `deriv!` times the result is the derivative up to the sign `(-1) ** deriv`. -/
theorem C104_formula_partial (half order d : ℕ) (h : order + 2 ≤ 2 * half + 1) (hd : d ≤ order) (P : α[X])
    (hP : P.natDegree ≤ order) (y : List α) (hy : ∀ i, i < y.length → y[i]? = some (P.eval (i : α)))
    (hn : half + 1 ≤ y.length) :
    ∃ ys, savitzkyGolay y (2 * half + 1 : ℕ) order d = .ok ys ∧ ys.length = y.length ∧
      ∀ i, half ≤ i → i + half < y.length → ∃ v, ys[i]? = some v ∧
        (d.factorial : α) * v = (-1) ^ d * (derivative^[d] P).eval (i : α) := by
  have hd' : d < order + 1 := by omega
  obtain ⟨p, ys, h1, h2, h3, h4⟩ := filter_spec half order h ⟨d, hd'⟩ y hn
  refine ⟨ys, ?_, h3, ?_⟩
  · rw [← h2]; exact savgol_eq y half order h ⟨d, hd'⟩
  · intro i hi1 hi2
    refine ⟨_, h4 i (by omega), ?_⟩
    have hval : ∀ k : Fin (2 * half + 1), p.getD (i + (2 * half - (k : ℕ))) 0 =
        P.eval ((i : α) - (((k : ℕ) : α) - half)) := by
      intro k
      have hk := k.2
      obtain ⟨p', e1, -, e3, -⟩ := padded_spec half y hn
      rw [h1] at e1
      obtain rfl := Except.ok.inj e1
      rw [show i + (2 * half - (k : ℕ)) = half + (i + half - k) by omega, e3 _ (by omega),
        getD_of_some (hy _ (by omega))]
      rw [Nat.cast_sub (by omega)]
      push_cast
      congr 1; ring
    simp only [hval]
    rw [kernel_poly half order h ⟨d, hd'⟩ P hP]
    have := congrFun (factorial_smul_hasseDeriv (R := α) (k := d)) P
    have he : (derivative^[d] P).eval (i : α) = (d.factorial : α) * (hasseDeriv d P).eval (i : α) := by
      rw [← this, LinearMap.smul_apply, eval_smul, nsmul_eq_mul]
    rw [he]
    ring

/-- **C104, smoothing.**  With `deriv = 0` polynomials of degree at most `order` are left unchanged wherever the window
lies inside the signal. -/
theorem C104_smoothing (half order : ℕ) (h : order + 2 ≤ 2 * half + 1) (P : α[X])
    (hP : P.natDegree ≤ order) (y : List α) (hy : ∀ i, i < y.length → y[i]? = some (P.eval (i : α)))
    (hn : half + 1 ≤ y.length) :
    ∃ ys, savitzkyGolay y (2 * half + 1 : ℕ) order 0 = .ok ys ∧ ys.length = y.length ∧
      ∀ i, half ≤ i → i + half < y.length → ys[i]? = y[i]? := by
  obtain ⟨ys, h1, h2, h3⟩ := C104_formula_partial half order 0 h (by omega) P hP y hy hn
  refine ⟨ys, h1, h2, fun i hi1 hi2 => ?_⟩
  obtain ⟨v, hv, he⟩ := h3 i hi1 hi2
  rw [hv, hy i (by omega)]
  simp at he
  rw [he]

/-- **C104 refuted for derivatives.**  For every valid window and every polynomial the first derivative comes out with the
wrong sign, and the second derivative is half of what it should be. -/
theorem C104_refuted (half order : ℕ) (h : order + 2 ≤ 2 * half + 1) (P : α[X])
    (hP : P.natDegree ≤ order) (y : List α) (hy : ∀ i, i < y.length → y[i]? = some (P.eval (i : α)))
    (hn : half + 1 ≤ y.length) :
    (1 ≤ order → ∃ ys, savitzkyGolay y (2 * half + 1 : ℕ) order 1 = .ok ys ∧
      ∀ i, half ≤ i → i + half < y.length → ys[i]? = some (-(derivative P).eval (i : α))) ∧
    (2 ≤ order → ∃ ys, savitzkyGolay y (2 * half + 1 : ℕ) order 2 = .ok ys ∧
      ∀ i, half ≤ i → i + half < y.length → ys[i]? = some ((derivative (derivative P)).eval (i : α) / 2)) := by
  constructor
  · intro ho
    obtain ⟨ys, h1, h2, h3⟩ := C104_formula_partial half order 1 h ho P hP y hy hn
    refine ⟨ys, h1, fun i hi1 hi2 => ?_⟩
    obtain ⟨v, hv, he⟩ := h3 i hi1 hi2
    simp at he
    rw [hv, he]
  · intro ho
    obtain ⟨ys, h1, h2, h3⟩ := C104_formula_partial half order 2 h ho P hP y hy hn
    refine ⟨ys, h1, fun i hi1 hi2 => ?_⟩
    obtain ⟨v, hv, he⟩ := h3 i hi1 hi2
    simp at he
    rw [hv, ← he]
    congr 1; field_simp

/-- **C104, invalid arguments.**  Even or too small windows raise a TypeError, a derivative beyond the order an IndexError. -/
theorem C104_errors (y : List α) (window order deriv : ℤ) :
    (window % 2 = 0 ∨ (window.natAbs < order.natAbs + 2) → savitzkyGolay y window order deriv = .error .typeError) ∧
    (window % 2 = 1 → order.natAbs + 2 ≤ window.natAbs → order.natAbs < deriv →
      savitzkyGolay y window order deriv = .error .indexError) := by
  constructor
  · intro h
    unfold savitzkyGolay checkWindow
    by_cases h1 : window.natAbs % 2 ≠ 1 ∨ window.natAbs < 1
    · simp only [if_pos h1]
    · have h2 : window.natAbs < order.natAbs + 2 := by omega
      simp only [if_neg h1, if_pos h2]
  · intro h1 h2 h3
    unfold savitzkyGolay checkWindow
    have e1 : ¬ (window.natAbs % 2 ≠ 1 ∨ window.natAbs < 1) := by omega
    have e2 : ¬ (window.natAbs < order.natAbs + 2) := by omega
    have e3 : ¬ (deriv < 0) := by omega
    have e4 : ¬ (deriv.toNat < order.natAbs + 1) := by omega
    simp only [if_neg e1, if_neg e2]
    unfold kernel rowIndex
    simp only [if_neg e3, dif_neg e4]

/-! ### Least squares -/

/-- The coefficients computed by the pseudo inverse minimise the sum of squares. -/
theorem least_squares (half order : ℕ) (h : order + 2 ≤ 2 * half + 1) (v : Fin (2 * half + 1) → α)
    (γ : Fin (order + 1) → α) :
    ∑ k, (v k - (design α half order *ᵥ (pinv α half order *ᵥ v)) k) ^ 2 ≤
      ∑ k, (v k - (design α half order *ᵥ γ) k) ^ 2 := by
  set B := design α half order with hB
  set β := pinv α half order *ᵥ v with hβ
  have hnorm : Bᵀ *ᵥ (v - B *ᵥ β) = 0 := by
    rw [mulVec_sub, hβ, pinv, ← hB, mulVec_mulVec, mulVec_mulVec, ← Matrix.mul_assoc,
      mul_nonsing_inv _ (gram_unit half order h), Matrix.one_mul, sub_self]
  have hdot : (v - B *ᵥ β) ⬝ᵥ (B *ᵥ (β - γ)) = 0 := by
    rw [dotProduct_mulVec, ← mulVec_transpose, hnorm, zero_dotProduct]
  have hsum : ∑ k, (v k - (B *ᵥ γ) k) ^ 2 =
      ∑ k, (v k - (B *ᵥ β) k) ^ 2 + ∑ k, ((B *ᵥ (β - γ)) k) ^ 2 := by
    have e : ∀ k, (v k - (B *ᵥ γ) k) ^ 2 = (v k - (B *ᵥ β) k) ^ 2 + ((B *ᵥ (β - γ)) k) ^ 2 +
        2 * ((v - B *ᵥ β) k * (B *ᵥ (β - γ)) k) := by
      intro k
      rw [mulVec_sub]
      simp only [Pi.sub_apply]
      ring
    simp only [e]
    rw [Finset.sum_add_distrib, Finset.sum_add_distrib, ← Finset.mul_sum]
    have : ∑ k, (v - B *ᵥ β) k * (B *ᵥ (β - γ)) k = 0 := hdot
    rw [this]; ring
  rw [hsum]
  exact le_add_of_nonneg_right (Finset.sum_nonneg (fun k _ => sq_nonneg _))

/-- **C105**  For arbitrary data, the smoothed value (`deriv = 0`) at a point whose window lies inside the signal is the value
at that point of a polynomial of degree at most `order` with the least sum of squared deviations over the window. -/
theorem C105_least_squares (half order : ℕ) (h : order + 2 ≤ 2 * half + 1) (y : List α)
    (hn : half + 1 ≤ y.length) :
    ∃ ys, savitzkyGolay y (2 * half + 1 : ℕ) order 0 = .ok ys ∧ ys.length = y.length ∧
      ∀ i, half ≤ i → i + half < y.length → ∃ Q : α[X], Q.natDegree ≤ order ∧ ys[i]? = some (Q.eval (i : α)) ∧
        ∀ R : α[X], R.natDegree ≤ order →
          ∑ j ∈ Finset.range (2 * half + 1), (y.getD (i - half + j) 0 - Q.eval ((i : α) - half + j)) ^ 2 ≤
          ∑ j ∈ Finset.range (2 * half + 1), (y.getD (i - half + j) 0 - R.eval ((i : α) - half + j)) ^ 2 := by
  obtain ⟨p, ys, h1, h2, h3, h4⟩ := filter_spec half order h 0 y hn
  refine ⟨ys, ?_, h3, ?_⟩
  · rw [← h2]; exact savgol_eq y half order h 0
  · intro i hi1 hi2
    let v : Fin (2 * half + 1) → α := fun k => y.getD (i + half - k) 0
    let β := pinv α half order *ᵥ v
    let S : α[X] := ∑ l : Fin (order + 1), C (β l) * X ^ (l : ℕ)
    let Q : α[X] := S.comp (C (i : α) - X)
    have hval : ∀ k : Fin (2 * half + 1), p.getD (i + (2 * half - (k : ℕ))) 0 = v k := by
      intro k
      have hk := k.2
      obtain ⟨p', e1, -, e3, -⟩ := padded_spec half y hn
      rw [h1] at e1
      obtain rfl := Except.ok.inj e1
      rw [show i + (2 * half - (k : ℕ)) = half + (i + half - k) by omega, e3 _ (by omega)]
    have hSd : S.natDegree ≤ order := by
      refine natDegree_sum_le_of_forall_le _ _ ?_
      intro l _
      refine (natDegree_C_mul_X_pow_le _ _).trans ?_
      have := l.2
      omega
    have hlin : (C (i : α) - X : α[X]).natDegree ≤ 1 := by
      refine (natDegree_sub_le _ _).trans ?_
      simp
    have hQd : Q.natDegree ≤ order := by
      refine natDegree_comp_le.trans ?_
      calc S.natDegree * (C (i : α) - X : α[X]).natDegree ≤ order * 1 := Nat.mul_le_mul hSd hlin
        _ = order := mul_one _
    have hQev : ∀ u : α, Q.eval ((i : α) - u) = ∑ l : Fin (order + 1), β l * u ^ (l : ℕ) := by
      intro u
      simp only [Q, S, eval_comp, eval_finsetSum, eval_mul, eval_C, eval_pow, eval_X, eval_sub, sub_sub_cancel]
    have hpos : ∀ k : Fin (2 * half + 1), (i : α) - half + ((2 * half - (k : ℕ) : ℕ) : α) =
        (i : α) - (((k : ℕ) : α) - half) := by
      intro k
      have := k.2
      rw [Nat.cast_sub (by omega)]; push_cast; ring
    -- both sums as sums over the reversed window
    have hsum : ∀ R : α[X], ∑ j ∈ Finset.range (2 * half + 1),
        (y.getD (i - half + j) 0 - R.eval ((i : α) - half + j)) ^ 2 =
        ∑ k : Fin (2 * half + 1), (v k - R.eval ((i : α) - (((k : ℕ) : α) - half))) ^ 2 := by
      intro R
      rw [← Finset.sum_range_reflect, Finset.sum_range]
      apply Finset.sum_congr rfl
      intro k _
      have hk := k.2
      rw [show 2 * half + 1 - 1 - (k : ℕ) = 2 * half - k by omega, hpos k]
      simp only [v]
      rw [show i - half + (2 * half - (k : ℕ)) = i + half - k by omega]
    refine ⟨Q, hQd, ?_, ?_⟩
    · rw [h4 i (by omega)]
      simp only [hval]
      have h0 := hQev 0
      rw [sub_zero] at h0
      rw [h0, Finset.sum_eq_single (0 : Fin (order + 1))]
      · simp only [Fin.val_zero, pow_zero, mul_one]
        rfl
      · intro l _ hl
        have : (l : ℕ) ≠ 0 := fun e => hl (Fin.ext e)
        rw [zero_pow this, mul_zero]
      · intro hh; exact absurd (Finset.mem_univ _) hh
    · intro R hR
      rw [hsum Q, hsum R]
      have hT : (taylor (i : α) R).natDegree < order + 1 := by rw [natDegree_taylor]; omega
      have hRev : ∀ u : α, R.eval ((i : α) - u) =
          ∑ l : Fin (order + 1), ((taylor (i : α) R).coeff l * (-1) ^ (l : ℕ)) * u ^ (l : ℕ) := by
        intro u
        have h1 : R.eval ((i : α) - u) = (taylor (i : α) R).eval (-u) := by rw [taylor_eval]; congr 1; ring
        rw [h1, eval_eq_sum_range' hT,
          Fin.sum_univ_eq_sum_range (fun l => ((taylor (i : α) R).coeff l * (-1) ^ l) * u ^ l) (order + 1)]
        apply Finset.sum_congr rfl
        intro l _
        rw [neg_pow]; ring
      have hls := least_squares half order h v (fun l => (taylor (i : α) R).coeff l * (-1) ^ (l : ℕ))
      have e1 : ∀ k : Fin (2 * half + 1), Q.eval ((i : α) - (((k : ℕ) : α) - half)) =
          (design α half order *ᵥ β) k := by
        intro k
        rw [hQev]
        simp only [mulVec, dotProduct, design]
        exact Finset.sum_congr rfl (fun l _ => mul_comm _ _)
      have e2 : ∀ k : Fin (2 * half + 1), R.eval ((i : α) - (((k : ℕ) : α) - half)) =
          (design α half order *ᵥ (fun l => (taylor (i : α) R).coeff l * (-1) ^ (l : ℕ))) k := by
        intro k
        rw [hRev]
        simp only [mulVec, dotProduct, design]
        exact Finset.sum_congr rfl (fun l _ => mul_comm _ _)
      simp only [e1, e2]
      exact hls

/-! ### Ends of the signal and length -/

/-- **C106, rising lines, what holds.**  A signal on a straight line that does not fall is returned unchanged, including both
ends (`deriv = 0`, `order >= 1`). -/
theorem C106_rising_partial (half order : ℕ) (h : order + 2 ≤ 2 * half + 1) (ho : 1 ≤ order) (A B : α) (hB : 0 ≤ B)
    (y : List α) (hy : ∀ i, i < y.length → y[i]? = some (A + B * (i : α))) (hn : half + 1 ≤ y.length) :
    savitzkyGolay y (2 * half + 1 : ℕ) order 0 = .ok y := by
  obtain ⟨p, ys, h1, h2, h3, h4⟩ := filter_spec half order h 0 y hn
  have hsg := savgol_eq y half order h 0
  rw [h2] at hsg
  have : savitzkyGolay y (2 * half + 1 : ℕ) order 0 = .ok ys := hsg
  rw [this]
  congr 1
  apply List.ext_getElem?
  intro i
  by_cases hi : i < y.length
  · rw [h4 i hi, hy i hi]
    congr 1
    let P : α[X] := C A + C B * X
    have hP : P.natDegree ≤ order := by
      refine (natDegree_add_le _ _).trans ?_
      rw [natDegree_C]
      have := natDegree_C_mul_le B (X : α[X])
      rw [natDegree_X] at this
      omega
    have hPe : ∀ t : α, P.eval t = A + B * t := by intro t; simp [P]
    have hval : ∀ k : Fin (2 * half + 1), p.getD (i + (2 * half - (k : ℕ))) 0 =
        P.eval ((i : α) - (((k : ℕ) : α) - half)) := by
      intro k
      have hk := k.2
      obtain ⟨p', e1, -, e3, e4, e5⟩ := padded_spec half y hn
      rw [h1] at e1
      obtain rfl := Except.ok.inj e1
      rw [hPe]
      have hg : ∀ j, j < y.length → y.getD j 0 = A + B * (j : α) := fun j hj => getD_of_some (hy j hj)
      rcases Nat.lt_or_ge (i + (2 * half - k)) half with c1 | c1
      · rw [e4 _ c1, hg 0 (by omega), hg _ (by omega)]
        rw [Nat.cast_sub (by omega), Nat.cast_add, Nat.cast_sub (by omega)]
        push_cast
        have hc : (i : α) + (2 * half - (k : ℕ)) < half := by
          have : ((i + (2 * half - (k : ℕ)) : ℕ) : α) < (half : ℕ) := by exact_mod_cast c1
          rw [Nat.cast_add, Nat.cast_sub (by omega)] at this
          push_cast at this; exact this
        rw [abs_of_nonneg]
        · ring
        · have : 0 ≤ B * ((half : α) - (i + (2 * half - (k : ℕ)))) := mul_nonneg hB (by linarith)
          linarith
      · rcases Nat.lt_or_ge (i + (2 * half - k)) (half + y.length) with c2 | c2
        · obtain ⟨q, hq⟩ : ∃ q, i + (2 * half - (k : ℕ)) = half + q := ⟨i + (2 * half - k) - half, by omega⟩
          rw [hq, e3 q (by omega), hg q (by omega)]
          have : (q : α) = (i : α) - ((k : ℕ) - half) := by
            have : ((i + (2 * half - (k : ℕ)) : ℕ) : α) = ((half + q : ℕ) : α) := by exact_mod_cast hq
            rw [Nat.cast_add, Nat.cast_sub (by omega)] at this
            push_cast at this; linarith
          rw [this]
        · obtain ⟨q, hq⟩ : ∃ q, i + (2 * half - (k : ℕ)) = half + y.length + q :=
            ⟨i + (2 * half - k) - (half + y.length), by omega⟩
          rw [hq, e5 q (by omega), hg _ (by omega), hg _ (by omega)]
          have e : (q : α) = (i : α) - ((k : ℕ) - half) - y.length := by
            have : ((i + (2 * half - (k : ℕ)) : ℕ) : α) = ((half + y.length + q : ℕ) : α) := by exact_mod_cast hq
            rw [Nat.cast_add, Nat.cast_sub (by omega)] at this
            push_cast at this; linarith
          have hq0 : (0 : α) ≤ q := Nat.cast_nonneg q
          rw [Nat.cast_sub (by omega), Nat.cast_sub (by omega), Nat.cast_sub (by omega)]
          push_cast
          rw [abs_of_nonpos]
          · rw [e]; ring
          · have : 0 ≤ B * (1 + (q : α)) := mul_nonneg hB (by linarith)
            linarith
    simp only [hval]
    rw [kernel_poly half order h 0 P hP]
    simp [hPe]
  · rw [List.getElem?_eq_none (by omega), List.getElem?_eq_none (by omega)]

theorem pinv_one_one : pinv ℚ 1 1 = !![1/3, 1/3, 1/3; -1/2, 0, 1/2] := by
  have hd : (design ℚ 1 1)ᵀ * design ℚ 1 1 = !![3, 0; 0, 2] := by
    ext i j
    fin_cases i <;> fin_cases j <;>
      simp [Matrix.mul_apply, Fin.sum_univ_three, design] <;> norm_num
  have hinv : ((design ℚ 1 1)ᵀ * design ℚ 1 1)⁻¹ = !![1/3, 0; 0, 1/2] := by
    apply Matrix.inv_eq_left_inv
    rw [hd]
    ext i j
    fin_cases i <;> fin_cases j <;> simp [Matrix.mul_apply, Fin.sum_univ_two]
  unfold pinv
  rw [hinv]
  ext i k
  fin_cases i <;> fin_cases k <;>
    simp [Matrix.mul_apply, Fin.sum_univ_two, design] <;> norm_num

/-- **C106 refuted for falling lines.**  The falling line 4, 3, 2, 1, 0 is changed at both ends. -/
theorem C106_falling_refuted :
    savitzkyGolay ([4, 3, 2, 1, 0] : List ℚ) 3 1 0 = .ok [10 / 3, 3, 2, 1, 2 / 3] := by
  have h := savgol_eq ([4, 3, 2, 1, 0] : List ℚ) 1 1 (by norm_num) 0
  have h' : savitzkyGolay ([4, 3, 2, 1, 0] : List ℚ) 3 1 0 =
      filterWith 1 (List.ofFn (fun k => pinv ℚ 1 1 0 k)) ([4, 3, 2, 1, 0] : List ℚ) := h
  rw [h', pinv_one_one]
  have : List.ofFn (fun k => (!![1/3, 1/3, 1/3; -1/2, 0, 1/2] : Matrix (Fin 2) (Fin 3) ℚ) 0 k) = [1/3, 1/3, 1/3] := by
    simp [List.ofFn_succ]
  rw [this]
  decide +kernel

/-- **C106, length.**  A signal with more than `half` samples gives as many samples; a single sample gives `window_size`
samples. -/
theorem C106_length_partial (half order d : ℕ) (h : order + 2 ≤ 2 * half + 1) (hd : d ≤ order) (y : List α) :
    (half + 1 ≤ y.length → ∃ ys, savitzkyGolay y (2 * half + 1 : ℕ) order d = .ok ys ∧ ys.length = y.length) ∧
    (y.length = 1 → ∃ ys, savitzkyGolay y (2 * half + 1 : ℕ) order d = .ok ys ∧ ys.length = 2 * half + 1) ∧
    (y = [] → savitzkyGolay y (2 * half + 1 : ℕ) order d = .error .indexError) := by
  have hd' : d < order + 1 := by omega
  have hs := savgol_eq y half order h ⟨d, hd'⟩
  refine ⟨?_, ?_, ?_⟩
  · intro hy
    obtain ⟨p, ys, h1, h2, h3, h4⟩ := filter_spec half order h ⟨d, hd'⟩ y hy
    exact ⟨ys, by rw [← h2]; exact hs, h3⟩
  · intro hy
    obtain ⟨a, rfl⟩ := List.length_eq_one_iff.1 hy
    have hp : padded half [a] = .ok [a] := by
      simp [padded]
    refine ⟨convolveValid (List.ofFn (fun k => pinv α half order ⟨d, hd'⟩ k)) [a], ?_, ?_⟩
    · rw [show savitzkyGolay [a] (2 * half + 1 : ℕ) order d = _ from hs]
      unfold filterWith; rw [hp]
    · unfold convolveValid
      rw [List.length_ofFn, if_neg (by simp)]
      simp
  · intro hy
    subst hy
    rw [show savitzkyGolay [] (2 * half + 1 : ℕ) order d = _ from hs]
    rfl

/-- Window 3, order 1 on a parabola and its line kernel; the hypotheses of C104 hold for `X + 1` and order 1. -/
example : filterWith 1 ([1/3, 1/3, 1/3] : List ℚ) [0, 1, 4, 9, 16] = .ok [0, 5/3, 14/3, 29/3, 16] := by decide +kernel

example : ∃ ys, savitzkyGolay ([1, 2, 3, 4] : List ℚ) (2 * 1 + 1 : ℕ) (1 : ℕ) 0 = .ok ys ∧ ys.length = 4 ∧
      ∀ i, 1 ≤ i → i + 1 < 4 → ys[i]? = ([1, 2, 3, 4] : List ℚ)[i]? := by
  refine C104_smoothing 1 1 (by norm_num) (X + C 1 : ℚ[X]) ?_ [1, 2, 3, 4] ?_ (by simp)
  · exact natDegree_X_add_C (1 : ℚ) |>.le
  · intro i hi
    have : i < 4 := hi
    rcases i with _ | _ | _ | _ | i <;> first | omega | (simp; try norm_num)

/-- **C104 (negative derivatives).**  A negative `deriv` counts from the end: `-1` is the derivative of order `order`, down to `-order-1`, which is
smoothing; smaller ones raise IndexError. -/
theorem C104_negative (y : List α) (window order : ℤ) (k : ℕ) (hk : 0 < k) :
    (k ≤ order.natAbs + 1 → savitzkyGolay y window order (-k) = savitzkyGolay y window order (order.natAbs + 1 - k)) ∧
    (order.natAbs + 1 < k → window.natAbs % 2 = 1 → order.natAbs + 2 ≤ window.natAbs → savitzkyGolay y window order (-k) = .error .indexError) := by
  constructor
  · intro h
    have : ∀ half, kernel α half order.natAbs (-k) = kernel α half order.natAbs (order.natAbs + 1 - k) := by
      intro half
      unfold kernel
      have e : rowIndex (order.natAbs + 1) (-k) = rowIndex (order.natAbs + 1) (order.natAbs + 1 - k) := by
        unfold rowIndex
        rw [if_pos (by omega), if_neg (by omega)]
        have : -(k : ℤ) + ((order.natAbs + 1 : ℕ) : ℤ) = (order.natAbs : ℤ) + 1 - k := by omega
        rw [this]
      rw [e]
    unfold savitzkyGolay
    simp only [this]
  · intro h h1 h2
    unfold savitzkyGolay checkWindow
    have e1 : ¬ (window.natAbs % 2 ≠ 1 ∨ window.natAbs < 1) := by omega
    have e2 : ¬ (window.natAbs < order.natAbs + 2) := by omega
    simp only [if_neg e1, if_neg e2]
    unfold kernel rowIndex
    have h3 : ¬ (0 : ℤ) ≤ -(k : ℤ) + ((order.natAbs + 1 : ℕ) : ℤ) := by omega
    simp only [if_pos (by omega : -(k : ℤ) < 0), if_neg h3]
    split_ifs <;> rfl

end Wafo.Savgol

import Verif.Cov.SpecModel
import Mathlib.Analysis.Calculus.IteratedDeriv.Defs
import Mathlib.Analysis.SpecialFunctions.ExpDeriv
import Mathlib.Analysis.Complex.RealDeriv

/-! Lemmas on the transforms between spectrum and covariance function. -/

set_option linter.unusedSectionVars false

namespace Wafo.Cov
open Finset

noncomputable section

theorem sum_append (A B : List ℂ) (F : ℕ → ℂ) :
    ∑ j ∈ range (A.length + B.length), (A ++ B).getD j 0 * F j =
      ∑ j ∈ range A.length, A.getD j 0 * F j + ∑ j ∈ range B.length, B.getD j 0 * F (A.length + j) := by
  rw [sum_range_add]
  congr 1
  · refine sum_congr rfl fun j hj => ?_
    rw [List.getD_eq_getElem?_getD, List.getD_eq_getElem?_getD, List.getElem?_append_left (mem_range.1 hj)]
  · refine sum_congr rfl fun j hj => ?_
    rw [List.getD_eq_getElem?_getD, List.getD_eq_getElem?_getD, List.getElem?_append_right (by omega), Nat.add_sub_cancel_left]

theorem sum_reverse (B : List ℂ) (F : ℕ → ℂ) :
    ∑ j ∈ range B.length, B.reverse.getD j 0 * F j = ∑ j ∈ range B.length, B.getD j 0 * F (B.length - 1 - j) := by
  rw [← sum_range_reflect]
  refine sum_congr rfl fun j hj => ?_
  have := mem_range.1 hj
  rw [List.getD_eq_getElem?_getD, List.getD_eq_getElem?_getD, List.getElem?_reverse (by omega),
    show B.length - 1 - (B.length - 1 - j) = j by omega]

/-- The sum over an embedded pair of arrays. -/
theorem sum_embed (n N : ℕ) (hn : 2 ≤ n) (hN : 2 * n - 2 ≤ N) (a b : List ℂ) (ha : a.length = n) (hb : b.length = n) (F : ℕ → ℂ) :
    ∑ j ∈ range N, (embed (N + 2 - 2 * n) a b).getD j 0 * F j =
      ∑ j ∈ range n, a.getD j 0 * F j + ∑ i ∈ range (n - 2), b.getD (i + 1) 0 * F (N - (i + 1)) := by
  set t := (b.take (b.length - 1)).drop 1 with ht
  have htl : t.length = n - 2 := by rw [ht]; simp [hb]; omega
  obtain ⟨m, hm⟩ : ∃ m, m = N + 2 - 2 * n := ⟨_, rfl⟩
  rw [← hm]
  have hlen : N = (a ++ List.replicate m (0 : ℂ)).length + t.reverse.length := by
    simp [ha, htl]; omega
  have hz : ∑ j ∈ range (List.replicate m (0 : ℂ)).length, (List.replicate m (0 : ℂ)).getD j 0 * F (a.length + j) = 0 := by
    refine sum_eq_zero fun j hj => ?_
    have := mem_range.1 hj
    rw [List.length_replicate] at this
    rw [List.getD_eq_getElem?_getD, List.getElem?_replicate, if_pos this]
    simp
  have hmain : ∑ j ∈ range ((a ++ List.replicate m (0 : ℂ)).length + t.reverse.length),
      ((a ++ List.replicate m (0 : ℂ)) ++ t.reverse).getD j 0 * F j =
      ∑ j ∈ range n, a.getD j 0 * F j + ∑ i ∈ range (n - 2), b.getD (i + 1) 0 * F (N - (i + 1)) := by
    rw [sum_append, List.length_append, sum_append, hz, add_zero, ha]
    congr 1
    rw [List.length_reverse, sum_reverse t fun j => F (n + (List.replicate m (0 : ℂ)).length + j), htl]
    refine sum_congr rfl fun i hi => ?_
    have := mem_range.1 hi
    congr 1
    · rw [ht, List.getD_eq_getElem?_getD, List.getD_eq_getElem?_getD, List.getElem?_drop, List.getElem?_take_of_lt (by omega),
        Nat.add_comm 1 i]
    · simp only [List.length_replicate]
      congr 1
      omega
  rw [← hlen] at hmain
  exact hmain

/-- The product of two embedded pairs. -/
theorem embed_mul (m : ℕ) (a b c d : List ℂ) (hac : a.length = c.length) (hbd : b.length = d.length) :
    List.zipWith (fun w r => -Complex.I * w * r) (embed m a b) (embed m c d) =
      embed m (List.zipWith (fun w r => -Complex.I * w * r) a c) (List.zipWith (fun w r => -Complex.I * w * r) b d) := by
  unfold embed
  rw [List.zipWith_append (by simp [hac]), List.zipWith_append hac]
  congr 1
  · congr 1
    simp
  · rw [← List.reverse_zipWith (by simp [hbd]), List.take_zipWith, List.drop_zipWith]
    simp [hbd]

/-- The values of the periodogram and of its products with the frequencies: `a` for the first part, `b` for the mirrored part. -/
theorem rper_eq (s : Spec) (N n : ℕ) (hargs : s.args.length = n) (hdata : s.data.length = n) (i : ℕ) :
    ∃ a b : List ℂ, rper s N i = embed (N + 2 - 2 * n) a b ∧ a.length = n ∧ b.length = n ∧
      ∀ j < n, a.getD j 0 = (-Complex.I * ((angular s).getD j 0 : ℝ)) ^ i * ((s.data.getD j 0 * lastOf s.args : ℝ) : ℂ) ∧
        b.getD j 0 = (Complex.I * ((angular s).getD j 0 : ℝ)) ^ i * ((s.data.getD j 0 * lastOf s.args : ℝ) : ℂ) := by
  have hang : (angular s).length = n := by
    unfold angular
    cases s.ftype <;> simp [hargs]
  induction i with
  | zero =>
    refine ⟨toC (s.data.map (· * lastOf s.args)), toC (s.data.map (· * lastOf s.args)), ?_, by simp [toC, hdata],
      by simp [toC, hdata], fun j hj => ?_⟩
    · unfold rper; rw [hargs]
    · have : (toC (s.data.map (· * lastOf s.args))).getD j 0 = ((s.data.getD j 0 * lastOf s.args : ℝ) : ℂ) := by
        rw [toC_getD, List.getD_eq_getElem?_getD, List.getD_eq_getElem?_getD, List.getElem?_map,
          List.getElem?_eq_getElem (by omega)]
        rfl
      rw [this]; simp
  | succ i ih =>
    obtain ⟨a, b, h, ha, hb, hv⟩ := ih
    have hw : (toC (angular s)).length = n := by simp [toC, hang]
    refine ⟨List.zipWith (fun w r => -Complex.I * w * r) (toC (angular s)) a,
      List.zipWith (fun w r => -Complex.I * w * r) ((toC (angular s)).map fun v => -v) b, ?_, ?_, ?_, fun j hj => ?_⟩
    · show List.zipWith _ (embed (N + 2 - 2 * s.args.length) _ _) (rper s N i) = _
      rw [h, hargs]
      exact embed_mul _ _ _ _ _ (by rw [hw, ha]) (by simp [hw, hb])
    · simp [hw, ha]
    · simp [hw, hb]
    · have hg : ∀ (u v : List ℂ), u.length = n → v.length = n →
          (List.zipWith (fun w r => -Complex.I * w * r) u v).getD j 0 = -Complex.I * u.getD j 0 * v.getD j 0 := by
        intro u v hu hv
        rw [List.getD_eq_getElem?_getD, List.getD_eq_getElem?_getD, List.getD_eq_getElem?_getD, List.getElem?_zipWith,
          List.getElem?_eq_getElem (by omega), List.getElem?_eq_getElem (by omega)]
        rfl
      have hneg : ((toC (angular s)).map fun v => -v).getD j 0 = -((toC (angular s)).getD j 0) := by
        rw [List.getD_eq_getElem?_getD, List.getD_eq_getElem?_getD, List.getElem?_map, List.getElem?_eq_getElem (by omega)]
        rfl
      rw [hg _ _ hw ha, hg _ _ (by simp [hw]) hb, hneg, toC_getD, (hv j hj).1, (hv j hj).2]
      constructor <;> ring

/-- The terms of a covariance function and of its derivatives: `i`-th derivative of the cosine of frequency `w` at time `t`. -/
def term (w t : ℝ) (i : ℕ) : ℝ := ((-Complex.I * (w : ℂ)) ^ i * Complex.exp (-((w * t : ℝ) : ℂ) * Complex.I)).re

theorem term_zero (w t : ℝ) : term w t 0 = Real.cos (w * t) := by
  unfold term
  rw [pow_zero, one_mul, exp_re]

theorem term_deriv (w t : ℝ) (i : ℕ) : HasDerivAt (fun t => term w t i) (term w t (i + 1)) t := by
  unfold term
  have h : HasDerivAt (fun t : ℂ => (-Complex.I * (w : ℂ)) ^ i * Complex.exp (-(w * t) * Complex.I))
      ((-Complex.I * (w : ℂ)) ^ i * (Complex.exp (-(w * (t : ℂ)) * Complex.I) * (-(w * 1) * Complex.I))) (t : ℂ) :=
    (((((hasDerivAt_id (t : ℂ)).const_mul (w : ℂ)).neg).mul_const Complex.I).cexp).const_mul _
  have h2 := h.real_of_complex
  convert h2 using 1
  · funext u
    push_cast
    rfl
  · push_cast
    congr 1
    ring

/-- The mirrored term has the same real part. -/
theorem term_mirror (w t : ℝ) (i : ℕ) :
    ((Complex.I * (w : ℂ)) ^ i * Complex.exp (((w * t : ℝ) : ℂ) * Complex.I)).re = term w t i := by
  unfold term
  rw [← Complex.conj_re, map_mul, map_pow, map_mul, Complex.conj_I, Complex.conj_ofReal, ← Complex.exp_conj, map_mul,
    Complex.conj_I, Complex.conj_ofReal]
  congr 3
  ring

theorem exp_mirror (N j k : ℕ) (hN : 0 < N) (hj : j ≤ N) :
    Complex.exp (-(2 * Real.pi * ((N - j : ℕ) : ℝ) * k / N : ℝ) * Complex.I) =
      Complex.exp ((2 * Real.pi * j * k / N : ℝ) * Complex.I) := by
  have hN' : (N : ℂ) ≠ 0 := by exact_mod_cast hN.ne'
  have : (-(2 * Real.pi * ((N - j : ℕ) : ℝ) * k / N : ℝ) * Complex.I : ℂ) =
      (2 * Real.pi * j * k / N : ℝ) * Complex.I - (k : ℤ) * (2 * Real.pi * Complex.I) := by
    rw [Nat.cast_sub hj]
    push_cast
    field_simp
    ring
  rw [this, Complex.exp_sub, Complex.exp_int_mul_two_pi_mul_I, div_one]

/-- The transform of the periodogram, or of its product with the frequencies, in terms of the weights of the trapezoidal rule. -/
theorem fft_rper (s : Spec) (N n : ℕ) (hn : 2 ≤ n) (hN : 2 * n - 2 ≤ N) (hargs : s.args.length = n) (hdata : s.data.length = n)
    (i k : ℕ) (t : ℝ) (ht : ∀ j < n, 2 * Real.pi * (j : ℝ) * k / N = (angular s).getD j 0 * t) :
    (fft N (rper s N i) k).re =
      (∑ j ∈ range n, s.data.getD j 0 * term ((angular s).getD j 0) t i +
        ∑ j ∈ range (n - 2), s.data.getD (j + 1) 0 * term ((angular s).getD (j + 1) 0) t i) * lastOf s.args := by
  obtain ⟨a, b, h, ha, hb, hv⟩ := rper_eq s N n hargs hdata i
  have hN0 : 0 < N := by omega
  unfold fft
  rw [h, sum_embed n N hn hN a b ha hb, Complex.add_re, Complex.re_sum, Complex.re_sum, add_mul, sum_mul, sum_mul]
  congr 1
  · refine sum_congr rfl fun j hj => ?_
    rw [(hv j (mem_range.1 hj)).1, ht j (mem_range.1 hj)]
    rw [show (-Complex.I * (((angular s).getD j 0 : ℝ) : ℂ)) ^ i * ((s.data.getD j 0 * lastOf s.args : ℝ) : ℂ) *
        Complex.exp (-(((angular s).getD j 0 * t : ℝ) : ℂ) * Complex.I) =
      ((s.data.getD j 0 * lastOf s.args : ℝ) : ℂ) * ((-Complex.I * (((angular s).getD j 0 : ℝ) : ℂ)) ^ i *
        Complex.exp (-(((angular s).getD j 0 * t : ℝ) : ℂ) * Complex.I)) by ring, Complex.re_ofReal_mul]
    unfold term
    ring
  · refine sum_congr rfl fun j hj => ?_
    have := mem_range.1 hj
    rw [(hv (j + 1) (by omega)).2, exp_mirror N (j + 1) k hN0 (by omega), ht (j + 1) (by omega)]
    rw [show (Complex.I * (((angular s).getD (j + 1) 0 : ℝ) : ℂ)) ^ i * ((s.data.getD (j + 1) 0 * lastOf s.args : ℝ) : ℂ) *
        Complex.exp ((((angular s).getD (j + 1) 0 * t : ℝ) : ℂ) * Complex.I) =
      ((s.data.getD (j + 1) 0 * lastOf s.args : ℝ) : ℂ) * ((Complex.I * (((angular s).getD (j + 1) 0 : ℝ) : ℂ)) ^ i *
        Complex.exp ((((angular s).getD (j + 1) 0 * t : ℝ) : ℂ) * Complex.I)) by ring, Complex.re_ofReal_mul, term_mirror]
    ring

end

end Wafo.Cov

import Mathlib.Analysis.SpecialFunctions.Integrals.Basic
import Mathlib.MeasureTheory.Function.JacobianOneDim
import Mathlib.MeasureTheory.Integral.IntegralEqImproper
import Verif.Kde.Fast

/-! Transformed densities, kernel regression, binomial intervals. -/

set_option linter.unusedSectionVars false

namespace Wafo.Kde

open Real MeasureTheory Set

/-! ### Transformed densities -/

/-- The density estimate in one dimension. -/
noncomputable def KDE.dens {n : ℕ} (k : KDE 1 n) (c t : ℝ) : ℝ := k.sumAt (fun _ => 1) 0 (fun _ => t) / (k.deth * n * c)

theorem integral_fin_one (F : (Fin 1 → ℝ) → ℝ) : ∫ t : ℝ, F (fun _ => t) = ∫ x, F x := by
  have := (volume_preserving_funUnique (Fin 1) ℝ).symm.integral_comp
    (MeasurableEquiv.funUnique (Fin 1) ℝ).symm.measurableEmbedding F
  exact this

theorem dens_integral {n : ℕ} (k : KDE 1 n) (hr : Ready k) (c : ℝ) (hc : 0 < c)
    (hi : ∫ x : Fin 1 → ℝ, kernelRaw k.kernel.r x k.kernel.shape = c) (hn : n ≠ 0) : ∫ t, k.dens c t = 1 := by
  unfold KDE.dens
  rw [integral_fin_one fun x => k.sumAt (fun _ => 1) 0 x / (k.deth * n * c)]
  exact sumAt_integral k c hc hi hr.det hr.inv hr.lam hn

theorem dens_nonneg {n : ℕ} (k : KDE 1 n) (hr : Ready k) (c : ℝ) (hc : 0 < c) (t : ℝ) : 0 ≤ k.dens c t :=
  div_nonneg (sumAt_nonneg k hr.lam _) (mul_nonneg (mul_nonneg hr.det.le n.cast_nonneg) hc.le)

theorem tkdeEval_eq {n : ℕ} (store : ℝ → ℝ) (v : ℝ) (k : KDE 1 n) (c : ℝ)
    (hc : normFactor k.kernel.r 1 (some n) k.kernel.shape = .ok c) (pts : List ℝ) (h2 : 2 ≤ pts.length) :
    tkdeEval store v k pts = .ok (pts.map fun x => k.dens c (transform store v x) * scaleFactor v x) := by
  rw [tkdeEval, evalPoints_eq k _ _ _ c hc]
  simp only [scalePdf, List.map_map, List.length_map, if_neg (show ¬ pts.length < 2 by omega)]
  congr 1
  apply List.ext_getElem
  · simp
  · intro i _ _
    simp [KDE.dens]

theorem integral_log_subst (g : ℝ → ℝ) : ∫ x in Ioi 0, g (log x) * x ^ (-1 : ℝ) = ∫ t, g t := by
  have h := integral_image_eq_integral_abs_deriv_smul (s := univ) (f := exp) (f' := exp) MeasurableSet.univ
    (fun x _ => (hasDerivAt_exp x).hasDerivWithinAt) exp_injective.injOn fun x => g (log x) * x ^ (-1 : ℝ)
  rw [image_univ, range_exp] at h
  rw [h, setIntegral_univ]
  refine integral_congr_ae (Filter.Eventually.of_forall fun t => ?_)
  simp only [abs_of_pos (exp_pos t), log_exp, smul_eq_mul]
  rw [rpow_neg_one]
  field_simp

theorem integral_pow_subst (g : ℝ → ℝ) (v : ℝ) (hv : v ≠ 0) :
    ∫ x in Ioi 0, g (x ^ v) * (x ^ (v - 1) * |v|) = ∫ t in Ioi 0, g t := by
  rw [← integral_comp_rpow_Ioi g hv]
  refine integral_congr_ae (Filter.Eventually.of_forall fun t => ?_)
  simp only [smul_eq_mul]
  ring

/-! ### Kernel regression -/

/-- The weight of datum `i` at the point `x`. -/
noncomputable def KDE.weight {d n : ℕ} (k : KDE d n) (x : Fin d → ℝ) (i : Fin n) : ℝ :=
  kernelRaw k.kernel.r (((1 / k.lam i) • k.invHs).mulVec (x - k.data i)) k.kernel.shape / k.lam i ^ d

theorem weight_nonneg {d n : ℕ} (k : KDE d n) (hr : Ready k) (x : Fin d → ℝ) (i : Fin n) : 0 ≤ k.weight x i :=
  div_nonneg (kernelRaw_nonneg _ _ _) (pow_nonneg (hr.lam i).le _)

theorem sumAt_weight {d n : ℕ} (k : KDE d n) (y : Fin n → ℝ) (r : ℕ) (x : Fin d → ℝ) :
    k.sumAt y r x = ∑ i, momentFun r (x - k.data i) * (y i * k.weight x i) := by
  unfold KDE.sumAt KDE.weight
  exact Finset.sum_congr rfl fun i _ => by ring

theorem kregEval_eq {d n : ℕ} (tiny big : ℝ) (k : KDE d n) (y : Fin n → ℝ) (p : ℕ) (x : Fin d → ℝ) (c : ℝ)
    (hc : normFactor k.kernel.r d (some n) k.kernel.shape = .ok c) :
    kregEval tiny big k y p x = open Classical in
      let D := k.deth * n * c
      let s (r : ℕ) := k.sumAt (fun _ => 1) r x / D
      let t (r : ℕ) := k.sumAt y r x / D
      if p = 0 then .ok (some (clipTo big (t 0 / (s 0 + tiny))))
      else if p = 1 then
        if s 2 * s 0 - s 1 ^ 2 = 0 then .ok none
        else .ok (some (clipTo big ((s 2 * t 0 - s 1 * t 1) / (s 2 * s 0 - s 1 ^ 2))))
      else .ok none := by
  rw [kregEval, evalPoints_eq k _ _ _ c hc, evalPoints_eq k _ _ _ c hc, evalPoints_eq k _ _ _ c hc,
    evalPoints_eq k _ _ _ c hc, evalPoints_eq k _ _ _ c hc]
  simp only [List.map_cons, List.map_nil]

theorem clipTo_of_le (big x : ℝ) (h : |x| ≤ big) : clipTo big x = x := by
  obtain ⟨h1, h2⟩ := abs_le.mp h
  rw [clipTo, min_eq_left h2, max_eq_right h1]

theorem clipTo_nonneg (big x : ℝ) (hb : 0 ≤ big) (hx : 0 ≤ x) : 0 ≤ clipTo big x := by
  rw [clipTo]
  exact le_max_of_le_right (le_min hx hb)

theorem local_linear {n : ℕ} (w u : Fin n → ℝ) (a b : ℝ) (D : ℝ)
    (hden : (∑ i, u i ^ 2 * w i) / D * ((∑ i, w i) / D) - ((∑ i, u i * w i) / D) ^ 2 ≠ 0) :
    ((∑ i, u i ^ 2 * w i) / D * ((∑ i, (a + b * u i) * w i) / D)
        - (∑ i, u i * w i) / D * ((∑ i, u i * ((a + b * u i) * w i)) / D))
      / ((∑ i, u i ^ 2 * w i) / D * ((∑ i, w i) / D) - ((∑ i, u i * w i) / D) ^ 2) = a := by
  have e0 : ∑ i, (a + b * u i) * w i = a * ∑ i, w i + b * ∑ i, u i * w i := by
    rw [Finset.mul_sum, Finset.mul_sum, ← Finset.sum_add_distrib]
    exact Finset.sum_congr rfl fun i _ => by ring
  have e1 : ∑ i, u i * ((a + b * u i) * w i) = a * ∑ i, u i * w i + b * ∑ i, u i ^ 2 * w i := by
    rw [Finset.mul_sum, Finset.mul_sum, ← Finset.sum_add_distrib]
    exact Finset.sum_congr rfl fun i _ => by ring
  rw [e0, e1, div_eq_iff hden]
  ring

theorem moment_det_pos {n : ℕ} (w u : Fin n → ℝ) (hw : ∀ i, 0 ≤ w i) (i j : Fin n) (hi : 0 < w i) (hj : 0 < w j)
    (hij : u i ≠ u j) : 0 < (∑ i, u i ^ 2 * w i) * (∑ i, w i) - (∑ i, u i * w i) ^ 2 := by
  have h0 : 0 < ∑ i, w i := Finset.sum_pos' (fun i _ => hw i) ⟨i, Finset.mem_univ _, hi⟩
  set m := (∑ i, u i * w i) / ∑ i, w i with hm
  have e : (∑ i, u i ^ 2 * w i) * (∑ i, w i) - (∑ i, u i * w i) ^ 2
      = (∑ i, w i) * ∑ i, (u i - m) ^ 2 * w i := by
    have : ∑ i, (u i - m) ^ 2 * w i = ∑ i, u i ^ 2 * w i - 2 * m * ∑ i, u i * w i + m ^ 2 * ∑ i, w i := by
      rw [Finset.mul_sum, Finset.mul_sum, ← Finset.sum_sub_distrib, ← Finset.sum_add_distrib]
      exact Finset.sum_congr rfl fun i _ => by ring
    rw [this, hm]
    field_simp
    ring
  rw [e]
  refine mul_pos h0 ?_
  have hne : u i ≠ m ∨ u j ≠ m := by
    by_contra h
    push Not at h
    exact hij (h.1.trans h.2.symm)
  rcases hne with h | h
  · exact Finset.sum_pos' (fun l _ => mul_nonneg (sq_nonneg _) (hw l))
      ⟨i, Finset.mem_univ _, mul_pos (by have := sub_ne_zero.mpr h; positivity) hi⟩
  · exact Finset.sum_pos' (fun l _ => mul_nonneg (sq_nonneg _) (hw l))
      ⟨j, Finset.mem_univ _, mul_pos (by have := sub_ne_zero.mpr h; positivity) hj⟩

/-! ### Wilson's interval -/

theorem wilson_mem (z0 n p : ℝ) (hz : z0 ≠ 0) (hn : 0 ≤ n) (h0 : 0 ≤ p) (h1 : p ≤ 1) (q : ℝ) :
    (wilson z0 n p).1 ≤ q ∧ q ≤ (wilson z0 n p).2 ↔ n * (p - q) ^ 2 ≤ z0 ^ 2 * (q * (1 - q)) := by
  have hz2 : 0 < z0 ^ 2 := by positivity
  set N := n / z0 ^ 2 with hN
  have hN0 : 0 ≤ N := div_nonneg hn hz2.le
  have hnN : n = N * z0 ^ 2 := by rw [hN]; field_simp
  have hw : √(N * p * (1 - p) + 0.25) ≤ 1 + N := by
    rw [sqrt_le_left (by linarith)]
    have : p * (1 - p) ≤ 1 := by nlinarith
    nlinarith [mul_nonneg hN0 (mul_nonneg h0 (sub_nonneg.mpr h1))]
  have hmin : min (√(N * p * (1 - p) + 0.25) / (1 + N)) 1 = √(N * p * (1 - p) + 0.25) / (1 + N) :=
    min_eq_left ((div_le_one (by linarith)).mpr hw)
  have hS : 0 ≤ N * p * (1 - p) + 0.25 := by
    have := mul_nonneg (mul_nonneg hN0 h0) (sub_nonneg.mpr h1); linarith
  have hP : (0 : ℝ) < 1 + N := by linarith
  have e : (wilson z0 n p).1 ≤ q ∧ q ≤ (wilson z0 n p).2
      ↔ |(1 + N) * q - (p * N + 0.5)| ≤ √(N * p * (1 - p) + 0.25) := by
    rw [wilson]
    simp only
    rw [← hN, hmin, ← sub_div, ← add_div, div_le_iff₀ hP, le_div_iff₀ hP, abs_le]
    constructor <;> rintro ⟨a, b⟩ <;> constructor <;> linarith
  have habs : |(1 + N) * q - (p * N + 0.5)| ≤ √(N * p * (1 - p) + 0.25)
      ↔ ((1 + N) * q - (p * N + 0.5)) ^ 2 ≤ N * p * (1 - p) + 0.25 := by
    rw [← sqrt_sq_eq_abs]
    exact sqrt_le_sqrt_iff hS
  rw [e, habs, hnN]
  have : (N * z0 ^ 2 * (p - q) ^ 2 ≤ z0 ^ 2 * (q * (1 - q))) ↔ N * (p - q) ^ 2 ≤ q * (1 - q) := by
    rw [show N * z0 ^ 2 * (p - q) ^ 2 = z0 ^ 2 * (N * (p - q) ^ 2) by ring]
    exact mul_le_mul_iff_right₀ hz2
  rw [this]
  have key : ((1 + N) * q - (p * N + 0.5)) ^ 2 - (N * p * (1 - p) + 0.25)
      = (1 + N) * (N * (p - q) ^ 2 - q * (1 - q)) := by norm_num; ring
  constructor
  · intro h
    by_contra hc
    push Not at hc
    nlinarith [mul_pos hP (sub_pos.mpr hc)]
  · intro h
    nlinarith [mul_nonneg hP.le (sub_nonneg.mpr h)]

theorem searchBest_fold {α : Type*} [Field α] [LinearOrder α] [IsStrictOrderedRing α] (score : α → α) (hs : List α)
    (b : α × α) (hb : b.2 = score b.1) :
    let r := hs.foldl (fun (b : α × α) hi => if score hi ≤ b.2 then (hi, score hi) else b) b
    r.2 = score r.1 ∧ r.2 ≤ b.2 ∧ (∀ h ∈ hs, r.2 ≤ score h) ∧
      (r = b ∧ (∀ h ∈ hs, r.2 < score h) ∨ ∃ s t, hs = s ++ r.1 :: t ∧ ∀ h ∈ t, r.2 < score h) := by
  induction hs generalizing b with
  | nil => simp [hb]
  | cons h t ih =>
    simp only [List.foldl_cons]
    by_cases hle : score h ≤ b.2
    · rw [if_pos hle]
      obtain ⟨h1, h2, h3, h4⟩ := ih (h, score h) rfl
      refine ⟨h1, h2.trans hle, ?_, Or.inr ?_⟩
      · intro x hx
        rcases List.mem_cons.mp hx with rfl | hx
        · exact h2
        · exact h3 x hx
      · rcases h4 with ⟨h5, h6⟩ | ⟨s, t', h5, h6⟩
        · exact ⟨[], t, by rw [h5]; rfl, h6⟩
        · exact ⟨h :: s, t', by rw [h5]; simp [← h5], h6⟩
    · rw [if_neg hle]
      obtain ⟨h1, h2, h3, h4⟩ := ih b hb
      push Not at hle
      refine ⟨h1, h2, ?_, ?_⟩
      · intro x hx
        rcases List.mem_cons.mp hx with rfl | hx
        · exact h2.trans hle.le
        · exact h3 x hx
      · rcases h4 with ⟨h5, h6⟩ | ⟨s, t', h5, h6⟩
        · refine Or.inl ⟨h5, ?_⟩
          intro x hx
          rcases List.mem_cons.mp hx with rfl | hx
          · rw [h5]; exact hle
          · exact h6 x hx
        · exact Or.inr ⟨h :: s, t', by rw [h5]; simp [← h5], h6⟩

end Wafo.Kde

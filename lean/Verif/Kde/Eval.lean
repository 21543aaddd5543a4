import Mathlib.MeasureTheory.Function.JacobianOneDim
import Mathlib.Analysis.SpecialFunctions.Log.Deriv
import Verif.Kde.Density

/-! Evaluation of a kernel density estimate. -/

set_option linter.unusedSectionVars false

namespace Wafo.Kde

open Real MeasureTheory Matrix

variable {d n : ℕ}

/-- The sum that both loops compute at `p`. -/
noncomputable def KDE.sumAt (k : KDE d n) (y : Fin n → ℝ) (r : ℕ) (p : Fin d → ℝ) : ℝ :=
  ∑ i, momentFun r (p - k.data i) *
    kernelRaw k.kernel.r (((1 / k.lam i) • k.invHs) *ᵥ (p - k.data i)) k.kernel.shape * (y i / k.lam i ^ d)

theorem fold_zip {ι P : Type*} (L : List ι) (pts : List P) (z : P → ℝ) (g : ι → P → ℝ) :
    L.foldl (fun res i => List.zipWith (· + ·) res (pts.map (g i))) (pts.map z)
      = pts.map fun p => z p + (L.map fun i => g i p).sum := by
  induction L generalizing z with
  | nil => simp
  | cons i L ih =>
    rw [List.foldl_cons]
    have : List.zipWith (· + ·) (pts.map z) (pts.map (g i)) = pts.map fun p => z p + g i p := by
      rw [List.zipWith_map, List.zipWith_self]
    rw [this, ih]
    refine List.map_congr_left fun p _ => ?_
    rw [List.map_cons, List.sum_cons, add_assoc]

theorem dataLoop_eq (k : KDE d n) (y : Fin n → ℝ) (r : ℕ) (pts : List (Fin d → ℝ)) :
    k.dataLoop y r pts = pts.map (k.sumAt y r) := by
  rw [KDE.dataLoop]
  have := fold_zip (List.finRange n) pts (fun _ => 0) fun i p => momentFun r (p - k.data i) *
    kernelRaw k.kernel.r (((1 / k.lam i) • k.invHs) *ᵥ (p - k.data i)) k.kernel.shape * (y i / k.lam i ^ d)
  simp only at this ⊢
  rw [this]
  refine List.map_congr_left fun p _ => ?_
  rw [zero_add, KDE.sumAt, ← List.ofFn_eq_map, List.sum_ofFn]

theorem pointLoop_eq (k : KDE d n) (y : Fin n → ℝ) (r : ℕ) (pts : List (Fin d → ℝ)) :
    k.pointLoop y r pts = pts.map (k.sumAt y r) := by
  rw [KDE.pointLoop]
  refine List.map_congr_left fun p _ => ?_
  rw [KDE.sumAt, ← List.ofFn_eq_map, List.sum_ofFn]
  refine Finset.sum_congr rfl fun i _ => ?_
  simp only
  rw [Matrix.mulVec_smul, Matrix.smul_mulVec]

theorem evalPoints_eq (k : KDE d n) (y : Fin n → ℝ) (r : ℕ) (pts : List (Fin d → ℝ)) (c : ℝ)
    (hc : normFactor k.kernel.r d (some n) k.kernel.shape = .ok c) :
    k.evalPoints y r pts = .ok (pts.map fun p => k.sumAt y r p / (k.deth * n * c)) := by
  rw [KDE.evalPoints, KDE.normFactor, hc]
  simp only
  rw [dataLoop_eq, pointLoop_eq, ite_self, List.map_map]
  rfl

/-- The mass of the estimate. -/
theorem sumAt_integral (k : KDE d n) (c : ℝ)
    (hc : 0 < c) (hi : ∫ x : Fin d → ℝ, kernelRaw k.kernel.r x k.kernel.shape = c)
    (hdet : 0 < k.deth) (hinv : |k.invHs.det| = k.deth⁻¹) (hlam : ∀ i, 0 < k.lam i) (hn : n ≠ 0) :
    ∫ x, k.sumAt (fun _ => 1) 0 x / (k.deth * n * c) = 1 := by
  have hI : Integrable fun x : Fin d → ℝ => kernelRaw k.kernel.r x k.kernel.shape := by
    by_contra hne
    rw [integral_undef hne] at hi
    linarith
  have hdet' : ∀ i, |((1 / k.lam i) • k.invHs).det|⁻¹ = k.lam i ^ d * k.deth := by
    intro i
    have := hlam i
    rw [det_smul, Fintype.card_fin, abs_mul, hinv, abs_of_pos (by positivity), one_div, inv_pow, mul_inv, inv_inv,
      inv_inv]
  have hne : ∀ i, ((1 / k.lam i) • k.invHs).det ≠ 0 := by
    intro i h0
    have h1 := hdet' i
    rw [h0, abs_zero, _root_.inv_zero] at h1
    have := hlam i
    have : 0 < k.lam i ^ d * k.deth := by positivity
    linarith
  rw [integral_div]
  have hs : ∀ x, k.sumAt (fun _ => 1) 0 x = ∑ i, kernelRaw k.kernel.r (((1 / k.lam i) • k.invHs) *ᵥ (x - k.data i))
      k.kernel.shape * (1 / k.lam i ^ d) := by
    intro x
    rw [KDE.sumAt]
    refine Finset.sum_congr rfl fun i _ => ?_
    rw [momentFun, if_pos rfl, one_mul]
  simp only [hs]
  rw [integral_finsetSum _ fun i _ => ((integral_affine _ hI _ (hne i) (k.data i)).1).mul_const _]
  have h1 : ∀ i, ∫ x, kernelRaw k.kernel.r (((1 / k.lam i) • k.invHs) *ᵥ (x - k.data i)) k.kernel.shape *
      (1 / k.lam i ^ d) = k.deth * c := by
    intro i
    rw [integral_mul_const, (integral_affine _ hI _ (hne i) (k.data i)).2, hi, hdet' i]
    have := (hlam i).ne'
    field_simp
  rw [Finset.sum_congr rfl fun i _ => h1 i, Finset.sum_const, Finset.card_univ, Fintype.card_fin, nsmul_eq_mul]
  have : (n : ℝ) ≠ 0 := by exact_mod_cast hn
  field_simp

theorem sumAt_nonneg (k : KDE d n) (hlam : ∀ i, 0 < k.lam i) (x : Fin d → ℝ) : 0 ≤ k.sumAt (fun _ => 1) 0 x := by
  refine Finset.sum_nonneg fun i _ => ?_
  have := hlam i
  have h2 := kernelRaw_nonneg k.kernel.r (((1 / k.lam i) • k.invHs) *ᵥ (x - k.data i)) k.kernel.shape
  rw [momentFun, if_pos rfl]
  positivity

theorem sumAt_data_pos (k : KDE d n) (hlam : ∀ i, 0 < k.lam i)
    (hz : 0 < kernelRaw k.kernel.r (0 : Fin d → ℝ) k.kernel.shape) (j : Fin n) :
    0 < k.sumAt (fun _ => 1) 0 (k.data j) := by
  refine Finset.sum_pos' (fun i _ => ?_) ⟨j, Finset.mem_univ _, ?_⟩
  · have := hlam i
    have h2 := kernelRaw_nonneg k.kernel.r (((1 / k.lam i) • k.invHs) *ᵥ (k.data j - k.data i)) k.kernel.shape
    rw [momentFun, if_pos rfl]
    positivity
  · have := hlam j
    rw [momentFun, if_pos rfl, sub_self, mulVec_zero]
    positivity

/-- The state set up by the constructors: bandwidth and scaling factors. -/
structure Ready (k : KDE d n) : Prop where
  det : 0 < k.deth
  inv : |k.invHs.det| = k.deth⁻¹
  lam : ∀ i, 0 < k.lam i

theorem ready_vec (hs : Fin d → ℝ) (h : ∀ i, 0 < hs i) (kernel : Obj) (data : Fin n → Fin d → ℝ) :
    Ready (⟨kernel, data, (invertVec hs).1, (invertVec hs).2, fun _ => 1⟩ : KDE d n) where
  det := by
    simp only [invertVec]
    exact Finset.prod_pos fun i _ => h i
  inv := by
    simp only [invertVec]
    rw [det_diagonal, Finset.prod_div_distrib, Finset.prod_const_one, one_div, abs_of_pos]
    exact inv_pos.mpr (Finset.prod_pos fun i _ => h i)
  lam := fun _ => one_pos

theorem ready_mat (h : Matrix (Fin d) (Fin d) ℝ) (hd : 0 < h.det) (kernel : Obj) (data : Fin n → Fin d → ℝ) :
    Ready (⟨kernel, data, h⁻¹, h.det, fun _ => 1⟩ : KDE d n) where
  det := hd
  inv := by
    rw [Matrix.det_nonsing_inv, Ring.inverse_eq_inv', abs_of_pos (inv_pos.mpr hd)]
  lam := fun _ => one_pos

/-- The pilot estimate at the data points. -/
noncomputable def KDE.pilot (k : KDE d n) (c : ℝ) (i : Fin n) : ℝ :=
  ({ k with lam := fun _ => 1 } : KDE d n).sumAt (fun _ => 1) 0 (k.data i) / (k.deth * n * c)

theorem setAlpha_eq (k : KDE d n) (alpha c : ℝ) (ha : 0 < alpha)
    (hc : normFactor k.kernel.r d (some n) k.kernel.shape = .ok c) :
    k.setAlpha alpha = .ok { k with
      lam := fun i => (k.pilot c i / exp ((∑ j, log (k.pilot c j)) / n)) ^ (-alpha) } := by
  rw [KDE.setAlpha]
  simp only
  have he := evalPoints_eq ({ k with lam := fun _ => 1 } : KDE d n) (fun _ => 1) 0 (List.ofFn k.data) c hc
  simp only at he
  rw [if_pos ha, he]
  simp only
  congr 2
  funext i
  have e : ∀ g : (Fin d → ℝ) → ℝ, (List.ofFn k.data).map g = List.ofFn fun i => g (k.data i) := by
    intro g
    rw [List.map_ofFn]; rfl
  rw [e, List.map_ofFn, List.sum_ofFn, List.getD_eq_getElem?_getD, List.getElem?_ofFn]
  simp [KDE.pilot]

theorem pilot_pos (k : KDE d n) (hr : Ready k) (hn : n ≠ 0) (c : ℝ) (hc : 0 < c)
    (hz : 0 < kernelRaw k.kernel.r (0 : Fin d → ℝ) k.kernel.shape) (i : Fin n) : 0 < k.pilot c i := by
  have h1 := sumAt_data_pos ({ k with lam := fun _ => 1 } : KDE d n) (fun _ => one_pos) hz i
  have h2 := hr.det
  have h3 : (0 : ℝ) < n := by exact_mod_cast Nat.pos_of_ne_zero hn
  unfold KDE.pilot
  simp only at h1
  positivity

theorem setAlpha_ready (k : KDE d n) (hr : Ready k) (alpha : ℝ) (hk : Good k.kernel d n) (hn : n ≠ 0) :
    ∃ k', k.setAlpha alpha = .ok k' ∧ Ready k' ∧ k'.kernel = k.kernel ∧ k'.data = k.data ∧ k'.deth = k.deth ∧
      k'.invHs = k.invHs := by
  obtain ⟨c, hc, hcp, -⟩ := hk.ex
  by_cases ha : 0 < alpha
  · refine ⟨_, setAlpha_eq k alpha c ha hc, ⟨hr.det, hr.inv, fun i => ?_⟩, rfl, rfl, rfl, rfl⟩
    exact rpow_pos_of_pos (div_pos (pilot_pos k hr hn c hcp hk.zero i) (exp_pos _)) _
  · refine ⟨{ k with lam := fun _ => 1 }, ?_, ⟨hr.det, hr.inv, fun _ => one_pos⟩, rfl, rfl, rfl, rfl⟩
    rw [KDE.setAlpha]
    simp only
    rw [if_neg ha]

theorem geometric_mean (f : Fin n → ℝ) (hf : ∀ i, 0 < f i) (hn : n ≠ 0) (alpha : ℝ) :
    ∏ i, (f i / exp ((∑ j, log (f j)) / n)) ^ (-alpha) = 1 := by
  have hn' : (n : ℝ) ≠ 0 := by exact_mod_cast hn
  have hp : ∀ i, 0 < f i / exp ((∑ j, log (f j)) / n) := fun i => div_pos (hf i) (exp_pos _)
  rw [Real.finsetProd_rpow _ _ fun i _ => (hp i).le]
  have : ∏ i, f i / exp ((∑ j, log (f j)) / n) = 1 := by
    rw [Finset.prod_div_distrib, Finset.prod_const, Finset.card_univ, Fintype.card_fin, ← exp_nat_mul,
      mul_div_cancel₀ _ hn', Real.exp_sum]
    rw [Finset.prod_congr rfl fun i _ => exp_log (hf i)]
    exact div_self (Finset.prod_pos fun i _ => hf i).ne'
  rw [this, one_rpow]

end Wafo.Kde

import Mathlib.MeasureTheory.Measure.Lebesgue.Basic
import Verif.Kde.Model
import Verif.Kde.Moments

/-! The kernels are densities, and so is the kernel density estimate. -/

set_option linter.unusedSectionVars false

namespace Wafo.Kde

open Real MeasureTheory Matrix

/-- The kernels that can be chosen by name. -/
noncomputable def named : List Obj := [epan, biwe, triw, p1ep, p1bi, p1tr, rect, tria, gaus, lapl, logi]

theorem kernelRaw_nonneg (r : ℝ) {d : ℕ} (x : Fin d → ℝ) (s : Shape) : 0 ≤ kernelRaw r x s := by
  cases s with
  | multi p => exact pow_nonneg (le_max_right _ _) _
  | prod p => exact Finset.prod_nonneg fun i _ => pow_nonneg (le_max_right _ _) _
  | rect => simp only [kernelRaw]; split <;> norm_num
  | tria => exact Finset.prod_nonneg fun i _ => le_max_right _ _
  | gaus => exact (exp_pos _).le
  | lapl => exact (exp_pos _).le
  | logi => exact Finset.prod_nonneg fun i _ => by positivity

/-- What the estimates need to know about a kernel. -/
structure Good (k : Obj) (d n : ℕ) : Prop where
  ex : ∃ c, normFactor k.r d (some n) k.shape = .ok c ∧ 0 < c ∧ ∫ x : Fin d → ℝ, kernelRaw k.r x k.shape = c
  zero : 0 < kernelRaw k.r (0 : Fin d → ℝ) k.shape

theorem sphereVolume_pos (d : ℕ) (hd : d ≠ 0) (r : ℝ) (hr : 0 < r) : 0 < sphereVolume d r := by
  have hd' : (0 : ℝ) < d := by exact_mod_cast Nat.pos_of_ne_zero hd
  have := Gamma_pos_of_pos (show (0 : ℝ) < (d : ℝ) / 2 by positivity)
  unfold sphereVolume
  positivity

theorem multi_good (p d n : ℕ) (hp : p ≠ 0) (hd : d ≠ 0) (a b : ℝ) (c : Option ℝ) : Good ⟨.multi p, 1, a, b, c⟩ d n where
  ex := by
    refine ⟨_, rfl, ?_, integral_multi p d hp hd 1 one_pos⟩
    have := sphereVolume_pos d hd 1 one_pos
    have h2 : (0 : ℝ) < p.factorial := by exact_mod_cast p.factorial_pos
    have h3 : (0 : ℝ) < ∏ k ∈ Finset.range p, ((d : ℝ) + 2 + 2 * k) := Finset.prod_pos fun k _ => by positivity
    positivity
  zero := by simp [kernelRaw]

theorem prod_good (p d n : ℕ) (hp : p ≠ 0) (a b : ℝ) (c : Option ℝ) : Good ⟨.prod p, 1, a, b, c⟩ d n where
  ex := by
    refine ⟨_, rfl, ?_, integral_prod p d hp 1 one_pos⟩
    have := sphereVolume_pos 1 one_ne_zero 1 one_pos
    have h2 : (0 : ℝ) < p.factorial := by exact_mod_cast p.factorial_pos
    have h3 : (0 : ℝ) < ∏ k ∈ Finset.range p, ((1 : ℝ) + 2 + 2 * k) := Finset.prod_pos fun k _ => by positivity
    positivity
  zero := by simp [kernelRaw]

theorem named_good (k : Obj) (hk : k ∈ named) (d n : ℕ) (hd : d ≠ 0) (hn : n ≠ 0) : Good k d n := by
  simp only [named, List.mem_cons, List.not_mem_nil, or_false] at hk
  rcases hk with rfl | rfl | rfl | rfl | rfl | rfl | rfl | rfl | rfl | rfl | rfl
  · exact multi_good 1 d n one_ne_zero hd _ _ _
  · exact multi_good 2 d n two_ne_zero hd _ _ _
  · exact multi_good 3 d n three_ne_zero hd _ _ _
  · exact prod_good 1 d n one_ne_zero _ _ _
  · exact prod_good 2 d n two_ne_zero _ _ _
  · exact prod_good 3 d n three_ne_zero _ _ _
  · exact ⟨⟨_, rfl, by simp only [rect]; positivity, integral_rect d 1 one_pos⟩, by simp [kernelRaw, rect]⟩
  · refine ⟨⟨1, by simp [normFactor, tria, hd, hn], one_pos, integral_tria d 1⟩, by simp [kernelRaw, tria]⟩
  · refine ⟨⟨_, rfl, by simp only [gaus]; positivity, ?_⟩, exp_pos _⟩
    simp only [gaus]
    rw [integral_gaus d 4 (by norm_num)]
    norm_num
  · exact ⟨⟨_, rfl, by positivity, integral_lapl d 7⟩, exp_pos _⟩
  · refine ⟨⟨1, by simp [normFactor, logi, hd, hn], one_pos, integral_logi d 7⟩, ?_⟩
    simp only [kernelRaw, logi]
    exact Finset.prod_pos fun i _ => by positivity

theorem good_integrable (k : Obj) (d n : ℕ) (h : Good k d n) :
    Integrable fun x : Fin d → ℝ => kernelRaw k.r x k.shape := by
  obtain ⟨c, -, hc, hi⟩ := h.ex
  by_contra hn
  rw [integral_undef hn] at hi
  linarith

/-- Change of variables by an affine map. -/
theorem integral_affine {d : ℕ} (f : (Fin d → ℝ) → ℝ) (hf : Integrable f) (M : Matrix (Fin d) (Fin d) ℝ)
    (hM : M.det ≠ 0) (a : Fin d → ℝ) :
    Integrable (fun x => f (M *ᵥ (x - a))) ∧ ∫ x, f (M *ᵥ (x - a)) = |M.det|⁻¹ * ∫ x, f x := by
  have hmap := Real.map_matrix_volume_pi_eq_smul_volume_pi hM
  have hmeas : Measurable (Matrix.toLin' M : (Fin d → ℝ) → (Fin d → ℝ)) :=
    (LinearMap.continuous_of_finiteDimensional _).measurable
  have hI : Integrable f (Measure.map (Matrix.toLin' M) volume) := by
    rw [hmap]
    exact hf.smul_measure (by simp)
  have h1 : Integrable (fun x => f (M *ᵥ x)) := by
    have := (integrable_map_measure hI.aestronglyMeasurable hmeas.aemeasurable).mp hI
    exact this
  have h2 : ∫ x, f (M *ᵥ x) = |M.det|⁻¹ * ∫ x, f x := by
    have := integral_map hmeas.aemeasurable hI.aestronglyMeasurable
    rw [hmap, integral_smul_measure] at this
    simp only [Matrix.toLin'_apply] at this
    rw [← this, abs_inv, ENNReal.toReal_ofReal (by positivity), smul_eq_mul]
  constructor
  · exact h1.comp_sub_right a
  · rw [integral_sub_right_eq_self (fun x => f (M *ᵥ x)) a, h2]

end Wafo.Kde

import Verif.Kde.Scale
import Verif.Kde.Moments
import Verif.Kde.Psi
import Verif.Kde.Apply

/-! The moments in `kernel.stats`. -/

set_option linter.unusedSectionVars false

namespace Wafo.Kde

open Real MeasureTheory Polynomial

theorem phi_mu2 : ∫ x : ℝ, x ^ 2 * phi x = 1 := by
  have h := integral_even_gauss 1 (1 / 2) (by norm_num)
  have e : ∀ x : ℝ, x ^ 2 * phi x = x ^ (2 * 1) * exp (-(1 / 2) * x ^ 2) * (√(2 * π))⁻¹ := by
    intro x
    rw [← phi_eq]
    ring
  simp only [e]
  rw [integral_mul_const, h]
  have hG : Gamma ((1 : ℕ) + 1 / 2) = √π / 2 := by
    have := Gamma_nat_add_half 1
    norm_num at this ⊢
    rw [this]
  rw [hG]
  have h2 : (1 / 2 : ℝ) ^ (-(((1 : ℕ) : ℝ) + 1 / 2)) = 2 * √2 := by
    rw [one_div, inv_rpow (by norm_num), rpow_neg (by norm_num), inv_inv]
    push_cast
    rw [rpow_add (by norm_num), rpow_one, sqrt_eq_rpow]
    norm_num
  rw [h2, sqrt_mul (by norm_num)]
  have := sqrt_pos.mpr pi_pos
  have h3 : (0 : ℝ) < √2 := sqrt_pos.mpr (by norm_num)
  field_simp

theorem gaussDensity_one : gaussDensity 1 = phi := by
  rw [gaussDensity_eq]
  funext x
  simp

theorem phi_R : ∫ x : ℝ, phi x ^ 2 = 1 / (2 * √π) := by
  have h := psi_integral 0 1 one_pos
  rw [gaussDensity_one] at h
  simp only [mul_zero, iteratedDeriv_zero] at h
  simp only [sq]
  rw [h, psi]
  norm_num
  ring

theorem phi_dd (x : ℝ) : deriv (deriv phi) x = (x ^ 2 - 1) * phi x := by
  have h1 : deriv phi = fun t => -t * phi t := funext fun t => (phi_hasDerivAt t).deriv
  rw [h1]
  have := ((hasDerivAt_id x).fun_neg).fun_mul (phi_hasDerivAt x)
  simp only [id] at this
  rw [this.deriv]
  ring

theorem phi_Rdd : ∫ x : ℝ, deriv (deriv phi) x ^ 2 = 3 / (8 * √π) := by
  have e : ∀ x : ℝ, deriv (deriv phi) x ^ 2
      = (((X ^ 2 - 1) ^ 2 : ℝ[X]).eval x * exp (-x ^ 2)) * (2 * π)⁻¹ := by
    intro x
    rw [phi_dd, mul_pow, sq (phi x), phi_sq]
    simp
    ring
  simp only [e]
  rw [integral_mul_const, ← Quad.herLin_apply]
  have h0 : Quad.herLin (1 : ℝ[X]) = √π := by
    rw [Quad.herLin_apply]
    have := integral_gaussian 1
    simpa using this
  have h2 : Quad.herLin (X ^ 2 : ℝ[X]) = √π / 2 := by
    have := Quad.herLin_parts (X : ℝ[X])
    rw [derivative_X, h0, show (C 2 * X * X : ℝ[X]) = (2 : ℝ) • X ^ 2 by rw [smul_eq_C_mul]; ring, map_smul, smul_eq_mul] at this
    linarith
  have h4 : Quad.herLin (X ^ 4 : ℝ[X]) = 3 * √π / 4 := by
    have := Quad.herLin_parts (X ^ 3 : ℝ[X])
    rw [derivative_X_pow, show (C ((3 : ℕ) : ℝ) * X ^ (3 - 1) : ℝ[X]) = (3 : ℝ) • X ^ 2 by
        rw [smul_eq_C_mul]; norm_num,
      show (C 2 * X * X ^ 3 : ℝ[X]) = (2 : ℝ) • X ^ 4 by rw [smul_eq_C_mul]; ring, map_smul, map_smul, smul_eq_mul,
      smul_eq_mul, h2] at this
    linarith
  rw [show ((X ^ 2 - 1) ^ 2 : ℝ[X]) = X ^ 4 - (2 : ℝ) • X ^ 2 + 1 by rw [smul_eq_C_mul, C_ofNat]; ring, map_add, map_sub,
    map_smul, h0, h2, h4, smul_eq_mul]
  have := sqrt_pos.mpr pi_pos
  have hs : √π * √π = π := mul_self_sqrt pi_pos.le
  field_simp
  rw [sq, hs]
  ring

/-- The kernel of one real variable. -/
theorem norm1 (k : Obj) (hk : k ∈ named) : ∃ K : ℝ → ℝ,
    (∀ n x, n ≠ 0 → normKernel k (d := 1) n (fun _ => x) = .ok (K x)) ∧ ∫ x, x ^ 2 * K x = k.mu2 ∧ ∫ x, K x ^ 2 = k.R ∧
      ∀ v, k.Rdd = some v → ∫ x, deriv (deriv K) x ^ 2 = v := by
  have hm : ∀ (p : ℕ) (a b : ℝ) (c : Option ℝ) (q : ℝ), q = 2 ^ p * (p.factorial : ℝ) * 2 / (∏ k ∈ Finset.range p, ((1 : ℝ) + 2 + 2 * k)) →
      ∀ n x, normKernel ⟨.multi p, 1, a, b, c⟩ (d := 1) n (fun _ => x) = .ok (q⁻¹ * max (1 - x ^ 2) 0 ^ p) := by
    intro p a b c q hq n x
    simp only [normKernel, normFactor, kernelRaw, sphereVolume_one]
    rw [hq, div_eq_mul_inv, mul_comm]
    congr 1
    simp
  have hp : ∀ (p : ℕ) (a b : ℝ) (c : Option ℝ) (q : ℝ), q = 2 ^ p * (p.factorial : ℝ) * 2 / (∏ k ∈ Finset.range p, ((1 : ℝ) + 2 + 2 * k)) →
      ∀ n x, normKernel ⟨.prod p, 1, a, b, c⟩ (d := 1) n (fun _ => x) = .ok (q⁻¹ * max (1 - x ^ 2) 0 ^ p) := by
    intro p a b c q hq n x
    simp only [normKernel, normFactor, kernelRaw, sphereVolume_one]
    rw [hq, div_eq_mul_inv, mul_comm]
    congr 1
    simp
  have q1 : (4 / 3 : ℝ) = 2 ^ 1 * ((1 : ℕ).factorial : ℝ) * 2 / (∏ k ∈ Finset.range 1, ((1 : ℝ) + 2 + 2 * k)) := by
    norm_num [Finset.prod_range_succ]
  have q2 : (16 / 15 : ℝ) = 2 ^ 2 * ((2 : ℕ).factorial : ℝ) * 2 / (∏ k ∈ Finset.range 2, ((1 : ℝ) + 2 + 2 * k)) := by
    norm_num [Finset.prod_range_succ, Nat.factorial]
  have q3 : (32 / 35 : ℝ) = 2 ^ 3 * ((3 : ℕ).factorial : ℝ) * 2 / (∏ k ∈ Finset.range 3, ((1 : ℝ) + 2 + 2 * k)) := by
    norm_num [Finset.prod_range_succ, Nat.factorial]
  have i1 : (4 / 3 : ℝ)⁻¹ = 3 / 4 := by norm_num
  have i2 : (16 / 15 : ℝ)⁻¹ = 15 / 16 := by norm_num
  have i3 : (32 / 35 : ℝ)⁻¹ = 35 / 32 := by norm_num
  simp only [named, List.mem_cons, List.not_mem_nil, or_false] at hk
  rcases hk with rfl | rfl | rfl | rfl | rfl | rfl | rfl | rfl | rfl | rfl | rfl
  · exact ⟨_, fun n x _ => hm 1 _ _ _ _ q1 n x, by rw [i1]; exact epan_mu2, by rw [i1]; exact epan_R,
      fun v hv => by simp [epan] at hv⟩
  · refine ⟨_, fun n x _ => hm 2 _ _ _ _ q2 n x, by rw [i2]; exact biwe_mu2, by rw [i2]; exact biwe_R, fun v hv => ?_⟩
    simp only [biwe, Option.some.injEq] at hv
    rw [i2, ← hv]; exact biwe_Rdd
  · exact ⟨_, fun n x _ => hm 3 _ _ _ _ q3 n x, by rw [i3]; exact triw_mu2, by rw [i3]; exact triw_R,
      fun v hv => by simp [triw] at hv⟩
  · exact ⟨_, fun n x _ => hp 1 _ _ _ _ q1 n x, by rw [i1]; exact epan_mu2, by rw [i1]; exact epan_R,
      fun v hv => by simp [p1ep] at hv⟩
  · refine ⟨_, fun n x _ => hp 2 _ _ _ _ q2 n x, by rw [i2]; exact biwe_mu2, by rw [i2]; exact biwe_R, fun v hv => ?_⟩
    simp only [p1bi, Option.some.injEq] at hv
    rw [i2, ← hv]; exact biwe_Rdd
  · exact ⟨_, fun n x _ => hp 3 _ _ _ _ q3 n x, by rw [i3]; exact triw_mu2, by rw [i3]; exact triw_R,
      fun v hv => by simp [p1tr] at hv⟩
  · refine ⟨fun x => (if |x| ≤ 1 then 1 else 0) / 2, fun n x _ => ?_, rect_mu2, rect_R, fun v hv => by simp [rect] at hv⟩
    simp [normKernel, normFactor, kernelRaw, rect]
  · refine ⟨fun x => max (1 - |x|) 0, fun n x hn => ?_, tria_mu2, tria_R, fun v hv => by simp [tria] at hv⟩
    simp [normKernel, normFactor, kernelRaw, tria, hn]
  · refine ⟨phi, fun n x _ => ?_, phi_mu2, phi_R, fun v hv => ?_⟩
    · simp only [normKernel, normFactor, kernelRaw, gaus, Finset.univ_unique, Finset.sum_singleton]
      rw [← phi_eq, sqrt_eq_rpow]
      norm_num
    · simp only [gaus, Option.some.injEq] at hv
      rw [← hv]; exact phi_Rdd
  · refine ⟨fun x => exp (-|x|) / 2, fun n x _ => ?_, lapl_mu2, lapl_R, fun v hv => by simp [lapl] at hv⟩
    simp [normKernel, normFactor, kernelRaw, lapl]
  · refine ⟨lk, fun n x hn => ?_, integral_sq_lk, integral_lk_sq, fun v hv => ?_⟩
    · simp [normKernel, normFactor, kernelRaw, logi, hn, lk]
    · simp only [logi, Option.some.injEq] at hv
      rw [← hv, ← integral_lk_dd]
      congr 1
      funext x
      have h1 : deriv lk = fun t => lk t * (1 - 2 * sigmoid t) := funext fun t => (lk_deriv t).deriv
      rw [h1, (lk_deriv2 x).deriv]

end Wafo.Kde

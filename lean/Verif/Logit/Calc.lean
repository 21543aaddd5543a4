import Verif.Logit.Lemmas

set_option linter.unusedSectionVars false

/-! Derivatives of the log-likelihood along lines. -/

namespace Wafo.Logit

open Finset

variable {n q : ℕ} [NeZero n] (y : Fin n → ℤ) (x : Fin n → Fin q → ℝ)

/-- The linear predictors of the two cumulative probabilities. -/
def sz (h : Par y q) (i : Fin n) : ℝ := ∑ j, zx y x i j * h j
def sz1 (h : Par y q) (i : Fin n) : ℝ := ∑ j, z1x y x i j * h j

/-- A line in the space of parameters. -/
def line (b h : Par y q) (t : ℝ) : Par y q := fun j => b j + t * h j

theorem sz_line (b h : Par y q) (t : ℝ) (i : Fin n) : sz y x (line y b h t) i = sz y x b i + t * sz y x h i := by
  simp only [sz, line, mul_sum, ← sum_add_distrib]
  exact sum_congr rfl fun j _ => by ring

theorem sz1_line (b h : Par y q) (t : ℝ) (i : Fin n) : sz1 y x (line y b h t) i = sz1 y x b i + t * sz1 y x h i := by
  simp only [sz1, line, mul_sum, ← sum_add_distrib]
  exact sum_congr rfl fun j _ => by ring

theorem g_line (b h : Par y q) (i : Fin n) (t : ℝ) : HasDerivAt (fun t => g y x (line y b h t) i)
    (g y x (line y b h t) i * (1 - g y x (line y b h t) i) * sz y x h i) t := by
  have hg : ∀ c, g y x c i = if y i = ymax y then 1 else logitinv (sz y x c i) := fun c => g_eq y x c i
  simp only [hg]
  by_cases h1 : y i = ymax y
  · simp only [if_pos h1]
    exact (hasDerivAt_const t (1 : ℝ)).congr_deriv (by ring)
  · simp only [if_neg h1, sz_line]
    have hl : HasDerivAt (fun t => sz y x b i + t * sz y x h i) (sz y x h i) t := by
      simpa using ((hasDerivAt_id t).mul_const (sz y x h i)).const_add (sz y x b i)
    exact (logitinv_deriv _).comp t hl

theorem g1_line (b h : Par y q) (i : Fin n) (t : ℝ) : HasDerivAt (fun t => g1 y x (line y b h t) i)
    (g1 y x (line y b h t) i * (1 - g1 y x (line y b h t) i) * sz1 y x h i) t := by
  have hg : ∀ c, g1 y x c i = if ymin y < y i then logitinv (sz1 y x c i) else 0 := fun c => g1_eq y x c i
  simp only [hg]
  by_cases h1 : ymin y < y i
  · simp only [if_pos h1, sz1_line]
    have hl : HasDerivAt (fun t => sz1 y x b i + t * sz1 y x h i) (sz1 y x h i) t := by
      simpa using ((hasDerivAt_id t).mul_const (sz1 y x h i)).const_add (sz1 y x b i)
    exact (logitinv_deriv _).comp t hl
  · simp only [if_neg h1]
    exact (hasDerivAt_const t (0 : ℝ)).congr_deriv (by ring)

theorem p_line (b h : Par y q) (i : Fin n) (t : ℝ) : HasDerivAt (fun t => p y x (line y b h t) i)
    (g y x (line y b h t) i * (1 - g y x (line y b h t) i) * sz y x h i -
      g1 y x (line y b h t) i * (1 - g1 y x (line y b h t) i) * sz1 y x h i) t :=
  (g_line y x b h i t).sub (g1_line y x b h i t)

/-- `dlogp` applied to a direction. -/
noncomputable def slope (b h : Par y q) (i : Fin n) : ℝ := ∑ j, dlogp y x b i j * h j

theorem slope_eq (b h : Par y q) (i : Fin n) :
    slope y x b h i = v y x b i * sz y x h i - v1 y x b i * sz1 y x h i := by
  simp only [slope, sz, sz1, dlogp, zx, z1x, Fintype.sum_sum_type, Sum.elim_inl, Sum.elim_inr]
  rw [mul_add, mul_add, mul_sum, mul_sum, mul_sum, mul_sum]
  have e1 : ∑ j, (v y x b i * z y i j - v1 y x b i * z1 y i j) * h (Sum.inl j) =
      ∑ j, v y x b i * (z y i j * h (Sum.inl j)) - ∑ j, v1 y x b i * (z1 y i j * h (Sum.inl j)) := by
    rw [← sum_sub_distrib]; exact sum_congr rfl fun j _ => by ring
  have e2 : ∑ k, (v y x b i - v1 y x b i) * x i k * h (Sum.inr k) =
      ∑ k, v y x b i * (x i k * h (Sum.inr k)) - ∑ k, v1 y x b i * (x i k * h (Sum.inr k)) := by
    rw [← sum_sub_distrib]; exact sum_congr rfl fun j _ => by ring
  rw [e1, e2]; ring

theorem log_line (b h : Par y q) (i : Fin n) (t : ℝ) (hp : 0 < p y x (line y b h t) i) :
    HasDerivAt (fun t => Real.log (p y x (line y b h t) i)) (slope y x (line y b h t) h i) t := by
  refine ((p_line y x b h i t).log hp.ne').congr_deriv ?_
  rw [slope_eq, v, v1]
  field_simp

theorem v_line (b h : Par y q) (i : Fin n) (t : ℝ) (hp : 0 < p y x (line y b h t) i) :
    HasDerivAt (fun t => v y x (line y b h t) i)
      (w y x (line y b h t) i * sz y x h i - v y x (line y b h t) i * slope y x (line y b h t) h i) t := by
  have hg := g_line y x b h i t
  have h1 : HasDerivAt (fun t => g y x (line y b h t) i * (1 - g y x (line y b h t) i)) _ t :=
    hg.mul ((hasDerivAt_const t (1 : ℝ)).sub hg)
  have h2 := h1.div (p_line y x b h i t) hp.ne'
  refine HasDerivAt.congr_deriv (f := fun t => v y x (line y b h t) i) h2 ?_
  rw [slope_eq, w, v, v1]
  field_simp
  ring

theorem v1_line (b h : Par y q) (i : Fin n) (t : ℝ) (hp : 0 < p y x (line y b h t) i) :
    HasDerivAt (fun t => v1 y x (line y b h t) i)
      (w1 y x (line y b h t) i * sz1 y x h i - v1 y x (line y b h t) i * slope y x (line y b h t) h i) t := by
  have hg := g1_line y x b h i t
  have h1 : HasDerivAt (fun t => g1 y x (line y b h t) i * (1 - g1 y x (line y b h t) i)) _ t :=
    hg.mul ((hasDerivAt_const t (1 : ℝ)).sub hg)
  have h2 := h1.div (p_line y x b h i t) hp.ne'
  refine HasDerivAt.congr_deriv (f := fun t => v1 y x (line y b h t) i) h2 ?_
  rw [slope_eq, w1, v, v1]
  field_simp
  ring

theorem slope_line (b h u : Par y q) (i : Fin n) (t : ℝ) (hp : 0 < p y x (line y b h t) i) :
    HasDerivAt (fun t => slope y x (line y b h t) u i)
      (w y x (line y b h t) i * sz y x h i * sz y x u i - w1 y x (line y b h t) i * sz1 y x h i * sz1 y x u i
        - slope y x (line y b h t) h i * slope y x (line y b h t) u i) t := by
  have h1 := ((v_line y x b h i t hp).mul_const (sz y x u i)).sub ((v1_line y x b h i t hp).mul_const (sz1 y x u i))
  simp only [slope_eq y x _ u]
  refine HasDerivAt.congr_deriv h1 ?_
  ring

theorem dl_dot (b h : Par y q) : ∑ j, dl y x b j * h j = ∑ i, slope y x b h i := by
  simp only [dl, slope, sum_mul]
  exact sum_comm

theorem d2l_dot (b h u : Par y q) : ∑ j, ∑ k, u j * d2l y x b j k * h k =
    ∑ i, (w y x b i * sz y x h i * sz y x u i - w1 y x b i * sz1 y x h i * sz1 y x u i
      - slope y x b h i * slope y x b u i) := by
  have key : ∀ (A : Fin n → ℝ) (B : Fin n → Fin (nz y) ⊕ Fin q → ℝ),
      ∑ j, ∑ k, u j * (∑ i, B i j * (A i * B i k)) * h k =
        ∑ i, A i * (∑ k, B i k * h k) * (∑ j, B i j * u j) := by
    intro A B
    have : ∀ i, A i * (∑ k, B i k * h k) * (∑ j, B i j * u j) = ∑ j, ∑ k, u j * (B i j * (A i * B i k)) * h k := by
      intro i
      rw [mul_assoc, sum_mul_sum, mul_sum, sum_comm]
      simp only [mul_sum]
      exact sum_congr rfl fun j _ => sum_congr rfl fun k _ => by ring
    simp only [this]
    rw [sum_comm (s := (univ : Finset (Fin n)))]
    refine sum_congr rfl fun j _ => ?_
    rw [sum_comm (s := (univ : Finset (Fin n)))]
    refine sum_congr rfl fun k _ => ?_
    rw [mul_sum, sum_mul]
  have k1 := key (w y x b) (zx y x)
  have k2 := key (w1 y x b) (z1x y x)
  have k3 := key (fun _ => 1) (dlogp y x b)
  simp only [one_mul] at k3
  simp only [d2l, mul_sub, sub_mul, sum_sub_distrib]
  rw [k1, k2, k3]
  rfl

/-- The second derivative of the logarithm of one probability is not positive. -/
theorem curvature_nonpos (b h : Par y q) (i : Fin n) (hp : 0 < p y x b i) :
    w y x b i * sz y x h i * sz y x h i - w1 y x b i * sz1 y x h i * sz1 y x h i - slope y x b h i * slope y x b h i ≤ 0 := by
  have hg : 0 ≤ g y x b i ∧ g y x b i ≤ 1 := by
    rw [g_eq]; split
    · norm_num
    · exact ⟨(logitinv_pos _).le, (logitinv_lt_one _).le⟩
  have hg1 : 0 ≤ g1 y x b i ∧ g1 y x b i ≤ 1 := by
    rw [g1_eq]; split
    · exact ⟨(logitinv_pos _).le, (logitinv_lt_one _).le⟩
    · norm_num
  rw [slope_eq, w, w1, v, v1]
  have hpe : p y x b i = g y x b i - g1 y x b i := rfl
  generalize sz y x h i = a
  generalize sz1 y x h i = c
  generalize g y x b i = G at *
  generalize g1 y x b i = K at *
  rw [hpe] at hp ⊢
  have e : G * (1 - G) / (G - K) * (1 - 2 * G) * a * a - K * (1 - K) / (G - K) * (1 - 2 * K) * c * c -
      (G * (1 - G) / (G - K) * a - K * (1 - K) / (G - K) * c) * (G * (1 - G) / (G - K) * a - K * (1 - K) / (G - K) * c)
      = -(G * (1 - G) * a ^ 2 + K * (1 - K) * c ^ 2 + G * (1 - G) * (K * (1 - K)) / (G - K) ^ 2 * (a - c) ^ 2) := by
    have := hp.ne'
    field_simp
    ring
  rw [e, neg_nonpos]
  have h1 : 0 ≤ G * (1 - G) := mul_nonneg hg.1 (by linarith [hg.2])
  have h2 : 0 ≤ K * (1 - K) := mul_nonneg hg1.1 (by linarith [hg1.2])
  positivity

/-- The parameters with positive probabilities form a convex set. -/
theorem p_segment (b h : Par y q) (i : Fin n) (h0 : 0 < p y x b i) (h1 : 0 < p y x (line y b h 1) i) (t : ℝ) (ht0 : 0 ≤ t)
    (ht1 : t ≤ 1) : 0 < p y x (line y b h t) i := by
  have hp : ∀ c, p y x c i = (if y i = ymax y then 1 else logitinv (sz y x c i)) -
      if ymin y < y i then logitinv (sz1 y x c i) else 0 := fun c => by rw [p, g_eq, g1_eq]; rfl
  rw [hp] at *
  by_cases e1 : y i = ymax y
  · rw [if_pos e1]
    split
    · have := logitinv_lt_one (sz1 y x (line y b h t) i); linarith
    · norm_num
  · rw [if_neg e1] at *
    by_cases e2 : ymin y < y i
    · rw [if_pos e2, sub_pos, logitinv_strictMono.lt_iff_lt] at *
      rw [sz_line, sz1_line] at *
      rcases ht1.eq_or_lt with rfl | ht
      · exact h1
      · have a1 := mul_pos (sub_pos.2 ht) (sub_pos.2 h0)
        have a2 := mul_nonneg ht0 (sub_pos.2 h1).le
        nlinarith
    · rw [if_neg e2, sub_zero]
      exact logitinv_pos _

end Wafo.Logit

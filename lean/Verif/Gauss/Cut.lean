import Verif.Gauss.High
import Mathlib.Analysis.Complex.ExponentialBounds

/-!
# The terms dropped by the cut-offs are negligible
-/

set_option linter.unusedSectionVars false

namespace Wafo.Gauss

open MeasureTheory ProbabilityTheory Set Filter Topology

theorem pow_mul_exp_le (n : ℕ) {Y0 y : ℝ} (hn : (n : ℝ) ≤ Y0) (h0 : 0 < Y0) (hy : Y0 ≤ y) :
    y ^ n * Real.exp (-y) ≤ Y0 ^ n * Real.exp (-Y0) := by
  have h1 : y / Y0 ≤ Real.exp ((y - Y0) / Y0) := by
    have := Real.add_one_le_exp ((y - Y0) / Y0)
    have e : (y - Y0) / Y0 + 1 = y / Y0 := by field_simp; ring
    linarith
  have h2 : (y / Y0) ^ n ≤ Real.exp (y - Y0) := by
    calc (y / Y0) ^ n ≤ Real.exp ((y - Y0) / Y0) ^ n :=
          pow_le_pow_left₀ (by have := h0.trans_le hy; positivity) h1 n
      _ = Real.exp (n * ((y - Y0) / Y0)) := by rw [← Real.exp_nat_mul]
      _ ≤ Real.exp (y - Y0) := by
          refine Real.exp_le_exp.2 ?_
          rw [← mul_div_assoc, div_le_iff₀ h0, mul_comm]
          exact mul_le_mul_of_nonneg_left hn (by linarith)
  have h3 : y ^ n = Y0 ^ n * (y / Y0) ^ n := by
    rw [div_pow]; field_simp
  rw [h3, mul_assoc]
  refine mul_le_mul_of_nonneg_left ?_ (by positivity)
  calc (y / Y0) ^ n * Real.exp (-y) ≤ Real.exp (y - Y0) * Real.exp (-y) :=
        mul_le_mul_of_nonneg_right h2 (Real.exp_pos _).le
    _ = Real.exp (-Y0) := by rw [← Real.exp_add]; congr 1; ring

theorem exp_neg_nat_le (n : ℕ) : Real.exp (-(n : ℝ)) ≤ (0.37 : ℝ) ^ n := by
  have h1 : Real.exp (-1) ≤ 0.37 := by
    rw [Real.exp_neg, inv_le_comm₀ (Real.exp_pos _) (by norm_num)]
    have := Real.exp_one_gt_d9
    norm_num at this ⊢
    linarith
  have : Real.exp (-(n : ℝ)) = Real.exp (-1) ^ n := by
    rw [← Real.exp_nat_mul]; congr 1; ring
  rw [this]
  exact pow_le_pow_left₀ (Real.exp_pos _).le h1 n

theorem exp_neg_100 : Real.exp (-100) ≤ 1e-42 := by
  have := exp_neg_nat_le 100
  push_cast at this
  refine this.trans ?_
  norm_num

theorem exp_neg_96 : Real.exp (-96) ≤ 1e-40 := by
  have := exp_neg_nat_le 96
  push_cast at this
  refine this.trans ?_
  norm_num

theorem exp_neg_50 : Real.exp (-50) ≤ 3e-22 := by
  have := exp_neg_nat_le 50
  push_cast at this
  refine this.trans ?_
  norm_num

/-- Tail bound of the normal distribution function. -/
theorem Phi_neg_le {u : ℝ} (hu : 0 ≤ u) : Phi (-u) ≤ Real.exp (-u ^ 2 / 2) := by
  have hi : Integrable (fun t => Real.exp (-u ^ 2 / 2) * phi (t + u)) :=
    (integrable_phi.comp_add_right u).const_mul _
  rw [Phi_eq_integral]
  calc ∫ t in Iic (-u), phi t ≤ ∫ t in Iic (-u), Real.exp (-u ^ 2 / 2) * phi (t + u) := by
        refine setIntegral_mono_on integrable_phi.integrableOn hi.integrableOn measurableSet_Iic ?_
        intro t ht
        have ht' : t ≤ -u := ht
        unfold phi
        rw [mul_left_comm, ← Real.exp_add]
        refine mul_le_mul_of_nonneg_left (Real.exp_le_exp.2 ?_) (by positivity)
        nlinarith
    _ ≤ ∫ t, Real.exp (-u ^ 2 / 2) * phi (t + u) := by
        refine setIntegral_le_integral hi (Eventually.of_forall fun t => ?_)
        exact mul_nonneg (Real.exp_pos _).le (phi_pos _).le
    _ = Real.exp (-u ^ 2 / 2) := by
        rw [integral_const_mul, integral_add_right_eq_self, ← phi_eq,
          integral_gaussianPDFReal_eq_one 0 one_ne, mul_one]

/-- What the half-exponent `y` controls. -/
theorem y_facts {bs hk x : ℝ} (hx : 0 < x) (hx2 : x ^ 2 ≤ 0.15) (hbs : 0 ≤ bs)
    (hk4 : -bs ≤ 4 * hk) {y : ℝ} (hy : y = (bs / x ^ 2 + hk) / 2) :
    bs ≤ 0.32 * y ∧ hk ≤ 2 * y ∧ -(0.08 * y) ≤ hk := by
  have hxp : 0 < x ^ 2 := by positivity
  have h1 : bs / 0.15 ≤ bs / x ^ 2 := div_le_div_of_nonneg_left hbs hxp hx2
  have h0 : 0 ≤ bs / x ^ 2 := by positivity
  have h2 : bs ≤ 0.32 * y := by
    rw [hy]; norm_num at h1 ⊢; linarith
  refine ⟨h2, by rw [hy]; linarith, by linarith⟩

theorem cd_facts {hk y : ℝ} (hy : 100 ≤ y) (h1 : hk ≤ 2 * y) (h2 : -(0.08 * y) ≤ hk) :
    |(4 - hk) / 8| ≤ 0.26 * y ∧ |(12 - hk) / 16| ≤ 0.14 * y := by
  norm_num at h2 ⊢
  constructor <;> rw [abs_le] <;> constructor <;> linarith

/-- The end-point term below the cut-off. -/
theorem drop1 {bs hk a : ℝ} (ha : 0 < a) (ha2 : a ^ 2 ≤ 0.15) (hbs : 0 ≤ bs)
    (hk4 : -bs ≤ 4 * hk) (hcut : -(bs / a ^ 2 + hk) / 2 ≤ -100) :
    |a * gexp bs hk a * (1 - (4 - hk) / 8 * (bs - a ^ 2) * (1 - (12 - hk) / 16 * bs / 5) / 3 +
      (4 - hk) / 8 * ((12 - hk) / 16) * (a ^ 2) ^ 2 / 5)| ≤ 1e-30 := by
  obtain ⟨y, hy⟩ : ∃ y, y = (bs / a ^ 2 + hk) / 2 := ⟨_, rfl⟩
  have hy100 : 100 ≤ y := by rw [hy]; linarith
  obtain ⟨f1, f2, f3⟩ := y_facts ha ha2 hbs hk4 hy
  obtain ⟨hc, hd⟩ := cd_facts hy100 f2 f3
  set c := (4 - hk) / 8
  set d := (12 - hk) / 16
  have hE : gexp bs hk a = Real.exp (-y) := by
    unfold gexp; rw [hy]; congr 1; ring
  have ha1 : a ≤ 1 := by norm_num at ha2; nlinarith
  have ha0 : 0 ≤ a ^ 2 := sq_nonneg a
  norm_num at ha2 f1 hc hd
  have y0 : 0 ≤ y := by linarith
  have b1 : |bs - a ^ 2| ≤ 0.33 * y := by
    norm_num
    rw [abs_le]; constructor <;> linarith
  have b2 : |d * bs| ≤ 0.05 * y ^ 2 := by
    rw [abs_mul, abs_of_nonneg hbs]
    have := mul_le_mul hd f1 hbs (by positivity)
    norm_num at this ⊢
    nlinarith
  have b3 : |1 - d * bs / 5| ≤ 0.02 * y ^ 2 := by
    rw [abs_le] at b2 ⊢
    norm_num at b2 ⊢
    constructor <;> nlinarith
  have b4 : |c * (bs - a ^ 2)| ≤ 0.09 * y ^ 2 := by
    rw [abs_mul]
    have := mul_le_mul hc b1 (abs_nonneg _) (by positivity)
    norm_num at this ⊢
    nlinarith
  have b5 : |c * (bs - a ^ 2) * (1 - d * bs / 5)| ≤ 0.0018 * y ^ 4 := by
    rw [abs_mul]
    have := mul_le_mul b4 b3 (abs_nonneg _) (by positivity)
    norm_num at this ⊢
    nlinarith
  have b6 : |c * d * (a ^ 2) ^ 2| ≤ 0.04 * y ^ 2 := by
    rw [abs_mul, abs_mul, abs_of_nonneg (sq_nonneg (a ^ 2))]
    have h1 := mul_le_mul hc hd (abs_nonneg _) (by positivity)
    have h2 : (a ^ 2) ^ 2 ≤ 1 := by nlinarith
    have := mul_le_mul h1 h2 (sq_nonneg _) (by positivity)
    norm_num at this ⊢
    nlinarith
  have y2 : (10000 : ℝ) ≤ y ^ 2 := by nlinarith
  have y4 : 10000 * y ^ 2 ≤ y ^ 4 := by nlinarith
  have b7 : |1 - c * (bs - a ^ 2) * (1 - d * bs / 5) / 3 + c * d * (a ^ 2) ^ 2 / 5| ≤ y ^ 4 := by
    rw [abs_le] at b5 b6 ⊢
    norm_num at b5 b6
    constructor <;> nlinarith
  rw [abs_mul, abs_mul, abs_of_pos ha, hE, abs_of_pos (Real.exp_pos _)]
  calc a * Real.exp (-y) * |1 - c * (bs - a ^ 2) * (1 - d * bs / 5) / 3 +
          c * d * (a ^ 2) ^ 2 / 5| ≤ 1 * Real.exp (-y) * y ^ 4 :=
        mul_le_mul (mul_le_mul_of_nonneg_right ha1 (Real.exp_pos _).le) b7 (abs_nonneg _)
          (by positivity)
    _ = y ^ 4 * Real.exp (-y) := by ring
    _ ≤ 100 ^ 4 * Real.exp (-100) := pow_mul_exp_le 4 (by norm_num) (by norm_num) hy100
    _ ≤ 1e-30 := by
        have := exp_neg_100
        norm_num at this ⊢
        linarith

/-- The normal term dropped for a large product. -/
theorem drop2 {b hk a : ℝ} (ha : 0 < a) (ha2 : a ^ 2 ≤ 0.15) (hb : 0 ≤ b) (hk100 : 100 ≤ hk) :
    |Real.exp (-hk / 2) * √(2 * Real.pi) * Phi (-b / a) * b *
      (1 - (4 - hk) / 8 * (b * b) * (1 - (12 - hk) / 16 * (b * b) / 5) / 3)| ≤ 2e-20 := by
  have hbs : 0 ≤ b * b := mul_self_nonneg b
  set bs := b * b with hbsdef
  set c := (4 - hk) / 8 with hc
  set d := (12 - hk) / 16 with hd
  have hcl : |c| ≤ hk / 8 := by rw [hc, abs_le]; constructor <;> linarith
  have hdl : |d| ≤ hk / 16 := by rw [hd, abs_le]; constructor <;> linarith
  have hpi : √(2 * Real.pi) ≤ 3 := by
    rw [Real.sqrt_le_left (by norm_num)]
    have := Real.pi_le_four
    linarith
  have hphi : Phi (-b / a) ≤ Real.exp (-(3 * bs)) := by
    have h1 := Phi_neg_le (u := b / a) (by positivity)
    rw [neg_div]
    refine h1.trans (Real.exp_le_exp.2 ?_)
    rw [div_pow]
    have h2 : b ^ 2 / 0.15 ≤ b ^ 2 / a ^ 2 :=
      div_le_div_of_nonneg_left (sq_nonneg b) (by positivity) ha2
    have h3 : bs = b ^ 2 := by rw [hbsdef]; ring
    rw [h3]
    norm_num at h2 ⊢
    nlinarith [sq_nonneg b]
  have hb1 : b ≤ 1 + bs := by rw [hbsdef]; nlinarith [sq_nonneg (b - 1)]
  have hK : |1 - c * bs * (1 - d * bs / 5) / 3| ≤
      (1 + hk / 24 + hk ^ 2 / 1920) * (1 + bs) ^ 2 := by
    have k1 : |d * bs| ≤ hk / 16 * bs := by
      rw [abs_mul, abs_of_nonneg hbs]; exact mul_le_mul_of_nonneg_right hdl hbs
    have k2 : |c * bs| ≤ hk / 8 * bs := by
      rw [abs_mul, abs_of_nonneg hbs]; exact mul_le_mul_of_nonneg_right hcl hbs
    have k3 : |1 - d * bs / 5| ≤ 1 + hk / 80 * bs := by
      rw [abs_le] at k1 ⊢; constructor <;> linarith
    have k4 : |c * bs * (1 - d * bs / 5)| ≤ hk / 8 * bs * (1 + hk / 80 * bs) := by
      rw [abs_mul]
      exact mul_le_mul k2 k3 (abs_nonneg _) (by positivity)
    have k5 : |1 - c * bs * (1 - d * bs / 5) / 3| ≤ 1 + hk / 8 * bs * (1 + hk / 80 * bs) / 3 := by
      rw [abs_le] at k4 ⊢; constructor <;> linarith
    refine k5.trans ?_
    have h0 : 0 ≤ hk := by linarith
    have m1 : 0 ≤ hk * bs := by positivity
    have m2 : 0 ≤ hk * bs ^ 2 := by positivity
    have m3 : 0 ≤ hk ^ 2 * bs := by positivity
    have m4 : 0 ≤ hk ^ 2 := by positivity
    have m5 : 0 ≤ bs ^ 2 := by positivity
    nlinarith
  have hcube : (1 + bs) ^ 3 ≤ Real.exp (3 * bs) := by
    have := Real.add_one_le_exp bs
    calc (1 + bs) ^ 3 ≤ Real.exp bs ^ 3 := pow_le_pow_left₀ (by positivity) (by linarith) 3
      _ = Real.exp (3 * bs) := by rw [← Real.exp_nat_mul]; norm_num
  have hB : Phi (-b / a) * b * |1 - c * bs * (1 - d * bs / 5) / 3| ≤
      1 + hk / 24 + hk ^ 2 / 1920 := by
    have hk0 : 0 ≤ 1 + hk / 24 + hk ^ 2 / 1920 := by
      have : 0 ≤ hk := by linarith
      positivity
    calc Phi (-b / a) * b * |1 - c * bs * (1 - d * bs / 5) / 3|
        ≤ Real.exp (-(3 * bs)) * (1 + bs) * ((1 + hk / 24 + hk ^ 2 / 1920) * (1 + bs) ^ 2) :=
          mul_le_mul (mul_le_mul hphi hb1 hb (Real.exp_pos _).le) hK (abs_nonneg _)
            (by positivity)
      _ = (1 + hk / 24 + hk ^ 2 / 1920) * (Real.exp (-(3 * bs)) * (1 + bs) ^ 3) := by ring
      _ ≤ (1 + hk / 24 + hk ^ 2 / 1920) * (Real.exp (-(3 * bs)) * Real.exp (3 * bs)) := by
          refine mul_le_mul_of_nonneg_left ?_ hk0
          exact mul_le_mul_of_nonneg_left hcube (Real.exp_pos _).le
      _ = 1 + hk / 24 + hk ^ 2 / 1920 := by
          rw [← Real.exp_add, neg_add_cancel, Real.exp_zero, mul_one]
  have hpoly : 1 + hk / 24 + hk ^ 2 / 1920 ≤ 0.0048 * (hk / 2) ^ 2 := by
    norm_num; nlinarith
  have hexp : (hk / 2) ^ 2 * Real.exp (-(hk / 2)) ≤ 50 ^ 2 * Real.exp (-50) :=
    pow_mul_exp_le 2 (by norm_num) (by norm_num) (by linarith)
  rw [abs_mul, abs_of_nonneg (by have := Phi_nonneg (-b / a); positivity)]
  calc Real.exp (-hk / 2) * √(2 * Real.pi) * Phi (-b / a) * b *
        |1 - c * bs * (1 - d * bs / 5) / 3|
      = Real.exp (-(hk / 2)) * √(2 * Real.pi) *
        (Phi (-b / a) * b * |1 - c * bs * (1 - d * bs / 5) / 3|) := by rw [neg_div]; ring
    _ ≤ Real.exp (-(hk / 2)) * 3 * (0.0048 * (hk / 2) ^ 2) := by
        refine mul_le_mul (mul_le_mul_of_nonneg_left hpi (Real.exp_pos _).le) (hB.trans hpoly) ?_
          (by positivity)
        exact mul_nonneg (mul_nonneg (Phi_nonneg _) hb) (abs_nonneg _)
    _ = 0.0144 * ((hk / 2) ^ 2 * Real.exp (-(hk / 2))) := by ring
    _ ≤ 0.0144 * (50 ^ 2 * Real.exp (-50)) := mul_le_mul_of_nonneg_left hexp (by norm_num)
    _ ≤ 2e-20 := by
        have := exp_neg_50
        norm_num at this ⊢
        linarith

/-- The integrand below the cut-off. -/
theorem drop3 {bs hk x : ℝ} (hx : 0 < x) (hx2 : x ^ 2 ≤ 0.15) (hbs : 0 ≤ bs)
    (hk4 : -bs ≤ 4 * hk) (hcut : -(bs / x ^ 2 + hk) / 2 ≤ -100) :
    |tailInt bs hk x - gexp bs hk x *
      (1 + (4 - hk) / 8 * x ^ 2 * (1 + (12 - hk) / 16 * x ^ 2))| ≤ 1e-30 := by
  obtain ⟨y, hy⟩ : ∃ y, y = (bs / x ^ 2 + hk) / 2 := ⟨_, rfl⟩
  have hy100 : 100 ≤ y := by rw [hy]; linarith
  obtain ⟨f1, f2, f3⟩ := y_facts hx hx2 hbs hk4 hy
  obtain ⟨hc, hd⟩ := cd_facts hy100 f2 f3
  set c := (4 - hk) / 8
  set d := (12 - hk) / 16
  have y0 : 0 ≤ y := by linarith
  have hx0 : 0 ≤ x ^ 2 := sq_nonneg x
  have hE : gexp bs hk x = Real.exp (-y) := by
    unfold gexp; rw [hy]; congr 1; ring
  norm_num at hx2 f1 f3 hc hd
  have hrs1 : (0.9 : ℝ) ≤ √(1 - x ^ 2) := by
    rw [Real.le_sqrt' (by norm_num)]
    norm_num; linarith
  have t1 : |tailInt bs hk x| ≤ 2e-40 := by
    unfold tailInt
    set rs := √(1 - x ^ 2)
    have hexp : -bs / (2 * x ^ 2) - hk / (1 + rs) ≤ -96 := by
      have e : -bs / (2 * x ^ 2) - hk / (1 + rs) = -y + hk / 2 - hk / (1 + rs) := by
        rw [hy]; field_simp; ring
      rw [e]
      have h1 : 0 < 1 + rs := by linarith
      have hrs2 : rs ≤ 1 := by
        show √(1 - x ^ 2) ≤ 1
        rw [Real.sqrt_le_iff]; constructor <;> linarith
      have e2 : hk / 2 - hk / (1 + rs) = hk * ((rs - 1) / (2 * (1 + rs))) := by
        field_simp; ring
      have h2 : (rs - 1) / (2 * (1 + rs)) ≤ 0 := div_nonpos_of_nonpos_of_nonneg (by linarith)
        (by linarith)
      have h3 : -(1/2 : ℝ) ≤ (rs - 1) / (2 * (1 + rs)) := by
        rw [le_div_iff₀ (by linarith)]; linarith
      have h4 : hk * ((rs - 1) / (2 * (1 + rs))) ≤ 0.04 * y := by
        norm_num
        nlinarith
      norm_num at h4
      linarith
    rw [abs_of_nonneg (by positivity)]
    calc Real.exp (-bs / (2 * x ^ 2) - hk / (1 + rs)) / rs ≤ 1e-40 / 0.9 :=
          div_le_div₀ (by norm_num) ((Real.exp_le_exp.2 hexp).trans exp_neg_96) (by norm_num) hrs1
      _ ≤ 2e-40 := by norm_num
  have t2 : |gexp bs hk x * (1 + c * x ^ 2 * (1 + d * x ^ 2))| ≤ 1e-38 := by
    have k1 : |d * x ^ 2| ≤ y := by
      rw [abs_mul, abs_of_nonneg hx0]
      have := mul_le_mul hd hx2 hx0 (by positivity)
      nlinarith
    have k2 : |c * x ^ 2| ≤ 0.1 * y := by
      rw [abs_mul, abs_of_nonneg hx0]
      have := mul_le_mul hc hx2 hx0 (by positivity)
      norm_num
      nlinarith
    have k3 : |1 + d * x ^ 2| ≤ 2 * y := by
      rw [abs_le] at k1 ⊢; constructor <;> linarith
    have k4 : |c * x ^ 2 * (1 + d * x ^ 2)| ≤ 0.2 * y ^ 2 := by
      rw [abs_mul]
      have := mul_le_mul k2 k3 (abs_nonneg _) (by positivity)
      norm_num at this ⊢
      nlinarith
    have k5 : |1 + c * x ^ 2 * (1 + d * x ^ 2)| ≤ y ^ 2 := by
      rw [abs_le] at k4 ⊢
      norm_num at k4
      constructor <;> nlinarith
    rw [abs_mul, hE, abs_of_pos (Real.exp_pos _)]
    calc Real.exp (-y) * |1 + c * x ^ 2 * (1 + d * x ^ 2)| ≤ Real.exp (-y) * y ^ 2 :=
          mul_le_mul_of_nonneg_left k5 (Real.exp_pos _).le
      _ = y ^ 2 * Real.exp (-y) := mul_comm _ _
      _ ≤ 100 ^ 2 * Real.exp (-100) := pow_mul_exp_le 2 (by norm_num) (by norm_num) hy100
      _ ≤ 1e-38 := by
          have := exp_neg_100
          norm_num at this ⊢
          linarith
  refine (abs_sub _ _).trans ?_
  norm_num at t1 t2 ⊢
  linarith

end Wafo.Gauss

import Verif.Dist.NormMomProps
import Verif.Dist.NormRvsProps
import Verif.Dist.EntLemmas
import Mathlib.NumberTheory.Harmonic.GammaDeriv

/-!
# C265, continued: moments from sampling laws, inverse Gaussian, heavy tails
-/

namespace Wafo.Dist

open MeasureTheory Set Filter Topology Real Wafo.Gauss

set_option linter.unusedSectionVars false

/-! ### Expected values and laws -/

/-- `F` has the expected value `v` under `μ`. -/
def PInt {Ω : Type*} [MeasurableSpace Ω] (μ : Measure Ω) (F : Ω → ℝ) (v : ℝ) : Prop :=
  Integrable F μ ∧ ∫ p, F p ∂μ = v

section PInt
variable {Ω : Type*} [MeasurableSpace Ω] {μ : Measure Ω}

theorem PInt.add {F G : Ω → ℝ} {v w : ℝ} (hF : PInt μ F v) (hG : PInt μ G w) :
    PInt μ (fun p => F p + G p) (v + w) :=
  ⟨hF.1.add hG.1, by rw [integral_add hF.1 hG.1, hF.2, hG.2]⟩

theorem PInt.const_mul {F : Ω → ℝ} {v : ℝ} (hF : PInt μ F v) (c : ℝ) :
    PInt μ (fun p => c * F p) (c * v) :=
  ⟨hF.1.const_mul c, by rw [integral_const_mul, hF.2]⟩

theorem PInt.congr {F G : Ω → ℝ} {v w : ℝ} (hF : PInt μ F v) (h : ∀ p, G p = F p) (hv : w = v) :
    PInt μ G w := by
  rw [show G = F from funext h, hv]
  exact hF

end PInt

theorem PInt.prod {μ ν : Measure ℝ} [SFinite μ] [SFinite ν] {f g : ℝ → ℝ} {v w : ℝ}
    (hf : PInt μ f v) (hg : PInt ν g w) : PInt (μ.prod ν) (fun p => f p.1 * g p.2) (v * w) :=
  ⟨hf.1.mul_prod hg.1, by rw [integral_prod_mul, hf.2, hg.2]⟩

theorem HasLaw.int_iff {μ : Measure ℝ} {I : Set ℝ} (hI : MeasurableSet I) {pdf : ℝ → ℝ}
    (h : HasLaw μ I pdf) (hm : Measurable pdf) (hn : ∀ x ∈ I, 0 ≤ pdf x) {k : ℝ → ℝ} {v : ℝ} :
    PInt μ k v ↔ HasInt I (fun x => k x * pdf x) v := by
  have hlt : ∀ᵐ x ∂volume.restrict I, ENNReal.ofReal (pdf x) < ⊤ :=
    Eventually.of_forall fun x => ENNReal.ofReal_lt_top
  have e : ∀ x ∈ I, (ENNReal.ofReal (pdf x)).toReal • k x = k x * pdf x := fun x hx => by
    rw [ENNReal.toReal_ofReal (hn x hx), smul_eq_mul, mul_comm]
  rw [HasLaw] at h
  rw [PInt, h, integrable_withDensity_iff_integrable_smul' hm.ennreal_ofReal hlt,
    integral_withDensity_eq_integral_toReal_smul hm.ennreal_ofReal hlt, setIntegral_congr_fun hI e]
  exact and_congr (integrableOn_congr_fun e hI) Iff.rfl

theorem pint_map {Ω : Type*} [MeasurableSpace Ω] {ν : Measure Ω} {G : Ω → ℝ} (hG : Measurable G)
    {k : ℝ → ℝ} (hk : Measurable k) {v : ℝ} :
    PInt (ν.map G) k v ↔ PInt ν (fun p => k (G p)) v := by
  rw [PInt, PInt, integrable_map_measure hk.aestronglyMeasurable hG.aemeasurable,
    integral_map hG.aemeasurable hk.aestronglyMeasurable]
  rfl

theorem pint_stdN {k : ℝ → ℝ} {v : ℝ} : PInt stdN k v ↔ HasInt univ (fun x => k x * phi x) v :=
  stdN_law.int_iff MeasurableSet.univ continuous_phi.measurable fun x _ => (phi_pos x).le

theorem pint_nmom (n : ℕ) : PInt stdN (fun x => x ^ n) (nmom n) := pint_stdN.2 (hasInt_nmom n)

/-! ### Exponentially modified normal -/

theorem hasInt_factorial (n : ℕ) : HasInt (Ioi 0) (fun t => t ^ n * exp (-t)) n.factorial := by
  have hs : (0 : ℝ) < n + 1 := by positivity
  have h1 := GammaIntegral_convergent hs
  have h2 := Gamma_eq_integral hs
  rw [Gamma_nat_eq_factorial] at h2
  have e : ∀ t ∈ Ioi (0 : ℝ), t ^ n * exp (-t) = exp (-t) * t ^ ((n : ℝ) + 1 - 1) := fun t _ => by
    rw [add_sub_cancel_right, rpow_natCast, mul_comm]
  exact ⟨(integrableOn_congr_fun e measurableSet_Ioi).2 h1, by
    rw [setIntegral_congr_fun measurableSet_Ioi e, h2]⟩

theorem en_moments {K : ℝ} (hK : 0 < K) :
    HasMoment univ (ExponNorm.pdf K) 1 K ∧
    HasMoment univ (ExponNorm.pdf K) 2 (2 * K ^ 2 + 1) ∧
    HasMoment univ (ExponNorm.pdf K) 3 (6 * K ^ 3 + 3 * K) ∧
    HasMoment univ (ExponNorm.pdf K) 4 (24 * K ^ 4 + 12 * K ^ 2 + 3) := by
  let μ : Measure ℝ := (volume.restrict (Ioi 0)).withDensity fun t => ENNReal.ofReal (exp (-t))
  have hμ : HasLaw μ (Ioi 0) fun t => exp (-t) := rfl
  have hlaw := C264_exponnorm K hK μ hμ
  have hG : Measurable fun p : ℝ × ℝ => ExponNorm.rvs K p.1 p.2 := by
    unfold ExponNorm.rvs
    fun_prop
  have hpm : Measurable (ExponNorm.pdf K) := by
    have h1 := continuous_Phi.measurable
    have : ExponNorm.pdf K = fun x => ExponNorm.pdf K x := rfl
    rw [this]
    simp only [en_pdf_eq]
    fun_prop
  have hC := (C263_exponnorm K hK).1
  have ht : ∀ i j : ℕ, PInt (μ.prod stdN) (fun p => p.1 ^ i * p.2 ^ j) (i.factorial * nmom j) :=
    fun i j => ((hμ.int_iff measurableSet_Ioi (by fun_prop) fun t _ => (exp_pos _).le).2
      (hasInt_factorial i)).prod (pint_nmom j)
  have fin : ∀ (n : ℕ) (v : ℝ), PInt (μ.prod stdN) (fun p => ExponNorm.rvs K p.1 p.2 ^ n) v →
      HasMoment univ (ExponNorm.pdf K) n v := fun n v h =>
    (hlaw.int_iff MeasurableSet.univ hpm hC.nonneg).1
      ((pint_map hG (k := fun x => x ^ n) (by fun_prop)).2 h)
  refine ⟨fin 1 _ ?_, fin 2 _ ?_, fin 3 _ ?_, fin 4 _ ?_⟩
  · exact (((ht 1 0).const_mul K).add (ht 0 1)).congr
      (fun p => by simp only [ExponNorm.rvs]; ring) (by norm_num [nmom])
  · exact ((((ht 2 0).const_mul (K ^ 2)).add ((ht 1 1).const_mul (2 * K))).add (ht 0 2)).congr
      (fun p => by simp only [ExponNorm.rvs]; ring) (by norm_num [nmom, Nat.factorial]; ring)
  · exact (((((ht 3 0).const_mul (K ^ 3)).add ((ht 2 1).const_mul (3 * K ^ 2))).add
      ((ht 1 2).const_mul (3 * K))).add (ht 0 3)).congr
      (fun p => by simp only [ExponNorm.rvs]; ring) (by norm_num [nmom, Nat.factorial]; ring)
  · exact ((((((ht 4 0).const_mul (K ^ 4)).add ((ht 3 1).const_mul (4 * K ^ 3))).add
      ((ht 2 2).const_mul (6 * K ^ 2))).add ((ht 1 3).const_mul (4 * K))).add (ht 0 4)).congr
      (fun p => by simp only [ExponNorm.rvs]; ring) (by norm_num [nmom, Nat.factorial]; ring)

theorem C265_exponnorm (K : ℝ) (hK : 0 < K) :
    HasStats univ (ExponNorm.pdf K) (ExponNorm.stats K) := by
  obtain ⟨h1, h2, h3, h4⟩ := en_moments hK
  have hC := (C263_exponnorm K hK).1
  have hp : 0 < 1 + K * K := by positivity
  refine hasStats_of_raw MeasurableSet.univ hC.nonneg (hasMoment_zero hC) h1 h2 h3 h4 ?_ ?_ ?_
  · ring
  · intro _
    rw [onehalf_eq, mul_assoc, ← rpow_add hp]
    norm_num
    ring
  · intro _
    rw [show (-2 : ℤ) = -((2 : ℕ) : ℤ) by norm_num, zpow_neg, zpow_natCast]
    field_simp
    ring

example : (0 : ℝ) < 2 ∧ (ExponNorm.stats 2).2.1 = 5 := ⟨two_pos, by norm_num [ExponNorm.stats]⟩

/-! ### Skew normal -/

theorem abs_moments : PInt stdN (fun u => |u| ^ 1) √(2 / π) ∧ PInt stdN (fun u => |u| ^ 2) 1 ∧
    PInt stdN (fun u => |u| ^ 3) (2 * √(2 / π)) ∧ PInt stdN (fun u => |u| ^ 4) 3 := by
  obtain ⟨h1, h2, h3, h4⟩ := fold_moments 0
  have hlaw := C264_foldnorm 0
  have hphi : 2 * phi 0 = √(2 / π) := by
    rw [phi, sqrt_div zero_le_two, sqrt_mul zero_le_two]
    have h2 : √2 * √2 = 2 := mul_self_sqrt zero_le_two
    have h3 : 0 < √π := sqrt_pos.2 pi_pos
    norm_num
    field_simp
    linarith
  have hm : Measurable (FoldNorm.pdf 0) := by
    have := continuous_phi.measurable
    have e : FoldNorm.pdf 0 = fun x => phi (x + 0) + phi (x - 0) := by
      funext x
      rw [FoldNorm.pdf, norm_pdf_eq, norm_pdf_eq]
    rw [e]
    fun_prop
  have hG : Measurable (FoldNorm.rvs 0) := by
    unfold FoldNorm.rvs
    fun_prop
  have fin : ∀ (n : ℕ) (v w : ℝ), HasMoment (Ioi 0) (FoldNorm.pdf 0) n w → v = w →
      PInt stdN (fun u => |u| ^ n) v := fun n v w h hv =>
    ((pint_map hG (k := fun x => x ^ n) (by fun_prop)).1
      ((hlaw.int_iff measurableSet_Ioi hm (C263_foldnorm 0).nonneg).2 h)).congr
      (fun u => by rw [FoldNorm.rvs, add_zero]) hv
  refine ⟨fin 1 _ _ h1 ?_, fin 2 _ _ h2 ?_, fin 3 _ _ h3 ?_, fin 4 _ _ h4 ?_⟩
  · rw [hphi]
    ring
  · ring
  · rw [hphi]
    ring
  · ring

theorem sn_moments (a : ℝ) : let d := a / √(1 + a ^ 2)
    HasMoment univ (SkewNorm.pdf a) 0 1 ∧
    HasMoment univ (SkewNorm.pdf a) 1 (√(2 / π) * d) ∧
    HasMoment univ (SkewNorm.pdf a) 2 1 ∧
    HasMoment univ (SkewNorm.pdf a) 3 (√(2 / π) * (3 * d - d ^ 3)) ∧
    HasMoment univ (SkewNorm.pdf a) 4 3 := by
  intro d
  obtain ⟨hw, hwe⟩ := sn_facts a
  have h0 : (0 : ℝ) < √(1 + a ^ 2) := by positivity
  have hdw : √(1 - d ^ 2) ^ 2 = 1 - d ^ 2 := sq_sqrt (sqrt_pos.1 hw).le
  have hlaw := C264_skewnorm a
  let σ : ℝ → ℝ := fun u => if 0 ≤ u then 1 else -1
  have hσm : Measurable σ :=
    Measurable.ite (measurableSet_le measurable_const measurable_id) measurable_const measurable_const
  have hσ2 : ∀ u, σ u ^ 2 = 1 := by
    intro u
    show (if 0 ≤ u then (1 : ℝ) else -1) ^ 2 = 1
    split_ifs <;> norm_num
  have hrv : ∀ p : ℝ × ℝ, SkewNorm.rvs a p.1 p.2 = d * |p.1| + σ p.1 * √(1 - d ^ 2) * p.2 := by
    intro p
    show (if 0 ≤ p.1 then _ else _) = d * |p.1| + (if 0 ≤ p.1 then (1 : ℝ) else -1) * _ * _
    split_ifs with h
    · rw [abs_of_nonneg h]
      ring
    · rw [abs_of_neg (not_le.1 h)]
      ring
  have hG : Measurable fun p : ℝ × ℝ => SkewNorm.rvs a p.1 p.2 := by
    simp only [hrv]
    fun_prop
  have hpe : SkewNorm.pdf a = fun x => 2 * phi x * Phi (a * x) := by
    funext x
    rw [SkewNorm.pdf, norm_pdf_eq, Norm.cdf]
  have hpm : Measurable (SkewNorm.pdf a) := by
    have h1 := continuous_Phi.measurable
    have h2 := continuous_phi.measurable
    rw [hpe]
    fun_prop
  have hpn : ∀ x ∈ univ, 0 ≤ SkewNorm.pdf a x := fun x _ => by
    have := phi_pos x
    have := Phi_pos (a * x)
    rw [hpe]
    positivity
  obtain ⟨a1, a2, a3, a4⟩ := abs_moments
  have a0 : PInt stdN (fun u => |u| ^ 0) 1 :=
    (pint_nmom 0).congr (fun u => by rw [pow_zero, pow_zero]) rfl
  have odd : ∀ (i j : ℕ), nmom j = 0 →
      PInt (stdN.prod stdN) (fun p => (|p.1| ^ i * σ p.1) * p.2 ^ j) 0 := by
    intro i j hj
    have hi : Integrable (fun u => |u| ^ i * σ u) stdN := by
      refine (pint_nmom i).1.abs.mono' (by fun_prop) (Eventually.of_forall fun u => ?_)
      have : |σ u| = 1 := by
        rw [← sqrt_sq_eq_abs, hσ2, sqrt_one]
      rw [norm_mul, norm_eq_abs, norm_eq_abs, this, mul_one, abs_pow, abs_abs, abs_pow]
    have h : PInt stdN (fun u => |u| ^ i * σ u) (∫ u, |u| ^ i * σ u ∂stdN) := ⟨hi, rfl⟩
    have := h.prod (pint_nmom j)
    rwa [hj, mul_zero] at this
  have o1 : nmom 1 = 0 := rfl
  have o3 : nmom 3 = 0 := by norm_num [nmom]
  have fin : ∀ (n : ℕ) (v : ℝ), PInt (stdN.prod stdN) (fun p => SkewNorm.rvs a p.1 p.2 ^ n) v →
      HasMoment univ (SkewNorm.pdf a) n v := fun n v h =>
    (hlaw.int_iff MeasurableSet.univ hpm hpn).1
      ((pint_map hG (k := fun x => x ^ n) (by fun_prop)).2 h)
  refine ⟨fin 0 _ ?_, fin 1 _ ?_, fin 2 _ ?_, fin 3 _ ?_, fin 4 _ ?_⟩
  · exact (a0.prod (pint_nmom 0)).congr (fun p => by norm_num) (by norm_num [nmom])
  · refine (((a1.prod (pint_nmom 0)).const_mul d).add
      ((odd 0 1 o1).const_mul (√(1 - d ^ 2)))).congr (fun p => ?_) (by norm_num [nmom]; try ring)
    rw [hrv]
    ring
  · refine ((((a2.prod (pint_nmom 0)).const_mul (d ^ 2)).add
      ((odd 1 1 o1).const_mul (2 * d * √(1 - d ^ 2)))).add
      ((a0.prod (pint_nmom 2)).const_mul (1 - d ^ 2))).congr (fun p => ?_) (by norm_num [nmom]; try ring)
    have hs := hσ2 p.1
    rw [hrv]
    generalize √(1 - d ^ 2) = w at *
    linear_combination (w ^ 2 * p.2 ^ 2) * hs + p.2 ^ 2 * hdw
  · refine (((((a3.prod (pint_nmom 0)).const_mul (d ^ 3)).add
      ((odd 2 1 o1).const_mul (3 * d ^ 2 * √(1 - d ^ 2)))).add
      ((a1.prod (pint_nmom 2)).const_mul (3 * d * (1 - d ^ 2)))).add
      ((odd 0 3 o3).const_mul (√(1 - d ^ 2) ^ 3))).congr (fun p => ?_) (by norm_num [nmom]; try ring)
    have hs := hσ2 p.1
    rw [hrv]
    generalize √(1 - d ^ 2) = w at *
    generalize σ p.1 = s at *
    generalize |p.1| = u
    linear_combination (3 * d * u * w ^ 2 * p.2 ^ 2 + s * w ^ 3 * p.2 ^ 3) * hs
      + (3 * d * u * p.2 ^ 2) * hdw
  · refine ((((((a4.prod (pint_nmom 0)).const_mul (d ^ 4)).add
      ((odd 3 1 o1).const_mul (4 * d ^ 3 * √(1 - d ^ 2)))).add
      ((a2.prod (pint_nmom 2)).const_mul (6 * d ^ 2 * (1 - d ^ 2)))).add
      ((odd 1 3 o3).const_mul (4 * d * √(1 - d ^ 2) ^ 3))).add
      ((a0.prod (pint_nmom 4)).const_mul ((1 - d ^ 2) ^ 2))).congr (fun p => ?_)
      (by norm_num [nmom]; try ring)
    have hs := hσ2 p.1
    rw [hrv]
    generalize √(1 - d ^ 2) = w at *
    generalize σ p.1 = s at *
    generalize |p.1| = u
    linear_combination (6 * d ^ 2 * u ^ 2 * w ^ 2 * p.2 ^ 2 + 4 * d * u * s * w ^ 3 * p.2 ^ 3
      + w ^ 4 * p.2 ^ 4 * (s ^ 2 + 1)) * hs
      + (6 * d ^ 2 * u ^ 2 * p.2 ^ 2 + p.2 ^ 4 * (w ^ 2 + 1 - d ^ 2)) * hdw

theorem C265_skewnorm (a : ℝ) : HasStats univ (SkewNorm.pdf a) (SkewNorm.stats a) := by
  obtain ⟨h0, h1, h2, h3, h4⟩ := sn_moments a
  have hn : ∀ x ∈ univ, 0 ≤ SkewNorm.pdf a x := fun x _ => by
    have := phi_pos x
    have := Phi_pos (a * x)
    rw [SkewNorm.pdf, norm_pdf_eq, Norm.cdf]
    positivity
  have hb : √(2 / π) ^ 2 * π = 2 := by
    have := pi_pos
    rw [sq_sqrt (by positivity)]
    field_simp
  have hk : √(2 / π) * a / √(1 + a ^ 2) = √(2 / π) * (a / √(1 + a ^ 2)) := by ring
  have hst : SkewNorm.stats a = SkewNorm.stats a := rfl
  simp only [SkewNorm.stats] at hst ⊢
  rw [hk]
  generalize a / √(1 + a ^ 2) = d at *
  generalize √(2 / π) = b at *
  refine hasStats_of_raw MeasurableSet.univ hn h0 h1 h2 h3 h4 ?_ ?_ ?_
  · ring
  · intro hv
    have hs : √(1 - (b * d) ^ 2) ^ 2 = 1 - (b * d) ^ 2 := sq_sqrt hv.le
    have hsp : 0 < √(1 - (b * d) ^ 2) := sqrt_pos.2 hv
    rw [rpow_threehalf hv.le]
    generalize √(1 - (b * d) ^ 2) = w at *
    rw [← hs]
    field_simp
    linear_combination (-b * d ^ 3) * hb
  · intro hv
    have : (1 - (b * d) ^ 2) ^ 2 ≠ 0 := (pow_pos hv 2).ne'
    rw [add_mul, mul_assoc, div_mul_cancel₀ _ this]
    linear_combination (2 * b ^ 2 * d ^ 4) * hb

example : (SkewNorm.stats 0) = (0, 1, 0, 0) := by norm_num [SkewNorm.stats]

/-! ### Inverse Gaussian -/

theorem ig_exp {mu x : ℝ} (hmu : 0 < mu) (hx : 0 < x) : InvGauss.pdf mu x = exp (InvGauss.logpdf mu x) := by
  obtain ⟨h1, h2⟩ := (C263_invgauss mu hmu).2 x hx
  rw [h2, exp_log h1]

theorem ig_deriv {mu x : ℝ} (hmu : 0 < mu) (hx : 0 < x) : HasDerivAt (InvGauss.pdf mu)
    (InvGauss.pdf mu x * (-(3 / (2 * x)) - 1 / (2 * mu ^ 2) + 1 / (2 * x ^ 2))) x := by
  have hev : ∀ᶠ y in 𝓝 x, InvGauss.pdf mu y = exp (InvGauss.logpdf mu y) := by
    filter_upwards [lt_mem_nhds hx] with y hy using ig_exp hmu hy
  refine HasDerivAt.congr_of_eventuallyEq ?_ hev
  rw [ig_exp hmu hx]
  have h1 : HasDerivAt (fun y : ℝ => ((y - mu) / mu) ^ 2 / (2 * y))
      ((2 * ((x - mu) / mu) * (1 / mu) * (2 * x) - ((x - mu) / mu) ^ 2 * 2) / (2 * x) ^ 2) x := by
    have h2 := ((((hasDerivAt_id x).sub_const mu).div_const mu).pow 2)
    have h3 := (hasDerivAt_id x).const_mul 2
    refine HasDerivAt.congr_deriv (h2.div h3 (by simpa using hx.ne')) ?_
    simp only [id]
    norm_num
  have h4 : HasDerivAt (InvGauss.logpdf mu) (-(1.5 * x⁻¹)
      - (2 * ((x - mu) / mu) * (1 / mu) * (2 * x) - ((x - mu) / mu) ^ 2 * 2) / (2 * x) ^ 2) x :=
    (((hasDerivAt_log hx.ne').const_mul 1.5).const_sub (-0.5 * log (2 * π))).sub h1
  refine HasDerivAt.congr_deriv h4.exp ?_
  congr 1
  field_simp
  ring

theorem ig_bound {mu x : ℝ} (hmu : 0 < mu) (hx : 0 < x) :
    InvGauss.pdf mu x ≤ exp (1 / mu) * (x ^ (-(3 / 2) : ℝ) * exp (-(1 / (2 * mu ^ 2)) * x ^ (1 : ℝ))) := by
  rw [ig_exp hmu hx, rpow_def_of_pos hx, ← exp_add, ← exp_add, rpow_one]
  refine exp_le_exp.2 ?_
  have h1 : 0 ≤ log (2 * π) := log_nonneg (by linarith [two_le_pi])
  have h2 : ((x - mu) / mu) ^ 2 / (2 * x) = 1 / (2 * mu ^ 2) * x - 1 / mu + 1 / (2 * x) := by
    field_simp
    ring
  have h3 : 0 < 1 / (2 * x) := by positivity
  rw [InvGauss.logpdf, h2, onehalf_eq]
  linarith

theorem ig_pow_bound {mu x : ℝ} (hmu : 0 < mu) (hx : 0 < x) (n : ℕ) :
    x ^ n * InvGauss.pdf mu x ≤
      exp (1 / mu) * (x ^ ((n : ℝ) - 3 / 2) * exp (-(1 / (2 * mu ^ 2)) * x ^ (1 : ℝ))) := by
  have h := mul_le_mul_of_nonneg_left (ig_bound hmu hx) (pow_pos hx n).le
  refine h.trans (le_of_eq ?_)
  rw [sub_eq_add_neg, rpow_add hx, rpow_natCast]
  ring

theorem ig_pos {mu x : ℝ} (hmu : 0 < mu) (hx : 0 < x) : 0 < InvGauss.pdf mu x := by
  rw [ig_exp hmu hx]
  exact exp_pos _

theorem ig_integrable {mu : ℝ} (hmu : 0 < mu) (n : ℕ) :
    IntegrableOn (fun x => x ^ n * InvGauss.pdf mu x) (Ioi 0) := by
  rcases Nat.eq_zero_or_pos n with rfl | hn
  · simpa using (C263_invgauss mu hmu).1.integrable
  · have hn1 : (1 : ℝ) ≤ n := by exact_mod_cast hn
    have h := (integrableOn_rpow_mul_exp_neg_mul_rpow (p := 1) (s := (n : ℝ) - 3 / 2)
      (b := 1 / (2 * mu ^ 2)) (by linarith) one_pos (by positivity)).const_mul (exp (1 / mu))
    refine h.mono' ?_ ?_
    · exact ContinuousOn.aestronglyMeasurable (fun x hx => ((continuousAt_id.pow n).mul
        (ig_deriv hmu hx).continuousAt).continuousWithinAt) measurableSet_Ioi
    · refine (ae_restrict_iff' measurableSet_Ioi).2 (Eventually.of_forall fun x hx => ?_)
      have hx : 0 < x := hx
      rw [norm_of_nonneg (mul_pos (pow_pos hx n) (ig_pos hmu hx)).le]
      exact ig_pow_bound hmu hx n

theorem ig_step {mu : ℝ} (hmu : 0 < mu) (n : ℕ) {v w : ℝ} (hv : HasMoment (Ioi 0) (InvGauss.pdf mu) n v)
    (hw : HasMoment (Ioi 0) (InvGauss.pdf mu) (n + 1) w) :
    HasMoment (Ioi 0) (InvGauss.pdf mu) (n + 2) (mu ^ 2 * ((2 * n + 1) * w + v)) := by
  refine ⟨ig_integrable hmu _, ?_⟩
  have hv : HasInt (Ioi 0) (fun x => x ^ n * InvGauss.pdf mu x) v := hv
  have hw : HasInt (Ioi 0) (fun x => x ^ (n + 1) * InvGauss.pdf mu x) w := hw
  have h2 : HasInt (Ioi 0) (fun x => x ^ (n + 2) * InvGauss.pdf mu x)
    (∫ x in Ioi 0, x ^ (n + 2) * InvGauss.pdf mu x) := ⟨ig_integrable hmu _, rfl⟩
  generalize (∫ x in Ioi 0, x ^ (n + 2) * InvGauss.pdf mu x) = z at *
  have hF := ((hw.const_mul (n + 1 / 2)).add (h2.const_mul (-(1 / (2 * mu ^ 2))))).add
    (hv.const_mul (1 / 2))
  have hd : ∀ x ∈ Ioi (0 : ℝ), HasDerivAt (fun x => x ^ (n + 2) * InvGauss.pdf mu x)
      ((n + 1 / 2) * (x ^ (n + 1) * InvGauss.pdf mu x)
        + -(1 / (2 * mu ^ 2)) * (x ^ (n + 2) * InvGauss.pdf mu x)
        + 1 / 2 * (x ^ n * InvGauss.pdf mu x)) x := by
    intro x hx
    have hx : 0 < x := hx
    refine HasDerivAt.congr_deriv ((hasDerivAt_pow (n + 2) x).mul (ig_deriv hmu hx)) ?_
    rw [show n + 2 - 1 = n + 1 by omega]
    push_cast
    field_simp
    ring
  have hc : ContinuousWithinAt (fun x => x ^ (n + 2) * InvGauss.pdf mu x) (Ici 0) 0 := by
    rw [← Ioi_insert, continuousWithinAt_insert_self]
    rw [ContinuousWithinAt]
    have h0 : (0 : ℝ) ^ (n + 2) * InvGauss.pdf mu 0 = 0 := by
      rw [zero_pow (by omega), zero_mul]
    rw [h0]
    have hb : Tendsto (fun x : ℝ => exp (1 / mu) * x ^ ((n + 2 : ℕ) - 3 / 2 : ℝ)) (𝓝[>] 0) (𝓝 0) := by
      have hp : (0 : ℝ) < (n + 2 : ℕ) - 3 / 2 := by
        have : (0 : ℝ) ≤ n := Nat.cast_nonneg n
        push_cast
        linarith
      have h3 := (continuousAt_rpow_const (0 : ℝ) ((n + 2 : ℕ) - 3 / 2 : ℝ) (Or.inr hp.le)).tendsto
      rw [zero_rpow hp.ne'] at h3
      have := (h3.mono_left (nhdsWithin_le_nhds (s := Ioi 0))).const_mul (exp (1 / mu))
      rwa [mul_zero] at this
    refine squeeze_zero' ?_ ?_ hb
    · filter_upwards [self_mem_nhdsWithin] with x hx
      have hx : 0 < x := hx
      exact (mul_pos (pow_pos hx _) (ig_pos hmu hx)).le
    · filter_upwards [self_mem_nhdsWithin] with x hx
      have hx : 0 < x := hx
      refine (ig_pow_bound hmu hx (n + 2)).trans ?_
      refine mul_le_mul_of_nonneg_left ?_ (exp_pos _).le
      refine mul_le_of_le_one_right (rpow_nonneg hx.le _) ?_
      rw [rpow_one, exp_le_one_iff]
      have : 0 < 1 / (2 * mu ^ 2) * x := by positivity
      linarith
  have ht := tendsto_zero_of_hasDerivAt_of_integrableOn_Ioi (a := 0) hd hF.1 (ig_integrable hmu _)
  have h := integral_Ioi_of_hasDerivAt_of_tendsto hc hd hF.1 ht
  rw [hF.2, zero_pow (by omega), zero_mul, sub_zero] at h
  field_simp at h
  linarith

theorem ig_mean {mu : ℝ} (hmu : 0 < mu) : HasMoment (Ioi 0) (InvGauss.pdf mu) 1 mu := by
  have hC : IsCdf (Ioi 0) (fun x => x * InvGauss.pdf mu x / mu) (fun y => Phi (√y / mu - 1 * (1 / √y))
          - exp (2 / mu) * Phi (-(√y / mu - -1 * (1 / √y)))) := by
    refine isCdf_of_lim isOpen_Ioi ordConnected_Ioi (fun x hx => ?_) (fun x hx => ?_)
      (l := 𝓝[>] 0) (u := atTop) self_mem_nhdsWithin (eventually_gt_atTop 0) ?_ ?_ ?_ ?_
    · have hx : 0 < x := hx
      have h1 := (hasDerivAt_Phi _).comp x (diff_deriv (b := mu) (c := 1) hx)
      have h2 := ((hasDerivAt_Phi _).comp x (diff_deriv (b := mu) (c := -1) hx).neg).const_mul
        (exp (2 / mu))
      refine HasDerivAt.congr_deriv (h1.sub h2) ?_
      simp only [Pi.neg_apply]
      rw [← mul_assoc, ig_phi hmu hx, InvGauss.pdf, phi,
        show (3 : ℝ) = ((3 : ℕ) : ℝ) by norm_num, rpow_natCast]
      have hw : 0 < √x := sqrt_pos.2 hx
      have e1 : -1 / (2 * x) * ((x - mu) / mu) ^ 2 = -(√x / mu - 1 * (1 / √x)) ^ 2 / 2 := by
        have h2 : √x ^ 2 = x := sq_sqrt hx.le
        field_simp
        rw [h2]
        ring
      have e2 : √(2 * π * x ^ 3) = √(2 * π) * (√x * x) := by
        rw [sqrt_mul (by positivity), show x ^ 3 = x * x ^ 2 by ring, sqrt_mul hx.le, sqrt_sq hx.le]
      rw [e1, e2]
      field_simp
      ring
    · have hx : 0 < x := hx
      have := ig_pos hmu hx
      positivity
    · have h1 := tendsto_Phi_atBot.comp (tendsto_diff_zero (b := mu) (c := 1) one_pos)
      have h2 : Tendsto (fun x : ℝ => -(√x / mu - -1 * (1 / √x))) (𝓝[>] 0) atBot := by
        have := tendsto_diff_zero (b := -mu) (c := 1) one_pos
        refine this.congr fun x => ?_
        rw [div_neg]
        ring
      have h3 := (tendsto_Phi_atBot.comp h2).const_mul (exp (2 / mu))
      have h4 := h1.sub h3
      rwa [mul_zero, sub_zero] at h4
    · have h1 := tendsto_Phi_atTop.comp (tendsto_diff_top (b := mu) (c := 1) hmu)
      have h2 := tendsto_neg_atTop_atBot.comp (tendsto_diff_top (b := mu) (c := -1) hmu)
      have h3 := (tendsto_Phi_atBot.comp h2).const_mul (exp (2 / mu))
      have h4 := h1.sub h3
      rwa [mul_zero, sub_zero] at h4
    · intro x hx
      exact mem_nhdsWithin_of_mem_nhds (gt_mem_nhds hx)
    · intro x _
      exact eventually_gt_atTop x
  have h : HasInt (Ioi 0) (fun x => x * InvGauss.pdf mu x / mu) 1 := ⟨hC.integrable, hC.total⟩
  exact (h.const_mul mu).congr measurableSet_Ioi (fun x _ => by field_simp) (by ring)

theorem C265_invgauss (mu : ℝ) (hmu : 0 < mu) :
    HasStats (Ioi 0) (InvGauss.pdf mu) (InvGauss.stats mu) := by
  have hC := (C263_invgauss mu hmu).1
  have h0 := hasMoment_zero hC
  have h1 := ig_mean hmu
  have h2 := ig_step hmu 0 h0 h1
  have h3 := ig_step hmu 1 h1 h2
  have h4 := ig_step hmu 2 h2 h3
  have hp : mu ^ (3 : ℝ) = mu ^ 3 := by rw [← rpow_natCast]; norm_num
  have hst : InvGauss.stats mu = (mu, mu ^ 3, 3 * √mu, 15 * mu) := by
    rw [InvGauss.stats, hp]
  rw [hst]
  refine hasStats_of_raw measurableSet_Ioi hC.nonneg h0 h1 h2 h3 h4 ?_ ?_ ?_
  · norm_num
    ring
  · intro hv
    have hs : √(mu ^ 3) = mu * √mu := by
      rw [show mu ^ 3 = mu ^ 2 * mu by ring, sqrt_mul (by positivity), sqrt_sq hmu.le]
    have hq : √mu ^ 2 = mu := sq_sqrt hmu.le
    rw [rpow_threehalf hv.le, hs]
    push_cast
    linear_combination (3 * mu ^ 4) * hq
  · intro _
    push_cast
    ring

example : (0 : ℝ) < 4 ∧ (InvGauss.stats 4).2.2.1 = 6 := by
  refine ⟨by norm_num, ?_⟩
  show 3 * √4 = 6
  rw [show (4 : ℝ) = 2 ^ 2 by norm_num, sqrt_sq zero_le_two]
  norm_num

/-! ### Heavy tails -/

theorem noMoment_of_tail {f : ℝ → ℝ} {k : ℝ} (hk : 0 < k) (h : ∀ x, 1 < x → k / x ^ 2 ≤ f x) (n : ℕ)
    (hn : 1 ≤ n) : ¬ IntegrableOn (fun x => x ^ n * f x) (Ioi 1) := by
  intro hi
  have h2 : IntegrableOn (fun x : ℝ => x ^ (-1 : ℝ)) (Ioi 1) := by
    refine Integrable.mono (hi.const_mul (1 / k)) ?_ ?_
    · refine ContinuousOn.aestronglyMeasurable (fun x hx => ?_) measurableSet_Ioi
      exact (continuousAt_rpow_const x _
        (Or.inl (by linarith [mem_Ioi.1 hx] : x ≠ 0))).continuousWithinAt
    · refine (ae_restrict_iff' measurableSet_Ioi).2 (Eventually.of_forall fun x hx => ?_)
      have hx1 := mem_Ioi.1 hx
      have hx0 : 0 < x := by linarith
      have hp : x ≤ x ^ n := by
        calc x = x ^ 1 := (pow_one x).symm
          _ ≤ x ^ n := pow_le_pow_right₀ hx1.le hn
      have hf := h x hx1
      have hf0 : 0 ≤ f x := le_trans (by positivity) hf
      rw [norm_of_nonneg (rpow_nonneg hx0.le _), norm_of_nonneg (by positivity), rpow_neg_one]
      calc x⁻¹ = 1 / k * (x * (k / x ^ 2)) := by field_simp
        _ ≤ 1 / k * (x ^ n * f x) := by gcongr
  rw [integrableOn_Ioi_rpow_iff one_pos] at h2
  linarith

theorem levy_tail : ∀ x, 1 < x → exp (-1 / 2) / √(2 * π) / x ^ 2 ≤ Levy.pdf x := by
  intro x hx
  have hx0 : 0 < x := by linarith
  rw [Levy.pdf, sqrt_mul (by positivity : (0 : ℝ) ≤ 2 * π)]
  have h1 : exp (-1 / 2) ≤ exp (-1 / (2 * x)) := by
    refine exp_le_exp.2 ?_
    rw [div_le_div_iff₀ two_pos (by positivity)]
    linarith
  have h2 : √x ≤ x := by
    rw [sqrt_le_left hx0.le]
    nlinarith
  have hw : 0 < √x := sqrt_pos.2 hx0
  have hc : 0 < √(2 * π) := by positivity
  calc exp (-1 / 2) / √(2 * π) / x ^ 2 = 1 / (√(2 * π) * x) / x * exp (-1 / 2) := by field_simp
    _ ≤ 1 / (√(2 * π) * √x) / x * exp (-1 / (2 * x)) := by gcongr

theorem C265_levy : HasStats? (Ioi 0) Levy.pdf Levy.stats := by
  have h : ∀ n : ℕ, 1 ≤ n → NoMoment (Ioi 0) Levy.pdf n := fun n hn hi =>
    noMoment_of_tail (by positivity) levy_tail n hn (hi.mono_set (Ioi_subset_Ioi zero_le_one))
  exact ⟨h 1 (by norm_num), h 2 (by norm_num), h 3 (by norm_num), h 4 (by norm_num)⟩

/-- `levy_l`: no moment exists; the mean is reported as plus infinity though every value of the
variable is negative (the second part). -/
theorem C265_levy_l : HasStats? (Iio 0) LevyL.pdf LevyL.stats ∧
    LevyL.stats.1 = .inf ∧ ∀ x ∈ Iio (0 : ℝ), x ^ 1 * LevyL.pdf x < 0 := by
  have hneg : ∀ x, 0 < x → LevyL.pdf (-x) = Levy.pdf x := fun x hx => by
    rw [LevyL.pdf, Levy.pdf, abs_neg, abs_of_pos hx]
  have h : ∀ n : ℕ, 1 ≤ n → NoMoment (Iio 0) LevyL.pdf n := by
    intro n hn hi
    have h2 := (Measure.measurePreserving_neg (volume : Measure ℝ)).integrableOn_comp_preimage
      (Homeomorph.neg ℝ).measurableEmbedding (f := fun x => x ^ n * LevyL.pdf x) (s := Iio 0)
    have hp : (Neg.neg : ℝ → ℝ) ⁻¹' Iio 0 = Ioi 0 := by
      ext x
      simp
    rw [hp] at h2
    have h3 := (h2.2 hi).mono_set (Ioi_subset_Ioi (zero_le_one' ℝ))
    refine noMoment_of_tail (by positivity) levy_tail n hn ?_
    refine (integrableOn_congr_fun (fun x hx => ?_) measurableSet_Ioi).1 (h3.const_mul ((-1) ^ n))
    have hx : 0 < x := lt_trans one_pos hx
    simp only [Function.comp_apply]
    rw [hneg x hx, ← mul_assoc, ← mul_pow, neg_one_mul, neg_neg]
  refine ⟨⟨h 1 (by norm_num), h 2 (by norm_num), h 3 (by norm_num), h 4 (by norm_num)⟩, rfl,
    fun x hx => ?_⟩
  have hx : x < 0 := hx
  have h1 : 0 < |x| := abs_pos.2 hx.ne
  have h2 : 0 < LevyL.pdf x := by
    rw [LevyL.pdf]
    positivity
  rw [pow_one]
  exact mul_neg_of_neg_of_pos hx h2

theorem C265_alpha (a : ℝ) : HasStats? (Ioi 0) (Alpha.pdf a) (Alpha.stats a) := by
  obtain ⟨y, _, hy⟩ := isCompact_Icc.exists_isMinOn (nonempty_Icc.2 (by linarith : a - 1 ≤ a))
    continuous_phi.continuousOn
  have ht : ∀ x, 1 < x → phi y / Phi a / x ^ 2 ≤ Alpha.pdf a x := by
    intro x hx
    have hx0 : 0 < x := by linarith
    have h1 : phi y ≤ phi (a - 1 / x) := by
      refine hy ⟨?_, ?_⟩
      · have : 1 / x ≤ 1 := (div_le_one hx0).2 hx.le
        linarith
      · have : 0 < 1 / x := by positivity
        linarith
    have hP := Phi_pos a
    rw [Alpha.pdf, norm_pdf_eq, Norm.cdf]
    calc phi y / Phi a / x ^ 2 = 1 / x ^ 2 / Phi a * phi y := by field_simp
      _ ≤ _ := by gcongr
  have h : ∀ n : ℕ, 1 ≤ n → NoMoment (Ioi 0) (Alpha.pdf a) n := fun n hn hi =>
    noMoment_of_tail (div_pos (phi_pos y) (Phi_pos a)) ht n hn
      (hi.mono_set (Ioi_subset_Ioi zero_le_one))
  exact ⟨h 1 (by norm_num), h 2 (by norm_num), h 3 (by norm_num), h 4 (by norm_num)⟩

example : Levy.stats.1 = .inf ∧ (Alpha.stats 2).2.2.1 = .nan := ⟨rfl, rfl⟩

end Wafo.Dist

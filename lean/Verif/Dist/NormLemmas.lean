import Verif.Dist.NormModel
import Verif.Dist.Lemmas
import Verif.Gauss.Lemmas

/-!
# Lemmas for the normal family
-/

namespace Wafo.Dist

open MeasureTheory Set Filter Topology Real Wafo.Gauss

set_option linter.unusedSectionVars false

/-- What is assumed of `scipy.special.ndtri`: it inverts the normal distribution function. -/
def IsNormInv (ninv : ℝ → ℝ) : Prop := ∀ q, 0 < q → q < 1 → Phi (ninv q) = q

/-- What is assumed of `scipy.special.erfcinv`: it inverts the complementary error function. -/
def IsErfcInv (einv : ℝ → ℝ) : Prop := ∀ q, 0 < q → q < 2 → erfc (einv q) = q

theorem Phi_surj {q : ℝ} (h0 : 0 < q) (h1 : q < 1) : ∃ x, Phi x = q := by
  obtain ⟨a, ha⟩ := (tendsto_Phi_atBot.eventually (gt_mem_nhds h0)).exists
  obtain ⟨b, hb⟩ := (tendsto_Phi_atTop.eventually (lt_mem_nhds h1)).exists
  exact mem_range_of_exists_le_of_exists_ge continuous_Phi ⟨a, ha.le⟩ ⟨b, hb.le⟩

theorem exists_normInv : ∃ ninv, IsNormInv ninv := by
  classical
  refine ⟨fun q => if h : 0 < q ∧ q < 1 then (Phi_surj h.1 h.2).choose else 0, ?_⟩
  intro q h0 h1
  simp only [h0, h1, and_self, dif_pos]
  exact (Phi_surj h0 h1).choose_spec

theorem erfc_eq (x : ℝ) : erfc x = 2 * Phi (-(√2 * x)) := by
  rw [← erfc_eq_Phi]
  have : -(-(√2 * x)) / √2 = x := by
    have : √2 ≠ 0 := by positivity
    field_simp
  rw [this]
  ring

theorem exists_erfcInv : ∃ einv, IsErfcInv einv := by
  obtain ⟨ninv, h⟩ := exists_normInv
  refine ⟨fun q => -ninv (q / 2) / √2, ?_⟩
  intro q h0 h1
  have : √2 ≠ 0 := by positivity
  rw [erfc_eq, show -(√2 * (-ninv (q / 2) / √2)) = ninv (q / 2) by field_simp,
    h _ (by linarith) (by linarith)]
  ring

theorem Phi_inj {x y : ℝ} (h : Phi x = Phi y) : x = y := Phi_strictMono.injective h

theorem IsNormInv.neg {ninv : ℝ → ℝ} (h : IsNormInv ninv) {q : ℝ} (h0 : 0 < q) (h1 : q < 1) :
    ninv (1 - q) = -ninv q := by
  apply Phi_inj
  rw [h _ (by linarith) (by linarith), Phi_neg, h _ h0 h1]

theorem IsErfcInv.eq {ninv einv : ℝ → ℝ} (h : IsNormInv ninv) (he : IsErfcInv einv) {q : ℝ}
    (h0 : 0 < q) (h1 : q < 2) : einv q = -ninv (q / 2) / √2 := by
  have h2 : √2 ≠ 0 := by positivity
  have h3 : -(√2 * einv q) = ninv (q / 2) := by
    apply Phi_inj
    rw [h _ (by linarith) (by linarith)]
    have := he q h0 h1
    rw [erfc_eq] at this
    linarith
  rw [← h3]
  field_simp

theorem IsNormInv.isPpf {ninv : ℝ → ℝ} (h : IsNormInv ninv) : IsPpf univ Phi ninv where
  mem _ _ _ := mem_univ _
  cdf_ppf q h0 h1 := h q h0 h1
  cdf_mem x _ := ⟨Phi_pos x, Phi_lt_one x⟩
  ppf_cdf x _ := Phi_inj (h _ (Phi_pos x) (Phi_lt_one x))

theorem norm_pdf_eq (x : ℝ) : Norm.pdf x = phi x := by
  rw [Norm.pdf, phi, div_eq_inv_mul]

theorem norm_pdf_pos (x : ℝ) : 0 < Norm.pdf x := by rw [norm_pdf_eq]; exact phi_pos x

theorem norm_logpdf_eq (x : ℝ) : Norm.logpdf x = log (Norm.pdf x) := by
  rw [Norm.logpdf, Norm.pdf, log_div (exp_ne_zero _) (by positivity), log_exp]

/-- `g` maps `J` onto the real line, increasing and with inverse `gi`, and `pdf` is the density of
`gi` of a normal variable. -/
structure NormTr (J : Set ℝ) (g gi g' pdf : ℝ → ℝ) : Prop where
  mem : ∀ y, gi y ∈ J
  left : ∀ x ∈ J, gi (g x) = x
  right : ∀ y, g (gi y) = y
  deriv : ∀ x ∈ J, HasDerivAt g (g' x) x
  nonneg : ∀ x ∈ J, 0 ≤ g' x
  pdf_eq : ∀ x ∈ J, pdf x = phi (g x) * g' x

/-- A distribution obtained from the normal distribution by an increasing change of variable. -/
theorem NormTr.isCdf {ninv : ℝ → ℝ} (h : IsNormInv ninv) {J : Set ℝ}
    (ho : IsOpen J) (hJ : OrdConnected J) {g gi g' pdf : ℝ → ℝ} (t : NormTr J g gi g' pdf) :
    IsCdf J pdf (fun x => Phi (g x)) ∧ IsPpf J (fun x => Phi (g x)) (fun q => gi (ninv q)) := by
  have hP := h.isPpf.comp (J := J) (g := g) (gi := gi) (fun _ _ => mem_univ _)
    (fun y _ => t.mem y) t.left (fun y _ => t.right y)
  refine ⟨isCdf_of_ppf ho hJ ?_ ?_ hP, hP⟩
  · intro x hx
    rw [t.pdf_eq x hx]
    exact (hasDerivAt_Phi (g x)).comp x (t.deriv x hx)
  · intro x hx
    rw [t.pdf_eq x hx]
    exact mul_nonneg (phi_pos _).le (t.nonneg x hx)

/-- The distribution function of the absolute value of a normal variable. -/
theorem half_isPpf {ninv : ℝ → ℝ} (h : IsNormInv ninv) :
    IsPpf (Ioi 0) (fun x => Phi x * 2 - 1) (fun q => ninv ((1 + q) / 2)) where
  mem q h0 h1 := by
    have := h ((1 + q) / 2) (by linarith) (by linarith)
    by_contra hc
    have hc : ninv ((1 + q) / 2) ≤ 0 := not_lt.1 hc
    have := Phi_mono hc
    rw [Phi_zero] at this
    linarith
  cdf_ppf q h0 h1 := by
    show Phi (ninv ((1 + q) / 2)) * 2 - 1 = q
    rw [h _ (by linarith) (by linarith)]
    ring
  cdf_mem x hx := by
    have h1 := Phi_strictMono (mem_Ioi.1 hx)
    have h2 := Phi_lt_one x
    rw [Phi_zero] at h1
    constructor <;> linarith
  ppf_cdf x hx := by
    show ninv ((1 + (Phi x * 2 - 1)) / 2) = x
    rw [show (1 + (Phi x * 2 - 1)) / 2 = Phi x by ring]
    exact Phi_inj (h _ (Phi_pos x) (Phi_lt_one x))

/-- The power of a distribution function. -/
theorem IsPpf.cdf_pow {I : Set ℝ} {F P : ℝ → ℝ} (h : IsPpf I F P) {c : ℝ} (hc : 0 < c) :
    IsPpf I (fun x => F x ^ c) (fun q => P (q ^ (1 / c))) where
  mem q h0 h1 := h.mem _ (rpow_pos_of_pos h0 _) (rpow_lt_one h0.le h1 (by positivity))
  cdf_ppf q h0 h1 := by
    show F (P (q ^ (1 / c))) ^ c = q
    rw [h.cdf_ppf _ (rpow_pos_of_pos h0 _) (rpow_lt_one h0.le h1 (by positivity)),
      ← rpow_mul h0.le, one_div, inv_mul_cancel₀ hc.ne', rpow_one]
  cdf_mem x hx :=
    have h1 := h.cdf_mem x hx
    ⟨rpow_pos_of_pos h1.1 _, rpow_lt_one h1.1.le h1.2 hc⟩
  ppf_cdf x hx := by
    have h1 := h.cdf_mem x hx
    show P ((F x ^ c) ^ (1 / c)) = x
    rw [← rpow_mul h1.1.le, one_div, mul_inv_cancel₀ hc.ne', rpow_one, h.ppf_cdf x hx]

end Wafo.Dist

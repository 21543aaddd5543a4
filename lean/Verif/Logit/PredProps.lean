import Verif.Logit.Lemmas
import Mathlib.Analysis.SpecialFunctions.Trigonometric.DerivHyp

set_option linter.unusedSectionVars false

/-! Linear predictors, predictions and their limits, removal of covariates (C299 - C302). -/

namespace Wafo.Logit

open Finset

/-- **C299** (partial).  `eta` of `fit` is the linear predictor when there is at most one covariate; with two or more it is
refused with ValueError unless there are as many as thresholds.  Missing: this case (`C299_several_refuted`). -/
theorem C299_eta_partial {n q m : ℕ} (x : Fin n → Fin q → ℝ) (beta : Fin q → ℝ) (theta : Fin m → ℝ) :
    (q ≤ 1 → etaFit x beta theta = .ok fun i j => (∑ l, x i l * beta l) + theta j) ∧
    (2 ≤ q → q ≠ m → etaFit x beta theta = .error .valueError) := by
  constructor
  · intro hq
    obtain rfl | rfl : q = 0 ∨ q = 1 := by omega
    · simp [etaFit]
    · simp [etaFit]
  · intro h2 hm
    rw [etaFit, if_neg (by omega), dif_neg (by omega), dif_neg hm]

/-- **C299** refuted.  With as many covariates as thresholds, at least two, the predictor of each threshold uses only one
covariate: it is right exactly when the others contribute nothing. -/
theorem C299_several_refuted {n q : ℕ} (x : Fin n → Fin q → ℝ) (beta theta : Fin q → ℝ) (hq : 2 ≤ q) :
    (etaFit x beta theta = .ok fun i j => (∑ l, x i l * beta l) + theta j) ↔
      ∀ i j, ∑ l ∈ univ.erase j, x i l * beta l = 0 := by
  have e : etaFit x beta theta = .ok fun i j => x i j * beta j + theta j := by
    rw [etaFit, if_neg (by omega), dif_neg (by omega), dif_pos rfl]
  rw [e]
  constructor
  · intro h i j
    have := congrFun (congrFun (Except.ok.inj h) i) j
    beta_reduce at this
    rw [← add_sum_erase univ _ (mem_univ j)] at this
    linarith
  · intro h
    congr 1
    funext i j
    rw [← add_sum_erase univ _ (mem_univ j), h i j, add_zero]

/-- Two covariates with value 1 and coefficients 1 and 2: predictors 1 and 2 instead of 3. -/
example : etaFit (n := 1) (fun _ _ => 1) ![1, 2] (fun _ : Fin 2 => 0) ≠
    .ok fun i j => (∑ l : Fin 2, (1 : ℝ) * ![1, 2] l) + 0 := by
  intro h
  have := (C299_several_refuted (n := 1) (fun _ _ => 1) ![1, 2] (fun _ : Fin 2 => 0) le_rfl).1 h 0 0
  rw [show univ.erase (0 : Fin 2) = {1} from by decide] at this
  norm_num at this

section

variable {m : ℕ}

theorem stack_mono (eta : Fin m → ℝ) (h : Monotone eta) {j k : ℕ} (hjk : j ≤ k) : stack eta j ≤ stack eta k := by
  unfold stack
  split
  · split
    · exact le_rfl
    · split
      · exact (logitinv_pos _).le
      · exact zero_le_one
  · rw [if_neg (by omega)]
    split
    next h1 =>
      split
      next h2 => exact logitinv_strictMono.monotone (h (Fin.mk_le_mk.2 (by omega)))
      next h2 => exact (logitinv_lt_one _).le
    next h1 => rw [dif_neg (by omega)]

/-- **C300**  `predict(Xnew)`: each row has the probabilities of the ordinal logistic model, they sum to 1, and they are
not negative when the thresholds are in order. -/
theorem C300_probabilities {q k : ℕ} (xn : Fin k → Fin q → ℝ) (beta : Fin q → ℝ) (theta : Fin m → ℝ) (i : Fin k) :
    (∀ j, probs (etaPredict xn beta theta i) j = catProb theta (∑ l, xn i l * beta l) j) ∧
    ∑ j, probs (etaPredict xn beta theta i) j = 1 ∧
    (Monotone theta → ∀ j, 0 ≤ probs (etaPredict xn beta theta i) j) := by
  refine ⟨?_, ?_, ?_⟩
  · intro j
    have : ∀ k, stack (etaPredict xn beta theta i) k = cum theta (∑ l, xn i l * beta l) k := by
      intro k
      unfold stack cum
      simp only [logitinv_eq, etaPredict, add_comm]
    rw [probs, catProb, this, this]
  · simp only [probs]
    rw [Fin.sum_univ_eq_sum_range (fun j => stack (etaPredict xn beta theta i) (j + 1) - stack (etaPredict xn beta theta i) j)
      (m + 1), sum_range_sub]
    simp [stack]
  · intro h j
    have hm : Monotone (etaPredict xn beta theta i) := fun a b hab => by
      simp only [etaPredict]; linarith [h hab]
    exact sub_nonneg.2 (stack_mono _ hm (Nat.le_succ _))

theorem gap (t a : ℝ) (ha : 0 < a) :
    1 / (logitinv (t + a) - logitinv t) - 1 / (logitinv t - logitinv (t - a)) = 2 * Real.sinh t := by
  have h1 : 0 < logitinv (t + a) - logitinv t := sub_pos.2 (logitinv_strictMono (by linarith))
  have h2 : 0 < logitinv t - logitinv (t - a) := sub_pos.2 (logitinv_strictMono (by linarith))
  have e := Real.exp_pos t
  set E := Real.exp t with hE
  set r := Real.exp a with hr
  have r0 : 1 < r := Real.one_lt_exp_iff.2 ha
  have rp : 0 < r := by linarith
  have r1 : r - 1 ≠ 0 := by linarith
  have f1 : logitinv (t + a) = E * r / (1 + E * r) := by
    rw [logitinv, Real.exp_neg, Real.exp_add, ← hE, ← hr]; field_simp
  have f2 : logitinv t = E / (1 + E) := by
    rw [logitinv, Real.exp_neg, ← hE]; field_simp
  have f3 : logitinv (t - a) = E / (r + E) := by
    rw [logitinv, Real.exp_neg, Real.exp_sub, ← hE, ← hr]; field_simp
  have d1 : logitinv (t + a) - logitinv t = E * (r - 1) / ((1 + E * r) * (1 + E)) := by
    rw [f1, f2]; field_simp; ring
  have d2 : logitinv t - logitinv (t - a) = E * (r - 1) / ((1 + E) * (r + E)) := by
    rw [f2, f3]; field_simp; ring
  rw [d1, d2, Real.sinh_eq, Real.exp_neg, ← hE]
  field_simp
  ring

/-- Between two thresholds one of the shifted differences is not larger. -/
theorem inner (s t a b : ℝ) (hst : s ≤ t) (ha : 0 ≤ a) (hb : 0 ≤ b) :
    min (logitinv (t - b) - logitinv (s - a)) (logitinv (t + b) - logitinv (s + a)) ≤ logitinv t - logitinv s := by
  by_contra hcon
  rw [not_le, lt_min_iff] at hcon
  obtain ⟨h1, h2⟩ := hcon
  have mono : Monotone logitinv := logitinv_strictMono.monotone
  rcases ha.eq_or_lt with rfl | ha'
  · rw [sub_zero] at h1
    have := mono (show t - b ≤ t by linarith)
    linarith
  · rcases hb.eq_or_lt with rfl | hb'
    · rw [add_zero] at h2
      have := mono (show s ≤ s + a by linarith)
      linarith
    · have g1 := gap s a ha'
      have g2 := gap t b hb'
      have p1 : 0 < logitinv (s + a) - logitinv s := sub_pos.2 (logitinv_strictMono (by linarith))
      have p2 : 0 < logitinv t - logitinv (t - b) := sub_pos.2 (logitinv_strictMono (by linarith))
      have i1 : 1 / (logitinv (t + b) - logitinv t) < 1 / (logitinv (s + a) - logitinv s) :=
        one_div_lt_one_div_of_lt p1 (by linarith)
      have i2 : 1 / (logitinv s - logitinv (s - a)) < 1 / (logitinv t - logitinv (t - b)) :=
        one_div_lt_one_div_of_lt p2 (by linarith)
      have := Real.sinh_le_sinh.2 hst
      linarith

/-- **C300**  The limits returned by `predict(.., fulloutput=True)` enclose the predicted probability of each category, for
thresholds in order and any half widths that are not negative. -/
theorem C300_limits (eta ecrit : Fin m → ℝ) (h : Monotone eta) (he : ∀ k, 0 ≤ ecrit k) (j : Fin (m + 1)) :
    predictLo eta ecrit j ≤ probs eta j ∧ probs eta j ≤ predictUp eta ecrit j := by
  have mono : Monotone logitinv := logitinv_strictMono.monotone
  have up : ∀ k, logitinv (eta k) ≤ logitinv (eta k + ecrit k) := fun k => mono (by linarith [he k])
  have dn : ∀ k, logitinv (eta k - ecrit k) ≤ logitinv (eta k) := fun k => mono (by linarith [he k])
  by_cases hm : m = 0
  · subst hm
    have : j = 0 := by omega
    subst this
    simp [predictLo, predictUp, probs, stack]
  by_cases h0 : (j : ℕ) = 0
  · have e : ∀ f : Fin m → ℝ, probs f j = logitinv (f ⟨0, by omega⟩) := by
      intro f
      simp [probs, stack, h0, Nat.pos_of_ne_zero hm]
    unfold predictLo predictUp
    simp only [e]
    rw [dif_neg (by omega)]
    exact ⟨(min_le_left _ _).trans (dn _), (up _).trans (le_max_right _ _)⟩
  by_cases hl : (j : ℕ) = m
  · have e : ∀ f : Fin m → ℝ, probs f j = 1 - logitinv (f ⟨m - 1, by omega⟩) := by
      intro f
      simp only [probs, stack, hl]
      rw [if_neg (by omega), dif_neg (by omega), if_neg hm, dif_pos (by omega)]
    unfold predictLo predictUp
    simp only [e]
    rw [dif_neg (by omega)]
    exact ⟨(min_le_right _ _).trans (sub_le_sub_left (up _) _), (sub_le_sub_left (dn _) _).trans (le_max_left _ _)⟩
  · have hj := j.2
    have hmid : 1 ≤ (j : ℕ) ∧ (j : ℕ) < m := by omega
    have e : ∀ f : Fin m → ℝ, probs f j = logitinv (f ⟨j, hmid.2⟩) - logitinv (f ⟨j - 1, by omega⟩) := by
      intro f
      simp only [probs, stack]
      rw [if_neg (by omega), dif_pos (by omega), if_neg h0, dif_pos (by omega)]
      simp
    unfold predictLo predictUp
    simp only [e]
    rw [dif_pos hmid]
    constructor
    · exact inner _ _ _ _ (h (Fin.mk_le_mk.2 (by omega))) (he _) (he _)
    · apply le_trans _ (le_max_right _ _)
      have := up ⟨j, hmid.2⟩
      have := dn ⟨j - 1, by omega⟩
      linarith

example : Monotone ![(0 : ℝ), 1] ∧ ∀ k, 0 ≤ ![(1 : ℝ), 1] k := by
  constructor
  · intro a b hab; fin_cases a <;> fin_cases b <;> simp_all
  · intro k; fin_cases k <;> simp

/-- **C300** refuted.  The lower limit for a probability can be negative: equal predictors with half widths 1 and 0. -/
theorem C300_negative_refuted : predictLo ![(0 : ℝ), 0] ![1, 0] 1 < 0 := by
  have h := logitinv_strictMono (show (0 : ℝ) < 1 by norm_num)
  have : probs (fun k => ![(0 : ℝ), 0] k + ![(1 : ℝ), 0] k) 1 = logitinv 0 - logitinv 1 := by
    simp [probs, stack]
  exact (min_le_right _ _).trans_lt (by rw [this]; linarith)

end

section

variable {m q : ℕ}

/-- The variance of `theta_i + xn . beta` for parameters with covariance matrix `cov`. -/
def varOf (cov : Fin m ⊕ Fin q → Fin m ⊕ Fin q → ℝ) (xn : Fin q → ℝ) (i : Fin m) : ℝ :=
  cov (Sum.inl i) (Sum.inl i) + 2 * ∑ k, xn k * cov (Sum.inl i) (Sum.inr k) +
    ∑ k, ∑ l, xn k * xn l * cov (Sum.inr k) (Sum.inr l)

theorem varOf_eq (R : Fin m ⊕ Fin q → Fin m ⊕ Fin q → ℝ) (xn : Fin q → ℝ) (i : Fin m) :
    varOf (fun a b => ∑ c, R a c * R b c) xn i = ∑ c, (R (Sum.inl i) c + ∑ k, xn k * R (Sum.inr k) c) ^ 2 := by
  have e : ∀ c, (R (Sum.inl i) c + ∑ k, xn k * R (Sum.inr k) c) ^ 2 =
      R (Sum.inl i) c * R (Sum.inl i) c + 2 * ∑ k, xn k * (R (Sum.inl i) c * R (Sum.inr k) c) +
        ∑ k, ∑ l, xn k * xn l * (R (Sum.inr k) c * R (Sum.inr l) c) := by
    intro c
    rw [add_sq, sq (∑ k, xn k * R (Sum.inr k) c), sum_mul_sum, mul_assoc, mul_sum]
    congr 1
    · rw [sq]
      congr 2
      exact sum_congr rfl fun k _ => by ring
    · exact sum_congr rfl fun k _ => sum_congr rfl fun l _ => by ring
  have e2 : ∑ c, ∑ k, xn k * (R (Sum.inl i) c * R (Sum.inr k) c) = ∑ k, xn k * ∑ c, R (Sum.inl i) c * R (Sum.inr k) c := by
    rw [sum_comm]; simp only [mul_sum]
  have e3 : ∑ c, ∑ k, ∑ l, xn k * xn l * (R (Sum.inr k) c * R (Sum.inr l) c) =
      ∑ k, ∑ l, xn k * xn l * ∑ c, R (Sum.inr k) c * R (Sum.inr l) c := by
    rw [sum_comm]
    apply Finset.sum_congr rfl
    intro k _
    rw [sum_comm]
    simp only [mul_sum]
  simp only [e, sum_add_distrib, varOf]
  rw [e3, ← mul_sum, e2]

theorem vareta_eq (R : Fin m ⊕ Fin q → Fin m ⊕ Fin q → ℝ) (xn : Fin q → ℝ) (i : Fin m) :
    vareta R xn i = (R (Sum.inl i) (Sum.inl i) + ∑ k, xn k * R (Sum.inr k) (Sum.inl i)) ^ 2 +
      ∑ c, (R (Sum.inl i) (Sum.inr c) + ∑ k, xn k * R (Sum.inr k) (Sum.inr c)) ^ 2 := by
  simp [vareta, Fintype.sum_sum_type]

/-- **C301** (partial).  The variance of the linear predictor in `predict`: for a square root `R` of the covariance matrix of the
parameters it is never too large, and it is right for two categories.  Missing: three or more categories
(`C301_variance_refuted`). -/
theorem C301_variance_partial (R cov : Fin m ⊕ Fin q → Fin m ⊕ Fin q → ℝ) (hR : ∀ a b, ∑ c, R a c * R b c = cov a b)
    (xn : Fin q → ℝ) (i : Fin m) :
    vareta R xn i ≤ varOf cov xn i ∧ (m = 1 → vareta R xn i = varOf cov xn i) := by
  have hc : cov = fun a b => ∑ c, R a c * R b c := by funext a b; exact (hR a b).symm
  rw [hc, varOf_eq, vareta_eq, Fintype.sum_sum_type]
  constructor
  · have := single_le_sum (f := fun c : Fin m => (R (Sum.inl i) (Sum.inl c) + ∑ k, xn k * R (Sum.inr k) (Sum.inl c)) ^ 2)
      (fun c _ => sq_nonneg _) (mem_univ i)
    beta_reduce at this
    linarith
  · intro hm
    subst hm
    rw [Subsingleton.elim i 0]
    simp only [Fin.sum_univ_one (fun c : Fin 1 => (R (Sum.inl 0) (Sum.inl c) + ∑ k, xn k * R (Sum.inr k) (Sum.inl c)) ^ 2)]

/-- A symmetric positive definite square root for two thresholds and one covariate. -/
def wR : Fin 2 ⊕ Fin 1 → Fin 2 ⊕ Fin 1 → ℝ :=
  Sum.elim (fun i => Sum.elim (fun j => ![![1, 1], ![1, 2]] i j) (fun _ => 0)) (fun _ => Sum.elim (fun _ => 0) (fun _ => 1))

/-- **C301** refuted.  Three categories: the variance of the first predictor is 2, `predict` uses 1, so that the limits are
too narrow. -/
theorem C301_variance_refuted : (∀ a b, wR a b = wR b a) ∧
    vareta wR (fun _ => 0) 0 = 1 ∧ varOf (fun a b => ∑ c, wR a c * wR b c) (fun _ => 0) 0 = 2 := by
  refine ⟨?_, ?_, ?_⟩
  · rintro (a | a) (b | b)
    · fin_cases a <;> fin_cases b <;> rfl
    · rfl
    · rfl
    · rfl
  · rw [vareta_eq]; simp [wR]
  · rw [varOf_eq]; simp [wR, Fintype.sum_sum_type]; norm_num

end

section

/-- `X = U diag(s) V` with orthonormal columns of `U` and rows of `V`, singular values in descending order. -/
structure IsSvd {n q r : ℕ} (X : Fin n → Fin q → ℝ) (U : Fin n → Fin r → ℝ) (s : Fin r → ℝ) (V : Fin r → Fin q → ℝ) : Prop where
  prod : ∀ i j, X i j = ∑ k, U i k * s k * V k j
  orthU : ∀ k l, ∑ i, U i k * U i l = if k = l then 1 else 0
  orthV : ∀ k l, ∑ j, V k j * V l j = if k = l then 1 else 0
  nonneg : ∀ k, 0 ≤ s k
  desc : ∀ k l, k ≤ l → s l ≤ s k

/-- **C302** (partial).  `check_xy` keeps as many covariates as there are singular values above the tolerance, the first
ones.  In particular all are kept when no singular value is small.  Missing: that those kept are independent of each other
and span the others (`C302_columns_refuted`). -/
theorem C302_first_partial (s : List ℝ) (tol : ℝ) (ncol : ℕ) (hs : s.Pairwise (fun a b => b ≤ a))
    (h0 : ∃ a ∈ s, tol < a) :
    keptColumns s tol ncol = List.range (s.filter fun a => decide (tol < a)).length := by
  have key : ∀ l : List ℝ, l.Pairwise (fun a b => b ≤ a) →
      (List.range l.length).filter (fun i => decide (tol < l.getD i 0)) =
        List.range (l.filter fun a => decide (tol < a)).length := by
    intro l
    induction l with
    | nil => intro; rfl
    | cons a l ih =>
      intro hl
      rw [List.pairwise_cons] at hl
      rw [List.length_cons, List.range_succ_eq_map, List.filter_cons, List.filter_map]
      have e : ((fun i => decide (tol < (a :: l).getD i 0)) ∘ Nat.succ) = fun i => decide (tol < l.getD i 0) := by
        funext i; simp
      rw [e, ih hl.2]
      by_cases ha : tol < a
      · simp [ha, List.range_succ_eq_map]
      · have : l.filter (fun a => decide (tol < a)) = [] := by
          rw [List.filter_eq_nil_iff]
          intro b hb
          have := hl.1 b hb
          simp; linarith
        simp [ha, this]
  rw [keptColumns, key s hs]
  obtain ⟨a, ha, h⟩ := h0
  rw [if_neg]
  rw [List.range_eq_nil, List.length_eq_zero_iff]
  exact List.ne_nil_of_mem (List.mem_filter.2 ⟨ha, by simpa using h⟩)

/-- The second covariate is twice the first one. -/
def wX : Fin 3 → Fin 3 → ℝ := ![![1, 2, 0], ![0, 0, 1], ![0, 0, 0]]

/-- **C302** refuted.  Of the covariates `(1, 0, 0)`, `(2, 0, 0)`, `(0, 1, 0)`, with singular values `√5`, 1, 0, the first two are
kept: one is a multiple of the other, and the independent third one is lost. -/
theorem C302_columns_refuted :
    (∃ U V, IsSvd wX U ![Real.sqrt 5, 1, 0] V) ∧
    (∀ tol : ℝ, 0 ≤ tol → tol < 1 → keptColumns [Real.sqrt 5, 1, 0] tol 3 = [0, 1]) ∧
    (∀ i, wX i 1 = 2 * wX i 0) ∧ ¬ ∃ a b : ℝ, ∀ i, wX i 2 = a * wX i 0 + b * wX i 1 := by
  have h5 : Real.sqrt 5 * Real.sqrt 5 = 5 := Real.mul_self_sqrt (by norm_num)
  have hp : 0 < Real.sqrt 5 := Real.sqrt_pos.2 (by norm_num)
  have h1 : 1 < Real.sqrt 5 := by
    rw [Real.lt_sqrt (by norm_num)]; norm_num
  have hi : (Real.sqrt 5)⁻¹ * (Real.sqrt 5)⁻¹ = 1 / 5 := by rw [← mul_inv, h5]; norm_num
  refine ⟨⟨![![1, 0, 0], ![0, 1, 0], ![0, 0, 1]],
    ![![(Real.sqrt 5)⁻¹, 2 * (Real.sqrt 5)⁻¹, 0], ![0, 0, 1], ![2 * (Real.sqrt 5)⁻¹, -(Real.sqrt 5)⁻¹, 0]],
    ⟨?_, ?_, ?_, ?_, ?_⟩⟩, ?_, ?_, ?_⟩
  · intro i j
    fin_cases i <;> fin_cases j <;> simp [wX, Fin.sum_univ_three, hp.ne']
    field_simp
  · intro k l
    fin_cases k <;> fin_cases l <;> simp [Fin.sum_univ_three]
  · intro k l
    fin_cases k <;> fin_cases l <;> simp [Fin.sum_univ_three] <;> nlinarith
  · intro k
    fin_cases k <;> simp
  · intro k l hkl
    fin_cases k <;> fin_cases l <;> simp_all [h1.le]
  · intro tol ht0 ht1
    have : tol < Real.sqrt 5 := by linarith
    rw [C302_first_partial]
    · simp [this, ht1, not_lt.2 ht0]; rfl
    · simp [h1.le]
    · exact ⟨1, by simp, ht1⟩
  · intro i
    fin_cases i <;> simp [wX]
  · rintro ⟨a, b, h⟩
    have := h 1
    simp [wX] at this

end

end Wafo.Logit

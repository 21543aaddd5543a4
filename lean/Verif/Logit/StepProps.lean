import Verif.Logit.NullProps
import Mathlib.Analysis.SpecialFunctions.Trigonometric.DerivHyp
import Mathlib.Analysis.Complex.ExponentialBounds

set_option linter.unusedSectionVars false

/-! The Newton iteration of `fit` (C298). -/

namespace Wafo.Logit

open Finset

section

variable {n q : ℕ} [NeZero n] (y : Fin n → ℤ) (x : Fin n → Fin q → ℝ)

/-- The log-likelihood lies below its tangents. -/
theorem tangent (b b' : Par y q) (hp : ∀ i, 0 < p y x b i) (hp' : ∀ i, 0 < p y x b' i) :
    ∑ j, dl y x b' j * (b' j - b j) ≤ (∑ i, Real.log (p y x b' i)) - ∑ i, Real.log (p y x b i) := by
  set h : Par y q := fun j => b' j - b j with hh
  have e1 : line y b h 1 = b' := by funext j; simp [line, hh]
  have hpos : ∀ t, 0 ≤ t → t ≤ 1 → ∀ i, 0 < p y x (line y b h t) i := by
    intro t ht0 ht1 i
    apply p_segment y x b h i _ _ t ht0 ht1
    · exact hp i
    · rw [e1]; exact hp' i
  have hd1 : ∀ t ∈ Set.Icc (0 : ℝ) 1, HasDerivAt (fun t => ∑ j, dl y x (line y b h t) j * h j)
      (∑ j, ∑ k, h j * d2l y x (line y b h t) j k * h k) t :=
    fun t ht => dl_line y x b h h t (hpos t ht.1 ht.2)
  have anti1 : AntitoneOn (fun t => ∑ j, dl y x (line y b h t) j * h j) (Set.Icc 0 1) := by
    apply antitoneOn_of_deriv_nonpos (convex_Icc 0 1)
    · exact fun t ht => (hd1 t ht).continuousAt.continuousWithinAt
    · exact fun t ht => (hd1 t (interior_subset ht)).differentiableAt.differentiableWithinAt
    · intro t ht
      have ht' := interior_subset ht
      rw [(hd1 t ht').deriv, d2l_dot]
      exact sum_nonpos fun i _ => curvature_nonpos y x _ h i (hpos t ht'.1 ht'.2 i)
  set c := ∑ j, dl y x b' j * h j with hc
  have hd0 : ∀ t ∈ Set.Icc (0 : ℝ) 1, HasDerivAt (fun t => (∑ i, Real.log (p y x (line y b h t) i)) - t * c)
      ((∑ j, dl y x (line y b h t) j * h j) - 1 * c) t :=
    fun t ht => (total_line y x b h t (hpos t ht.1 ht.2)).sub ((hasDerivAt_id t).mul_const c)
  have mono : MonotoneOn (fun t => (∑ i, Real.log (p y x (line y b h t) i)) - t * c) (Set.Icc 0 1) := by
    apply monotoneOn_of_deriv_nonneg (convex_Icc 0 1)
    · exact fun t ht => (hd0 t ht).continuousAt.continuousWithinAt
    · exact fun t ht => (hd0 t (interior_subset ht)).differentiableAt.differentiableWithinAt
    · intro t ht
      have ht' := interior_subset ht
      rw [(hd0 t ht').deriv]
      have := anti1 ht' (Set.right_mem_Icc.2 zero_le_one) ht'.2
      simp only [e1] at this
      linarith
  have := mono (Set.left_mem_Icc.2 zero_le_one) (Set.right_mem_Icc.2 zero_le_one) zero_le_one
  simp only [line_zero, e1] at this
  linarith

/-- **C298** (partial).  A pass of the loop in `fit`, wherever the observed categories have positive probabilities before
and after it: it raises exactly when the Newton step raises the likelihood but goes beyond the maximum on its line, and
otherwise it takes the step, also when the likelihood becomes smaller.  Missing: the damping announced by the code (C298_raises_refuted). -/
theorem C298_step_partial (lstsq : ((Fin (nz y) ⊕ Fin q) → (Fin (nz y) ⊕ Fin q) → ℝ) → Par y q → Par y q) (tol : ℝ)
    (s : State y q) (new : Par y q) (hnew : new = fun j => s.tb j - lstsq (d2l y x s.tb) (dl y x s.tb) j)
    (hp : ∀ i, 0 < catProb (fun j => s.tb (Sum.inl j)) (∑ k, x i k * s.tb (Sum.inr k)) (cat y i))
    (hp' : ∀ i, 0 < catProb (fun j => new (Sum.inl j)) (∑ k, x i k * new (Sum.inr k)) (cat y i)) :
    let L := fun b : Par y q => logLik y x (fun j => b (Sum.inl j)) (fun k => b (Sum.inr k))
    let overshoot := L s.tb < L new ∧ ∑ j, dl y x new j * (new j - s.tb j) < 0
    (overshoot → step y x lstsq tol s = .error .typeError ∨ step y x lstsq tol s = .error .valueError) ∧
    (¬ overshoot → ∃ s', step y x lstsq tol s = .ok s' ∧ s'.tb = new) := by
  intro L overshoot
  have q1 : ∀ i, 0 < p y x s.tb i := fun i => by rw [(C294_likelihood y x _).2.2.1 i]; exact hp i
  have q2 : ∀ i, 0 < p y x new i := fun i => by rw [(C294_likelihood y x _).2.2.1 i]; exact hp' i
  have ht := tangent y x s.tb new q1 q2
  have l1 : L s.tb = ∑ i, Real.log (p y x s.tb i) := logLik_eq y x s.tb
  have l2 : L new = ∑ i, Real.log (p y x new i) := logLik_eq y x new
  rw [← l1, ← l2] at ht
  have d1 : devOpt y x s.tb = some (-2 * L s.tb) := by rw [devOpt, if_pos q1, dev, l1]
  have d2 : devOpt y x new = some (-2 * L new) := by rw [devOpt, if_pos q2, dev, l2]
  set den := ∑ j, dl y x new j * (new j - s.tb j) with hden
  have hneg : quotNeg (devOpt y x new) (devOpt y x s.tb) den →  ¬ overshoot := by
    rintro hq ⟨h1, h2⟩
    change den < 0 at h2
    rw [d1, d2] at hq
    simp only [quotNeg, if_neg h2.ne] at hq
    have : 0 < (-2 * L new - -2 * L s.tb) / den := div_pos_of_neg_of_neg (by linarith) h2
    linarith
  have hpos : quotPos (devOpt y x new) (devOpt y x s.tb) den → overshoot := by
    intro hq
    rw [d1, d2] at hq
    simp only [quotPos] at hq
    by_cases h0 : den = 0
    · rw [if_pos h0] at hq; exfalso; rw [h0] at ht; linarith
    · rw [if_neg h0, div_pos_iff] at hq
      rcases hq with ⟨ha, hb⟩ | ⟨ha, hb⟩
      · exfalso; linarith
      · exact ⟨by linarith, hb⟩
  have hover : overshoot → quotPos (devOpt y x new) (devOpt y x s.tb) den := by
    rintro ⟨h1, h2⟩
    change den < 0 at h2
    rw [d1, d2]
    simp only [quotPos, if_neg h2.ne]
    exact div_pos_of_neg_of_neg (by linarith) h2
  have unf : step y x lstsq tol s = open Classical in
      let stop : Bool := decide (|(∑ j, dl y x new j * lstsq (d2l y x new) (dl y x new) j) / (nz y + q : ℕ)| ≤ tol)
      if quotNeg (devOpt y x new) (devOpt y x s.tb) den then .ok ⟨new, s.eps / 2, stop⟩
      else if quotPos (devOpt y x new) (devOpt y x s.tb) den then
        if 1e15 < s.eps * 10 then .error .valueError else .error .typeError
      else .ok ⟨new, s.eps, stop⟩ := by
    rw [hden, hnew]; rfl
  rw [unf]
  constructor
  · intro ho
    rw [if_neg (fun h => hneg h ho), if_pos (hover ho)]
    split
    · exact Or.inr rfl
    · exact Or.inl rfl
  · intro ho
    split
    · exact ⟨_, rfl, rfl⟩
    · rw [if_neg (fun h => ho (hpos h))]
      exact ⟨_, rfl, rfl⟩

/-- **C298** refuted.  Start values other than the default ones raise ValueError, except for two categories and one
covariate. -/
theorem C298_start_refuted (lstsq : ((Fin (nz y) ⊕ Fin q) → (Fin (nz y) ⊕ Fin q) → ℝ) → Par y q → Par y q) (tol eps0 : ℝ)
    (maxiter : ℕ) (theta : Fin (nz y) → ℝ) (beta : Fin q → ℝ)
    (hne : (fun j => Sum.elim theta beta j) ≠ start y) (hm : ¬ ((univ.image y).card = 2 ∧ q = 1)) :
    fitFrom y x lstsq tol eps0 maxiter (some theta) (some beta) = .error .valueError := by
  rw [fitFrom, if_pos]
  constructor
  · by_contra hcon
    push Not at hcon
    apply hne
    funext j
    rcases j with j | k
    · exact (hcon.2 j).symm
    · exact hcon.1 k
  · have := nz_card y
    by_contra hcon
    push Not at hcon
    omega

/-- Without start values `fitFrom` is `fit`. -/
theorem fitFrom_none (lstsq : ((Fin (nz y) ⊕ Fin q) → (Fin (nz y) ⊕ Fin q) → ℝ) → Par y q → Par y q) (tol eps0 : ℝ)
    (maxiter : ℕ) : fitFrom y x lstsq tol eps0 maxiter none none = fit y x lstsq tol eps0 maxiter := by
  rw [fitFrom, if_neg]
  · rfl
  · rintro ⟨⟨k, hk⟩ | ⟨j, hj⟩, -⟩
    · exact hk rfl
    · exact hj rfl

end

section

/-- Two categories with two observations each, balanced over the covariate. -/
def wy : Fin 4 → ℤ := ![1, 2, 1, 2]

def wx : Fin 4 → Fin 1 → ℝ := fun i _ => ![1, 1, -1, -1] i

theorem wnz : nz wy = 1 := by decide +kernel

theorem wcat : cat wy 0 = 0 ∧ cat wy 1 = 1 ∧ cat wy 2 = 0 ∧ cat wy 3 = 1 := by decide +kernel

theorem wmax : (wy 0 ≠ ymax wy ∧ wy 1 = ymax wy ∧ wy 2 ≠ ymax wy ∧ wy 3 = ymax wy) ∧
    (¬ ymin wy < wy 0 ∧ ymin wy < wy 1 ∧ ¬ ymin wy < wy 2 ∧ ymin wy < wy 3) := by decide +kernel

/-- Threshold `t`, coefficient 0. -/
noncomputable def wb (t : ℝ) : Par wy 1 := Sum.elim (fun _ => t) (fun _ => 0)

theorem wj (j : Fin (nz wy)) : (j : ℕ) = 0 := by have := j.2; have := wnz; omega

noncomputable instance : Unique (Fin (nz wy)) where
  default := ⟨0, by rw [wnz]; omega⟩
  uniq j := Fin.ext (wj j)

theorem wsz (t : ℝ) (i : Fin 4) : sz wy wx (wb t) i = if cat wy i = 0 then t else 0 := by
  rw [sz_eq]
  simp [wb, wnz]

theorem wsz1 (t : ℝ) (i : Fin 4) : sz1 wy wx (wb t) i = if cat wy i = 1 then t else 0 := by
  rw [sz1_eq]
  have : (1 ≤ cat wy i ∧ cat wy i - 1 < nz wy) ↔ cat wy i = 1 := by rw [wnz]; omega
  simp [wb, this]

theorem wg (t : ℝ) : (g wy wx (wb t) 0 = logitinv t ∧ g wy wx (wb t) 1 = 1 ∧ g wy wx (wb t) 2 = logitinv t ∧
      g wy wx (wb t) 3 = 1) ∧ (g1 wy wx (wb t) 0 = 0 ∧ g1 wy wx (wb t) 1 = logitinv t ∧ g1 wy wx (wb t) 2 = 0 ∧
      g1 wy wx (wb t) 3 = logitinv t) := by
  obtain ⟨⟨m0, m1, m2, m3⟩, n0, n1, n2, n3⟩ := wmax
  obtain ⟨c0, c1, c2, c3⟩ := wcat
  have e : ∀ i, (∑ j, zx wy wx i j * wb t j) = sz wy wx (wb t) i := fun _ => rfl
  have e1 : ∀ i, (∑ j, z1x wy wx i j * wb t j) = sz1 wy wx (wb t) i := fun _ => rfl
  have n4 : ymin wy < ymax wy := m1 ▸ n1
  simp only [g_eq, g1_eq, e, e1, wsz, wsz1, n4, m0, m1, m2, m3, n0, n1, n2, n3, c0, c1, c2, c3, if_true, if_false, and_self]

theorem wdl (t : ℝ) : dl wy wx (wb t) = Sum.elim (fun _ => 2 * (1 - 2 * logitinv t)) (fun _ => 0) := by
  obtain ⟨⟨a0, a1, a2, a3⟩, b0, b1, b2, b3⟩ := wg t
  obtain ⟨c0, c1, c2, c3⟩ := wcat
  have h0 := (logitinv_pos t).ne'
  have h1 : 1 - logitinv t ≠ 0 := by have := logitinv_lt_one t; linarith
  funext j
  rcases j with j | k
  · simp only [dl, dlogp, Sum.elim_inl, z_eq, z1_eq, Fin.sum_univ_four, v, v1, p, a0, a1, a2, a3, b0, b1, b2, b3, c0, c1, c2,
      c3, wj]
    simp
    field_simp
    ring
  · simp only [dl, dlogp, Sum.elim_inr, Fin.sum_univ_four, v, v1, p, a0, a1, a2, a3, b0, b1, b2, b3, wx]
    simp

theorem wd2l (t : ℝ) (u : Par wy 1) (j : Fin (nz wy) ⊕ Fin 1) :
    ∑ k, d2l wy wx (wb t) j k * u k = -4 * (logitinv t * (1 - logitinv t)) * u j := by
  obtain ⟨⟨a0, a1, a2, a3⟩, b0, b1, b2, b3⟩ := wg t
  obtain ⟨c0, c1, c2, c3⟩ := wcat
  have h0 := (logitinv_pos t).ne'
  have h1 : 1 - logitinv t ≠ 0 := by have := logitinv_lt_one t; linarith
  rcases j with j | j
  · rw [Subsingleton.elim j default]
    simp only [Fintype.sum_sum_type, Fintype.sum_unique, d2l, zx, z1x, dlogp, w, w1, v, v1, p, Sum.elim_inl, Sum.elim_inr,
      z_eq, z1_eq, Fin.sum_univ_four, a0, a1, a2, a3, b0, b1, b2, b3, c0, c1, c2, c3, wj, wx]
    simp
    field_simp
    ring
  · rw [Subsingleton.elim j default]
    simp only [Fintype.sum_sum_type, Fintype.sum_unique, d2l, zx, z1x, dlogp, w, w1, v, v1, p, Sum.elim_inl, Sum.elim_inr,
      z_eq, z1_eq, Fin.sum_univ_four, a0, a1, a2, a3, b0, b1, b2, b3, c0, c1, c2, c3, wj, wx]
    simp
    field_simp
    ring

theorem wll (t : ℝ) : logLik wy wx (fun j => wb t (Sum.inl j)) (fun k => wb t (Sum.inr k)) =
    2 * Real.log (logitinv t * (1 - logitinv t)) := by
  obtain ⟨⟨a0, a1, a2, a3⟩, b0, b1, b2, b3⟩ := wg t
  have h0 := (logitinv_pos t).ne'
  have h1 : 1 - logitinv t ≠ 0 := by have := logitinv_lt_one t; linarith
  rw [logLik_eq, Real.log_mul h0 h1]
  simp only [Fin.sum_univ_four, p, a0, a1, a2, a3, b0, b1, b2, b3, sub_zero]
  ring

theorem wp (t : ℝ) (i : Fin 4) :
    0 < catProb (fun j => wb t (Sum.inl j)) (∑ k, wx i k * wb t (Sum.inr k)) (cat wy i) := by
  rw [← (C294_likelihood wy wx (wb t)).2.2.1 i]
  obtain ⟨⟨a0, a1, a2, a3⟩, b0, b1, b2, b3⟩ := wg t
  have h0 := logitinv_pos t
  have h1 : 0 < 1 - logitinv t := by have := logitinv_lt_one t; linarith
  fin_cases i <;> simp [p, a0, a1, a2, a3, b0, b1, b2, b3, h0, logitinv_lt_one]

theorem prod_eq (t : ℝ) : logitinv t * (1 - logitinv t) = 1 / (2 + 2 * Real.cosh t) := by
  rw [logitinv, Real.cosh_eq, Real.exp_neg]
  have := Real.exp_pos t
  field_simp
  ring

theorem ratio_eq (t : ℝ) : (1 - 2 * logitinv t) / (2 * (logitinv t * (1 - logitinv t))) = -Real.sinh t := by
  rw [prod_eq, logitinv, Real.cosh_eq, Real.sinh_eq, Real.exp_neg]
  have := Real.exp_pos t
  field_simp
  ring

/-- The Newton step from threshold `t`. -/
theorem wnewton (lstsq : ((Fin (nz wy) ⊕ Fin 1) → (Fin (nz wy) ⊕ Fin 1) → ℝ) → Par wy 1 → Par wy 1)
    (hl : ∀ A b h, (∀ j, ∑ k, A j k * h k = b j) → (∀ u : Par wy 1, (∀ j, ∑ k, A j k * u k = 0) → u = 0) → lstsq A b = h) (t : ℝ) :
    (fun j => wb t j - lstsq (d2l wy wx (wb t)) (dl wy wx (wb t)) j) = wb (t - Real.sinh t) := by
  have h0 := logitinv_pos t
  have h1 : 0 < 1 - logitinv t := by have := logitinv_lt_one t; linarith
  have h2 : logitinv t * (1 - logitinv t) ≠ 0 := (mul_pos h0 h1).ne'
  have hs := ratio_eq t
  rw [hl _ _ (wb (Real.sinh t))]
  · funext j; rcases j with j | j <;> simp [wb]
  · intro j
    rw [wd2l, wdl]
    rcases j with j | j
    · simp only [wb, Sum.elim_inl]
      rw [div_eq_iff (by positivity)] at hs
      linarith
    · simp [wb]
  · intro u hu
    funext j
    have := hu j
    rw [wd2l] at this
    rcases mul_eq_zero.1 this with h | h
    · exfalso
      rcases mul_eq_zero.1 h with h | h
      · norm_num at h
      · exact h2 h
    · exact h

theorem sinh_two : 2 < Real.sinh 2 ∧ Real.sinh 2 < 4 := by
  have h1 := Real.exp_one_gt_d9
  have h2 := Real.exp_one_lt_d9
  have e : Real.exp 2 = Real.exp 1 ^ 2 := by rw [← Real.exp_nat_mul]; norm_num
  have l : (7 : ℝ) < Real.exp 2 := by rw [e]; nlinarith
  have r : Real.exp 2 < 7.5 := by rw [e]; nlinarith
  rw [Real.sinh_eq, Real.exp_neg]
  have i1 : (Real.exp 2)⁻¹ < 1 := inv_lt_one_of_one_lt₀ (by linarith)
  have i2 : 0 < (Real.exp 2)⁻¹ := by positivity
  constructor <;> linarith

theorem logitinv_neg_lt {t : ℝ} (h : t < 0) : logitinv t < 1 / 2 := by
  unfold logitinv
  apply one_div_lt_one_div_of_lt two_pos
  have := Real.one_lt_exp_iff.2 (neg_pos.2 h)
  linarith

/-- **C298** refuted.  `fit(y, X, theta0=[2.], beta0=[0.])` for `y = [[1], [2], [1], [2]]`, `X = [[1], [1], [-1], [-1]]` does
not converge to the maximum 0: whatever the accuracy, it raises in the first pass, although the step from 2 to
`2 - sinh 2 = -1.63` was an improvement. -/
theorem C298_raises_refuted (lstsq : ((Fin (nz wy) ⊕ Fin 1) → (Fin (nz wy) ⊕ Fin 1) → ℝ) → Par wy 1 → Par wy 1)
    (hl : ∀ A b h, (∀ j, ∑ k, A j k * h k = b j) → (∀ u : Par wy 1, (∀ j, ∑ k, A j k * u k = 0) → u = 0) → lstsq A b = h)
    (tol eps0 : ℝ) (maxiter : ℕ) :
    fitFrom wy wx lstsq tol eps0 maxiter (some fun _ => 2) (some fun _ => 0) = .error .typeError ∨
    fitFrom wy wx lstsq tol eps0 maxiter (some fun _ => 2) (some fun _ => 0) = .error .valueError := by
  have hn := wnewton lstsq hl 2
  obtain ⟨s1, s2⟩ := sinh_two
  have key := (C298_step_partial wy wx lstsq tol ⟨wb 2, eps0, false⟩ (wb (2 - Real.sinh 2)) hn.symm
    (wp 2) (wp _)).1 ?_
  · have e : fitFrom wy wx lstsq tol eps0 maxiter (some fun _ => 2) (some fun _ => 0) =
        loop wy wx lstsq tol (maxiter + 1) 0 ⟨wb 2, eps0, false⟩ := by
      rw [fitFrom, if_neg]
      · rfl
      · rintro ⟨-, h⟩
        rw [wnz] at h
        omega
    rw [e, loop]
    rcases key with h | h <;> rw [h]
    · exact Or.inl rfl
    · exact Or.inr rfl
  · constructor
    · simp only [wll, prod_eq]
      have c : Real.cosh (2 - Real.sinh 2) < Real.cosh 2 := by
        rw [Real.cosh_lt_cosh, abs_of_neg (by linarith), abs_of_pos two_pos]; linarith
      have p1 := Real.cosh_pos (2 - Real.sinh 2)
      have : Real.log (1 / (2 + 2 * Real.cosh 2)) < Real.log (1 / (2 + 2 * Real.cosh (2 - Real.sinh 2))) := by
        apply Real.log_lt_log
        · have := Real.cosh_pos 2; positivity
        · apply one_div_lt_one_div_of_lt <;> linarith
      linarith
    · rw [wdl]
      simp only [wb, Fintype.sum_sum_type, Fintype.sum_unique, Sum.elim_inl, Sum.elim_inr]
      have := logitinv_neg_lt (t := 2 - Real.sinh 2) (by linarith)
      nlinarith

open Classical in
/-- There are such solvers. -/
example : ∃ lstsq : ((Fin (nz wy) ⊕ Fin 1) → (Fin (nz wy) ⊕ Fin 1) → ℝ) → Par wy 1 → Par wy 1,
    ∀ A b h, (∀ j, ∑ k, A j k * h k = b j) → (∀ u : Par wy 1, (∀ j, ∑ k, A j k * u k = 0) → u = 0) → lstsq A b = h := by
  refine ⟨fun A b => if e : ∃ h : Par wy 1, ∀ j, ∑ k, A j k * h k = b j then e.choose else 0, fun A b h hs hk => ?_⟩
  have e : ∃ h : Par wy 1, ∀ j, ∑ k, A j k * h k = b j := ⟨h, hs⟩
  have hc := e.choose_spec
  beta_reduce
  rw [dif_pos e]
  have := hk (e.choose - h) (fun j => by
    simp only [Pi.sub_apply, mul_sub, sum_sub_distrib]
    rw [hs j, hc j, sub_self])
  exact sub_eq_zero.1 this

end

end Wafo.Logit

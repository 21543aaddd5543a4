import Verif.Logit.Calc

set_option linter.unusedSectionVars false

/-! Properties of ordinal logistic regression: likelihood, derivatives, maximum (C294 - C297). -/

namespace Wafo.Logit

open Finset

variable {n q : ℕ} [NeZero n] (y : Fin n → ℤ) (x : Fin n → Fin q → ℝ)

theorem sz_eq (b : Par y q) (i : Fin n) : sz y x b i =
    (if h : cat y i < nz y then b (Sum.inl ⟨cat y i, h⟩) else 0) + ∑ k, x i k * b (Sum.inr k) := by
  simp only [sz, zx, Fintype.sum_sum_type, Sum.elim_inl, Sum.elim_inr, z_eq]
  congr 1
  split
  next h =>
    rw [Finset.sum_eq_single ⟨cat y i, h⟩]
    · simp
    · intro j _ hj
      rw [if_neg (fun e => hj (Fin.ext e.symm)), zero_mul]
    · simp
  next h =>
    apply Finset.sum_eq_zero
    intro j _
    rw [if_neg (by have := j.2; omega), zero_mul]

theorem sz1_eq (b : Par y q) (i : Fin n) : sz1 y x b i =
    (if h : 1 ≤ cat y i ∧ cat y i - 1 < nz y then b (Sum.inl ⟨cat y i - 1, h.2⟩) else 0) + ∑ k, x i k * b (Sum.inr k) := by
  simp only [sz1, z1x, Fintype.sum_sum_type, Sum.elim_inl, Sum.elim_inr, z1_eq]
  congr 1
  split
  next h =>
    rw [Finset.sum_eq_single ⟨cat y i - 1, h.2⟩]
    · rw [if_pos (by show cat y i = cat y i - 1 + 1; omega), one_mul]
    · intro j _ hj
      rw [if_neg (fun e => hj (Fin.ext (by show (j : ℕ) = cat y i - 1; omega))), zero_mul]
    · simp
  next h =>
    apply Finset.sum_eq_zero
    intro j _
    rw [if_neg (by have := j.2; omega), zero_mul]

/-- **C294**  `loglike` evaluates the ordinal logistic model: with one threshold less than there are observed categories
(whatever integers they are), `p` is the probability of the observed category and `dev` is minus twice the
log-likelihood. -/
theorem C294_likelihood (b : Par y q) :
    nz y + 1 = (univ.image y).card ∧ (cols1 y).length = nz y ∧
    (∀ i, p y x b i = catProb (fun j => b (Sum.inl j)) (∑ k, x i k * b (Sum.inr k)) (cat y i)) ∧
    dev y x b = -2 * logLik y x (fun j => b (Sum.inl j)) (fun k => b (Sum.inr k)) := by
  have hp : ∀ i, p y x b i = catProb (fun j => b (Sum.inl j)) (∑ k, x i k * b (Sum.inr k)) (cat y i) := by
    intro i
    have hs : (∑ j, zx y x i j * b j) = sz y x b i := rfl
    have hs1 : (∑ j, z1x y x i j * b j) = sz1 y x b i := rfl
    rw [p, g_eq, g1_eq, hs, hs1, sz_eq, sz1_eq, catProb]
    congr 1
    · simp only [cum, Nat.add_sub_cancel]
      rw [if_neg (Nat.succ_ne_zero _)]
      by_cases e : y i = ymax y
      · rw [if_pos e, dif_neg (by rw [cat_last y i e]; omega)]
      · have hlt := cat_lt y i (lt_of_le_of_ne (le_ymax y i) e)
        rw [if_neg e, dif_pos hlt, dif_pos hlt, logitinv_eq]
    · simp only [cum]
      by_cases e : ymin y < y i
      · have h1 := cat_pos y i e
        have h2 : cat y i ≤ nz y := by
          by_cases e2 : y i = ymax y
          · exact (cat_last y i e2).le
          · exact (cat_lt y i (lt_of_le_of_ne (le_ymax y i) e2)).le
        have h3 : 1 ≤ cat y i ∧ cat y i - 1 < nz y := by omega
        rw [if_pos e, if_neg (by omega), dif_pos h3, dif_pos h3.2, logitinv_eq]
      · rw [if_neg e, if_pos (cat_zero y i e)]
  refine ⟨nz_card y, cols1_length y, hp, ?_⟩
  rw [dev, logLik]
  simp only [hp]

example : nz ![1, 1, 2, 1, 3] = 2 ∧ (fun i => cat ![1, 1, 2, 1, 3] i) = ![0, 0, 1, 0, 2] := by decide +kernel

theorem logLik_eq (b : Par y q) : logLik y x (fun j => b (Sum.inl j)) (fun k => b (Sum.inr k)) =
    ∑ i, Real.log (p y x b i) := by
  rw [logLik]; exact sum_congr rfl fun i _ => by rw [(C294_likelihood y x b).2.2.1 i]

theorem total_line (b h : Par y q) (t : ℝ) (hp : ∀ i, 0 < p y x (line y b h t) i) :
    HasDerivAt (fun t => ∑ i, Real.log (p y x (line y b h t) i)) (∑ j, dl y x (line y b h t) j * h j) t := by
  rw [dl_dot]
  exact HasDerivAt.fun_sum fun i _ => log_line y x b h i t (hp i)

theorem dl_line (b h u : Par y q) (t : ℝ) (hp : ∀ i, 0 < p y x (line y b h t) i) :
    HasDerivAt (fun t => ∑ j, dl y x (line y b h t) j * u j)
      (∑ j, ∑ k, u j * d2l y x (line y b h t) j k * h k) t := by
  simp only [dl_dot, d2l_dot]
  exact HasDerivAt.fun_sum fun i _ => slope_line y x b h u i t (hp i)

theorem line_zero (b h : Par y q) : line y b h 0 = b := by funext j; simp [line]

/-- **C295**  `dl` is the gradient of the log-likelihood and `d2l` the matrix of its second derivatives, in every
direction `h`, wherever the observed categories have positive probability. -/
theorem C295_derivatives (b h u : Par y q)
    (hp : ∀ i, 0 < catProb (fun j => b (Sum.inl j)) (∑ k, x i k * b (Sum.inr k)) (cat y i)) :
    HasDerivAt (fun t : ℝ => logLik y x (fun j => b (Sum.inl j) + t * h (Sum.inl j)) (fun k => b (Sum.inr k) + t * h (Sum.inr k)))
      (∑ j, dl y x b j * h j) 0 ∧
    HasDerivAt (fun t : ℝ => ∑ j, dl y x (fun k => b k + t * h k) j * u j) (∑ j, ∑ k, u j * d2l y x b j k * h k) 0 := by
  have hp' : ∀ i, 0 < p y x (line y b h 0) i := by
    intro i; rw [line_zero, (C294_likelihood y x b).2.2.1 i]; exact hp i
  constructor
  · have h1 := total_line y x b h 0 hp'
    rw [line_zero] at h1
    have e : (fun t : ℝ => logLik y x (fun j => b (Sum.inl j) + t * h (Sum.inl j)) (fun k => b (Sum.inr k) + t * h (Sum.inr k)))
        = fun t => ∑ i, Real.log (p y x (line y b h t) i) := by
      funext t; exact logLik_eq y x (line y b h t)
    rw [e]; exact h1
  · have h1 := dl_line y x b h u 0 hp'
    rw [line_zero] at h1
    exact h1

/-- **C296**  The matrix of second derivatives is negative semidefinite. -/
theorem C296_semidefinite (b h : Par y q)
    (hp : ∀ i, 0 < catProb (fun j => b (Sum.inl j)) (∑ k, x i k * b (Sum.inr k)) (cat y i)) :
    ∑ j, ∑ k, h j * d2l y x b j k * h k ≤ 0 := by
  rw [d2l_dot]
  exact sum_nonpos fun i _ => curvature_nonpos y x b h i (by rw [(C294_likelihood y x b).2.2.1 i]; exact hp i)

/-- **C296**  Parameters at which `dl` vanishes maximise the likelihood: no other parameters give the observed categories
a larger likelihood. -/
theorem C296_maximum (b b' : Par y q)
    (hp : ∀ i, 0 < catProb (fun j => b (Sum.inl j)) (∑ k, x i k * b (Sum.inr k)) (cat y i))
    (hp' : ∀ i, 0 < catProb (fun j => b' (Sum.inl j)) (∑ k, x i k * b' (Sum.inr k)) (cat y i))
    (h0 : ∀ j, dl y x b j = 0) :
    logLik y x (fun j => b' (Sum.inl j)) (fun k => b' (Sum.inr k)) ≤
      logLik y x (fun j => b (Sum.inl j)) (fun k => b (Sum.inr k)) := by
  set h : Par y q := fun j => b' j - b j with hh
  have e1 : line y b h 1 = b' := by funext j; simp [line, hh]
  have hpos : ∀ t, 0 ≤ t → t ≤ 1 → ∀ i, 0 < p y x (line y b h t) i := by
    intro t ht0 ht1 i
    apply p_segment y x b h i _ _ t ht0 ht1
    · rw [(C294_likelihood y x b).2.2.1 i]; exact hp i
    · rw [e1, (C294_likelihood y x b').2.2.1 i]; exact hp' i
  have hd1 : ∀ t ∈ Set.Icc (0 : ℝ) 1, HasDerivAt (fun t => ∑ j, dl y x (line y b h t) j * h j)
      (∑ j, ∑ k, h j * d2l y x (line y b h t) j k * h k) t :=
    fun t ht => dl_line y x b h h t (hpos t ht.1 ht.2)
  have hd0 : ∀ t ∈ Set.Icc (0 : ℝ) 1, HasDerivAt (fun t => ∑ i, Real.log (p y x (line y b h t) i))
      (∑ j, dl y x (line y b h t) j * h j) t :=
    fun t ht => total_line y x b h t (hpos t ht.1 ht.2)
  have anti1 : AntitoneOn (fun t => ∑ j, dl y x (line y b h t) j * h j) (Set.Icc 0 1) := by
    apply antitoneOn_of_deriv_nonpos (convex_Icc 0 1)
    · exact fun t ht => (hd1 t ht).continuousAt.continuousWithinAt
    · exact fun t ht => (hd1 t (interior_subset ht)).differentiableAt.differentiableWithinAt
    · intro t ht
      have ht' := interior_subset ht
      rw [(hd1 t ht').deriv, d2l_dot]
      exact sum_nonpos fun i _ => curvature_nonpos y x _ h i (hpos t ht'.1 ht'.2 i)
  have anti0 : AntitoneOn (fun t => ∑ i, Real.log (p y x (line y b h t) i)) (Set.Icc 0 1) := by
    apply antitoneOn_of_deriv_nonpos (convex_Icc 0 1)
    · exact fun t ht => (hd0 t ht).continuousAt.continuousWithinAt
    · exact fun t ht => (hd0 t (interior_subset ht)).differentiableAt.differentiableWithinAt
    · intro t ht
      have ht' := interior_subset ht
      rw [(hd0 t ht').deriv]
      have := anti1 (Set.left_mem_Icc.2 zero_le_one) ht' ht'.1
      simpa [line_zero, h0] using this
  have := anti0 (Set.left_mem_Icc.2 zero_le_one) (Set.right_mem_Icc.2 zero_le_one) zero_le_one
  simp only [line_zero, e1] at this
  rw [logLik_eq y x b, logLik_eq y x b']
  exact this

end Wafo.Logit

import Verif.Logit.Props

set_option linter.unusedSectionVars false

/-! The model without covariates (C297). -/

namespace Wafo.Logit

open Finset

variable {n : ℕ} [NeZero n] (y : Fin n → ℤ)

/-- The number of observations in category `k`. -/
def count (k : ℕ) : ℕ := (univ.filter fun i => cat y i = k).card

/-- The number of observations in categories below `k`. -/
def below (k : ℕ) : ℕ := (univ.filter fun i => cat y i < k).card

theorem below_succ (k : ℕ) : below y (k + 1) = below y k + count y k := by
  unfold below count
  rw [← card_union_of_disjoint]
  · congr 1
    ext i
    simp only [mem_filter, mem_univ, true_and, mem_union]
    omega
  · rw [disjoint_filter]
    intro i _ h1 h2
    omega

theorem cat_le (i : Fin n) : cat y i ≤ nz y := by
  by_cases e : y i = ymax y
  · exact (cat_last y i e).le
  · exact (cat_lt y i (lt_of_le_of_ne (le_ymax y i) e)).le

theorem count_pos (k : ℕ) (hk : k ≤ nz y) : 0 < count y k := by
  unfold count
  rw [card_pos]
  rcases hk.eq_or_lt with rfl | hk
  · obtain ⟨i, hi⟩ := exists_ymax y
    exact ⟨i, by simp [cat_last y i hi]⟩
  · have hm : (cols y)[k] ∈ cols y := List.getElem_mem hk
    obtain ⟨-, i, hi⟩ := (mem_cols y _).1 hm
    refine ⟨i, ?_⟩
    have := (cols_get y i k).1 (by rw [hi]; exact List.getElem?_eq_getElem hk)
    simp [this.2]

theorem below_all : below y (nz y + 1) = n := by
  unfold below
  rw [filter_true_of_mem (fun i _ => Nat.lt_succ_of_le (cat_le y i)), card_univ, Fintype.card_fin]

theorem below_mono {j k : ℕ} (h : j ≤ k) : below y j ≤ below y k :=
  card_le_card fun i hi => by
    simp only [mem_filter, mem_univ, true_and] at hi ⊢; omega

theorem gam_eq (j : Fin (nz y)) :
    (∑ k ∈ univ.filter (fun k : Fin (nz y) => k ≤ j), ∑ i, z y i k) = below y (j + 1) := by
  rw [sum_comm]
  have : ∀ i : Fin n, ∑ k ∈ univ.filter (fun k : Fin (nz y) => k ≤ j), z y i k = if cat y i < j + 1 then 1 else 0 := by
    intro i
    simp only [z_eq]
    split
    next h =>
      have hlt : cat y i < nz y := by have := j.2; omega
      rw [sum_eq_single (⟨cat y i, hlt⟩ : Fin (nz y))]
      · simp
      · intro k _ hk
        rw [if_neg (fun e => hk (Fin.ext e.symm))]
      · intro hk
        exfalso; apply hk
        simp only [mem_filter, mem_univ, true_and, Fin.le_def]; omega
    next h =>
      apply sum_eq_zero
      intro k hk
      simp only [mem_filter, mem_univ, true_and, Fin.le_def] at hk
      rw [if_neg (by omega)]
  simp only [this, sum_boole, below]

theorem npos : (0 : ℝ) < n := by exact_mod_cast Nat.pos_of_ne_zero (NeZero.ne n)

theorem logitinv_theta (j : Fin (nz y)) : logitinv (theta00 y j) = (below y (j + 1) : ℝ) / n := by
  unfold theta00
  simp only [gam_eq]
  have hn := npos (n := n)
  apply logitinv_log
  · apply div_pos _ hn
    have h1 := below_succ y j
    have h2 := count_pos y j j.2.le
    exact_mod_cast (by omega : 0 < below y (j + 1))
  · rw [div_lt_one hn]
    have h1 := below_mono y (show (j : ℕ) + 1 ≤ nz y from j.2)
    have h2 := below_succ y (nz y)
    have h3 := count_pos y (nz y) le_rfl
    have h4 := below_all y
    exact_mod_cast (by omega : below y (j + 1) < n)

theorem cum_null (k : ℕ) (hk : k ≤ nz y + 1) : cum (theta00 y) 0 k = (below y k : ℝ) / n := by
  have hn := npos (n := n)
  unfold cum
  split
  next h => subst h; simp [below]
  next h =>
    split
    next h2 =>
      rw [add_zero, ← logitinv_eq, logitinv_theta]
      simp only [Nat.sub_add_cancel (Nat.one_le_iff_ne_zero.2 h)]
    next h2 =>
      have : k = nz y + 1 := by omega
      rw [this, below_all, div_self hn.ne']

theorem prob_null (k : ℕ) (hk : k ≤ nz y) : catProb (theta00 y) 0 k = (count y k : ℝ) / n := by
  rw [catProb, cum_null y _ (by omega), cum_null y _ (by omega), below_succ]
  push_cast
  ring

variable (x : Fin n → Fin 0 → ℝ)

theorem start_inl (j : Fin (nz y)) : start (q := 0) y (Sum.inl j) = theta00 y j := rfl

theorem sz_null (i : Fin n) (h : cat y i < nz y) : sz y x (start y) i = theta00 y ⟨cat y i, h⟩ := by
  rw [sz_eq, dif_pos h]; simp [start]

theorem sz1_null (i : Fin n) (h : 1 ≤ cat y i) :
    sz1 y x (start y) i = theta00 y ⟨cat y i - 1, by have := cat_le y i; omega⟩ := by
  rw [sz1_eq, dif_pos ⟨h, by have := cat_le y i; omega⟩]; simp [start]

theorem p_null (i : Fin n) : p y x (start y) i = (count y (cat y i) : ℝ) / n := by
  rw [(C294_likelihood y x (start y)).2.2.1 i]
  simp only [start_inl, univ_eq_empty, sum_empty]
  exact prob_null y _ (cat_le y i)

theorem dl_null (j : Fin (nz y) ⊕ Fin 0) : dl y x (start y) j = 0 := by
  have hn := npos (n := n)
  rcases j with j | k
  · simp only [dl, dlogp, Sum.elim_inl, z_eq, z1_eq, sum_sub_distrib]
    set c : ℝ := (below y (j + 1) : ℝ) / n with hc
    have e1 : ∑ i, v y x (start y) i * (if cat y i = j then 1 else 0) = n * (c * (1 - c)) := by
      have h0 : (0 : ℝ) < count y j := by exact_mod_cast count_pos y j j.2.le
      have : ∀ i, v y x (start y) i * (if cat y i = j then 1 else 0) =
          if cat y i = j then c * (1 - c) / ((count y j : ℝ) / n) else 0 := by
        intro i
        split
        next h =>
          have hlt : cat y i < nz y := by rw [h]; exact j.2
          have hy : y i ≠ ymax y := fun e => by have := cat_last y i e; omega
          have hg : g y x (start y) i = c := by
            rw [g_eq, if_neg hy, show (∑ j, zx y x i j * start y j) = sz y x (start y) i from rfl, sz_null y x i hlt,
              logitinv_theta]
            simp only [h, hc]
          rw [v, hg, p_null, h, mul_one]
        next h => rw [mul_zero]
      simp only [this]
      rw [sum_ite, sum_const_zero, add_zero, sum_const, nsmul_eq_mul]
      change (count y j : ℝ) * _ = _
      field_simp
    have e2 : ∑ i, v1 y x (start y) i * (if cat y i = j + 1 then 1 else 0) = n * (c * (1 - c)) := by
      have h0 : (0 : ℝ) < count y (j + 1) := by exact_mod_cast count_pos y (j + 1) j.2
      have : ∀ i, v1 y x (start y) i * (if cat y i = j + 1 then 1 else 0) =
          if cat y i = j + 1 then c * (1 - c) / ((count y (j + 1) : ℝ) / n) else 0 := by
        intro i
        split
        next h =>
          have hy : ymin y < y i := by
            by_contra hlt
            have := cat_zero y i hlt
            omega
          have hg : g1 y x (start y) i = c := by
            rw [g1_eq, if_pos hy, show (∑ j, z1x y x i j * start y j) = sz1 y x (start y) i from rfl,
              sz1_null y x i (by omega), logitinv_theta]
            simp only [h, Nat.add_sub_cancel, hc]
          rw [v1, hg, p_null, h, mul_one]
        next h => rw [mul_zero]
      simp only [this]
      rw [sum_ite, sum_const_zero, add_zero, sum_const, nsmul_eq_mul]
      change (count y (j + 1) : ℝ) * _ = _
      field_simp
    rw [e1, e2, sub_self]
  · exact k.elim0

/-- **C297**  `fit(y)` without covariates: for every data set, with every least squares solver that returns 0 for a zero
right hand side, the loop ends in its first pass; the fitted probability of each category is its relative frequency,
and no other thresholds give a larger likelihood. -/
theorem C297_null_model (lstsq : ((Fin (nz y) ⊕ Fin 0) → (Fin (nz y) ⊕ Fin 0) → ℝ) → Par y 0 → Par y 0)
    (hl : ∀ A, lstsq A (fun _ => 0) = fun _ => 0) (tol eps0 : ℝ) (ht : 0 ≤ tol) (maxiter : ℕ) :
    ∃ b, fit y x lstsq tol eps0 maxiter = .ok (b, some 0) ∧
      (∀ k, k ≤ nz y → catProb (fun j => b (Sum.inl j)) 0 k =
        ((univ.filter fun i => cat y i = k).card : ℝ) / n) ∧
      ∀ b' : Par y 0, (∀ i, 0 < catProb (fun j => b' (Sum.inl j)) 0 (cat y i)) →
        logLik y x (fun j => b' (Sum.inl j)) (fun k => b' (Sum.inr k)) ≤
          logLik y x (fun j => b (Sum.inl j)) (fun k => b (Sum.inr k)) := by
  have hdl : dl y x (start y) = fun _ => 0 := funext (dl_null y x)
  have hn := npos (n := n)
  refine ⟨start y, ?_, ?_, ?_⟩
  · have htb : ∀ j, start (q := 0) y j - lstsq (d2l y x (start y)) (dl y x (start y)) j = start (q := 0) y j := by
      intro j; rw [hdl, hl]; simp
    have hq : ∀ c : Option ℝ, ¬ quotNeg c c 0 ∧ ¬ quotPos c c 0 := by
      intro c; cases c <;> simp [quotNeg, quotPos]
    have hs : step y x lstsq tol ⟨start y, eps0, false⟩ = .ok ⟨start y, eps0, true⟩ := by
      have htb' : (fun j => start (q := 0) y j - lstsq (d2l y x (start y)) (dl y x (start y)) j) = start y := funext htb
      simp only [step]
      split_ifs with h1 h2 h3
      · rw [htb'] at h1
        simp only [htb, sub_self, mul_zero, sum_const_zero] at h1
        exact absurd h1 (hq _).1
      · rw [htb'] at h2
        simp only [htb, sub_self, mul_zero, sum_const_zero] at h2
        exact absurd h2 (hq _).2
      · rw [htb'] at h2
        simp only [htb, sub_self, mul_zero, sum_const_zero] at h2
        exact absurd h2 (hq _).2
      · simp only [htb']
        simp [hdl, ht]
    rw [fit, loop, hs]
    rfl
  · intro k hk
    exact prob_null y k hk
  · intro b' hb'
    apply C296_maximum y x (start y) b'
    · intro i
      simp only [start_inl, univ_eq_empty, sum_empty]
      rw [show (fun j => theta00 y j) = theta00 y from rfl, prob_null y _ (cat_le y i)]
      apply div_pos _ hn
      exact_mod_cast count_pos y _ (cat_le y i)
    · intro i
      simpa using hb' i
    · exact dl_null y x

example : (univ.filter fun i => cat ![1, 1, 2, 1, 3] i = 0).card = 3 := by decide +kernel

end Wafo.Logit

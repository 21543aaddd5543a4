import Mathlib.Topology.Algebra.Polynomial
import Mathlib.Topology.Order.IntermediateValue
import Mathlib.MeasureTheory.Integral.Bochner.Set
import Mathlib.MeasureTheory.Measure.Lebesgue.Basic
import Verif.Quad.Jacobi
import Verif.Quad.Laguerre
import Verif.Quad.Hermite
import Verif.Quad.Newton

/-! Orthogonal polynomials have as many distinct real roots as their degree, inside the interval. -/

set_option linter.unusedSectionVars false

namespace Wafo.Quad

open Polynomial Finset Real MeasureTheory

/-- A polynomial whose roots in an interval have even multiplicity does not change sign there. -/
theorem const_sign (I : Set ℝ) (hI : I.OrdConnected) : ∀ (d : ℕ) (p : ℝ[X]), p.natDegree ≤ d → p ≠ 0 →
    (∀ x ∈ I, Even (rootMultiplicity x p)) → (∀ x ∈ I, 0 ≤ p.eval x) ∨ (∀ x ∈ I, p.eval x ≤ 0) := by
  intro d
  induction d using Nat.strong_induction_on with
  | _ d ih =>
    intro p hd hp he
    by_cases hr : ∃ x ∈ I, p.eval x = 0
    · obtain ⟨x, hx, h0⟩ := hr
      have h1 : 0 < rootMultiplicity x p := (rootMultiplicity_pos hp).2 h0
      have h2 : 2 ≤ rootMultiplicity x p := by
        obtain ⟨k, hk⟩ := he x hx; omega
      obtain ⟨r, hr⟩ := (le_rootMultiplicity_iff hp).1 h2
      have hr0 : r ≠ 0 := by rintro rfl; simp at hr; exact hp hr
      have hx0 : (X - C x : ℝ[X]) ≠ 0 := X_sub_C_ne_zero x
      have hdeg : p.natDegree = 2 + r.natDegree := by
        rw [hr, natDegree_mul (pow_ne_zero 2 hx0) hr0, natDegree_pow, natDegree_X_sub_C]
      have her : ∀ y ∈ I, Even (rootMultiplicity y r) := by
        intro y hy
        have := he y hy
        rw [hr, sq, mul_assoc, rootMultiplicity_mul (mul_ne_zero hx0 (mul_ne_zero hx0 hr0)),
          rootMultiplicity_mul (mul_ne_zero hx0 hr0), ← add_assoc, Nat.even_add] at this
        exact this.1 ⟨_, rfl⟩
      have hev : ∀ y, p.eval y = (y - x) ^ 2 * r.eval y := by
        intro y; rw [hr]; simp
      rcases ih (d - 2) (by omega) r (by omega) hr0 her with h | h
      · left; intro y hy; rw [hev]; exact mul_nonneg (sq_nonneg _) (h y hy)
      · right; intro y hy; rw [hev]; exact mul_nonpos_of_nonneg_of_nonpos (sq_nonneg _) (h y hy)
    · push Not at hr
      by_contra hc
      push Not at hc
      obtain ⟨⟨x, hx, hx0⟩, ⟨y, hy, hy0⟩⟩ := hc
      have hsub := hI.uIcc_subset hx hy
      have := intermediate_value_uIcc (a := x) (b := y) (f := fun t => p.eval t) p.continuous.continuousOn
      have hm : (0 : ℝ) ∈ Set.uIcc (p.eval x) (p.eval y) := by
        rw [Set.mem_uIcc]; left; exact ⟨hx0.le, hy0.le⟩
      obtain ⟨z, hz, hz0⟩ := this hm
      exact hr z (hsub hz) hz0

theorem orth_roots (I : Set ℝ) (hI : I.OrdConnected) (L : ℝ[X] →ₗ[ℝ] ℝ)
    (hpos : ∀ Q : ℝ[X], Q ≠ 0 → (∀ x ∈ I, 0 ≤ Q.eval x) → 0 < L Q) (p : ℝ[X]) (hp : p ≠ 0) (n : ℕ)
    (hn : p.natDegree = n) (horth : ∀ q : ℝ[X], q.degree < (n : ℕ) → L (p * q) = 0) :
    ∃ s : Finset ℝ, s.card = n ∧ ∀ v ∈ s, v ∈ I ∧ p.eval v = 0 := by
  classical
  set S := p.roots.toFinset.filter (fun x => x ∈ I ∧ Odd (rootMultiplicity x p)) with hS
  have hroot : ∀ v ∈ S, v ∈ I ∧ p.eval v = 0 := by
    intro v hv
    rw [hS, mem_filter, Multiset.mem_toFinset, mem_roots hp] at hv
    exact ⟨hv.2.1, hv.1⟩
  have hle : S.card ≤ n := by
    calc S.card ≤ p.roots.toFinset.card := card_filter_le _ _
      _ ≤ Multiset.card p.roots := Multiset.toFinset_card_le _
      _ ≤ n := by rw [← hn]; exact card_roots' p
  refine ⟨S, ?_, hroot⟩
  by_contra hne
  have hlt : S.card < n := lt_of_le_of_ne hle hne
  set q : ℝ[X] := ∏ a ∈ S, (X - C a) with hq
  have hq0 : q ≠ 0 := Finset.prod_ne_zero_iff.2 fun a _ => X_sub_C_ne_zero a
  have hqd : q.degree < (n : ℕ) := by
    have : q.natDegree = S.card := by rw [hq, natDegree_finsetProd_X_sub_C_eq_card]
    rw [degree_eq_natDegree hq0, this]; exact_mod_cast hlt
  have hL := horth q hqd
  have hpq : p * q ≠ 0 := mul_ne_zero hp hq0
  have heven : ∀ x ∈ I, Even (rootMultiplicity x (p * q)) := by
    intro x hx
    rw [rootMultiplicity_mul hpq, ← count_roots q, hq, roots_prod_X_sub_C]
    by_cases hxS : x ∈ S
    · rw [Multiset.count_eq_one_of_mem S.nodup (by simpa using hxS)]
      rw [hS, mem_filter] at hxS
      exact hxS.2.2.add_one
    · rw [Multiset.count_eq_zero_of_notMem (by simpa using hxS), add_zero]
      by_contra hodd
      rw [Nat.not_even_iff_odd] at hodd
      apply hxS
      rw [hS, mem_filter, Multiset.mem_toFinset, mem_roots hp]
      refine ⟨?_, hx, hodd⟩
      exact (rootMultiplicity_pos hp).1 hodd.pos
  rcases const_sign I hI _ (p * q) le_rfl hpq heven with h | h
  · have := hpos _ hpq h
    rw [hL] at this; exact lt_irrefl _ this
  · have := hpos (-(p * q)) (neg_ne_zero.2 hpq) (fun x hx => by rw [eval_neg]; linarith [h x hx])
    rw [map_neg, hL] at this; simp at this

/-- Integrals of nonnegative polynomials with a positive weight are positive. -/
theorem weight_pos (I : Set ℝ) (hm : MeasurableSet I) (hI : 0 < volume I) (w : ℝ → ℝ)
    (hw : ∀ x ∈ I, 0 < w x) (Q : ℝ[X]) (hQ : Q ≠ 0) (h : ∀ x ∈ I, 0 ≤ Q.eval x)
    (hint : IntegrableOn (fun x => Q.eval x * w x) I) : 0 < ∫ x in I, Q.eval x * w x := by
  rw [setIntegral_pos_iff_support_of_nonneg_ae _ hint]
  · have hsub : I \ (Q.roots.toFinset : Set ℝ) ⊆ Function.support (fun x => Q.eval x * w x) ∩ I := by
      intro x hx
      refine ⟨?_, hx.1⟩
      rw [Function.mem_support]
      refine mul_ne_zero (fun h0 => hx.2 ?_) (hw x hx.1).ne'
      simp only [Finset.mem_coe, Multiset.mem_toFinset, mem_roots hQ]
      exact h0
    refine lt_of_lt_of_le ?_ (measure_mono hsub)
    rw [measure_sdiff_null (Set.Finite.measure_zero (Finset.finite_toSet _) _)]
    exact hI
  · rw [Filter.EventuallyLE, ae_restrict_iff' hm]
    exact Filter.Eventually.of_forall fun x hx => mul_nonneg (h x hx) (hw x hx).le

theorem jac_roots {α β : ℝ} (hα : -1 < α) (hβ : -1 < β) (n : ℕ) :
    ∃ s : Finset ℝ, s.card = n ∧ ∀ v ∈ s, (-1 < v ∧ v < 1) ∧ (jacPoly α β n).eval v = 0 := by
  have := orth_roots (Set.Ioo (-1) 1) Set.ordConnected_Ioo (jacLin α β hα hβ) ?_ (jacPoly α β n)
    (jacPoly_ne_zero hα hβ n) n (jacPoly_natDegree hα hβ n) (jacPoly_orth hα hβ n)
  · exact this
  · intro Q hQ h
    rw [jacLin_apply, intervalIntegral.integral_of_le (by norm_num), integral_Ioc_eq_integral_Ioo]
    refine weight_pos _ measurableSet_Ioo (by simp) _ ?_ Q hQ h ?_
    · intro x hx
      exact mul_pos (rpow_pos_of_pos (by linarith [hx.2]) _) (rpow_pos_of_pos (by linarith [hx.1]) _)
    · have := (integrable_jac hα hβ Q).1
      exact this.mono_set Set.Ioo_subset_Ioc_self

theorem lag_roots {α : ℝ} (hα : -1 < α) (n : ℕ) :
    ∃ s : Finset ℝ, s.card = n ∧ ∀ v ∈ s, 0 < v ∧ (lagPoly α n).eval v = 0 := by
  have := orth_roots (Set.Ioi 0) Set.ordConnected_Ioi (lagLin α hα) ?_ (lagPoly α n)
    (lagPoly_ne_zero n) n (lagPoly_natDegree n) (lagPoly_orth hα n)
  · exact this
  · intro Q hQ h
    rw [lagLin_apply]
    have hi := integrable_lag hα Q
    simp only [mul_assoc] at hi ⊢
    refine weight_pos _ measurableSet_Ioi (by simp) _ ?_ Q hQ h hi
    intro x hx
    exact mul_pos (rpow_pos_of_pos hx _) (exp_pos _)

theorem her_roots (n : ℕ) :
    ∃ s : Finset ℝ, s.card = n ∧ ∀ v ∈ s, (herPoly n).eval v = 0 := by
  obtain ⟨s, h1, h2⟩ := orth_roots Set.univ Set.ordConnected_univ herLin (by
    intro Q hQ h
    rw [herLin_apply, ← setIntegral_univ]
    exact weight_pos _ MeasurableSet.univ (by simp) _ (fun x _ => exp_pos _) Q hQ h
      (integrable_her Q).integrableOn) (herPoly n) (herPoly_ne_zero n) n (herPoly_natDegree n)
    (herPoly_orth n)
  exact ⟨s, h1, fun v hv => (h2 v hv).2⟩

theorem leg_roots (n : ℕ) :
    ∃ s : Finset ℝ, s.card = n ∧ ∀ v ∈ s, (-1 < v ∧ v < 1) ∧ (legPoly n).eval v = 0 := by
  refine orth_roots (Set.Ioo (-1) 1) Set.ordConnected_Ioo (intLin (-1) 1) ?_ (legPoly n)
    (legPoly_ne_zero n) n (legPoly_natDegree n) (legPoly_orth n)
  intro Q hQ h
  rw [intLin_apply, intervalIntegral.integral_of_le (by norm_num), integral_Ioc_eq_integral_Ioo]
  have := weight_pos (Set.Ioo (-1) 1) measurableSet_Ioo (by simp) (fun _ => 1) (fun _ _ => one_pos) Q hQ h
    (by
      have := (Q.continuous.intervalIntegrable (μ := volume) (-1) 1).1
      simpa using this.mono_set Set.Ioo_subset_Ioc_self)
  simpa using this

/-- The positive half of a symmetric set of roots. -/
theorem half_roots (p : ℝ[X]) (n : ℕ) (hp : p ≠ 0) (hd : p.natDegree = n)
    (hsym : ∀ x, p.eval (-x) = (-1) ^ n * p.eval x) (s : Finset ℝ) (hs : s.card = n)
    (hr : ∀ v ∈ s, p.eval v = 0) :
    ∃ xs : List ℝ, xs.length = n / 2 ∧ xs.Nodup ∧ ∀ v ∈ xs, 0 < v ∧ v ∈ s := by
  classical
  have hall : ∀ v, p.eval v = 0 → v ∈ s := by
    intro v hv
    have hsub : s ⊆ p.roots.toFinset := fun u hu => by
      rw [Multiset.mem_toFinset, mem_roots hp]; exact hr u hu
    have hcard : p.roots.toFinset.card ≤ s.card := by
      rw [hs, ← hd]; exact le_trans (Multiset.toFinset_card_le _) (card_roots' p)
    have := Finset.eq_of_subset_of_card_le hsub hcard
    rw [this, Multiset.mem_toFinset, mem_roots hp]; exact hv
  have hneg : ∀ v ∈ s, -v ∈ s := fun v hv => hall _ (by rw [hsym, hr v hv, mul_zero])
  set A := s.filter (fun v => 0 < v) with hA
  set B := s.filter (fun v => v < 0) with hB
  have hAB : A.card = B.card := by
    refine Finset.card_bij (fun v _ => -v) ?_ ?_ ?_
    · intro v hv
      rw [hA, mem_filter] at hv
      rw [hB, mem_filter]
      exact ⟨hneg v hv.1, by linarith [hv.2]⟩
    · intro u _ v _ h; exact neg_injective h
    · intro v hv
      rw [hB, mem_filter] at hv
      exact ⟨-v, by rw [hA, mem_filter]; exact ⟨hneg v hv.1, by linarith [hv.2]⟩, neg_neg v⟩
  have hsplit : s.card = A.card + B.card + (s.filter (fun v => v = 0)).card := by
    rw [hA, hB, ← Finset.card_union_of_disjoint, ← Finset.card_union_of_disjoint]
    · congr 1
      ext v
      simp only [mem_union, mem_filter]
      constructor
      · intro h
        rcases lt_trichotomy v 0 with h1 | h1 | h1
        · exact Or.inl (Or.inr ⟨h, h1⟩)
        · exact Or.inr ⟨h, h1⟩
        · exact Or.inl (Or.inl ⟨h, h1⟩)
      · rintro ((h | h) | h) <;> exact h.1
    · rw [Finset.disjoint_left]
      intro v hv hv2
      simp only [mem_union, mem_filter] at hv hv2
      rcases hv with hv | hv <;> linarith [hv.2, hv2.2]
    · rw [Finset.disjoint_left]
      intro v hv hv2
      simp only [mem_filter] at hv hv2
      linarith [hv.2, hv2.2]
  have h0 : (s.filter (fun v => v = 0)).card ≤ 1 := by
    rw [Finset.card_le_one]
    intro u hu v hv
    rw [mem_filter] at hu hv
    rw [hu.2, hv.2]
  refine ⟨A.toList, ?_, A.nodup_toList, ?_⟩
  · rw [Finset.length_toList]; omega
  · intro v hv
    rw [Finset.mem_toList, hA, mem_filter] at hv
    exact ⟨hv.2, hv.1⟩

end Wafo.Quad

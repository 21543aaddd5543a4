import Verif.Cov.Cond

/-! Property C181: simulation conditional on observed values. -/

set_option linter.unusedSectionVars false

namespace Wafo.Cov
open Finset RealInnerProductSpace

noncomputable section

/-! ### Specification -/

/-- A process with the covariances `r`. -/
def HasCov {V : Type} [NormedAddCommGroup V] [InnerProductSpace ℝ V] (X : ℕ → V) (r : ℕ → ℝ) : Prop :=
  ∀ i j, ⟪X i, X (i + j)⟫ = r j

/-- Sample number `i` is missing. -/
def Missing (x : List (Option ℝ)) (i : ℕ) : Prop := x[i]? = some none

/-- The results are mean, standard deviation and covariance of the missing values of the process `X` given the values `x` of the samples
in `K`: the mean is linear in the observed values, the errors of the same linear combinations of the process are uncorrelated with the
process at all samples in `K`, and they have the returned standard deviations and covariances. -/
def Conditional {V : Type} [NormedAddCommGroup V] [InnerProductSpace ℝ V] (X : ℕ → V) (x : List (Option ℝ)) (K : Finset ℕ)
    (U : List ℕ) (o : CondOut) : Prop :=
  ∃ w : ℕ → ℕ → ℝ,
    o.mu = U.map (fun u => ∑ i ∈ K, w i u * valueAt x i) ∧
    (∀ u ∈ U, ∀ k ∈ K, ⟪X u - ∑ i ∈ K, w i u • X i, X k⟫ = 0) ∧
    o.std = U.map (fun u => ‖X u - ∑ i ∈ K, w i u • X i‖) ∧
    o.cov = U.map (fun u => U.map fun v => ⟪X u - ∑ i ∈ K, w i u • X i, X v - ∑ i ∈ K, w i v • X i⟫)

/-- The solver solves this system of equations. -/
def SolvesFor (solve : Solver) (acf : List ℝ) (K : Finset ℕ) (U : List ℕ) : Prop :=
  ∀ k ∈ K, ∀ u ∈ U,
    ∑ i ∈ K, (toep acf k i + toep acf i k) *
      solve K (fun i j => toep acf i j + toep acf j i) U (fun i u => 2 * toep acf i u) i u = 2 * toep acf k u

/-! ### Lemmas -/

theorem toep_symm (acf : List ℝ) (i j : ℕ) : toep acf i j = toep acf j i := by unfold toep; rw [max_comm, min_comm]

theorem toep_inner {V : Type} [NormedAddCommGroup V] [InnerProductSpace ℝ V] {X : ℕ → V} {acf : List ℝ}
    (hX : HasCov X fun j => acf.getD j 0) (i j : ℕ) : ⟪X i, X j⟫ = toep acf i j := by
  rcases le_total i j with h | h
  · obtain ⟨d, rfl⟩ := Nat.exists_eq_add_of_le h
    rw [hX]; unfold toep
    congr 1
    omega
  · obtain ⟨d, rfl⟩ := Nat.exists_eq_add_of_le h
    rw [real_inner_comm, hX]; unfold toep
    congr 1
    omega

theorem condCore_ok {V : Type} [NormedAddCommGroup V] [InnerProductSpace ℝ V] {X : ℕ → V} (solve : Solver) (acf : List ℝ)
    (hX : HasCov X fun j => acf.getD j 0) (x : List (Option ℝ)) (K : Finset ℕ) (U : List ℕ) (hs : SolvesFor solve acf K U) :
    ∃ o, condCore solve acf x K U = .ok o ∧ Conditional X x K U o := by
  set z := solve K (fun i j => toep acf i j + toep acf j i) U (fun i u => 2 * toep acf i u) with hz
  have hsol : ∀ k ∈ K, ∀ u ∈ U, ∑ i ∈ K, z i u * toep acf i k = toep acf u k := by
    intro k hk u hu
    have h := hs k hk u hu
    rw [← hz] at h
    have e : ∑ i ∈ K, (toep acf k i + toep acf i k) * z i u = 2 * ∑ i ∈ K, z i u * toep acf i k := by
      rw [mul_sum]
      refine sum_congr rfl fun i _ => ?_
      rw [toep_symm acf k i]; ring
    rw [e] at h
    rw [toep_symm acf u k]
    linarith
  have horth : ∀ u ∈ U, ∀ k ∈ K, ⟪X u - ∑ i ∈ K, z i u • X i, X k⟫ = 0 := by
    intro u hu k hk
    rw [inner_sub_left, sum_inner, toep_inner hX]
    simp only [real_inner_smul_left, toep_inner hX]
    rw [hsol k hk u hu, sub_self]
  have hcov : ∀ u ∈ U, ∀ v ∈ U, ⟪X u - ∑ i ∈ K, z i u • X i, X v - ∑ i ∈ K, z i v • X i⟫ =
      toep acf u v - ∑ i ∈ K, z i u * toep acf i v := by
    intro u hu v hv
    rw [inner_sub_right, inner_sum]
    have : ∑ i ∈ K, ⟪X u - ∑ i ∈ K, z i u • X i, z i v • X i⟫ = 0 := by
      refine sum_eq_zero fun i hi => ?_
      rw [real_inner_smul_right, horth u hu i hi, mul_zero]
    rw [this, sub_zero, inner_sub_left, sum_inner, toep_inner hX]
    simp only [real_inner_smul_left, toep_inner hX]
  have hnn : ∀ u ∈ U, toep acf u u - ∑ i ∈ K, z i u * toep acf i u = ‖X u - ∑ i ∈ K, z i u • X i‖ ^ 2 := by
    intro u hu
    rw [← hcov u hu u hu, real_inner_self_eq_norm_sq]
  unfold condCore
  simp only [← hz]
  rw [if_neg]
  · refine ⟨_, rfl, z, rfl, horth, ?_, ?_⟩
    · refine List.map_congr_left fun u hu => ?_
      rw [hnn u hu, Real.sqrt_sq (norm_nonneg _)]
    · refine List.map_congr_left fun u hu => ?_
      refine List.map_congr_left fun v hv => ?_
      rw [hcov u hu v hv]
  · rw [List.any_eq_true]
    rintro ⟨u, hu, h⟩
    simp only [decide_eq_true_eq] at h
    have h' := hnn u hu
    have := sq_nonneg ‖X u - ∑ i ∈ K, z i u • X i‖
    linarith

theorem validAcf_iff (data : List ℝ) : validAcf data ↔ data ≠ [] ∧ ∀ v ∈ data, v ≤ data.getD 0 0 := by
  cases data with
  | nil => simp [validAcf]
  | cons a l =>
    simp only [validAcf, ne_eq, reduceCtorEq, not_false_eq_true, true_and, List.mem_cons, List.getD_cons_zero]
    constructor
    · rintro h v (rfl | hv)
      · exact le_rfl
      · exact h v hv
    · intro h v hv
      exact h v (Or.inr hv)

/-- The missing sample numbers in order, and the observed ones. -/
def missingOf (x : List (Option ℝ)) : List ℕ := (List.range x.length).filter fun i => (x.getD i none).isNone

def observedOf (x : List (Option ℝ)) : Finset ℕ := (range x.length).filter fun i => (x.getD i none).isNone = false

theorem mem_missingOf (x : List (Option ℝ)) (i : ℕ) : i ∈ missingOf x ↔ Missing x i := by
  unfold missingOf Missing
  rw [List.mem_filter, List.mem_range, List.getD_eq_getElem?_getD]
  constructor
  · rintro ⟨h, h2⟩
    rw [List.getElem?_eq_getElem h] at h2 ⊢
    simp at h2
    rw [h2]
  · intro h
    have hl : i < x.length := by
      by_contra hc
      rw [List.getElem?_eq_none (by omega)] at h
      exact absurd h (by simp)
    refine ⟨hl, ?_⟩
    rw [h]; rfl

theorem mem_observedOf (x : List (Option ℝ)) (i : ℕ) : i ∈ observedOf x ↔ ∃ v, x[i]? = some (some v) := by
  unfold observedOf
  rw [mem_filter, mem_range, List.getD_eq_getElem?_getD]
  constructor
  · rintro ⟨h, h2⟩
    rw [List.getElem?_eq_getElem h] at h2 ⊢
    cases hx : x[i] with
    | none => rw [hx] at h2; simp at h2
    | some v => exact ⟨v, rfl⟩
  · rintro ⟨v, h⟩
    have hl : i < x.length := by
      by_contra hc
      rw [List.getElem?_eq_none (by omega)] at h
      exact absurd h (by simp)
    refine ⟨hl, ?_⟩
    rw [h]; rfl

theorem missing_lengths (x : List (Option ℝ)) (i j : ℕ) (hi : Missing x i) (v : ℝ) (hj : x[j]? = some (some v)) :
    (missingOf x).length ≠ 0 ∧ (missingOf x).length ≠ x.length := by
  have h1 := (mem_missingOf x i).2 hi
  constructor
  · intro h
    rw [List.length_eq_zero_iff] at h
    rw [h] at h1
    exact absurd h1 (by simp)
  · intro h
    have hall : ∀ k ∈ List.range x.length, (x.getD k none).isNone = true := by
      rw [← List.length_filter_eq_length_iff]
      rw [List.length_range]
      exact h
    have hj2 := (mem_observedOf x j).2 ⟨v, hj⟩
    unfold observedOf at hj2
    rw [mem_filter, mem_range] at hj2
    have := hall j (List.mem_range.2 hj2.1)
    rw [hj2.2] at this
    exact absurd this (by simp)

/-! ### Properties -/

/-- The exact method returns the conditional mean, standard deviation and covariance of a process with the given covariance function,
and leaves data and object as they were, if the covariance function is short enough and longer than three tenths of the series. -/
theorem C181_exact_partial {V : Type} [NormedAddCommGroup V] [InnerProductSpace ℝ V] (X : ℕ → V) (solve : Solver) (data : List ℝ)
    (hne : data ≠ []) (hmax : ∀ v ∈ data, v ≤ data.getD 0 0)
    (hX : HasCov X fun j => (data.take (lagZero data)).getD j 0) (x : List (Option ℝ)) (i j : ℕ) (hi : Missing x i) (v : ℝ)
    (hj : x[j]? = some (some v)) (hle : (data.take (lagZero data)).length ≤ x.length)
    (hlong : (3 / 10 : ℝ) * x.length < (data.take (lagZero data)).length)
    (hs : SolvesFor solve (data.take (lagZero data)) (observedOf x) (missingOf x)) :
    ∃ o, simcond solve data x .exact none = .ok ⟨o, x, data⟩ ∧ Conditional X x (observedOf x) (missingOf x) o := by
  obtain ⟨h1, h2⟩ := missing_lengths x i j hi v hj
  obtain ⟨o, ho, hc⟩ := condCore_ok solve _ hX x _ _ hs
  refine ⟨o, ?_, hc⟩
  unfold simcond
  rw [if_neg (not_not.2 ((validAcf_iff data).2 ⟨hne, hmax⟩))]
  simp only [markNan]
  unfold missingOf at h1 h2 ho
  unfold observedOf at ho
  rw [if_neg h1, if_neg h2, if_neg (not_lt.2 hle)]
  simp only [decide_eq_true hlong, if_true]
  rw [ho]

/-- The approximate method does the same for the samples in its first window, if this window reaches the end of the series. -/
theorem C181_approx_partial {V : Type} [NormedAddCommGroup V] [InnerProductSpace ℝ V] (X : ℕ → V) (solve : Solver) (data : List ℝ)
    (hne : data ≠ []) (hmax : ∀ v ∈ data, v ≤ data.getD 0 0)
    (hX : HasCov X fun j => (data.take (lagZero data)).getD j 0) (x : List (Option ℝ)) (i j : ℕ) (hi : Missing x i) (v : ℝ)
    (hj : x[j]? = some (some v)) (hle : (data.take (lagZero data)).length ≤ x.length)
    (hwin : x.length ≤ 2 * (data.take (lagZero data)).length)
    (hs : SolvesFor solve (data.take (lagZero data)) (observedOf x) (missingOf x)) :
    ∃ o, simcond solve data x .approx none = .ok ⟨o, x, data⟩ ∧ Conditional X x (observedOf x) (missingOf x) o := by
  obtain ⟨h1, h2⟩ := missing_lengths x i j hi v hj
  obtain ⟨o, ho, hc⟩ := condCore_ok solve _ hX x _ _ hs
  refine ⟨o, ?_, hc⟩
  unfold simcond
  rw [if_neg (not_not.2 ((validAcf_iff data).2 ⟨hne, hmax⟩))]
  simp only [markNan]
  have hin : min (2 * (data.take (lagZero data)).length) x.length = x.length := by omega
  unfold missingOf at h1 h2
  rw [if_neg h1, if_neg h2]
  simp only [hin, Nat.sub_self, Nat.min_zero, Nat.zero_add, Nat.zero_le, true_and]
  rw [if_neg (not_lt.2 hle)]
  have e1 : ((range x.length).filter fun i => (x.getD i none).isNone = false ∧ decide (i < x.length) = true) = observedOf x := by
    unfold observedOf
    refine filter_congr fun k hk => ?_
    simp [mem_range.1 hk]
  have e2 : (((List.range x.length).filter fun i => (x.getD i none).isNone).filter fun i => decide (i < x.length)) = missingOf x := by
    unfold missingOf
    rw [List.filter_eq_self]
    intro k hk
    have := List.mem_range.1 (List.mem_filter.1 hk).1
    simpa using this
  rw [e1, e2, ho]
  simp

/-- The solver and the process exist in a simple case: white noise and two samples, the second one missing. -/
example : ∃ (X : ℕ → lp (fun _ : ℕ => ℝ) 2) (solve : Solver), HasCov X (fun j => ([1, 0] : List ℝ).getD j 0) ∧
    Missing [some 3, none] 1 ∧ SolvesFor solve [1, 0] (observedOf [some 3, none]) (missingOf [some 3, none]) := by
  classical
  refine ⟨fun i => lp.single 2 i 1, fun _ _ _ b i u => b i u / 2, ?_, rfl, ?_⟩
  · intro i j
    rw [lp.inner_single_left, lp.single_apply]
    rcases j with _ | j
    · simp
    · rw [Pi.single_eq_of_ne (by omega)]
      rcases j with _ | j <;> simp
  · have h1 : observedOf [some (3 : ℝ), none] = {0} := by
      ext i
      rw [mem_observedOf]
      rcases i with _ | _ | i <;> simp
    have h2 : missingOf [some (3 : ℝ), none] = [1] := by simp [missingOf, List.range_succ]
    rw [h1, h2]
    intro k hk u hu
    simp only [mem_singleton] at hk
    simp only [List.mem_singleton] at hu
    subst hk hu
    simp [toep]

/-- The part of the covariance function that is used ends three lags after the last value that exceeds a tenth of its large lag standard
deviation; for this value the standard deviation is computed from the values at smaller lags. -/
theorem C181_lag (data : List ℝ) (h0 : data.getD 0 0 ≠ 0) :
    ∃ k < data.length, lagZero data = min (k + 3) data.length ∧
      (k = 0 ∨ 1 / 10 * Real.sqrt ((data.getD 0 0 ^ 2 + 2 * ∑ i ∈ range (k - 1), data.getD (i + 1) 0 ^ 2) / data.length) <
        |data.getD k 0|) ∧
      ∀ j < data.length, k < j →
        |data.getD j 0| ≤ 1 / 10 * Real.sqrt ((data.getD 0 0 ^ 2 + 2 * ∑ i ∈ range (j - 1), data.getD (i + 1) 0 ^ 2) / data.length) := by
  have hlen : 0 < data.length := by
    by_contra hc
    have : data = [] := List.length_eq_zero_iff.1 (by omega)
    rw [this] at h0
    exact h0 rfl
  have hsig : ∀ j, 1 ≤ j → condSigma data j =
      Real.sqrt ((data.getD 0 0 ^ 2 + 2 * ∑ i ∈ range (j - 1), data.getD (i + 1) 0 ^ 2) / data.length) := by
    intro j hj
    obtain ⟨m, rfl⟩ : ∃ m, j = m + 1 := ⟨j - 1, by omega⟩
    rfl
  cases hf : (List.range data.length).reverse.find? (fun k => decide (1 / 10 * condSigma data k < |data.getD k 0|)) with
  | none =>
    exfalso
    rw [List.find?_eq_none] at hf
    have := hf 0 (by simp [hlen])
    simp only [condSigma, mul_zero, decide_eq_true_eq, not_lt, abs_nonpos_iff] at this
    exact h0 this
  | some k =>
    have hk : k < data.length := by
      have := List.mem_of_find?_eq_some hf
      simpa using this
    have hk2 := List.find?_some hf
    simp only [decide_eq_true_eq] at hk2
    refine ⟨k, hk, by unfold lagZero; rw [hf], ?_, ?_⟩
    · by_cases hk0 : k = 0
      · exact Or.inl hk0
      · right
        rw [← hsig k (by omega)]
        exact hk2
    · intro j hj hkj
      rw [← hsig j (by omega)]
      rw [List.find?_eq_some_iff_append] at hf
      obtain ⟨_, as, bs, heq, has⟩ := hf
      have hmem : j ∈ as := by
        have hjm : j ∈ (List.range data.length).reverse := by simp [hj]
        rw [heq] at hjm
        rcases List.mem_append.1 hjm with h | h
        · exact h
        · exfalso
          have hsort : ((List.range data.length).reverse).Pairwise (· > ·) := by
            rw [List.pairwise_reverse]
            exact List.pairwise_lt_range
          rw [heq] at hsort
          have := (List.pairwise_append.1 hsort).2.1
          rcases List.mem_cons.1 h with rfl | h
          · omega
          · have := List.rel_of_pairwise_cons this h
            omega
      have := has j hmem
      simpa using this

/-- A series that is shorter than the covariance function is rejected by both methods, although nothing is wrong with it. -/
theorem C181_short_refuted (solve : Solver) (data : List ℝ) (hne : data ≠ []) (hmax : ∀ v ∈ data, v ≤ data.getD 0 0)
    (x : List (Option ℝ)) (i j : ℕ) (hi : Missing x i) (v : ℝ) (hj : x[j]? = some (some v))
    (hlt : x.length < (data.take (lagZero data)).length) (m : CondMethod) (hm : m ≠ .other) :
    simcond solve data x m none = .error .valueError := by
  obtain ⟨h1, h2⟩ := missing_lengths x i j hi v hj
  unfold simcond
  rw [if_neg (not_not.2 ((validAcf_iff data).2 ⟨hne, hmax⟩))]
  simp only [markNan]
  unfold missingOf at h1 h2
  rw [if_neg h1, if_neg h2]
  cases m with
  | exact => simp only []; rw [if_pos hlt]
  | approx => simp only []; rw [if_pos (by omega)]
  | other => exact absurd rfl hm

/-- The approximate method never returns a result for a long series: not if the series is longer than twice the covariance function and
the first missing sample is not near the end. -/
theorem C181_long_refuted (solve : Solver) (data : List ℝ) (x : List (Option ℝ)) (i j : ℕ) (hi : Missing x i) (v : ℝ)
    (hj : x[j]? = some (some v)) (hlong : i + 2 * (data.take (lagZero data)).length < x.length) (r : CondCall) :
    simcond solve data x .approx none ≠ .ok r := by
  obtain ⟨h1, h2⟩ := missing_lengths x i j hi v hj
  have hmem := (mem_missingOf x i).2 hi
  intro h
  unfold simcond at h
  split at h
  · exact absurd h (by simp)
  · simp only [markNan] at h
    unfold missingOf at h1 h2 hmem
    rw [if_neg h1, if_neg h2] at h
    split at h
    · exact absurd h (by simp)
    · split at h
      · exact absurd h (by simp)
      · split at h
        · next hw =>
          have hhead : ((List.range x.length).filter fun i => (x.getD i none).isNone).headD 0 ≤ i := by
            have hsort : ((List.range x.length).filter fun i => (x.getD i none).isNone).Pairwise (· < ·) :=
              List.Pairwise.filter _ List.pairwise_lt_range
            cases hl : (List.range x.length).filter fun i => (x.getD i none).isNone with
            | nil => simp
            | cons a l =>
              rw [hl] at hmem hsort
              rcases List.mem_cons.1 hmem with rfl | hm
              · simp
              · have := List.rel_of_pairwise_cons hsort hm
                simpa using this.le
          rw [show min (2 * (data.take (lagZero data)).length) x.length = 2 * (data.take (lagZero data)).length by omega] at hw
          omega
        · exact absurd h (by simp)

/-- The array of the caller is overwritten: afterwards the samples in `i_unknown` are NaN. -/
theorem C181_overwritten_refuted (solve : Solver) (data : List ℝ) (x : List (Option ℝ)) (m : CondMethod) (l : List ℕ) (r : CondCall)
    (h : simcond solve data x m (some l) = .ok r) (i : ℕ) (hi : i ∈ l) : r.x[i]? = some none := by
  unfold simcond at h
  split at h
  · exact absurd h (by simp)
  · cases hm : markNan x (some l) with
    | error e => rw [hm] at h; exact absurd h (by simp)
    | ok y =>
      have hy : y[i]? = some none := by
        simp only [markNan] at hm
        split at hm
        · exact absurd hm (by simp)
        · next hany =>
          have hlt : i < x.length := by
            by_contra hc
            apply hany
            rw [List.any_eq_true]
            exact ⟨i, hi, by simpa using hc⟩
          rw [← Except.ok.inj hm, List.getElem?_map, List.getElem?_range hlt]
          simp [hi]
      have hr : r.x = y := by
        rw [hm] at h
        simp only [] at h
        split at h
        · rw [← Except.ok.inj h]
        · split at h
          · rw [← Except.ok.inj h]
          · cases m with
            | exact =>
              simp only [] at h
              split at h
              · exact absurd h (by simp)
              · split at h
                · exact absurd h (by simp)
                · rw [← Except.ok.inj h]
            | approx =>
              simp only [] at h
              split at h
              · exact absurd h (by simp)
              · split at h
                · exact absurd h (by simp)
                · split at h
                  · rw [← Except.ok.inj h]
                  · exact absurd h (by simp)
            | other => simp only [] at h; rw [← Except.ok.inj h]
      rw [hr]
      exact hy

/-- The exact method changes the covariance function itself if the series is long: the value at lag zero grows by the factor 1.00001 with
every call. -/
theorem C181_changed_refuted (solve : Solver) (data : List ℝ) (hpos : 0 < data.getD 0 0) (x : List (Option ℝ)) (i j : ℕ)
    (hi : Missing x i) (v : ℝ) (hj : x[j]? = some (some v))
    (hlong : ((data.take (lagZero data)).length : ℝ) ≤ (3 / 10 : ℝ) * x.length) (r : CondCall)
    (h : simcond solve data x .exact none = .ok r) :
    r.data.getD 0 0 = data.getD 0 0 * (1 + 1 / 10 ^ 5) ∧ r.data ≠ data := by
  obtain ⟨h1, h2⟩ := missing_lengths x i j hi v hj
  have e : r.data = inflate data := by
    unfold simcond at h
    split at h
    · exact absurd h (by simp)
    · simp only [markNan] at h
      unfold missingOf at h1 h2
      rw [if_neg h1, if_neg h2] at h
      split at h
      · exact absurd h (by simp)
      · split at h
        · exact absurd h (by simp)
        · rw [← Except.ok.inj h]
          simp only [decide_eq_false (not_lt.2 hlong)]
          rfl
  rw [e]
  cases data with
  | nil => simp at hpos
  | cons a l =>
    have ha : 0 < a := by simpa using hpos
    refine ⟨rfl, ?_⟩
    intro hc
    have := (List.cons.inj hc).1
    have h3 : a * (1 / 10 ^ 5) = 0 := by linarith
    have h4 : 0 < a * (1 / 10 ^ 5) := by positivity
    linarith

/-- Nothing missing, or everything: no mean and standard deviation are returned, or those without any information. -/
theorem C181_trivial (solve : Solver) (data : List ℝ) (hne : data ≠ []) (hmax : ∀ v ∈ data, v ≤ data.getD 0 0)
    (x : List (Option ℝ)) (m : CondMethod) :
    ((∀ y ∈ x, y ≠ none) → ∃ r, simcond solve data x m none = .ok r ∧ r.out.mu = [] ∧ r.out.std = []) ∧
    ((∀ y ∈ x, y = none) → ∃ r, simcond solve data x m none = .ok r ∧ r.out.mu = x.map (fun _ => 0) ∧
      r.out.std = x.map (fun _ => Real.sqrt ((data.take (lagZero data)).getD 0 0))) := by
  constructor
  · intro h
    have h0 : ((List.range x.length).filter fun i => (x.getD i none).isNone) = [] := by
      rw [List.filter_eq_nil_iff]
      intro k hk hc
      have hk' := List.mem_range.1 hk
      rw [List.getD_eq_getElem?_getD, List.getElem?_eq_getElem hk'] at hc
      simp at hc
      exact h _ (List.getElem_mem hk') hc
    unfold simcond
    rw [if_neg (not_not.2 ((validAcf_iff data).2 ⟨hne, hmax⟩))]
    simp only [markNan, h0]
    exact ⟨_, rfl, rfl, rfl⟩
  · intro h
    have h0 : ((List.range x.length).filter fun i => (x.getD i none).isNone) = List.range x.length := by
      rw [List.filter_eq_self]
      intro k hk
      have hk' := List.mem_range.1 hk
      rw [List.getD_eq_getElem?_getD, List.getElem?_eq_getElem hk']
      simp [h _ (List.getElem_mem hk')]
    unfold simcond
    rw [if_neg (not_not.2 ((validAcf_iff data).2 ⟨hne, hmax⟩))]
    simp only [markNan, h0, List.length_range, if_true]
    by_cases hx : x.length = 0
    · rw [if_pos hx]
      have : x = [] := List.length_eq_zero_iff.1 hx
      subst this
      exact ⟨_, rfl, rfl, rfl⟩
    · rw [if_neg hx]
      refine ⟨_, rfl, ?_, ?_⟩
      · simp [List.map_const']
      · simp [List.map_const']

end

end Wafo.Cov

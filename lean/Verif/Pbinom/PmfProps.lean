import Verif.Pbinom.Props

/-!
# C277: probabilities of the Poisson binomial distribution
-/

set_option linter.unusedSectionVars false

namespace Wafo.Pbinom

open Complex

theorem prob_true (ps : List ℝ) : prob ps (fun _ => True) = 1 := by
  rw [prob_le_eq]
  simp only [if_true]
  induction ps with
  | nil => simp [expect_nil]
  | cons p ps ih => rw [expect_cons, ih]; ring

theorem prob_compl (ps : List ℝ) (P : ℕ → Prop) [DecidablePred P] :
    prob ps P + prob ps (fun k => ¬ P k) = 1 := by
  rw [← prob_true ps]
  unfold prob
  rw [← Finset.sum_add_distrib]
  exact Finset.sum_congr rfl fun w _ => by by_cases h : P (ones w) <;> simp [h]

theorem item_ok {l : List ℝ} {i : ℕ} {v : ℝ} (h : l[i]? = some v) : item l i = .ok v := by
  rw [item, h]

theorem item_error {l : List ℝ} {i : ℕ} (h : l.length ≤ i) : item l i = .error .indexError := by
  rw [item, List.getElem?_eq_none h]

/-- The constructor accepts exactly the lists of probabilities. -/
theorem C277_init (probs : List ℝ) :
    ((∀ p ∈ probs, 0 ≤ p ∧ p ≤ 1) ∧ ∃ s, init probs = .ok s ∧ s.probabilities = probs) ∨
    ((∃ p ∈ probs, p < 0 ∨ 1 < p) ∧ init probs = .error .valueError) := by
  by_cases h : (∀ p ∈ probs, p ≤ 1) ∧ (∀ p ∈ probs, 0 ≤ p)
  · exact Or.inl ⟨fun p hp => ⟨h.2 p hp, h.1 p hp⟩, _, if_pos h, rfl⟩
  · refine Or.inr ⟨?_, if_neg h⟩
    by_contra hc
    push Not at hc
    exact h ⟨fun p hp => (hc p hp).2, fun p hp => (hc p hp).1⟩

theorem init_ok {probs : List ℝ} {s : State} (h : init probs = .ok s) :
    s.pmfValues = fftPmf probs probs.length ∧ s.cdfValues = cumsum (fftPmf probs probs.length) ∧
      s.sfValues = (cumsum (fftPmf probs probs.length).reverse).reverse := by
  unfold init at h
  split_ifs at h
  obtain rfl := Except.ok.inj h
  exact ⟨rfl, rfl, rfl⟩

/-- The values of the object are the probabilities of the number of successes, increased by the rounding
unit for every point: `_pmf(k)` is `P(X = k)`, `_cdf(k)` is `P(X ≤ k)` and `_sf(k)` is `P(X > k)`. -/
theorem C277_pbinom_partial (probs : List ℝ) (s : State) (h : init probs = .ok s) (k : ℕ) :
    (k ≤ probs.length → pmf s k = .ok (prob probs (· = k) + eps)) ∧
    (k ≤ probs.length → cdf s k = .ok (prob probs (· ≤ k) + ((k : ℝ) + 1) * eps)) ∧
    (k < probs.length → sf s k = .ok (prob probs (k < ·) + ((probs.length : ℝ) - k) * eps)) ∧
    (probs.length < k → pmf s k = .error .indexError ∧ cdf s k = .error .indexError) ∧
    (probs.length ≤ k → sf s k = .error .indexError) := by
  obtain ⟨h1, h2, h3⟩ := init_ok h
  set n := probs.length with hn
  have hlen : (fftPmf probs n).length = n + 1 := fftPmf_length _ _
  have hlist := fftPmf_list probs
  rw [← hn] at hlist
  refine ⟨fun hk => ?_, fun hk => ?_, fun hk => ?_, fun hk => ⟨?_, ?_⟩, fun hk => ?_⟩
  · refine item_ok ?_
    rw [h1, List.getElem?_eq_getElem (by omega), fftPmf_getElem]
  · refine item_ok ?_
    rw [h2, cumsum, cumsumFrom_getElem _ _ _ (by omega), hlist, ← List.map_take, List.take_range,
      min_eq_left (by omega), sum_range_list, Finset.sum_add_distrib, sum_prob probs _ (· ≤ k)]
    · simp
    · intro j _
      simp [Nat.lt_succ_iff]
  · refine item_ok ?_
    have hl2 : (cumsum (fftPmf probs n).reverse).length = n + 1 := by
      rw [cumsum, cumsumFrom_length, List.length_reverse, hlen]
    rw [h3, List.getElem?_reverse (by omega), cumsum,
      cumsumFrom_getElem _ _ _ (by rw [List.length_reverse, hlen, ← cumsum, hl2]; omega), zero_add]
    rw [← cumsum, hl2]
    rw [List.take_reverse, hlen, List.sum_reverse]
    have e : n + 1 - (n + 1 - 1 - (k + 1) + 1) = k + 1 := by omega
    rw [e]
    have hs : (fftPmf probs n).sum = (List.take (k + 1) (fftPmf probs n)).sum +
        (List.drop (k + 1) (fftPmf probs n)).sum := by
      rw [← List.sum_append, List.take_append_drop]
    have ht : (List.take (k + 1) (fftPmf probs n)).sum = prob probs (· ≤ k) + ((k : ℝ) + 1) * eps := by
      rw [hlist, ← List.map_take, List.take_range,
        min_eq_left (by omega), sum_range_list, Finset.sum_add_distrib, sum_prob probs _ (· ≤ k)]
      · simp
      · intro j _
        simp [Nat.lt_succ_iff]
    have hf : (fftPmf probs n).sum = 1 + ((n : ℝ) + 1) * eps := by
      rw [hlist, sum_range_list, Finset.sum_add_distrib, sum_prob probs _ (fun _ => True), prob_true]
      · simp
      · intro j hj
        simp
        omega
    have hc := prob_compl probs (· ≤ k)
    simp only [not_le] at hc
    congr 1
    linarith
  · exact item_error (by rw [h1, hlen]; omega)
  · exact item_error (by rw [h2, cumsum, cumsumFrom_length, hlen]; omega)
  · exact item_error (by rw [h3, List.length_reverse, cumsum, cumsumFrom_length, List.length_reverse, hlen]; omega)

/-- The brute force evaluation is exact. -/
theorem C277_local (probs : List ℝ) (k : ℕ) (hk : k ≤ probs.length) :
    localPmf probs k = prob probs (· = k) := by
  have hN : ((probs.length : ℝ) + 1) ≠ 0 := by exact_mod_cast Nat.succ_ne_zero probs.length
  have hC : exp (2 * I * Real.pi / (probs.length + 1)) = zeta probs.length := by
    rw [zeta]
    congr 1
    push_cast
    ring
  have e : ∑ l ∈ Finset.range (probs.length + 1),
      exp (2 * I * Real.pi / (probs.length + 1)) ^ (-((l : ℤ) * k)) *
        (probs.map fun p : ℝ => 1 + (exp (2 * I * Real.pi / (probs.length + 1)) ^ l - 1) * p).prod =
      ((((probs.length : ℝ) + 1) * prob probs (· = k) : ℝ) : ℂ) := by
    rw [hC]
    push_cast
    rw [← inversion probs hk]
    refine Finset.sum_congr rfl fun l _ => ?_
    rw [mul_comm, charf, zpow_neg]
    congr 2
    · refine List.map_congr_left fun p _ => ?_
      ring
    · rw [← pow_mul]
      exact_mod_cast rfl
  unfold localPmf
  simp only [e, ofReal_re]
  field_simp

/-- The probabilities of the object do not add up to one, whatever the parameters. -/
theorem C277_total_refuted (probs : List ℝ) (s : State) (h : init probs = .ok s) :
    s.pmfValues.sum = 1 + ((probs.length : ℝ) + 1) * eps ∧ s.pmfValues.sum ≠ 1 := by
  have hf : s.pmfValues.sum = 1 + ((probs.length : ℝ) + 1) * eps := by
    rw [(init_ok h).1, fftPmf_list, sum_range_list, Finset.sum_add_distrib, sum_prob probs _ (fun _ => True),
      prob_true]
    · simp
    · intro j hj
      simp
      omega
  refine ⟨hf, ?_⟩
  have he : 0 < eps := by unfold eps; positivity
  have : 0 < ((probs.length : ℝ) + 1) * eps := by positivity
  linarith

/-- Two fair coins: `P(X = 1) = 1/2`. -/
example : prob [1 / 2, 1 / 2] (· = 1) = 1 / 2 := by
  rw [prob_le_eq]
  simp only [expect_cons, expect_nil]
  norm_num

/-- An object of three trials with different probabilities. -/
example : ∃ s, init [1 / 2, 1 / 3, 1] = .ok s ∧ cdf s 1 = .ok (1 / 3 + 2 * eps) := by
  rcases C277_init [1 / 2, 1 / 3, 1] with ⟨_, s, hs, _⟩ | ⟨⟨p, hp, h⟩, _⟩
  · refine ⟨s, hs, ?_⟩
    rw [(C277_pbinom_partial _ s hs 1).2.1 (by simp), prob_le_eq]
    simp only [expect_cons, expect_nil]
    norm_num
  · exfalso
    simp only [List.mem_cons, List.not_mem_nil, or_false] at hp
    rcases hp with rfl | rfl | rfl <;> rcases h with h | h <;> norm_num at h

/-- An invalid probability is refused. -/
example : init [1 / 2, 3 / 2] = .error .valueError := by
  refine if_neg fun h => ?_
  have := h.1 (3 / 2) (by simp)
  norm_num at this

end Wafo.Pbinom

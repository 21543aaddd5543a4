import Verif.SpecD.Delta

set_option linter.unusedSectionVars false

/-! Properties of the characteristics of a spectrum and of their covariances. -/

namespace Wafo.SpecD
open Cov Finset

noncomputable section

/-! ### Specification -/

/-- Order of the moment number `i`: the last is that of order minus one. -/
def order (i : ℕ) : ℤ := if i = 5 then -1 else i

/-- The integral of `|S|^p f^e` over the points of a spectrum, over the positive ones when `e` is negative. -/
def power (I : Quad) (s : Spec) (p : ℕ) (e : ℤ) : ℝ :=
  if 0 ≤ e then integ I (fun S f => |S| ^ p * f ^ e.toNat) s.data s.args
  else integ I (fun S f => S ^ p * f ^ e) (((List.zip s.args s.data).filter fun q => decide (0 < q.1)).map Prod.snd)
    (s.args.filter fun v => decide (0 < v))

/-- The moments of the spectrum in hertz. -/
def hertz (I : Quad) (s : Spec) (i : ℕ) : ℝ := power I (setFreq s .f) 1 (order i)

/-- The covariances of the moments estimated from a record of `T` seconds: the integrals of `f^(i+j) S(f)² / T`. -/
def hertzCov (I : Quad) (s : Spec) (T : ℝ) (i j : ℕ) : ℝ := power I (setFreq s .f) 2 (order i + order j) / T

/-! ### Lemmas -/

theorem filter_fst (x y : List ℝ) (h : y.length = x.length) :
    ((List.zip x y).filter fun q => decide (0 < q.1)).map Prod.fst = x.filter fun v => decide (0 < v) := by
  induction x generalizing y with
  | nil => simp
  | cons a x ih =>
    cases y with
    | nil => simp at h
    | cons b y =>
      have h' : y.length = x.length := by simpa using h
      have e := ih y h'
      by_cases ha : 0 < a
      · simp [ha, e]
      · simp [ha, e]

theorem zipWith_map_pairs (F : ℝ → ℝ → ℝ) (l : List (ℝ × ℝ)) :
    List.zipWith F (l.map Prod.snd) (l.map Prod.fst) = l.map fun q => F q.2 q.1 := by
  induction l with
  | nil => rfl
  | cons a l ih => simp [ih]

theorem power_neg (I : Quad) (s : Spec) (h : Fits s) (p : ℕ) (e : ℤ) (he : e < 0) :
    power I s p e = I (((List.zip s.args s.data).filter fun q => decide (0 < q.1)).map fun q => q.2 ^ p * q.1 ^ e)
      (s.args.filter fun v => decide (0 < v)) := by
  unfold power integ
  rw [if_neg (by omega), ← filter_fst s.args s.data h, zipWith_map_pairs]

theorem setFreq_hertz (s : Spec) (ht : s.ftype = .w) :
    (setFreq s .f).args = s.args.map (fun v => (2 * Real.pi)⁻¹ * v) ∧ (setFreq s .f).data = s.data.map fun v => 2 * Real.pi * v := by
  simp [setFreq, ht, div_eq_mul_inv, mul_comm]

theorem filter_hertz (x y : List ℝ) (c d : ℝ) (hc : 0 < c) :
    ((x.map fun v => c * v).filter fun v => decide (0 < v)) = (x.filter fun v => decide (0 < v)).map (fun v => c * v) ∧
    ((List.zip (x.map fun v => c * v) (y.map fun v => d * v)).filter fun q => decide (0 < q.1)).map Prod.snd =
      (((List.zip x y).filter fun q => decide (0 < q.1)).map Prod.snd).map fun v => d * v := by
  constructor
  · rw [List.filter_map]
    congr 1
    apply List.filter_congr
    intro v _
    simp [hc]
  · rw [List.zip_map, List.filter_map, List.map_map, List.map_map]
    congr 1
    apply List.filter_congr
    intro v _
    simp [hc]

theorem filter_length (x y : List ℝ) (h : y.length = x.length) :
    (((List.zip x y).filter fun q => decide (0 < q.1)).map Prod.snd).length = (x.filter fun v => decide (0 < v)).length := by
  rw [← filter_fst x y h, List.length_map, List.length_map]

/-- Integrals in hertz and in rad/s. -/
theorem power_hertz {I : Quad} (R : Rule I) (s : Spec) (h : Fits s) (ht : s.ftype = .w) (p : ℕ) (e : ℤ) :
    power I (setFreq s .f) p e = (2 * Real.pi) ^ ((p : ℤ) - 1 - e) * power I s p e := by
  have hp : (0 : ℝ) < 2 * Real.pi := by positivity
  have hc : (0 : ℝ) < (2 * Real.pi)⁻¹ := by positivity
  obtain ⟨hx, hy⟩ := setFreq_hertz s ht
  have hpow : ∀ c : ℝ, 0 < c → c⁻¹ * (c ^ p * (c ^ e)⁻¹) = c ^ ((p : ℤ) - 1 - e) := by
    intro c hc
    rw [zpow_sub₀ hc.ne', zpow_sub₀ hc.ne', zpow_natCast, zpow_one]
    field_simp
  unfold power
  rw [hx, hy]
  by_cases he : 0 ≤ e
  · rw [if_pos he, if_pos he, integ_scale R _ (fun S f => |S| ^ p * f ^ e.toNat) s.data s.args h _ _
      ((2 * Real.pi) ^ p * ((2 * Real.pi) ^ e)⁻¹) hc, hpow _ hp]
    intro u v
    have e1 : (2 * Real.pi) ^ e = (2 * Real.pi) ^ e.toNat := by
      conv_lhs => rw [← Int.toNat_of_nonneg he]
      rw [zpow_natCast]
    rw [abs_mul, abs_of_pos hp, mul_pow _ |u|, mul_pow _ v, inv_pow, e1]
    ring
  · rw [if_neg he, if_neg he, (filter_hertz s.args s.data _ (2 * Real.pi) hc).1, (filter_hertz s.args s.data _ (2 * Real.pi) hc).2,
      integ_scale R _ (fun S f => S ^ p * f ^ e) _ _ (filter_length s.args s.data h) _ _
      ((2 * Real.pi) ^ p * ((2 * Real.pi) ^ e)⁻¹) hc, hpow _ hp]
    intro u v
    rw [mul_pow, mul_zpow, inv_zpow]
    ring

theorem power_mom (I : Quad) (s : Spec) (p i : ℕ) : power I s (p + 1) (i : ℤ) = mom I s.data s.args p i := by
  unfold power mom
  rw [if_pos (by omega), Int.toNat_natCast]

theorem hzMoment_low (I : Quad) (s : Spec) (i : ℕ) (hi : i ≤ 4) :
    hzMoment I s i = (moment I s 4 false 0).getD i 0 / (2 * Real.pi) ^ i := by
  have : i = 0 ∨ i = 1 ∨ i = 2 ∨ i = 3 ∨ i = 4 := by omega
  rcases this with rfl | rfl | rfl | rfl | rfl <;> rfl

/-- The moments that `characteristic` uses are those in hertz. -/
theorem hzMoment_eq {I : Quad} (R : Rule I) (s : Spec) (h : Fits s) (ht : s.ftype = .w) (i : ℕ) (hi : i ≤ 5) :
    hzMoment I s i = hertz I s i := by
  have hp : (0 : ℝ) < 2 * Real.pi := by positivity
  have hang : angData s = s.data ∧ angArgs s = s.args := by
    unfold angData angArgs
    simp [ht]
  by_cases h5 : i = 5
  · subst h5
    unfold hertz
    rw [power_hertz R s h ht, power_neg I s h 1 (order 5) (by simp [order])]
    unfold hzMoment
    have e : ((1 : ℕ) : ℤ) - 1 - order 5 = 1 := by simp [order]
    rw [e, zpow_one]
    have e2 : ∀ q : ℝ × ℝ, q.2 ^ 1 * q.1 ^ order 5 = q.2 / q.1 := by
      intro q
      simp [order, div_eq_mul_inv]
    simp only [e2]
    ring
  · have hl : i ≤ 4 := by omega
    have e : order i = i := by simp [order, h5]
    unfold hertz
    rw [power_hertz R s h ht, e]
    have h1 := power_mom I s 0 i
    rw [zero_add] at h1
    rw [h1]
    rw [hzMoment_low I s i hl, full_eq I s h i hl, reported_eq I s h, hang.1, hang.2]
    have e2 : ((1 : ℕ) : ℤ) - 1 - (i : ℤ) = -(i : ℤ) := by push_cast; ring
    rw [e2, zpow_neg, zpow_natCast]
    field_simp

theorem hzCov_eq {I : Quad} (R : Rule I) (s : Spec) (h : Fits s) (ht : s.ftype = .w) (T : ℝ) (i : ℕ) (hi : i ≤ 8) :
    hzCov I s T i = power I (setFreq s .f) 2 i / T := by
  have hp : (0 : ℝ) < 2 * Real.pi := by positivity
  have hang : angData s = s.data ∧ angArgs s = s.args := by
    unfold angData angArgs
    simp [ht]
  unfold hzCov
  rw [power_hertz R s h ht, power_mom I s 1 i, moment_getD I s h 8 false 1 i (by simpa [stepOf] using hi), hang.1, hang.2]
  have e2 : ((2 : ℕ) : ℤ) - 1 - (i : ℤ) = 1 - (i : ℤ) := by push_cast; ring
  rw [e2, zpow_sub₀ hp.ne', zpow_one, zpow_natCast]
  simp only [stepOf, Bool.false_eq_true, if_false, mul_one]
  field_simp

/-! ### C186: values and selection -/

/-- C186: the characteristics are returned for exactly the factors 0 to 14, by number or by name; one value, one name and one row and
column of the covariance matrix for each factor asked for, in that order. -/
theorem C186_selection (I : Quad) (interp : ℝ → List ℝ → List ℝ → ℝ) (s : Spec) (fact : List CharFactor) (T g : ℝ) :
    ((∀ k ∈ fact, 0 ≤ charIndex k ∧ charIndex k ≤ 14) →
      ∃ out, characteristic I interp s fact T g = .ok out ∧ out.ch.length = fact.length ∧ out.names.length = fact.length ∧
        ∀ (i : ℕ) (k : CharFactor), fact[i]? = some k →
          out.ch[i]? = (characteristics I interp s g)[(charIndex k).toNat]? ∧ out.names[i]? = charNames[(charIndex k).toNat]? ∧
          ∀ (j : ℕ) (l : CharFactor), fact[j]? = some l → ∃ row, out.cov[i]? = some row ∧ row[j]? = some (charCov I s T g (charIndex k).toNat (charIndex l).toNat)) ∧
    ((∃ k ∈ fact, charIndex k < 0 ∨ 14 < charIndex k) → characteristic I interp s fact T g = .error .valueError) := by
  constructor
  · intro h
    have hany : ((fact.map charIndex).any fun k => decide (14 < k ∨ k < 0)) = false := by
      rw [List.any_eq_false]
      intro k hk
      obtain ⟨c, hc, rfl⟩ := List.mem_map.mp hk
      have := h c hc
      simp only [decide_eq_true_eq]
      omega
    refine ⟨_, by unfold characteristic; simp only [hany]; rfl, by simp, by simp, ?_⟩
    intro i k hk
    have hr := h k (List.mem_of_getElem? hk)
    have hl : (charIndex k).toNat < 15 := by omega
    have hv : ∀ (l : List ℝ), l.length = 15 → some (l.getD (charIndex k).toNat 0) = l[(charIndex k).toNat]? := by
      intro l hlen
      rw [List.getD_eq_getElem?_getD, List.getElem?_eq_getElem (by omega)]
      rfl
    have hn : some (charNames.getD (charIndex k).toNat []) = charNames[(charIndex k).toNat]? := by
      have hlen : charNames.length = 15 := rfl
      rw [List.getD_eq_getElem?_getD, List.getElem?_eq_getElem (by omega)]
      rfl
    refine ⟨?_, ?_, ?_⟩
    · rw [← hv _ rfl]
      simp [hk]
    · rw [← hn]
      simp [hk]
    · intro j l hj
      refine ⟨_, by simp [hk]; rfl, ?_⟩
      simp [hj]
  · rintro ⟨k, hk, hb⟩
    have hany : ((fact.map charIndex).any fun k => decide (14 < k ∨ k < 0)) = true := by
      rw [List.any_eq_true]
      refine ⟨charIndex k, List.mem_map.mpr ⟨k, hk, rfl⟩, ?_⟩
      simp only [decide_eq_true_eq]
      omega
    unfold characteristic
    simp only [hany]
    rfl

/-- C186: each of the fifteen names is found whatever its case, under its own number, and an unknown name is refused. -/
theorem C186_names :
    charNames = ["Hm0", "Tm01", "Tm02", "Tm24", "Tm_10", "Tp", "Ss", "Sp", "Ka", "Rs", "Tp1", "Alpha", "Eps2", "Eps4",
      "Qp"].map String.toList ∧
    (∀ k < 15, charIndex (.name (charNames.getD k [])) = k ∧ charIndex (.name ((charNames.getD k []).map Char.toLower)) = k ∧
      charIndex (.name ((charNames.getD k []).map Char.toUpper)) = k) ∧
    (∀ (I : Quad) (interp : ℝ → List ℝ → List ℝ → ℝ) (s : Spec) (T g : ℝ) (t : List Char), capitalize t ∉ charNames →
      characteristic I interp s [.name t] T g = .error .valueError) := by
  refine ⟨rfl, by decide, ?_⟩
  intro I interp s T g t ht
  apply (C186_selection I interp s _ T g).2
  refine ⟨_, List.mem_singleton.mpr rfl, Or.inr ?_⟩
  have : charNames.idxOf (capitalize t) = 15 := List.idxOf_of_notMem ht
  have e : charIndex (.name t) = ((charNames.idxOf (capitalize t) : ℕ) : ℤ) := rfl
  rw [e, this]
  norm_num

/-- C186: for a spectrum in rad/s the values are the formulas of the documentation in the moments of the spectrum in hertz. -/
theorem C186_values {I : Quad} (R : Rule I) (interp : ℝ → List ℝ → List ℝ → ℝ) (s : Spec) (h : Fits s) (ht : s.ftype = .w) (g : ℝ)
    (h0 : 0 < hertz I s 0) (h1 : 0 < hertz I s 1) (h2 : 0 < hertz I s 2) (h4 : 0 < hertz I s 4) :
    let m := hertz I s
    let v := characteristics I interp s g
    v[0]? = some (sHm0 m) ∧ v[1]? = some (sTm01 m) ∧ v[2]? = some (sTm02 m) ∧ v[3]? = some (sTm24 m) ∧ v[4]? = some (sTm_10 m) ∧
    v[6]? = some (sSs g m) ∧ v[11]? = some (sAlpha m) ∧ v[12]? = some (sEps2 m) ∧ v[13]? = some (sEps4 m) := by
  have e := fun i hi => hzMoment_eq R s h ht i hi
  simp only [characteristics, List.getElem?_cons_zero, List.getElem?_cons_succ]
  rw [e 0 (by omega), e 1 (by omega), e 2 (by omega), e 4 (by omega), e 5 (by omega)]
  have q0 := Real.sqrt_pos.mpr h0
  have hal : Real.sqrt (hertz I s 2 / hertz I s 4) / Real.sqrt (hertz I s 0 / hertz I s 2) = sAlpha (hertz I s) := by
    unfold sAlpha
    rw [← Real.sqrt_div (by positivity)]
    have e2 : hertz I s 2 / hertz I s 4 / (hertz I s 0 / hertz I s 2) = hertz I s 2 ^ 2 / (hertz I s 0 * hertz I s 4) := by field_simp
    rw [e2, Real.sqrt_div (by positivity), Real.sqrt_sq h2.le]
  refine ⟨rfl, rfl, rfl, rfl, rfl, ?_, ?_, ?_, ?_⟩
  · congr 1
    unfold sSs
    rw [Real.sq_sqrt (by positivity)]
    have hs := Real.mul_self_sqrt h0.le
    by_cases hg : g = 0
    · simp [hg]
    · generalize Real.sqrt (hertz I s 0) = q at *
      rw [← hs]
      field_simp
      norm_num
  · rw [hal]
  · congr 1
    unfold sEps2
    congr 1
    field_simp
  · congr 1
    rw [hal]
    unfold sEps4 sAlpha
    rw [div_pow, Real.sq_sqrt (by positivity)]

/-- C186: `characteristic` and `bandwidth` agree on the irregularity, narrowness, broadness and peakedness factors. -/
theorem C186_bandwidth (I : Quad) (interp : ℝ → List ℝ → List ℝ → ℝ) (s : Spec) (h : Fits s) (g : ℝ) (h0 : 0 < reported I s 0)
    (h1 : 0 < reported I s 1) (h2 : 0 < reported I s 2) (h4 : 0 < reported I s 4) :
    ∃ bw, bandwidth I s (.list [.num 0, .num 1, .num 2, .num 3]) = .ok bw ∧ ∀ k < 4, (characteristics I interp s g)[k + 11]? = bw[k]? := by
  refine ⟨_, bandwidth_all I s, ?_⟩
  have hp : (0 : ℝ) < 2 * Real.pi := by positivity
  have e : ∀ i ≤ 4, hzMoment I s i = reported I s i / (2 * Real.pi) ^ i := by
    intro i hi
    have : i = 0 ∨ i = 1 ∨ i = 2 ∨ i = 3 ∨ i = 4 := by omega
    rcases this with rfl | rfl | rfl | rfl | rfl <;> rw [← full_eq I s h _ hi] <;> rfl
  have hal : Real.sqrt (hzMoment I s 2 / hzMoment I s 4) / Real.sqrt (hzMoment I s 0 / hzMoment I s 2) =
      reported I s 2 / Real.sqrt (reported I s 0 * reported I s 4) := by
    rw [e 0 (by omega), e 2 (by omega), e 4 (by omega), ← Real.sqrt_div (by positivity)]
    have e2 : reported I s 2 / (2 * Real.pi) ^ 2 / (reported I s 4 / (2 * Real.pi) ^ 4) /
        (reported I s 0 / (2 * Real.pi) ^ 0 / (reported I s 2 / (2 * Real.pi) ^ 2)) =
        reported I s 2 ^ 2 / (reported I s 0 * reported I s 4) := by field_simp
    rw [e2, Real.sqrt_div (by positivity), Real.sqrt_sq h2.le]
  intro k hk
  have hk' : k = 0 ∨ k = 1 ∨ k = 2 ∨ k = 3 := by omega
  unfold bandwidths
  simp only []
  rw [full_eq I s h 0 (by omega), full_eq I s h 1 (by omega), full_eq I s h 2 (by omega), full_eq I s h 4 (by omega)]
  rcases hk' with rfl | rfl | rfl | rfl
  · simp only [characteristics, List.getElem?_cons_zero, List.getElem?_cons_succ]
    rw [hal]
  · simp only [characteristics, List.getElem?_cons_zero, List.getElem?_cons_succ]
    rw [e 0 (by omega), e 1 (by omega), e 2 (by omega)]
    congr 3
    field_simp
  · simp only [characteristics, List.getElem?_cons_zero, List.getElem?_cons_succ]
    rw [hal, div_pow, Real.sq_sqrt (by positivity), div_div]
  · simp only [characteristics, List.getElem?_cons_zero, List.getElem?_cons_succ]
    rw [e 0 (by omega), pow_zero, div_one]

theorem argmaxR_spec (x : List ℝ) (hx : x ≠ []) :
    argmaxR x < x.length ∧ (∀ v ∈ x, v ≤ x.getD (argmaxR x) 0) ∧ ∀ k < argmaxR x, x.getD k 0 < x.getD (argmaxR x) 0 := by
  have hpos : 0 < x.length := List.length_pos_iff.mpr hx
  obtain ⟨k, hk, hmax⟩ := exists_max_image (range x.length) (fun k => x.getD k 0) ⟨0, mem_range.mpr hpos⟩
  have hk := mem_range.mp hk
  have hall : ∀ v ∈ x, v ≤ x.getD k 0 := by
    intro v hv
    obtain ⟨i, hi, rfl⟩ := List.mem_iff_getElem.mp hv
    have := hmax i (mem_range.mpr hi)
    simpa [List.getD_eq_getElem?_getD, hi] using this
  cases hf : (List.range x.length).find? fun k => decide (∀ v ∈ x, v ≤ x.getD k 0) with
  | none =>
    rw [List.find?_eq_none] at hf
    exact absurd (by simpa using hall) (hf k (List.mem_range.mpr hk))
  | some n =>
    have hn : argmaxR x = n := by unfold argmaxR; rw [hf]; rfl
    rw [hn]
    obtain ⟨hp, i, hi, he, hlt⟩ := List.find?_eq_some_iff_getElem.mp hf
    have hi' : i < x.length := by simpa using hi
    have hin : n = i := by rw [← he]; simp
    subst hin
    have hp : ∀ v ∈ x, v ≤ x.getD n 0 := by simpa using hp
    refine ⟨hi', hp, fun k hk => ?_⟩
    have hb := hlt k hk
    simp only [List.getElem_range, Bool.not_eq_true', decide_eq_false_iff_not, not_forall] at hb
    obtain ⟨v, hv, hlt⟩ := hb
    push Not at hlt
    exact lt_of_lt_of_le hlt (hp v hv)

/-- C186: the peak period of a spectrum in rad/s is `2π` over the first frequency where the density is largest. -/
theorem C186_peak (I : Quad) (interp : ℝ → List ℝ → List ℝ → ℝ) (s : Spec) (g : ℝ) (hne : s.data ≠ []) :
    ∃ n < s.data.length, (∀ v ∈ s.data, v ≤ s.data.getD n 0) ∧ (∀ k < n, s.data.getD k 0 < s.data.getD n 0) ∧
      (characteristics I interp s g)[5]? = some (2 * Real.pi / s.args.getD n 0) := by
  obtain ⟨a, b, c⟩ := argmaxR_spec s.data hne
  exact ⟨argmaxR s.data, a, b, c, rfl⟩

/-! ### C187: covariances -/

theorem form_vec (a b c d e f a' b' c' d' e' f' : ℝ) (K : ℕ → ℕ → ℝ) :
    form (vec a b c d e f) (vec a' b' c' d' e' f') K =
      a * (a' * K 0 0 + b' * K 0 1 + c' * K 0 2 + d' * K 0 3 + e' * K 0 4 + f' * K 0 5) +
      b * (a' * K 1 0 + b' * K 1 1 + c' * K 1 2 + d' * K 1 3 + e' * K 1 4 + f' * K 1 5) +
      c * (a' * K 2 0 + b' * K 2 1 + c' * K 2 2 + d' * K 2 3 + e' * K 2 4 + f' * K 2 5) +
      d * (a' * K 3 0 + b' * K 3 1 + c' * K 3 2 + d' * K 3 3 + e' * K 3 4 + f' * K 3 5) +
      e * (a' * K 4 0 + b' * K 4 1 + c' * K 4 2 + d' * K 4 3 + e' * K 4 4 + f' * K 4 5) +
      f * (a' * K 5 0 + b' * K 5 1 + c' * K 5 2 + d' * K 5 3 + e' * K 5 4 + f' * K 5 5) := by
  unfold form
  simp only [sum_range_succ, sum_range_zero, vec, List.getD_cons_zero, List.getD_cons_succ]
  ring

theorem delta_variances (m c : ℕ → ℝ) (c10 c11 g : ℝ) (K : ℕ → ℕ → ℝ) (hK : ∀ i < 5, ∀ j < 5, K i j = c (i + j)) (hK5 : K 5 5 = c11)
    (hK05 : K 0 5 = c10) (hK50 : K 5 0 = c10) (h0 : 0 < m 0) (h1 : 0 < m 1) (h2 : 0 < m 2) (h4 : 0 < m 4)
    (hn : 0 < m 0 * m 2 / m 1 ^ 2 - 1) (hb : 0 < 1 - m 2 ^ 2 / (m 0 * m 4)) :
    ∀ k f, (k, f) ∈ [(0, sHm0), (1, sTm01), (2, sTm02), (3, sTm24), (4, sTm_10), (6, sSs g), (11, sAlpha), (12, sEps2), (13, sEps4)] →
      ∃ v, (variances m c c10 c11 g (sEps2 m) (sEps4 m)).getD k none = some v ∧ Delta f f m K v := by
  have q0 := Real.sqrt_pos.mpr h0
  have z0 := Real.sq_sqrt h0.le
  have z02 : sTm02 m ^ 2 = m 0 / m 2 := Real.sq_sqrt (by positivity)
  have z24 : sTm24 m ^ 2 = m 2 / m 4 := Real.sq_sqrt (by positivity)
  have zal : sAlpha m ^ 2 = m 2 ^ 2 / (m 0 * m 4) := by
    unfold sAlpha
    rw [div_pow, Real.sq_sqrt (by positivity)]
  have p2 : 0 < sEps2 m := Real.sqrt_pos.mpr hn
  have p4 : 0 < sEps4 m := Real.sqrt_pos.mpr hb
  have k00 := hK 0 (by omega) 0 (by omega)
  have k01 := hK 0 (by omega) 1 (by omega)
  have k02 := hK 0 (by omega) 2 (by omega)
  have k04 := hK 0 (by omega) 4 (by omega)
  have k10 := hK 1 (by omega) 0 (by omega)
  have k11 := hK 1 (by omega) 1 (by omega)
  have k12 := hK 1 (by omega) 2 (by omega)
  have k20 := hK 2 (by omega) 0 (by omega)
  have k21 := hK 2 (by omega) 1 (by omega)
  have k22 := hK 2 (by omega) 2 (by omega)
  have k24 := hK 2 (by omega) 4 (by omega)
  have k40 := hK 4 (by omega) 0 (by omega)
  have k42 := hK 4 (by omega) 2 (by omega)
  have k44 := hK 4 (by omega) 4 (by omega)
  norm_num at k00 k01 k02 k04 k10 k11 k12 k20 k21 k22 k24 k40 k42 k44
  intro k f hk
  simp only [List.mem_cons, Prod.mk.injEq, List.not_mem_nil, or_false] at hk
  rcases hk with ⟨rfl, rfl⟩ | ⟨rfl, rfl⟩ | ⟨rfl, rfl⟩ | ⟨rfl, rfl⟩ | ⟨rfl, rfl⟩ | ⟨rfl, rfl⟩ | ⟨rfl, rfl⟩ | ⟨rfl, rfl⟩ | ⟨rfl, rfl⟩
  · refine ⟨_, rfl, _, _, grad_Hm0 m h0, grad_Hm0 m h0, ?_⟩
    rw [form_vec, k00]
    generalize Real.sqrt (m 0) = q at *
    rw [← z0]
    field_simp
    ring
  · refine ⟨_, rfl, _, _, grad_Tm01 m h1, grad_Tm01 m h1, ?_⟩
    rw [form_vec, k00, k01, k10, k11]
    field_simp
    ring
  · refine ⟨_, rfl, _, _, grad_Tm02 m h0 h2, grad_Tm02 m h0 h2, ?_⟩
    rw [form_vec, k00, k02, k20, k22]
    have : ∀ X : ℝ, X ^ 2 = m 0 / m 2 → 1 / 4 * (c 0 / (m 0 * m 2) - 2 * c 2 / m 2 ^ 2 + m 0 * c 4 / m 2 ^ 3) =
        X ^ 2 * (1 / (4 * m 0 ^ 2) * c 0 - 2 * (1 / (4 * m 0 * m 2)) * c 2 + 1 / (4 * m 2 ^ 2) * c 4) := by
      intro X hX
      rw [hX]
      field_simp
    rw [this _ z02]
    field_simp
    ring
  · refine ⟨_, rfl, _, _, grad_Tm24 m h2 h4, grad_Tm24 m h2 h4, ?_⟩
    rw [form_vec, k22, k24, k42, k44]
    have : ∀ X : ℝ, X ^ 2 = m 2 / m 4 → 1 / 4 * (c 4 / (m 2 * m 4) - 2 * c 6 / m 4 ^ 2 + m 2 * c 8 / m 4 ^ 3) =
        X ^ 2 * (1 / (4 * m 2 ^ 2) * c 4 - 2 * (1 / (4 * m 2 * m 4)) * c 6 + 1 / (4 * m 4 ^ 2) * c 8) := by
      intro X hX
      rw [hX]
      field_simp
    rw [this _ z24]
    field_simp
    ring
  · refine ⟨_, rfl, _, _, grad_Tm_10 m h0, grad_Tm_10 m h0, ?_⟩
    rw [form_vec, k00, hK5, hK05, hK50]
    field_simp
    ring
  · refine ⟨_, rfl, _, _, grad_Ss g m h0, grad_Ss g m h0, ?_⟩
    rw [form_vec, k00, k02, k20, k22]
    generalize Real.sqrt (m 0) = q at *
    generalize 8 * Real.pi / g = G
    rw [← z0]
    field_simp
    ring
  · refine ⟨_, rfl, _, _, grad_Alpha m h0 h2 h4, grad_Alpha m h0 h2 h4, ?_⟩
    rw [form_vec, k00, k02, k04, k20, k22, k24, k40, k42, k44]
    have : ∀ X : ℝ, X ^ 2 = m 2 ^ 2 / (m 0 * m 4) → m 2 ^ 2 * c 0 / (4 * m 0 ^ 3 * m 4) + c 4 / (m 0 * m 4) +
        c 8 * m 2 ^ 2 / (4 * m 0 * m 4 ^ 3) - m 2 * c 2 / (m 0 ^ 2 * m 4) + m 2 ^ 2 * c 4 / (2 * m 0 ^ 2 * m 4 ^ 2) -
        m 2 * c 6 / m 0 / m 4 ^ 2 =
        X ^ 2 * (1 / (4 * m 0 ^ 2) * c 0 + 1 / m 2 ^ 2 * c 4 + 1 / (4 * m 4 ^ 2) * c 8 - 1 / (m 0 * m 2) * c 2 +
          1 / (2 * m 0 * m 4) * c 4 - 1 / (m 2 * m 4) * c 6) := by
      intro X hX
      rw [hX]
      field_simp
    rw [this _ zal]
    field_simp
    ring
  · refine ⟨_, rfl, _, _, grad_Eps2 m h1 hn, grad_Eps2 m h1 hn, ?_⟩
    rw [form_vec, k00, k01, k02, k10, k11, k12, k20, k21, k22]
    generalize sEps2 m = E at *
    field_simp
    ring
  · refine ⟨_, rfl, _, _, grad_Eps4 m h0 h4 hb, grad_Eps4 m h0 h4 hb, ?_⟩
    rw [form_vec, k00, k02, k04, k20, k22, k24, k40, k42, k44]
    generalize sEps4 m = E at *
    field_simp
    ring

theorem delta_cross (m c : ℕ → ℝ) (K : ℕ → ℕ → ℝ) (hK : ∀ i < 5, ∀ j < 5, K i j = c (i + j)) (h0 : 0 < m 0) (h1 : 0 < m 1)
    (h2 : 0 < m 2) :
    Delta sHm0 sTm01 m K (cross m c 0) ∧ Delta sHm0 sTm02 m K (cross m c 1) ∧ Delta sTm01 sTm02 m K (cross m c 2) := by
  have q0 := Real.sqrt_pos.mpr h0
  have q2 := Real.sqrt_pos.mpr h2
  have z0 := Real.sq_sqrt h0.le
  have z2 := Real.sq_sqrt h2.le
  have s02 : sTm02 m = Real.sqrt (m 0) / Real.sqrt (m 2) := Real.sqrt_div h0.le _
  have k00 := hK 0 (by omega) 0 (by omega)
  have k01 := hK 0 (by omega) 1 (by omega)
  have k02 := hK 0 (by omega) 2 (by omega)
  have k10 := hK 1 (by omega) 0 (by omega)
  have k12 := hK 1 (by omega) 2 (by omega)
  norm_num at k00 k01 k02 k10 k12
  refine ⟨⟨_, _, grad_Hm0 m h0, grad_Tm01 m h1, ?_⟩, ⟨_, _, grad_Hm0 m h0, grad_Tm02 m h0 h2, ?_⟩,
    ⟨_, _, grad_Tm01 m h1, grad_Tm02 m h0 h2, ?_⟩⟩
  · rw [form_vec, k00, k01]
    unfold cross
    field_simp
    ring
  · rw [form_vec, k00, k02, s02]
    unfold cross
    generalize Real.sqrt (m 0) = q at *
    generalize Real.sqrt (m 2) = r at *
    rw [← z0, ← z2]
    field_simp
    ring
  · rw [form_vec, k00, k02, k10, k12]
    unfold cross
    have e : Real.sqrt (m 0 / m 2) = sTm02 m := rfl
    simp only [e]
    generalize sTm02 m = X at *
    field_simp
    ring

theorem variances_congr (m m' c c' : ℕ → ℝ) (c10 c11 g e2 e4 : ℝ) (hm : ∀ i ≤ 5, m i = m' i) (hc : ∀ i ≤ 8, c i = c' i) :
    variances m c c10 c11 g e2 e4 = variances m' c' c10 c11 g e2 e4 := by
  unfold variances
  rw [hm 0 (by omega), hm 1 (by omega), hm 2 (by omega), hm 4 (by omega), hm 5 (by omega), hc 0 (by omega), hc 1 (by omega),
    hc 2 (by omega), hc 3 (by omega), hc 4 (by omega), hc 6 (by omega), hc 8 (by omega)]

theorem cross_congr (m m' c c' : ℕ → ℝ) (hm : ∀ i ≤ 5, m i = m' i) (hc : ∀ i ≤ 8, c i = c' i) : cross m c = cross m' c' := by
  funext k
  have h0 := hm 0 (by omega)
  have h1 := hm 1 (by omega)
  have h2 := hm 2 (by omega)
  have g0 := hc 0 (by omega)
  have g1 := hc 1 (by omega)
  have g2 := hc 2 (by omega)
  have g3 := hc 3 (by omega)
  unfold cross
  split <;> simp only [h0, h1, h2, g0, g1, g2, g3]

/-- The matrix in terms of the spectrum in hertz. -/
theorem charCov_eq {I : Quad} (R : Rule I) (s : Spec) (h : Fits s) (ht : s.ftype = .w) (T g : ℝ)
    (h0 : 0 < hertz I s 0) (h1 : 0 < hertz I s 1) (h2 : 0 < hertz I s 2) (h4 : 0 < hertz I s 4) (i j : ℕ) :
    charCov I s T g i j = charMatrix (variances (hertz I s) (fun i : ℕ => power I (setFreq s .f) 2 (i : ℤ) / T)
      (power I (setFreq s .f) 2 (-1) / T) (power I (setFreq s .f) 2 (-2) / T) g (sEps2 (hertz I s)) (sEps4 (hertz I s)))
      (cross (hertz I s) fun i : ℕ => power I (setFreq s .f) 2 (i : ℤ) / T) i j := by
  have e := fun i hi => hzMoment_eq R s h ht i hi
  have ec := fun i hi => hzCov_eq R s h ht T i hi
  unfold charCov
  simp only []
  rw [variances_congr _ (hertz I s) _ (fun i : ℕ => power I (setFreq s .f) 2 (i : ℤ) / T) _ _ _ _ _ e ec,
    cross_congr _ (hertz I s) _ (fun i : ℕ => power I (setFreq s .f) 2 (i : ℤ) / T) e ec,
    e 0 (by omega), e 1 (by omega), e 2 (by omega), e 4 (by omega)]
  have a2 : Real.sqrt (hertz I s 0 / hertz I s 1 / (hertz I s 1 / hertz I s 2) - 1) = sEps2 (hertz I s) := by
    unfold sEps2
    congr 1
    field_simp
  have a4 : Real.sqrt (1 - (Real.sqrt (hertz I s 2 / hertz I s 4) / Real.sqrt (hertz I s 0 / hertz I s 2)) ^ 2) = sEps4 (hertz I s) := by
    unfold sEps4
    rw [div_pow, Real.sq_sqrt (by positivity), Real.sq_sqrt (by positivity)]
    congr 1
    field_simp
  have c1 : I (((List.zip s.args s.data).filter fun p => decide (0 < p.1)).map fun p => p.2 ^ 2 / p.1)
      (s.args.filter fun v => decide (0 < v)) * (2 * Real.pi) ^ 2 / T = power I (setFreq s .f) 2 (-1) / T := by
    rw [power_hertz R s h ht, power_neg I s h 2 (-1) (by omega)]
    have e1 : ((2 : ℕ) : ℤ) - 1 - (-1) = (2 : ℕ) := by norm_num
    have e2 : ∀ q : ℝ × ℝ, q.2 ^ 2 * q.1 ^ (-1 : ℤ) = q.2 ^ 2 / q.1 := by
      intro q
      simp [div_eq_mul_inv]
    rw [e1, zpow_natCast]
    simp only [e2]
    ring
  have c2 : I (((List.zip s.args s.data).filter fun p => decide (0 < p.1)).map fun p => p.2 ^ 2 / p.1 ^ 2)
      (s.args.filter fun v => decide (0 < v)) * (2 * Real.pi) ^ 3 / T = power I (setFreq s .f) 2 (-2) / T := by
    rw [power_hertz R s h ht, power_neg I s h 2 (-2) (by omega)]
    have e1 : ((2 : ℕ) : ℤ) - 1 - (-2) = (3 : ℕ) := by norm_num
    have e2 : ∀ q : ℝ × ℝ, q.2 ^ 2 * q.1 ^ (-2 : ℤ) = q.2 ^ 2 / q.1 ^ 2 := by
      intro q
      rw [zpow_neg, div_eq_mul_inv]
      norm_cast
    rw [e1, zpow_natCast]
    simp only [e2]
    ring
  rw [a2, a4, c1, c2]

theorem hertzCov_sum (I : Quad) (s : Spec) (T : ℝ) (i j : ℕ) (hi : i < 5) (hj : j < 5) :
    hertzCov I s T i j = power I (setFreq s .f) 2 ((i + j : ℕ) : ℤ) / T := by
  unfold hertzCov order
  rw [if_neg (by omega), if_neg (by omega), Nat.cast_add]

/-- C187: for a spectrum in rad/s the variances of `Hm0`, `Tm01`, `Tm02`, `Tm24`, `Tm_10`, `Ss`, `Alpha`, `Eps2` and `Eps4` are those of
the delta method. -/
theorem C187_variances {I : Quad} (R : Rule I) (s : Spec) (h : Fits s) (ht : s.ftype = .w) (T g : ℝ)
    (h0 : 0 < hertz I s 0) (h1 : 0 < hertz I s 1) (h2 : 0 < hertz I s 2) (h4 : 0 < hertz I s 4)
    (hn : 0 < hertz I s 0 * hertz I s 2 / hertz I s 1 ^ 2 - 1) (hb : 0 < 1 - hertz I s 2 ^ 2 / (hertz I s 0 * hertz I s 4)) :
    ∀ k f, (k, f) ∈ [(0, sHm0), (1, sTm01), (2, sTm02), (3, sTm24), (4, sTm_10), (6, sSs g), (11, sAlpha), (12, sEps2), (13, sEps4)] →
      ∃ v, charCov I s T g k k = some v ∧ Delta f f (hertz I s) (hertzCov I s T) v := by
  intro k f hk
  obtain ⟨v, hv, hd⟩ := delta_variances (hertz I s) (fun i : ℕ => power I (setFreq s .f) 2 (i : ℤ) / T)
    (power I (setFreq s .f) 2 (-1) / T) (power I (setFreq s .f) 2 (-2) / T) g (hertzCov I s T)
    (fun i hi j hj => hertzCov_sum I s T i j hi hj) rfl rfl rfl h0 h1 h2 h4 hn hb k f hk
  refine ⟨v, ?_, hd⟩
  rw [charCov_eq R s h ht T g h0 h1 h2 h4, ← hv]
  unfold charMatrix upper
  have hkk : ¬ (k < k ∧ k < 2) := by omega
  rw [if_neg hkk, if_neg (by omega), if_neg (by omega), if_neg (by omega), if_pos rfl]

/-- C187: the three covariances computed are those of the delta method, but only that of `Tm01` and `Tm02` is at its place: the entry of
`Hm0` and `Tm01` is NaN, that of `Hm0` and `Tm02` holds the covariance of `Hm0` and `Tm01`, and that of `Hm0` and `Tm24` holds the
covariance of `Hm0` and `Tm02`. -/
theorem C187_places_refuted {I : Quad} (R : Rule I) (s : Spec) (h : Fits s) (ht : s.ftype = .w) (T g : ℝ)
    (h0 : 0 < hertz I s 0) (h1 : 0 < hertz I s 1) (h2 : 0 < hertz I s 2) (h4 : 0 < hertz I s 4) :
    (∃ v, charCov I s T g 1 2 = some v ∧ Delta sTm01 sTm02 (hertz I s) (hertzCov I s T) v) ∧
    charCov I s T g 0 1 = none ∧
    (∃ v, charCov I s T g 0 2 = some v ∧ Delta sHm0 sTm01 (hertz I s) (hertzCov I s T) v) ∧
    (∃ v, charCov I s T g 0 3 = some v ∧ Delta sHm0 sTm02 (hertz I s) (hertzCov I s T) v) := by
  obtain ⟨a, b, c⟩ := delta_cross (hertz I s) (fun i : ℕ => power I (setFreq s .f) 2 (i : ℤ) / T) (hertzCov I s T)
    (fun i hi j hj => hertzCov_sum I s T i j hi hj) h0 h1 h2
  refine ⟨⟨_, ?_, c⟩, ?_, ⟨_, ?_, a⟩, ⟨_, ?_, b⟩⟩ <;> rw [charCov_eq R s h ht T g h0 h1 h2 h4] <;> rfl

/-- C187: the matrix is symmetric, for every spectrum. -/
theorem C187_symmetric (I : Quad) (s : Spec) (T g : ℝ) (i j : ℕ) : charCov I s T g i j = charCov I s T g j i := by
  unfold charCov
  simp only []
  generalize variances _ _ _ _ _ _ _ = R
  generalize cross _ _ = S0
  by_cases hij : i = j
  · rw [hij]
  · unfold charMatrix upper
    split_ifs <;> first | rfl | (exfalso; omega)

/-- C187: all other covariances, and the variances of `Tp`, `Sp`, `Ka`, `Rs`, `Tp1` and `Qp`, are NaN. -/
theorem C187_missing (I : Quad) (s : Spec) (T g : ℝ) :
    (∀ k ∈ [5, 7, 8, 9, 10, 14], charCov I s T g k k = none) ∧
    (∀ i j, i < j → (i, j) ∉ [(0, 2), (0, 3), (1, 2)] → charCov I s T g i j = none) := by
  refine ⟨fun k hk => ?_, fun i j hij hn => ?_⟩
  · simp only [List.mem_cons, List.not_mem_nil, or_false] at hk
    rcases hk with rfl | rfl | rfl | rfl | rfl | rfl <;> rfl
  · simp only [List.mem_cons, Prod.mk.injEq, List.not_mem_nil, or_false, not_or] at hn
    unfold charCov charMatrix upper
    simp only []
    rw [if_neg (by omega), if_neg hn.1, if_neg hn.2.1, if_neg hn.2.2, if_neg (by omega)]

/-! ### C188: units -/

theorem argmaxR_scale (x : List ℝ) (c : ℝ) (hc : 0 < c) (hx : x ≠ []) : argmaxR (x.map fun v => c * v) = argmaxR x := by
  obtain ⟨a1, a2, a3⟩ := argmaxR_spec x hx
  obtain ⟨b1, b2, b3⟩ := argmaxR_spec (x.map fun v => c * v) (by simpa using hx)
  rw [List.length_map] at b1
  have hmem : ∀ n < x.length, x.getD n 0 ∈ x := by
    intro n hn
    simp [List.getD_eq_getElem?_getD, hn]
  have hmax : ∀ n < x.length, x.getD n 0 ≤ x.getD (argmaxR (x.map fun v => c * v)) 0 := by
    intro n hn
    have := b2 (c * x.getD n 0) (List.mem_map.mpr ⟨_, hmem n hn, rfl⟩)
    rw [getD_map_lt x _ _ b1] at this
    exact le_of_mul_le_mul_left this hc
  rcases Nat.lt_trichotomy (argmaxR (x.map fun v => c * v)) (argmaxR x) with h | h | h
  · exact absurd (hmax _ a1) (not_le.mpr (a3 _ h))
  · exact h
  · have := b3 _ h
    rw [getD_map_lt x _ _ b1, getD_map_lt x _ _ a1] at this
    exact absurd (a2 _ (hmem _ b1)) (not_le.mpr (lt_of_mul_lt_mul_left this hc.le))

/-- C188: `Hm0`, `Tm01`, `Tm02`, `Tm24`, `Ss`, `Alpha`, `Eps2`, `Eps4` and `Qp` do not depend on the unit of the frequency. -/
theorem C188_units_partial {I : Quad} (R : Rule I) (interp : ℝ → List ℝ → List ℝ → ℝ) (s : Spec) (h : Fits s) (ht : s.ftype = .w) (g : ℝ) :
    ∀ k ∈ [0, 1, 2, 3, 6, 11, 12, 13, 14],
      (characteristics I interp (setFreq s .f) g)[k]? = (characteristics I interp s g)[k]? := by
  have hm := (C183_freqtype I s .w .f ht (Or.inr ⟨rfl, rfl⟩)).2.2
  have e : ∀ i ≤ 4, hzMoment I (setFreq s .f) i = hzMoment I s i := by
    intro i hi
    rw [hzMoment_low _ _ i hi, hzMoment_low _ _ i hi, hm]
  have e0 := e 0 (by omega)
  have e1 := e 1 (by omega)
  have e2 := e 2 (by omega)
  have e4 := e 4 (by omega)
  intro k hk
  simp only [List.mem_cons, List.not_mem_nil, or_false] at hk
  rcases hk with rfl | rfl | rfl | rfl | rfl | rfl | rfl | rfl | rfl <;>
    simp only [characteristics, List.getElem?_cons_zero, List.getElem?_cons_succ, e0, e1, e2, e4]
  have hp : (0 : ℝ) < 2 * Real.pi := by positivity
  obtain ⟨hx, hy⟩ := setFreq_hertz s ht
  rw [hx, hy, Qp_scale R s.data s.args h _ _ (by positivity)]
  congr 2
  field_simp

/-- C188: `Tm_10`, `Tp` and `Tp1` of a spectrum in hertz are `2π` times, and `Sp` is `1/(2π)²` times, those of the same spectrum in
rad/s. -/
theorem C188_hertz_refuted {I : Quad} (R : Rule I) (interp : ℝ → List ℝ → List ℝ → ℝ) (s : Spec) (h : Fits s) (ht : s.ftype = .w)
    (hne : s.data ≠ []) (g : ℝ) :
    ∃ Tm Tp Sp T1 : ℝ, (characteristics I interp s g)[4]? = some Tm ∧ (characteristics I interp s g)[5]? = some Tp ∧
      (characteristics I interp s g)[7]? = some Sp ∧ (characteristics I interp s g)[10]? = some T1 ∧
      (characteristics I interp (setFreq s .f) g)[4]? = some (2 * Real.pi * Tm) ∧
      (characteristics I interp (setFreq s .f) g)[5]? = some (2 * Real.pi * Tp) ∧
      (characteristics I interp (setFreq s .f) g)[7]? = some (Sp / (2 * Real.pi) ^ 2) ∧
      (characteristics I interp (setFreq s .f) g)[10]? = some (2 * Real.pi * T1) := by
  have hp : (0 : ℝ) < 2 * Real.pi := by positivity
  have hc : (0 : ℝ) < (2 * Real.pi)⁻¹ := by positivity
  have hm := (C183_freqtype I s .w .f ht (Or.inr ⟨rfl, rfl⟩)).2.2
  obtain ⟨hx, hy⟩ := setFreq_hertz s ht
  have hf : Fits (setFreq s .f) := by
    unfold Fits
    rw [hx, hy, List.length_map, List.length_map]
    exact h
  have e0 : hzMoment I (setFreq s .f) 0 = hzMoment I s 0 := by
    rw [hzMoment_low _ _ 0 (by omega), hzMoment_low _ _ 0 (by omega), hm]
  have five : ∀ t : Spec, Fits t → hzMoment I t 5 = power I t 1 (-1) * 2 * Real.pi := by
    intro t hf
    rw [power_neg I t hf 1 (-1) (by omega)]
    unfold hzMoment
    have e2 : ∀ q : ℝ × ℝ, q.2 ^ 1 * q.1 ^ (-1 : ℤ) = q.2 / q.1 := by
      intro q
      simp [div_eq_mul_inv]
    simp only [e2]
  have e5 : hzMoment I (setFreq s .f) 5 = 2 * Real.pi * hzMoment I s 5 := by
    rw [five s h, five _ hf, power_hertz R s h ht]
    have e1 : ((1 : ℕ) : ℤ) - 1 - (-1) = 1 := by norm_num
    rw [e1, zpow_one]
    ring
  have earg : argmaxR (setFreq s .f).data = argmaxR s.data := by rw [hy]; exact argmaxR_scale s.data _ hp hne
  have ef : (setFreq s .f).args.getD (argmaxR s.data) 0 = (2 * Real.pi)⁻¹ * s.args.getD (argmaxR s.data) 0 := by
    rw [hx, getD_map_lt]
    rw [← h]
    exact (argmaxR_spec s.data hne).1
  have eTp : 2 * Real.pi / (setFreq s .f).args.getD (argmaxR s.data) 0 = 2 * Real.pi * (2 * Real.pi / s.args.getD (argmaxR s.data) 0) := by
    rw [ef, div_mul_eq_div_div, div_inv_eq_mul, mul_div_assoc]
  refine ⟨_, _, _, _, rfl, rfl, rfl, rfl, ?_, ?_, ?_, ?_⟩
  · simp only [characteristics, List.getElem?_cons_zero, List.getElem?_cons_succ]
    rw [e0, e5, mul_div_assoc]
  · simp only [characteristics, List.getElem?_cons_zero, List.getElem?_cons_succ]
    rw [earg, eTp]
  · simp only [characteristics, List.getElem?_cons_zero, List.getElem?_cons_succ]
    rw [earg, eTp, e0, mul_pow (2 * Real.pi) (2 * Real.pi / _), div_mul_eq_div_div_swap]
  · simp only [characteristics, List.getElem?_cons_zero, List.getElem?_cons_succ]
    have i1 : ∀ (S x : List ℝ), S.length = x.length → I (S.map fun v => v ^ 4) x = integ I (fun S _ => S ^ 4) S x := by
      intro S x hl
      unfold integ
      congr 1
      induction S generalizing x with
      | nil => simp
      | cons a S ih =>
        cases x with
        | nil => simp at hl
        | cons b x =>
          have := ih x (by simpa using hl)
          simp [this]
    have i2 : ∀ (S x : List ℝ), I (List.zipWith (fun v S => v * S ^ 4) x S) x = integ I (fun S v => v * S ^ 4) S x := by
      intro S x
      unfold integ
      rw [List.zipWith_comm]
    rw [i1 _ _ hf, i1 _ _ h, i2, i2, hx, hy, integ_scale R (fun S _ : ℝ => S ^ 4) (fun S _ : ℝ => S ^ 4) s.data s.args h _ _
      ((2 * Real.pi) ^ 4) hc (by intro u v; ring), integ_scale R (fun S v : ℝ => v * S ^ 4) (fun S v : ℝ => v * S ^ 4) s.data s.args h _ _
      ((2 * Real.pi)⁻¹ * (2 * Real.pi) ^ 4) hc (by intro u v; ring)]
    congr 1
    generalize integ I (fun S _ : ℝ => S ^ 4) s.data s.args = A
    generalize integ I (fun S v : ℝ => v * S ^ 4) s.data s.args = B
    by_cases hB : B = 0
    · simp [hB]
    · field_simp

/-! ### C189: checks of the sampling interval -/

theorem foldr_min_lt (c : ℝ) : ∀ (d : ℝ) (l : List ℝ), l.foldr min d < c ↔ ∃ v ∈ d :: l, v < c
  | d, [] => by simp
  | d, a :: l => by
    have ih := foldr_min_lt c d l
    simp only [List.foldr_cons, min_lt_iff, ih, List.mem_cons, exists_eq_or_imp]
    tauto

/-- C189: a sampling interval that is too small for the spectrum is refused, but with a TypeError and not with the ValueError that tells
what to do: the message is formatted wrongly. -/
theorem C189_dt_refuted (s : Spec) (dt : ℝ) (hn : 2 ≤ s.args.length) :
    (checkDt s dt = .error .typeError ↔ ∃ d ∈ diffs s.args,
      12 / 10 * (if s.ftype = .f then d else d / (2 * Real.pi)) < 1 / 2 ^ 16 / dt) ∧ checkDt s dt ≠ .error .valueError := by
  have hp : (0 : ℝ) < Real.pi := Real.pi_pos
  unfold checkDt
  cases hd : diffs s.args with
  | nil =>
    have hl : (diffs s.args).length = 0 := by rw [hd]; rfl
    simp [diffs] at hl
    omega
  | cons d ds =>
    simp only []
    have key : ((if s.ftype = .f then 12 / 10 * ds.foldr min d / 2 / Real.pi * (2 * Real.pi) else 12 / 10 * ds.foldr min d / 2 / Real.pi) <
        1 / 2 ^ 16 / dt) ↔ ∃ v ∈ d :: ds, 12 / 10 * (if s.ftype = .f then v else v / (2 * Real.pi)) < 1 / 2 ^ 16 / dt := by
      generalize 1 / 2 ^ 16 / dt = b
      by_cases hf : s.ftype = .f
      · simp only [hf, if_true]
        have e : ∀ v : ℝ, 12 / 10 * v < b ↔ v < b / (12 / 10) := fun v => by rw [lt_div_iff₀ (by norm_num)]; ring_nf
        have e' : ∀ v : ℝ, 12 / 10 * v / 2 / Real.pi * (2 * Real.pi) = 12 / 10 * v := fun v => by field_simp
        simp only [e, e', foldr_min_lt]
      · simp only [hf, if_false]
        have e : ∀ v : ℝ, 12 / 10 * (v / (2 * Real.pi)) < b ↔ v < b * (2 * Real.pi) / (12 / 10) := fun v => by
          rw [lt_div_iff₀ (by norm_num), ← div_lt_iff₀ (by positivity)]
          ring_nf
        have e' : ∀ v : ℝ, 12 / 10 * v / 2 / Real.pi = 12 / 10 * (v / (2 * Real.pi)) := fun v => by field_simp
        simp only [e', e, foldr_min_lt]
    constructor
    · rw [← key]
      constructor
      · intro hh
        by_contra hc
        rw [if_neg hc] at hh
        cases hh
      · intro hh
        rw [if_pos hh]
    · split_ifs <;> simp

example : checkDt (tri .f) (1 / 10 ^ 6) = .error .typeError := by
  rw [(C189_dt_refuted (tri .f) _ (by simp [tri])).1]
  refine ⟨1, by norm_num [tri, diffs], ?_⟩
  norm_num [tri]

/-- C189: covariances that are nearly singular are documented to give a warning, but they raise a TypeError.  (The
variance is positive; for a zero variance numpy compares NaN.) -/
theorem C189_cov_refuted (r : List ℝ) (nt : ℕ) (_h : 0 < r.getD 0 0) :
    (1 ≤ nt → (checkCov r nt = .error .typeError ↔ r.getD 0 0 - r.getD 1 0 ^ 2 / r.getD 0 0 < 1 / 10000 ∨
      (4 ≤ nt ∧ r.getD 0 0 - r.getD 4 0 ^ 2 / r.getD 0 0 < 1 / 10000))) ∧
    (nt = 0 → checkCov r nt = .error .indexError) := by
  have e : ∀ a b : ℝ, a * (a / b) = a ^ 2 / b := fun a b => by ring
  unfold checkCov
  simp only [e, decide_eq_true_eq]
  constructor
  · intro hnt
    split_ifs with h1 h2 h3
    · simp only [true_iff]
      exact Or.inr ⟨by omega, h1.2⟩
    · omega
    · simp only [true_iff]
      exact Or.inl h3
    · simp only [false_iff, not_or]
      exact ⟨h3, fun hc => h1 ⟨by omega, hc.2⟩⟩
  · intro hnt
    rw [if_neg (by omega), if_pos hnt]

/-! ### Examples -/

/-- A spectrum with two values that are not zero. -/
def two : Spec := { args := [0, 1, 2, 3], data := [0, 1, 1, 0], ftype := .w }

theorem two_fits : Fits two := rfl

theorem two_hertz (i : ℕ) (hi : i < 5) : hertz trap two i = (1 + 2 ^ i) / (2 * Real.pi) ^ i := by
  have hp : (0 : ℝ) < 2 * Real.pi := by positivity
  unfold hertz
  have ho : order i = i := by unfold order; rw [if_neg (by omega)]
  have h1 := power_mom trap two 0 i
  rw [zero_add] at h1
  rw [power_hertz trapRule two two_fits rfl, ho, h1]
  have e : ((1 : ℕ) : ℤ) - 1 - (i : ℤ) = -(i : ℤ) := by push_cast; ring
  have m : mom trap two.data two.args 0 i = 1 + 2 ^ i := by
    unfold mom
    rw [integ_eq trapRule _ two.data two.args two_fits]
    simp [two, sum_range_succ, trapRule, trapW]
    norm_num
  rw [e, zpow_neg, zpow_natCast, m]
  field_simp

/-- The hypotheses of C186 and C187 hold for it. -/
example : 0 < hertz trap two 0 ∧ 0 < hertz trap two 1 ∧ 0 < hertz trap two 2 ∧ 0 < hertz trap two 4 ∧
    0 < hertz trap two 0 * hertz trap two 2 / hertz trap two 1 ^ 2 - 1 ∧
    0 < 1 - hertz trap two 2 ^ 2 / (hertz trap two 0 * hertz trap two 4) := by
  have hp : (0 : ℝ) < 2 * Real.pi := by positivity
  have e0 := two_hertz 0 (by omega)
  have e1 := two_hertz 1 (by omega)
  have e2 := two_hertz 2 (by omega)
  have e4 := two_hertz 4 (by omega)
  refine ⟨by rw [e0]; positivity, by rw [e1]; positivity, by rw [e2]; positivity, by rw [e4]; positivity, ?_, ?_⟩
  · have : hertz trap two 0 * hertz trap two 2 / hertz trap two 1 ^ 2 = 10 / 9 := by
      rw [e0, e1, e2]
      field_simp
      norm_num
    rw [this]
    norm_num
  · have : hertz trap two 2 ^ 2 / (hertz trap two 0 * hertz trap two 4) = 25 / 34 := by
      rw [e0, e2, e4]
      field_simp
      norm_num
    rw [this]
    norm_num

end

end Wafo.SpecD

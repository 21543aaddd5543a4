import Verif.SpecD.Lemmas

set_option linter.unusedSectionVars false

/-! Properties of moments, frequency types, normalization and bandwidths of `SpecData1D`. -/

namespace Wafo.SpecD
open Cov Finset

noncomputable section

/-! ### Specification: `mom I S x j i`, the integral of `|S|^(j+1) x^i`, is in Verif.SpecD.Lemmas. -/

/-- A spectrum is well formed when it has one value for each frequency. -/
def Fits (s : Spec) : Prop := s.data.length = s.args.length

/-- The weights of the rule on the points `x` are not negative. -/
def Positive {I : Quad} (R : Rule I) (x : List ℝ) : Prop := ∀ i < x.length, 0 ≤ R.w x i

/-- A triangular spectrum. -/
def tri (t : FreqType) : Spec := { args := [0, 1, 2], data := [0, 1, 0], ftype := t }

theorem tri_fits (t : FreqType) : Fits (tri t) := rfl

theorem tri_positive : Positive trapRule (tri .w).args := by
  intro i hi
  have hi : i < 3 := hi
  have : i = 0 ∨ i = 1 ∨ i = 2 := by omega
  rcases this with rfl | rfl | rfl <;> norm_num [trapRule, trapW, tri]

theorem tri_mom (j i : ℕ) : mom trap (tri .w).data (tri .w).args j i = 1 := by
  unfold mom
  rw [integ_eq trapRule _ (tri .w).data (tri .w).args rfl]
  simp [tri, sum_range_succ, trapRule, trapW]

/-! ### C182: moments -/

/-- C182: for frequencies in rad/s and for wave numbers, `moment(nr, even, j)` returns the integrals of `|S|^(j+1) w^i` for
`i = 0, 1, ..., nr`, or for the even `i` among them. -/
theorem C182_moments (I : Quad) (s : Spec) (h : Fits s) (ht : s.ftype ≠ .f) (nr : ℕ) (even : Bool) (j : ℕ) :
    moment I s nr even j = (List.range (nr / (if even then 2 else 1) + 1)).map fun k =>
      mom I s.data s.args j (k * (if even then 2 else 1)) := by
  rw [moment_eq I s h]
  unfold angData angArgs
  rw [if_neg ht, if_neg ht]
  rfl

example : moment trap (tri .w) 4 true 0 = [1, 1, 1] := by
  rw [C182_moments trap (tri .w) rfl (by simp [tri])]
  have h : List.range (4 / (if true then 2 else 1) + 1) = [0, 1, 2] := by decide
  rw [h]
  simp only [List.map_cons, List.map_nil, tri_mom]

/-- C182: for frequencies in hertz the moments are those of the angular frequency: `(2π)^i` times the integrals of `S f^i`, and with the
factor `(2π)^(i-j)` for the power `j + 1` of the density. -/
theorem C182_hertz {I : Quad} (R : Rule I) (s : Spec) (h : Fits s) (ht : s.ftype = .f) (nr : ℕ) (even : Bool) (j : ℕ) :
    moment I s nr even j = (List.range (nr / (if even then 2 else 1) + 1)).map fun k =>
      (2 * Real.pi) ^ (k * (if even then 2 else 1)) / (2 * Real.pi) ^ j * mom I s.data s.args j (k * (if even then 2 else 1)) := by
  have hp : (0 : ℝ) < 2 * Real.pi := by positivity
  rw [moment_eq I s h]
  unfold angData angArgs
  rw [if_pos ht, if_pos ht]
  apply List.map_congr_left
  intro k _
  have e : (s.data.map fun v => v / (2 * Real.pi)) = s.data.map fun v => (2 * Real.pi)⁻¹ * v := by
    apply List.map_congr_left
    intro v _
    rw [div_eq_inv_mul]
  rw [e, mom_scale R s.data s.args h _ _ hp (by positivity), inv_pow, pow_succ, pow_succ _ j]
  unfold stepOf
  field_simp

/-- C182: the moment of order `i` of the list of even moments is the moment of order `2 i` of the full list. -/
theorem C182_even (I : Quad) (s : Spec) (h : Fits s) (nr j i : ℕ) (hi : 2 * i ≤ nr) :
    (moment I s nr true j)[i]? = (moment I s nr false j)[2 * i]? := by
  have h1 : i < nr / 2 + 1 := by omega
  have h2 : 2 * i < nr / 1 + 1 := by omega
  have s1 : (List.range (nr / stepOf true + 1))[i]? = some i := List.getElem?_range h1
  have s2 : (List.range (nr / stepOf false + 1))[2 * i]? = some (2 * i) := List.getElem?_range h2
  rw [moment_eq I s h, moment_eq I s h, List.getElem?_map, List.getElem?_map, s1, s2]
  simp [stepOf, mul_comm]

/-- C182: there is one name for each moment, with as many letters as the order. -/
theorem C182_names (I : Quad) (s : Spec) (h : Fits s) (nr : ℕ) (even : Bool) (j : ℕ) :
    (momentText s nr even j).length = (moment I s nr even j).length ∧
    ∀ k < (moment I s nr even j).length, ∃ t, (momentText s nr even j)[k]? = some t ∧
      t = "m" ++ toString j ++ String.ofList (List.replicate (k * (if even then 2 else 1)) (if s.ftype = .k then 'x' else 't')) := by
  rw [moment_eq I s h]
  refine ⟨by simp [momentText], fun k hk => ?_⟩
  have hk : k < nr / stepOf even + 1 := by simpa using hk
  refine ⟨_, ?_, rfl⟩
  unfold momentText
  rw [List.getElem?_map, List.getElem?_range hk]
  rfl

example : momentText (tri .k) 4 true 0 = ["m0", "m0xx", "m0xxxx"] := by decide

/-! ### C183: frequency types -/

/-- C183: converting between hertz and rad/s keeps every moment and can be undone. -/
theorem C183_freqtype (I : Quad) (s : Spec) (a b : FreqType) (ha : s.ftype = a) (hab : (a = .f ∧ b = .w) ∨ (a = .w ∧ b = .f)) :
    (setFreq s b).ftype = b ∧ setFreq (setFreq s b) a = s ∧
    ∀ (nr : ℕ) (even : Bool) (j : ℕ), moment I (setFreq s b) nr even j = moment I s nr even j := by
  have hp : (2 * Real.pi) ≠ 0 := by positivity
  have r1 : ∀ l : List ℝ, (l.map fun v => v * (2 * Real.pi)).map (fun v => v / (2 * Real.pi)) = l := by
    intro l
    rw [List.map_map]
    conv_rhs => rw [← List.map_id l]
    apply List.map_congr_left
    intro v _
    simp only [Function.comp_apply, id]
    field_simp
  have r2 : ∀ l : List ℝ, (l.map fun v => v / (2 * Real.pi)).map (fun v => v * (2 * Real.pi)) = l := by
    intro l
    rw [List.map_map]
    conv_rhs => rw [← List.map_id l]
    apply List.map_congr_left
    intro v _
    simp only [Function.comp_apply, id]
    field_simp
  have r3 : ∀ l : List ℝ, (l.map fun v => v / (2 * Real.pi)).map (fun v => 2 * Real.pi * v) = l := by
    intro l
    conv_rhs => rw [← r2 l]
    apply List.map_congr_left
    intro v _
    ring
  have r4 : ∀ l : List ℝ, (l.map fun v => v * (2 * Real.pi)) = l.map fun v => 2 * Real.pi * v := by
    intro l
    apply List.map_congr_left
    intro v _
    ring
  cases s with
  | mk x y t =>
    simp only at ha
    subst ha
    rcases hab with ⟨rfl, rfl⟩ | ⟨rfl, rfl⟩
    · refine ⟨by simp [setFreq], by simp [setFreq, r1, r2], fun nr even j => ?_⟩
      simp [setFreq, moment, angArgs, angData, r4]
    · refine ⟨by simp [setFreq], by simp [setFreq, r1, r2], fun nr even j => ?_⟩
      simp [setFreq, moment, angArgs, angData, r3, r1]

example : (setFreq (tri .w) .f).args = [0, 1 / (2 * Real.pi), 2 / (2 * Real.pi)] := by simp [setFreq, tri]

/-- C183: the attribute does not take every value it is given: between wave numbers and frequencies the assignment does nothing and
raises nothing. -/
theorem C183_ignored_refuted (s : Spec) (b : FreqType) (h : s.ftype ≠ b) (hk : s.ftype = .k ∨ b = .k) :
    setFreq s b = s ∧ (setFreq s b).ftype ≠ b := by
  have e : setFreq s b = s := by
    unfold setFreq
    rw [if_neg h]
    rcases hk with hk | hk
    · rw [if_neg (by rw [hk]; simp), if_neg (by rw [hk]; simp)]
    · rw [if_neg (by rw [hk]; simp), if_neg (by rw [hk]; simp)]
  exact ⟨e, by rw [e]; exact h⟩

example : (setFreq (tri .k) .w).ftype ≠ .w := (C183_ignored_refuted (tri .k) .w (by simp [tri]) (Or.inl rfl)).2

/-! ### C184: normalization -/

/-- The moment of order `i` that `moment` reports. -/
def reported (I : Quad) (s : Spec) (i : ℕ) : ℝ := (moment I s i false 0).getD i 0

theorem reported_eq (I : Quad) (s : Spec) (h : Fits s) (i : ℕ) : reported I s i = mom I (angData s) (angArgs s) 0 i := by
  unfold reported
  rw [moment_getD I s h i false 0 i (by simp [stepOf])]
  simp [stepOf]

theorem even_eq (I : Quad) (s : Spec) (h : Fits s) (k : ℕ) (hk : k ≤ 2) : (moment I s 4 true 0).getD k 0 = reported I s (2 * k) := by
  rw [reported_eq I s h, moment_getD I s h 4 true 0 k (by simpa [stepOf] using hk)]
  simp [stepOf, mul_comm]

/-- The moments of a spectrum with rescaled frequencies and densities. -/
theorem reported_scale {I : Quad} (R : Rule I) (s t : Spec) (h : Fits s) (a b : ℝ) (ha : 0 < a) (hb : 0 ≤ b)
    (hx : angArgs t = (angArgs s).map fun v => a * v) (hy : angData t = (angData s).map fun v => b * v) (ht : Fits t) (i : ℕ) :
    reported I t i = a ^ (i + 1) * b * reported I s i := by
  rw [reported_eq I t ht, reported_eq I s h, hx, hy, mom_scale R _ _ (ang_length s h) a b ha hb, zero_add, pow_one]

/-- C184: after `normalize` a spectrum in rad/s has the zeroth and second moments one. -/
theorem C184_normalize {I : Quad} (R : Rule I) (s : Spec) (h : Fits s) (ht : s.ftype = .w) (h0 : 0 < reported I s 0)
    (h2 : 0 < reported I s 2) :
    reported I (normalize I s) 0 = 1 ∧ reported I (normalize I s) 2 = 1 ∧
    reported I (normalize I s) 4 = reported I s 0 * reported I s 4 / reported I s 2 ^ 2 := by
  have q0 : 0 < Real.sqrt (reported I s 0) := Real.sqrt_pos.mpr h0
  have q2 : 0 < Real.sqrt (reported I s 2) := Real.sqrt_pos.mpr h2
  have e0 := even_eq I s h 0 (by omega)
  have e2 := even_eq I s h 1 (by omega)
  rw [mul_zero] at e0
  rw [mul_one] at e2
  have key : ∀ i, reported I (normalize I s) i = (Real.sqrt (reported I s 0) / Real.sqrt (reported I s 2)) ^ (i + 1) *
      (Real.sqrt (reported I s 2) / (Real.sqrt (reported I s 0) * reported I s 0)) * reported I s i := by
    intro i
    apply reported_scale R s _ h _ _ (by positivity) (by positivity)
    · simp only [normalize, ht, angArgs, e0, e2]
      apply List.map_congr_left
      intro v _
      ring
    · simp only [normalize, ht, angData, e0, e2]
      apply List.map_congr_left
      intro v _
      ring
    · simpa [normalize, ht, Fits] using h
  have s0 := Real.mul_self_sqrt h0.le
  have s2 := Real.mul_self_sqrt h2.le
  have k0 := key 0
  have k2 := key 2
  have k4 := key 4
  clear key
  rw [k0, k2, k4]
  clear k0 k2 k4
  generalize reported I s 0 = m0 at *
  generalize reported I s 2 = m2 at *
  generalize Real.sqrt m0 = a at *
  generalize Real.sqrt m2 = b at *
  subst s0 s2
  norm_num
  refine ⟨?_, ?_, ?_⟩ <;> field_simp

/-- C184: with the acceleration of gravity that `normalize` stores, the normalized spectrum has the mean square slope one too: the fourth
moment over the square of the gravity. -/
theorem C184_gravity {I : Quad} (R : Rule I) (s : Spec) (h : Fits s) (ht : s.ftype = .w) (h0 : 0 < reported I s 0)
    (h2 : 0 < reported I s 2) (h4 : 0 < reported I s 4) (g : ℝ) (hg : 0 < g) :
    reported I (normalize I s) 4 / normGravity I s g ^ 2 = 1 ∧ ∀ g' : ℝ, 0 < g' → normGravity I s g' = normGravity I s g := by
  have e0 := even_eq I s h 0 (by omega)
  have e2 := even_eq I s h 1 (by omega)
  have e4 := even_eq I s h 2 (by omega)
  have e : ∀ g : ℝ, 0 < g → normGravity I s g = Real.sqrt (reported I s 0 * reported I s 4) / reported I s 2 := by
    intro g hg
    unfold normGravity
    simp only [e0, e2, e4]
    rw [← mul_div_assoc, Real.sqrt_div (by positivity), Real.sqrt_sq hg.le]
    field_simp
  refine ⟨?_, fun g' hg' => by rw [e g' hg', e g hg]⟩
  rw [(C184_normalize R s h ht h0 h2).2.2, e g hg, div_pow, Real.sq_sqrt (by positivity)]
  field_simp

/-- C184: normalizing twice is normalizing once. -/
theorem C184_twice {I : Quad} (R : Rule I) (s : Spec) (h : Fits s) (ht : s.ftype = .w) (h0 : 0 < reported I s 0)
    (h2 : 0 < reported I s 2) : normalize I (normalize I s) = normalize I s := by
  have n := C184_normalize R s h ht h0 h2
  have hf : Fits (normalize I s) := by simpa [normalize, ht, Fits] using h
  have hw : (normalize I s).ftype = .w := by simp [normalize, ht]
  have e0 := even_eq I (normalize I s) hf 0 (by omega)
  have e2 := even_eq I (normalize I s) hf 1 (by omega)
  rw [mul_zero, n.1] at e0
  rw [mul_one, n.2.1] at e2
  generalize normalize I s = t at *
  unfold normalize
  simp only [e0, e2, hw]
  simp
  cases t
  simp_all

theorem tri_reported (i : ℕ) : reported trap (tri .w) i = 1 := by
  rw [reported_eq trap (tri .w) rfl]
  exact tri_mom 0 i

/-- The same with a larger density. -/
def tri3 : Spec := { args := [0, 1, 2], data := [0, 3, 0], ftype := .w }

example : reported trap (normalize trap tri3) 0 = 1 := by
  have hf : Fits tri3 := rfl
  have hr : ∀ i, reported trap tri3 i = 3 := by
    intro i
    rw [reported_eq trap tri3 hf]
    unfold mom
    rw [integ_eq trapRule _ _ _ (ang_length tri3 hf)]
    simp [angData, angArgs, tri3, sum_range_succ, trapRule, trapW]
  exact (C184_normalize trapRule tri3 hf rfl (by rw [hr]; norm_num) (by rw [hr]; norm_num)).1

/-- C184: a spectrum in hertz is not normalized: its zeroth moment becomes one, but the second moment becomes `1/(2π)²`. -/
theorem C184_hertz_refuted {I : Quad} (R : Rule I) (s : Spec) (h : Fits s) (ht : s.ftype = .f) (h0 : 0 < reported I s 0)
    (h2 : 0 < reported I s 2) :
    reported I (normalize I s) 0 = 1 ∧ reported I (normalize I s) 2 = 1 / (2 * Real.pi) ^ 2 ∧ reported I (normalize I s) 2 ≠ 1 := by
  have hp : (0 : ℝ) < Real.pi := Real.pi_pos
  have q0 : 0 < Real.sqrt (reported I s 0) := Real.sqrt_pos.mpr h0
  have q2 : 0 < Real.sqrt (reported I s 2) := Real.sqrt_pos.mpr h2
  have e0 := even_eq I s h 0 (by omega)
  have e2 := even_eq I s h 1 (by omega)
  rw [mul_zero] at e0
  rw [mul_one] at e2
  have key : ∀ i, reported I (normalize I s) i =
      (Real.sqrt (reported I s 0) / Real.sqrt (reported I s 2) / (2 * Real.pi)) ^ (i + 1) *
      (Real.sqrt (reported I s 2) / (Real.sqrt (reported I s 0) * reported I s 0) * (2 * Real.pi)) * reported I s i := by
    intro i
    apply reported_scale R s _ h _ _ (by positivity) (by positivity)
    · simp only [normalize, ht, angArgs, e0, e2, if_true, List.map_map]
      apply List.map_congr_left
      intro v _
      simp only [Function.comp_apply]
      field_simp
    · simp only [normalize, ht, angData, e0, e2, if_true, List.map_map]
      apply List.map_congr_left
      intro v _
      simp only [Function.comp_apply]
      field_simp
    · simpa [normalize, ht, Fits] using h
  have s0 := Real.mul_self_sqrt h0.le
  have s2 := Real.mul_self_sqrt h2.le
  have r2 : reported I (normalize I s) 2 = 1 / (2 * Real.pi) ^ 2 := by
    rw [key 2]
    generalize reported I s 0 = m0 at *
    generalize reported I s 2 = m2 at *
    generalize Real.sqrt m0 = a at *
    generalize Real.sqrt m2 = b at *
    subst s0 s2
    norm_num
    field_simp
  refine ⟨?_, r2, ?_⟩
  · rw [key 0]
    generalize reported I s 0 = m0 at *
    generalize reported I s 2 = m2 at *
    generalize Real.sqrt m0 = a at *
    generalize Real.sqrt m2 = b at *
    subst s0 s2
    norm_num
    field_simp
  · rw [r2]
    have h3 := Real.two_le_pi
    intro hc
    rw [div_eq_iff (by positivity)] at hc
    nlinarith

/-- C184: a wave number spectrum is left as it is, though it is marked as normalized. -/
theorem C184_wavenumber_refuted (I : Quad) (s : Spec) (ht : s.ftype = .k) (h : reported I s 0 ≠ 1) :
    normalize I s = s ∧ reported I (normalize I s) 0 ≠ 1 := by
  have e : normalize I s = s := by simp [normalize, ht]
  exact ⟨e, by rw [e]; exact h⟩

/-! ### C185: bandwidths -/

/-- The four values of `bandwidth([0, 1, 2, 3])`. -/
theorem bandwidth_all (I : Quad) (s : Spec) : bandwidth I s (.list [.num 0, .num 1, .num 2, .num 3]) = .ok (bandwidths I s) := rfl

theorem full_eq (I : Quad) (s : Spec) (h : Fits s) (k : ℕ) (hk : k ≤ 4) : (moment I s 4 false 0).getD k 0 = reported I s k := by
  rw [reported_eq I s h, moment_getD I s h 4 false 0 k (by simpa [stepOf] using hk)]
  simp [stepOf]

/-- Moments of nonnegative weights: the square of a mean moment is at most the product of its neighbours. -/
theorem mom_cauchy {I : Quad} (R : Rule I) (S x : List ℝ) (h : S.length = x.length) (hw : Positive R x) (i k : ℕ) :
    mom I S x 0 (i + k) ^ 2 ≤ mom I S x 0 (2 * i) * mom I S x 0 (2 * k) := by
  unfold mom
  rw [integ_eq R _ S x h, integ_eq R _ S x h, integ_eq R _ S x h]
  apply sum_sq_le_sum_mul_sum_of_sq_le_mul
  · intro n hn
    have := hw n (mem_range.mp hn)
    have h2 : (0 : ℝ) ≤ x.getD n 0 ^ (2 * i) := by rw [pow_mul']; positivity
    positivity
  · intro n hn
    have := hw n (mem_range.mp hn)
    have h2 : (0 : ℝ) ≤ x.getD n 0 ^ (2 * k) := by rw [pow_mul']; positivity
    positivity
  · intro n _
    apply le_of_eq
    ring

/-- C185: with nonnegative weights no root of a negative number is taken: the irregularity factor is between zero and one, its square and
that of the broadness factor sum to one, and the narrowness factor is the root of `m0 m2 / m1² - 1`, which is not negative. -/
theorem C185_range {I : Quad} (R : Rule I) (s : Spec) (h : Fits s) (hw : Positive R (angArgs s)) (h0 : 0 < reported I s 0)
    (h1 : reported I s 1 ≠ 0) (h4 : 0 < reported I s 4) :
    ∃ al e2 e4 Qp : ℝ, bandwidth I s (.list [.num 0, .num 1, .num 2, .num 3]) = .ok [al, e2, e4, Qp] ∧
      0 ≤ al ∧ al ≤ 1 ∧ 0 ≤ e4 ∧ al ^ 2 + e4 ^ 2 = 1 ∧ 0 ≤ e2 ∧
      e2 ^ 2 = reported I s 0 * reported I s 2 / reported I s 1 ^ 2 - 1 ∧
      al = reported I s 2 / Real.sqrt (reported I s 0 * reported I s 4) := by
  have c1 : reported I s 1 ^ 2 ≤ reported I s 0 * reported I s 2 := by
    rw [reported_eq I s h, reported_eq I s h, reported_eq I s h]
    exact mom_cauchy R _ _ (ang_length s h) hw 0 1
  have c2 : reported I s 2 ^ 2 ≤ reported I s 0 * reported I s 4 := by
    rw [reported_eq I s h, reported_eq I s h, reported_eq I s h]
    exact mom_cauchy R _ _ (ang_length s h) hw 0 2
  have p1 : 0 < reported I s 1 ^ 2 := by positivity
  have h2 : 0 ≤ reported I s 2 := by
    by_contra hn
    push Not at hn
    nlinarith
  refine ⟨_, _, _, _, bandwidth_all I s, ?_⟩
  simp only []
  rw [full_eq I s h 0 (by omega), full_eq I s h 1 (by omega), full_eq I s h 2 (by omega), full_eq I s h 4 (by omega)]
  have hd : 0 < reported I s 0 * reported I s 4 := by positivity
  have hs : 0 < Real.sqrt (reported I s 0 * reported I s 4) := Real.sqrt_pos.mpr hd
  have a4 : 0 ≤ 1 - reported I s 2 ^ 2 / reported I s 0 / reported I s 4 := by
    rw [div_div, sub_nonneg, div_le_one hd]
    exact c2
  have a2 : 0 ≤ reported I s 0 * reported I s 2 / reported I s 1 ^ 2 - 1 := by
    rw [sub_nonneg, one_le_div p1]
    exact c1
  refine ⟨by positivity, ?_, Real.sqrt_nonneg _, ?_, Real.sqrt_nonneg _, Real.sq_sqrt a2, rfl⟩
  · rw [div_le_one hs]
    exact Real.le_sqrt_of_sq_le c2
  · rw [Real.sq_sqrt a4, div_pow, Real.sq_sqrt hd.le, div_div]
    ring

example : Positive trapRule (angArgs (tri .w)) ∧ 0 < reported trap (tri .w) 0 ∧ reported trap (tri .w) 1 ≠ 0 ∧ 0 < reported trap (tri .w) 4 := by
  refine ⟨?_, ?_, ?_, ?_⟩
  · exact tri_positive
  all_goals rw [tri_reported]; norm_num

theorem Qp_scale {I : Quad} (R : Rule I) (S x : List ℝ) (h : S.length = x.length) (a b : ℝ) (ha : 0 < a) :
    I (List.zipWith (fun f S => f * S ^ 2) (x.map fun v => a * v) (S.map fun v => b * v)) (x.map fun v => a * v) =
      a ^ 2 * b ^ 2 * I (List.zipWith (fun f S => f * S ^ 2) x S) x := by
  have e : ∀ x S : List ℝ, List.zipWith (fun f S : ℝ => f * S ^ 2) x S = List.zipWith (fun S f : ℝ => f * S ^ 2) S x := by
    intro x S
    rw [List.zipWith_comm]
  rw [e, e]
  have := integ_scale R (fun S f : ℝ => f * S ^ 2) (fun S f : ℝ => f * S ^ 2) S x h a b (a * b ^ 2) ha (by intro u v; ring)
  unfold integ at this
  rw [this]
  ring

/-- C185: the bandwidth factors have no dimension: they do not change when frequencies and densities are multiplied by positive
constants. -/
theorem C185_scale {I : Quad} (R : Rule I) (s : Spec) (h : Fits s) (a b : ℝ) (ha : 0 < a) (hb : 0 < b) (f : Factors) :
    bandwidth I { s with args := s.args.map fun v => a * v, data := s.data.map fun v => b * v } f = bandwidth I s f := by
  have hf : Fits { s with args := s.args.map fun v => a * v, data := s.data.map fun v => b * v } := by simpa [Fits] using h
  have key : bandwidths I { s with args := s.args.map fun v => a * v, data := s.data.map fun v => b * v } = bandwidths I s := by
    have m : ∀ i, reported I { s with args := s.args.map fun v => a * v, data := s.data.map fun v => b * v } i =
        a ^ (i + 1) * b * reported I s i := by
      intro i
      apply reported_scale R s _ h a b ha hb.le
      · unfold angArgs
        simp only []
        split_ifs
        · rw [List.map_map, List.map_map]
          apply List.map_congr_left
          intro v _
          simp only [Function.comp_apply]
          ring
        · rfl
      · unfold angData
        simp only []
        split_ifs
        · rw [List.map_map, List.map_map]
          apply List.map_congr_left
          intro v _
          simp only [Function.comp_apply]
          ring
        · rfl
      · exact hf
    unfold bandwidths
    simp only []
    rw [full_eq I _ hf 0 (by omega), full_eq I _ hf 1 (by omega), full_eq I _ hf 2 (by omega), full_eq I _ hf 4 (by omega),
      full_eq I s h 0 (by omega), full_eq I s h 1 (by omega), full_eq I s h 2 (by omega), full_eq I s h 4 (by omega), m, m, m, m,
      Qp_scale R s.data s.args h a b ha]
    generalize reported I s 0 = m0
    generalize reported I s 1 = m1
    generalize reported I s 2 = m2
    generalize reported I s 4 = m4
    generalize I _ _ = q
    have e1 : a ^ (0 + 1) * b * m0 * (a ^ (4 + 1) * b * m4) = (a ^ 3 * b) ^ 2 * (m0 * m4) := by ring
    have e2 : a ^ (0 + 1) * b * m0 * (a ^ (2 + 1) * b * m2) / (a ^ (1 + 1) * b * m1) ^ 2 = m0 * m2 / m1 ^ 2 := by
      by_cases h1 : m1 = 0
      · simp [h1]
      · field_simp
        ring
    have e3 : (a ^ (2 + 1) * b * m2) ^ 2 / (a ^ (0 + 1) * b * m0) / (a ^ (4 + 1) * b * m4) = m2 ^ 2 / m0 / m4 := by
      rw [div_div, div_div, e1, mul_pow, mul_div_mul_left]
      positivity
    have e4 : a ^ (2 + 1) * b * m2 / ((a ^ 3 * b) * Real.sqrt (m0 * m4)) = m2 / Real.sqrt (m0 * m4) := by
      rw [mul_div_mul_left]
      positivity
    have e5 : 2 / (a ^ (0 + 1) * b * m0) ^ 2 * (a ^ 2 * b ^ 2 * q) = 2 / m0 ^ 2 * q := by
      by_cases h1 : m0 = 0
      · simp [h1]
      · norm_num
        field_simp
    rw [e1, e2, e3, e5, Real.sqrt_mul (by positivity), Real.sqrt_sq (by positivity), e4]
  cases f <;> unfold bandwidth <;> rw [key]

/-- C185: the bandwidth factors do not depend on the unit of the frequency. -/
theorem C185_units {I : Quad} (R : Rule I) (s : Spec) (h : Fits s) (t : FreqType) (f : Factors) :
    bandwidth I (setFreq s t) f = bandwidth I s f := by
  have hp : (0 : ℝ) < 2 * Real.pi := by positivity
  have aux : ∀ (u v : Spec), u.args.length = u.data.length → (∀ nr even j, moment I v nr even j = moment I u nr even j) →
      (∃ a : ℝ, 0 < a ∧ v.args = (u.args.map fun w => a * w) ∧ v.data = u.data.map fun w => a⁻¹ * w) →
      bandwidths I v = bandwidths I u := by
    rintro u v hu hm ⟨a, ha, hx, hy⟩
    unfold bandwidths
    simp only [hm]
    rw [hx, hy, Qp_scale R u.data u.args hu.symm a a⁻¹ ha]
    congr 4
    field_simp
  have key : bandwidths I (setFreq s t) = bandwidths I s := by
    by_cases h1 : s.ftype = .f ∧ t = .w
    · apply aux s _ h.symm (C183_freqtype I s .f .w h1.1 (Or.inl ⟨rfl, rfl⟩) |>.2.2 |> fun k => by rw [h1.2]; exact k)
      refine ⟨2 * Real.pi, hp, ?_, ?_⟩ <;> simp [setFreq, h1.1, h1.2, mul_comm, div_eq_mul_inv]
    · by_cases h2 : s.ftype = .w ∧ t = .f
      · apply aux s _ h.symm (C183_freqtype I s .w .f h2.1 (Or.inr ⟨rfl, rfl⟩) |>.2.2 |> fun k => by rw [h2.2]; exact k)
        refine ⟨(2 * Real.pi)⁻¹, by positivity, ?_, ?_⟩ <;> simp [setFreq, h2.1, h2.2, mul_comm, div_eq_mul_inv]
      · have e : setFreq s t = s := by
          unfold setFreq
          split_ifs with a b c
          · rfl
          · exact absurd ⟨b.2, b.1⟩ h1
          · exact absurd ⟨c.2, c.1⟩ h2
          · rfl
        rw [e]
  cases f <;> unfold bandwidth <;> rw [key]

/-- C185: the default argument and every single number raise a TypeError, though zero is a documented factor. -/
theorem C185_default_refuted (I : Quad) (s : Spec) (k : ℤ) : bandwidth I s (.one k) = .error .typeError := rfl

/-- C185: the name of the broadness factor gives the peakedness factor, that of number 3; for a triangular spectrum the broadness factor
is zero and the value returned is two. -/
theorem C185_eps4_refuted :
    (∀ (I : Quad) (s : Spec), bandwidth I s (.text "eps4") = bandwidth I s (.list [.num 3])) ∧
    bandwidth trap (tri .w) (.list [.num 2]) = .ok [0] ∧ bandwidth trap (tri .w) (.text "eps4") = .ok [2] := by
  have hm : ∀ k ≤ 4, (moment trap (tri .w) 4 false 0).getD k 0 = 1 := by
    intro k hk
    rw [full_eq trap (tri .w) rfl k hk, tri_reported]
  refine ⟨fun I s => rfl, ?_, ?_⟩
  · have : bandwidth trap (tri .w) (.list [.num 2]) = .ok [(bandwidths trap (tri .w)).getD 2 0] := rfl
    rw [this]
    simp only [bandwidths]
    rw [hm 0 (by omega), hm 2 (by omega), hm 4 (by omega)]
    simp
  · have : bandwidth trap (tri .w) (.text "eps4") = .ok [(bandwidths trap (tri .w)).getD 3 0] := rfl
    rw [this]
    simp only [bandwidths]
    rw [hm 0 (by omega)]
    simp [trap, tri, trapW, sum_range_succ]

/-- C185: the other names give what they say, and numbers outside the range and unknown names are refused. -/
theorem C185_names (I : Quad) (s : Spec) :
    bandwidth I s (.text "alpha") = bandwidth I s (.list [.num 0]) ∧ bandwidth I s (.text "eps2") = bandwidth I s (.list [.num 1]) ∧
    bandwidth I s (.text "Qp") = bandwidth I s (.list [.num 3]) ∧
    (∀ k : ℤ, 4 ≤ k ∨ k < -4 → bandwidth I s (.list [.num k]) = .error .indexError) ∧
    (∀ t : String, t ∉ ["alpha", "eps2", "eps4", "qp", "Qp"] → t.toInt? = none → bandwidth I s (.text t) = .error .valueError) := by
  refine ⟨rfl, rfl, rfl, fun k hk => ?_, fun t ht hi => ?_⟩
  · have hl : (bandwidths I s).length = 4 := rfl
    have : pyIndex (bandwidths I s) k = .error .indexError := by
      unfold pyIndex
      rw [hl]
      simp only []
      rcases hk with hk | hk
      · rw [if_neg (by omega : ¬ k < 0), if_pos (by omega : 0 ≤ k), List.getElem?_eq_none (by omega)]
      · rw [if_pos (by omega : k < 0), if_neg (by push_cast; omega)]
    have e : bandwidth I s (.list [.num k]) = (do let v ← pyIndex (bandwidths I s) k; return [v]) := by
      simp [bandwidth, factIndex]
      rfl
    rw [e, this]
    rfl
  · have : factIndex (.name t) = .error .valueError := by
      unfold factIndex
      split <;> simp_all
    simp only [bandwidth, this]
    rfl

end

end Wafo.SpecD

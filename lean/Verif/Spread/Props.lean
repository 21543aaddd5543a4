import Mathlib.Analysis.Real.Pi.Bounds
import Verif.Spread.Calls

/-!
Properties of the directional spreading functions: total energy, first Fourier coefficient, symmetry and direction.
-/

set_option linter.unusedSectionVars false

namespace Wafo.Spread

open Real MeasureTheory Set

/-- The equation of the distribution parameter for the first Fourier coefficient `S/(S+1)` has been solved (the class docstring, L1408-1415):
`sin(A)/A`, `I1(K)/I0(K)` and `pi/(2*B*sinh(pi/(2*B)))`.  For `sech-2` the spread parameter has to be positive. -/
def Solved (sol : Solvers) (t : SType) (S : ℝ) : Prop :=
  match t with
  | .cos2s => True
  | .poisson => True
  | .box => 0 < sol.a (S / (S + 1)) ∧ sol.a (S / (S + 1)) ≤ π ∧ sin (sol.a (S / (S + 1))) / sol.a (S / (S + 1)) = S / (S + 1)
  | .mises => S ≠ 0 → 0 ≤ sol.k (S / (S + 1)) ∧ besselI1 (sol.k (S / (S + 1))) / besselI0 (sol.k (S / (S + 1))) = S / (S + 1)
  | .sech2 => S ≠ 0 ∧ sol.b (S / (S + 1)) ≠ 0 ∧ π / (2 * sol.b (S / (S + 1)) * sinh (π / (2 * sol.b (S / (S + 1))))) = S / (S + 1)
  | .wrap => False

/-- `f` gives column `j` of the result whatever the angles are. -/
def Column (sol : Solvers) (d : Obj) (w : List ℝ) (wc : ℝ) (j : ℕ) (f : ℝ → ℝ) : Prop :=
  ∀ theta : List ℝ, ∃ D : List (List ℝ), call sol d theta w wc = .ok D ∧ D.length = theta.length ∧
    ∀ (i : ℕ) (th : ℝ), theta[i]? = some th → ∃ row : List ℝ, D[i]? = some row ∧ bcast row j = some (f th)

/-- The input of a call that is not rejected: `s` are the spread parameters, `t0` is the main direction and `S` the spread parameter of
frequency number `j`. -/
structure Good (d : Obj) (w : List ℝ) (wc : ℝ) (s : List ℝ) (j : ℕ) (S t0 : ℝ) : Prop where
  dirs : (d.theta0 (w.map (· / wc))).length = w.length ∨ (d.theta0 (w.map (· / wc))).length = 1
  par : spreadS d (w.map (· / wc)) = .ok s
  nonneg : ∀ x ∈ s, 0 ≤ x
  lt : j < w.length
  spread : bcast s j = some S
  dir : bcast (d.theta0 (w.map (· / wc))) j = some t0

theorem column {sol : Solvers} {d : Obj} {w : List ℝ} {wc : ℝ} {s : List ℝ} {j : ℕ} {S t0 : ℝ} {t : SType} (ht : typeOf d.type = .ok t) (hw : t ≠ .wrap)
    (h : Good d w wc s j S t0) : 0 ≤ S ∧ Column sol d w wc j fun th => density t (param sol t S) (wrapAngle (th - t0)) := by
  obtain ⟨S', t0', h1, h2, h3, h4⟩ := call_ok (sol := sol) ht hw h.dirs h.par h.nonneg h.lt
  have e1 : S' = S := by rw [h.spread] at h1; exact (Option.some.inj h1).symm
  have e2 : t0' = t0 := by rw [h.dir] at h2; exact (Option.some.inj h2).symm
  subst e1 e2
  exact ⟨h3, h4⟩

theorem param_pos {S : ℝ} (hS : S ≠ 0) (h0 : 0 ≤ S) : S / (S + 1) ≠ 0 := by
  have : S + 1 ≠ 0 := by linarith
  exact div_ne_zero hS this

theorem density_integral {sol : Solvers} {t : SType} {S : ℝ} (h0 : 0 ≤ S) (h : Solved sol t S) : ∫ x in (-π)..π, density t (param sol t S) x = 1 := by
  have hr := ratio_range h0
  cases t with
  | cos2s => exact cos2s_integral h0
  | poisson => exact poisson_integral hr.1 hr.2
  | box =>
    have := box_integral h.1 h.2.1 (fun _ => 1)
    simp only [mul_one, intervalIntegral.integral_const, smul_eq_mul] at this
    simp only [param]
    rw [this]
    have := h.1
    field_simp
    ring
  | mises =>
    by_cases hS : S = 0
    · subst hS
      simp only [param, zero_div, ne_eq, not_true_eq_false, if_false]
      exact mises_integral le_rfl
    · simp only [param, if_pos (param_pos hS h0)]
      exact mises_integral (h hS).1
  | sech2 =>
    simp only [param, if_pos (param_pos h.1 h0)]
    exact sech2_integral (abs_pos.2 h.2.1)
  | wrap => exact h.elim

theorem density_nonneg {sol : Solvers} {t : SType} {S : ℝ} (h0 : 0 ≤ S) (h : Solved sol t S) {x : ℝ} (hx : |x| ≤ π) : 0 ≤ density t (param sol t S) x := by
  have hr := ratio_range h0
  have hp := pi_pos
  cases t with
  | cos2s =>
    simp only [param]
    rw [cos2s_eq h0]
    have := abs_le.1 hx
    exact div_nonneg (rpow_nonneg (cos_nonneg_of_mem_Icc ⟨by linarith, by linarith⟩) _) (cosI_pos h0).le
  | poisson =>
    simp only [param, density]
    have := poisson_den hr.1 hr.2 x
    have h2 : 0 ≤ 1 - (S / (S + 1)) ^ 2 := by nlinarith [hr.1, hr.2]
    positivity
  | box =>
    have := h.1
    simp only [param, density]
    split_ifs <;> positivity
  | mises =>
    have : 0 < ive0 (param sol .mises S) := mul_pos (exp_pos _) (besselI0_pos _)
    simp only [density]
    positivity
  | sech2 =>
    simp only [param, if_pos (param_pos h.1 h0)]
    rw [sech2_eq (abs_pos.2 h.2.1)]
    have h1 : 0 < tanh (π * |sol.b (S / (S + 1))|) := by
      rw [tanh_eq_sinh_div_cosh]
      exact div_pos (sinh_pos_iff.2 (mul_pos hp (abs_pos.2 h.2.1))) (cosh_pos _)
    have := abs_nonneg (sol.b (S / (S + 1)))
    positivity
  | wrap => exact h.elim

theorem wrap_abs (x : ℝ) : |wrapAngle x| ≤ π := abs_le.2 ⟨(wrapAngle_range x).1, (wrapAngle_range x).2.le⟩

/-- **C155 (partial).** A call with non-negative spread parameters succeeds and, for every frequency, the spreading is a non-negative function of the angle
whose integral over a full turn is one.  Missing: `wrapped-normal`, and `sech-2` with spread parameter zero, where the claim fails. -/
theorem C155_density_partial {sol : Solvers} {d : Obj} {w : List ℝ} {wc : ℝ} {s : List ℝ} {j : ℕ} {S t0 : ℝ} {t : SType}
    (ht : typeOf d.type = .ok t) (h : Good d w wc s j S t0) (hsol : Solved sol t S) :
    ∃ f : ℝ → ℝ, Column sol d w wc j f ∧ (∀ th, 0 ≤ f th) ∧ ∫ th in (-π)..π, f th = 1 := by
  have hw : t ≠ .wrap := by rintro rfl; exact hsol
  obtain ⟨h0, hc⟩ := column (sol := sol) ht hw h
  exact ⟨_, hc, fun th => density_nonneg h0 hsol (wrap_abs _), by rw [integral_wrap]; exact density_integral h0 hsol⟩

/-- An object for examples: frequency dependent spreading with the default parameters. -/
noncomputable def default (type : String) (dir : ℝ) : Obj :=
  { type := type, theta0 := fun _ => [dir], method := .mitsuyasu, sa := 15, sb := 15, ma := 5, mb := -2.5, wnLo := 0, wnC := 1, wnUp := none }

theorem default_par (type : String) (dir : ℝ) : spreadS (default type dir) ([0, 1, 4].map (· / 1)) = .ok [0, 15, 15 * 4 ^ (-2.5 : ℝ)] := by
  simp [spreadS, default, mitsuyasu, initS]

theorem default_good (type : String) (dir : ℝ) : Good (default type dir) [0, 1, 4] 1 [0, 15, 15 * 4 ^ (-2.5 : ℝ)] 1 15 dir where
  dirs := Or.inr rfl
  par := default_par type dir
  nonneg := by
    intro x hx
    simp only [List.mem_cons, List.not_mem_nil, or_false] at hx
    obtain rfl | rfl | rfl := hx <;> positivity
  lt := by simp
  spread := rfl
  dir := rfl

example : ∃ (sol : Solvers) (d : Obj) (w : List ℝ) (s : List ℝ) (j : ℕ) (S t0 : ℝ) (t : SType), typeOf d.type = .ok t ∧ Good d w 1 s j S t0 ∧ Solved sol t S ∧ 0 < S :=
  ⟨⟨id, id, id⟩, default "poisson" 1, _, _, _, _, _, .poisson, by decide, default_good _ _, trivial, by norm_num⟩

/-- The equations of `box` and `mises` can be solved: for `A = pi/2` and for any concentration. -/
example : ∃ (sol : Solvers) (S : ℝ), 0 < S ∧ Solved sol .box S := by
  have h3 := pi_gt_three
  refine ⟨⟨fun _ => π / 2, id, id⟩, 2 / (π - 2), by apply div_pos <;> linarith, by positivity, by linarith, ?_⟩
  have h4 : π - 2 ≠ 0 := by linarith
  have h5 : π ≠ 0 := by linarith
  rw [sin_pi_div_two]
  field_simp
  ring

/-- **C155 (refuted).** `sech-2` with spread parameter zero, which the default parameters give at frequency zero, is zero in all directions instead of
the uniform spreading. -/
theorem C155_sech2_refuted (sol : Solvers) (dir : ℝ) :
    spreadS (default "sech2" dir) ([0, 1, 4].map (· / 1)) = .ok [0, 15, 15 * 4 ^ (-2.5 : ℝ)] ∧ Column sol (default "sech2" dir) [0, 1, 4] 1 0 fun _ => 0 := by
  refine ⟨default_par _ _, ?_⟩
  have hg : Good (default "sech2" dir) [0, 1, 4] 1 [0, 15, 15 * 4 ^ (-2.5 : ℝ)] 0 0 dir :=
    { default_good "sech2" dir with lt := by simp, spread := rfl, dir := rfl }
  have := (column (sol := sol) (t := .sech2) (show typeOf "sech2" = _ by decide) (by decide) hg).2
  have e : (fun th => density .sech2 (param sol .sech2 0) (wrapAngle (th - dir))) = fun _ => (0 : ℝ) := by
    funext th
    simp [param, density]
  rwa [e] at this

/-! ### First Fourier coefficient and direction -/

theorem density_even (t : SType) (p x : ℝ) : density t p (-x) = density t p x := by
  cases t <;> simp only [density, cos_neg, neg_div, mul_neg, sech, cosh_neg]
  have : (-p ≤ -x ∧ -x ≤ p) ↔ (-p ≤ x ∧ x ≤ p) := ⟨fun h => ⟨by linarith, by linarith⟩, fun h => ⟨by linarith, by linarith⟩⟩
  simp only [this]

theorem odd_integral (f : ℝ → ℝ) (he : ∀ t, f (-t) = -f t) : ∫ t in (-π)..π, f t = 0 := by
  have := intervalIntegral.integral_comp_neg (a := -π) (b := π) f
  rw [neg_neg] at this
  simp only [he, intervalIntegral.integral_neg] at this
  linarith

theorem sin_wrap (x : ℝ) : sin (wrapAngle x) = sin x := by
  obtain ⟨n, hn⟩ := wrapAngle_congr x
  rw [hn]
  exact Real.sin_add_int_mul_two_pi x n

/-- **C156.** The first sine coefficient about the main direction is zero: the energy is centred about `theta0`. -/
theorem C156_sine {sol : Solvers} {d : Obj} {w : List ℝ} {wc : ℝ} {s : List ℝ} {j : ℕ} {S t0 : ℝ} {t : SType}
    (ht : typeOf d.type = .ok t) (h : Good d w wc s j S t0) (hw : t ≠ .wrap) :
    ∃ f : ℝ → ℝ, Column sol d w wc j f ∧ ∫ th in (-π)..π, f th * sin (th - t0) = 0 := by
  refine ⟨_, (column (sol := sol) ht hw h).2, ?_⟩
  have := integral_wrap (fun x => density t (param sol t S) x * sin x) t0
  simp only [sin_wrap] at this
  rw [this]
  exact odd_integral _ fun t => by rw [density_even, sin_neg, mul_neg]

/-- **C156 (partial).** The first Fourier coefficient about the main direction is `S/(S+1)`, whichever of the functions is used.  Missing: `sech-2`,
whose equation is the one of the function on the whole line, and `wrapped-normal`. -/
theorem C156_first_partial {sol : Solvers} {d : Obj} {w : List ℝ} {wc : ℝ} {s : List ℝ} {j : ℕ} {S t0 : ℝ} {t : SType}
    (ht : typeOf d.type = .ok t) (h : Good d w wc s j S t0) (hsol : Solved sol t S) (hsech : t ≠ .sech2) :
    ∃ f : ℝ → ℝ, Column sol d w wc j f ∧ ∫ th in (-π)..π, f th * cos (th - t0) = S / (S + 1) := by
  have hw : t ≠ .wrap := by rintro rfl; exact hsol
  obtain ⟨h0, hc⟩ := column (sol := sol) ht hw h
  refine ⟨_, hc, ?_⟩
  have := integral_wrap (fun x => density t (param sol t S) x * cos x) t0
  simp only [cos_wrap] at this
  rw [this]
  have hr := ratio_range h0
  cases t with
  | cos2s => exact cos2s_first h0
  | poisson => exact poisson_first hr.1 hr.2
  | box =>
    simp only [param]
    rw [box_integral hsol.1 hsol.2.1, integral_cos, sin_neg]
    have h1 := hsol.1
    have h2 := hsol.2.2
    refine Eq.trans ?_ h2
    generalize sol.a (S / (S + 1)) = A at h1
    field_simp
    ring
  | mises =>
    by_cases hS : S = 0
    · subst hS
      simp only [param, zero_div, ne_eq, not_true_eq_false, if_false]
      rw [mises_first le_rfl]
      have : besselI1 0 = 0 := by simp [besselI1]
      rw [this, zero_div]
    · simp only [param, if_pos (param_pos hS h0)]
      rw [mises_first (hsol hS).1]
      exact (hsol hS).2
  | sech2 => exact absurd rfl hsech
  | wrap => exact hsol.elim

/-! ### Symmetry, maximum and periodicity -/

theorem wrapAngle_neg (x : ℝ) : wrapAngle (-x) = -wrapAngle x ∨ (wrapAngle (-x) = -π ∧ wrapAngle x = -π) := by
  have h1 := wrapAngle_range x
  obtain ⟨n, hn⟩ := wrapAngle_congr x
  have e : wrapAngle (-x) = wrapAngle (-wrapAngle x) := by
    rw [hn, show -(x + n * (2 * π)) = -x + (-n : ℤ) * (2 * π) by push_cast; ring, wrapAngle_add]
  rw [e]
  by_cases h : wrapAngle x = -π
  · right
    refine ⟨?_, h⟩
    rw [h, neg_neg]
    have : π = -π + (1 : ℤ) * (2 * π) := by push_cast; ring
    conv_lhs => rw [this]
    rw [wrapAngle_add, wrapAngle_id le_rfl (by linarith [pi_pos])]
  · left
    have : -π < wrapAngle x := lt_of_le_of_ne h1.1 (Ne.symm h)
    exact wrapAngle_id (by linarith) (by linarith)

theorem density_max {sol : Solvers} {t : SType} {S : ℝ} (h0 : 0 ≤ S) (h : Solved sol t S) {x : ℝ} (hx : |x| ≤ π) :
    density t (param sol t S) x ≤ density t (param sol t S) 0 := by
  have hr := ratio_range h0
  have hp := pi_pos
  cases t with
  | cos2s =>
    simp only [param]
    rw [cos2s_eq h0, cos2s_eq h0]
    have := abs_le.1 hx
    have h1 : 0 ≤ cos (x / 2) := cos_nonneg_of_mem_Icc ⟨by linarith, by linarith⟩
    refine div_le_div_of_nonneg_right ?_ (cosI_pos h0).le
    rw [zero_div, cos_zero, one_rpow]
    exact rpow_le_one h1 (cos_le_one _) (by positivity)
  | poisson =>
    simp only [param, density]
    have h1 := poisson_den hr.1 hr.2 x
    have h3 := poisson_den hr.1 hr.2 0
    have h2 : 0 ≤ 1 - (S / (S + 1)) ^ 2 := by nlinarith [hr.1, hr.2]
    refine div_le_div_of_nonneg_right (div_le_div_of_nonneg_left h2 h3 ?_) (by positivity)
    rw [cos_zero]
    nlinarith [cos_le_one x, hr.1]
  | box =>
    have := h.1
    have hA : 0 < param sol .box S := h.1
    generalize param sol .box S = A at hA
    simp only [density]
    rw [if_pos (by constructor <;> linarith : -A ≤ 0 ∧ 0 ≤ A)]
    refine div_le_div_of_nonneg_right ?_ (by positivity)
    split_ifs <;> norm_num
  | mises =>
    have hi : 0 < ive0 (param sol .mises S) := mul_pos (exp_pos _) (besselI0_pos _)
    have hk : 0 ≤ param sol .mises S := by
      by_cases hS : S = 0
      · simp [param, hS]
      · simp only [param, if_pos (param_pos hS h0)]
        exact (h hS).1
    simp only [density]
    refine div_le_div_of_nonneg_right (exp_le_exp.2 ?_) (by positivity)
    rw [cos_zero]
    nlinarith [cos_le_one x]
  | sech2 =>
    simp only [param, if_pos (param_pos h.1 h0)]
    rw [sech2_eq (abs_pos.2 h.2.1), sech2_eq (abs_pos.2 h.2.1)]
    have h1 : 0 < tanh (π * |sol.b (S / (S + 1))|) := by
      rw [tanh_eq_sinh_div_cosh]
      exact div_pos (sinh_pos_iff.2 (mul_pos hp (abs_pos.2 h.2.1))) (cosh_pos _)
    have := abs_nonneg (sol.b (S / (S + 1)))
    refine div_le_div_of_nonneg_right (mul_le_mul_of_nonneg_left ?_ (by positivity)) h1.le
    rw [mul_zero, cosh_zero]
    have := one_le_cosh (|sol.b (S / (S + 1))| * x)
    rw [div_le_div_iff₀ (by positivity) (by norm_num)]
    nlinarith
  | wrap => exact h.elim

/-- **C157.** The spreading is symmetric about the main direction, largest there, and periodic in the angle. -/
theorem C157_shape {sol : Solvers} {d : Obj} {w : List ℝ} {wc : ℝ} {s : List ℝ} {j : ℕ} {S t0 : ℝ} {t : SType}
    (ht : typeOf d.type = .ok t) (h : Good d w wc s j S t0) (hsol : Solved sol t S) :
    ∃ f : ℝ → ℝ, Column sol d w wc j f ∧ (∀ u, f (t0 + u) = f (t0 - u)) ∧ (∀ th, f th ≤ f t0) ∧ ∀ th (n : ℤ), f (th + n * (2 * π)) = f th := by
  have hw : t ≠ .wrap := by rintro rfl; exact hsol
  obtain ⟨h0, hc⟩ := column (sol := sol) ht hw h
  refine ⟨_, hc, fun u => ?_, fun th => ?_, fun th n => ?_⟩
  · simp only [add_sub_cancel_left, sub_sub_cancel_left]
    obtain e | ⟨e1, e2⟩ := wrapAngle_neg u
    · rw [e, density_even]
    · rw [e1, e2]
  · have : wrapAngle 0 = 0 := wrapAngle_id (by linarith [pi_pos]) pi_pos
    simp only [sub_self, this]
    exact density_max h0 hsol (wrap_abs _)
  · rw [show th + n * (2 * π) - t0 = th - t0 + n * (2 * π) by ring, wrapAngle_add]

/-- **C157.** Only the angle relative to the main direction matters: turning all angles and the main direction by the same amount gives the same result,
for all kinds of spreading functions, also when the call is rejected. -/
theorem C157_turn (sol : Solvers) (d : Obj) (theta w : List ℝ) (wc c : ℝ) :
    call sol { d with theta0 := fun wn => (d.theta0 wn).map (· + c) } (theta.map (· + c)) w wc = call sol d theta w wc := by
  have key : ∀ x t0 : ℝ, wrapAngle (wrapAngle (x + c) - (t0 + c)) = wrapAngle (wrapAngle x - t0) := by
    intro x t0
    rw [wrapAngle_wrap, wrapAngle_wrap]
    congr 1
    ring
  have hsp : ∀ t wn, spreadPar sol { d with theta0 := fun wn => (d.theta0 wn).map (· + c) } t wn = spreadPar sol d t wn := fun _ _ => rfl
  unfold call
  cases typeOf d.type with
  | error e => rfl
  | ok t =>
    simp only [List.length_map, hsp, List.map_map]
    by_cases h1 : (d.theta0 (w.map (· / wc))).length ≠ w.length ∧ (d.theta0 (w.map (· / wc))).length ≠ 1
    · rw [if_pos h1, if_pos h1]
    · rw [if_neg h1, if_neg h1]
      cases spreadPar sol d t (w.map (· / wc)) with
      | error e => rfl
      | ok pars =>
        simp only [bcast_map, ncols, List.length_map]
        by_cases hw : t = .wrap
        · simp only [if_pos hw]
          cases theta with
          | nil => rfl
          | cons x l =>
            simp only [List.map_cons, List.length_cons, Function.comp]
            refine congrArg _ (List.map_congr_left fun k _ => List.filterMap_congr fun j _ => ?_)
            cases bcast pars j <;> cases bcast (d.theta0 (w.map (· / wc))) j <;> simp [key]
        · simp only [if_neg hw]
          refine congrArg _ (List.map_congr_left fun x _ => List.filterMap_congr fun j _ => ?_)
          rcases bcast pars j with _ | _ | p <;> cases bcast (d.theta0 (w.map (· / wc))) j <;> simp [key]

/-- **C157.** Angles that differ by full turns give the same result. -/
theorem C157_periodic (sol : Solvers) (d : Obj) (theta w : List ℝ) (wc : ℝ) (n : ℝ → ℤ) :
    call sol d (theta.map fun x => x + n x * (2 * π)) w wc = call sol d theta w wc := by
  unfold call
  have : (theta.map fun x => x + n x * (2 * π)).map wrapAngle = theta.map wrapAngle := by
    rw [List.map_map]
    exact List.map_congr_left fun x _ => wrapAngle_add x (n x)
  simp only [this]

example : [1, 2 + 2 * π, 3 - 4 * π] = [1, 2, 3].map fun x : ℝ => x + ((if x = 1 then 0 else if x = 2 then 1 else -2 : ℤ) : ℝ) * (2 * π) := by
  norm_num
  ring_nf

end Wafo.Spread

import Mathlib.RingTheory.RootsOfUnity.Complex
import Verif.Spread.Options

/-!
Properties of `wrapped-normal` spreading and of `tospecdata2d`.
-/

set_option linter.unusedSectionVars false

namespace Wafo.Spread

open Real MeasureTheory Set

/-- The documented series of the wrapped normal spreading (L1367), with `nt - 1` harmonics; the first Fourier coefficient is `r`. -/
noncomputable def wrapSeries (r : ℝ) (nt : ℕ) (x : ℝ) : ℝ := (1 + 2 * ∑ n ∈ Finset.range (nt - 1), r ^ ((n + 1) ^ 2) * cos ((n + 1 : ℕ) * x)) / (2 * π)

theorem coef_eq {r : ℝ} (h0 : 0 ≤ r) (h1 : r < 1) (sol : Solvers) (n : ℕ) :
    (match distpar sol .wrap r with
      | none => 0
      | some q => exp (-(((n + 1 : ℕ) : ℝ) ^ 2) * (q ^ 2 / 2))) = r ^ ((n + 1) ^ 2) := by
  have hm : max (min r 1) 0 = r := by rw [min_eq_left h1.le, max_eq_left h0]
  simp only [distpar, hm]
  by_cases h : r ≤ 0
  · have : r = 0 := le_antisymm h h0
    subst this
    simp
  · have hr : 0 < r := not_le.1 h
    have hl : log r < 0 := log_neg hr h1
    rw [if_neg h]
    simp only
    rw [sq_sqrt (by linarith), ← rpow_natCast r, rpow_def_of_pos hr]
    congr 1
    push_cast
    ring

theorem wrapEntry_eq {r : ℝ} (h0 : 0 ≤ r) (h1 : r < 1) (sol : Solvers) {nt : ℕ} (hn : 0 < nt) (th0 : ℝ) (k : ℕ) :
    wrapEntry nt (distpar sol .wrap r) th0 k = max 0 (wrapSeries r nt (th0 + 2 * π * k / nt)) := by
  have key : (∑ n ∈ Finset.range nt, ((((if n = 0 then 1 / 2 else
      match distpar sol .wrap r with
      | none => 0
      | some q => exp (-((n : ℝ) ^ 2) * (q ^ 2 / 2))) / π : ℝ) : ℂ)) * (starRingEnd ℂ) (if n = 0 then 1 else Complex.exp (Complex.I * (n : ℂ) * (th0 : ℂ)))
      * Complex.exp (-(2 * (π : ℂ) * Complex.I * (n : ℂ) * (k : ℂ) / (nt : ℂ)))).re = wrapSeries r nt (th0 + 2 * π * k / nt) := by
    obtain ⟨m, rfl⟩ : ∃ m, nt = m + 1 := ⟨nt - 1, by omega⟩
    have hp := pi_pos
    rw [Finset.sum_range_succ', Complex.add_re, Complex.re_sum]
    have e0 : ∀ n : ℕ, ((((if n + 1 = 0 then 1 / 2 else
        match distpar sol .wrap r with
        | none => 0
        | some q => exp (-(((n + 1 : ℕ) : ℝ) ^ 2) * (q ^ 2 / 2))) / π : ℝ) : ℂ) * (starRingEnd ℂ) (if n + 1 = 0 then 1 else Complex.exp (Complex.I * ((n + 1 : ℕ) : ℂ) * (th0 : ℂ)))
        * Complex.exp (-(2 * (π : ℂ) * Complex.I * ((n + 1 : ℕ) : ℂ) * (k : ℂ) / ((m + 1 : ℕ) : ℂ)))).re =
        r ^ ((n + 1) ^ 2) * cos ((n + 1 : ℕ) * (th0 + 2 * π * k / (m + 1 : ℕ))) / π := by
      intro n
      rw [if_neg (Nat.succ_ne_zero n), if_neg (Nat.succ_ne_zero n), coef_eq h0 h1, ← Complex.exp_conj, mul_assoc, ← Complex.exp_add]
      have : (starRingEnd ℂ) (Complex.I * ((n + 1 : ℕ) : ℂ) * (th0 : ℂ)) + -(2 * (π : ℂ) * Complex.I * ((n + 1 : ℕ) : ℂ) * (k : ℂ) / ((m + 1 : ℕ) : ℂ)) =
          ((-((n + 1 : ℕ) * (th0 + 2 * π * k / (m + 1 : ℕ))) : ℝ) : ℂ) * Complex.I := by
        rw [map_mul, map_mul, Complex.conj_I, Complex.conj_ofReal, map_natCast]
        push_cast
        ring
      rw [this, Complex.re_ofReal_mul, Complex.exp_ofReal_mul_I_re, cos_neg]
      ring
    rw [Finset.sum_congr rfl fun n _ => e0 n]
    unfold wrapSeries
    rw [Nat.add_sub_cancel, ← Finset.sum_div]
    simp only [if_true, Nat.cast_zero, mul_zero, zero_mul, zero_div, neg_zero, Complex.exp_zero, mul_one, map_one, Complex.ofReal_re]
    generalize (∑ n ∈ Finset.range m, r ^ ((n + 1) ^ 2) * cos ((n + 1 : ℕ) * (th0 + 2 * π * k / (m + 1 : ℕ)))) = X
    field_simp
    ring
  unfold wrapEntry
  simp only
  rw [← key]
  split_ifs with h
  · exact (max_eq_left h.le).symm
  · exact (max_eq_right (not_lt.1 h)).symm

theorem wrapSeries_wrap (r : ℝ) (nt : ℕ) (x y : ℝ) : wrapSeries r nt (wrapAngle x + y) = wrapSeries r nt (x + y) := by
  obtain ⟨m, hm⟩ := wrapAngle_congr x
  unfold wrapSeries
  congr 3
  refine Finset.sum_congr rfl fun n _ => ?_
  rw [hm, show ((n + 1 : ℕ) : ℝ) * (x + m * (2 * π) + y) = ((n + 1 : ℕ) : ℝ) * (x + y) + ((((n + 1 : ℕ) : ℤ) * m : ℤ) : ℝ) * (2 * π) by push_cast; ring,
    Real.cos_add_int_mul_two_pi]

/-- **C160 (partial).** The entries of the wrapped normal spreading: the documented series, with as many terms as there are angles and negative values replaced by zero, at
angles with spacing `2*pi/Nt` starting from the first angle given.  The other angles given are not looked at. -/
theorem C160_entries {sol : Solvers} {d : Obj} {w : List ℝ} {wc : ℝ} {s : List ℝ} {j : ℕ} {S t0 : ℝ} (ht : typeOf d.type = .ok .wrap)
    (h : Good d w wc s j S t0) (x : ℝ) (l : List ℝ) :
    ∃ D : List (List ℝ), call sol d (x :: l) w wc = .ok D ∧ D.length = l.length + 1 ∧ ∀ i < l.length + 1, ∃ row : List ℝ, D[i]? = some row ∧
      bcast row j = some (max 0 (wrapSeries (S / (S + 1)) (l.length + 1) (x - t0 + 2 * π * i / (l.length + 1 : ℕ)))) := by
  have hl := spreadS_length h.par
  rw [List.length_map] at hl
  have h1 : ¬ (s.any (fun x => decide (x < 0)) = true) := by
    simp only [List.any_eq_true, decide_eq_true_eq, not_exists, not_and, not_lt]
    exact h.nonneg
  have hsp : spreadPar sol d .wrap (w.map (· / wc)) = .ok (s.map fun S => distpar sol .wrap (S / (S + 1))) := by
    unfold spreadPar
    rw [h.par]
    simp only [if_neg h1, reduceCtorEq, if_false, false_and, List.map_map]
    refine congrArg _ (List.map_congr_left fun y hy => ?_)
    simp only [Function.comp, abs_of_nonneg (ratio_range (h.nonneg y hy)).1]
  have hd' : ¬ ((d.theta0 (w.map (· / wc))).length ≠ (w.map (· / wc)).length ∧ (d.theta0 (w.map (· / wc))).length ≠ 1) := by
    rw [List.length_map]; have := h.dirs; tauto
  have hr := ratio_range (h.nonneg S (bcast_mem h.spread))
  unfold call
  rw [ht]
  simp only [if_neg hd', hsp, if_true, List.map_cons, List.length_cons]
  refine ⟨_, rfl, by simp, fun i hi => ?_⟩
  simp only [List.length_map]
  rw [List.getElem?_map, List.getElem?_range hi]
  refine ⟨_, rfl, ?_⟩
  have := row_entry (pars := s.map fun S => distpar sol .wrap (S / (S + 1))) (n := w.length) (j := j)
    (F := fun p t0 => wrapEntry (l.length + 1) p (wrapAngle (wrapAngle x - t0)) i) (by simpa using hl) h.dirs h.lt (by rw [bcast_map, h.spread]; rfl) h.dir
  refine Eq.trans (congrArg (bcast · j) (List.filterMap_congr fun k _ => ?_)) (this.trans ?_)
  · cases bcast (s.map fun S => distpar sol .wrap (S / (S + 1))) k <;> cases bcast (d.theta0 (w.map (· / wc))) k <;> rfl
  beta_reduce
  rw [wrapEntry_eq hr.1 hr.2 sol (Nat.succ_pos _), wrapAngle_wrap, wrapSeries_wrap]

/-- **C160.** For equally spaced angles without the end point the entries are the documented series at the angles given. -/
theorem C160_grid {sol : Solvers} {d : Obj} {w : List ℝ} {wc : ℝ} {s : List ℝ} {j : ℕ} {S t0 : ℝ} (ht : typeOf d.type = .ok .wrap)
    (h : Good d w wc s j S t0) (a : ℝ) (nt : ℕ) (hn : 0 < nt) :
    ∃ D : List (List ℝ), call sol d ((List.range nt).map fun i : ℕ => a + 2 * π * (i : ℝ) / (nt : ℝ)) w wc = .ok D ∧ D.length = nt ∧ ∀ i < nt, ∃ row : List ℝ, D[i]? = some row ∧
      bcast row j = some (max 0 (wrapSeries (S / (S + 1)) nt (a + 2 * π * (i : ℝ) / (nt : ℝ) - t0))) := by
  obtain ⟨m, rfl⟩ : ∃ m, nt = m + 1 := ⟨nt - 1, by omega⟩
  rw [List.range_succ_eq_map, List.map_cons, List.map_map]
  obtain ⟨D, h1, h2, h3⟩ := C160_entries (sol := sol) ht h (a + 2 * π * ((0 : ℕ) : ℝ) / ((m + 1 : ℕ) : ℝ))
    ((List.range m).map ((fun i : ℕ => a + 2 * π * (i : ℝ) / ((m + 1 : ℕ) : ℝ)) ∘ Nat.succ))
  rw [List.length_map, List.length_range] at h2 h3
  refine ⟨D, h1, h2, fun i hi => ?_⟩
  obtain ⟨row, e1, e2⟩ := h3 i hi
  refine ⟨row, e1, ?_⟩
  rw [e2]
  congr 3
  simp
  ring

theorem cos_turn_sum {nt : ℕ} (hn : 0 < nt) {m : ℕ} (hm : 0 < m) (hmn : m < nt) (x : ℝ) :
    ∑ i ∈ Finset.range nt, cos ((m : ℝ) * (x + 2 * π * (i : ℝ) / (nt : ℝ))) = 0 := by
  set z : ℂ := Complex.exp (2 * π * Complex.I * (m / nt)) with hz
  have hz1 : z ^ nt = 1 := by
    rw [hz, ← Complex.exp_nat_mul]
    have : (nt : ℂ) ≠ 0 := by exact_mod_cast hn.ne'
    rw [show (nt : ℂ) * (2 * π * Complex.I * (m / nt)) = (m : ℂ) * (2 * π * Complex.I) by field_simp]
    exact Complex.exp_nat_mul_two_pi_mul_I m
  have hne : z ≠ 1 := by
    rw [hz, ne_eq, Complex.exp_eq_one_iff]
    rintro ⟨k, hk⟩
    have hpi : (2 * π * Complex.I : ℂ) ≠ 0 := Complex.two_pi_I_ne_zero
    have h2 : (m : ℂ) / nt = k := mul_left_cancel₀ hpi (by rw [hk]; ring)
    have hnt : (nt : ℂ) ≠ 0 := by exact_mod_cast hn.ne'
    rw [div_eq_iff hnt] at h2
    have h3 : (m : ℤ) = k * nt := by exact_mod_cast h2
    have h4 : (0 : ℤ) < k := by
      by_contra hk0
      have : k * (nt : ℤ) ≤ 0 := mul_nonpos_of_nonpos_of_nonneg (by omega) (by positivity)
      omega
    nlinarith [(by exact_mod_cast hmn : (m : ℤ) < nt)]
  have hs : ∑ i ∈ Finset.range nt, z ^ i = 0 := by
    have := geom_sum_mul z nt
    rw [hz1, sub_self] at this
    exact (mul_eq_zero.1 this).resolve_right (sub_ne_zero.2 hne)
  have e : ∀ i : ℕ, cos ((m : ℝ) * (x + 2 * π * (i : ℝ) / (nt : ℝ))) = (Complex.exp (m * x * Complex.I) * z ^ i).re := by
    intro i
    rw [hz, ← Complex.exp_nat_mul, ← Complex.exp_add, ← Complex.exp_ofReal_mul_I_re]
    congr 2
    push_cast
    ring
  simp only [e]
  rw [← Complex.re_sum, ← Finset.mul_sum, hs, mul_zero, Complex.zero_re]

/-- **C160.** On such angles the values before the clipping add up to one, `sum(D)*2*pi/Nt = 1`, so the values returned add up to at least one, and to exactly one
when nothing was clipped. -/
theorem C160_total (r : ℝ) (nt : ℕ) (hn : 0 < nt) (a : ℝ) :
    (∑ i ∈ Finset.range nt, wrapSeries r nt (a + 2 * π * (i : ℝ) / (nt : ℝ))) * (2 * π / nt) = 1 ∧
    1 ≤ (∑ i ∈ Finset.range nt, max 0 (wrapSeries r nt (a + 2 * π * (i : ℝ) / (nt : ℝ)))) * (2 * π / nt) := by
  have hp := pi_pos
  have hnt : (0 : ℝ) < nt := by exact_mod_cast hn
  have h1 : (∑ i ∈ Finset.range nt, wrapSeries r nt (a + 2 * π * (i : ℝ) / (nt : ℝ))) * (2 * π / nt) = 1 := by
    unfold wrapSeries
    rw [← Finset.sum_div, Finset.sum_add_distrib, ← Finset.mul_sum, Finset.sum_comm]
    have : ∀ n ∈ Finset.range (nt - 1), ∑ i ∈ Finset.range nt, r ^ ((n + 1) ^ 2) * cos ((n + 1 : ℕ) * (a + 2 * π * (i : ℝ) / (nt : ℝ))) = 0 := by
      intro n hn'
      rw [Finset.mem_range] at hn'
      rw [← Finset.mul_sum, cos_turn_sum hn (Nat.succ_pos n) (by omega), mul_zero]
    rw [Finset.sum_congr rfl this]
    simp
    field_simp
  refine ⟨h1, ?_⟩
  rw [← h1]
  exact mul_le_mul_of_nonneg_right (Finset.sum_le_sum fun i _ => le_max_right _ _) (by positivity)

/-- **C160 (refuted).** For the angles `-pi, 0, pi` (equally spaced with the end point, as `tospecdata2d` makes them) the first and the last angle are the same
direction but get different values, for every positive spread parameter; the largest value is not at the main direction. -/
theorem C160_endpoint_refuted {sol : Solvers} {d : Obj} {w : List ℝ} {wc : ℝ} {s : List ℝ} {j : ℕ} {S : ℝ} (ht : typeOf d.type = .ok .wrap)
    (h : Good d w wc s j S 0) (hS : 0 < S) :
    ∃ (r0 r1 r2 : List ℝ) (v0 v1 v2 : ℝ), call sol d [-π, 0, π] w wc = .ok [r0, r1, r2] ∧ bcast r0 j = some v0 ∧ bcast r1 j = some v1 ∧ bcast r2 j = some v2 ∧
      v0 ≠ v2 ∧ v1 = v2 := by
  obtain ⟨D, h1, h2, h3⟩ := C160_entries (sol := sol) ht h (-π) [0, π]
  simp only [List.length_cons, List.length_nil, zero_add, Nat.reduceAdd] at h2 h3
  obtain ⟨r0, a0, b0⟩ := h3 0 (by norm_num)
  obtain ⟨r1, a1, b1⟩ := h3 1 (by norm_num)
  obtain ⟨r2, a2, b2⟩ := h3 2 (by norm_num)
  have hD : D = [r0, r1, r2] := by
    match D, h2 with
    | [x, y, z], _ => simp_all
  subst hD
  have hr := ratio_range hS.le
  have hr0 : 0 < S / (S + 1) := by positivity
  generalize S / (S + 1) = r at *
  have hp := pi_pos
  have c1 : cos (-π - 0 + 2 * π * (0 : ℕ) / (3 : ℕ)) = -1 := by simp
  have s0 : wrapSeries r 3 (-π - 0 + 2 * π * (0 : ℕ) / (3 : ℕ)) = (1 + 2 * (-r + r ^ 4)) / (2 * π) := by
    unfold wrapSeries
    have e2 : cos ((1 + 1) * π) = 1 := by rw [one_add_one_eq_two]; exact cos_two_pi
    simp [Finset.sum_range_succ, e2]
  have s1 : wrapSeries r 3 (-π - 0 + 2 * π * (1 : ℕ) / (3 : ℕ)) = (1 + (r - r ^ 4)) / (2 * π) := by
    unfold wrapSeries
    have e1 : cos (-π - 0 + 2 * π * (1 : ℕ) / (3 : ℕ)) = 1 / 2 := by
      rw [← cos_pi_div_three, ← cos_neg]; congr 1; push_cast; ring
    have e2 : cos (2 * (-π - 0 + 2 * π * (1 : ℕ) / (3 : ℕ))) = -(1 / 2) := by rw [cos_two_mul, e1]; norm_num
    simp only [Finset.sum_range_succ, Finset.sum_range_zero, Nat.reduceSub]
    norm_num at e1 e2 ⊢
    rw [e1, e2]
    ring
  have s2 : wrapSeries r 3 (-π - 0 + 2 * π * (2 : ℕ) / (3 : ℕ)) = (1 + (r - r ^ 4)) / (2 * π) := by
    unfold wrapSeries
    have e1 : cos (-π - 0 + 2 * π * (2 : ℕ) / (3 : ℕ)) = 1 / 2 := by
      rw [← cos_pi_div_three]; congr 1; push_cast; ring
    have e2 : cos (2 * (-π - 0 + 2 * π * (2 : ℕ) / (3 : ℕ))) = -(1 / 2) := by rw [cos_two_mul, e1]; norm_num
    simp only [Finset.sum_range_succ, Finset.sum_range_zero, Nat.reduceSub]
    norm_num at e1 e2 ⊢
    rw [e1, e2]
    ring
  refine ⟨r0, r1, r2, _, _, _, h1, b0, b1, b2, ?_, ?_⟩
  · rw [s0, s2]
    have h4 : r ^ 4 < r := by
      have : r ^ 4 < r ^ 1 := pow_lt_pow_right_of_lt_one₀ hr0 hr.2 (by norm_num)
      simpa using this
    have hpos : 0 < (1 + (r - r ^ 4)) / (2 * π) := by
      apply div_pos <;> linarith
    rw [max_eq_right hpos.le]
    refine ne_of_lt (max_lt hpos ?_)
    exact div_lt_div_of_pos_right (by linarith) (by linarith)
  · rw [s1, s2]

example : ∃ d : Obj, typeOf d.type = .ok .wrap ∧ Good d [0, 1, 4] 1 [0, 15, 15 * 4 ^ (-2.5 : ℝ)] 1 15 0 :=
  ⟨default "wrapped-normal" 0, by change typeOf "wrapped-normal" = _; decide, default_good _ _⟩

/-- **C160.** No angles: IndexError. -/
theorem C160_empty {sol : Solvers} {d : Obj} {w : List ℝ} {wc : ℝ} {s : List ℝ} {j : ℕ} {S t0 : ℝ} (ht : typeOf d.type = .ok .wrap)
    (h : Good d w wc s j S t0) : call sol d [] w wc = .error (.py .indexError) := by
  have h1 : ¬ (s.any (fun x => decide (x < 0)) = true) := by
    simp only [List.any_eq_true, decide_eq_true_eq, not_exists, not_and, not_lt]
    exact h.nonneg
  have hd' : ¬ ((d.theta0 (w.map (· / wc))).length ≠ (w.map (· / wc)).length ∧ (d.theta0 (w.map (· / wc))).length ≠ 1) := by
    rw [List.length_map]; have := h.dirs; tauto
  unfold call spreadPar
  rw [ht]
  simp only [if_neg hd', h.par, if_neg h1, reduceCtorEq, if_false, false_and, if_true, List.map_nil]

/-! ### `tospecdata2d` -/

/-- **C161.** Integrated over all directions the directional spectrum is the frequency spectrum: the entries are the values of a function of the angle, the same
whatever angles covering a full turn are used, with integral `S(w)`. -/
theorem C161_spectrum {sol : Solvers} {eps : ℝ} {d : Obj} {w spec : List ℝ} {wc : ℝ} {s : List ℝ} {j : ℕ} {S t0 : ℝ} {t : SType}
    (he : 0 ≤ eps) (ht : typeOf d.type = .ok t) (h : Good d w wc s j S t0) (hsol : Solved sol t S) (hl : spec.length = w.length) (v : ℝ) (hv : spec[j]? = some v) :
    ∃ g : ℝ → ℝ, ∫ th in (-π)..π, g th = v ∧
      ∀ (theta : List ℝ) (a b : ℝ), theta.head? = some a → theta.getLast? = some b → |b - a| = 2 * π →
        ∃ SD : List (List ℝ), specdata2d sol eps d theta w spec wc = .ok SD ∧ SD.length = theta.length ∧
          ∀ (i : ℕ) (th : ℝ), theta[i]? = some th → ∃ row : List ℝ, SD[i]? = some row ∧ row.length = spec.length ∧ row[j]? = some (g th) := by
  have hw : t ≠ .wrap := by rintro rfl; exact hsol
  obtain ⟨f, hf, -, hi⟩ := C155_density_partial ht h hsol
  refine ⟨fun th => f th * v, by rw [intervalIntegral.integral_mul_const, hi, one_mul], fun theta a b ha hb hab => ?_⟩
  obtain ⟨D, h1, h2, h3⟩ := hf theta
  have hc : checkTheta eps theta = .ok () := by
    unfold checkTheta
    rw [ha, hb]
    simp only
    rw [if_neg]
    rw [hab, sub_self, abs_zero]
    exact not_lt.2 he
  unfold specdata2d
  simp only [hc, h1]
  refine ⟨_, rfl, by simp [h2], fun i th hi => ?_⟩
  obtain ⟨row, e1, e2⟩ := h3 i th hi
  have hrow : ∀ k < w.length, ∃ x, bcast row k = some x := by
    intro k hk
    have hls := spreadS_length h.par
    rw [List.length_map] at hls
    obtain ⟨S', hS'⟩ := bcast_some hls hk
    obtain ⟨t0', ht0'⟩ := bcast_some h.dirs.symm hk
    obtain ⟨D', g1, -, g3⟩ := (column (sol := sol) ht hw { h with lt := hk, spread := hS', dir := ht0' }).2 theta
    rw [h1] at g1
    cases g1
    obtain ⟨row', r1, r2⟩ := g3 i th hi
    rw [e1] at r1
    cases r1
    exact ⟨_, r2⟩
  have hfm := filterMap_range (fun k => match bcast row k, spec[k]? with
      | some x, some s => some (x * s)
      | _, _ => none) (fun k => (bcast row k).getD 0 * (spec[k]?).getD 0) spec.length (by
    intro k hk
    obtain ⟨x, hx⟩ := hrow k (by omega)
    rw [hx, List.getElem?_eq_getElem hk]
    rfl)
  rw [List.getElem?_map, e1]
  refine ⟨_, rfl, (congrArg List.length hfm).trans (by simp), (congrArg (·[j]?) hfm).trans ?_⟩
  rw [List.getElem?_map, List.getElem?_range (by rw [hl]; exact h.lt)]
  simp [e2, hv]

/-- **C161.** Angles that do not cover a full turn are rejected with ValueError, no angles with IndexError. -/
theorem C161_theta (sol : Solvers) (eps : ℝ) (d : Obj) (w spec : List ℝ) (wc : ℝ) :
    (∀ (theta : List ℝ) (a b : ℝ), theta.head? = some a → theta.getLast? = some b → eps < |(|b - a|) - 2 * π| →
      specdata2d sol eps d theta w spec wc = .error (.py .valueError)) ∧
    specdata2d sol eps d [] w spec wc = .error (.py .indexError) := by
  refine ⟨fun theta a b ha hb h => ?_, rfl⟩
  unfold specdata2d checkTheta
  rw [ha, hb]
  simp only [if_pos h]

/-- **C161.** `_r1ofsech2` is `pi/(2*B*sinh(pi/(2*B)))` in both of its branches. -/
theorem C161_r1 (B : ℝ) (hB : 0 < B) : r1ofsech2 B = π / (2 * B * sinh (π / (2 * B))) := by
  have hp := pi_pos
  have hs : 0 < sinh (π / (2 * B)) := sinh_pos_iff.2 (by positivity)
  unfold r1ofsech2
  simp only
  split_ifs
  · rw [div_div]
  · have e : exp (π / (2 * B)) * (exp (-2 * (π / (2 * B))) - 1) = -2 * sinh (π / (2 * B)) := by
      rw [sinh_eq, mul_sub, ← exp_add]
      ring_nf
    rw [e, mul_div_mul_left _ _ (by norm_num : (-2 : ℝ) ≠ 0), div_div]

end Wafo.Spread

import Mathlib.Tactic.LinearCombination
import Verif.Spread.Props

/-!
Properties of the options of `Spreading`: the spread parameter, the names, rejected input, `wrapped-normal` and `tospecdata2d`.
-/

set_option linter.unusedSectionVars false

namespace Wafo.Spread

open Real MeasureTheory Set

/-! ### The spread parameter -/

/-- The spread parameter of the class docstring (L1372-1376). -/
noncomputable def docS (sa ma sb mb lo c : ℝ) (up : Option ℝ) (wn : ℝ) : ℝ :=
  if lo ≤ wn ∧ wn < c then sa * wn ^ ma
  else if c ≤ wn ∧ (∀ u, up = some u → wn < u) then sb * wn ^ mb
  else 0

/-- **C158 (partial).** Away from the three limits the spread parameters are the documented ones.  At the limits they are not, see below. -/
theorem C158_parameter_partial (d : Obj) (wn : List ℝ) (hm : d.method = .mitsuyasu) (h1 : d.wnLo ≤ d.wnC) (h2 : ∀ u, d.wnUp = some u → d.wnC ≤ u)
    (hlim : ∀ x ∈ wn, x ≠ d.wnLo ∧ x ≠ d.wnC ∧ d.wnUp ≠ some x) :
    spreadS d wn = .ok (wn.map (docS d.sa d.ma d.sb d.mb d.wnLo d.wnC d.wnUp)) := by
  unfold spreadS
  rw [hm]
  refine congrArg _ (List.map_congr_left fun x hx => ?_)
  obtain ⟨n1, n2, n3⟩ := hlim x hx
  have base : initS d x = if x ≤ d.wnLo then 0 else if x < d.wnC then d.sa * x ^ d.ma else d.sb * x ^ d.mb := by
    unfold initS
    have : x ≤ d.wnC ↔ x < d.wnC := ⟨fun h => lt_of_le_of_ne h n2, le_of_lt⟩
    simp only [this]
  unfold mitsuyasu docS
  rw [base]
  have hlo : x ≤ d.wnLo ↔ ¬ d.wnLo ≤ x := ⟨fun h => not_le.2 (lt_of_le_of_ne h n1), fun h => (not_le.1 h).le⟩
  cases hu : d.wnUp with
  | none =>
    simp only [reduceCtorEq, IsEmpty.forall_iff, implies_true, and_true]
    by_cases a : d.wnLo ≤ x
    · rw [if_neg (by rw [hlo]; exact not_not.2 a)]
      by_cases b : x < d.wnC
      · rw [if_pos b, if_pos ⟨a, b⟩]
      · rw [if_neg b, if_neg (fun h => b h.2), if_pos (not_lt.1 b)]
    · rw [if_pos (hlo.2 a), if_neg (fun h => a h.1), if_neg (fun h => a (h1.trans h))]
  | some u =>
    simp only [Option.some.injEq, forall_eq']
    have hu2 := h2 u hu
    have hne : x ≠ u := by rintro rfl; exact n3 hu
    grind

example : ∃ d : Obj, d.method = .mitsuyasu ∧ d.wnLo < d.wnC ∧ ∀ x ∈ [(0.5 : ℝ), 3], x ≠ d.wnLo ∧ x ≠ d.wnC ∧ d.wnUp ≠ some x :=
  ⟨default "c" 0, rfl, by norm_num [default], by simp [default]; norm_num⟩

/-- **C158.** With the default limits 0, 1, infinity, a positive exponent below and equal maximum values the documented parameters result for all frequencies. -/
theorem C158_default (d : Obj) (wn : List ℝ) (hm : d.method = .mitsuyasu) (h0 : d.wnLo = 0) (h1 : d.wnC = 1) (h2 : d.wnUp = none) (hs : d.sa = d.sb) (ha : 0 < d.ma)
    (hw : ∀ x ∈ wn, 0 ≤ x) : spreadS d wn = .ok (wn.map (docS d.sa d.ma d.sb d.mb d.wnLo d.wnC d.wnUp)) := by
  unfold spreadS
  rw [hm]
  refine congrArg _ (List.map_congr_left fun x hx => ?_)
  have hx0 := hw x hx
  unfold mitsuyasu docS initS
  rw [h0, h1, h2]
  simp only [reduceCtorEq, IsEmpty.forall_iff, implies_true, and_true]
  by_cases a : x ≤ 0
  · have : x = 0 := le_antisymm a hx0
    subst this
    rw [if_pos le_rfl, if_pos ⟨le_rfl, one_pos⟩, zero_rpow ha.ne', mul_zero]
  · rw [if_neg a]
    obtain b | b | b := lt_trichotomy x 1
    · rw [if_pos b.le, if_pos ⟨hx0, b⟩]
    · subst b
      rw [if_pos le_rfl, if_neg (by simp), if_pos le_rfl, hs, one_rpow, one_rpow]
    · rw [if_neg (by linarith), if_neg (by intro h; linarith [h.2]), if_pos b.le]

/-- **C158 (refuted).** At the lower limit, at the cut-over and at the upper limit the parameter differs from the documented one. -/
theorem C158_limits_refuted : ∃ d : Obj, d.method = .mitsuyasu ∧ 0 < d.wnLo ∧ d.wnLo < d.wnC ∧ d.wnUp = some 4 ∧ d.wnC < 4 ∧
    spreadS d [d.wnLo, d.wnC, 4] = .ok [0, 10, 20] ∧
    [d.wnLo, d.wnC, 4].map (docS d.sa d.ma d.sb d.mb d.wnLo d.wnC d.wnUp) = [10, 20, 0] := by
  refine ⟨{ type := "c", theta0 := fun _ => [0], method := .mitsuyasu, sa := 10, sb := 20, ma := 0, mb := 0, wnLo := 1, wnC := 2, wnUp := some 4 }, rfl, ?_, ?_, rfl, ?_, ?_, ?_⟩
  · norm_num
  · norm_num
  · norm_num
  · simp [spreadS, mitsuyasu, initS]
    norm_num
  · simp [docS]
    norm_num

/-- **C158.** A negative spread parameter is rejected with a ValueError. -/
theorem C158_negative (sol : Solvers) (d : Obj) (theta w : List ℝ) (wc : ℝ) (t : SType) (s : List ℝ) (ht : typeOf d.type = .ok t)
    (hs : spreadS d (w.map (· / wc)) = .ok s) (x : ℝ) (hx : x ∈ s) (h0 : x < 0) : call sol d theta w wc = .error (.py .valueError) := by
  have hp : spreadPar sol d t (w.map (· / wc)) = .error (.py .valueError) := by
    unfold spreadPar
    rw [hs]
    have : s.any (fun x => decide (x < 0)) = true := List.any_eq_true.2 ⟨x, hx, decide_eq_true h0⟩
    simp only [if_pos this]
  unfold call
  rw [ht]
  simp only [hp]
  split_ifs <;> rfl

example : ∃ (d : Obj) (s : List ℝ) (x : ℝ), spreadS d ([1].map (· / 1)) = .ok s ∧ x ∈ s ∧ x < 0 :=
  ⟨{ default "c" 0 with method := .independent, sa := -1 }, [-1], -1, rfl, by simp, by norm_num⟩

/-- **C158.** Main directions must be one or as many as there are frequencies; otherwise ValueError. -/
theorem C158_directions (sol : Solvers) (d : Obj) (theta w : List ℝ) (wc : ℝ) (t : SType) (ht : typeOf d.type = .ok t)
    (hl : (d.theta0 (w.map (· / wc))).length ≠ w.length) (h1 : (d.theta0 (w.map (· / wc))).length ≠ 1) : call sol d theta w wc = .error (.py .valueError) := by
  unfold call
  rw [ht]
  have : (d.theta0 (w.map (· / wc))).length ≠ (w.map (· / wc)).length ∧ (d.theta0 (w.map (· / wc))).length ≠ 1 := ⟨by rwa [List.length_map], h1⟩
  simp only [if_pos this]

example : ∃ d : Obj, typeOf d.type = .ok .cos2s ∧ (d.theta0 ([1, 2, 3].map (· / 1))).length = 2 :=
  ⟨{ default "cos2s" 0 with theta0 := fun _ => [0, 1] }, by change typeOf "cos2s" = _; decide, rfl⟩

/-! ### Names -/

/-- **C159.** The first letter, in lower case, decides: the rest of the name is ignored. -/
theorem C159_first (c : Char) (s : List Char) (k : SType) :
    typeOf (String.ofList (c :: s)) = .ok k ↔ (c = 'c' ∧ k = .cos2s) ∨ (c = 'b' ∧ k = .box) ∨ ((c = 'm' ∨ c = 'v') ∧ k = .mises) ∨ (c = 'p' ∧ k = .poisson) ∨
      (c = 's' ∧ k = .sech2) ∨ (c = 'w' ∧ k = .wrap) := by
  unfold typeOf
  rw [String.toList_ofList]
  simp only
  by_cases h1 : c = 'c'
  · subst h1; simp [eq_comm]
  by_cases h2 : c = 'b'
  · subst h2; simp [eq_comm]
  by_cases h3 : c = 'm'
  · subst h3; simp [eq_comm]
  by_cases h4 : c = 'v'
  · subst h4; simp [eq_comm]
  by_cases h5 : c = 'p'
  · subst h5; simp [eq_comm]
  by_cases h6 : c = 's'
  · subst h6; simp [eq_comm]
  by_cases h7 : c = 'w'
  · subst h7; simp [eq_comm]
  simp [h1, h2, h3, h4, h5, h6, h7]

/-- **C159 (refuted).** Two of the six documented names, `Box-car` and `Poisson`, are rejected with KeyError whatever the rest of the input is; the others are
accepted. -/
theorem C159_documented_refuted (sol : Solvers) (d : Obj) (theta w : List ℝ) (wc : ℝ) :
    (d.type = "Box-car" ∨ d.type = "Poisson" → call sol d theta w wc = .error (.py .keyError)) ∧
    typeOf "cos-2s" = .ok .cos2s ∧ typeOf "von-Mises" = .ok .mises ∧ typeOf "sech-2" = .ok .sech2 ∧ typeOf "wrapped-normal" = .ok .wrap := by
  refine ⟨?_, by decide, by decide, by decide, by decide⟩
  rintro (h | h) <;> unfold call <;> rw [h]
  · have : typeOf "Box-car" = .error (.py .keyError) := by decide
    rw [this]
  · have : typeOf "Poisson" = .error (.py .keyError) := by decide
    rw [this]

/-- **C159.** Numbers and names of the frequency dependence, as documented; any letter case. -/
theorem C159_method :
    setMethod .none = .ok .independent ∧ setMethod (.int 0) = .ok .independent ∧ setMethod (.int 1) = .ok .mitsuyasu ∧
    setMethod (.int 2) = .ok .donelan ∧ setMethod (.int 3) = .ok .banner ∧
    (∀ n : ℤ, n < 0 ∨ 3 < n → setMethod (.int n) = .error (.py .valueError)) ∧
    (∀ m : Method, m ≠ .independent → setMethod (.str m.name) = .ok m) ∧
    setMethod (.str "Mitsuyasu") = .ok .mitsuyasu := by
  refine ⟨rfl, rfl, rfl, rfl, rfl, fun n hn => ?_, fun m hm => ?_, by decide⟩
  · have h0 : n ≠ 0 := by omega
    have h1 : n ≠ 1 := by omega
    have h2 : n ≠ 2 := by omega
    have h3 : n ≠ 3 := by omega
    simp [setMethod, h0, h1, h2, h3]
  · cases m
    · exact absurd rfl hm
    all_goals decide

/-- **C159 (refuted).** The name the object reports for a frequency independent spreading cannot be assigned back. -/
theorem C159_roundtrip_refuted : setMethod (.str Method.independent.name) = .error (.py .valueError) := by decide

/-- **C159 (refuted).** The documented methods `donelan` and `banner` fail with AttributeError for every valid kind of spreading function, all angles and all
frequencies. -/
theorem C159_donelan_refuted (sol : Solvers) (d : Obj) (theta w : List ℝ) (wc : ℝ) (t : SType) (ht : typeOf d.type = .ok t)
    (hd : (d.theta0 (w.map (· / wc))).length = w.length ∨ (d.theta0 (w.map (· / wc))).length = 1) (hm : d.method = .donelan ∨ d.method = .banner) :
    call sol d theta w wc = .error .attribute := by
  have hp : spreadPar sol d t (w.map (· / wc)) = .error .attribute := by
    unfold spreadPar spreadS
    obtain h | h := hm <;> rw [h]
  unfold call
  rw [ht]
  have : ¬ ((d.theta0 (w.map (· / wc))).length ≠ (w.map (· / wc)).length ∧ (d.theta0 (w.map (· / wc))).length ≠ 1) := by
    rw [List.length_map]; tauto
  simp only [if_neg this, hp]

example : ∃ d : Obj, typeOf d.type = .ok .sech2 ∧ (d.theta0 [1]).length = 1 ∧ d.method = .donelan :=
  ⟨{ default "sech2" 0 with method := .donelan }, by change typeOf "sech2" = _; decide, rfl, rfl⟩

end Wafo.Spread

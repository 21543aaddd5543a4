import Mathlib.Analysis.Complex.ExponentialBounds
import Verif.Spec.Depth

/-!
Properties of the spectra with two peaks (Torsethaugen, Ochi-Hubble) and of the McCormick and Wallop spectra.
-/

set_option linter.unusedSectionVars false

namespace Wafo.Spec

open Real MeasureTheory Set

/-! ### Torsethaugen -/

theorem methodOf_i {m : String} (h : m.toList.head? = some 'i') : methodOf m = .ok .integration := by
  unfold methodOf
  rcases e : m.toList with _ | ⟨c, l⟩
  · rw [e] at h; cases h
  · rw [e] at h
    simp only [List.head?_cons, Option.some.injEq] at h
    simp only [h, if_pos]

/-- A component with peakedness at least one, normalised by integration. -/
theorem comp_ok (Hp Tp g N M : ℝ) (m : String) (hm : m.toList.head? = some 'i') (hg : 1 ≤ g) :
    ∃ s, Jons.mk' { Hm0 := Hp, Tp := Tp, gamma := some g, N := N, M := M, method := m, chk := false } = .ok s ∧ (1 < g → s.method = .integration) := by
  have e : jonsGamma { Hm0 := Hp, Tp := Tp, gamma := some g, N := N, M := M, method := m, chk := false } = g := by
    simp [jonsGamma, not_lt.2 hg]
  unfold Jons.mk' preAg
  rw [e]
  by_cases h1 : g = 1
  · rw [if_pos h1]
    exact ⟨_, rfl, fun h => absurd h1 h.ne'⟩
  · rw [if_neg h1]
    simp only [methodOf_i hm, integrateAg, if_neg (by norm_num : ¬ (6 : ℝ) < 1), Except.map]
    exact ⟨_, rfl, fun _ => rfl⟩

theorem comp_fields {Hp Tp g N M : ℝ} {m : String} {s : Jons} (hg : 1 ≤ g)
    (h : Jons.mk' { Hm0 := Hp, Tp := Tp, gamma := some g, N := N, M := M, method := m, chk := false } = .ok s) :
    s.Hm0 = Hp ∧ s.Tp = Tp ∧ s.gamma = g ∧ s.N = N ∧ s.M = M ∧ s.wnc = 6 := by
  obtain ⟨h1, h2, h3, -, -, h6, h7, h8, -⟩ := mk'_fields h
  refine ⟨h1, h2, ?_, h6, h7, h8⟩
  rw [h3]
  simp [jonsGamma, not_lt.2 hg]

theorem call_zero {s : Jons} (h : s.Hm0 = 0) : s.call = fun _ => 0 := by
  funext w
  unfold Jons.call
  exact if_neg (by rw [h]; exact lt_irrefl _)

theorem jons_integrable {s : Jons} (hH : 0 ≤ s.Hm0) (hT : 0 < s.Tp ∨ s.Hm0 = 0) (hg : 1 ≤ s.gamma) (hS : Shape s.N s.M) :
    IntegrableOn s.call (Ioi 0) := by
  rcases hH.eq_or_lt with h0 | h0
  · rw [call_zero h0.symm]; exact integrableOn_zero
  · have hT' : 0 < s.Tp := hT.resolve_right h0.ne'
    have := scale_integrable (localspec s.gamma s.sigmaA s.sigmaB s.N s.M) ((s.Hm0 / 4) ^ 2 * s.Ag) (wp s.Tp) (wp_pos hT')
      (localspec_integrable hg hS)
    exact IntegrableOn.congr_fun this (fun w _ => (jons_call h0 w).symm) measurableSet_Ioi

/-- The component without peak enhancement. -/
theorem flat_energy {Hp Tp N M : ℝ} {m : String} {s : Jons} (hH : 0 ≤ Hp) (hT : 0 < Tp ∨ Hp = 0) (hS : Shape N M)
    (h : Jons.mk' { Hm0 := Hp, Tp := Tp, gamma := some 1, N := N, M := M, method := m, chk := false } = .ok s) :
    ∫ w in Ioi (0 : ℝ), s.call w = Hp ^ 2 / 16 := by
  obtain ⟨f1, -⟩ := comp_fields le_rfl h
  rcases hH.eq_or_lt with h0 | h0
  · rw [call_zero (by rw [f1]; exact h0.symm), ← h0]; simp
  · obtain ⟨b, hb1, hb2, -⟩ := C144_energy Hp Tp N M hH (hT.resolve_right h0.ne') hS false
    simp only [Bret.mk'] at hb1
    cases hb1
    rw [← hb2]
    congr 1
    funext w
    exact C145_gamma_one _ rfl s h w

/-- The peaked component: energy up to the cut-off, and the energy beyond. -/
theorem peaked_energy {Hp Tp g N M : ℝ} {m : String} {s : Jons} (hm : m.toList.head? = some 'i') (hH : 0 < Hp) (hT : 0 < Tp) (hg : 1 ≤ g)
    (hS : Shape N M) (h : Jons.mk' { Hm0 := Hp, Tp := Tp, gamma := some g, N := N, M := M, method := m, chk := false } = .ok s) :
    (1 < g → ∫ w in (0 : ℝ)..(6 * (2 * π / Tp)), s.call w = Hp ^ 2 / 16) ∧ (1 < g → Hp ^ 2 / 16 < ∫ w in Ioi (0 : ℝ), s.call w) ∧
    (g = 1 → ∫ w in Ioi (0 : ℝ), s.call w = Hp ^ 2 / 16) := by
  obtain ⟨s', h1, h2⟩ := comp_ok Hp Tp g N M m hm hg
  rw [h] at h1
  cases h1
  obtain ⟨-, -, -, -, -, f6⟩ := comp_fields hg h
  refine ⟨fun h1 => ?_, fun h1 => ?_, fun h1 => ?_⟩
  · have := C146_energy_to_cutoff _ s h (h2 h1) hH.le hT hS
    rw [f6] at this
    exact this
  · exact C146_energy_refuted _ s h (h2 h1) hH hT hS
  · subst h1
    exact flat_energy hH.le (Or.inl hT) hS h

/-- What `torsInit` builds: a main component with the given peak period and a second one. -/
structure TorsSpec (Hm0 Tp : ℝ) (m : String) (main second : Jons) : Prop where
  heights : main.Hm0 ^ 2 + second.Hm0 ^ 2 = Hm0 ^ 2
  nonneg : 0 ≤ second.Hm0
  period : main.Tp = Tp
  flat : second.gamma = 1
  peaked : 1 ≤ main.gamma
  cut : main.wnc = 6 ∧ second.wnc = 6
  energy2 : ∫ w in Ioi (0 : ℝ), second.call w = second.Hm0 ^ 2 / 16
  energy1 : m.toList.head? = some 'i' → (1 < main.gamma → ∫ w in (0 : ℝ)..(6 * (2 * π / Tp)), main.call w = main.Hm0 ^ 2 / 16) ∧
    (1 < main.gamma → main.Hm0 ^ 2 / 16 < ∫ w in Ioi (0 : ℝ), main.call w) ∧ (main.gamma = 1 → ∫ w in Ioi (0 : ℝ), main.call w = main.Hm0 ^ 2 / 16)
  integrable1 : IntegrableOn main.call (Ioi 0)
  integrable2 : IntegrableOn second.call (Ioi 0)

theorem split_sq {R H : ℝ} (h0 : 0 ≤ R) (h1 : R ≤ 1) : (R * H) ^ 2 + (√(1 - R ^ 2) * H) ^ 2 = H ^ 2 := by
  rw [mul_pow, mul_pow, sq_sqrt (by nlinarith)]
  ring

theorem torsSpec_mk {Hm0 Tp R g N M Tp2 N2 M2 : ℝ} {m : String} {a b : Jons} (hH : 0 < Hm0) (hT : 0 < Tp) (hR0 : 0 < R) (hR1 : R ≤ 1) (hg : 1 ≤ g)
    (hS : Shape N M) (hS2 : Shape N2 M2) (hT2 : 0 < Tp2 ∨ √(1 - R ^ 2) * Hm0 = 0)
    (h1 : Jons.mk' { Hm0 := R * Hm0, Tp := Tp, gamma := some g, N := N, M := M, method := m, chk := false } = .ok a)
    (h2 : Jons.mk' { Hm0 := √(1 - R ^ 2) * Hm0, Tp := Tp2, gamma := some 1, N := N2, M := M2, method := m, chk := false } = .ok b) :
    TorsSpec Hm0 Tp m a b := by
  obtain ⟨e1, e2, e3, e4, e5, e6⟩ := comp_fields hg h1
  obtain ⟨f1, f2, f3, f4, f5, f6⟩ := comp_fields le_rfl h2
  have hp : 0 < R * Hm0 := mul_pos hR0 hH
  have hn : 0 ≤ √(1 - R ^ 2) * Hm0 := by positivity
  refine ⟨by rw [e1, f1]; exact split_sq hR0.le hR1, by rw [f1]; exact hn, e2, f3, by rw [e3]; exact hg, ⟨e6, f6⟩, ?_, fun hm => ?_, ?_, ?_⟩
  · rw [f1]; exact flat_energy hn hT2 hS2 h2
  · rw [e1, e3]; exact peaked_energy hm hp hT hg hS h1
  · exact jons_integrable (by rw [e1]; exact hp.le) (by rw [e2]; exact Or.inl hT) (by rw [e3]; exact hg) (by rw [e4, e5]; exact hS)
  · exact jons_integrable (by rw [f1]; exact hn) (by rw [f1, f2]; exact hT2) (by rw [f3]) (by rw [f4, f5]; exact hS2)

theorem ratio_range (c E b : ℝ) (hc0 : 0 < c) (hc1 : c < 1) :
    0 < min ((1 - c) * exp (-(E / b) ^ 2) + c) 1 ∧ c ≤ min ((1 - c) * exp (-(E / b) ^ 2) + c) 1 ∧ min ((1 - c) * exp (-(E / b) ^ 2) + c) 1 ≤ 1 := by
  have h1 := exp_pos (-(E / b) ^ 2)
  have h2 : c ≤ min ((1 - c) * exp (-(E / b) ^ 2) + c) 1 := le_min (by nlinarith) hc1.le
  exact ⟨hc0.trans_le h2, h2, min_le_right _ _⟩

theorem mk_split {ea eb : Except PyErr Jons} {s : Tors}
    (h : (match ea, eb with
      | .ok a, .ok b => .ok ⟨a, b⟩
      | .error e, _ => .error e
      | _, .error e => .error e) = (Except.ok s : Except PyErr Tors)) : ea = .ok s.wind ∧ eb = .ok s.swell := by
  rcases ea with e | a
  · simp at h
  · rcases eb with e | b
    · simp at h
    · simp only [Except.ok.injEq] at h
      subst h
      exact ⟨rfl, rfl⟩

theorem tors_spec (Hm0 Tp g tinf : ℝ) (m : String) (s : Tors) (hH : 0 < Hm0) (hT : 0 < Tp) (h : torsInit Hm0 Tp m g tinf = .ok s) :
    (Tp < 6.6 * Hm0 ^ (1 / 3 : ℝ) → TorsSpec Hm0 Tp m s.wind s.swell ∧ 0.7 * Hm0 ≤ s.wind.Hm0) ∧
    (6.6 * Hm0 ^ (1 / 3 : ℝ) ≤ Tp → TorsSpec Hm0 Tp m s.swell s.wind ∧ 0.6 * Hm0 ≤ s.swell.Hm0) := by
  have hs := sqrt_nonneg Hm0
  have hN : Shape (0.5 * √Hm0 + 3.2) 4 := ⟨by norm_num; linarith, by norm_num⟩
  refine ⟨fun hlt => ?_, fun hle => ?_⟩
  · unfold torsInit at h
    simp only [if_pos hlt] at h
    obtain ⟨h1, h2⟩ := mk_split h
    obtain ⟨r0, r1, r2⟩ := ratio_range 0.7 (min (max ((6.6 * Hm0 ^ (1 / 3 : ℝ) - Tp) / (6.6 * Hm0 ^ (1 / 3 : ℝ) - 2 * √Hm0)) 0) 1) 0.5 (by norm_num) (by norm_num)
    refine ⟨torsSpec_mk hH hT r0 r2 (le_max_right _ _) hN hN (Or.inl ?_) h1 h2, ?_⟩
    · have := rpow_pos_of_pos hH (1 / 3)
      linarith
    · rw [(comp_fields (le_max_right _ _) h1).1]
      exact mul_le_mul_of_nonneg_right r1 hH.le
  · unfold torsInit at h
    simp only [if_neg (not_lt.2 hle), if_neg hH.ne'] at h
    obtain ⟨h2, h1⟩ := mk_split h
    obtain ⟨r0, r1, r2⟩ := ratio_range 0.6 (min (max ((Tp - 6.6 * Hm0 ^ (1 / 3 : ℝ)) / (25 - 6.6 * Hm0 ^ (1 / 3 : ℝ))) 0) 1) 0.3 (by norm_num) (by norm_num)
    have hM : 0 < 4 * (1 - 0.7 * exp (-Hm0 / 3)) := by
      have : exp (-Hm0 / 3) < 1 := exp_lt_one_iff.2 (by linarith)
      norm_num
      linarith
    have hS2 : Shape (0.5 * √Hm0 + 3.2) (4 * (1 - 0.7 * exp (-Hm0 / 3))) := ⟨hN.hN, hM⟩
    refine ⟨torsSpec_mk hH hT r0 r2 (le_max_right _ _) hN hS2 ?_ h1 h2, ?_⟩
    · by_cases hp : 0 < √(1 - (min ((1 - 0.6) * exp (-(min (max ((Tp - 6.6 * Hm0 ^ (1 / 3 : ℝ)) / (25 - 6.6 * Hm0 ^ (1 / 3 : ℝ))) 0) 1 / 0.3) ^ 2) + 0.6) 1) ^ 2) * Hm0
      · left
        rw [if_pos hp]
        apply rpow_pos_of_pos
        have h3 : exp (-Hm0 / 3) < 1 := exp_lt_one_iff.2 (by linarith)
        have hC : 0 < (0.5 * √Hm0 + 3.2 - 1) / (4 * (1 - 0.7 * exp (-Hm0 / 3))) := div_pos (by linarith [hN.hN]) hM
        have hB : 0 < (0.5 * √Hm0 + 3.2) / (4 * (1 - 0.7 * exp (-Hm0 / 3))) := div_pos (by linarith [hN.hN]) hM
        have hG := Gamma_pos_of_pos hC
        have hb := rpow_pos_of_pos hB ((0.5 * √Hm0 + 3.2 - 1) / (4 * (1 - 0.7 * exp (-Hm0 / 3))))
        have h4 := rpow_pos_of_pos (by norm_num : (0 : ℝ) < 0.4) (0.5 * √Hm0 + 3.2)
        have h5 : 0 < 1 - exp (-Hm0 / 3) := by linarith
        have h6 := pow_pos hp 2
        apply div_pos (mul_pos (mul_pos (by norm_num) h5) h4)
        exact mul_pos (div_pos (mul_pos hb hM) hG) h6
      · right
        refine le_antisymm (not_lt.1 hp) (by positivity)
    · rw [(comp_fields (le_max_right _ _) h1).1]
      exact mul_le_mul_of_nonneg_right r1 hH.le

theorem tors_init {Hm0 Tp g tinf wnc : ℝ} {m : String} {chk : Bool} (hH : 0 ≤ Hm0) (hT : 0 < Tp) :
    Tors.mk' Hm0 Tp m wnc g chk tinf = torsInit Hm0 Tp m g tinf := by
  unfold Tors.mk'
  rw [chk_ok hH hT]
  cases chk <;> rfl

/-- C151.  The heights of wind sea and swell add up to `Hm0` (as energies); below the fully developed period `6.6*Hm0^(1/3)` the wind
sea has the peak period `Tp` and at least 0.7 of the height, otherwise the swell has the peak period and at least 0.6 of the height; the
other component has no peak enhancement. -/
theorem C151_split (Hm0 Tp g tinf wnc : ℝ) (m : String) (chk : Bool) (s : Tors) (hH : 0 < Hm0) (hT : 0 < Tp)
    (h : Tors.mk' Hm0 Tp m wnc g chk tinf = .ok s) :
    s.wind.Hm0 ^ 2 + s.swell.Hm0 ^ 2 = Hm0 ^ 2 ∧
    (Tp < 6.6 * Hm0 ^ (1 / 3 : ℝ) → s.wind.Tp = Tp ∧ 0.7 * Hm0 ≤ s.wind.Hm0 ∧ s.swell.gamma = 1) ∧
    (6.6 * Hm0 ^ (1 / 3 : ℝ) ≤ Tp → s.swell.Tp = Tp ∧ 0.6 * Hm0 ≤ s.swell.Hm0 ∧ s.wind.gamma = 1) := by
  rw [tors_init hH.le hT] at h
  obtain ⟨h1, h2⟩ := tors_spec Hm0 Tp g tinf m s hH hT h
  refine ⟨?_, fun hlt => ?_, fun hle => ?_⟩
  · rcases lt_or_ge Tp (6.6 * Hm0 ^ (1 / 3 : ℝ)) with hlt | hle
    · exact (h1 hlt).1.heights
    · rw [add_comm]; exact (h2 hle).1.heights
  · exact ⟨(h1 hlt).1.period, (h1 hlt).2, (h1 hlt).1.flat⟩
  · exact ⟨(h2 hle).1.period, (h2 hle).2, (h2 hle).1.flat⟩

/-- C151.  Normalised by integration, the energy is at least `Hm0^2/16`, and equal to it if neither component has peak enhancement; counting
the main component only up to six times its peak frequency, the energy is `Hm0^2/16`. -/
theorem C151_energy (Hm0 Tp g tinf wnc : ℝ) (m : String) (chk : Bool) (s : Tors) (hH : 0 < Hm0) (hT : 0 < Tp) (hm : m.toList.head? = some 'i')
    (h : Tors.mk' Hm0 Tp m wnc g chk tinf = .ok s) :
    (s.wind.gamma = 1 ∧ s.swell.gamma = 1 → ∫ w in Ioi (0 : ℝ), s.call w = Hm0 ^ 2 / 16) ∧
    (¬ (s.wind.gamma = 1 ∧ s.swell.gamma = 1) → Hm0 ^ 2 / 16 < ∫ w in Ioi (0 : ℝ), s.call w) ∧
    (Tp < 6.6 * Hm0 ^ (1 / 3 : ℝ) → 1 < s.wind.gamma →
      (∫ w in (0 : ℝ)..(6 * (2 * π / Tp)), s.wind.call w) + ∫ w in Ioi (0 : ℝ), s.swell.call w = Hm0 ^ 2 / 16) ∧
    (6.6 * Hm0 ^ (1 / 3 : ℝ) ≤ Tp → 1 < s.swell.gamma →
      (∫ w in (0 : ℝ)..(6 * (2 * π / Tp)), s.swell.call w) + ∫ w in Ioi (0 : ℝ), s.wind.call w = Hm0 ^ 2 / 16) := by
  rw [tors_init hH.le hT] at h
  obtain ⟨h1, h2⟩ := tors_spec Hm0 Tp g tinf m s hH hT h
  have key : ∀ main second, TorsSpec Hm0 Tp m main second →
      (main.gamma = 1 → (∫ w in Ioi (0 : ℝ), main.call w) + ∫ w in Ioi (0 : ℝ), second.call w = Hm0 ^ 2 / 16) ∧
      (main.gamma ≠ 1 → Hm0 ^ 2 / 16 < (∫ w in Ioi (0 : ℝ), main.call w) + ∫ w in Ioi (0 : ℝ), second.call w) ∧
      (1 < main.gamma → (∫ w in (0 : ℝ)..(6 * (2 * π / Tp)), main.call w) + ∫ w in Ioi (0 : ℝ), second.call w = Hm0 ^ 2 / 16) := by
    intro main second ts
    obtain ⟨a1, a2, a3⟩ := ts.energy1 hm
    have hh := ts.heights
    rw [ts.energy2]
    refine ⟨fun e => ?_, fun e => ?_, fun e => ?_⟩
    · rw [a3 e]; linarith
    · have := a2 (lt_of_le_of_ne ts.peaked (Ne.symm e)); linarith
    · rw [a1 e]; linarith
  have hsum : IntegrableOn s.wind.call (Ioi 0) ∧ IntegrableOn s.swell.call (Ioi 0) := by
    rcases lt_or_ge Tp (6.6 * Hm0 ^ (1 / 3 : ℝ)) with hlt | hle
    · exact ⟨(h1 hlt).1.integrable1, (h1 hlt).1.integrable2⟩
    · exact ⟨(h2 hle).1.integrable2, (h2 hle).1.integrable1⟩
  have e : ∫ w in Ioi (0 : ℝ), s.call w = (∫ w in Ioi (0 : ℝ), s.wind.call w) + ∫ w in Ioi (0 : ℝ), s.swell.call w :=
    MeasureTheory.integral_add hsum.1 hsum.2
  rw [e]
  rcases lt_or_ge Tp (6.6 * Hm0 ^ (1 / 3 : ℝ)) with hlt | hle
  · obtain ⟨k1, k2, k3⟩ := key _ _ (h1 hlt).1
    have hf := (h1 hlt).1.flat
    exact ⟨fun p => k1 p.1, fun p => k2 fun q => p ⟨q, hf⟩, fun _ => k3, fun p => absurd hlt (not_lt.2 p)⟩
  · obtain ⟨k1, k2, k3⟩ := key _ _ (h2 hle).1
    have hf := (h2 hle).1.flat
    rw [add_comm]
    exact ⟨fun p => k1 p.2, fun p => k2 fun q => p ⟨hf, q⟩, fun p => absurd hle (not_le.2 p), fun _ => k3⟩

/-- C151, refuted: the argument `wnc` is documented as the cut-off for the normalisation; it has no effect, the cut-off is always six. -/
theorem C151_cutoff_refuted (Hm0 Tp g tinf wnc : ℝ) (m : String) (chk : Bool) (s : Tors) (hH : 0 < Hm0) (hT : 0 < Tp)
    (h : Tors.mk' Hm0 Tp m wnc g chk tinf = .ok s) : s.wind.wnc = 6 ∧ s.swell.wnc = 6 := by
  rw [tors_init hH.le hT] at h
  obtain ⟨h1, h2⟩ := tors_spec Hm0 Tp g tinf m s hH hT h
  rcases lt_or_ge Tp (6.6 * Hm0 ^ (1 / 3 : ℝ)) with hlt | hle
  · exact (h1 hlt).1.cut
  · exact (h2 hle).1.cut.symm

/-- C151, refuted: `Hm0 = 0` is accepted by the check of the sea state (a warning is issued) but raises ZeroDivisionError. -/
theorem C151_zero_refuted (Tp g tinf wnc : ℝ) (m : String) (chk : Bool) (hT : 0 < Tp) :
    chkSeastate 0 Tp = .ok () ∧ Tors.mk' 0 Tp m wnc g chk tinf = .error .zeroDivision := by
  refine ⟨chk_ok le_rfl hT, ?_⟩
  rw [tors_init le_rfl hT]
  unfold torsInit
  have h0 : (0 : ℝ) ^ (1 / 3 : ℝ) = 0 := zero_rpow (by norm_num)
  simp only [h0, mul_zero, if_neg (not_lt.2 hT.le), if_true]

/-- C151.  Every sea state with positive height is accepted (normalisation by integration). -/
theorem C151_ok (Hm0 Tp g tinf wnc : ℝ) (m : String) (chk : Bool) (hH : 0 < Hm0) (hT : 0 < Tp) (hm : m.toList.head? = some 'i') :
    ∃ s, Tors.mk' Hm0 Tp m wnc g chk tinf = .ok s := by
  rw [tors_init hH.le hT]
  unfold torsInit
  by_cases hlt : Tp < 6.6 * Hm0 ^ (1 / 3 : ℝ)
  · simp only [if_pos hlt]
    generalize hx : max (35 * (1 + 3.5 * exp (-Hm0 / 1)) * _) 1 = gw
    obtain ⟨a, ha, -⟩ := comp_ok _ _ _ _ _ m hm (hx ▸ le_max_right _ _ : 1 ≤ gw)
    obtain ⟨b, hb, -⟩ := comp_ok _ _ _ _ _ m hm (le_refl (1 : ℝ))
    rw [ha, hb]
    exact ⟨_, rfl⟩
  · simp only [if_neg hlt, if_neg hH.ne']
    generalize hx : max (35 * (1 + 3.5 * exp (-Hm0 / 1)) * _ * _) 1 = gw
    obtain ⟨a, ha, -⟩ := comp_ok _ _ _ _ _ m hm (hx ▸ le_max_right _ _ : 1 ≤ gw)
    obtain ⟨b, hb, -⟩ := comp_ok _ _ _ _ _ m hm (le_refl (1 : ℝ))
    rw [ha, hb]
    exact ⟨_, rfl⟩

example (tinf : ℝ) : ∃ s, Tors.mk' 7 11 "integration" 6 9.81 true tinf = .ok s ∧ s.wind.Hm0 ^ 2 + s.swell.Hm0 ^ 2 = 7 ^ 2 := by
  obtain ⟨s, hs⟩ := C151_ok 7 11 9.81 tinf 6 "integration" true (by norm_num) (by norm_num) rfl
  exact ⟨s, hs, (C151_split 7 11 9.81 tinf 6 _ true s (by norm_num) (by norm_num) hs).1⟩

/-! ### Ochi-Hubble -/

theorem bret_integrable {Hm0 Tp N M : ℝ} (hH : 0 ≤ Hm0) (hT : 0 < Tp) (h : Shape N M) : IntegrableOn (Bret.call ⟨Hm0, Tp, N, M⟩) (Ioi 0) := by
  rcases hH.eq_or_lt with h0 | h0
  · have : Bret.call ⟨Hm0, Tp, N, M⟩ = fun _ => 0 := by
      funext w; unfold Bret.call; exact if_neg (by rw [← h0]; exact lt_irrefl _)
    rw [this]; exact integrableOn_zero
  · have := scale_integrable (gengam N M) ((Hm0 / 4) ^ 2) (wp Tp) (wp_pos hT) (gengam_integrable h)
    refine IntegrableOn.congr_fun this (fun w _ => ?_) measurableSet_Ioi
    unfold Bret.call
    exact (if_pos h0).symm

/-- The parameters in the table. -/
def parGood (p : (ℚ × ℚ) × (ℚ × ℚ) × (ℚ × ℚ) × (ℚ × ℚ × ℚ)) : Prop :=
  0 < p.1.1 ∧ 0 < p.1.2 ∧ 0 < p.2.1.1 ∧ 0 < p.2.1.2 ∧ 0 < p.2.2.2.1 ∧ 0 < p.2.2.2.2.1 ∧
  995 / 1000 < p.1.1 ^ 2 + p.1.2 ^ 2 ∧ p.1.1 ^ 2 + p.1.2 ^ 2 < 1004 / 1000 ∧ p.1.1 ^ 2 + p.1.2 ^ 2 ≠ 1

theorem ochiPar_good (i : ℕ) (hi : i < 11) : ∃ p, ochiPar[i]? = some p ∧ parGood p := by
  unfold ochiPar parGood
  interval_cases i <;> refine ⟨_, rfl, ?_⟩ <;> norm_num

/-- The energy for one row of the table. -/
theorem ochi_row (Hm0 : ℝ) (hH : 0 ≤ Hm0) (j : ℕ) (hj : j < 11) (par : ℤ) (hp : (if par < 0 then par + 11 else par) = (j : ℤ)) :
    ∃ s c, ochiInit Hm0 par = .ok s ∧ ∫ w in Ioi (0 : ℝ), ochiCall s w = c * (Hm0 ^ 2 / 16) ∧ 0.995 < c ∧ c < 1.004 ∧ c ≠ 1 := by
  obtain ⟨⟨⟨p0, p1⟩, ⟨a0, a1⟩, ⟨b0, b1⟩, l0, l1, l2⟩, hrow, g1, g2, g3, g4, g5, g6, g7, g8, g9⟩ := ochiPar_good j hj
  simp only at g1 g2 g3 g4 g5 g6 g7 g8 g9
  have c1 : (0 : ℝ) < p0 := by exact_mod_cast g1
  have c2 : (0 : ℝ) < p1 := by exact_mod_cast g2
  have c3 : (0 : ℝ) < a0 := by exact_mod_cast g3
  have c4 : (0 : ℝ) < a1 := by exact_mod_cast g4
  have c5 : (0 : ℝ) < l0 := by exact_mod_cast g5
  have c6 : (0 : ℝ) < l1 := by exact_mod_cast g6
  have t0 : 0 < 2 * π * exp ((b0 : ℝ) * Hm0) / a0 := by positivity
  have t1 : 0 < 2 * π * exp ((b1 : ℝ) * Hm0) / a1 := by positivity
  have s0 : Shape (4 * (l0 : ℝ) + 1) 4 := ⟨by linarith, by norm_num⟩
  have s1 : Shape (4 * ((l1 : ℝ) * exp ((l2 : ℝ) * Hm0)) + 1) 4 := ⟨by have := mul_pos c6 (exp_pos ((l2 : ℝ) * Hm0)); linarith, by norm_num⟩
  have h0 : 0 ≤ (p0 : ℝ) * Hm0 := by positivity
  have h1 : 0 ≤ (p1 : ℝ) * Hm0 := by positivity
  obtain ⟨u, hu1, hu2, -⟩ := C144_energy _ _ _ _ h0 t0 s0 true
  obtain ⟨v, hv1, hv2, -⟩ := C144_energy _ _ _ _ h1 t1 s1 true
  refine ⟨(u, v), (p0 : ℝ) ^ 2 + (p1 : ℝ) ^ 2, ?_, ?_, ?_, ?_, ?_⟩
  · unfold ochiInit
    simp only [hp]
    rw [if_neg (by omega)]
    simp only [Int.toNat_natCast, hrow, hu1, hv1]
  · have iu : IntegrableOn u.call (Ioi 0) := by
      unfold Bret.mk' at hu1
      rw [chk_ok h0 t0] at hu1
      simp only [if_true, Except.ok.injEq] at hu1
      rw [← hu1]
      exact bret_integrable h0 t0 s0
    have iv : IntegrableOn v.call (Ioi 0) := by
      unfold Bret.mk' at hv1
      rw [chk_ok h1 t1] at hv1
      simp only [if_true, Except.ok.injEq] at hv1
      rw [← hv1]
      exact bret_integrable h1 t1 s1
    have : ∫ w in Ioi (0 : ℝ), ochiCall (u, v) w = (∫ w in Ioi (0 : ℝ), v.call w) + ∫ w in Ioi (0 : ℝ), u.call w := MeasureTheory.integral_add iv iu
    rw [this, hu2, hv2]
    ring
  · have : ((995 / 1000 : ℚ) : ℝ) < ((p0 ^ 2 + p1 ^ 2 : ℚ) : ℝ) := by exact_mod_cast g7
    push_cast at this
    linarith
  · have : ((p0 ^ 2 + p1 ^ 2 : ℚ) : ℝ) < ((1004 / 1000 : ℚ) : ℝ) := by exact_mod_cast g8
    push_cast at this
    linarith
  · intro hc
    apply g9
    have : ((p0 ^ 2 + p1 ^ 2 : ℚ) : ℝ) = ((1 : ℚ) : ℝ) := by push_cast; exact hc
    exact_mod_cast this

/-- C152.  For each of the eleven parametrisations the energy is within half a percent of `Hm0^2/16`. -/
theorem C152_energy_partial (Hm0 : ℝ) (hH : 0 ≤ Hm0) (par : ℤ) (h0 : 0 ≤ par) (h1 : par ≤ 10) (chk : Bool) :
    ∃ s c, ochiHubble Hm0 par chk = .ok s ∧ ∫ w in Ioi (0 : ℝ), ochiCall s w = c * (Hm0 ^ 2 / 16) ∧ 0.995 < c ∧ c < 1.004 := by
  obtain ⟨j, rfl⟩ := Int.eq_ofNat_of_zero_le h0
  obtain ⟨s, c, hs, h2, h3, h4, -⟩ := ochi_row Hm0 hH j (by omega) j (by rw [if_neg (by omega)])
  refine ⟨s, c, ?_, h2, h3, h4⟩
  unfold ochiHubble
  rw [chk_ok hH one_pos, hs]
  simp only [if_neg (show ¬ ((j : ℤ) < 0 ∨ 10 < (j : ℤ)) by omega)]
  cases chk <;> rfl

/-- C152, refuted: the energy is never exactly `Hm0^2/16`. -/
theorem C152_energy_refuted (Hm0 : ℝ) (hH : 0 < Hm0) (par : ℤ) (h0 : 0 ≤ par) (h1 : par ≤ 10) (chk : Bool) :
    ∃ s, ochiHubble Hm0 par chk = .ok s ∧ ∫ w in Ioi (0 : ℝ), ochiCall s w ≠ Hm0 ^ 2 / 16 := by
  obtain ⟨j, rfl⟩ := Int.eq_ofNat_of_zero_le h0
  obtain ⟨s, c, hs, h2, -, -, h5⟩ := ochi_row Hm0 hH.le j (by omega) j (by rw [if_neg (by omega)])
  refine ⟨s, ?_, ?_⟩
  · unfold ochiHubble
    rw [chk_ok hH.le one_pos, hs]
    simp only [if_neg (show ¬ ((j : ℤ) < 0 ∨ 10 < (j : ℤ)) by omega)]
    cases chk <;> rfl
  · rw [h2]
    intro hc
    apply h5
    have : (0 : ℝ) < Hm0 ^ 2 / 16 := by positivity
    exact mul_right_cancel₀ this.ne' (by rw [hc, one_mul])

/-- C152.  Parameters outside 0..10 and negative heights are rejected. -/
theorem C152_rejected (Hm0 : ℝ) (par : ℤ) (h : Hm0 < 0 ∨ par < 0 ∨ 10 < par) : ochiHubble Hm0 par true = .error .valueError := by
  unfold ochiHubble
  by_cases hH : Hm0 < 0
  · rw [chk_err (Or.inl hH)]; rfl
  · rw [chk_ok (not_lt.1 hH) one_pos]
    exact if_pos (h.resolve_left hH)

/-- C152, refuted without the check of the sea state: a negative parametrisation counts from the end. -/
theorem C152_unchecked_refuted (Hm0 : ℝ) (par : ℤ) (h0 : -11 ≤ par) (h1 : par < 0) :
    ochiHubble Hm0 par false = ochiHubble Hm0 (par + 11) false := by
  unfold ochiHubble ochiInit
  have h2 : ¬ par + 11 < 0 := by omega
  simp only [if_pos h1, if_neg h2, Bool.false_eq_true, if_false]

/-! ### McCormick -/

/-- C153.  With `M` given, the documented formula, energy `Hm0^2/16`. -/
theorem C153_formula (opt : ℝ → ℝ) (Hm0 Tp : ℝ) (Tz : Option ℝ) (M : ℝ) (hH : 0 < Hm0) (hT : 0 < Tp) (hM : 0 < M) (chk : Bool) :
    ∃ s, mcCormick opt Hm0 Tp Tz (some M) chk = .ok s ∧ ∫ w in Ioi (0 : ℝ), s.call w = Hm0 ^ 2 / 16 ∧
      ∀ w, 0 < w → s.call w = (M + 1) * (Hm0 / 4) ^ 2 / (2 * π / Tp) * ((2 * π / Tp) / w) ^ (M + 1) * exp (-((M + 1) / M) * ((2 * π / Tp) / w) ^ M) := by
  have hS : Shape (M + 1) M := ⟨by linarith, hM⟩
  obtain ⟨s, h1, h2, -⟩ := C144_energy Hm0 Tp (M + 1) M hH.le hT hS chk
  refine ⟨s, h1, h2, fun w hw => ?_⟩
  obtain ⟨s', h3, h4⟩ := C144_formula Hm0 Tp (M + 1) M w hH hT hS hw chk
  rw [h1] at h3
  cases h3
  have hwp : 0 < 2 * π / Tp := wp_pos hT
  rw [h4]
  generalize 2 * π / Tp = q at hwp
  have e : (M + 1 - 1) / M = 1 := by field_simp; ring
  rw [e, rpow_one, Gamma_one]
  have e1 : ∀ p : ℝ, (q / w) ^ p = (w / q) ^ (-p) := by
    intro p
    rw [rpow_neg (by positivity), ← inv_rpow (by positivity), inv_div]
  rw [e1, e1]
  have e2 : -(M + 1) / (M * (w / q) ^ M) = -((M + 1) / M) * (w / q) ^ (-M) := by
    rw [rpow_neg (by positivity)]
    have := (rpow_pos_of_pos (div_pos hw hwp) M).ne'
    field_simp
  rw [e2]
  field_simp

/-- C153.  If the minimiser finds the zero, `Tp/Tz = (1+1/M)^(1/M)/gamma(1+1/M)`, then `Tz` is the energy period `2 pi m_{-1}/m_0`. -/
theorem C153_period (opt : ℝ → ℝ) (Hm0 Tp Tz : ℝ) (hH : 0 < Hm0) (hT : 0 < Tp) (hz : 0 < Tz) (hx : 0 < opt (Tp / Tz))
    (hopt : mcOpt (Tp / Tz) (opt (Tp / Tz)) = 0) (chk : Bool) :
    ∃ s, mcCormick opt Hm0 Tp (some Tz) none chk = .ok s ∧ ∫ w in Ioi (0 : ℝ), s.call w = Hm0 ^ 2 / 16 ∧ 2 * π * mom s.call (-1) / mom s.call 0 = Tz := by
  have e : mcCormick opt Hm0 Tp (some Tz) none chk = mcCormick opt Hm0 Tp (some Tz) (some (1 / opt (Tp / Tz))) chk := by
    simp only [mcCormick, Option.getD_some, if_pos hH, if_neg hz.ne']
  rw [e]
  generalize opt (Tp / Tz) = x at hx hopt
  have hM : 0 < 1 / x := by positivity
  have hS : Shape (1 / x + 1) (1 / x) := ⟨by linarith, hM⟩
  obtain ⟨s, h1, h2, -⟩ := C144_energy Hm0 Tp (1 / x + 1) (1 / x) hH.le hT hS chk
  refine ⟨s, h1, h2, ?_⟩
  obtain ⟨s', h3, h4⟩ := C144_moments Hm0 Tp (1 / x + 1) (1 / x) hH.le hT hS chk (-1) (by linarith)
  rw [h1] at h3
  cases h3
  rw [h4, mom_zero, h2]
  have e1 : (1 / x + 1) / (1 / x) = 1 + x := by field_simp
  have e2 : (-1 : ℝ) / (1 / x) = -x := by field_simp
  have e3 : (1 / x + 1 - 1 - -1) / (1 / x) = 1 + x := by field_simp; ring
  have e4 : (1 / x + 1 - 1) / (1 / x) = 1 := by field_simp; ring
  rw [e1, e2, e3, e4, Gamma_one, rpow_neg_one, rpow_neg (by positivity)]
  unfold mcOpt at hopt
  have hr : (1 + x) ^ x / Gamma (1 + x) = Tp / Tz := by
    have := pow_eq_zero_iff (two_ne_zero) |>.1 hopt
    linarith
  have hG := Gamma_pos_of_pos (by linarith : 0 < 1 + x)
  have hp := rpow_pos_of_pos (by linarith : 0 < 1 + x) x
  generalize (1 + x) ^ x = P at hr hp
  generalize Gamma (1 + x) = G at hr hG
  have hTz : Tz = Tp * G / P := by
    rw [div_eq_div_iff hG.ne' hz.ne'] at hr
    field_simp
    linarith
  rw [hTz]
  have := pi_pos
  field_simp
  norm_num

/-- Log-convexity of the Gamma function. -/
theorem gamma_convex {x y t : ℝ} (hx : 0 < x) (hy : 0 < y) (h0 : 0 ≤ t) (h1 : t ≤ 1) :
    log (Gamma (t * x + (1 - t) * y)) ≤ t * log (Gamma x) + (1 - t) * log (Gamma y) := by
  have := convexOn_log_Gamma.2 (show x ∈ Ioi 0 from hx) (show y ∈ Ioi 0 from hy) h0 (by linarith : 0 ≤ 1 - t) (by ring)
  simpa using this

/-- C153, refuted: `Tz` is documented as the zero-crossing period `2 pi sqrt(m_0/m_2)`.  Where the fit gives `M = 4`, the zero-crossing
period of the spectrum is smaller. -/
theorem C153_crossing_refuted (opt : ℝ → ℝ) (Hm0 Tp Tz : ℝ) (hH : 0 < Hm0) (hT : 0 < Tp) (hz : 0 < Tz) (hx : opt (Tp / Tz) = 1 / 4)
    (hopt : mcOpt (Tp / Tz) (opt (Tp / Tz)) = 0) (chk : Bool) :
    ∃ s, mcCormick opt Hm0 Tp (some Tz) none chk = .ok s ∧ 2 * π * √(mom s.call 0 / mom s.call 2) < Tz := by
  have e : mcCormick opt Hm0 Tp (some Tz) none chk = Bret.mk' Hm0 Tp 5 4 chk := by
    simp only [mcCormick, Option.getD_some, if_pos hH, if_neg hz.ne', hx]
    norm_num
  rw [e]
  have hS : Shape (5 : ℝ) 4 := ⟨by norm_num, by norm_num⟩
  obtain ⟨s, h1, h2, -⟩ := C144_energy Hm0 Tp 5 4 hH.le hT hS chk
  refine ⟨s, h1, ?_⟩
  obtain ⟨s', h3, h4⟩ := C144_moments Hm0 Tp 5 4 hH.le hT hS chk 2 (by norm_num)
  rw [h1] at h3
  cases h3
  rw [h4, mom_zero, h2]
  rw [hx] at hopt
  unfold mcOpt at hopt
  norm_num at hopt ⊢
  have hG := Gamma_pos_of_pos (by norm_num : (0 : ℝ) < 5 / 4)
  have hp := rpow_pos_of_pos (by norm_num : (0 : ℝ) < 5 / 4) (1 / 4)
  have hr : (5 / 4 : ℝ) ^ (1 / 4 : ℝ) / Gamma (5 / 4) = Tp / Tz := by
    linarith
  have key : 1 < Gamma (5 / 4) ^ 2 * √π := by
    have hc := gamma_convex (x := 5 / 4) (y := 2) (t := 2 / 3) (by norm_num) (by norm_num) (by norm_num) (by norm_num)
    have e32 : (2 / 3 * (5 / 4) + (1 - 2 / 3) * 2 : ℝ) = 1 / 2 + 1 := by norm_num
    rw [e32, Gamma_add_one (by norm_num), Gamma_one_half_eq, Gamma_two, log_one, mul_zero, add_zero] at hc
    have hsp := sqrt_pos.2 pi_pos
    have h5 : log ((1 / 2 * √π) ^ 3) ≤ log (Gamma (5 / 4) ^ 2) := by
      rw [log_pow, log_pow]
      push_cast
      linarith
    have h6 := (log_le_log_iff (by positivity) (by positivity)).1 h5
    have hs : √π ^ 2 = π := sq_sqrt pi_pos.le
    have hpi := pi_gt_three
    calc (1 : ℝ) < π ^ 2 / 8 := by nlinarith
      _ = (1 / 2 * √π) ^ 3 * √π := by
        have h4 : √π ^ 4 = π ^ 2 := by rw [show √π ^ 4 = (√π ^ 2) ^ 2 by ring, hs]
        linear_combination -(1 / 8) * h4
      _ ≤ _ := mul_le_mul_of_nonneg_right h6 hsp.le
  have hTz : Tz = Tp * Gamma (5 / 4) / (5 / 4 : ℝ) ^ (1 / 4 : ℝ) := by
    rw [div_eq_div_iff hG.ne' hz.ne'] at hr
    field_simp
    linarith
  have hq : (5 / 4 : ℝ) ^ (1 / 2 : ℝ) = ((5 / 4 : ℝ) ^ (1 / 4 : ℝ)) ^ 2 := by
    rw [← rpow_natCast, ← rpow_mul (by norm_num)]
    norm_num
  rw [hq, hTz]
  rw [show Gamma (1 / 2) = √π from Gamma_one_half_eq]
  generalize (5 / 4 : ℝ) ^ (1 / 4 : ℝ) = P at hp
  generalize Gamma (5 / 4) = G at hG key
  have hsp := sqrt_pos.2 pi_pos
  have hpi := pi_pos
  have hrhs : 0 < Tp * G / P := by positivity
  rw [← lt_div_iff₀' (by positivity)]
  rw [sqrt_lt' (by positivity)]
  have : Hm0 ^ 2 / 16 / ((Hm0 / 4) ^ 2 * (2 * π / Tp) ^ 2 * (P ^ 2 * √π)) = (Tp / (2 * π * P)) ^ 2 * (1 / √π) := by
    field_simp
    norm_num
  rw [this]
  have e3 : (Tp * G / P / (2 * π)) ^ 2 = (Tp / (2 * π * P)) ^ 2 * G ^ 2 := by
    field_simp
  rw [e3]
  refine mul_lt_mul_of_pos_left ?_ (by positivity)
  rw [div_lt_iff₀ hsp]
  exact key

/-- The hypotheses of the last two theorems are met, for every `Tp`. -/
example (Tp : ℝ) (hT : 0 < Tp) : ∃ Tz, 0 < Tz ∧ mcOpt (Tp / Tz) (1 / 4) = 0 := by
  have hG := Gamma_pos_of_pos (by norm_num : (0 : ℝ) < 1 + 1 / 4)
  have hp := rpow_pos_of_pos (by norm_num : (0 : ℝ) < 1 + 1 / 4) (1 / 4)
  refine ⟨Tp * Gamma (1 + 1 / 4) / (1 + 1 / 4 : ℝ) ^ (1 / 4 : ℝ), by positivity, ?_⟩
  unfold mcOpt
  generalize (1 + 1 / 4 : ℝ) ^ (1 / 4 : ℝ) = P at hp ⊢
  generalize Gamma (1 + 1 / 4) = G at hG ⊢
  have : P / G - Tp / (Tp * G / P) = 0 := by field_simp; ring
  rw [this]; norm_num

/-- C153, refuted: a sea state without waves is accepted by the check, but without `M` it raises a TypeError. -/
theorem C153_zero_refuted (opt : ℝ → ℝ) (Tp : ℝ) (Tz : Option ℝ) (hT : 0 < Tp) (chk : Bool) :
    chkSeastate 0 Tp = .ok () ∧ mcCormick opt 0 Tp Tz none chk = .error .typeError := by
  refine ⟨chk_ok le_rfl hT, ?_⟩
  simp only [mcCormick, if_neg (lt_irrefl (0 : ℝ))]

/-! ### Wallop -/

/-- C154.  For waves less steep than `Hm0/Lp = 2/pi` the exponent is above one and the energy is `Hm0^2/16`; `N` is the one documented. -/
theorem C154_energy (Hm0 Tp : ℝ) (hH : 0 < Hm0) (hT : 0 < Tp) (hs : Hm0 < 2 / π * (9.81 * Tp ^ 2 / (2 * π))) (chk : Bool) :
    ∃ s, wallop Hm0 Tp none chk = .ok s ∧ 1 < s.N ∧
      s.N = |(log (2 * π ^ 2) + 2 * log (Hm0 / 4) - 2 * log (9.81 * Tp ^ 2 / (2 * π))) / log 2| ∧
      ∫ w in Ioi (0 : ℝ), s.call w = Hm0 ^ 2 / 16 ∧ ∀ w, w ≠ 2 * π / Tp → s.call w < s.call (2 * π / Tp) := by
  have hpi := pi_pos
  have hL : 2 * π / Disp.deepK 9.81 (2 * π / Tp) = 9.81 * Tp ^ 2 / (2 * π) := by
    rw [Disp.deepK_pos (by positivity)]
    field_simp
  have e : wallop Hm0 Tp none chk = Bret.mk' Hm0 Tp |(log (2 * π ^ 2) + 2 * log (Hm0 / 4) - 2 * log (9.81 * Tp ^ 2 / (2 * π))) / log 2| 4 chk := by
    simp only [wallop, hL]
  rw [e]
  have hL0 : (0 : ℝ) < 9.81 * Tp ^ 2 / (2 * π) := by positivity
  generalize (9.81 : ℝ) * Tp ^ 2 / (2 * π) = L at hs hL0
  have hlog2 : 0 < log 2 := log_pos (by norm_num)
  have hneg : log (2 * π ^ 2) + 2 * log (Hm0 / 4) - 2 * log L < -log 2 := by
    have e1 : 2 * log (Hm0 / 4) = log ((Hm0 / 4) ^ 2) := by rw [log_pow]; push_cast; ring
    have e2 : 2 * log L = log (L ^ 2) := by rw [log_pow]; push_cast; ring
    rw [e1, e2, ← log_mul (by positivity) (by positivity), ← log_div (by positivity) (by positivity), ← log_inv]
    apply log_lt_log (by positivity)
    have : π * Hm0 < 2 * L := by
      have := mul_lt_mul_of_pos_left hs hpi
      have e3 : π * (2 / π * L) = 2 * L := by field_simp
      linarith
    have h2 : (π * Hm0) ^ 2 < (2 * L) ^ 2 := by
      apply pow_lt_pow_left₀ this (by positivity) two_ne_zero
    rw [div_lt_iff₀ (by positivity)]
    nlinarith
  have hN : 1 < |(log (2 * π ^ 2) + 2 * log (Hm0 / 4) - 2 * log L) / log 2| := by
    rw [abs_of_neg (div_neg_of_neg_of_pos (by linarith) hlog2), ← neg_div, lt_div_iff₀ hlog2]
    linarith
  generalize |(log (2 * π ^ 2) + 2 * log (Hm0 / 4) - 2 * log L) / log 2| = N at hN
  obtain ⟨s, h1, h2, -⟩ := C144_energy Hm0 Tp N 4 hH.le hT ⟨hN, by norm_num⟩ chk
  obtain ⟨s', h3, -, -, -, h4⟩ := C144_peak Hm0 Tp N 4 hH hT (by linarith) (by norm_num) chk
  rw [h1] at h3
  cases h3
  have hsN : s.N = N := by
    unfold Bret.mk' at h1
    rw [chk_ok hH.le hT] at h1
    cases chk
    · simp only [Bool.false_eq_true, if_false, Except.ok.injEq] at h1
      rw [← h1]
    · simp only [if_true, Except.ok.injEq] at h1
      rw [← h1]
  exact ⟨s, h1, by rw [hsN]; exact hN, hsN, h2, h4⟩

/-- The default sea state meets the hypothesis. -/
example : (7 : ℝ) < 2 / π * (9.81 * 11 ^ 2 / (2 * π)) := by
  have h := pi_lt_d2
  have h0 := pi_pos
  rw [show 2 / π * (9.81 * (11 : ℝ) ^ 2 / (2 * π)) = 9.81 * 121 / π ^ 2 by field_simp; norm_num]
  rw [lt_div_iff₀ (by positivity)]
  nlinarith

/-- C154.  With exponent five it is the Bretschneider spectrum. -/
theorem C154_five (Hm0 Tp : ℝ) (chk : Bool) : wallop Hm0 Tp (some 5) chk = Bret.mk' Hm0 Tp 5 4 chk := rfl

end Wafo.Spec

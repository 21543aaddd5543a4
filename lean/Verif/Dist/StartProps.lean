import Verif.Dist.StartLemmas

/-!
# C279: start values of the generalized Pareto distribution
-/

set_option linter.unusedSectionVars false

namespace Wafo.Dist

open MeasureTheory Set Filter Topology Real Start

theorem genpareto_mass (c : ℝ) : HasMoment (GenPareto.supp c) (GenPareto.pdf c) 0 1 := by
  have h := C261_genpareto_munp 0 c
  rw [GenPareto.munp] at h
  by_cases hc : c = 0
  · simpa [hc, Reports] using h
  · simpa [hc, Reports] using h

theorem genpareto_ok {d : List ℝ} {c loc scale : ℝ} (h : Start.genpareto d = .ok (c, loc, scale))
    (hv : 0 < std d) : d ≠ [] ∧ (∀ x ∈ d, loc < x) ∧ 0 < mean d - loc ∧
      c = (((mean d - loc) / std d) ^ 2 - 1) / 2 ∧
      scale = (mean d - loc) * (((mean d - loc) / std d) ^ 2 + 1) / 2 := by
  unfold Start.genpareto at h
  rcases hm : npMin d with e | mn
  · rw [hm] at h; cases h
  · rw [hm] at h
    have hd : d ≠ [] := by rintro rfl; cases hm
    obtain ⟨_, hmin⟩ := npMin_ok hm
    simp only [Bind.bind, Except.bind, Pure.pure, Except.pure, Except.ok.injEq, Prod.mk.injEq] at h
    obtain ⟨h1, h2, h3⟩ := h
    have hst : std (d.map fun x => x - loc) = std d := by rw [std, var_sub hd, std]
    rw [h2, hst, mean_sub hd] at h1 h3
    have hlt : ∀ x ∈ d, loc < x := fun x hx => by
      have := hmin x hx
      have h4 : (0 : ℝ) < 0.01 * std d := by positivity
      linarith
    refine ⟨hd, hlt, ?_, h1.symm, h3.symm⟩
    rw [← mean_sub hd]
    refine mean_pos ?_ (by simpa using hd)
    intro y hy
    obtain ⟨x, hx, rfl⟩ := List.mem_map.1 hy
    exact sub_pos.2 (hlt x hx)

/-- The start values are those of the method of moments for the opposite sign of the shape: the
generalized Pareto distribution with shape `-c` and the location and scale returned has the mean and the
variance of the data, and the data are above its location. -/
theorem C279_genpareto_partial (d : List ℝ) (c loc scale : ℝ)
    (h : Start.genpareto d = .ok (c, loc, scale)) (hv : 0 < std d) :
    (∀ x ∈ d, loc < x) ∧ 0 < scale ∧
    HasMoment (lsSet (GenPareto.supp (-c)) loc scale) (lsPdf (GenPareto.pdf (-c)) loc scale) 1 (mean d) ∧
    HasVar (lsSet (GenPareto.supp (-c)) loc scale) (lsPdf (GenPareto.pdf (-c)) loc scale) (var d) := by
  obtain ⟨hd, hlt, hm, hc, hs⟩ := genpareto_ok h hv
  set m := mean d - loc with hmd
  set s := std d with hsd
  have hr : 0 < (m / s) ^ 2 := by positivity
  have hsc : 0 < scale := by rw [hs]; positivity
  have hI := (gp_open (-c)).1.measurableSet
  have hst := C261_genpareto (-c)
  have h1 := hst.mean
  have h2 := hst.var
  have hc1 : -c < 1 / 2 := by rw [hc]; linarith
  simp only [GenPareto.stats, if_pos hc1, if_pos (show -c < 1 by linarith), Reports] at h1 h2
  refine ⟨hlt, hsc, ?_, ?_⟩
  · have := ls_mean hI hsc (genpareto_mass (-c)) h1 (loc := loc)
    convert this using 1
    have h3 : 1 - -c = ((m / s) ^ 2 + 1) / 2 := by rw [hc]; ring
    rw [h3, hs]
    have : mean d = loc + m := by rw [hmd]; ring
    rw [this]
    field_simp
  · have := ls_var hI hsc (genpareto_mass (-c)) h2 (loc := loc)
    convert this using 1
    have h3 : 1 - -c = ((m / s) ^ 2 + 1) / 2 := by rw [hc]; ring
    have h4 : 1 - 2 * -c = (m / s) ^ 2 := by rw [hc]; ring
    rw [h3, h4, hs, ← std_sq]
    have h5 : (m / s) ^ 2 + 1 ≠ 0 := by positivity
    obtain ⟨r, hr'⟩ : ∃ r, r = m / s := ⟨_, rfl⟩
    have hm' : m = r * s := by rw [hr']; field_simp
    have hr0 : r ≠ 0 := by rw [hr']; positivity
    rw [← hr'] at h5 ⊢
    rw [hm', ← hsd]
    field_simp

/-- With the shape that is returned the mean of the start distribution is that of the data only if the data
minus the location have equal mean and standard deviation, that is for shape zero. -/
theorem C279_genpareto_refuted (d : List ℝ) (c loc scale : ℝ)
    (h : Start.genpareto d = .ok (c, loc, scale)) (hv : 0 < std d)
    (hmom : HasMoment (lsSet (GenPareto.supp c) loc scale) (lsPdf (GenPareto.pdf c) loc scale) 1 (mean d)) :
    c = 0 := by
  obtain ⟨hd, hlt, hm, hc, hs⟩ := genpareto_ok h hv
  set m := mean d - loc with hmd
  set s := std d with hsd
  have hr : 0 < (m / s) ^ 2 := by positivity
  have hsc : 0 < scale := by rw [hs]; positivity
  have hI := (gp_open c).1.measurableSet
  have hst := (C261_genpareto c).mean
  have h0 : HasInt (GenPareto.supp c) (fun x => x ^ 0 * GenPareto.pdf c x) 1 := genpareto_mass c
  have hm1 : HasInt (GenPareto.supp c) (fun y => (loc + scale * y) ^ 1 * GenPareto.pdf c y) (mean d) :=
    (hasInt_ls hI hsc (k := fun x => x ^ 1)).1 hmom
  have hm2 : HasMoment (GenPareto.supp c) (GenPareto.pdf c) 1 (m / scale) := by
    have := ((h0.const_mul (-loc)).add hm1).const_mul scale⁻¹
    exact this.congr hI (fun y _ => by field_simp; ring) (by rw [hmd]; field_simp; ring)
  by_cases hc1 : c < 1
  · simp only [GenPareto.stats, if_pos hc1, Reports] at hst
    have he : 1 / (1 - c) = m / scale := hst.2.symm.trans hm2.2
    have h1 : 1 - c ≠ 0 := by linarith
    rw [div_eq_div_iff h1 hsc.ne'] at he
    have h3 : scale = m * (1 + c) := by rw [hs, hc]; ring
    rw [h3] at he
    have : m * c = 0 := by linarith
    exact (mul_eq_zero.1 this).resolve_left hm.ne'
  · simp only [GenPareto.stats, if_neg hc1, Reports] at hst
    exact absurd hm2.1 hst

theorem genpareto_example : ∃ c loc scale, Start.genpareto [0, 2] = .ok (c, loc, scale) ∧
    0 < std [0, 2] ∧ c ≠ 0 := by
  have hst : std [0, 2] = 1 := by
    norm_num [std, var, mean]
  refine ⟨_, _, _, rfl, by rw [hst]; exact one_pos, ?_⟩
  have e1 : ([(0 : ℝ), 2].map fun x => x - (List.foldl min (0 : ℝ) [2] - 0.01 * std [0, 2])) =
      [0.01, 2.01] := by
    rw [hst]; norm_num
  rw [e1]
  have h1 : mean [0.01, 2.01] = 1.01 := by norm_num [mean]
  have h2 : std [0.01, 2.01] = 1 := by norm_num [std, var, mean]
  rw [h1, h2]
  norm_num

/-- Data for which the start distribution misses the mean. -/
example : ∃ c loc scale, Start.genpareto [0, 2] = .ok (c, loc, scale) ∧
    ¬ HasMoment (lsSet (GenPareto.supp c) loc scale) (lsPdf (GenPareto.pdf c) loc scale) 1 (mean [0, 2]) := by
  obtain ⟨c, loc, scale, h, hs, hc⟩ := genpareto_example
  exact ⟨c, loc, scale, h, fun hm => hc (C279_genpareto_refuted _ c loc scale h hs hm)⟩

/-- No data. -/
example : Start.genpareto [] = .error .valueError := rfl

end Wafo.Dist

import Verif.Pbinom.Props

/-!
# C278: moments of the Poisson binomial distribution
-/

set_option linter.unusedSectionVars false

namespace Wafo.Pbinom

theorem expect_add (ps : List ℝ) (f g : ℕ → ℝ) :
    (expect ps fun k => f k + g k) = expect ps f + expect ps g := by
  unfold expect
  rw [← Finset.sum_add_distrib]
  exact Finset.sum_congr rfl fun w _ => mul_add _ _ _

theorem expect_mul (ps : List ℝ) (c : ℝ) (f : ℕ → ℝ) : (expect ps fun k => c * f k) = c * expect ps f := by
  unfold expect
  rw [Finset.mul_sum]
  exact Finset.sum_congr rfl fun w _ => by ring

theorem expect_const (ps : List ℝ) (c : ℝ) : (expect ps fun _ => c) = c := by
  induction ps with
  | nil => rw [expect_nil]
  | cons p ps ih => rw [expect_cons, ih]; ring

/-- Sums over the trials. -/
def sumOver (f : ℝ → ℝ) (ps : List ℝ) : ℝ := (ps.map f).sum

theorem sumOver_cons (f : ℝ → ℝ) (p : ℝ) (ps : List ℝ) : sumOver f (p :: ps) = f p + sumOver f ps := by
  simp [sumOver]

/-- The first four moments about any point, by induction over the trials. -/
theorem moments (ps : List ℝ) : ∀ a : ℝ,
    (expect ps fun k => (k : ℝ) - a) = ps.sum - a ∧
    (expect ps fun k => ((k : ℝ) - a) ^ 2) = sumOver (fun p => p * (1 - p)) ps + (ps.sum - a) ^ 2 ∧
    (expect ps fun k => ((k : ℝ) - a) ^ 3) = sumOver (fun p => (1 - 2 * p) * (1 - p) * p) ps +
      3 * sumOver (fun p => p * (1 - p)) ps * (ps.sum - a) + (ps.sum - a) ^ 3 ∧
    (expect ps fun k => ((k : ℝ) - a) ^ 4) = sumOver (fun p => (1 - 6 * (1 - p) * p) * (1 - p) * p) ps +
      3 * sumOver (fun p => p * (1 - p)) ps ^ 2 +
      4 * sumOver (fun p => (1 - 2 * p) * (1 - p) * p) ps * (ps.sum - a) +
      6 * sumOver (fun p => p * (1 - p)) ps * (ps.sum - a) ^ 2 + (ps.sum - a) ^ 4 := by
  induction ps with
  | nil =>
    intro a
    simp [expect_nil, sumOver]
  | cons p ps ih =>
    intro a
    have e : ∀ m : ℕ, (fun k : ℕ => (((k + 1 : ℕ) : ℝ) - a) ^ m) = fun k : ℕ => ((k : ℝ) - (a - 1)) ^ m := by
      intro m
      funext k
      push_cast
      ring
    have e1 : (fun k : ℕ => ((k + 1 : ℕ) : ℝ) - a) = fun k : ℕ => (k : ℝ) - (a - 1) := by
      funext k
      push_cast
      ring
    obtain ⟨h1, h2, h3, h4⟩ := ih a
    obtain ⟨g1, g2, g3, g4⟩ := ih (a - 1)
    rw [expect_cons, expect_cons, expect_cons, expect_cons, e1, e, e, e, h1, h2, h3, h4, g1, g2, g3, g4]
    simp only [sumOver_cons, List.sum_cons]
    refine ⟨by ring, by ring, by ring, by ring⟩

/-- `_stats` lists the mean, the variance, the skewness and the excess kurtosis of the number of
successes; the last two whenever the number is not constant. -/
theorem C278_stats (probs : List ℝ) (hp : ∀ p ∈ probs, 0 ≤ p ∧ p ≤ 1) :
    let μ := (stats probs).1
    let v := (stats probs).2.1
    (expect probs fun k => (k : ℝ)) = μ ∧
    (expect probs fun k => ((k : ℝ) - μ) ^ 2) = v ∧
    ((∃ p ∈ probs, 0 < p ∧ p < 1) → 0 < v ∧
      (expect probs fun k => ((k : ℝ) - μ) ^ 3) / v ^ (3 / 2 : ℝ) = (stats probs).2.2.1 ∧
      (expect probs fun k => ((k : ℝ) - μ) ^ 4) / v ^ 2 - 3 = (stats probs).2.2.2) := by
  intro μ v
  have hμ : μ = probs.sum := rfl
  have hv : v = sumOver (fun p => p * (1 - p)) probs := rfl
  obtain ⟨h1, h2, h3, h4⟩ := moments probs μ
  rw [hμ, sub_self] at h1 h2 h3 h4
  rw [← hv] at h2 h3 h4
  refine ⟨?_, ?_, ?_⟩
  · have := (moments probs 0).1
    rw [hμ]
    simpa using this
  · rw [hμ, h2]; ring
  · rintro ⟨p, hpm, hp0, hp1⟩
    have hpos : 0 < v := by
      rw [hv, sumOver]
      refine lt_of_lt_of_le (mul_pos hp0 (sub_pos.2 hp1)) ?_
      refine List.single_le_sum ?_ _ (List.mem_map_of_mem hpm)
      intro x hx
      obtain ⟨q, hq, rfl⟩ := List.mem_map.1 hx
      have := hp q hq
      exact mul_nonneg this.1 (sub_nonneg.2 this.2)
    have hs : √v ^ 3 = v ^ (3 / 2 : ℝ) := by
      rw [Real.sqrt_eq_rpow, ← Real.rpow_natCast, ← Real.rpow_mul hpos.le]
      norm_num
    have hs4 : √v ^ 4 = v ^ 2 := by
      rw [show √v ^ 4 = (√v ^ 2) ^ 2 by ring, Real.sq_sqrt hpos.le]
    refine ⟨hpos, ?_, ?_⟩
    · rw [hμ, h3]
      show _ = sumOver _ probs / √v ^ 3
      rw [hs]
      congr 1
      ring
    · rw [hμ, h4]
      show _ = sumOver _ probs / √v ^ 4
      rw [hs4]
      field_simp
      ring

/-- One fair and one biased coin. -/
example : (expect [1 / 2, 1 / 4] fun k => (k : ℝ)) = 3 / 4 ∧ (stats [1 / 2, 1 / 4]).2.1 = 7 / 16 := by
  have h := (C278_stats [1 / 2, 1 / 4] (by intro p hp; simp at hp; rcases hp with rfl | rfl <;> norm_num)).1
  refine ⟨h.trans (by norm_num [stats]), by norm_num [stats]⟩

end Wafo.Pbinom

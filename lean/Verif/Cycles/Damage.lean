import Verif.Basic
import Mathlib.Analysis.SpecialFunctions.Pow.Real
import Mathlib.Algebra.Order.BigOperators.Group.List

/-!
Property C25: the Palmgren-Miner damage of `CyclePairs.damage`, `/repo/src/wafo/objects.py`
L676-721.  Exponents are arbitrary positive reals.
-/

namespace Wafo.Cycles

/-- `amplitudes`, L676-677: `(data - args) / 2`; a cycle is the pair (args, data). -/
noncomputable def amplitudes (cyc : List (ℝ × ℝ)) : List ℝ := cyc.map (fun c => (c.2 - c.1) / 2)

/-- `damage(beta, K)`, L679-721: one value per exponent, `K * sum(abs(amp) ** beta_i)`. -/
noncomputable def damage (betas : List ℝ) (K : ℝ) (cyc : List (ℝ × ℝ)) : List ℝ :=
  betas.map (fun b => K * (((amplitudes cyc).map (fun a => |a|)).map (fun a => a ^ b)).sum)

/-- The damage for one exponent. -/
noncomputable def damage1 (b K : ℝ) (cyc : List (ℝ × ℝ)) : ℝ :=
  K * (cyc.map (fun c => (|c.2 - c.1| / 2) ^ b)).sum

theorem damage_eq (betas : List ℝ) (K : ℝ) (cyc : List (ℝ × ℝ)) :
    damage betas K cyc = betas.map (fun b => damage1 b K cyc) := by
  unfold damage damage1 amplitudes
  simp only [List.map_map, Function.comp_def, abs_div, abs_two]

theorem terms_nonneg (b : ℝ) (cyc : List (ℝ × ℝ)) :
    ∀ x ∈ cyc.map (fun c => (|c.2 - c.1| / 2) ^ b), 0 ≤ x := by
  intro x hx
  rw [List.mem_map] at hx
  obtain ⟨c, _, rfl⟩ := hx
  exact Real.rpow_nonneg (by positivity) _

/-- **C25, sign.**  The damage is non-negative for every list of cycles, exponent list and `K >= 0`. -/
theorem C25_nonneg (betas : List ℝ) (K : ℝ) (hK : 0 ≤ K) (cyc : List (ℝ × ℝ)) :
    ∀ D ∈ damage betas K cyc, 0 ≤ D := by
  intro D hD
  rw [damage_eq, List.mem_map] at hD
  obtain ⟨b, _, rfl⟩ := hD
  exact mul_nonneg hK (List.sum_nonneg (terms_nonneg b cyc))

/-- **C25, zero damage.**  For positive exponents and `K > 0` the damage vanishes exactly when every cycle
has amplitude zero. -/
theorem C25_zero_iff (betas : List ℝ) (hne : betas ≠ []) (hb : ∀ b ∈ betas, 0 < b) (K : ℝ) (hK : 0 < K)
    (cyc : List (ℝ × ℝ)) :
    (∀ D ∈ damage betas K cyc, D = 0) ↔ ∀ c ∈ cyc, c.1 = c.2 := by
  rw [damage_eq]
  constructor
  · intro h c hc
    obtain ⟨b, hbm⟩ := List.exists_mem_of_ne_nil betas hne
    have h0 := h _ (List.mem_map_of_mem hbm)
    unfold damage1 at h0
    have h1 : (cyc.map (fun c => (|c.2 - c.1| / 2) ^ b)).sum = 0 := by
      rcases mul_eq_zero.1 h0 with h | h
      · exact absurd h hK.ne'
      · exact h
    have h2 : (|c.2 - c.1| / 2) ^ b = 0 := by
      have hle := List.single_le_sum (terms_nonneg b cyc) _ (List.mem_map_of_mem hc)
      exact le_antisymm (hle.trans h1.le) (Real.rpow_nonneg (by positivity) _)
    rw [Real.rpow_eq_zero (by positivity) (hb b hbm).ne'] at h2
    have h3 : |c.2 - c.1| = 0 := by linarith
    rw [abs_eq_zero] at h3
    linarith
  · intro h D hD
    rw [List.mem_map] at hD
    obtain ⟨b, hbm, rfl⟩ := hD
    unfold damage1
    have : (cyc.map (fun c => (|c.2 - c.1| / 2) ^ b)).sum = 0 := by
      apply List.sum_eq_zero
      intro x hx
      rw [List.mem_map] at hx
      obtain ⟨c, hc, rfl⟩ := hx
      rw [h c hc, sub_self, abs_zero, zero_div, Real.zero_rpow (hb b hbm).ne']
    rw [this, mul_zero]

/-- **C25, value.**  A single cycle contributes `K` times its amplitude (half the distance between its turning
points) to the power of the exponent. -/
theorem C25_value (betas : List ℝ) (K lo hi : ℝ) :
    damage betas K [(lo, hi)] = betas.map (fun b => K * (|hi - lo| / 2) ^ b) ∧
    damage betas K [] = betas.map (fun _ => 0) := by
  rw [damage_eq, damage_eq]
  simp [damage1]

/-- **C25, additivity.**  The damage of two concatenated cycle lists is the sum, exponent by exponent. -/
theorem C25_additive (betas : List ℝ) (K : ℝ) (c1 c2 : List (ℝ × ℝ)) :
    damage betas K (c1 ++ c2) = List.zipWith (· + ·) (damage betas K c1) (damage betas K c2) := by
  rw [damage_eq, damage_eq, damage_eq, List.zipWith_map, List.zipWith_self]
  apply List.map_congr_left
  intro b _
  unfold damage1
  rw [List.map_append, List.sum_append, mul_add]

/-- **C25, order.**  The damage does not depend on the order of the cycles. -/
theorem C25_order (betas : List ℝ) (K : ℝ) (c1 c2 : List (ℝ × ℝ)) (h : c1.Perm c2) :
    damage betas K c1 = damage betas K c2 := by
  rw [damage_eq, damage_eq]
  apply List.map_congr_left
  intro b _
  unfold damage1
  rw [(h.map _).sum_eq]

/-- The damage does not depend on whether a cycle is given as (min, max) or as (max, min). -/
theorem C25_direction (betas : List ℝ) (K : ℝ) (cyc : List (ℝ × ℝ)) :
    damage betas K (cyc.map (fun c => (c.2, c.1))) = damage betas K cyc := by
  rw [damage_eq, damage_eq]
  apply List.map_congr_left
  intro b _
  unfold damage1
  rw [List.map_map]
  simp only [Function.comp_def, abs_sub_comm]

/-- **C25, material constant.**  Multiplying `K` by `r` multiplies every damage by `r`. -/
theorem C25_linear_K (betas : List ℝ) (K r : ℝ) (cyc : List (ℝ × ℝ)) :
    damage betas (r * K) cyc = (damage betas K cyc).map (fun D => r * D) := by
  rw [damage_eq, damage_eq, List.map_map]
  apply List.map_congr_left
  intro b _
  simp only [Function.comp_def, damage1]
  ring

/-- **C25, load scaling.**  Scaling the load by `s` multiplies the damage for exponent `beta` by
`|s| ** beta`. -/
theorem C25_scaling (betas : List ℝ) (K s : ℝ) (cyc : List (ℝ × ℝ)) :
    damage betas K (cyc.map (fun c => (s * c.1, s * c.2)))
      = List.zipWith (fun b D => |s| ^ b * D) betas (damage betas K cyc) := by
  rw [damage_eq, damage_eq, List.zipWith_map_right, List.zipWith_self]
  apply List.map_congr_left
  intro b _
  unfold damage1
  rw [List.map_map]
  have : cyc.map ((fun c : ℝ × ℝ => (|c.2 - c.1| / 2) ^ b) ∘ fun c => (s * c.1, s * c.2))
      = cyc.map (fun c => |s| ^ b * (|c.2 - c.1| / 2) ^ b) := by
    apply List.map_congr_left
    intro c _
    simp only [Function.comp_def]
    rw [← mul_sub, abs_mul, mul_div_assoc, Real.mul_rpow (abs_nonneg s) (by positivity)]
  rw [this, List.sum_map_mul_left]
  ring

/-- Lowering both turning points of every cycle by a constant does not change the damage. -/
theorem C25_mean_level (betas : List ℝ) (K t : ℝ) (cyc : List (ℝ × ℝ)) :
    damage betas K (cyc.map (fun c => (c.1 + t, c.2 + t))) = damage betas K cyc := by
  rw [damage_eq, damage_eq]
  apply List.map_congr_left
  intro b _
  unfold damage1
  rw [List.map_map]
  simp only [Function.comp_def, add_sub_add_right_eq_sub]

example : damage [3] 2 [(-1, 1), (4, 0)] = [18] := by
  simp only [damage, amplitudes, List.map_cons, List.map_nil, List.sum_cons, List.sum_nil]
  norm_num

end Wafo.Cycles

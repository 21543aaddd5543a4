import Verif.Mctp.Model
import Verif.Mctp.Spec
import Mathlib.Topology.Algebra.InfiniteSum.Real
import Mathlib.Topology.Instances.Matrix
import Mathlib.Topology.Order.MonotoneConvergence
import Mathlib.Algebra.BigOperators.Field
import Mathlib.LinearAlgebra.Matrix.ToLinearEquiv
import Mathlib.Tactic.FieldSimp
import Mathlib.Algebra.Order.BigOperators.Ring.Finset

/-!
# Substochastic matrices and the blocks of the rainflow matrix
-/

set_option linter.unusedSectionVars false

namespace Wafo.Mctp

open Wafo Matrix Filter Topology

section Series

variable {n : ℕ} {T : Matrix (Fin n) (Fin n) ℝ}

theorem mulVec_nonneg' (hT : ∀ i j, 0 ≤ T i j) {v : Fin n → ℝ} (hv : ∀ j, 0 ≤ v j) (i : Fin n) :
    0 ≤ (T *ᵥ v) i := by
  simp only [mulVec, dotProduct]
  exact Finset.sum_nonneg fun j _ => mul_nonneg (hT i j) (hv j)

theorem mulVec_mono (hT : ∀ i j, 0 ≤ T i j) {v w : Fin n → ℝ} (hv : ∀ j, v j ≤ w j) (i : Fin n) :
    (T *ᵥ v) i ≤ (T *ᵥ w) i := by
  simp only [mulVec, dotProduct]
  exact Finset.sum_le_sum fun j _ => mul_le_mul_of_nonneg_left (hv j) (hT i j)

theorem pow_mulVec_nonneg (hT : ∀ i j, 0 ≤ T i j) {v : Fin n → ℝ} (hv : ∀ j, 0 ≤ v j) (m : ℕ) :
    ∀ i, 0 ≤ (T ^ m *ᵥ v) i := by
  induction m with
  | zero => simpa using hv
  | succ m ih => rw [pow_succ', ← mulVec_mulVec]; exact mulVec_nonneg' hT ih

theorem pow_mulVec_mono (hT : ∀ i j, 0 ≤ T i j) {v w : Fin n → ℝ} (hv : ∀ j, v j ≤ w j) (m : ℕ) :
    ∀ i, (T ^ m *ᵥ v) i ≤ (T ^ m *ᵥ w) i := by
  induction m with
  | zero => simpa using hv
  | succ m ih =>
    rw [pow_succ', ← mulVec_mulVec, ← mulVec_mulVec]
    exact mulVec_mono hT ih

/-- The powers of a substochastic matrix without eigenvalue one tend to zero. -/
theorem pow_tendsto (hT : ∀ i j, 0 ≤ T i j) (h1 : ∀ i, (T *ᵥ fun _ => 1) i ≤ 1) (hd : (1 - T).det ≠ 0)
    (i : Fin n) : Tendsto (fun m => (T ^ m *ᵥ fun _ => (1 : ℝ)) i) atTop (𝓝 0) := by
  set a : ℕ → Fin n → ℝ := fun m => T ^ m *ᵥ fun _ => (1 : ℝ) with ha
  have hstep : ∀ m, a (m + 1) = T *ᵥ a m := fun m => by
    rw [ha]
    show T ^ (m + 1) *ᵥ _ = T *ᵥ (T ^ m *ᵥ _)
    rw [mulVec_mulVec, ← pow_succ']
  have hanti : ∀ i, Antitone fun m => a m i := fun i => by
    refine antitone_nat_of_succ_le fun m => ?_
    show (T ^ (m + 1) *ᵥ fun _ => (1 : ℝ)) i ≤ (T ^ m *ᵥ fun _ => (1 : ℝ)) i
    rw [pow_succ, ← mulVec_mulVec]
    exact pow_mulVec_mono hT h1 m i
  have hb : ∀ i, BddBelow (Set.range fun m => a m i) := fun i =>
    ⟨0, by rintro _ ⟨m, rfl⟩; exact pow_mulVec_nonneg hT (fun _ => zero_le_one) m i⟩
  set L : Fin n → ℝ := fun i => ⨅ m, a m i with hL
  have hlim : ∀ i, Tendsto (fun m => a m i) atTop (𝓝 (L i)) := fun i =>
    tendsto_atTop_ciInf (hanti i) (hb i)
  have hTL : T *ᵥ L = L := by
    funext j
    have e1 : Tendsto (fun m => (T *ᵥ a m) j) atTop (𝓝 ((T *ᵥ L) j)) := by
      simp only [mulVec, dotProduct]
      exact tendsto_finsetSum _ fun k _ => (hlim k).const_mul _
    have e2 : Tendsto (fun m => (T *ᵥ a m) j) atTop (𝓝 (L j)) := by
      have := (hlim j).comp (tendsto_add_atTop_nat 1)
      refine this.congr fun m => ?_
      simp only [Function.comp]
      rw [hstep]
    exact tendsto_nhds_unique e1 e2
  have hz : L = 0 := by
    refine eq_zero_of_mulVec_eq_zero hd ?_
    rw [sub_mulVec, one_mulVec, hTL, sub_self]
  have := hlim i
  rw [hz] at this
  exact this

/-- The Neumann series of a substochastic matrix without eigenvalue one. -/
theorem neumann (hT : ∀ i j, 0 ≤ T i j) (h1 : ∀ i, (T *ᵥ fun _ => 1) i ≤ 1) (hd : (1 - T).det ≠ 0)
    {e : Fin n → ℝ} (he : ∀ j, 0 ≤ e j) (i : Fin n) :
    HasSum (fun m => (T ^ m *ᵥ e) i) (((1 - T)⁻¹ *ᵥ e) i) := by
  rw [hasSum_iff_tendsto_nat_of_nonneg fun m => pow_mulVec_nonneg hT he m i]
  have hu : IsUnit (1 - T).det := isUnit_iff_ne_zero.2 hd
  obtain ⟨K, hK⟩ : ∃ K : ℝ, ∀ j, e j ≤ K := ⟨∑ j, e j, fun j =>
    Finset.single_le_sum (f := e) (fun j _ => he j) (Finset.mem_univ j)⟩
  have hpow : ∀ j, Tendsto (fun m => (T ^ m *ᵥ e) j) atTop (𝓝 0) := fun j => by
    have h2 := (pow_tendsto hT h1 hd j).const_mul K
    rw [mul_zero] at h2
    refine squeeze_zero (fun m => pow_mulVec_nonneg hT he m j) (fun m => ?_) h2
    have := pow_mulVec_mono hT (v := e) (w := K • fun _ => (1 : ℝ)) (fun j => by simpa using hK j) m j
    rw [mulVec_smul] at this
    simpa using this
  have hsum : ∀ m, (∑ k ∈ Finset.range m, (T ^ k *ᵥ e)) = (1 - T)⁻¹ *ᵥ (e - T ^ m *ᵥ e) := fun m => by
    have e1 : (1 - T) *ᵥ (∑ k ∈ Finset.range m, (T ^ k *ᵥ e)) = e - T ^ m *ᵥ e := by
      induction m with
      | zero => simp
      | succ m ih =>
        rw [Finset.sum_range_succ, mulVec_add, ih, sub_mulVec, one_mulVec, mulVec_mulVec, ← pow_succ']
        abel
    rw [← e1, mulVec_mulVec, nonsing_inv_mul _ hu, one_mulVec]
  have hfin : Tendsto (fun m => ((1 - T)⁻¹ *ᵥ (e - T ^ m *ᵥ e)) i) atTop (𝓝 (((1 - T)⁻¹ *ᵥ e) i)) := by
    have : Tendsto (fun m => ∑ j, (1 - T)⁻¹ i j * (e j - (T ^ m *ᵥ e) j)) atTop
        (𝓝 (∑ j, (1 - T)⁻¹ i j * (e j - 0))) :=
      tendsto_finsetSum _ fun j _ => ((hpow j).const_sub (e j)).const_mul _
    simp only [sub_zero] at this
    exact this
  refine hfin.congr fun m => ?_
  rw [← hsum, Finset.sum_apply]

end Series

theorem sum_Ico_fin (f : ℕ → ℝ) (a n : ℕ) : ∑ x ∈ Finset.Ico a (a + n), f x = ∑ j : Fin n, f (a + j) := by
  rw [Finset.sum_Ico_eq_sum_range, add_tsub_cancel_left, Finset.sum_range]

theorem quot_eq {a x : ℝ} (h : a = 0 → x = 0) : quot a x = x / a := by
  unfold quot
  split_ifs with h0
  · rfl
  · push Not at h0
    rw [h h0, zero_div]

section Block

variable {N : ℕ} {f g : Mat} {r0 c0 n : ℕ}

theorem Rates.f_max (h : Rates N f g) {r c : ℕ} (hc : c < N) : f r c ≤ fmax N f r :=
  Finset.single_le_sum (f := fun c => f r c) (fun c _ => h.f_nonneg r c) (Finset.mem_range.2 hc)

theorem Rates.f_min (h : Rates N f g) {r c : ℕ} (hr : r < N) : f r c ≤ fmin N f c :=
  Finset.single_le_sum (f := fun r => f r c) (fun r _ => h.f_nonneg r c) (Finset.mem_range.2 hr)

theorem Rates.g_max (h : Rates N f g) {r c : ℕ} (hr : r < N) (hc : c < N) : g r c ≤ fmax N f r :=
  (Finset.single_le_sum (f := fun c => g r c) (fun c _ => h.g_nonneg r c) (Finset.mem_range.2 hc)).trans
    (h.maxima_le r hr)

theorem Ico_sum_le {u : ℕ → ℝ} (hu : ∀ x, 0 ≤ u x) {a m N : ℕ} (h : a + m ≤ N) :
    ∑ j : Fin m, u (a + j) ≤ ∑ x ∈ Finset.range N, u x := by
  rw [← sum_Ico_fin]
  refine Finset.sum_le_sum_of_subset_of_nonneg (fun x hx => ?_) fun x _ _ => hu x
  have := Finset.mem_Ico.1 hx
  exact Finset.mem_range.2 (by omega)

/-- What the code calls `fx` is the rate of all excursions through the block. -/
theorem excess_spec (h : Rates N f g) (hr : r0 + (n + 1) ≤ N) (hc : c0 + (n + 1) ≤ N) {x : ℝ}
    (hx : excess (n := n) (fun r c => f (r0 + r) (c0 + c)) (fun r c => g (r0 + r) (c0 + c))
      (fun r => fmax N f (r0 + r)) (fun c => fmin N f (c0 + c)) = .ok x) :
    (((∃ c ∈ Finset.Ico c0 (c0 + (n + 1)), |(fmin N f c - ∑ r ∈ Finset.Ico r0 (r0 + (n + 1)), f r c) / fmin N f c| > 1e-6) ∧
      ∃ r ∈ Finset.Ico r0 (r0 + (n + 1)), |fmax N f r - ∑ c ∈ Finset.Ico c0 (c0 + (n + 1)), f r c| >
        1e-6 * max (fmax N f r0) (fmin N f c0)) →
      HasSum (excursions N f g (Finset.Ico r0 (r0 + (n + 1))) (Finset.Ico c0 (c0 + (n + 1)))) x) ∧
    (¬ ((∃ c ∈ Finset.Ico c0 (c0 + (n + 1)), |(fmin N f c - ∑ r ∈ Finset.Ico r0 (r0 + (n + 1)), f r c) / fmin N f c| > 1e-6) ∧
      ∃ r ∈ Finset.Ico r0 (r0 + (n + 1)), |fmax N f r - ∑ c ∈ Finset.Ico c0 (c0 + (n + 1)), f r c| >
        1e-6 * max (fmax N f r0) (fmin N f c0)) → x = 0) := by
  set I := Finset.Ico r0 (r0 + (n + 1)) with hI
  set J := Finset.Ico c0 (c0 + (n + 1)) with hJ
  set A : Matrix (Fin (n + 1)) (Fin (n + 1)) ℝ := fun j c => quot (fmax N f (r0 + j)) (g (r0 + j) (c0 + c.rev)) with hA
  set B : Matrix (Fin (n + 1)) (Fin (n + 1)) ℝ := fun j c => quot (fmin N f (c0 + j.rev)) (f (r0 + c) (c0 + j.rev)) with hB
  set e : Fin (n + 1) → ℝ := fun j => quot (fmin N f (c0 + j.rev))
    (fmin N f (c0 + j.rev) - ∑ r : Fin (n + 1), f (r0 + r) (c0 + j.rev)) with he
  set NN : Fin (n + 1) → ℝ := fun r => fmax N f (r0 + r) - ∑ c : Fin (n + 1), f (r0 + r) (c0 + c) with hNN
  have hmaxnn : ∀ r, 0 ≤ fmax N f r := fun r => Finset.sum_nonneg fun c _ => h.f_nonneg r c
  have hminnn : ∀ c, 0 ≤ fmin N f c := fun c => Finset.sum_nonneg fun r _ => h.f_nonneg r c
  have eA : ∀ j c, A j c = g (r0 + j) (c0 + c.rev) / fmax N f (r0 + j) := fun j c =>
    quot_eq fun h0 => le_antisymm ((h.g_max (by omega) (by omega)).trans h0.le) (h.g_nonneg _ _)
  have eB : ∀ j c, B j c = f (r0 + c) (c0 + j.rev) / fmin N f (c0 + j.rev) := fun j c =>
    quot_eq fun h0 => le_antisymm ((h.f_min (by omega)).trans h0.le) (h.f_nonneg _ _)
  have hcol : ∀ c, ∑ r : Fin (n + 1), f (r0 + r) c ≤ fmin N f c := fun c =>
    Ico_sum_le (u := fun r => f r c) (fun r => h.f_nonneg r c) hr
  have hrow : ∀ r, ∑ c : Fin (n + 1), f r (c0 + c) ≤ fmax N f r := fun r =>
    Ico_sum_le (u := fun c => f r c) (fun c => h.f_nonneg r c) hc
  have ee : ∀ j : Fin (n + 1), e j = (fmin N f (c0 + j.rev) - ∑ r : Fin (n + 1), f (r0 + r) (c0 + j.rev)) / fmin N f (c0 + j.rev) :=
    fun j => quot_eq fun h0 => by
      have h1 := hcol (c0 + j.rev)
      have h2 : 0 ≤ ∑ r : Fin (n + 1), f (r0 + r) (c0 + j.rev) := Finset.sum_nonneg fun r _ => h.f_nonneg _ _
      linarith
  have hAn : ∀ i j, 0 ≤ A i j := fun i j => by rw [eA]; exact div_nonneg (h.g_nonneg _ _) (hmaxnn _)
  have hBn : ∀ i j, 0 ≤ B i j := fun i j => by rw [eB]; exact div_nonneg (h.f_nonneg _ _) (hminnn _)
  have hen : ∀ j, 0 ≤ e j := fun j => by rw [ee]; exact div_nonneg (sub_nonneg.2 (hcol _)) (hminnn _)
  have hA1 : ∀ i, (A *ᵥ fun _ => 1) i ≤ 1 := fun i => by
    simp only [mulVec, dotProduct, mul_one, eA]
    rw [← Finset.sum_div]
    refine div_le_one_of_le₀ ?_ (hmaxnn _)
    have e1 : ∑ j : Fin (n + 1), g (r0 + i) (c0 + j.rev) = ∑ j : Fin (n + 1), g (r0 + i) (c0 + j) :=
      Equiv.sum_comp Fin.revPerm (fun j : Fin (n + 1) => g (r0 + i) (c0 + j))
    rw [e1]
    exact (Ico_sum_le (u := fun c => g (r0 + i) c) (fun c => h.g_nonneg _ c) hc).trans
      (h.maxima_le _ (by omega))
  have hB1 : ∀ i, (B *ᵥ fun _ => 1) i ≤ 1 := fun i => by
    simp only [mulVec, dotProduct, mul_one, eB]
    rw [← Finset.sum_div]
    exact div_le_one_of_le₀ (hcol _) (hminnn _)
  set T := B * A with hT
  have hTn : ∀ i j, 0 ≤ T i j := fun i j => by
    rw [hT, mul_apply]
    exact Finset.sum_nonneg fun k _ => mul_nonneg (hBn i k) (hAn k j)
  have hT1 : ∀ i, (T *ᵥ fun _ => 1) i ≤ 1 := fun i => by
    rw [hT, ← mulVec_mulVec]
    exact (mulVec_mono hBn hA1 i).trans (hB1 i)
  -- the probabilities of leaving the block as powers of the matrix
  have hleave : ∀ m (a : Fin (n + 1)), leave N f g I J m (r0 + a) = (A *ᵥ (T ^ m *ᵥ e)) a := by
    intro m
    induction m with
    | zero =>
      intro a
      rw [pow_zero, one_mulVec, leave, hJ, sum_Ico_fin]
      simp only [mulVec, dotProduct]
      rw [← Equiv.sum_comp Fin.revPerm]
      refine Finset.sum_congr rfl fun j _ => ?_
      rw [eA, ee, hI, sum_Ico_fin (fun r' => f r' (c0 + (Fin.revPerm j : Fin (n + 1))))]
      rfl
    | succ m ih =>
      intro a
      rw [pow_succ', ← mulVec_mulVec, hT, ← mulVec_mulVec, leave, hJ, sum_Ico_fin]
      simp only [mulVec, dotProduct]
      rw [← Equiv.sum_comp Fin.revPerm]
      refine Finset.sum_congr rfl fun j _ => ?_
      rw [eA, hI, sum_Ico_fin (fun r' => f r' (c0 + (Fin.revPerm j : Fin (n + 1))) / minima N f (c0 + (Fin.revPerm j : Fin (n + 1))) *
        leave N f g (Finset.Ico r0 (r0 + (n + 1))) (Finset.Ico c0 (c0 + (n + 1))) m r')]
      congr 1
      refine Finset.sum_congr rfl fun b _ => ?_
      rw [eB, ih b]
      rfl
  have hexc : ∀ m, excursions N f g I J m = NN ⬝ᵥ (A *ᵥ (T ^ m *ᵥ e)) := fun m => by
    rw [excursions, hI, sum_Ico_fin]
    refine Finset.sum_congr rfl fun a _ => ?_
    rw [← hI, hleave, hJ, sum_Ico_fin (fun c => f (r0 + a) c)]
    rfl
  have hsum : (1 - T).det ≠ 0 → HasSum (excursions N f g I J) (NN ⬝ᵥ (A *ᵥ ((1 - T)⁻¹ *ᵥ e))) := fun hd => by
    have : HasSum (fun m => ∑ a, NN a * ∑ j, A a j * (T ^ m *ᵥ e) j)
        (∑ a, NN a * ∑ j, A a j * ((1 - T)⁻¹ *ᵥ e) j) :=
      hasSum_sum fun a _ => (hasSum_sum fun j _ => (neumann hTn hT1 hd hen j).mul_left _).mul_left _
    refine this.congr_fun ?_ 
    intro m
    exact hexc m
  -- the condition
  have hcond : ((∃ j, |e j| > 1e-6) ∧ ∃ j, |NN j| > 1e-6 * max (fmax N f (r0 + (0 : Fin (n + 1)))) (fmin N f (c0 + (0 : Fin (n + 1))))) ↔
      ((∃ c ∈ J, |(fmin N f c - ∑ r ∈ I, f r c) / fmin N f c| > 1e-6) ∧
      ∃ r ∈ I, |fmax N f r - ∑ c ∈ J, f r c| > 1e-6 * max (fmax N f r0) (fmin N f c0)) := by
    refine and_congr ⟨?_, ?_⟩ ⟨?_, ?_⟩
    · rintro ⟨j, hj⟩
      refine ⟨c0 + j.rev, Finset.mem_Ico.2 ⟨by omega, by omega⟩, ?_⟩
      rw [hI, sum_Ico_fin (fun r => f r (c0 + j.rev)), ← ee]
      exact hj
    · rintro ⟨c, hc', hj⟩
      obtain ⟨h1, h2⟩ := Finset.mem_Ico.1 hc'
      refine ⟨(⟨c - c0, by omega⟩ : Fin (n + 1)).rev, ?_⟩
      rw [ee, Fin.rev_rev]
      have : c0 + (c - c0) = c := by omega
      simp only [this]
      rw [hI, sum_Ico_fin] at hj
      exact hj
    · rintro ⟨j, hj⟩
      refine ⟨r0 + j, Finset.mem_Ico.2 ⟨by omega, by omega⟩, ?_⟩
      rw [hJ, sum_Ico_fin (fun c => f (r0 + j) c)]
      simpa using hj
    · rintro ⟨r, hr', hj⟩
      obtain ⟨h1, h2⟩ := Finset.mem_Ico.1 hr'
      refine ⟨⟨r - r0, by omega⟩, ?_⟩
      have : r0 + (r - r0) = r := by omega
      simp only [hNN, this]
      rw [hJ, sum_Ico_fin] at hj
      simpa using hj
  rw [← hcond]
  unfold excess at hx
  simp only at hx
  by_cases hq : (∃ j, |e j| > 1e-6) ∧ ∃ j, |NN j| > 1e-6 * max (fmax N f (r0 + (0 : Fin (n + 1)))) (fmin N f (c0 + (0 : Fin (n + 1))))
  · rw [if_pos hq] at hx
    refine ⟨fun _ => ?_, fun h0 => absurd hq h0⟩
    by_cases hn : n = 0
    · rw [if_pos hn] at hx
      subst hn
      have hx' : (if 1 - B 0 0 * A 0 0 = 0 then Except.error PyErr.zeroDivision
        else Except.ok (NN 0 * (A 0 0 / (1 - B 0 0 * A 0 0) * e 0))) = Except.ok x := hx
      split_ifs at hx' with hz
      have hd : (1 - T).det = 1 - B 0 0 * A 0 0 := by
        refine (det_fin_one (1 - T : Matrix (Fin 1) (Fin 1) ℝ)).trans ?_
        simp [hT, mul_apply]
      have hs := hsum (by rw [hd]; exact hz)
      have hsol : (1 - T)⁻¹ *ᵥ e = fun _ => e 0 / (1 - B 0 0 * A 0 0) := by
        have hu : IsUnit (1 - T).det := isUnit_iff_ne_zero.2 (by rw [hd]; exact hz)
        have e1 : (1 - T) *ᵥ (fun _ => e 0 / (1 - B 0 0 * A 0 0)) = e := by
          funext j
          have : j = 0 := Fin.ext (by omega)
          subst this
          simp only [mulVec, dotProduct, Fin.sum_univ_succ, Fin.sum_univ_zero, add_zero]
          rw [show (1 - T) 0 0 = 1 - B 0 0 * A 0 0 by simp [hT, mul_apply]]
          field_simp
        conv_lhs => rw [← e1]
        rw [mulVec_mulVec, nonsing_inv_mul _ hu, one_mulVec]
      rw [hsol] at hs
      have hv := Except.ok.inj hx'
      rw [← hv]
      convert hs using 1
      simp only [mulVec, dotProduct, Fin.sum_univ_succ, Fin.sum_univ_zero, add_zero]
      ring
    · rw [if_neg hn] at hx
      have hx' : (solve (1 - B * A) e >>= fun y => Except.ok (NN ⬝ᵥ (A *ᵥ y))) = Except.ok x := hx
      unfold solve at hx'
      split_ifs at hx' with hd
      · cases hx'
      · have hv := Except.ok.inj hx'
        rw [← hv]
        exact hsum hd
  · rw [if_neg hq] at hx
    exact ⟨fun h0 => absurd h0 hq, fun _ => (Except.ok.inj hx).symm⟩

end Block

end Wafo.Mctp

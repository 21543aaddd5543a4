import Verif.Mctp.LoopLemmas
import Mathlib.LinearAlgebra.Matrix.Gershgorin
import Mathlib.Tactic.NormNum

/-!
# C282: the rainflow matrix of a Markov chain of turning points
-/

set_option linter.unusedSectionVars false

namespace Wafo.Mctp

open Wafo Matrix

variable {N : ℕ} {f g R : Mat}

theorem Ico_head (u : ℕ → ℝ) (a i : ℕ) (hi : 1 ≤ i) :
    ∑ x ∈ Finset.Ico a (a + i), u x = u a + ∑ x ∈ Finset.Ico (a + 1) (a + i), u x :=
  Finset.sum_eq_sum_Ico_succ_bot (by omega) u

/-- **C282** (`mctp2rfc`).  Take a square block of `i` classes of maxima from `r` and `i` classes of minima from `c`, away
from the first row and column and ending at the line where minimum and maximum are equal.  If the rainflow matrix has room
for cycles in the corner `(r, c)`, then the rainflow cycles in the block are the min-max cycles in it and the excursions
through it with any number of cycles inside: maxima in the block reached from below the block, followed by turning points
in it, followed by a maximum above it.  The excursions are left out if the rates of entering or the probabilities of
leaving are below the tolerance of the code.  If there is no room, the corner is zero.

Not proved: that these block sums are those of the rainflow count of a simulated chain. -/
theorem C282_blocks_partial (hfg : Rates N f g) (h : mctp2rfc N f g = .ok R) {r c i : ℕ} (hr : 1 ≤ r) (hc : 1 ≤ c)
    (hi : 1 ≤ i) (hrc : r + c + i + 1 = N) :
    let I := Finset.Ico r (r + i)
    let J := Finset.Ico c (c + i)
    let room := min (minima N f c - ∑ r' ∈ Finset.Ico (r + 1) (r + i), R r' c)
      (maxima N f r - ∑ c' ∈ Finset.Ico (c + 1) (c + i), R r c')
    let tol := 1e-6 * max (maxima N f r) (minima N f c)
    (room ≤ tol → R r c = 0) ∧
    (tol < room → ∃ x, block R I J = block f I J + x ∧
      ((∃ c' ∈ J, 1e-6 < |exit N f I c'|) ∧ (∃ r' ∈ I, tol < |enter N f J r'|) →
        HasSum (excursions N f g I J) x) ∧
      (¬ ((∃ c' ∈ J, 1e-6 < |exit N f I c'|) ∧ ∃ r' ∈ I, tol < |enter N f J r'|) → x = 0)) := by
  intro I J room tol
  obtain ⟨n, rfl⟩ : ∃ n, i = n + 1 := ⟨i - 1, by omega⟩
  obtain ⟨-, hgood, -⟩ := mctp2rfc_spec (by omega) h
  have hG := hgood (c + (n + 1)) n (by omega) (by omega) (by omega)
  unfold Good at hG
  have er : N - 1 - (c + (n + 1)) = r := by omega
  have ec : c + (n + 1) - (n + 1) = c := by omega
  rw [er, ec] at hG
  unfold cell at hG
  simp only [er, ec] at hG
  set P := put R r c 0 with hP
  have hP0 : P r c = 0 := by simp [hP, put]
  have hPn : ∀ a b, ¬ (a = r ∧ b = c) → P a b = R a b := fun a b hab => by rw [hP]; unfold put; rw [if_neg hab]
  have s1 : ∑ x : Fin (n + 1), P (r + x) (c + (0 : Fin (n + 1))) = ∑ r' ∈ Finset.Ico (r + 1) (r + (n + 1)), R r' c := by
    have := sum_Ico_fin (fun a => P a c) r (n + 1)
    simp only [Fin.val_zero, add_zero]
    rw [← this, Ico_head _ _ _ (by omega), hP0, zero_add]
    exact Finset.sum_congr rfl fun a ha => hPn a c (by have := Finset.mem_Ico.1 ha; omega)
  have s2 : ∑ x : Fin (n + 1), P (r + (0 : Fin (n + 1))) (c + x) = ∑ c' ∈ Finset.Ico (c + 1) (c + (n + 1)), R r c' := by
    have := sum_Ico_fin (fun a => P r a) c (n + 1)
    simp only [Fin.val_zero, add_zero]
    rw [← this, Ico_head _ _ _ (by omega), hP0, zero_add]
    exact Finset.sum_congr rfl fun a ha => hPn r a (by have := Finset.mem_Ico.1 ha; omega)
  have s3 : ∀ M : Mat, ∑ a : Fin (n + 1), ∑ b : Fin (n + 1), M (r + a) (c + b) = block M I J := fun M => by
    rw [block, sum_Ico_fin]
    exact Finset.sum_congr rfl fun a _ => (sum_Ico_fin (fun b => M (r + a) b) c (n + 1)).symm
  have s4 : block R I J = block P I J + R r c := by
    have b1 : block R I J - block P I J = R r c := by
      unfold block
      rw [← Finset.sum_sub_distrib, Finset.sum_eq_single r]
      · rw [← Finset.sum_sub_distrib, Finset.sum_eq_single c]
        · rw [hP0, sub_zero]
        · exact fun b _ hb => by rw [hPn r b (fun h => hb h.2), sub_self]
        · exact fun hb => absurd (Finset.mem_Ico.2 ⟨le_rfl, by omega⟩) hb
      · exact fun a _ ha => by
          rw [← Finset.sum_sub_distrib]
          exact Finset.sum_eq_zero fun b _ => by rw [hPn a b (fun h => ha h.1), sub_self]
      · exact fun hb => absurd (Finset.mem_Ico.2 ⟨le_rfl, by omega⟩) hb
    linarith
  have htol : 0 ≤ tol := mul_nonneg (by norm_num) (le_max_of_le_left
    (Finset.sum_nonneg fun b _ => hfg.f_nonneg r b))
  rw [s1, s2] at hG
  have hroom : (max (min (fmin N f (c + (0 : Fin (n + 1))) - ∑ r' ∈ Finset.Ico (r + 1) (r + (n + 1)), R r' c)
      (fmax N f (r + (0 : Fin (n + 1))) - ∑ c' ∈ Finset.Ico (c + 1) (c + (n + 1)), R r c')) 0 >
      1e-6 * max (fmax N f (r + (0 : Fin (n + 1)))) (fmin N f (c + (0 : Fin (n + 1))))) ↔ tol < room := by
    show tol < max room 0 ↔ tol < room
    rw [lt_max_iff]
    exact ⟨fun h => h.resolve_right (not_lt.2 htol), Or.inl⟩
  refine ⟨fun hle => ?_, fun hlt => ?_⟩
  · rw [if_neg (fun h => absurd (hroom.1 h) (not_lt.2 hle))] at hG
    exact (Except.ok.inj hG).symm
  · rw [if_pos (hroom.2 hlt)] at hG
    simp only [bind, Except.bind] at hG
    split at hG
    · cases hG
    · rename_i x hx
      have hv := Except.ok.inj hG
      rw [s3 f, s3 P] at hv
      obtain ⟨x1, x2⟩ := excess_spec hfg (by omega) (by omega) hx
      exact ⟨x, by rw [s4, ← hv]; ring, x1, x2⟩

/-- **C282** (`mctp2rfc`).  The rainflow matrix is zero on and beyond the line where minimum and maximum are equal; the
entry in the first column is what is left of the maxima of its row, but at most what is left of the minima of the lowest
class, and the entry in the first row is what is left of the minima of its column, but at most what is left of the
highest maxima. -/
theorem C282_margins_partial (hN : 3 ≤ N) (h : mctp2rfc N f g = .ok R) :
    (∀ r c, N ≤ r + c + 1 → R r c = 0) ∧
    R (N - 2) 0 = maxima N f (N - 2) ∧
    (∀ r, 1 ≤ r → r + 3 ≤ N → 0 ≤ R r 0 ∧
      R r 0 = min (max 0 (minima N f 0 - ∑ r' ∈ Finset.Ico (r + 2) N, R r' 0))
        (max 0 (maxima N f r - ∑ c ∈ Finset.Ico 1 (N - 1 - r), R r c)) ∧
      (∑ c ∈ Finset.Ico 1 (N - 1 - r), R r c ≤ maxima N f r → ∑ c ∈ Finset.range N, R r c ≤ maxima N f r)) ∧
    ∀ c, c + 2 ≤ N → 0 ≤ R 0 c ∧
      R 0 c = min (max 0 (minima N f c - ∑ r ∈ Finset.Ico 1 (N - c), R r c))
        (max 0 (maxima N f 0 - ∑ c' ∈ Finset.Ico (c + 1) N, R 0 c')) := by
  obtain ⟨h1, -, h3, h4, h5⟩ := mctp2rfc_spec hN h
  refine ⟨fun r c hrc => h1 r c (by omega), h3, fun r hr hrN => ?_, fun c hc => ?_⟩
  · have e := h4 (N - 1 - r) (by omega) (by omega)
    rw [show N - 1 - (N - 1 - r) = r by omega, show N - (N - 1 - r) + 1 = r + 2 by omega] at e
    refine ⟨by rw [e]; exact le_min (le_max_left _ _) (le_max_left _ _), e, fun hle => ?_⟩
    have hs : ∑ c ∈ Finset.range N, R r c = R r 0 + ∑ c ∈ Finset.Ico 1 (N - 1 - r), R r c := by
      rw [Finset.range_eq_Ico, Finset.sum_eq_sum_Ico_succ_bot (by omega : 0 < N),
        ← Finset.sum_Ico_consecutive _ (by omega : 0 + 1 ≤ N - 1 - r) (by omega : N - 1 - r ≤ N),
        Finset.sum_eq_zero (s := Finset.Ico (N - 1 - r) N) fun c hc => h1 r c (by have := Finset.mem_Ico.1 hc; omega),
        add_zero]
    have hle' : R r 0 ≤ maxima N f r - ∑ c ∈ Finset.Ico 1 (N - 1 - r), R r c := by
      rw [e]
      refine (min_le_right _ _).trans (max_le (by linarith) le_rfl)
    rw [hs]
    linarith
  · have e := h5 (N - 1 - c) (by omega) (by omega)
    rw [show N - 1 - (N - 1 - c) = c by omega, show N - 1 - c + 1 = N - c by omega,
      show N - (N - 1 - c) = c + 1 by omega] at e
    exact ⟨by rw [e]; exact le_min (le_max_left _ _) (le_max_left _ _), e⟩

/-- The solver succeeds if every minimum in the block may be followed by a maximum outside. -/
theorem excess_ok (h : Rates N f g) {r0 c0 n : ℕ} (hr : r0 + (n + 1) ≤ N) (hc : c0 + (n + 1) ≤ N)
    (hex : ∀ c, c0 ≤ c → c < c0 + (n + 1) → fmin N f c = 0 ∨ ∑ r : Fin (n + 1), f (r0 + r) c < fmin N f c) :
    ∃ x, excess (n := n) (fun r c => f (r0 + r) (c0 + c)) (fun r c => g (r0 + r) (c0 + c))
      (fun r => fmax N f (r0 + r)) (fun c => fmin N f (c0 + c)) = .ok x := by
  set A : Matrix (Fin (n + 1)) (Fin (n + 1)) ℝ := fun j c => quot (fmax N f (r0 + j)) (g (r0 + j) (c0 + c.rev)) with hA
  set B : Matrix (Fin (n + 1)) (Fin (n + 1)) ℝ := fun j c => quot (fmin N f (c0 + j.rev)) (f (r0 + c) (c0 + j.rev)) with hB
  have hmaxnn : ∀ r, 0 ≤ fmax N f r := fun r => Finset.sum_nonneg fun c _ => h.f_nonneg r c
  have hminnn : ∀ c, 0 ≤ fmin N f c := fun c => Finset.sum_nonneg fun r _ => h.f_nonneg r c
  have eA : ∀ j c, A j c = g (r0 + j) (c0 + c.rev) / fmax N f (r0 + j) := fun j c =>
    quot_eq fun h0 => le_antisymm ((h.g_max (by omega) (by omega)).trans h0.le) (h.g_nonneg _ _)
  have eB : ∀ j c, B j c = f (r0 + c) (c0 + j.rev) / fmin N f (c0 + j.rev) := fun j c =>
    quot_eq fun h0 => le_antisymm ((h.f_min (by omega)).trans h0.le) (h.f_nonneg _ _)
  have hAn : ∀ i j, 0 ≤ A i j := fun i j => by rw [eA]; exact div_nonneg (h.g_nonneg _ _) (hmaxnn _)
  have hBn : ∀ i j, 0 ≤ B i j := fun i j => by rw [eB]; exact div_nonneg (h.f_nonneg _ _) (hminnn _)
  have hA1 : ∀ i, (A *ᵥ fun _ => 1) i ≤ 1 := fun i => by
    simp only [mulVec, dotProduct, mul_one, eA]
    rw [← Finset.sum_div]
    refine div_le_one_of_le₀ ?_ (hmaxnn _)
    have e1 : ∑ j : Fin (n + 1), g (r0 + i) (c0 + j.rev) = ∑ j : Fin (n + 1), g (r0 + i) (c0 + j) :=
      Equiv.sum_comp Fin.revPerm (fun j : Fin (n + 1) => g (r0 + i) (c0 + j))
    rw [e1]
    exact (Ico_sum_le (u := fun c => g (r0 + i) c) (fun c => h.g_nonneg _ c) hc).trans
      (h.maxima_le _ (by omega))
  have hB1 : ∀ i, (B *ᵥ fun _ => 1) i < 1 := fun i => by
    simp only [mulVec, dotProduct, mul_one, eB]
    rw [← Finset.sum_div]
    rcases hex (c0 + i.rev) (by omega) (by omega) with h0 | h0
    · rw [h0, div_zero]; exact one_pos
    · exact (div_lt_one (lt_of_le_of_lt (Finset.sum_nonneg fun r _ => h.f_nonneg _ _) h0)).2 h0
  have hT1 : ∀ i, ((B * A) *ᵥ fun _ => 1) i < 1 := fun i => by
    rw [← mulVec_mulVec]
    exact (mulVec_mono hBn hA1 i).trans_lt (hB1 i)
  have hTn : ∀ i j, 0 ≤ (B * A) i j := fun i j => by
    rw [mul_apply]
    exact Finset.sum_nonneg fun k _ => mul_nonneg (hBn i k) (hAn k j)
  have hd : (1 - B * A).det ≠ 0 := by
    refine det_ne_zero_of_sum_row_lt_diag fun k => ?_
    have hs := hT1 k
    simp only [mulVec, dotProduct, mul_one] at hs
    rw [← Finset.add_sum_erase _ _ (Finset.mem_univ k)] at hs
    have e1 : ∑ j ∈ Finset.univ.erase k, ‖(1 - B * A) k j‖ = ∑ j ∈ Finset.univ.erase k, (B * A) k j :=
      Finset.sum_congr rfl fun j hj => by
        rw [Matrix.sub_apply, one_apply_ne (Finset.ne_of_mem_erase hj).symm, zero_sub, norm_neg,
          Real.norm_of_nonneg (hTn k j)]
    rw [e1, Matrix.sub_apply, one_apply_eq]
    refine lt_of_lt_of_le ?_ (le_abs_self _)
    linarith
  unfold excess
  simp only
  split_ifs with h1 h2 h3
  · exfalso
    subst h2
    refine hd ((det_fin_one (1 - B * A : Matrix (Fin 1) (Fin 1) ℝ)).trans ?_)
    refine Eq.trans ?_ h3
    have e1 : (1 - B * A) 0 0 = 1 - B 0 0 * A 0 0 := by simp [mul_apply]
    exact e1
  · exact ⟨_, rfl⟩
  · have hs : ∀ (e : Fin (n + 1) → ℝ) (F : (Fin (n + 1) → ℝ) → ℝ),
        ∃ x, (solve (1 - B * A) e >>= fun y => Except.ok (F y)) = .ok x := fun e F => by
      unfold solve
      rw [if_neg hd]
      exact ⟨_, rfl⟩
    exact hs _ _
  · exact ⟨_, rfl⟩

theorem cell_ok (h : Rates N f g) {k n : ℕ} (hk : k + 2 ≤ N) (hn : n + 1 < k) (hex : ∀ c, 1 ≤ c → c + 3 ≤ N → fmin N f c = 0 ∨ 0 < f 0 c)
    (R : Mat) : ∃ x, cell N f g R k n = .ok x := by
  unfold cell
  simp only
  split_ifs with h1
  · obtain ⟨x, hx⟩ := excess_ok h (r0 := N - 1 - k) (c0 := k - (n + 1)) (n := n) (by omega) (by omega) fun c hc1 hc2 => by
      refine (hex c (by omega) (by omega)).imp id fun h0 => ?_
      have := Ico_sum_le (u := fun r => f (r + 1) c) (fun r => h.f_nonneg _ c) (a := N - 1 - k - 1) (m := n + 1)
        (N := N - 1) (by omega)
      have e : fmin N f c = ∑ r ∈ Finset.range (N - 1), f (r + 1) c + f 0 c := by
        unfold fmin
        rw [← Finset.sum_range_succ' (fun r => f r c), show N - 1 + 1 = N by omega]
      rw [e]
      refine lt_of_le_of_lt ?_ (lt_add_of_pos_right _ h0)
      refine le_trans (le_of_eq (Finset.sum_congr rfl fun r _ => ?_)) this
      show f _ c = f _ c
      congr 1
      omega
    rw [hx]
    exact ⟨_, rfl⟩
  · exact ⟨_, rfl⟩

/-- **C282** (`mctp2rfc`).  If every class of minima between the lowest and the second highest is empty or may be followed
by the highest maximum, then there is a result: no equation is singular. -/
theorem C282_total (h : Rates N f g) (hN : 1 ≤ N)
    (hex : ∀ c, 1 ≤ c → c + 3 ≤ N → minima N f c = 0 ∨ 0 < f 0 c) : ∃ R, mctp2rfc N f g = .ok R := by
  have hi : ∀ k s R, k + 2 ≤ N → s + 1 ≤ k → ∃ R', inner N f g k s R = .ok R' := by
    intro k s R hk hs
    induction s with
    | zero => exact ⟨R, rfl⟩
    | succ s ih =>
      obtain ⟨R1, h1⟩ := ih (by omega)
      obtain ⟨x, hx⟩ := cell_ok h hk (by omega : s + 1 < k) hex R1
      simp only [inner, bind, Except.bind, h1, hx]
      exact ⟨_, rfl⟩
  have ho : ∀ t R, t + 3 ≤ N → ∃ R', outer N f g t R = .ok R' := by
    intro t R ht
    induction t with
    | zero => exact ⟨R, rfl⟩
    | succ t ih =>
      obtain ⟨R1, h1⟩ := ih (by omega)
      obtain ⟨R2, h2⟩ := hi (t + 2) (t + 2 - 1) R1 (by omega) (by omega)
      simp only [outer, bind, Except.bind, h1, h2]
      exact ⟨_, rfl⟩
  unfold mctp2rfc
  rw [if_neg (by omega)]
  by_cases h3 : 3 ≤ N
  · simp only [bind, Except.bind]
    obtain ⟨R', hR'⟩ := ho (N - 3) (put (put (fun _ _ => 0) (N - 2) 0 (fmax N f (N - 2))) 0 (N - 2) (fmin N f (N - 2))) (by omega)
    rw [hR']
    exact ⟨_, rfl⟩
  · rw [show N - 3 = 0 by omega]
    exact ⟨_, rfl⟩

/-- Four classes, one cycle from the lowest class and one from a class to itself. -/
def flat : Mat := fun r c => if (r = 1 ∧ c = 2) ∨ (r = 2 ∧ c = 0) then 1 else 0

theorem flat_sum (R : Mat) (h : mctp2rfc 4 flat flat = .ok R) : R 1 1 = 0 := by
  have hfg : Rates 4 flat flat := ⟨fun r c => by unfold flat; split_ifs <;> norm_num,
    fun r c => by unfold flat; split_ifs <;> norm_num, fun _ _ => le_rfl⟩
  refine (C282_blocks_partial hfg h (r := 1) (c := 1) (i := 1) le_rfl le_rfl le_rfl rfl).1 ?_
  norm_num [minima, maxima, flat, Finset.sum_range_succ]

theorem flat_rates : Rates 4 flat flat := ⟨fun r c => by unfold flat; split_ifs <;> norm_num,
    fun r c => by unfold flat; split_ifs <;> norm_num, fun _ _ => le_rfl⟩

theorem flat_ok : ∃ R, mctp2rfc 4 flat flat = .ok R :=
  C282_total flat_rates (by norm_num) fun c h1 h2 => Or.inl (by
    obtain rfl : c = 1 := by omega
    norm_num [minima, flat, Finset.sum_range_succ])

/-- **C282** (`mctp2rfc`): the sum for the first column leaves out the row which was filled last, so that the rainflow
matrix may have more cycles from the lowest class than there are minima in it: here two, where there is one.  The sum
over all rows filled so far would give at most one. -/
theorem C282_column_refuted : ∃ (N : ℕ) (f : Mat), Rates N f f ∧ ∃ R, mctp2rfc N f f = .ok R ∧
    minima N f 0 < ∑ r ∈ Finset.Ico 1 N, R r 0 := by
  refine ⟨4, flat, flat_rates, ?_⟩
  obtain ⟨R, hR⟩ := flat_ok
  refine ⟨R, hR, ?_⟩
  obtain ⟨h1, h2, h3, -⟩ := C282_margins_partial (by norm_num) hR
  have e3 : R 3 0 = 0 := h1 3 0 (by norm_num)
  have e2 : R 2 0 = 1 := by rw [h2]; norm_num [maxima, flat, Finset.sum_range_succ]
  have e1 := (h3 1 le_rfl (by norm_num)).2.1
  have e11 := flat_sum R hR
  have s1 : ∑ r' ∈ Finset.Ico (1 + 2) 4, R r' 0 = 0 := by
    rw [show Finset.Ico (1 + 2) 4 = {3} by rfl, Finset.sum_singleton, e3]
  have s2 : ∑ c ∈ Finset.Ico 1 (4 - 1 - 1), R 1 c = 0 := by
    rw [show Finset.Ico 1 (4 - 1 - 1) = {1} by rfl, Finset.sum_singleton, e11]
  rw [s1, s2] at e1
  have m0 : minima 4 flat 0 = 1 := by norm_num [minima, flat, Finset.sum_range_succ]
  have m1 : maxima 4 flat 1 = 1 := by norm_num [maxima, flat, Finset.sum_range_succ]
  rw [m0, m1] at e1
  rw [m0, show Finset.Ico 1 4 = {1, 2, 3} by rfl]
  norm_num [e1, e2, e3]

/-- The example of the documentation: five classes. -/
noncomputable def doc : Mat := fun r c =>
  (([[183, 160, 2, 0, 0], [178, 5405, 952, 0, 0], [2, 813, 0, 0, 0]].getD r []).getD c 0 : ℕ) / 10000

theorem doc_rates : Rates 5 doc doc :=
  ⟨fun r c => by unfold doc; positivity, fun r c => by unfold doc; positivity, fun _ _ => le_rfl⟩

theorem doc_ok : ∃ R, mctp2rfc 5 doc doc = .ok R :=
  C282_total doc_rates (by norm_num) fun c h1 h2 => Or.inr (by
    obtain rfl | rfl : c = 1 ∨ c = 2 := by omega
    all_goals norm_num [doc])

/-- In the example there is room for a cycle in the corner of the block of one class. -/
example : ∃ R, mctp2rfc 5 doc doc = .ok R ∧ ∃ x, R 1 2 = 952 / 10000 + x ∧
    HasSum (excursions 5 doc doc (Finset.Ico 1 2) (Finset.Ico 2 3)) x := by
  obtain ⟨R, hR⟩ := doc_ok
  refine ⟨R, hR, ?_⟩
  obtain ⟨x, hx, h1, -⟩ := (C282_blocks_partial doc_rates hR (r := 1) (c := 2) (i := 1) le_rfl (by norm_num) le_rfl rfl).2 (by
    norm_num [minima, maxima, doc, Finset.sum_range_succ])
  refine ⟨x, ?_, h1 ⟨⟨2, by decide, ?_⟩, ⟨1, by decide, ?_⟩⟩⟩
  · have e : block R (Finset.Ico 1 (1 + 1)) (Finset.Ico 2 (2 + 1)) = R 1 2 := by
      rw [block, show Finset.Ico 1 (1 + 1) = {1} by rfl, show Finset.Ico 2 (2 + 1) = {2} by rfl]
      simp
    have e' : block doc (Finset.Ico 1 (1 + 1)) (Finset.Ico 2 (2 + 1)) = 952 / 10000 := by
      rw [block, show Finset.Ico 1 (1 + 1) = {1} by rfl, show Finset.Ico 2 (2 + 1) = {2} by rfl]
      norm_num [doc]
    rw [e, e'] at hx
    exact hx
  · rw [show Finset.Ico 1 (1 + 1) = {1} by rfl]
    norm_num [exit, minima, doc, Finset.sum_range_succ]
  · rw [show Finset.Ico 2 (2 + 1) = {2} by rfl]
    norm_num [enter, minima, maxima, doc, Finset.sum_range_succ]

/-- The margins of the example. -/
example : ∃ R, mctp2rfc 5 doc doc = .ok R ∧ 0 ≤ R 1 0 ∧ 0 ≤ R 0 1 ∧ R 2 2 = 0 := by
  obtain ⟨R, hR⟩ := doc_ok
  obtain ⟨h1, -, h3, h4⟩ := C282_margins_partial (by norm_num) hR
  exact ⟨R, hR, (h3 1 le_rfl (by norm_num)).1, (h4 1 (by norm_num)).1, h1 2 2 (by norm_num)⟩

end Wafo.Mctp

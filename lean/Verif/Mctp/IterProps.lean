import Verif.Mctp.Props
import Mathlib.Algebra.Order.BigOperators.Group.Finset

/-!
# C283: inverting a rainflow matrix by iteration
-/

set_option linter.unusedSectionVars false

namespace Wafo.Mctp

open Wafo

/-- The sum of the distances of the entries. -/
noncomputable def dist1 (N : ℕ) (a b : Mat) : ℝ := ∑ r ∈ Finset.range N, ∑ c ∈ Finset.range N, |a r c - b r c|

/-- `x` is the sequence of corrected matrices: in every step the difference between the wanted and the present rainflow
matrix is added, and negative entries are replaced by zero. -/
structure Corrects (F : Mat → Except PyErr Mat) (target start : Mat) (x y : ℕ → Mat) (j : ℕ) : Prop where
  start : x 0 = start
  rfc : ∀ i, i < j → F (x i) = .ok (y i)
  step : ∀ i, i < j → ∀ r c, x (i + 1) r c = max 0 (x i r c + (target r c - y i r c))

variable {N : ℕ} {F : Mat → Except PyErr Mat} {R : Mat} {eps : ℝ}

theorem rawLoop_spec {target : Mat} : ∀ (k : ℕ) (m M : Mat), rawLoop N F target eps k m = .ok M →
    ∃ x y j, Corrects F target m x y j ∧ j ≤ k ∧ M = x j ∧
      (∀ i, i + 1 < j → eps < dist1 N (x i) (x (i + 1))) ∧
      (j < k → 1 ≤ j ∧ dist1 N (x (j - 1)) (x j) ≤ eps) ∧ (1 ≤ k → 1 ≤ j) := by
  intro k
  induction k with
  | zero =>
    intro m M h
    simp only [rawLoop] at h
    exact ⟨fun _ => m, fun _ => m, 0, ⟨rfl, fun i hi => absurd hi (by omega), fun i hi => absurd hi (by omega)⟩, le_rfl,
      (Except.ok.inj h).symm, fun i hi => absurd hi (by omega), fun h => absurd h (by omega), fun h => absurd h (by omega)⟩
  | succ k ih =>
    intro m M h
    simp only [rawLoop] at h
    cases hF : F m with
    | error e => rw [hF] at h; cases h
    | ok f =>
      rw [hF] at h
      simp only at h
      split_ifs at h with hc
      · set m' : Mat := fun r c => max 0 (m r c + (target r c - f r c)) with hm'
        obtain ⟨x, y, j, hx, hj, hM, h1, h2, h3⟩ := ih m' M h
        refine ⟨fun i => if i = 0 then m else x (i - 1), fun i => if i = 0 then f else y (i - 1), j + 1,
          ⟨by simp, fun i hi => ?_, fun i hi r c => ?_⟩, by omega, by simpa using hM, fun i hi => ?_, fun hlt => ⟨by omega, ?_⟩,
          fun _ => by omega⟩
        · rcases Nat.eq_zero_or_pos i with rfl | hp
          · simpa using hF
          · simp only [if_neg (by omega : i ≠ 0)]
            exact hx.rfc _ (by omega)
        · rcases Nat.eq_zero_or_pos i with rfl | hp
          · simp only [zero_add, if_neg one_ne_zero, Nat.sub_self, if_pos rfl]
            rw [hx.start]
            simp [hm']
          · simp only [if_neg (by omega : i ≠ 0), if_neg (by omega : i + 1 ≠ 0)]
            rw [show i + 1 - 1 = i - 1 + 1 by omega]
            exact hx.step _ (by omega) r c
        · rcases Nat.eq_zero_or_pos i with rfl | hp
          · simp only [zero_add, if_neg one_ne_zero, Nat.sub_self, if_pos rfl]
            rw [hx.start]
            exact hc
          · simp only [if_neg (by omega : i ≠ 0), if_neg (by omega : i + 1 ≠ 0)]
            rw [show i + 1 - 1 = i - 1 + 1 by omega]
            exact h1 _ (by omega)
        · obtain ⟨hp, h2⟩ := h2 (by omega)
          simp only [Nat.add_sub_cancel, if_neg (by omega : j ≠ 0), if_neg (by omega : j + 1 ≠ 0)]
          exact h2
      · set m' : Mat := fun r c => max 0 (m r c + (target r c - f r c)) with hm'
        refine ⟨fun i => if i = 0 then m else m', fun _ => f, 1, ⟨by simp, fun i hi => ?_, fun i hi r c => ?_⟩, by omega,
          by simpa using (Except.ok.inj h).symm, fun i hi => absurd hi (by omega), fun _ => ⟨le_rfl, ?_⟩, fun _ => le_rfl⟩
        · obtain rfl : i = 0 := by omega
          simpa using hF
        · obtain rfl : i = 0 := by omega
          simp [hm']
        · simp only [Nat.sub_self, if_pos rfl, if_neg one_ne_zero]
          exact not_lt.1 hc

/-- **C283** (`iter_`, `_raw_iter`).  The result is obtained from the start matrix by at most `k` corrections; all steps
but the last moved by more than `epsilon`, and if fewer than `k` steps were taken the last one moved by at most
`epsilon`.  The second result is the rainflow matrix of the first one.  After one step no entry is negative, and where the
last step moved by at most `epsilon`, every entry of the rainflow matrix of the last but one matrix is within `epsilon` of
the wanted one, or it is larger and the entry of the result is zero. -/
theorem C283_iter {fmM0 : Option Mat} {k : ℕ} {X Y : Mat} (h : rawIter N F R fmM0 k eps = .ok (X, Y)) :
    ∃ x y j, Corrects F (fliplr N R) (fliplr N (fmM0.getD R)) x y j ∧ j ≤ k ∧
      (∃ Z, F (x j) = .ok Z ∧ X = fliplr N (x j) ∧ Y = fliplr N Z) ∧
      (∀ i, i + 1 < j → eps < dist1 N (x i) (x (i + 1))) ∧
      (j < k → 1 ≤ j ∧ dist1 N (x (j - 1)) (x j) ≤ eps) ∧
      (1 ≤ k → 1 ≤ j ∧ ∀ r c, 0 ≤ X r c) ∧
      (1 ≤ j → dist1 N (x (j - 1)) (x j) ≤ eps → ∀ r c, r < N → c < N →
        |R r c - y (j - 1) r (N - 1 - c)| ≤ eps ∨ (X r c = 0 ∧ R r c ≤ y (j - 1) r (N - 1 - c))) := by
  unfold rawIter at h
  simp only [bind, Except.bind] at h
  split at h
  · cases h
  · rename_i M hM
    split at h
    · cases h
    · rename_i Z hZ
      have hv := Except.ok.inj h
      rw [Prod.mk.injEq] at hv
      obtain ⟨x, y, j, hx, hj, rfl, h1, h2, h3⟩ := rawLoop_spec k _ M hM
      refine ⟨x, y, j, hx, hj, ⟨Z, hZ, hv.1.symm, hv.2.symm⟩, h1, h2, fun hk => ⟨h3 hk, fun r c => ?_⟩, fun hj1 hd r c hr hc => ?_⟩
      · rw [← hv.1]
        obtain ⟨i, rfl⟩ : ∃ i, j = i + 1 := ⟨j - 1, by have := h3 hk; omega⟩
        show 0 ≤ x (i + 1) r (N - 1 - c)
        rw [hx.step i (by omega)]
        exact le_max_left _ _
      · obtain ⟨i, rfl⟩ : ∃ i, j = i + 1 := ⟨j - 1, by omega⟩
        simp only [Nat.add_sub_cancel] at hd ⊢
        have hc' : N - 1 - c < N := by omega
        have hle : |x i r (N - 1 - c) - x (i + 1) r (N - 1 - c)| ≤ eps := by
          refine le_trans ?_ hd
          refine le_trans ?_ (Finset.single_le_sum (f := fun r => ∑ c ∈ Finset.range N, |x i r c - x (i + 1) r c|)
            (fun r _ => Finset.sum_nonneg fun c _ => abs_nonneg _) (Finset.mem_range.2 hr))
          exact Finset.single_le_sum (f := fun c => |x i r c - x (i + 1) r c|)
            (fun c _ => abs_nonneg _) (Finset.mem_range.2 hc')
        have hs := hx.step i (by omega) r (N - 1 - c)
        have hRc : fliplr N R r (N - 1 - c) = R r c := by
          unfold fliplr
          rw [show N - 1 - (N - 1 - c) = c by omega]
        rw [hRc] at hs
        have hXe : X r c = x (i + 1) r (N - 1 - c) := by rw [← hv.1]; rfl
        rcases le_total (x i r (N - 1 - c) + (R r c - y i r (N - 1 - c))) 0 with hneg | hpos
        · rw [max_eq_left hneg] at hs
          rw [hs, sub_zero] at hle
          by_cases hRy : R r c ≤ y i r (N - 1 - c)
          · exact Or.inr ⟨by rw [hXe, hs], hRy⟩
          · left
            rw [abs_of_nonneg (by linarith)]
            have := neg_abs_le (x i r (N - 1 - c))
            linarith
        · rw [max_eq_right hpos] at hs
          left
          rw [hs] at hle
          rw [abs_sub_comm] at hle
          convert hle using 2
          ring

/-- **C283** (`iter_`, `_raw_iter`).  A matrix without negative entries whose rainflow matrix is the wanted one is returned
unchanged, with the wanted rainflow matrix. -/
theorem C283_fixed {A : Mat} (hA : ∀ r c, 0 ≤ A r c) (hF : F (fliplr N A) = .ok (fliplr N R)) (k : ℕ) :
    rawIter N F R (some A) k eps = .ok (fliplr N (fliplr N A), fliplr N (fliplr N R)) ∧
    ∀ M : Mat, ∀ r c, c < N → fliplr N (fliplr N M) r c = M r c := by
  have hl : ∀ k, rawLoop N F (fliplr N R) eps k (fliplr N A) = .ok (fliplr N A) := by
    intro k
    induction k with
    | zero => rfl
    | succ k ih =>
      simp only [rawLoop, hF]
      have e : (fun r c => max 0 (fliplr N A r c + (fliplr N R r c - fliplr N R r c))) = fliplr N A := by
        funext r c
        rw [sub_self, add_zero]
        exact max_eq_right (hA _ _)
      rw [e]
      split_ifs
      · exact ih
      · rfl
  refine ⟨?_, fun M r c hc => ?_⟩
  · unfold rawIter
    simp only [Option.getD_some, hl, hF, bind, Except.bind]
  · unfold fliplr
    rw [show N - 1 - (N - 1 - c) = c by omega]

/-- One cycle in two classes. -/
def one : Mat := fun r c => if r = 0 ∧ c = 1 then 1 else 0

theorem one_flip : fliplr 2 one = fun r c => if r = 0 ∧ c = 0 then 1 else 0 := by
  funext r c
  unfold fliplr one
  congr 1
  exact propext ⟨fun h => ⟨h.1, by omega⟩, fun h => ⟨h.1, by omega⟩⟩

theorem one_rfc : mctp2rfc 2 (fliplr 2 one) (fliplr 2 one) = .ok (fliplr 2 one) := by
  rw [one_flip]
  unfold mctp2rfc
  rw [if_neg (by norm_num)]
  rw [show 2 - 3 = 0 by rfl]
  simp only [bind, Except.bind, outer, last]
  congr 1
  funext r c
  have s1 : Finset.Ico 1 (0 + 1 + 1) = {1} := rfl
  have s2 : Finset.Ico (2 - (0 + 1)) 2 = {1} := rfl
  by_cases h : r = 0 ∧ c = 0
  · rw [if_pos h, h.1, h.2]
    simp only [s1, s2, Finset.sum_singleton]
    norm_num [put, fmin, fmax, Finset.sum_range_succ]
  · rw [if_neg h]
    simp [put, h]

/-- The function passed by `iter_`, a matrix which is its own rainflow matrix. -/
example : ∃ X Y, rawIter 2 (fun m => mctp2rfc 2 m m) one (some one) 3 (1 / 100000) = .ok (X, Y) ∧
    X 0 1 = 1 ∧ Y 0 1 = 1 ∧ ∀ r c, 0 ≤ X r c := by
  have hf := C283_fixed (N := 2) (F := fun m => mctp2rfc 2 m m) (R := one) (A := one) (eps := 1 / 100000)
    (fun r c => by unfold one; split_ifs <;> norm_num) one_rfc 3
  obtain ⟨x, y, j, -, -, -, -, -, h, -⟩ := C283_iter hf.1
  exact ⟨_, _, hf.1, by rw [hf.2 _ _ _ (by norm_num)]; simp [one], by rw [hf.2 _ _ _ (by norm_num)]; simp [one],
    (h (by norm_num)).2⟩

end Wafo.Mctp

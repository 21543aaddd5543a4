import Verif.Spline.Lemmas
import Verif.Spline.Calc

/-! The function computed by `SmoothSpline` is the smoothing spline. -/

set_option linter.unusedSectionVars false

namespace Wafo.Spline

open Wafo Matrix Finset

variable {x y v : ℕ → ℝ} {p : ℝ} {m : ℕ} {u : Fin m → ℝ}

/-- jumps of the third derivative -/
noncomputable def jump (x : ℕ → ℝ) (m : ℕ) (u : Fin m → ℝ) (k : ℕ) : ℝ := third x m u (k + 1) - third x m u k

theorem ai_eq (h1 : p ≤ 1) (i : ℕ) : ai x y v p m u i = y i - 6 * (1 - p) * (v i * jump x m u i) := by
  rw [ai]
  split
  · rfl
  · have : p = 1 := le_antisymm h1 (not_lt.1 ‹_›)
    rw [this]; ring

theorem ci_eq (i : ℕ) : ci p m u i = 3 * p * pad m u i := by
  rw [ci, pad]; split
  · rfl
  · simp

theorem di_eq {i : ℕ} (hi : i ≤ m) : di x p m u i = p * third x m u (i + 1) := by
  rw [di, ci_eq, ci_eq, third_succ x m u hi]; ring

theorem pad_step (hx : ∀ i, i ≤ m → 0 < dx x i) {i : ℕ} (hi : i ≤ m) :
    third x m u (i + 1) * dx x i = pad m u (i + 1) - pad m u i := by
  have := hx i hi
  rw [third_succ x m u hi, dx1]; field_simp

theorem sum_jump (n : ℕ) : ∑ k ∈ range n, jump x m u k = third x m u n := by
  have := Finset.sum_range_sub (third x m u) n
  rw [third_zero, sub_zero] at this
  exact this

theorem sum_jump_all : ∑ k ∈ range (m + 2), jump x m u k = 0 := by
  rw [sum_jump, third_big x m u (by omega)]

theorem sum_jump_mul (hx : ∀ i, i ≤ m → 0 < dx x i) (n : ℕ) (hn : n ≤ m + 1) :
    ∑ k ∈ range (n + 1), jump x m u k * (x n - x k) = pad m u n := by
  induction n with
  | zero => simp [pad_zero]
  | succ n ih =>
    rw [Finset.sum_range_succ, sub_self, mul_zero, add_zero]
    have e : ∀ k ∈ range (n + 1), jump x m u k * (x (n + 1) - x k) =
        jump x m u k * (x n - x k) + jump x m u k * dx x n := fun k _ => by rw [dx]; ring
    rw [Finset.sum_congr rfl e, Finset.sum_add_distrib, ih (by omega), ← Finset.sum_mul, sum_jump, pad_step hx (by omega)]
    ring

theorem sum_jump_end (hx : ∀ i, i ≤ m → 0 < dx x i) :
    ∑ k ∈ range (m + 2), jump x m u k * (x (m + 1) - x k) = 0 := by
  rw [sum_jump_mul hx (m + 1) le_rfl, pad_big m u (by omega)]

theorem mono_x (hx : ∀ i, i ≤ m → 0 < dx x i) {i j : ℕ} (hij : i ≤ j) (hj : j ≤ m + 1) : x i ≤ x j := by
  induction j with
  | zero => rw [Nat.le_zero.1 hij]
  | succ j ih =>
    rcases Nat.lt_or_ge i (j + 1) with h | h
    · have := ih (by omega) (by omega)
      have h2 := hx j (by omega)
      rw [dx] at h2
      linarith
    · rw [le_antisymm hij h]

/-- value at the right end of a piece -/
theorem ai_step (hx : ∀ i, i ≤ m → 0 < dx x i) {j : ℕ} (hj : j ≤ m) : ai x y v p m u (j + 1) =
    ai x y v p m u j + bi x y v p m u j * (x (j + 1) - x j) + ci p m u j * (x (j + 1) - x j) ^ 2 +
      di x p m u j * (x (j + 1) - x j) ^ 3 := by
  have h := hx j hj
  rw [bi, dx1]
  change _ = _ + _ * dx x j + _ * dx x j ^ 2 + _ * dx x j ^ 3
  field_simp; ring

theorem ci_step (hx : ∀ i, i ≤ m → 0 < dx x i) {j : ℕ} (hj : j ≤ m) :
    ci p m u (j + 1) = ci p m u j + 3 * di x p m u j * (x (j + 1) - x j) := by
  have h := hx j hj
  rw [di, dx1]
  change _ = _ + _ * dx x j
  field_simp; ring

theorem bi_step (hx : ∀ i, i ≤ m → 0 < dx x i) (h1 : p ≤ 1)
    (hu : ∀ j : Fin m, (QQ x v p m *ᵥ u) j = ddiff x y j) {j : ℕ} (hj : j < m) : bi x y v p m u (j + 1) =
    bi x y v p m u j + 2 * ci p m u j * (x (j + 1) - x j) + 3 * di x p m u j * (x (j + 1) - x j) ^ 2 := by
  have e := hu ⟨j, hj⟩
  rw [QQ_mul] at e
  simp only [ddiff, Qu] at e
  have c1 := ci_step (p := p) (u := u) hx hj.le
  have c2 := ci_step (p := p) (u := u) hx (show j + 1 ≤ m by omega)
  have p1 := ci_eq (p := p) (u := u) j
  have p2 := ci_eq (p := p) (u := u) (j + 1)
  have p3 := ci_eq (p := p) (u := u) (j + 2)
  rw [bi, bi, ai_eq h1, ai_eq h1, ai_eq h1]
  simp only [jump]
  change _ = _ + _ * dx x j + _ * dx x j ^ 2
  have c1' : di x p m u j * dx x j = p * (pad m u (j + 1) - pad m u j) := by
    rw [p1, p2] at c1
    change _ = _ + _ * dx x j at c1
    linarith
  have c2' : di x p m u (j + 1) * dx x (j + 1) = p * (pad m u (j + 2) - pad m u (j + 1)) := by
    rw [p2, p3] at c2
    change _ = _ + _ * dx x (j + 1) at c2
    linarith
  rw [p1, p2]
  linear_combination -e - dx x (j + 1) * c2' - 2 * dx x j * c1'

section core
variable (hx : ∀ i, i ≤ m → 0 < dx x i) (hv : ∀ i, i < m + 2 → 0 < v i) (h0 : 0 ≤ p) (h1 : p ≤ 1)
  (hu : ∀ j : Fin m, (QQ x v p m *ᵥ u) j = ddiff x y j)
include hx hv h0 h1 hu

/-- the function on the pieces -/
theorem core_piece {j : ℕ} (hj : j ≤ m) (t : ℝ) (l : x j ≤ t) (r : t ≤ x (j + 1)) :
    nat0 (m + 2) x (jump x m u) p (ai x y v p m u 0) (bi x y v p m u 0) t =
      ai x y v p m u j + bi x y v p m u j * (t - x j) + ci p m u j * (t - x j) ^ 2 + di x p m u j * (t - x j) ^ 3 := by
  rw [nat0, trunc_sum x _ 3 (by norm_num) (show j + 1 ≤ m + 2 by omega) t
    (fun i hi => (mono_x hx (by omega) (by omega)).trans l) (fun i hi hi2 => r.trans (mono_x hx hi (by omega)))]
  refine pieces m x (jump x m u) _ _ _ _ p ?_ ?_ ?_ (fun j hj => ai_step hx hj.le) (fun j hj => bi_step hx h1 hu hj)
    (fun j hj => ci_step hx hj.le) t j hj
  · rw [ci_eq, pad_zero, mul_zero]
  · rw [di_eq (by omega), jump, third_zero]; ring
  · intro j hj
    rw [di_eq (by omega), di_eq (by omega), jump]; ring

theorem core_left (t : ℝ) (ht : t ≤ x 0) :
    nat0 (m + 2) x (jump x m u) p (ai x y v p m u 0) (bi x y v p m u 0) t =
      ai x y v p m u 0 + bi x y v p m u 0 * (t - x 0) := by
  rw [nat0, trunc_sum x _ 3 (by norm_num) (show 0 ≤ m + 2 by omega) t (fun i hi => absurd hi (by omega))
    (fun i hi hi2 => ht.trans (mono_x hx hi (by omega)))]
  simp

theorem core_right (t : ℝ) (ht : x (m + 1) ≤ t) :
    nat0 (m + 2) x (jump x m u) p (ai x y v p m u 0) (bi x y v p m u 0) t =
      ai x y v p m u (m + 1) + (bi x y v p m u m + 2 * ci p m u m * (x (m + 1) - x m) +
        3 * di x p m u m * (x (m + 1) - x m) ^ 2) * (t - x (m + 1)) := by
  rw [nat0, trunc_sum x _ 3 (by norm_num) (show m + 2 ≤ m + 2 by omega) t
    (fun i hi => (mono_x hx (by omega) (by omega)).trans ht) (fun i hi hi2 => absurd hi (by omega)),
    Finset.sum_range_succ]
  have e := pieces m x (jump x m u) (ai x y v p m u) (bi x y v p m u) (ci p m u) (di x p m u) p
    (by rw [ci_eq, pad_zero, mul_zero]) (by rw [di_eq (by omega), jump, third_zero]; ring)
    (fun j hj => by rw [di_eq (by omega), di_eq (by omega), jump]; ring) (fun j hj => ai_step hx hj.le)
    (fun j hj => bi_step hx h1 hu hj) (fun j hj => ci_step hx hj.le) t m le_rfl
  have c := ci_step (p := p) (u := u) hx (le_refl m)
  rw [ci_eq (m + 1), pad_big m u (by omega), mul_zero] at c
  have d : p * jump x m u (m + 1) = - di x p m u m := by
    rw [di_eq le_rfl, jump, third_big x m u (by omega)]; ring
  have a := ai_step (y := y) (v := v) (p := p) (u := u) hx (le_refl m)
  rw [a]
  linear_combination e + (t - x (m + 1)) ^ 3 * d - (t - x (m + 1)) ^ 2 * c

theorem core_knot {i : ℕ} (hi : i < m + 2) :
    nat0 (m + 2) x (jump x m u) p (ai x y v p m u 0) (bi x y v p m u 0) (x i) = ai x y v p m u i := by
  rcases Nat.lt_or_ge i (m + 1) with h | h
  · rw [core_piece hx hv h0 h1 hu (show i ≤ m by omega) (x i) le_rfl (mono_x hx (by omega) (by omega))]; simp
  · obtain rfl : i = m + 1 := by omega
    rw [core_right hx hv h0 h1 hu _ le_rfl]; simp

theorem core : SmoothingSpline p (m + 2) x y v
    (nat0 (m + 2) x (jump x m u) p (ai x y v p m u 0) (bi x y v p m u 0))
    (nat1 (m + 2) x (jump x m u) p (bi x y v p m u 0)) (nat2 (m + 2) x (jump x m u) p) := by
  set S := nat0 (m + 2) x (jump x m u) p (ai x y v p m u 0) (bi x y v p m u 0) with hS
  set S1 := nat1 (m + 2) x (jump x m u) p (bi x y v p m u 0) with hS1
  set S2 := nat2 (m + 2) x (jump x m u) p with hS2
  have hle : x 0 < x (m + 1) := by
    have a := hx 0 (by omega)
    have b := mono_x hx (show 1 ≤ m + 1 by omega) le_rfl
    rw [dx] at a
    simp only [zero_add] at a
    linarith
  have hx1 : x 0 < x 1 := by
    have a := hx 0 (by omega)
    rw [dx] at a
    simp only [zero_add] at a
    linarith
  have m1 : x 1 ∈ Set.Icc (x 0) (x (m + 1)) := ⟨hx1.le, mono_x hx (by omega) le_rfl⟩
  have sm : Smooth (x 0) (x (m + 1)) S S1 S2 := nat_smooth _ _ _ _ _ _ _ _
  have res : ∀ i, i < m + 2 → (y i - S (x i)) / v i = 6 * (1 - p) * jump x m u i := fun i hi => by
    rw [hS, core_knot hx hv h0 h1 hu hi, ai_eq h1]
    have := hv i hi
    field_simp
    ring
  have orth : ∀ g g1 g2, Smooth (x 0) (x (m + 1)) g g1 g2 → ∫ t in (x 0)..(x (m + 1)), S2 t * (g2 t - S2 t) =
      6 * p * ∑ i ∈ range (m + 2), jump x m u i * (g (x i) - S (x i)) := fun g g1 g2 hg =>
    integral_nat2 (n := m + 1) (fun i hi => ⟨mono_x hx (by omega) (by omega), mono_x hx (by omega) le_rfl⟩)
      sum_jump_all (sum_jump_end hx) (hg.sub sm)
  have mis : ∀ g : ℝ → ℝ, misfit (m + 2) x y v g = misfit (m + 2) x y v S -
      12 * (1 - p) * (∑ i ∈ range (m + 2), jump x m u i * (g (x i) - S (x i))) +
        ∑ i ∈ range (m + 2), (g (x i) - S (x i)) ^ 2 / v i := fun g => by
    rw [misfit_add (m + 2) x y v S g, Finset.sum_congr rfl fun i hi => by rw [res i (mem_range.1 hi)],
      Finset.mul_sum, Finset.mul_sum]
    congr 2
    exact Finset.sum_congr rfl fun i _ => by ring
  have rgh : ∀ g g1 g2, Smooth (x 0) (x (m + 1)) g g1 g2 → rough (x 0) (x (m + 1)) g2 = rough (x 0) (x (m + 1)) S2 +
      12 * p * (∑ i ∈ range (m + 2), jump x m u i * (g (x i) - S (x i))) +
        rough (x 0) (x (m + 1)) (fun t => g2 t - S2 t) := fun g g1 g2 hg => by
    rw [rough_add hle.le sm.cont hg.cont, orth g g1 g2 hg]; ring
  have sq0 : ∀ g : ℝ → ℝ, ∀ i ∈ range (m + 2), 0 ≤ (g (x i) - S (x i)) ^ 2 / v i := fun g i hi =>
    div_nonneg (sq_nonneg _) (hv i (mem_range.1 hi)).le
  have sqz : ∀ g : ℝ → ℝ, ∑ i ∈ range (m + 2), (g (x i) - S (x i)) ^ 2 / v i ≤ 0 → ∀ i, i < m + 2 → g (x i) - S (x i) = 0 := by
    intro g hz i hi
    have := (Finset.sum_eq_zero_iff_of_nonneg (sq0 g)).1 (le_antisymm hz (Finset.sum_nonneg (sq0 g))) i (mem_range.2 hi)
    rcases div_eq_zero_iff.1 this with h | h
    · exact pow_eq_zero_iff two_ne_zero |>.1 h
    · exact absurd h (hv i hi).ne'
  have cst : ∀ g g1 g2, Smooth (x 0) (x (m + 1)) g g1 g2 → cost p (m + 2) x y v g g2 = cost p (m + 2) x y v S S2 +
      p * (∑ i ∈ range (m + 2), (g (x i) - S (x i)) ^ 2 / v i) +
      (1 - p) * rough (x 0) (x (m + 1)) (fun t => g2 t - S2 t) := fun g g1 g2 hg => by
    rw [cost, cost, show m + 2 - 1 = m + 1 from rfl, mis g, rgh g g1 g2 hg]; ring
  refine ⟨nat0_deriv _ _ _ _ _ _, nat1_deriv _ _ _ _ _, nat2_cont _ _ _ _, ?_, ?_, ?_, ?_, ?_⟩
  · rintro t (ht | ht)
    · rw [hS2, nat2, Finset.sum_eq_zero, mul_zero]
      intro i hi
      rw [max_eq_right (sub_nonpos.2 (ht.trans (mono_x hx (Nat.zero_le _) (by have := mem_range.1 hi; omega))))]; simp
    · have e : ∀ i ∈ range (m + 2), jump x m u i * (6 * max (t - x i) 0) =
          6 * (jump x m u i * (x (m + 1) - x i)) + 6 * (t - x (m + 1)) * jump x m u i := fun i hi => by
        rw [max_eq_left (sub_nonneg.2 ((mono_x hx (by have := mem_range.1 hi; omega) le_rfl).trans ht))]; ring
      rw [hS2, nat2, Finset.sum_congr rfl e, Finset.sum_add_distrib, ← Finset.mul_sum, ← Finset.mul_sum, sum_jump_all,
        sum_jump_end hx]
      simp
  · intro g g1 g2 hg
    rw [cst g g1 g2 hg]
    have a := mul_nonneg h0 (Finset.sum_nonneg (sq0 g))
    have b := mul_nonneg (sub_nonneg.2 h1) (rough_nonneg hle.le fun t => g2 t - S2 t)
    linarith
  · intro hp hp1 g g1 g2 hg hc t ht
    rw [cst g g1 g2 hg] at hc
    have a := mul_nonneg h0 (Finset.sum_nonneg (sq0 g))
    have b := mul_nonneg (sub_nonneg.2 h1) (rough_nonneg hle.le fun t => g2 t - S2 t)
    have z1 : ∑ i ∈ range (m + 2), (g (x i) - S (x i)) ^ 2 / v i ≤ 0 := by
      by_contra hne
      have := mul_pos hp (not_le.1 hne)
      linarith
    have z2 : rough (x 0) (x (m + 1)) (fun t => g2 t - S2 t) = 0 := by
      rcases mul_eq_zero.1 (show (1 - p) * rough (x 0) (x (m + 1)) (fun t => g2 t - S2 t) = 0 by linarith) with h | h
      · linarith
      · exact h
    have := eq_zero_of_rough hle (hg.sub sm) z2 m1 hx1 (sqz g z1 0 (by omega)) (sqz g z1 1 (by omega)) t ht
    linarith
  · intro hp
    have hi : ∀ i, i < m + 2 → S (x i) = y i := fun i hi => by
      rw [hS, core_knot hx hv h0 h1 hu hi, ai_eq h1, hp]; ring
    refine ⟨hi, fun g g1 g2 hg hgi => ?_⟩
    have hz : ∀ i, i < m + 2 → g (x i) - S (x i) = 0 := fun i h => by rw [hi i h, hgi i h, sub_self]
    have := rgh g g1 g2 hg
    rw [Finset.sum_eq_zero (fun i h => by rw [hz i (mem_range.1 h), mul_zero]), mul_zero, add_zero] at this
    have b := rough_nonneg hle.le fun t => g2 t - S2 t
    refine ⟨by rw [show m + 2 - 1 = m + 1 from rfl]; linarith, fun hr t ht => ?_⟩
    rw [show m + 2 - 1 = m + 1 from rfl] at hr
    have := eq_zero_of_rough hle (hg.sub sm) (by linarith) m1 hx1 (hz 0 (by omega)) (hz 1 (by omega)) t ht
    linarith
  · intro hp
    have hlin : ∀ t, S t = (ai x y v p m u 0 - bi x y v p m u 0 * x 0) + bi x y v p m u 0 * t := fun t => by
      rw [hS, nat0, hp]; ring
    refine ⟨⟨_, _, hlin⟩, fun A B => ?_⟩
    have hz : ∑ i ∈ range (m + 2), jump x m u i * ((A + B * x i) - S (x i)) = 0 := by
      have e : ∀ i ∈ range (m + 2), jump x m u i * ((A + B * x i) - S (x i)) =
          (A + B * x (m + 1) - S (x (m + 1))) * jump x m u i -
            (B - bi x y v p m u 0) * (jump x m u i * (x (m + 1) - x i)) := fun i _ => by
        rw [hlin, hlin]; ring
      rw [Finset.sum_congr rfl e, Finset.sum_sub_distrib, ← Finset.mul_sum, ← Finset.mul_sum, sum_jump_all,
        sum_jump_end hx]
      simp
    have := mis fun t => A + B * t
    rw [hz, mul_zero, sub_zero] at this
    have n := Finset.sum_nonneg (sq0 fun t => A + B * t)
    refine ⟨by linarith, fun hr t => ?_⟩
    have z := sqz (fun t => A + B * t) (by linarith)
    have z0 := z 0 (by omega)
    have z1 := z 1 (by omega)
    simp only [hlin] at z0 z1
    have hb : (B - bi x y v p m u 0) * (x 1 - x 0) = 0 := by linarith
    rcases mul_eq_zero.1 hb with h | h
    · rw [hlin]
      have : B = bi x y v p m u 0 := by linarith
      rw [← this] at z0 ⊢
      linarith
    · linarith
end core

end Wafo.Spline

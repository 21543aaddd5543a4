import Verif.Filters.SmoothModel
import Verif.Dct.Lemmas
import Mathlib.Tactic.LinearCombination
import Mathlib.Tactic.Linarith

/-!
# `smoothn`: the objective and the lemmas
-/

set_option linter.unusedSectionVars false

namespace Wafo.Smooth

open Finset Dct

/-- Second difference with reflecting ends. -/
def secondDiff (n : ℕ) (z : ℕ → ℝ) : ℕ → ℝ := fun i => z (i - 1) - 2 * z i + z (min (i + 1) (n - 1))

/-- Weighted squared distance to the data plus `s` times the roughness. -/
def objective (n : ℕ) (s : ℝ) (W y z : ℕ → ℝ) : ℝ :=
  ∑ i ∈ range n, W i * (y i - z i) ^ 2 + s * ∑ i ∈ range n, secondDiff n z i ^ 2

theorem secondDiff_congr {n : ℕ} {u v : ℕ → ℝ} (h : ∀ i < n, u i = v i) {i : ℕ} (hi : i < n) :
    secondDiff n u i = secondDiff n v i := by
  simp only [secondDiff]
  rw [h (i - 1) (by omega), h i hi, h (min (i + 1) (n - 1)) (by omega)]

theorem secondDiff_add (n : ℕ) (u v : ℕ → ℝ) (i : ℕ) :
    secondDiff n (fun j => u j + v j) i = secondDiff n u i + secondDiff n v i := by
  simp only [secondDiff]; ring

theorem secondDiff_mul (n : ℕ) (c : ℝ) (u : ℕ → ℝ) (i : ℕ) :
    secondDiff n (fun j => c * u j) i = c * secondDiff n u i := by
  simp only [secondDiff]; ring

theorem secondDiff_sum (n : ℕ) (t : Finset ℕ) (f : ℕ → ℕ → ℝ) (i : ℕ) :
    secondDiff n (fun j => ∑ k ∈ t, f k j) i = ∑ k ∈ t, secondDiff n (f k) i := by
  simp only [secondDiff, mul_sum, ← sum_sub_distrib, ← sum_add_distrib]

theorem shifts (m : ℕ) (u v : ℕ → ℝ) :
    ∑ i ∈ range (m + 1), secondDiff (m + 1) u i * v i =
      u 0 * v 0 + ∑ i ∈ range m, u i * v (i + 1) + (∑ i ∈ range m, u (i + 1) * v i + u m * v m)
        - 2 * ∑ i ∈ range (m + 1), u i * v i := by
  have h1 : ∑ i ∈ range (m + 1), u (i - 1) * v i = u 0 * v 0 + ∑ i ∈ range m, u i * v (i + 1) := by
    rw [sum_range_succ']
    simp only [Nat.add_sub_cancel, Nat.zero_sub]
    ring
  have h2 : ∑ i ∈ range (m + 1), u (min (i + 1) (m + 1 - 1)) * v i =
      ∑ i ∈ range m, u (i + 1) * v i + u m * v m := by
    rw [sum_range_succ]
    congr 1
    · refine sum_congr rfl fun i hi => ?_
      rw [mem_range] at hi
      rw [show min (i + 1) (m + 1 - 1) = i + 1 by omega]
    · rw [show min (m + 1) (m + 1 - 1) = m by omega]
  rw [← h1, ← h2, mul_sum, ← sum_add_distrib, ← sum_sub_distrib]
  refine sum_congr rfl fun i _ => ?_
  simp only [secondDiff]
  ring

/-- The second difference is symmetric. -/
theorem secondDiff_adj (n : ℕ) (u v : ℕ → ℝ) :
    ∑ i ∈ range n, secondDiff n u i * v i = ∑ i ∈ range n, u i * secondDiff n v i := by
  cases n with
  | zero => simp
  | succ m =>
    rw [shifts, show ∑ i ∈ range (m + 1), u i * secondDiff (m + 1) v i =
      ∑ i ∈ range (m + 1), secondDiff (m + 1) v i * u i from sum_congr rfl fun i _ => mul_comm _ _, shifts]
    simp only [mul_comm (u _) (v _)]
    ring

theorem secondDiff_const (n : ℕ) (c : ℝ) (i : ℕ) : secondDiff n (fun _ => c) i = 0 := by
  simp only [secondDiff]; ring

/-- The cosines are eigenvectors, with eigenvalues `lam`. -/
theorem secondDiff_cos (n k i : ℕ) (hi : i < n) :
    secondDiff n (fun j => cosMat n k j) i = lam n k * cosMat n k i := by
  have hn : (n : ℝ) ≠ 0 := by
    have : 0 < n := by omega
    positivity
  set θ : ℝ := Real.pi * k / (2 * n) with hθ
  have key : ∀ j : ℕ, cosMat n k j = orthoFactor n k * (2 * Real.cos ((2 * j + 1) * θ)) := by
    intro j
    rw [cosMat, hθ]
    congr 3
    ring
  have hl : lam n k = -2 * (1 - Real.cos (2 * θ)) := by
    rw [lam, hθ]
    congr 3
    field_simp
  have h1 : Real.cos ((2 * ((i - 1 : ℕ) : ℝ) + 1) * θ) = Real.cos ((2 * i + 1) * θ - 2 * θ) := by
    cases i with
    | zero =>
      rw [show (2 * ((0 : ℕ) : ℝ) + 1) * θ - 2 * θ = -θ by push_cast; ring, Real.cos_neg]
      congr 1
      push_cast
      ring
    | succ i =>
      congr 1
      push_cast
      ring
  have h2 : Real.cos ((2 * ((min (i + 1) (n - 1) : ℕ) : ℝ) + 1) * θ) = Real.cos ((2 * i + 1) * θ + 2 * θ) := by
    by_cases h : i + 1 ≤ n - 1
    · rw [min_eq_left h]
      congr 1
      push_cast
      ring
    · have hm : min (i + 1) (n - 1) = i := by omega
      have hin : (n : ℝ) = i + 1 := by
        have : n = i + 1 := by omega
        exact_mod_cast this
      have e : (i + 1 : ℝ) * θ = Real.pi * k / 2 := by
        rw [hθ, ← hin]
        field_simp
      rw [hm, show (2 * (i : ℝ) + 1) * θ = k * Real.pi - θ by linear_combination 2 * e,
        show (k * Real.pi - θ : ℝ) + 2 * θ = k * Real.pi + θ by ring,
        Real.cos_sub, Real.cos_add, Real.sin_nat_mul_pi]
      ring
  simp only [secondDiff, key, hl]
  rw [h1, h2, Real.cos_sub, Real.cos_add]
  ring

/-- `idct ∘ gamma ∘ dct` as a sum. -/
theorem shrink_sum (s : ℝ) {n : ℕ} (hn : 0 < n) (q : ℕ → ℝ) (i : ℕ) :
    shrink s n q i = ∑ k ∈ range n, (gamma s n k * ∑ j ∈ range n, cosMat n k j * q j) * cosMat n k i := by
  rw [shrink, idct1_matrix n _ i hn]
  refine sum_congr rfl fun k _ => ?_
  rw [dct1_matrix n q k hn]
  ring

theorem gamma_den {s : ℝ} (hs : 0 ≤ s) (n k : ℕ) : 1 + s * lam n k ^ 2 ≠ 0 := by
  have := mul_nonneg hs (sq_nonneg (lam n k))
  linarith

/-- The smoothing solves `z + s * D (D z) = q`. -/
theorem shrink_solves {s : ℝ} (hs : 0 ≤ s) (n : ℕ) (q : ℕ → ℝ) {i : ℕ} (hi : i < n) :
    shrink s n q i + s * secondDiff n (secondDiff n (shrink s n q)) i = q i := by
  have hn : 0 < n := by omega
  set c : ℕ → ℝ := fun k => gamma s n k * ∑ j ∈ range n, cosMat n k j * q j with hc
  have h0 : shrink s n q = fun i => ∑ k ∈ range n, c k * cosMat n k i :=
    funext fun i => shrink_sum s hn q i
  have h1 : ∀ i < n, secondDiff n (shrink s n q) i = ∑ k ∈ range n, (c k * lam n k) * cosMat n k i := by
    intro i hi
    rw [h0, secondDiff_sum]
    refine sum_congr rfl fun k _ => ?_
    rw [secondDiff_mul, secondDiff_cos n k i hi]
    ring
  have h2 : secondDiff n (secondDiff n (shrink s n q)) i =
      ∑ k ∈ range n, (c k * lam n k * lam n k) * cosMat n k i := by
    rw [secondDiff_congr h1 hi, secondDiff_sum]
    refine sum_congr rfl fun k _ => ?_
    rw [secondDiff_mul, secondDiff_cos n k i hi]
    ring
  rw [h2, h0]
  beta_reduce
  rw [mul_sum, ← sum_add_distrib]
  have h3 : ∀ k ∈ range n, c k * cosMat n k i + s * (c k * lam n k * lam n k * cosMat n k i) =
      ∑ j ∈ range n, cosMat n k i * cosMat n k j * q j := by
    intro k _
    have : c k * (1 + s * lam n k ^ 2) = ∑ j ∈ range n, cosMat n k j * q j := by
      rw [hc]
      beta_reduce
      rw [gamma]
      have := gamma_den hs n k
      field_simp
    rw [show ∑ j ∈ range n, cosMat n k i * cosMat n k j * q j = cosMat n k i * ∑ j ∈ range n, cosMat n k j * q j by
      rw [mul_sum]; exact sum_congr rfl fun j _ => by ring, ← this]
    ring
  rw [sum_congr rfl h3, sum_comm]
  have h4 : ∀ j ∈ range n, ∑ k ∈ range n, cosMat n k i * cosMat n k j * q j = if i = j then q j else 0 := by
    intro j hj
    rw [← sum_mul, cosMat_orth n i j hi (mem_range.mp hj)]
    split_ifs <;> ring
  rw [sum_congr rfl h4, sum_ite_eq]
  simp [hi]

theorem objective_congr {n : ℕ} {s : ℝ} {W y z z' : ℕ → ℝ} (h : ∀ i < n, z i = z' i) :
    objective n s W y z = objective n s W y z' := by
  have h1 : ∀ i ∈ range n, W i * (y i - z i) ^ 2 = W i * (y i - z' i) ^ 2 := fun i hi => by
    rw [h i (mem_range.mp hi)]
  have h2 : ∀ i ∈ range n, secondDiff n z i ^ 2 = secondDiff n z' i ^ 2 := fun i hi => by
    rw [secondDiff_congr h (mem_range.mp hi)]
  rw [objective, objective, sum_congr rfl h1, sum_congr rfl h2]

/-- Second order expansion of the objective; it is exact. -/
theorem objective_add (n : ℕ) (s : ℝ) (W y z d : ℕ → ℝ) :
    objective n s W y (fun i => z i + d i) = objective n s W y z
      + 2 * ∑ i ∈ range n, (s * secondDiff n (secondDiff n z) i - W i * (y i - z i)) * d i
      + (∑ i ∈ range n, W i * d i ^ 2 + s * ∑ i ∈ range n, secondDiff n d i ^ 2) := by
  have hadj := secondDiff_adj n (secondDiff n z) d
  have e : ∑ i ∈ range n, (s * secondDiff n (secondDiff n z) i - W i * (y i - z i)) * d i =
      s * ∑ i ∈ range n, secondDiff n z i * secondDiff n d i - ∑ i ∈ range n, W i * (y i - z i) * d i := by
    rw [← hadj, mul_sum, ← sum_sub_distrib]
    exact sum_congr rfl fun i _ => by ring
  rw [e]
  simp only [objective, secondDiff_add]
  have e1 : ∑ i ∈ range n, W i * (y i - (z i + d i)) ^ 2 = ∑ i ∈ range n, W i * (y i - z i) ^ 2
      - 2 * ∑ i ∈ range n, W i * (y i - z i) * d i + ∑ i ∈ range n, W i * d i ^ 2 := by
    rw [mul_sum, ← sum_sub_distrib, ← sum_add_distrib]
    exact sum_congr rfl fun i _ => by ring
  have e2 : ∑ i ∈ range n, (secondDiff n z i + secondDiff n d i) ^ 2 = ∑ i ∈ range n, secondDiff n z i ^ 2
      + 2 * ∑ i ∈ range n, secondDiff n z i * secondDiff n d i + ∑ i ∈ range n, secondDiff n d i ^ 2 := by
    rw [mul_sum, ← sum_add_distrib, ← sum_add_distrib]
    exact sum_congr rfl fun i _ => by ring
  rw [e1, e2]
  ring

/-- Where the gradient vanishes the objective is least, with the excess of any other series. -/
theorem objective_excess {n : ℕ} {s : ℝ} {W y z : ℕ → ℝ}
    (h : ∀ i < n, s * secondDiff n (secondDiff n z) i = W i * (y i - z i)) (x : ℕ → ℝ) :
    objective n s W y x = objective n s W y z + (∑ i ∈ range n, W i * (x i - z i) ^ 2
      + s * ∑ i ∈ range n, secondDiff n (fun j => x j - z j) i ^ 2) := by
  have e := objective_add n s W y z (fun j => x j - z j)
  rw [show (fun i => z i + (fun j => x j - z j) i) = x from funext fun i => by ring] at e
  rw [e, sum_eq_zero (s := range n) (f := fun i => (s * secondDiff n (secondDiff n z) i - W i * (y i - z i)) *
    (x i - z i)) fun i hi => by rw [h i (mem_range.mp hi)]; ring]
  ring

/-- One pass lowers the objective by a multiple of the size of the step. -/
theorem pass_descent {n : ℕ} {s RF : ℝ} (hs : 0 ≤ s) {W : ℕ → ℝ} (hW : ∀ i < n, W i ≤ 1) (y z : ℕ → ℝ)
    (hRF : 0 < RF) :
    objective n s W y (pass n s RF W y z) + (2 / RF - 1) * (∑ i ∈ range n, (pass n s RF W y z i - z i) ^ 2
      + s * ∑ i ∈ range n, secondDiff n (fun j => pass n s RF W y z j - z j) i ^ 2) ≤ objective n s W y z := by
  set q : ℕ → ℝ := fun j => W j * (y j - z j) + z j with hq
  set e : ℕ → ℝ := fun j => shrink s n q j - z j with he
  have hd : ∀ j, pass n s RF W y z j - z j = RF * e j := fun j => by
    rw [pass, he]
    ring
  have hz : pass n s RF W y z = fun j => z j + RF * e j := funext fun j => by
    have := hd j
    linarith
  have hsolve : ∀ i < n, e i + s * secondDiff n (secondDiff n e) i =
      -(s * secondDiff n (secondDiff n z) i - W i * (y i - z i)) := by
    intro i hi
    have h1 := shrink_solves hs n q hi
    have h2 : secondDiff n (secondDiff n e) i =
        secondDiff n (secondDiff n (shrink s n q)) i - secondDiff n (secondDiff n z) i := by
      simp only [secondDiff, he]
      ring
    rw [h2, he]
    beta_reduce
    have h3 : q i = W i * (y i - z i) + z i := rfl
    linarith
  have hg : ∑ i ∈ range n, (s * secondDiff n (secondDiff n z) i - W i * (y i - z i)) * (RF * e i) =
      -RF * (∑ i ∈ range n, e i ^ 2 + s * ∑ i ∈ range n, secondDiff n e i ^ 2) := by
    have hadj := secondDiff_adj n (secondDiff n e) e
    have h5 : ∑ i ∈ range n, secondDiff n e i ^ 2 = ∑ i ∈ range n, secondDiff n (secondDiff n e) i * e i := by
      rw [hadj]
      exact sum_congr rfl fun i _ => by ring
    rw [h5, mul_sum, ← sum_add_distrib, mul_sum]
    refine sum_congr rfl fun i hi => ?_
    have := hsolve i (mem_range.mp hi)
    linear_combination (RF * e i) * this
  have hexp := objective_add n s W y z (fun j => RF * e j)
  beta_reduce at hexp
  rw [hg] at hexp
  have hW2 : ∑ i ∈ range n, W i * (RF * e i) ^ 2 ≤ RF ^ 2 * ∑ i ∈ range n, e i ^ 2 := by
    rw [mul_sum]
    refine sum_le_sum fun i hi => ?_
    have h7 := mul_nonneg (sub_nonneg.mpr (hW i (mem_range.mp hi))) (sq_nonneg (RF * e i))
    nlinarith
  have hD : ∑ i ∈ range n, secondDiff n (fun j => RF * e j) i ^ 2 = RF ^ 2 * ∑ i ∈ range n, secondDiff n e i ^ 2 := by
    rw [mul_sum]
    exact sum_congr rfl fun i _ => by rw [secondDiff_mul]; ring
  have hS : ∑ i ∈ range n, (pass n s RF W y z i - z i) ^ 2 = RF ^ 2 * ∑ i ∈ range n, e i ^ 2 := by
    rw [mul_sum]
    exact sum_congr rfl fun i _ => by rw [hd]; ring
  rw [show (fun j => pass n s RF W y z j - z j) = fun j => RF * e j from funext hd, hD, hS, hz, hexp, hD]
  have hR : (2 / RF - 1) * (RF ^ 2 * ∑ i ∈ range n, e i ^ 2 + s * (RF ^ 2 * ∑ i ∈ range n, secondDiff n e i ^ 2)) =
      (2 * RF - RF ^ 2) * (∑ i ∈ range n, e i ^ 2 + s * ∑ i ∈ range n, secondDiff n e i ^ 2) := by
    field_simp
  rw [hR]
  nlinarith [hW2]

/-- A fixed point of a pass is a solution of the normal equations. -/
theorem pass_fixed {n : ℕ} {s RF : ℝ} (hs : 0 ≤ s) (hRF : RF ≠ 0) {W y z : ℕ → ℝ}
    (h : ∀ i < n, pass n s RF W y z i = z i) {i : ℕ} (hi : i < n) :
    s * secondDiff n (secondDiff n z) i = W i * (y i - z i) := by
  set q : ℕ → ℝ := fun j => W j * (y j - z j) + z j with hq
  have h0 : ∀ i < n, shrink s n q i = z i := by
    intro i hi
    have h1 := h i hi
    rw [pass] at h1
    have h2 : RF * (shrink s n q i - z i) = 0 := by
      rw [hq]
      linarith
    have h3 := (mul_eq_zero.mp h2).resolve_left hRF
    linarith
  have h1 := shrink_solves hs n q hi
  rw [h0 i hi, secondDiff_congr (fun j hj => secondDiff_congr h0 hj) hi] at h1
  have h3 : q i = W i * (y i - z i) + z i := rfl
  linarith

/-- Without weights below one the loop ends after one pass, which does not depend on the start. -/
theorem loop_unweighted {n : ℕ} (hn : 0 < n) {s tolz : ℝ} {W y : ℕ → ℝ} (hW : ∀ i < n, W i = 1) (m : ℕ) (z : ℕ → ℝ)
    {weighted : Prop} (hw : ¬ weighted) {i : ℕ} :
    (loop n s (relax weighted) tolz weighted W y (m + 1) z).1 i = shrink s n y i ∧
      (loop n s (relax weighted) tolz weighted W y (m + 1) z).2 := by
  have e : loop n s (relax weighted) tolz weighted W y (m + 1) z = (pass n s (relax weighted) W y z, True) := by
    rw [loop]
    exact if_pos (Or.inr hw)
  have e2 : relax weighted = 1 := by
    rw [relax]
    exact if_neg hw
  rw [e, e2]
  refine ⟨?_, trivial⟩
  show pass n s 1 W y z i = _
  rw [pass, shrink_sum s hn, shrink_sum s hn]
  have : ∀ k ∈ range n, (gamma s n k * ∑ j ∈ range n, cosMat n k j * (W j * (y j - z j) + z j)) * cosMat n k i =
      (gamma s n k * ∑ j ∈ range n, cosMat n k j * y j) * cosMat n k i := by
    intro k _
    congr 2
    refine sum_congr rfl fun j hj => ?_
    rw [hW j (mem_range.mp hj)]
    ring
  rw [sum_congr rfl this]
  ring

theorem le_foldl_max (l : List ℝ) : ∀ a : ℝ, a ≤ l.foldl max a ∧ ∀ x ∈ l, x ≤ l.foldl max a := by
  induction l with
  | nil => intro a; simp
  | cons b l ih =>
    intro a
    obtain ⟨h1, h2⟩ := ih (max a b)
    refine ⟨le_trans (le_max_left _ _) h1, ?_⟩
    intro x hx
    rcases List.mem_cons.mp hx with rfl | hx
    · exact le_trans (le_max_right _ _) h1
    · exact h2 x hx

theorem le_maxOver {n : ℕ} (f : ℕ → ℝ) {i : ℕ} (hi : i < n) : f i ≤ maxOver n f :=
  (le_foldl_max _ _).2 _ (List.mem_map.mpr ⟨i, List.mem_range.mpr hi, rfl⟩)

theorem foldl_max_mem (l : List ℝ) : ∀ a : ℝ, l.foldl max a = a ∨ l.foldl max a ∈ l := by
  induction l with
  | nil => intro a; simp
  | cons b l ih =>
    intro a
    rw [List.foldl_cons]
    rcases ih (max a b) with h | h
    · rcases max_choice a b with h' | h'
      · exact Or.inl (by rw [h, h'])
      · exact Or.inr (by rw [h, h']; exact List.mem_cons_self ..)
    · exact Or.inr (List.mem_cons_of_mem _ h)

theorem maxOver_attained {n : ℕ} (hn : 0 < n) (f : ℕ → ℝ) : ∃ i < n, maxOver n f = f i := by
  rcases foldl_max_mem ((List.range n).map f) (f 0) with h | h
  · exact ⟨0, hn, h⟩
  · obtain ⟨i, hi, e⟩ := List.mem_map.mp h
    exact ⟨i, List.mem_range.mp hi, e.symm⟩

end Wafo.Smooth

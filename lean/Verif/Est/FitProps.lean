import Verif.Est.FitModel
import Verif.Est.ProfileProps
import Mathlib.LinearAlgebra.Matrix.NonsingularInverse
import Mathlib.Analysis.Complex.ExponentialBounds
import Mathlib.Tactic.Linarith
import Mathlib.Tactic.Ring

/-!
# Fits: Hessian, covariance, histogram and fixed parameters (properties C244-C247, C250)
-/

set_option linter.unusedSectionVars false

namespace Wafo.Est

open Matrix

/-! ### C244: Hessian -/

section hessian
variable {α : Type} [Field α] {n : ℕ}

theorem offLoop_lookup (f : (Fin n → α) → α) (θ : Fin n → α) (δ : α) (i j : Fin n) :
    ∀ (l : List (Fin n)) (s : Fin n → α), i ∉ l → j ∈ l → (∀ k, k ≠ i → s k = θ k) →
      (offLoop f θ δ i l s).lookup j = some
        (((f (Function.update (Function.update θ i (θ i + δ)) j (θ j + δ)) +
            f (Function.update (Function.update θ i (θ i - δ)) j (θ j - δ))) -
          (f (Function.update (Function.update θ i (θ i - δ)) j (θ j + δ)) +
            f (Function.update (Function.update θ i (θ i + δ)) j (θ j - δ)))) / (4 * δ ^ 2)) := by
  intro l
  induction l with
  | nil => intro s _ h; simp at h
  | cons k l ih =>
    intro s hi hj hs
    have hki : k ≠ i := fun h => hi (by simp [h])
    have hup : ∀ a, Function.update s i a = Function.update θ i a := by
      intro a
      funext m
      by_cases hm : m = i
      · subst hm; simp
      · simp [Function.update_of_ne hm, hs m hm]
    simp only [offLoop]
    rw [List.lookup_cons]
    by_cases hjk : j = k
    · subst hjk
      have hs3 : Function.update (Function.update (Function.update (Function.update s i (θ i + δ)) j (θ j + δ)) j
          (θ j - δ)) i (θ i - δ) = Function.update (Function.update θ i (θ i - δ)) j (θ j - δ) := by
        rw [hup, Function.update_idem]
        funext m
        by_cases hm : m = i
        · subst hm; simp [Function.update_of_ne hki.symm]
        · rw [Function.update_of_ne hm]
          by_cases hm' : m = j
          · subst hm'; simp
          · simp [Function.update_of_ne hm', Function.update_of_ne hm]
      rw [hs3]
      simp [hup]
    · have hbeq : (j == k) = false := by simpa using hjk
      rw [hbeq]
      simp only
      apply ih _ (fun h => hi (List.mem_cons_of_mem _ h))
      · rcases List.mem_cons.1 hj with h | h
        · exact absurd h hjk
        · exact h
      · intro m hm
        by_cases hmk : m = k
        · subst hmk; simp
        · simp [Function.update_of_ne hmk, Function.update_of_ne hm, hs m hm]

/-- Specification: the central difference quotients of `f` in the directions of two parameters. -/
def centralDiff (f : (Fin n → α) → α) (θ : Fin n → α) (δ : α) (i j : Fin n) : α :=
  ((f (Function.update (Function.update θ i (θ i + δ)) j (θ j + δ)) +
      f (Function.update (Function.update θ i (θ i - δ)) j (θ j - δ))) -
    (f (Function.update (Function.update θ i (θ i - δ)) j (θ j + δ)) +
      f (Function.update (Function.update θ i (θ i + δ)) j (θ j - δ)))) / (4 * δ ^ 2)

theorem offEntry_eq (f : (Fin n → α) → α) (θ : Fin n → α) (δ : α) {i j : Fin n} (h : i < j) :
    offEntry f θ δ i j = centralDiff f θ δ i j := by
  unfold offEntry
  rw [offLoop_lookup f θ δ i j _ _ (by simp) (by simp [h])]
  · rfl
  · intro k hk
    simp [Function.update_of_ne hk]

/-- **C244.** The Hessian is symmetric, whatever the function; off the diagonal its entries are the
negative central difference quotients at the estimate itself, although one parameter vector is changed in
place throughout the loops. -/
theorem C244_symmetric (f : (Fin n → α) → α) (θ : Fin n → α) (δ : α) :
    (∀ i j, hessian f θ δ i j = hessian f θ δ j i) ∧
    (∀ i j, i < j → hessian f θ δ i j = -centralDiff f θ δ i j) ∧
    ∀ i, hessian f θ δ i i =
      -((f (Function.update θ i (θ i + δ)) - 2 * f θ + f (Function.update θ i (θ i - δ))) / δ ^ 2) := by
  refine ⟨fun i j => ?_, fun i j h => ?_, fun i => ?_⟩
  · unfold hessian
    rcases lt_trichotomy i j with h | h | h
    · rw [if_neg h.ne, if_pos h, if_neg h.ne', if_neg h.not_gt]
    · rw [h]
    · rw [if_neg h.ne', if_neg h.not_gt, if_neg h.ne, if_pos h]
  · unfold hessian
    rw [if_neg h.ne, if_pos h, offEntry_eq f θ δ h]
  · unfold hessian
    rw [if_pos rfl]

/-- A quadratic function. -/
def quadratic (c : α) (g : Fin n → α) (A : Matrix (Fin n) (Fin n) α) (x : Fin n → α) : α :=
  c + g ⬝ᵥ x + x ⬝ᵥ (A *ᵥ x) / 2

theorem quadratic_add (c : α) (g : Fin n → α) (A : Matrix (Fin n) (Fin n) α) (x y : Fin n → α) :
    quadratic c g A (x + y) = quadratic c g A x + g ⬝ᵥ y + (x ⬝ᵥ (A *ᵥ y)) / 2 + (y ⬝ᵥ (A *ᵥ x)) / 2 +
      (y ⬝ᵥ (A *ᵥ y)) / 2 := by
  unfold quadratic
  rw [dotProduct_add, mulVec_add, add_dotProduct, dotProduct_add, dotProduct_add]
  ring

theorem update_eq_add (θ : Fin n → α) (i : Fin n) (s : α) :
    Function.update θ i (θ i + s) = θ + Pi.single i s := by
  funext k
  by_cases h : k = i
  · subst h; simp
  · simp [Function.update_of_ne h, Pi.single_eq_of_ne h]

theorem update2_eq_add (θ : Fin n → α) {i j : Fin n} (hij : i ≠ j) (s t : α) :
    Function.update (Function.update θ i (θ i + s)) j (θ j + t) = θ + (Pi.single i s + Pi.single j t) := by
  rw [← add_assoc, ← update_eq_add, ← update_eq_add]
  rw [Function.update_of_ne hij.symm]

/-- **C244.** For a quadratic function with symmetric matrix `A` the Hessian is exactly `-A`, for every
step. -/
theorem C244_quadratic [CharZero α] (c : α) (g : Fin n → α) (A : Matrix (Fin n) (Fin n) α) (hA : A.IsSymm)
    (θ : Fin n → α) (δ : α) (hδ : δ ≠ 0) : hessian (quadratic c g A) θ δ = -A := by
  have hsym : ∀ i j, A i j = A j i := fun i j => by
    have := congrFun (congrFun hA j) i
    simpa [Matrix.transpose_apply] using this
  have hoff : ∀ i j, i < j → hessian (quadratic c g A) θ δ i j = -A i j := by
    intro i j h
    rw [(C244_symmetric _ _ _).2.1 i j h]
    congr 1
    unfold centralDiff
    have e1 : θ i - δ = θ i + (-δ) := by ring
    have e2 : θ j - δ = θ j + (-δ) := by ring
    rw [e1, e2, update2_eq_add θ h.ne, update2_eq_add θ h.ne, update2_eq_add θ h.ne, update2_eq_add θ h.ne]
    simp only [quadratic_add]
    simp only [mulVec_add, dotProduct_add, add_dotProduct, dotProduct_single, single_dotProduct,
      Matrix.mulVec_single]
    simp only [Pi.smul_apply, MulOpposite.smul_eq_mul_unop, MulOpposite.unop_op, Matrix.col_apply]
    rw [hsym j i]
    field_simp
    ring
  ext i j
  rcases lt_trichotomy i j with h | h | h
  · rw [hoff i j h]; rfl
  · subst h
    rw [(C244_symmetric _ _ _).2.2 i]
    have e1 : θ i - δ = θ i + (-δ) := by ring
    rw [e1, update_eq_add, update_eq_add, quadratic_add, quadratic_add]
    simp only [dotProduct_single, single_dotProduct, Matrix.mulVec_single]
    have hop : ∀ s : α, MulOpposite.op s • A.col i = s • A.col i := by
      intro s
      funext k
      simp [mul_comm]
    simp only [hop, dotProduct_smul, Pi.smul_apply, smul_eq_mul, Matrix.col_apply, Matrix.neg_apply,
      MulOpposite.smul_eq_mul_unop, MulOpposite.unop_op]
    field_simp
    ring
  · rw [(C244_symmetric _ _ _).1 i j, hoff j i h, hsym j i]; rfl

/-- A non-trivial quadratic function of two parameters. -/
example : hessian (quadratic (5 : ℚ) ![1, 2] !![2, 1; 1, 3]) ![7, 8] (1 / 10) = -!![2, 1; 1, 3] :=
  C244_quadratic _ _ _ (by ext i j; fin_cases i <;> fin_cases j <;> rfl) _ _ (by norm_num)

/-- **C244.** The covariance of fixed parameters with anything is zero; the block of the free parameters
is the negative pseudoinverse of the corresponding block of the Hessian. -/
theorem C244_covariance (pinv : ∀ {m : ℕ}, Matrix (Fin m) (Fin m) α → Matrix (Fin m) (Fin m) α)
    (H : Matrix (Fin n) (Fin n) α) (free : Fin n → Bool) :
    (∀ i j, free i = false → invertHessian pinv H free i j = 0 ∧ invertHessian pinv H free j i = 0) ∧
    ∃ l : List (Fin n), l.Pairwise (· < ·) ∧ (∀ i, i ∈ l ↔ free i = true) ∧
      ∀ a b : Fin l.length, invertHessian pinv H free l[a] l[b] =
        -(pinv (Matrix.of fun a b : Fin l.length => H l[a] l[b]) a b) := by
  constructor
  · intro i j hi
    have : ¬ ((List.finRange n).filter free).idxOf i < ((List.finRange n).filter free).length := by
      rw [List.idxOf_lt_length_iff]
      simp [hi]
    unfold invertHessian
    dsimp only
    rw [dif_neg (fun h => this h.1), dif_neg (fun h => this h.2)]
    exact ⟨rfl, rfl⟩
  · have hpw : ((List.finRange n).filter free).Pairwise (· < ·) :=
      (List.pairwise_lt_finRange n).filter _
    refine ⟨(List.finRange n).filter free, hpw, by simp, fun a b => ?_⟩
    have hnd : ((List.finRange n).filter free).Nodup := hpw.imp fun h => h.ne
    have hid : ∀ c : Fin ((List.finRange n).filter free).length,
        ((List.finRange n).filter free).idxOf ((List.finRange n).filter free)[c] = c := fun c =>
      hnd.idxOf_getElem c.1 c.2
    unfold invertHessian
    dsimp only
    rw [dif_pos ⟨by rw [hid]; exact a.2, by rw [hid]; exact b.2⟩, Matrix.neg_apply]
    congr 2
    · exact Fin.ext (hid a)
    · exact Fin.ext (hid b)

/-- **C244.** For a quadratic function with invertible matrix `A`, all parameters free, and a pseudoinverse
that inverts invertible matrices, the covariance of the free parameters is the inverse of the block of `A`. -/
theorem C244_information [CharZero α] (pinv : ∀ {m : ℕ}, Matrix (Fin m) (Fin m) α → Matrix (Fin m) (Fin m) α)
    (hpinv : ∀ {m : ℕ} (M : Matrix (Fin m) (Fin m) α), IsUnit M.det → pinv M * M = 1)
    (c : α) (g : Fin n → α) (A : Matrix (Fin n) (Fin n) α) (hA : A.IsSymm) (θ : Fin n → α) (δ : α)
    (hδ : δ ≠ 0) (free : Fin n → Bool) :
    ∃ l : List (Fin n), l.Pairwise (· < ·) ∧ (∀ i, i ∈ l ↔ free i = true) ∧
      (IsUnit (Matrix.of fun a b : Fin l.length => A l[a] l[b]).det →
        (Matrix.of fun a b : Fin l.length =>
            invertHessian pinv (hessian (quadratic c g A) θ δ) free l[a] l[b]) *
          (Matrix.of fun a b : Fin l.length => A l[a] l[b]) = 1) := by
  obtain ⟨l, h1, h2, h3⟩ := (C244_covariance pinv (hessian (quadratic c g A) θ δ) free).2
  refine ⟨l, h1, h2, fun hu => ?_⟩
  have e1 : (Matrix.of fun a b : Fin l.length => hessian (quadratic c g A) θ δ l[a] l[b]) =
      -(Matrix.of fun a b : Fin l.length => A l[a] l[b]) := by
    rw [C244_quadratic c g A hA θ δ hδ]
    rfl
  have e2 : (Matrix.of fun a b : Fin l.length =>
      invertHessian pinv (hessian (quadratic c g A) θ δ) free l[a] l[b]) =
      -(pinv (-(Matrix.of fun a b : Fin l.length => A l[a] l[b]))) := by
    ext a b
    rw [Matrix.of_apply, h3 a b, e1]
    rfl
  rw [e2, Matrix.neg_mul, ← Matrix.mul_neg]
  apply hpinv
  rw [Matrix.det_neg]
  exact (IsUnit.pow _ (isUnit_one.neg)).mul hu

end hessian

/-! ### C245: staircase -/

section histogram
variable {α : Type} [Field α]

/-- Specification: the trapezoidal rule over a polygon. -/
def trapezoid : List α → List α → α
  | a :: b :: xs, u :: v :: ys => (b - a) * (u + v) / 2 + trapezoid (b :: xs) (v :: ys)
  | _, _ => 0

/-- Specification: the area of a histogram with edges `x` and heights `y`. -/
def area : List α → List α → α
  | a :: b :: xs, y :: ys => (b - a) * y + area (b :: xs) ys
  | _, _ => 0

theorem stair_cons (a : α) (xs : List α) :
    ((a :: xs).flatMap fun b => [b, b, b]).drop 1 = a :: a :: (xs.flatMap fun b => [b, b, b]) := by
  simp

theorem stair_rec (a b : α) (xs : List α) :
    (((a :: b :: xs).flatMap fun c => [c, c, c]).drop 1).dropLast =
      a :: a :: b :: (((b :: xs).flatMap fun c => [c, c, c]).drop 1).dropLast := by
  simp [List.dropLast]

/-- **C245.** The polygon of a histogram has as many abscissae as ordinates, starts and ends at zero
height, and its area is that of the histogram. -/
theorem C245_staircase [CharZero α] : ∀ (x y : List α), x.length = y.length + 1 →
    (staircase x y).1.length = 3 * y.length + 1 ∧ (staircase x y).2.length = 3 * y.length + 1 ∧
    (staircase x y).2.head? = some 0 ∧ (staircase x y).2.getLast? = some 0 ∧
    (staircase x y).1.head? = x.head? ∧ (staircase x y).1.getLast? = x.getLast? ∧
    trapezoid (staircase x y).1 (staircase x y).2 = area x y := by
  intro x y h
  induction y generalizing x with
  | nil =>
    match x, h with
    | [a], _ => simp [staircase, trapezoid, area]
  | cons u ys ih =>
    match x, h with
    | a :: b :: xs, h =>
      obtain ⟨h1, h2, h3, h4, h5, h6, h7⟩ := ih (b :: xs) (by simpa using h)
      have ex : (staircase (a :: b :: xs) (u :: ys)).1 = a :: a :: b :: (staircase (b :: xs) ys).1 := by
        simp only [staircase]; exact stair_rec a b xs
      have ey : (staircase (a :: b :: xs) (u :: ys)).2 = 0 :: u :: u :: (staircase (b :: xs) ys).2 := by
        simp [staircase]
      rw [ex, ey]
      obtain ⟨X, hX⟩ : ∃ X, (staircase (b :: xs) ys).1 = b :: X := by
        cases hx : (staircase (b :: xs) ys).1 with
        | nil => rw [hx] at h1; simp at h1
        | cons c X => rw [hx] at h5; simp at h5; exact ⟨X, by rw [h5]⟩
      obtain ⟨Y, hY⟩ : ∃ Y, (staircase (b :: xs) ys).2 = 0 :: Y := by
        cases hy : (staircase (b :: xs) ys).2 with
        | nil => rw [hy] at h2; simp at h2
        | cons c Y => rw [hy] at h3; simp at h3; exact ⟨Y, by rw [h3]⟩
      refine ⟨by simp [h1]; omega, by simp [h2]; omega, rfl, ?_, rfl, ?_, ?_⟩
      · rw [hY] at h4 ⊢; simpa using h4
      · rw [hX] at h6 ⊢; simpa using h6
      · rw [hX, hY] at h7 ⊢
        simp only [trapezoid, area, h7]
        ring

example : staircase ([0, 1, 3] : List ℚ) [5, 2] = ([0, 0, 1, 1, 1, 3, 3], [0, 5, 5, 0, 2, 2, 0]) := by
  decide +kernel

end histogram

/-! ### C246: grid of the histogram -/

theorem gridStep_bounds (delta : ℝ) (hd : 0 < delta) (range : ℝ) (n : ℕ) (h : range / n * 2 = delta) :
    (∃ (m : ℕ) (e : ℤ), (m = 1 ∨ m = 2 ∨ m = 5) ∧ gridStep range n = (m : ℝ) * (10 : ℝ) ^ e) ∧
      0 < gridStep range n ∧ gridStep range n ≤ delta ∧ delta < 3 * gridStep range n := by
  unfold gridStep
  simp only [h]
  set e : ℤ := ⌊Real.log delta / Real.log 10⌋ with he
  have hp : (0 : ℝ) < (10 : ℝ) ^ e := by positivity
  have hl10 : 0 < Real.log 10 := Real.log_pos (by norm_num)
  have hpow : ∀ k : ℤ, Real.log ((10 : ℝ) ^ k) = k * Real.log 10 := fun k => Real.log_zpow _ _
  have h1 : (10 : ℝ) ^ e ≤ delta := by
    rw [← Real.log_le_log_iff hp hd, hpow]
    have := Int.floor_le (Real.log delta / Real.log 10)
    rw [← he] at this
    rwa [le_div_iff₀ hl10] at this
  have h2 : delta < 10 * (10 : ℝ) ^ e := by
    have h3 : delta < (10 : ℝ) ^ (e + 1) := by
      rw [← Real.log_lt_log_iff hd (by positivity), hpow]
      have := Int.lt_floor_add_one (Real.log delta / Real.log 10)
      rw [← he, div_lt_iff₀ hl10] at this
      push_cast; linarith
    rw [zpow_add_one₀ (by norm_num)] at h3
    linarith
  set q := delta / (10 : ℝ) ^ e with hq
  have hdq : delta = q * (10 : ℝ) ^ e := by rw [hq]; field_simp
  have hq1 : 1 ≤ q := by rw [hq, le_div_iff₀ hp]; linarith
  have hq2 : q < 10 := by rw [hq, div_lt_iff₀ hp]; linarith
  have hm1 : 1 ≤ ⌊q⌋ := by rw [Int.le_floor]; exact_mod_cast hq1
  have hm2 : ⌊q⌋ < 10 := by rw [Int.floor_lt]; exact_mod_cast hq2
  have hf1 := Int.floor_le q
  have hf2 := Int.lt_floor_add_one q
  have key : ∀ m : ℕ, (m : ℝ) ≤ q → q < 3 * m →
      (m : ℝ) * (10 : ℝ) ^ e ≤ delta ∧ delta < 3 * ((m : ℝ) * (10 : ℝ) ^ e) := by
    intro m ha hb
    constructor
    · rw [hdq]; exact mul_le_mul_of_nonneg_right ha hp.le
    · rw [hdq]; nlinarith
  by_cases c1 : ⌊q⌋ > 5
  · rw [if_pos c1]
    have c1' : (6 : ℤ) ≤ ⌊q⌋ := c1
    have : ((6 : ℤ) : ℝ) ≤ (⌊q⌋ : ℝ) := by exact_mod_cast c1'
    push_cast at this
    have hk := key 5 (by push_cast; linarith) (by push_cast; linarith)
    push_cast at hk ⊢
    exact ⟨⟨5, e, by simp, by push_cast; rfl⟩, by positivity, hk.1, hk.2⟩
  · rw [if_neg c1]
    by_cases c2 : ⌊q⌋ > 2
    · rw [if_pos c2]
      have c1' : ⌊q⌋ ≤ (5 : ℤ) := not_lt.1 c1
      have c2' : (3 : ℤ) ≤ ⌊q⌋ := c2
      have h5 : (⌊q⌋ : ℝ) ≤ ((5 : ℤ) : ℝ) := by exact_mod_cast c1'
      have h3 : ((3 : ℤ) : ℝ) ≤ (⌊q⌋ : ℝ) := by exact_mod_cast c2'
      push_cast at h5 h3
      have hk := key 2 (by push_cast; linarith) (by push_cast; linarith)
      push_cast at hk ⊢
      exact ⟨⟨2, e, by simp, by push_cast; rfl⟩, by positivity, hk.1, hk.2⟩
    · rw [if_neg c2]
      have hcase : ⌊q⌋ = 1 ∨ ⌊q⌋ = 2 := by omega
      rcases hcase with h | h
      · rw [h] at hf1 hf2 ⊢
        push_cast at hf1 hf2 ⊢
        have hk := key 1 (by push_cast; linarith) (by push_cast; linarith)
        push_cast at hk
        exact ⟨⟨1, e, by simp, by push_cast; rfl⟩, by positivity, hk.1, hk.2⟩
      · rw [h] at hf1 hf2 ⊢
        push_cast at hf1 hf2 ⊢
        have hk := key 2 (by push_cast; linarith) (by push_cast; linarith)
        push_cast at hk
        exact ⟨⟨2, e, by simp, by push_cast; rfl⟩, by positivity, hk.1, hk.2⟩

/-- **C246.** For data that are not all equal the grid of the histogram is equally spaced, with a step
1, 2 or 5 times a power of ten, that is at most `delta = 2 * range / n` and more than a third of it; the
grid starts below the smallest observation and ends at or above the largest, and it has at most
`3 n / 2 + 5` points. -/
theorem C246_grid (xmin xmax : ℝ) (num : ℕ) (odd : Bool) (hx : xmin < xmax) (hnum : 0 < num) (grid : List ℝ)
    (h : getGrid xmin xmax num odd = .ok grid) :
    ∃ (first step : ℝ) (m : ℕ) (e : ℤ) (n : ℕ), (m = 1 ∨ m = 2 ∨ m = 5) ∧ step = (m : ℝ) * (10 : ℝ) ^ e ∧
      n = ⌈4 * Real.sqrt (Real.sqrt num)⌉₊ ∧
      step ≤ 2 * (xmax - xmin) / n ∧ 2 * (xmax - xmin) / n < 3 * step ∧
      grid = (List.range grid.length).map (fun k : ℕ => first + k * step) ∧
      0 < grid.length ∧ first < xmin ∧ xmax ≤ first + (grid.length - 1 : ℕ) * step ∧
      (grid.length : ℝ) < 3 * n / 2 + 5 := by
  unfold getGrid at h
  dsimp only at h
  rw [if_neg (by linarith)] at h
  set n : ℕ := ⌈4 * Real.sqrt (Real.sqrt num)⌉₊ with hn
  have hn0 : 0 < n := by
    rw [hn, Nat.ceil_pos]
    have : (0 : ℝ) < num := by exact_mod_cast hnum
    positivity
  have hn0' : (0 : ℝ) < n := by exact_mod_cast hn0
  obtain ⟨⟨m, e, hm, hstep⟩, hd0, hd1, hd2⟩ := gridStep_bounds ((xmax - xmin) / n * 2)
    (by have := sub_pos.2 hx; positivity) (xmax - xmin) n rfl
  set d := gridStep (xmax - xmin) n with hd
  set o : ℝ := if odd = true then 1 else 0 with ho
  have ho01 : o = 0 ∨ o = 1 := by rw [ho]; split_ifs <;> simp
  set lo : ℝ := (⌊xmin / d⌋ - 1) * d - o * d / 2 with hlo
  set hi : ℝ := (⌈xmax / d⌉ + 1) * d + o * d / 2 with hhi
  simp only [Except.ok.injEq] at h
  have hF1 := Int.floor_le (xmin / d)
  have hF2 := Int.lt_floor_add_one (xmin / d)
  have hC1 := Int.le_ceil (xmax / d)
  have hC2 := Int.ceil_lt_add_one (xmax / d)
  have hFC : (⌊xmin / d⌋ : ℝ) ≤ (⌈xmax / d⌉ : ℝ) := by
    have : xmin / d < xmax / d := by rw [div_lt_div_iff_of_pos_right hd0]; exact hx
    linarith
  -- the number of points
  obtain ⟨N, hN⟩ : ∃ N : ℕ, ((N : ℝ)) = (⌈xmax / d⌉ : ℝ) - ⌊xmin / d⌋ + 2 + o := by
    have hFC' : ⌊xmin / d⌋ ≤ ⌈xmax / d⌉ := by exact_mod_cast hFC
    rcases ho01 with h0 | h0
    · refine ⟨(⌈xmax / d⌉ - ⌊xmin / d⌋ + 2).toNat, ?_⟩
      rw [h0]
      have : (((⌈xmax / d⌉ - ⌊xmin / d⌋ + 2).toNat : ℤ) : ℝ) = ((⌈xmax / d⌉ - ⌊xmin / d⌋ + 2 : ℤ) : ℝ) := by
        rw [Int.toNat_of_nonneg (by omega)]
      push_cast at this
      rw [this]; ring
    · refine ⟨(⌈xmax / d⌉ - ⌊xmin / d⌋ + 3).toNat, ?_⟩
      rw [h0]
      have : (((⌈xmax / d⌉ - ⌊xmin / d⌋ + 3).toNat : ℤ) : ℝ) = ((⌈xmax / d⌉ - ⌊xmin / d⌋ + 3 : ℤ) : ℝ) := by
        rw [Int.toNat_of_nonneg (by omega)]
      push_cast at this
      rw [this]; ring
  have hquot : (hi - lo) / d = (N : ℝ) := by
    rw [hN, hhi, hlo]; field_simp; ring
  have hlen : grid.length = N := by
    rw [← h]; unfold arange
    rw [List.length_map, List.length_range, hquot, Nat.ceil_natCast]
  have hNpos : 2 ≤ N := by
    have : ((2 : ℕ) : ℝ) ≤ (N : ℝ) := by
      rw [hN]; rcases ho01 with h0 | h0 <;> rw [h0] <;> push_cast <;> linarith
    exact_mod_cast this
  refine ⟨lo, d, m, e, n, hm, hstep, rfl, ?_, ?_, ?_, by omega, ?_, ?_, ?_⟩
  · calc d ≤ (xmax - xmin) / n * 2 := hd1
      _ = 2 * (xmax - xmin) / n := by ring
  · calc 2 * (xmax - xmin) / n = (xmax - xmin) / n * 2 := by ring
      _ < 3 * d := hd2
  · rw [hlen, ← h]
    unfold arange
    rw [hquot, Nat.ceil_natCast]
  · have hf : (⌊xmin / d⌋ : ℝ) * d ≤ xmin := by
      rw [← le_div_iff₀ hd0]; exact hF1
    rw [hlo]
    rcases ho01 with h0 | h0 <;> rw [h0] <;> linarith
  · rw [hlen, Nat.cast_sub (by omega), hN, hlo]
    have hc : xmax ≤ (⌈xmax / d⌉ : ℝ) * d := by
      rw [← div_le_iff₀ hd0]; exact hC1
    rcases ho01 with h0 | h0 <;> rw [h0] <;> push_cast <;> nlinarith
  · rw [hlen, hN]
    have hr : xmax / d - xmin / d < 3 * n / 2 := by
      rw [← sub_div, div_lt_iff₀ hd0]
      have : (xmax - xmin) / n * 2 * n < 3 * d * n := mul_lt_mul_of_pos_right hd2 hn0'
      have e2 : (xmax - xmin) / n * 2 * n = 2 * (xmax - xmin) := by field_simp
      rw [e2] at this
      linarith
    rcases ho01 with h0 | h0 <;> rw [h0] <;> linarith

/-- Equal observations have no grid. -/
theorem C246_equal (x : ℝ) (num : ℕ) (odd : Bool) : getGrid x x num odd = .error .valueError := by
  unfold getGrid
  dsimp only
  rw [if_pos (sub_self x)]

example : ∃ grid, getGrid 0 10 81 false = .ok grid := by
  unfold getGrid
  dsimp only
  rw [if_neg (by norm_num)]
  exact ⟨_, rfl⟩

end Wafo.Est

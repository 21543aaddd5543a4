import Mathlib.Algebra.BigOperators.Field
import Mathlib.Algebra.Order.BigOperators.Ring.Finset
import Mathlib.Tactic.FieldSimp
import Mathlib.Tactic.Positivity
import Mathlib.Data.List.GetD
import Verif.SpecD.Model

set_option linter.unusedSectionVars false

/-! Integration rules, and lemmas about moments. -/

namespace Wafo.SpecD
open Cov Finset

noncomputable section

/-- An integration rule is a weighted sum of the values with weights that follow the unit of the points.  The trapezoidal rule and
Simpson's rule are of this kind. -/
structure Rule (I : Quad) where
  w : List ℝ → ℕ → ℝ
  eq : ∀ y x : List ℝ, y.length = x.length → I y x = ∑ i ∈ range x.length, w x i * y.getD i 0
  scale : ∀ c : ℝ, 0 < c → ∀ (x : List ℝ) (i : ℕ), i < x.length → w (x.map fun v => c * v) i = c * w x i

/-- The trapezoidal rule. -/
def trapW (x : List ℝ) (i : ℕ) : ℝ :=
  ((if i + 1 < x.length then x.getD (i + 1) 0 - x.getD i 0 else 0) + (if 0 < i then x.getD i 0 - x.getD (i - 1) 0 else 0)) / 2

def trap : Quad := fun y x => ∑ i ∈ range x.length, trapW x i * y.getD i 0

theorem getD_map_lt (x : List ℝ) (f : ℝ → ℝ) (i : ℕ) (h : i < x.length) : (x.map f).getD i 0 = f (x.getD i 0) := by
  simp [List.getD_eq_getElem?_getD, h]

def trapRule : Rule trap where
  w := trapW
  eq := fun y x _ => rfl
  scale := by
    intro c hc x i hi
    unfold trapW
    rw [List.length_map]
    have h1 : i - 1 < x.length := by omega
    rw [getD_map_lt x _ i hi, getD_map_lt x _ (i - 1) h1]
    by_cases h : i + 1 < x.length
    · rw [if_pos h, if_pos h, getD_map_lt x _ (i + 1) h]
      split_ifs <;> ring
    · rw [if_neg h, if_neg h]
      split_ifs <;> ring

theorem getD_zipWith_lt (f : ℝ → ℝ → ℝ) (x y : List ℝ) (i : ℕ) (hx : i < x.length) (hy : i < y.length) :
    (List.zipWith f x y).getD i 0 = f (x.getD i 0) (y.getD i 0) := by
  simp [List.getD_eq_getElem?_getD, hx, hy]

/-- The integral of `F (value) (point)`. -/
def integ (I : Quad) (F : ℝ → ℝ → ℝ) (S x : List ℝ) : ℝ := I (List.zipWith F S x) x

theorem integ_eq {I : Quad} (R : Rule I) (F : ℝ → ℝ → ℝ) (S x : List ℝ) (h : S.length = x.length) :
    integ I F S x = ∑ i ∈ range x.length, R.w x i * F (S.getD i 0) (x.getD i 0) := by
  unfold integ
  rw [R.eq _ _ (by simp [h])]
  apply sum_congr rfl
  intro i hi
  rw [mem_range] at hi
  rw [getD_zipWith_lt F S x i (by omega) hi]

theorem integ_scale {I : Quad} (R : Rule I) (F G : ℝ → ℝ → ℝ) (S x : List ℝ) (h : S.length = x.length) (a b c : ℝ) (ha : 0 < a)
    (hF : ∀ u v, F (b * u) (a * v) = c * G u v) :
    integ I F (S.map fun u => b * u) (x.map fun v => a * v) = a * c * integ I G S x := by
  rw [integ_eq R F _ _ (by simp [h]), integ_eq R G S x h, mul_sum, List.length_map]
  apply sum_congr rfl
  intro i hi
  rw [mem_range] at hi
  rw [R.scale a ha x i hi, getD_map_lt S _ i (by omega), getD_map_lt x _ i hi, hF]
  ring

/-- The moment of order `i` of the power `j + 1` of a density `S` on the points `x`. -/
def mom (I : Quad) (S x : List ℝ) (j i : ℕ) : ℝ := integ I (fun u v => |u| ^ (j + 1) * v ^ i) S x

theorem mom_scale {I : Quad} (R : Rule I) (S x : List ℝ) (h : S.length = x.length) (a b : ℝ) (ha : 0 < a) (hb : 0 ≤ b) (j i : ℕ) :
    mom I (S.map fun u => b * u) (x.map fun v => a * v) j i = a ^ (i + 1) * b ^ (j + 1) * mom I S x j i := by
  unfold mom
  rw [integ_scale R _ (fun u v => |u| ^ (j + 1) * v ^ i) S x h a b (b ^ (j + 1) * a ^ i) ha]
  · ring
  · intro u v
    rw [abs_mul, abs_of_nonneg hb]
    ring

theorem zipWith_map_right' (F : ℝ → ℝ → ℝ) (g : ℝ → ℝ) (x y : List ℝ) :
    List.zipWith F x (y.map g) = List.zipWith (fun u v => F u (g v)) x y := by
  rw [List.zipWith_map_right]

theorem zipWith_step (F : ℝ → ℝ → ℝ) (G : ℝ → ℝ) : ∀ (x y : List ℝ),
    List.zipWith (· * ·) (List.zipWith F x y) (y.map G) = List.zipWith (fun u v => F u v * G v) x y
  | [], _ => by simp
  | _ :: _, [] => by simp
  | a :: x, b :: y => by
    have h := zipWith_step F G x y
    simp only [List.zipWith_cons_cons, List.map_cons, List.cons.injEq, true_and]
    exact h

theorem momLoop_eq (I : Quad) (S f : List ℝ) (j p : ℕ) : ∀ (k q : ℕ),
    momLoop I f (f.map fun v => v ^ p) k (List.zipWith (fun u v => |u| ^ (j + 1) * v ^ q) S f) =
      (List.range k).map fun l => mom I S f j (q + (l + 1) * p) := by
  intro k
  induction k with
  | zero => intro q; rfl
  | succ k ih =>
    intro q
    unfold momLoop
    have h : List.zipWith (· * ·) (List.zipWith (fun u v => |u| ^ (j + 1) * v ^ q) S f) (f.map fun v => v ^ p) =
        List.zipWith (fun u v => |u| ^ (j + 1) * v ^ (q + p)) S f := by
      rw [zipWith_step]
      congr 1
      funext u v
      rw [pow_add]
      ring
    rw [h, ih (q + p), List.range_succ_eq_map, List.map_cons, List.map_map]
    congr 1
    · unfold mom integ
      rw [Nat.zero_add, one_mul]
    · apply List.map_congr_left
      intro l _
      simp only [Function.comp_apply]
      congr 1
      rw [Nat.succ_eq_add_one]
      ring

theorem map_eq_zipWith (j : ℕ) : ∀ (S f : List ℝ), S.length = f.length →
    (S.map fun v => |v| ^ (j + 1)) = List.zipWith (fun u v => |u| ^ (j + 1) * v ^ 0) S f
  | [], [], _ => rfl
  | [], _ :: _, h => by simp at h
  | _ :: _, [], h => by simp at h
  | a :: S, b :: f, h => by
    have h' : S.length = f.length := by simpa using h
    rw [List.map_cons, List.zipWith_cons_cons, map_eq_zipWith j S f h', pow_zero, mul_one]

theorem ang_length (s : Spec) (h : s.data.length = s.args.length) : (angData s).length = (angArgs s).length := by
  unfold angData angArgs
  split_ifs <;> simp [h]

theorem moment_eq (I : Quad) (s : Spec) (h : s.data.length = s.args.length) (nr : ℕ) (even : Bool) (j : ℕ) :
    moment I s nr even j = (List.range (nr / stepOf even + 1)).map fun k => mom I (angData s) (angArgs s) j (k * stepOf even) := by
  unfold moment
  simp only []
  rw [map_eq_zipWith j _ _ (ang_length s h), momLoop_eq, List.range_succ_eq_map, List.map_cons, List.map_map]
  congr 1
  · unfold mom integ
    rw [Nat.zero_mul]
  · apply List.map_congr_left
    intro l _
    simp only [Function.comp_apply]
    rw [Nat.zero_add]

theorem moment_getD (I : Quad) (s : Spec) (h : s.data.length = s.args.length) (nr : ℕ) (even : Bool) (j k : ℕ)
    (hk : k ≤ nr / stepOf even) :
    (moment I s nr even j).getD k 0 = mom I (angData s) (angArgs s) j (k * stepOf even) := by
  have h' : k < nr / stepOf even + 1 := by omega
  rw [moment_eq I s h]
  simp [List.getD_eq_getElem?_getD, List.getElem?_range h']

end

end Wafo.SpecD

import Verif.Ortho.Model
import Verif.Cheb.Lemmas
import Mathlib.Algebra.Order.Field.Basic
import Mathlib.Algebra.Polynomial.Roots
import Mathlib.Algebra.Order.BigOperators.Group.List
import Mathlib.Algebra.BigOperators.Ring.List
import Mathlib.Data.Rat.Floor
import Mathlib.Algebra.Order.Field.Rat

set_option linter.unusedSectionVars false

/-! Properties of the orthogonal polynomial routines (C65, C66). -/

namespace Wafo.Ortho

open Wafo.Poly Wafo.Cheb Polynomial

section
variable {α : Type*} [Field α]

/-! ### C65 -/

theorem zipWith_add_eval (v w : List α) (h : v.length = w.length) (t : α) :
    peval (List.zipWith (· + ·) v w) t = peval v t + peval w t := by
  induction v generalizing w with
  | nil =>
    have : w = [] := List.length_eq_zero_iff.1 (by simpa using h.symm)
    subst this; simp [peval]
  | cons a v ih =>
    cases w with
    | nil => simp at h
    | cons b w =>
      have h' : v.length = w.length := by simpa using h
      rw [List.zipWith_cons_cons, peval_cons, peval_cons, peval_cons, ih w h']
      simp [h']; ring

theorem zeros_eval (n : ℕ) (t : α) : peval (List.replicate n (0 : α)) t = 0 := by
  induction n with
  | zero => simp [peval]
  | succ n ih => rw [List.replicate_succ, peval_cons, ih]; simp

theorem polyadd_eval (p q : List α) (t : α) : peval (polyadd p q) t = peval p t + peval q t := by
  classical
  unfold polyadd
  rw [zipWith_add_eval _ _ (by simp; omega), append_eval, append_eval, zeros_eval, zeros_eval]
  simp

theorem foldl_polyadd_eval (r : List (List α)) (v : List α) (t : α) :
    peval (r.foldl polyadd v) t = peval v t + (r.map (fun u => peval u t)).sum := by
  induction r generalizing v with
  | nil => simp
  | cons u r ih => rw [List.foldl_cons, ih, polyadd_eval, List.map_cons, List.sum_cons]; ring

theorem polyGo_eval [DecidableEq α] (t : α) (l : List (α × α × α)) : ∀ m2 m1 : List α,
    (polyGo m2 m1 l).map (fun u => peval u t) = valGo t (peval m2 t) (peval m1 t) l := by
  induction l with
  | nil => intro m2 m1; simp [polyGo, valGo]
  | cons c l ih =>
    intro m2 m1
    obtain ⟨c, a, b⟩ := c
    have hv : peval (polyadd (polymul [1, -a] m1) (m2.map (fun d => -b * d))) t
        = (t - a) * peval m1 t - b * peval m2 t := by
      rw [polyadd_eval, (polymul_lin 1 (-a) one_ne_zero m1).2.1, map_mul_eval]; ring
    rw [polyGo, valGo]
    simp only [List.map_cons]
    rw [hv, ih, hv]

theorem scaled_sum (t : α) (x : List (List α)) (p : List (α × α × α)) :
    ((List.zipWith (fun (v : List α) (c : α × α × α) => v.map (fun d => d * c.1)) x p).map (fun u => peval u t)).sum
      = dot (p.map (·.1)) (x.map (fun u => peval u t)) := by
  unfold dot
  induction x generalizing p with
  | nil => simp
  | cons v x ih =>
    cases p with
    | nil => simp
    | cons c p =>
      simp only [List.zipWith_cons_cons, List.map_cons, List.sum_cons, ih]
      congr 1
      have : v.map (fun d => d * c.1) = v.map (fun d => c.1 * d) := by
        apply List.map_congr_left; intro d _; ring
      rw [this, map_mul_eval]

/-- **C65**  For every coefficient array `ortho2poly` returns ordinary coefficients with the same value as `orthoval` at every
point; both raise IndexError for an array without columns. -/
theorem C65_ortho2poly [DecidableEq α] (p : List (α × α × α)) :
    (p ≠ [] → ∃ q, ortho2poly p = .ok q ∧ ∀ t, orthoval p t = .ok (peval q t)) ∧
    (p = [] → ortho2poly p = .error .indexError ∧ ∀ t, orthoval p t = .error .indexError) := by
  constructor
  · intro hp
    match p, hp with
    | [c], _ => exact ⟨[c.1], rfl, fun t => by simp [orthoval, peval]⟩
    | c0 :: c1 :: l, _ =>
      set x : List (List α) := [1] :: [1, -c1.2.1] :: polyGo [1] [1, -c1.2.1] l with hx
      obtain ⟨v, r, hvr⟩ : ∃ v r, List.zipWith (fun (v : List α) (c : α × α × α) => v.map (fun d => d * c.1)) x
          (c0 :: c1 :: l) = v :: r := ⟨_, _, rfl⟩
      refine ⟨r.foldl polyadd v, ?_, fun t => ?_⟩
      · unfold ortho2poly
        simp only
        rw [hvr]
      · have h := scaled_sum t x (c0 :: c1 :: l)
        rw [hvr, List.map_cons, List.sum_cons] at h
        rw [foldl_polyadd_eval, h, orthoval, hx]
        congr 2
        simp only [List.map_cons, polyGo_eval]
        have e1 : peval [1] t = 1 := by simp [peval]
        have e2 : peval [1, -c1.2.1] t = t - c1.2.1 := by simp [peval]; ring
        rw [e1, e2]
  · rintro rfl; exact ⟨rfl, fun _ => rfl⟩

/-- A quadratic in orthogonal form. -/
example : ortho2poly ([(1, 0, 0), (2, 5/2, 0), (3, 5/2, 35/12)] : List (ℚ × ℚ × ℚ)) = .ok [3, -13, 6] := by decide +kernel

/-! ### C66 -/

/-- Inner product of two polynomials over the abscissae. -/
def ip (x : List α) (f g : Polynomial α) : α := (x.map (fun t => f.eval t * g.eval t)).sum

theorem lsum_add (x : List α) (f g : α → α) : (x.map (fun t => f t + g t)).sum = (x.map f).sum + (x.map g).sum := by
  induction x with
  | nil => simp
  | cons a x ih => simp only [List.map_cons, List.sum_cons, ih]; ring

theorem lsum_mul (x : List α) (c : α) (f : α → α) : (x.map (fun t => c * f t)).sum = c * (x.map f).sum := by
  induction x with
  | nil => simp
  | cons a x ih => simp only [List.map_cons, List.sum_cons, ih]; ring

theorem ip_comm (x : List α) (f g : Polynomial α) : ip x f g = ip x g f := by
  unfold ip; congr 1; apply List.map_congr_left; intro t _; ring

theorem ip_add (x : List α) (f g h : Polynomial α) : ip x (f + g) h = ip x f h + ip x g h := by
  unfold ip; rw [← lsum_add]; congr 1; apply List.map_congr_left; intro t _; simp; ring

theorem ip_C (x : List α) (c : α) (f h : Polynomial α) : ip x (C c * f) h = c * ip x f h := by
  unfold ip; rw [← lsum_mul]; congr 1; apply List.map_congr_left; intro t _; simp; ring

theorem ip_neg (x : List α) (f h : Polynomial α) : ip x (-f) h = -ip x f h := by
  have := ip_C x (-1) f h
  simpa using this

theorem ip_sub (x : List α) (f g h : Polynomial α) : ip x (f - g) h = ip x f h - ip x g h := by
  rw [sub_eq_add_neg, ip_add, ip_neg, ← sub_eq_add_neg]

theorem ip_X (x : List α) (f g : Polynomial α) : ip x (X * f) g = ip x f (X * g) := by
  unfold ip; congr 1; apply List.map_congr_left; intro t _; simp; ring

/-- The recursion coefficients. -/
noncomputable def ca (x : List α) (f : Polynomial α) : α := ip x (X * f) f / ip x f f
noncomputable def cb (x : List α) (f g : Polynomial α) : α := ip x (X * f) g / ip x f f

/-- Consecutive orthogonal polynomials. -/
noncomputable def Pst (x : List α) : ℕ → Polynomial α × Polynomial α
  | 0 => (1, X - C (ca x 1))
  | k + 1 => ((Pst x k).2, (X - C (ca x (Pst x k).2)) * (Pst x k).2 - C (cb x (Pst x k).1 (Pst x k).2) * (Pst x k).1)

noncomputable def P (x : List α) (k : ℕ) : Polynomial α := (Pst x k).1

theorem Pst_snd (x : List α) (k : ℕ) : (Pst x k).2 = P x (k + 1) := rfl

theorem P_zero (x : List α) : P x 0 = 1 := rfl

theorem P_one (x : List α) : P x 1 = X - C (ca x 1) := rfl

theorem P_succ (x : List α) (k : ℕ) :
    P x (k + 2) = (X - C (ca x (P x (k + 1)))) * P x (k + 1) - C (cb x (P x k) (P x (k + 1))) * P x k := rfl

theorem P_monic (x : List α) (k : ℕ) : (P x k).Monic ∧ (P x k).natDegree = k ∧ (P x (k + 1)).Monic ∧
    (P x (k + 1)).natDegree = k + 1 := by
  induction k with
  | zero => exact ⟨monic_one, by simp [P_zero], monic_X_sub_C _, by simp [P_one]⟩
  | succ k ih =>
    obtain ⟨h1, h2, h3, h4⟩ := ih
    have hm : ((X - C (ca x (P x (k + 1)))) * P x (k + 1)).Monic := (monic_X_sub_C _).mul h3
    have hd : ((X - C (ca x (P x (k + 1)))) * P x (k + 1)).natDegree = k + 2 := by
      rw [Monic.natDegree_mul (monic_X_sub_C _) h3, h4, natDegree_X_sub_C]; ring
    have hlt : (C (cb x (P x k) (P x (k + 1))) * P x k).degree < ((X - C (ca x (P x (k + 1)))) * P x (k + 1)).degree := by
      rw [degree_eq_natDegree hm.ne_zero, hd]
      refine (degree_le_natDegree).trans_lt ?_
      have : (C (cb x (P x k) (P x (k + 1))) * P x k).natDegree ≤ k := (natDegree_C_mul_le _ _).trans h2.le
      exact_mod_cast (by omega : _ < k + 2)
    refine ⟨h3, h4, ?_, ?_⟩
    · rw [P_succ]; exact hm.sub_of_left hlt
    · rw [P_succ, natDegree_sub_eq_left_of_natDegree_lt, hd]
      rw [hd]
      exact lt_of_le_of_lt ((natDegree_C_mul_le _ _).trans h2.le) (by omega)

theorem X_mul_P (x : List α) (k : ℕ) : ∃ a b : α, ∃ g : Polynomial α, (g = 0 ∨ ∃ j, j + 1 = k ∧ g = P x j) ∧
    X * P x k = P x (k + 1) + C a * P x k + C b * g := by
  cases k with
  | zero => exact ⟨ca x 1, 0, 0, Or.inl rfl, by rw [P_zero, P_one]; simp⟩
  | succ k => exact ⟨ca x (P x (k + 1)), cb x (P x k) (P x (k + 1)), P x k, Or.inr ⟨k, rfl, rfl⟩, by rw [P_succ]; ring⟩

/-- Orthogonality. -/
theorem P_orth (x : List α) (n : ℕ) (hne : ∀ i ≤ n, ip x (P x i) (P x i) ≠ 0) :
    ∀ j ≤ n + 1, ∀ i < j, ip x (P x j) (P x i) = 0 := by
  intro j
  induction j using Nat.strong_induction_on with
  | _ j ih =>
    intro hj i hi
    match j, ih, hj, hi with
    | 1, _, hj, hi =>
      have : i = 0 := by omega
      subst this
      rw [P_one, P_zero, ip_sub]
      have h1 := hne 0 (by omega)
      rw [P_zero] at h1
      have e : ip x (C (ca x 1)) 1 = ca x 1 * ip x 1 1 := by
        rw [← ip_C, mul_one]
      rw [e, ca, div_mul_cancel₀ _ h1, mul_one, sub_self]
    | j + 2, ih, hj, hi =>
      rw [P_succ, sub_mul, ip_sub, ip_sub, ip_C, ip_C, ip_X]
      rcases Nat.lt_succ_iff_lt_or_eq.1 hi with h | h
      · rcases Nat.lt_succ_iff_lt_or_eq.1 h with h | h
        · -- i < j
          obtain ⟨a, b, g, hg, e⟩ := X_mul_P x i
          have o1 := ih (j + 1) (by omega) (by omega) (i + 1) (by omega)
          have o2 := ih (j + 1) (by omega) (by omega) i (by omega)
          have o3 := ih j (by omega) (by omega) i h
          have o4 : ip x (P x (j + 1)) g = 0 := by
            rcases hg with rfl | ⟨k, hk, rfl⟩
            · unfold ip
              apply List.sum_eq_zero
              intro v hv
              obtain ⟨t, _, rfl⟩ := List.mem_map.1 hv
              simp
            · exact ih (j + 1) (by omega) (by omega) k (by omega)
          rw [e, ip_comm, ip_add, ip_add, ip_C, ip_C, ip_comm x (P x (i + 1)), ip_comm x (P x i), ip_comm x g,
            o1, o2, o3, o4]
          ring
        · -- i = j
          subst h
          have hji : i + 1 ≤ n + 1 := by omega
          have h1 := hne i (by omega)
          have o2 := ih (i + 1) (by omega) hji i (by omega)
          rw [o2, cb, div_mul_cancel₀ _ h1, ip_comm x _ (X * P x i)]
          ring
      · -- i = j + 1
        have h' : i = j + 1 := by omega
        subst h'
        have h1 := hne (j + 1) (by omega)
        have o2 := ih (j + 1) (by omega) (by omega) j (by omega)
        rw [ip_comm x (P x j), o2, ca, div_mul_cancel₀ _ h1, ip_X]
        ring

/-- Orthogonality to all basis polynomials up to `n` gives orthogonality to all polynomials of degree at most `n`, for any linear
functional. -/
theorem span_P (x : List α) (φ : Polynomial α →ₗ[α] α) (n : ℕ) (h : ∀ i ≤ n, φ (P x i) = 0) :
    ∀ q : Polynomial α, q.natDegree ≤ n → φ q = 0 := by
  induction n with
  | zero =>
    intro q hq
    have hq' : q = C (q.coeff 0) * P x 0 := by rw [P_zero, mul_one]; exact eq_C_of_natDegree_le_zero hq
    rw [hq', ← smul_eq_C_mul, map_smul, h 0 le_rfl, smul_zero]
  | succ n ih =>
    intro q hq
    obtain ⟨-, -, hm, hd⟩ := P_monic x n
    have hr : (q - C (q.coeff (n + 1)) * P x (n + 1)).natDegree ≤ n := by
      rw [natDegree_le_iff_coeff_eq_zero]
      intro N hN
      rcases Nat.lt_or_ge (n + 1) N with h1 | h1
      · have c1 : q.coeff N = 0 := coeff_eq_zero_of_natDegree_lt (by omega)
        have c2 : (P x (n + 1)).coeff N = 0 := coeff_eq_zero_of_natDegree_lt (by omega)
        rw [coeff_sub, coeff_C_mul, c1, c2]
        ring
      · have : N = n + 1 := by omega
        subst this
        have hc : (P x (n + 1)).coeff (n + 1) = 1 := by
          have := hm.coeff_natDegree
          rwa [hd] at this
        rw [coeff_sub, coeff_C_mul, hc]; ring
    have := ih (fun i hi => h i (by omega)) _ hr
    rw [map_sub, ← smul_eq_C_mul, map_smul, h (n + 1) le_rfl, smul_zero, sub_zero] at this
    exact this

/-! #### the model in terms of `P` -/

theorem dot_map (x : List α) (f g : α → α) : dot (x.map f) (x.map g) = (x.map (fun t => f t * g t)).sum := by
  unfold dot
  rw [List.zipWith_map, List.zipWith_self]

theorem dot_id_map (x : List α) (g : α → α) : dot x (x.map g) = (x.map (fun t => t * g t)).sum := by
  have := dot_map x (fun t => t) g
  simpa using this

theorem ssq_map (x : List α) (f : Polynomial α) : ssq (x.map (fun t => f.eval t)) = ip x f f := by
  unfold ssq ip
  rw [List.map_map]
  congr 1; apply List.map_congr_left; intro t _; simp; ring

theorem fitGo_eq (x : List α) (k : ℕ) : ∀ j, fitGo x k (x.map (fun t => (P x j).eval t)) (x.map (fun t => (P x (j + 1)).eval t))
    = (List.range k).map (fun i : ℕ => (ca x (P x (j + i + 1)), cb x (P x (j + i)) (P x (j + i + 1)),
        x.map (fun t => (P x (j + i + 2)).eval t))) := by
  induction k with
  | zero => intro j; simp [fitGo]
  | succ k ih =>
    intro j
    have ea : dot x ((x.map (fun t => (P x (j + 1)).eval t)).map (fun t => t ^ 2)) / ssq (x.map (fun t => (P x (j + 1)).eval t))
        = ca x (P x (j + 1)) := by
      rw [ssq_map, ca]
      congr 1
      rw [List.map_map]
      refine (dot_id_map x _).trans ?_
      unfold ip
      congr 1; apply List.map_congr_left; intro t _; simp; ring
    have eb : dot x (List.zipWith (· * ·) (x.map (fun t => (P x j).eval t)) (x.map (fun t => (P x (j + 1)).eval t)))
        / ssq (x.map (fun t => (P x j).eval t)) = cb x (P x j) (P x (j + 1)) := by
      rw [ssq_map, cb]
      congr 1
      rw [List.zipWith_map, List.zipWith_self]
      refine (dot_id_map x _).trans ?_
      unfold ip
      congr 1; apply List.map_congr_left; intro t _; simp; ring
    have ev : List.zipWith (fun s t => s - t)
        (List.zipWith (fun s t => (s - ca x (P x (j + 1))) * t) x (x.map (fun t => (P x (j + 1)).eval t)))
        ((x.map (fun t => (P x j).eval t)).map (fun t => cb x (P x j) (P x (j + 1)) * t))
        = x.map (fun t => (P x (j + 2)).eval t) := by
      have gen : ∀ (l : List α) (a b : α) (u w : α → α), List.zipWith (fun s t => s - t)
          (List.zipWith (fun s t => (s - a) * t) l (l.map u)) ((l.map w).map (fun t => b * t))
          = l.map (fun t => (t - a) * u t - b * w t) := by
        intro l a b u w
        induction l with
        | nil => simp
        | cons t l ih => simp only [List.map_cons, List.zipWith_cons_cons, ih]
      rw [gen]
      apply List.map_congr_left
      intro t _
      rw [P_succ]; simp
    rw [List.range_succ_eq_map, List.map_cons, List.map_map, fitGo]
    simp only [ea, eb, ev]
    congr 1
    have := ih (j + 1)
    rw [show j + 1 + 1 = j + 2 by ring] at this
    rw [this]
    apply List.map_congr_left
    intro i _
    simp only [Function.comp, Nat.succ_eq_add_one]
    rw [show j + 1 + i = j + (i + 1) by ring]

theorem valGo_P (x : List α) (t : α) (c : ℕ → α) (k : ℕ) : ∀ j, valGo t ((P x j).eval t) ((P x (j + 1)).eval t)
    ((List.range k).map (fun i : ℕ => (c (j + i), ca x (P x (j + i + 1)), cb x (P x (j + i)) (P x (j + i + 1)))))
    = (List.range k).map (fun i : ℕ => (P x (j + i + 2)).eval t) := by
  induction k with
  | zero => intro j; simp [valGo]
  | succ k ih =>
    intro j
    have e : (t - ca x (P x (j + 1))) * (P x (j + 1)).eval t - cb x (P x j) (P x (j + 1)) * (P x j).eval t
        = (P x (j + 2)).eval t := by rw [P_succ]; simp
    rw [List.range_succ_eq_map, List.map_cons, List.map_map, List.map_cons, List.map_map]
    simp only [Nat.add_zero]
    rw [valGo, e]
    congr 1
    have := ih (j + 1)
    rw [show j + 1 + 1 = j + 2 by ring] at this
    have e1 : ∀ i, j + 1 + i = j + (i + 1) := by intro i; ring
    simp only [e1] at this
    exact this

theorem ca_one (x : List α) : ca x 1 = mean x := by
  unfold ca mean ip
  congr 1
  · congr 1
    rw [show (fun t => eval t (X * 1 : Polynomial α) * eval t 1) = fun t => t by funext t; simp]
    exact List.map_id _
  · simp

/-- The fit as a combination of the orthogonal polynomials. -/
theorem orthofit_eq (x y : List α) (n : ℕ) (hl : x.length = y.length) : ∃ p, orthofit x y n = .ok p ∧
    ∀ t, orthoval p t = .ok (((List.range (n + 1)).map (fun i : ℕ =>
      dot (x.map (fun s => (P x i).eval s)) y / ip x (P x i) (P x i) * (P x i).eval t)).sum) := by
  cases n with
  | zero =>
    refine ⟨_, rfl, fun t => ?_⟩
    simp only [orthoval, mean]
    congr 1
    have e1 : dot (x.map (fun s => (P x 0).eval s)) y = y.sum := by
      rw [P_zero]
      unfold dot
      simp only [eval_one]
      clear * - hl
      induction x generalizing y with
      | nil =>
        have : y = [] := List.length_eq_zero_iff.1 (by simpa using hl.symm)
        subst this; simp
      | cons a x ih =>
        cases y with
        | nil => simp at hl
        | cons b y => simp only [List.map_cons, List.zipWith_cons_cons, List.sum_cons, ih y (by simpa using hl)]; ring
    have e2 : ip x (P x 0) (P x 0) = (y.length : α) := by
      rw [P_zero, ← hl]; unfold ip; simp
    rw [List.range_one, List.map_singleton, List.sum_singleton, e1, e2, P_zero, eval_one]
    ring
  | succ m =>
    set c : ℕ → α := fun i => dot (x.map (fun s => (P x i).eval s)) y / ip x (P x i) (P x i) with hc
    have e0 : x.map (fun _ => (1 : α)) = x.map (fun t => (P x 0).eval t) := by rw [P_zero]; simp
    have e1 : x.map (fun t => t - mean x) = x.map (fun t => (P x 1).eval t) := by rw [P_one, ca_one]; simp
    have hrows : orthofit x y (m + 1) = .ok ((c 0, 0, 0) :: (c 1, mean x, 0) ::
        (List.range m).map (fun i : ℕ => (c (0 + i + 2), ca x (P x (0 + i + 1)), cb x (P x (0 + i)) (P x (0 + i + 1))))) := by
      unfold orthofit
      simp only
      have hg := fitGo_eq x m 0
      rw [Nat.zero_add] at hg
      rw [if_pos hl, e0, e1, hg]
      simp only [List.map_cons, List.map_map, ssq_map, hc]
      congr 3
      apply List.map_congr_left
      intro i _
      simp only [Function.comp, ssq_map]
    refine ⟨_, hrows, fun t => ?_⟩
    have hv := valGo_P x t (fun i => c (i + 2)) m 0
    have hP0 : (P x 0).eval t = 1 := by rw [P_zero]; simp
    have hP1 : (P x (0 + 1)).eval t = t - mean x := by rw [P_one, ca_one]; simp
    rw [hP0, hP1] at hv
    rw [orthoval]
    congr 1
    rw [hv]
    have hr : List.range (m + 1 + 1) = 0 :: 1 :: (List.range m).map (fun i => 0 + i + 2) := by
      rw [List.range_succ_eq_map, List.range_succ_eq_map, List.map_cons, List.map_map]
      simp [Function.comp]
    rw [hr]
    simp only [List.map_cons, List.map_map, dot, List.zipWith_cons_cons, List.sum_cons, List.zipWith_map, List.zipWith_self]
    rw [hP0, show P x 1 = P x (0 + 1) from rfl, hP1]
    rfl

end

section
variable {α : Type*} [Field α] [LinearOrder α] [IsStrictOrderedRing α]

/-- Sum of squared residuals of the function `f` for the data. -/
def sse (d : List (α × α)) (f : α → α) : α := (d.map (fun z => (z.2 - f z.1) ^ 2)).sum

/-- Inner product of the residuals with a polynomial. -/
def resid (d : List (α × α)) (F g : Polynomial α) : α := (d.map (fun z => (z.2 - F.eval z.1) * g.eval z.1)).sum

theorem resid_add (d : List (α × α)) (F g h : Polynomial α) : resid d F (g + h) = resid d F g + resid d F h := by
  unfold resid
  induction d with
  | nil => simp
  | cons z l ih =>
    rw [List.map_cons, List.sum_cons, ih, List.map_cons, List.sum_cons, List.map_cons, List.sum_cons, eval_add]; ring

theorem resid_smul (d : List (α × α)) (F : Polynomial α) (a : α) (g : Polynomial α) :
    resid d F (a • g) = a * resid d F g := by
  unfold resid
  induction d with
  | nil => simp
  | cons z l ih =>
    rw [List.map_cons, List.sum_cons, ih, List.map_cons, List.sum_cons, smul_eq_C_mul, eval_mul, eval_C]; ring

theorem ip_pos (x : List α) (n : ℕ) (hx : n < x.toFinset.card) (i : ℕ) (hi : i ≤ n) : ip x (P x i) (P x i) ≠ 0 := by
  intro h
  obtain ⟨hm, hd, -⟩ := P_monic x i
  have hz : ∀ t ∈ x, (P x i).eval t = 0 := by
    intro t ht
    by_contra hne
    have hnn : ∀ v ∈ x.map (fun t => (P x i).eval t * (P x i).eval t), 0 ≤ v := by
      intro v hv
      obtain ⟨s, _, rfl⟩ := List.mem_map.1 hv
      exact mul_self_nonneg _
    have hle := List.single_le_sum hnn _ (List.mem_map_of_mem ht)
    unfold ip at h
    rw [h] at hle
    have : 0 < (P x i).eval t * (P x i).eval t := mul_self_pos.2 hne
    linarith
  have := Polynomial.eq_zero_of_natDegree_lt_card_of_eval_eq_zero' (P x i) x.toFinset
    (fun t ht => hz t (List.mem_toFinset.1 ht)) (by rw [hd]; omega)
  exact hm.ne_zero this

/-- **C66**  For data with more than `n` distinct abscissae `orthofit(x, y, n)` succeeds and its `orthoval` has the least sum of
squared residuals among all polynomials of degree at most `n`. -/
theorem C66_orthofit (d : List (α × α)) (n : ℕ) (hx : n < (d.map (·.1)).toFinset.card) :
    ∃ p f, orthofit (d.map (·.1)) (d.map (·.2)) n = .ok p ∧ (∀ t, orthoval p t = .ok (f t)) ∧
      (∃ F : Polynomial α, F.natDegree ≤ n ∧ ∀ t, f t = F.eval t) ∧
      ∀ q : Polynomial α, q.natDegree ≤ n → sse d f ≤ sse d (fun t => q.eval t) := by
  set x := d.map (·.1) with hxd
  set y := d.map (·.2) with hyd
  have hl : x.length = y.length := by simp [hxd, hyd]
  obtain ⟨p, hp1, hp2⟩ := orthofit_eq x y n hl
  have hpos := ip_pos x n hx
  have horth := P_orth x n hpos
  set c : ℕ → α := fun i => dot (x.map (fun s => (P x i).eval s)) y / ip x (P x i) (P x i) with hc
  set F : Polynomial α := ∑ i ∈ Finset.range (n + 1), C (c i) * P x i with hF
  have hFe : ∀ t, ((List.range (n + 1)).map (fun i : ℕ => c i * (P x i).eval t)).sum = F.eval t := by
    intro t
    rw [hF, eval_finsetSum]
    have : ∀ N, ((List.range N).map (fun i : ℕ => c i * (P x i).eval t)).sum
        = ∑ i ∈ Finset.range N, (C (c i) * P x i).eval t := by
      intro N
      induction N with
      | zero => simp
      | succ N ih => simp [List.range_succ, Finset.sum_range_succ, ih]
    exact this _
  have hdeg : F.natDegree ≤ n := by
    rw [hF]
    apply natDegree_sum_le_of_forall_le
    intro i hi
    have := (P_monic x i).2.1
    refine (natDegree_C_mul_le _ _).trans ?_
    rw [this]
    have := Finset.mem_range.1 hi
    omega
  refine ⟨p, fun t => F.eval t, hp1, fun t => by simp only; rw [hp2 t, ← hFe t], ⟨F, hdeg, fun _ => rfl⟩, ?_⟩
  intro q hq
  -- the residual functional
  let φ : Polynomial α →ₗ[α] α :=
    { toFun := resid d F
      map_add' := resid_add d F
      map_smul' := fun a g => by simpa using resid_smul d F a g }
  have hφdef : ∀ g, φ g = (d.map (fun z => (z.2 - F.eval z.1) * g.eval z.1)).sum := fun _ => rfl
  have hφ : ∀ i ≤ n, φ (P x i) = 0 := by
    intro i hi
    have e1 : φ (P x i) = dot (x.map (fun s => (P x i).eval s)) y - ip x F (P x i) := by
      rw [hφdef, hxd, hyd]
      unfold dot ip
      generalize F = F
      generalize P (d.map (·.1)) i = Q
      clear * -
      induction d with
      | nil => simp
      | cons z l ih => simp only [List.map_cons, List.sum_cons, List.zipWith_cons_cons, ih]; ring
    have e2 : ip x F (P x i) = c i * ip x (P x i) (P x i) := by
      rw [hF]
      have hsum : ∀ N ≤ n + 1, ip x (∑ k ∈ Finset.range N, C (c k) * P x k) (P x i)
          = if i < N then c i * ip x (P x i) (P x i) else 0 := by
        intro N
        induction N with
        | zero => intro _; simp [ip]
        | succ N ih =>
          intro hN
          rw [Finset.sum_range_succ, ip_add, ih (by omega), ip_C]
          rcases lt_trichotomy i N with h | h | h
          · rw [if_pos h, if_pos (by omega), horth N (by omega) i h]; ring
          · subst h; simp
          · rw [if_neg (by omega), if_neg (by omega), ip_comm, horth i (by omega) N h]; ring
      rw [hsum (n + 1) le_rfl, if_pos (by omega)]
    rw [e1, e2, hc]
    simp only
    rw [div_mul_cancel₀ _ (hpos i hi), sub_self]
  have hφq : φ (F - q) = 0 := span_P x φ n hφ (F - q) ((natDegree_sub_le _ _).trans (max_le hdeg hq))
  have hexp : sse d (fun t => q.eval t) = sse d (fun t => F.eval t) + 2 * φ (F - q)
      + (d.map (fun z => ((F - q).eval z.1) ^ 2)).sum := by
    rw [hφdef]
    unfold sse
    generalize F = F
    clear * -
    induction d with
    | nil => simp
    | cons z l ih => simp only [List.map_cons, List.sum_cons, ih, eval_sub]; ring
  have hnn : 0 ≤ (d.map (fun z => ((F - q).eval z.1) ^ 2)).sum := by
    apply List.sum_nonneg
    intro v hv
    obtain ⟨z, _, rfl⟩ := List.mem_map.1 hv
    positivity
  rw [hexp, hφq]
  linarith

/-- A case meeting the hypothesis: six points, degree three (the data of the docstring). -/
example : 3 < (([(0, 0), (1, 4/5), (2, 9/10), (3, 1/10), (4, -4/5), (5, -1)] : List (ℚ × ℚ)).map (·.1)).toFinset.card := by
  decide +kernel

end

end Wafo.Ortho

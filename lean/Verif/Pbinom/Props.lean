import Verif.Pbinom.Model
import Verif.Pbinom.Spec
import Mathlib.RingTheory.RootsOfUnity.Complex
import Mathlib.Data.List.GetD

/-!
# C277, C278: the Poisson binomial distribution
-/

set_option linter.unusedSectionVars false

namespace Wafo.Pbinom

open Complex

/-- Outcomes of one more trial. -/
theorem sum_outcomes {M : Type*} [AddCommMonoid M] {n : ℕ} (F : (Fin (n + 1) → Bool) → M) :
    ∑ w, F w = ∑ w : Fin n → Bool, (F (Fin.cons false w) + F (Fin.cons true w)) := by
  rw [← (Fin.consEquiv fun _ : Fin (n + 1) => Bool).sum_comp, Fintype.sum_prod_type]
  rw [Fintype.sum_bool, ← Finset.sum_add_distrib]
  exact Finset.sum_congr rfl fun w _ => add_comm _ _

theorem ones_cons {n : ℕ} (b : Bool) (w : Fin n → Bool) :
    ones (Fin.cons b w : Fin (n + 1) → Bool) = (if b then 1 else 0) + ones w := by
  unfold ones
  rw [Fin.sum_univ_succ]
  simp

theorem weight_cons (p : ℝ) (ps : List ℝ) (b : Bool) (w : Fin ps.length → Bool) :
    weight (p :: ps) (Fin.cons b w : Fin (ps.length + 1) → Bool) = (if b then p else 1 - p) * weight ps w := by
  unfold weight
  exact (Fin.prod_univ_succ (n := ps.length) _).trans (by simp)

theorem expect_nil (f : ℕ → ℝ) : expect [] f = f 0 := by
  simp [expect, weight, ones]

theorem expect_cons (p : ℝ) (ps : List ℝ) (f : ℕ → ℝ) :
    expect (p :: ps) f = (1 - p) * expect ps f + p * expect ps fun k => f (k + 1) := by
  unfold expect
  refine (sum_outcomes (n := ps.length) _).trans ?_
  rw [Finset.mul_sum, Finset.mul_sum, ← Finset.sum_add_distrib]
  refine Finset.sum_congr rfl fun w _ => ?_
  have h1 := weight_cons p ps false w
  have h2 := weight_cons p ps true w
  have h3 := ones_cons (n := ps.length) false w
  have h4 := ones_cons (n := ps.length) true w
  simp only [Bool.false_eq_true, if_false, if_true] at h1 h2 h3 h4
  erw [h1, h2, h3, h4]
  rw [zero_add, add_comm 1]
  ring

/-- The generating function. -/
theorem gen_fun (ps : List ℝ) (z : ℂ) :
    ∑ w, (weight ps w : ℂ) * z ^ ones w = (ps.map fun p : ℝ => 1 - (p : ℂ) + p * z).prod := by
  induction ps with
  | nil => simp [weight, ones]
  | cons p ps ih =>
    refine (sum_outcomes (n := ps.length) _).trans ?_
    rw [List.map_cons, List.prod_cons, ← ih, Finset.mul_sum]
    refine Finset.sum_congr rfl fun w _ => ?_
    have h1 := weight_cons p ps false w
    have h2 := weight_cons p ps true w
    have h3 := ones_cons (n := ps.length) false w
    have h4 := ones_cons (n := ps.length) true w
    simp only [Bool.false_eq_true, if_false, if_true] at h1 h2 h3 h4
    erw [h1, h2, h3, h4]
    push_cast
    rw [zero_add, pow_add]
    ring

theorem ones_le {n : ℕ} (w : Fin n → Bool) : ones w ≤ n := by
  unfold ones
  refine (Finset.sum_le_card_nsmul _ _ 1 fun i _ => by split_ifs <;> simp).trans (by simp)

theorem prob_le_eq (ps : List ℝ) (P : ℕ → Prop) [DecidablePred P] :
    prob ps P = expect ps fun k => if P k then 1 else 0 := by
  unfold prob expect
  exact Finset.sum_congr rfl fun w _ => by by_cases h : P (ones w) <;> simp [h]

/-- `_chi` is the characteristic function: polar coordinates factor by factor. -/
theorem chi_eq (probs : List ℝ) (n idx : ℕ) : chi probs n idx =
    (probs.map fun p : ℝ => 1 - (p : ℂ) + p * exp ((2 * Real.pi / (n + 1) : ℝ) * idx * I)).prod := by
  have key : ∀ l : List ℂ, ((if (0 : ℂ) ∈ l then 0 else Real.exp (l.map fun z => Real.log ‖z‖).sum : ℝ) : ℂ) *
      exp (((l.map fun z => arg z).sum : ℝ) * I) = l.prod := by
    intro l
    induction l with
    | nil => simp
    | cons z l ih =>
      rw [List.prod_cons, ← ih]
      by_cases hz : z = 0
      · simp [hz]
      · have h0 : (0 : ℂ) ∈ z :: l ↔ (0 : ℂ) ∈ l := by
          rw [List.mem_cons]
          exact ⟨fun h => h.resolve_left fun h => hz h.symm, Or.inr⟩
        by_cases hl : (0 : ℂ) ∈ l
        · rw [if_pos (h0.2 hl), if_pos hl]
          simp
        · rw [if_neg (fun h => hl (h0.1 h)), if_neg hl, List.map_cons, List.map_cons, List.sum_cons,
            List.sum_cons, Real.exp_add, Real.exp_log (norm_pos_iff.2 hz)]
          conv_rhs => rw [← norm_mul_exp_arg_mul_I z]
          push_cast
          rw [add_mul, exp_add]
          ring
  exact key _

/-- The primitive root of unity of the transform. -/
noncomputable def zeta (n : ℕ) : ℂ := exp (2 * Real.pi * I / ((n + 1 : ℕ) : ℂ))

theorem zeta_prim (n : ℕ) : IsPrimitiveRoot (zeta n) (n + 1) :=
  isPrimitiveRoot_exp (n + 1) (Nat.succ_ne_zero n)

theorem zeta_pow (n l : ℕ) : zeta n ^ l = exp ((2 * Real.pi / (n + 1) : ℝ) * l * I) := by
  rw [zeta, ← exp_nat_mul]
  congr 1
  push_cast
  ring

/-- The characteristic function of the law. -/
noncomputable def charf (probs : List ℝ) (n l : ℕ) : ℂ :=
  (probs.map fun p : ℝ => 1 - (p : ℂ) + p * zeta n ^ l).prod

theorem zeta_conj (n l : ℕ) (hl : l ≤ n + 1) : (starRingEnd ℂ) (zeta n ^ l) = zeta n ^ (n + 1 - l) := by
  have h1 : zeta n ^ l * zeta n ^ (n + 1 - l) = 1 := by
    rw [← pow_add, Nat.add_sub_cancel' hl, (zeta_prim n).pow_eq_one]
  have hn : ‖zeta n ^ l‖ = 1 := by
    rw [zeta_pow, show ((2 * Real.pi / (n + 1) : ℝ) : ℂ) * l * I = ((2 * Real.pi / (n + 1) * l : ℝ) : ℂ) * I by
      push_cast; ring, norm_exp_ofReal_mul_I]
  have h2 : zeta n ^ l * (starRingEnd ℂ) (zeta n ^ l) = 1 := by
    rw [mul_conj, normSq_eq_norm_sq, hn]
    simp
  have h0 : zeta n ^ l ≠ 0 := fun h => by rw [h, norm_zero] at hn; exact zero_ne_one hn
  exact mul_left_cancel₀ h0 (h2.trans h1.symm)

theorem charf_conj (probs : List ℝ) (n l : ℕ) (hl : l ≤ n + 1) :
    (starRingEnd ℂ) (charf probs n l) = charf probs n (n + 1 - l) := by
  unfold charf
  rw [map_list_prod, List.map_map]
  congr 1
  refine List.map_congr_left fun p _ => ?_
  simp only [Function.comp, map_add, map_sub, map_one, map_mul, conj_ofReal, zeta_conj n l hl]

/-- The array of the code holds the characteristic function at all the frequencies. -/
theorem chiArr_eq (probs : List ℝ) (n : ℕ) :
    chiArr probs n = (List.range (n + 1)).map (charf probs n) := by
  have hchi : ∀ l, chi probs n l = charf probs n l := by
    intro l
    rw [chi_eq, charf, zeta_pow]
  have h0 : charf probs n 0 = 1 := by
    unfold charf
    simp
  unfold chiArr
  set half := n / 2 + n % 2 with hh
  have hle : n - half ≤ half := by omega
  have hle2 : half ≤ n := by omega
  simp only [hchi]
  refine List.ext_getElem (by simp; omega) fun i h1 h2 => ?_
  rw [List.getElem_map, List.getElem_range]
  rcases i with _ | i
  · simp [h0]
  · rw [List.getElem_cons_succ]
    by_cases hi : i < half
    · rw [List.getElem_append_left (by simpa using hi)]
      simp
    · rw [List.getElem_append_right (by simpa using not_lt.1 hi), List.getElem_reverse, List.getElem_map,
        List.getElem_take, List.getElem_map, List.getElem_range, charf_conj]
      · congr 1
        simp only [List.length_map, List.length_take, List.length_range, List.length_cons,
          List.length_append, List.length_reverse] at h1 ⊢
        omega
      · simp only [List.length_map, List.length_take, List.length_range, List.length_cons,
          List.length_append, List.length_reverse] at h1 ⊢
        omega

/-- Orthogonality of the roots of unity. -/
theorem root_sum (n m k : ℕ) (hm : m ≤ n) (hk : k ≤ n) :
    ∑ l ∈ Finset.range (n + 1), (zeta n ^ l) ^ m * ((zeta n ^ l) ^ k)⁻¹ =
      if m = k then (n : ℂ) + 1 else 0 := by
  have hz := zeta_prim n
  have h0 : zeta n ≠ 0 := hz.ne_zero (Nat.succ_ne_zero n)
  have e : ∀ l, (zeta n ^ l) ^ m * ((zeta n ^ l) ^ k)⁻¹ = (zeta n ^ m * (zeta n ^ k)⁻¹) ^ l := by
    intro l
    rw [mul_pow, inv_pow, ← pow_mul, ← pow_mul, ← pow_mul, ← pow_mul, mul_comm l m, mul_comm l k]
  simp only [e]
  split_ifs with h
  · subst h
    rw [mul_inv_cancel₀ (pow_ne_zero _ h0)]
    simp
  · have h1 : zeta n ^ m * (zeta n ^ k)⁻¹ ≠ 1 := by
      intro h2
      have h3 : zeta n ^ m = zeta n ^ k := by
        rw [mul_inv_eq_one₀ (pow_ne_zero _ h0)] at h2
        exact h2
      exact h (hz.pow_inj (by omega) (by omega) h3)
    have h2 : (zeta n ^ m * (zeta n ^ k)⁻¹) ^ (n + 1) = 1 := by
      rw [mul_pow, inv_pow, ← pow_mul, ← pow_mul, mul_comm m, mul_comm k, pow_mul, pow_mul, hz.pow_eq_one]
      simp
    have h3 := mul_neg_geom_sum (zeta n ^ m * (zeta n ^ k)⁻¹) (n + 1)
    rw [h2, sub_self] at h3
    exact (mul_eq_zero.1 h3).resolve_left (sub_ne_zero.2 h1.symm)

/-- Inversion of the characteristic function. -/
theorem inversion (probs : List ℝ) {k : ℕ} (hk : k ≤ probs.length) :
    ∑ l ∈ Finset.range (probs.length + 1),
      charf probs probs.length l * ((zeta probs.length ^ l) ^ k)⁻¹ =
      ((probs.length : ℂ) + 1) * (prob probs (· = k) : ℝ) := by
  set n := probs.length with hn
  have e : ∀ l, charf probs n l * ((zeta n ^ l) ^ k)⁻¹ =
      ∑ w, (weight probs w : ℂ) * ((zeta n ^ l) ^ ones w * ((zeta n ^ l) ^ k)⁻¹) := by
    intro l
    rw [charf, ← gen_fun, Finset.sum_mul]
    exact Finset.sum_congr rfl fun w _ => mul_assoc _ _ _
  simp only [e]
  rw [Finset.sum_comm, prob]
  push_cast
  rw [Finset.mul_sum]
  refine Finset.sum_congr rfl fun w _ => ?_
  rw [← Finset.mul_sum, root_sum n (ones w) k (ones_le w) hk]
  split_ifs
  · ring
  · simp

theorem fftPmf_length (probs : List ℝ) (n : ℕ) : (fftPmf probs n).length = n + 1 := by
  simp [fftPmf, fft, chiArr_eq]

theorem fftPmf_getElem (probs : List ℝ) {k : ℕ} (hk : k < (fftPmf probs probs.length).length) :
    (fftPmf probs probs.length)[k] = prob probs (· = k) + eps := by
  have hk' : k ≤ probs.length := by rw [fftPmf_length] at hk; omega
  have hN : ((probs.length : ℂ) + 1) ≠ 0 := by exact_mod_cast Nat.succ_ne_zero probs.length
  simp only [fftPmf, fft, chiArr_eq, List.getElem_map, List.getElem_range, List.length_map, List.length_range,
    List.map_map, Function.comp_apply]
  congr 1
  have e : ∑ l ∈ Finset.range (probs.length + 1),
      (List.map ((fun z => z / ((probs.length : ℂ) + 1)) ∘ charf probs probs.length)
        (List.range (probs.length + 1))).getD l 0 *
        exp (-2 * Real.pi * I * l * k / ((probs.length + 1 : ℕ) : ℂ)) =
      (1 / ((probs.length : ℂ) + 1)) * ∑ l ∈ Finset.range (probs.length + 1),
        charf probs probs.length l * ((zeta probs.length ^ l) ^ k)⁻¹ := by
    rw [Finset.mul_sum]
    refine Finset.sum_congr rfl fun l hl => ?_
    rw [List.getD_eq_getElem _ _ (by simpa using hl), List.getElem_map, List.getElem_range, Function.comp]
    have : exp (-2 * Real.pi * I * l * k / ((probs.length + 1 : ℕ) : ℂ)) = ((zeta probs.length ^ l) ^ k)⁻¹ := by
      rw [zeta, ← exp_nat_mul, ← exp_nat_mul, ← exp_neg]
      congr 1
      ring
    rw [this]
    ring
  rw [e, inversion probs hk', ← mul_assoc, one_div_mul_cancel hN, one_mul, ofReal_re]

theorem cumsumFrom_getElem (l : List ℝ) : ∀ (s : ℝ) (i : ℕ) (h : i < l.length),
    (cumsumFrom s l)[i]? = some (s + (l.take (i + 1)).sum) := by
  induction l with
  | nil => intro s i h; simp at h
  | cons a l ih =>
    intro s i h
    rcases i with _ | i
    · simp [cumsumFrom]
    · rw [cumsumFrom, List.getElem?_cons_succ, ih _ _ (by simpa using h)]
      simp [add_assoc]

theorem cumsumFrom_length (l : List ℝ) : ∀ s, (cumsumFrom s l).length = l.length := by
  induction l with
  | nil => intro s; rfl
  | cons a l ih => intro s; simp [cumsumFrom, ih]

theorem fftPmf_list (probs : List ℝ) : fftPmf probs probs.length =
    (List.range (probs.length + 1)).map fun k => prob probs (· = k) + eps := by
  refine List.ext_getElem (by simp [fftPmf_length]) fun i h1 h2 => ?_
  rw [fftPmf_getElem, List.getElem_map, List.getElem_range]

theorem sum_range_list (f : ℕ → ℝ) (m : ℕ) : ((List.range m).map f).sum = ∑ k ∈ Finset.range m, f k := by
  induction m with
  | zero => simp
  | succ m ih => rw [List.range_succ, List.map_append, List.sum_append, ih, Finset.sum_range_succ]; simp

theorem sum_prob (probs : List ℝ) (s : Finset ℕ) (P : ℕ → Prop) [DecidablePred P]
    (h : ∀ k ≤ probs.length, P k ↔ k ∈ s) : ∑ k ∈ s, prob probs (· = k) = prob probs P := by
  unfold prob
  rw [Finset.sum_comm]
  refine Finset.sum_congr rfl fun w _ => ?_
  rw [Finset.sum_ite_eq]
  have := h (ones w) (ones_le w)
  simp only [this]

end Wafo.Pbinom

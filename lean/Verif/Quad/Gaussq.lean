import Verif.Quad.Spec
import Verif.Quad.Clenshaw

/-! The change of variables and the loop of `gaussq`. -/

set_option linter.unusedSectionVars false

namespace Wafo.Quad

open Polynomial Finset Real MeasureTheory

theorem integral_affine01 (a b : ℝ) (f : ℝ → ℝ) :
    ∫ x in a..b, f x = (b - a) * ∫ t in (0 : ℝ)..1, f ((b - a) * t + a) := by
  have h := intervalIntegral.smul_integral_comp_mul_add (a := 0) (b := 1) f (b - a) a
  rw [smul_eq_mul] at h
  rw [h]
  simp

theorem gaussRound_exact (wfun d : ℕ) (hw : 1 ≤ wfun ∧ wfun ≤ 9) (a b α β α' β' dx : ℝ) (hab : a < b)
    (hsum : α' + β' = α + β)
    (r : List (ℝ × ℝ)) (hr : ExactRule wfun α' β' r d)
    (hdx : getDx wfun (getJacob wfun a b) α β = .ok dx) (P : ℝ[X]) (hP : P.degree < (d : ℕ)) :
    gaussRound r wfun a b dx (fun x => P.eval x) = target wfun a b α' β' (fun x => P.eval x) := by
  have hval : ∀ c e : ℝ, (∀ t : ℝ, (t + shift wfun) * getJacob wfun a b + lowerLimit wfun a = c * t + e) →
      gaussRound r wfun a b dx (fun x => P.eval x)
        = target wfun (refA wfun) 1 α' β' (fun t => P.eval (c * t + e)) * dx := by
    intro c e hce
    have h := hr (affPoly P c e) (affPoly_degree P c e d hP)
    simp only [affPoly_eval] at h
    rw [gaussRound, ← h]
    simp only [hce]
  have hj : 0 < (b - a) / 2 := by linarith
  have hj2 : 0 < b - a := by linarith
  obtain ⟨h1, h9⟩ := hw
  have hcases : wfun = 1 ∨ wfun = 2 ∨ wfun = 3 ∨ wfun = 4 ∨ wfun = 5 ∨ wfun = 6 ∨ wfun = 7 ∨ wfun = 8
      ∨ wfun = 9 := by omega
  rcases hcases with rfl | rfl | rfl | rfl | rfl | rfl | rfl | rfl | rfl
  · -- Legendre
    rw [hval ((b - a) / 2) ((a + b) / 2) (fun t => by simp [shift, getJacob, lowerLimit]; ring)]
    simp [getDx, getJacob] at hdx
    simp only [target, refA]
    rw [integral_affine a b, ← hdx]
    norm_num
    ring
  · rw [hval 1 0 (fun t => by simp [shift, getJacob, lowerLimit])]
    simp [getDx, getJacob] at hdx
    simp only [target, ← hdx, one_mul, add_zero, mul_one]
  · rw [hval 1 0 (fun t => by simp [shift, getJacob, lowerLimit])]
    simp [getDx, getJacob] at hdx
    simp only [target, ← hdx, one_mul, add_zero, mul_one]
  · -- Jacobi
    rw [hval ((b - a) / 2) ((a + b) / 2) (fun t => by simp [shift, getJacob, lowerLimit]; ring)]
    simp [getDx, getJacob] at hdx
    simp only [target, refA]
    rw [integral_affine a b, ← hdx, mul_comm _ (_ ^ _)]
    rw [if_neg (by omega)]
    rw [← intervalIntegral.integral_const_mul, ← intervalIntegral.integral_const_mul]
    refine intervalIntegral.integral_congr fun t ht => ?_
    rw [Set.uIcc_of_le (by norm_num)] at ht
    have e1 : (b - a) / 2 * t + (a + b) / 2 - a = (b - a) / 2 * (t + 1) := by ring
    have e2 : b - ((b - a) / 2 * t + (a + b) / 2) = (b - a) / 2 * (1 - t) := by ring
    simp only [e1, e2]
    rw [mul_rpow hj.le (by linarith [ht.1]), mul_rpow hj.le (by linarith [ht.2]), ← hsum,
      show (b - a) * 2⁻¹ = (b - a) / 2 by ring, rpow_add_one hj.ne', rpow_add hj, sub_neg_eq_add]
    ring
  · rw [hval ((b - a) / 2) ((a + b) / 2) (fun t => by simp [shift, getJacob, lowerLimit]; ring)]
    simp [getDx] at hdx
    simp only [target, refA]
    rw [integral_affine a b, ← hdx, mul_one, if_neg (by omega), ← intervalIntegral.integral_const_mul]
    refine intervalIntegral.integral_congr fun t ht => ?_
    have e1 : ((b - a) / 2 * t + (a + b) / 2 - a) * (b - ((b - a) / 2 * t + (a + b) / 2))
        = ((b - a) / 2) ^ 2 * ((t - -1) * (1 - t)) := by ring
    simp only [e1]
    rw [sqrt_mul (sq_nonneg _), sqrt_sq hj.le]
    rcases eq_or_ne (√((t - -1) * (1 - t))) 0 with h0 | h0
    · rw [h0]; simp
    · field_simp
  · rw [hval ((b - a) / 2) ((a + b) / 2) (fun t => by simp [shift, getJacob, lowerLimit]; ring)]
    simp [getDx, getJacob] at hdx
    simp only [target, refA]
    rw [integral_affine a b, ← hdx, mul_comm _ (_ ^ 2), if_neg (by omega),
      ← intervalIntegral.integral_const_mul, ← intervalIntegral.integral_const_mul]
    refine intervalIntegral.integral_congr fun t ht => ?_
    have e1 : ((b - a) / 2 * t + (a + b) / 2 - a) * (b - ((b - a) / 2 * t + (a + b) / 2))
        = ((b - a) / 2) ^ 2 * ((t - -1) * (1 - t)) := by ring
    simp only [e1]
    rw [sqrt_mul (sq_nonneg _), sqrt_sq hj.le]
    ring
  · rw [hval (b - a) a (fun t => by simp [shift, getJacob, lowerLimit]; ring)]
    simp [getDx, getJacob] at hdx
    simp only [target, refA]
    rw [integral_affine01 a b, ← hdx, mul_comm _ (b - a), if_pos (by simp)]
    congr 1
    refine intervalIntegral.integral_congr fun t ht => ?_
    have e1 : ((b - a) * t + a - a) = (b - a) * t := by ring
    have e2 : b - ((b - a) * t + a) = (b - a) * (1 - t) := by ring
    simp only [e1, e2]
    rw [mul_div_mul_left _ _ hj2.ne', sub_zero]
  · rw [hval (b - a) a (fun t => by simp [shift, getJacob, lowerLimit]; ring)]
    simp [getDx, getJacob] at hdx
    simp only [target, refA]
    rw [integral_affine01 a b, ← hdx, mul_comm _ √(b - a), if_pos (by simp),
      ← intervalIntegral.integral_const_mul, ← intervalIntegral.integral_const_mul]
    refine intervalIntegral.integral_congr fun t ht => ?_
    have e2 : b - ((b - a) * t + a) = (b - a) * (1 - t) := by ring
    have hs := sqrt_pos.2 hj2
    simp only [e2]
    rw [sqrt_mul hj2.le]
    rcases eq_or_ne (√(1 - t)) 0 with h0 | h0
    · rw [h0]; simp
    · have : b - a = √(b - a) * √(b - a) := (mul_self_sqrt hj2.le).symm
      field_simp
      rw [sq, ← this]
  · rw [hval (b - a) a (fun t => by simp [shift, getJacob, lowerLimit]; ring)]
    simp [getDx, getJacob] at hdx
    simp only [target, refA]
    rw [integral_affine01 a b, ← hdx, mul_comm _ (_ ^ 3), if_pos (by simp),
      ← intervalIntegral.integral_const_mul, ← intervalIntegral.integral_const_mul]
    refine intervalIntegral.integral_congr fun t ht => ?_
    have e2 : b - ((b - a) * t + a) = (b - a) * (1 - t) := by ring
    simp only [e2]
    rw [sqrt_mul hj2.le]
    have : √(b - a) ^ 3 = (b - a) * √(b - a) := by
      rw [pow_succ, sq_sqrt hj2.le]
    rw [this]
    ring

/-- What the loop returns: the value of some round `m ≥ 2` and its distance from the round before;
it stopped there because of the tolerance or because the rounds were used up. -/
theorem gaussLoop_spec (rule : ℕ → List (ℝ × ℝ)) (wfun : ℕ) (a b dx releps abseps : ℝ) (f : ℝ → ℝ)
    (fuel i : ℕ) (hi : 2 ≤ i) (e : ℝ) (v : ℝ) :
    let R := fun m => gaussRound (rule (2 ^ (m + 1))) wfun a b dx f
    ∃ m, i ≤ m ∧ m ≤ i + fuel ∧
      gaussLoop rule wfun a b dx releps abseps f i v (R (i - 1)) e (fuel + 1) = (R m, |R (m - 1) - R m|) ∧
      (|R (m - 1) - R m| ≤ max |releps * R m| abseps ∨ m = i + fuel) := by
  intro R
  induction fuel generalizing i e v with
  | zero =>
    refine ⟨i, le_rfl, by omega, ?_, Or.inr rfl⟩
    rw [gaussLoop]
    simp only [if_pos (show i > 1 by omega), gaussLoop, ite_self]
    rfl
  | succ fuel ih =>
    rw [gaussLoop]
    simp only [if_pos (show i > 1 by omega)]
    by_cases h : |R (i - 1) - R i| > max |releps * R i| abseps
    · rw [if_pos h]
      obtain ⟨m, h1, h2, h3, h4⟩ := ih (i + 1) (by omega) (|R (i - 1) - R i|) (R i)
      refine ⟨m, by omega, by omega, ?_, ?_⟩
      · rw [← h3]; rfl
      · rcases h4 with h4 | h4
        · exact Or.inl h4
        · exact Or.inr (by omega)
    · rw [if_neg h]
      exact ⟨i, le_rfl, by omega, rfl, Or.inl (not_lt.1 h)⟩

theorem gaussq_spec (rule : ℕ → List (ℝ × ℝ)) (f : ℝ → ℝ) (a b releps abseps α β dx : ℝ) (wfun : ℕ)
    (hdx : getDx wfun (getJacob wfun a b) α β = .ok dx) (habs : abseps < 10 ^ 100) :
    let R := fun m => gaussRound (rule (2 ^ (m + 1))) wfun a b dx f
    (∀ m < 2, |releps * R m| < 10 ^ 100) →
    ∃ m, 2 ≤ m ∧ m ≤ 10 ∧
      gaussq rule f a b releps abseps α β wfun = .ok (R m, |R (m - 1) - R m|) ∧
      (|R (m - 1) - R m| ≤ max |releps * R m| abseps ∨ m = 10) := by
  intro R hR
  obtain ⟨m, h1, h2, h3, h4⟩ := gaussLoop_spec rule wfun a b dx releps abseps f 8 2 le_rfl (10 ^ 100) (R 1)
  refine ⟨m, h1, by omega, ?_, by simpa using h4⟩
  simp only [gaussq, hdx]
  congr 1
  rw [← h3]
  have c0 : (10 : ℝ) ^ 100 > max |releps * R 0| abseps := max_lt (hR 0 (by omega)) habs
  have c1 : (10 : ℝ) ^ 100 > max |releps * R 1| abseps := max_lt (hR 1 (by omega)) habs
  rw [gaussLoop]
  simp only [if_neg (show ¬ 0 > 1 by omega)]
  rw [if_pos c0, gaussLoop]
  simp only [if_neg (show ¬ 0 + 1 > 1 by omega)]
  rw [if_pos c1]

/-- The entries of the cache under the keys they were computed for. -/
def StoreOk {κ : Type*} (fmt : ℝ → κ) (qrule : ℕ → ℕ → ℝ → ℝ → List (ℝ × ℝ))
    (store : List ((ℕ × ℕ × κ × κ) × List (ℝ × ℝ))) : Prop :=
  ∀ e ∈ store, ∃ n wfun α β, e = ((wfun, n, fmt α, fmt β), qrule n wfun α β)

theorem lookupRule_ok {κ : Type*} [DecidableEq κ] (fmt : ℝ → κ)
    (qrule : ℕ → ℕ → ℝ → ℝ → List (ℝ × ℝ)) (store : List ((ℕ × ℕ × κ × κ) × List (ℝ × ℝ)))
    (hs : StoreOk fmt qrule store) (n wfun : ℕ) (α β : ℝ) :
    StoreOk fmt qrule (lookupRule fmt qrule store n wfun α β).2 ∧
    ∃ α' β', fmt α' = fmt α ∧ fmt β' = fmt β ∧
      (lookupRule fmt qrule store n wfun α β).1 = qrule n wfun α' β' := by
  simp only [lookupRule]
  cases h : store.lookup (wfun, n, fmt α, fmt β) with
  | some r =>
    refine ⟨hs, ?_⟩
    have hm : ((wfun, n, fmt α, fmt β), r) ∈ store := by
      rw [List.lookup_eq_some_iff] at h
      obtain ⟨l1, l2, rfl, _⟩ := h
      simp
    obtain ⟨n', w', α', β', he⟩ := hs _ hm
    simp only [Prod.mk.injEq] at he
    obtain ⟨⟨rfl, rfl, h1, h2⟩, rfl⟩ := he
    exact ⟨α', β', h1.symm, h2.symm, rfl⟩
  | none =>
    refine ⟨?_, α, β, rfl, rfl, rfl⟩
    intro e he
    rw [List.mem_cons] at he
    rcases he with rfl | he
    · exact ⟨n, wfun, α, β, rfl⟩
    · exact hs e he

end Wafo.Quad

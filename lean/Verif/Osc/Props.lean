import Verif.Osc.Comp

/-! Quadrature of oscillating functions: exactness of the weights and of `QuadOsc`. -/

set_option linter.unusedSectionVars false

namespace Wafo.Osc
open Finset

noncomputable section

/-- One of the two bases of the module. -/
def IsBasis (B : Basis) : Prop := B = polyBasis ∨ B = chebBasis

theorem IsBasis.graded {B : Basis} (h : IsBasis B) : ∃ P, Graded B P := by
  rcases h with rfl | rfl
  · exact ⟨_, poly_graded⟩
  · exact ⟨_, cheb_graded⟩

/-! ### C203 -/

/-- The weights of Evans and Webster integrate exactly every function in the span of `p_k' + i omega g' p_k`, with one weight for each
node, for every solver of nonsingular systems. -/
theorem C203_exact {lstsq : Lstsq} (hl : Solves lstsq) {B : Basis} (hB : IsBasis B) (om : ℝ) {g dg : ℝ → ℝ}
    (hg : ∀ t ∈ Set.Icc (-1 : ℝ) 1, HasDerivAt g (dg t) t) (hdg : ContinuousOn dg (Set.Icc (-1) 1)) {x : List ℝ}
    (hx : ∀ t ∈ x, t ∈ Set.Icc (-1 : ℝ) 1) (hA : Nonsingular x.length (ewMatrix om dg x B)) {f : ℝ → ℂ} {c : ℕ → ℂ}
    (hf : ∀ t ∈ Set.Icc (-1 : ℝ) 1, f t = ∑ k ∈ range x.length, c k * (((deriv (B.fn k) t : ℝ) : ℂ) + Complex.I * om * dg t * B.fn k t)) :
    (ewWeights lstsq om g dg x B).length = x.length ∧
    (List.zipWith (· * ·) (ewWeights lstsq om g dg x B) (x.map f)).sum =
      ∫ t in (-1 : ℝ)..1, f t * Complex.exp (Complex.I * om * g t) := by
  obtain ⟨P, hP⟩ := hB.graded
  refine ew_exact hl hP om hg hdg hx hA (c := c) fun t ht => ?_
  rw [hf t ht]
  refine sum_congr rfl fun k _ => ?_
  rw [image, (hP.hasDeriv k t).deriv]
  push_cast
  ring

/-- Such solvers exist. -/
example : ∃ lstsq : Lstsq, Solves lstsq := exists_solves

/-- A quadratic phase and one node: the matrix is nonsingular. -/
example : Nonsingular 1 (ewMatrix 1 (fun t => 1 + t) [0] polyBasis) := by
  refine ⟨rfl, by simp [ewMatrix], fun v hv h => ?_⟩
  obtain ⟨z, rfl⟩ := List.length_eq_one_iff.1 hv
  simpa [matVec, ewMatrix, polyBasis] using h

/-- One node and no oscillation: the matrix is zero, hence singular. -/
example : ¬ Nonsingular 1 (ewMatrix 0 (fun _ => 1) [0] polyBasis) := by
  intro h
  have := h.inj [1] rfl (by simp [matVec, ewMatrix, polyBasis])
  simp at this

/-! ### C204 -/

/-- For a linear phase and distinct nodes the system is nonsingular and polynomials of degree less than the number of nodes are integrated
exactly. -/
theorem C204_linear {lstsq : Lstsq} (hl : Solves lstsq) {B : Basis} (hB : IsBasis B) {om s : ℝ} (hs : om * s ≠ 0) (o : ℝ) {x : List ℝ}
    (hn : x.Nodup) (hx : ∀ t ∈ x, t ∈ Set.Icc (-1 : ℝ) 1) {F : Polynomial ℂ} (hF : F.degree < x.length) :
    Nonsingular x.length (ewMatrix om (fun _ => s) x B) ∧
    (List.zipWith (· * ·) (ewWeights lstsq om (fun t => s * t + o) (fun _ => s) x B) (x.map fun t : ℝ => F.eval (t : ℂ))).sum =
      ∫ t in (-1 : ℝ)..1, F.eval (t : ℂ) * Complex.exp (Complex.I * om * (s * t + o : ℝ)) := by
  obtain ⟨P, hP⟩ := hB.graded
  have hA := linear_nonsingular hP hs hn
  obtain ⟨c, hc⟩ := linear_span hP hs hn hF
  refine ⟨hA, (ew_exact hl hP om (g := fun t => s * t + o) (dg := fun _ => s) (fun t _ => ?_) continuousOn_const hx hA
    (f := fun t => F.eval (t : ℂ)) (c := c) fun t _ => hc t).2⟩
  simpa using ((hasDerivAt_id t).const_mul s).add_const o

/-- Three nodes and a quadratic polynomial. -/
example {lstsq : Lstsq} (hl : Solves lstsq) :
    (List.zipWith (· * ·) (ewWeights lstsq 5 (fun t => 2 * t + 1) (fun _ => 2) [-1, 0, 1 / 2] chebBasis)
      ([-1, 0, 1 / 2].map fun t : ℝ => (Polynomial.X ^ 2 : Polynomial ℂ).eval (t : ℂ))).sum =
      ∫ t in (-1 : ℝ)..1, (Polynomial.X ^ 2 : Polynomial ℂ).eval (t : ℂ) * Complex.exp (Complex.I * (5 : ℝ) * (2 * t + 1 : ℝ)) :=
  (C204_linear hl (Or.inr rfl) (by norm_num) 1 (by norm_num) (by norm_num [Set.mem_Icc]) (by
    rw [Polynomial.degree_X_pow]
    norm_num)).2

/-! ### C205 -/

/-- After `k` bisections the limits passed to `osc_weights` are those of `2 ^ k` adjacent parts of equal length from `a` to `b`, and the
nodes are those of the parts in the same order. -/
theorem C205_bisection (a b : ℝ) (xn : List ℝ) (k : ℕ) : ∃ l : List (ℝ × ℝ),
    pairs (level a b xn k).ab = l ∧ (level a b xn k).ab.length = 2 * l.length ∧ l.length = 2 ^ k ∧ Chain a l b ∧
    (∀ p ∈ l, p.2 - p.1 = (b - a) / 2 ^ k) ∧ (level a b xn k).hh = (b - a) / 2 ^ k / 2 ∧
    (level a b xn k).x = l.flatMap fun p => xn.map fun u => (p.1 + p.2) / 2 + (p.2 - p.1) / 2 * u := by
  refine ⟨ivals a b k, by rw [level_ab, pairs_flat], ?_, ?_, ivals_chain a b k, fun p hp => ?_, ?_, ?_⟩
  · rw [level_ab, flat, List.length_flatMap]
    simp [mul_comm]
  · induction k with
    | zero => rfl
    | succ k ih => rw [ivals, List.length_append, List.length_map, List.length_map, ih]; ring
  · have := ivals_len a b k p hp
    have e : p.2 - p.1 = 2 * ((p.2 - p.1) / 2) := by ring
    rw [e, this]
    ring
  · rw [level_hh]; ring
  · rw [level_x]
    congr 1
    funext p
    refine List.map_congr_left fun u _ => ?_
    ring

/-- The parts of `[0, 4]` after two bisections. -/
example : (level 0 4 [0] 2).ab = [0, 1, 1, 2, 2, 3, 3, 4] ∧ (level 0 4 [0] 2).x = [1 / 2, 3 / 2, 5 / 2, 7 / 2] := by
  norm_num [level, start, bisect]

/-- If the function is in the span on every part, the composite rule gives the integral over the whole interval. -/
theorem C205_composite {lstsq : Lstsq} (hl : Solves lstsq) {B : Basis} (hB : IsBasis B) (om : ℝ) {g dg : ℝ → ℝ}
    (hg : ∀ t, HasDerivAt g (dg t) t) (hdg : Continuous dg) {xn : List ℝ} (hx : ∀ t ∈ xn, t ∈ Set.Icc (-1 : ℝ) 1) {f : ℝ → ℂ}
    (hfc : Continuous f) (a b : ℝ) (k : ℕ)
    (hp : ∀ p ∈ pairs (level a b xn k).ab,
      let h := (p.2 - p.1) / 2
      let y : ℝ → ℝ := fun t => h * t + (p.1 + p.2) / 2
      Nonsingular xn.length (ewMatrix om (fun t => h * dg (y t)) xn B) ∧
      ∃ c : ℕ → ℂ, ∀ t ∈ Set.Icc (-1 : ℝ) 1, f (y t) = ∑ k ∈ range xn.length, c k *
        (((deriv (B.fn k) t : ℝ) : ℂ) + Complex.I * om * (h * dg (y t) : ℝ) * B.fn k t)) :
    rule lstsq f g dg om B xn (level a b xn k) = ∫ t in a..b, f t * Complex.exp (Complex.I * om * g t) := by
  obtain ⟨P, hP⟩ := hB.graded
  rw [level_ab, pairs_flat] at hp
  have hpiece : ∀ p ∈ ivals a b k, (piece lstsq g dg om B xn p).length = xn.length ∧ (((p.2 - p.1) / 2 : ℝ) : ℂ) *
      (List.zipWith (· * ·) (piece lstsq g dg om B xn p) ((nodes xn p).map f)).sum = ∫ t in p.1..p.2, f t * phase om (g t) := fun p hpm => by
    obtain ⟨hA, c, hc⟩ := hp p hpm
    refine piece_exact (f := f) hl hP om hg hdg hx p hA (c := c) fun t ht => ?_
    rw [hc t ht]
    refine sum_congr rfl fun k _ => ?_
    rw [image, (hP.hasDeriv k t).deriv]
    push_cast
    ring
  rw [rule_eq (fun p hpm => (hpiece p hpm).1), List.map_congr_left (fun p hpm => (hpiece p hpm).2)]
  have hgc : Continuous g := continuous_iff_continuousAt.2 fun t => (hg t).continuousAt
  refine (ivals_chain a b k).integral fun x y => Continuous.intervalIntegrable ?_ _ _
  unfold phase
  fun_prop

/-! ### C206 -/

theorem rule_linear {lstsq : Lstsq} (hl : Solves lstsq) {B : Basis} (hB : IsBasis B) {om s : ℝ} (hs : om * s ≠ 0) (o : ℝ) {xn : List ℝ}
    (hn : xn.Nodup) (hx : ∀ t ∈ xn, t ∈ Set.Icc (-1 : ℝ) 1) {F : Polynomial ℂ} (hF : F.degree < xn.length) {a b : ℝ} (hab : a ≠ b)
    (k : ℕ) : rule lstsq (fun t => F.eval (t : ℂ)) (fun t => s * t + o) (fun _ => s) om B xn (level a b xn k) =
      ∫ t in a..b, F.eval (t : ℂ) * Complex.exp (Complex.I * om * (s * t + o : ℝ)) := by
  obtain ⟨P, hP⟩ := hB.graded
  refine C205_composite hl hB om (g := fun t => s * t + o) (dg := fun _ => s) (fun t => ?_) continuous_const hx
    (f := fun t => F.eval (t : ℂ)) (by fun_prop) a b k fun p hp => ?_
  · simpa using ((hasDerivAt_id t).const_mul s).add_const o
  · rw [level_ab, pairs_flat] at hp
    have hh : (p.2 - p.1) / 2 ≠ 0 := by
      rw [ivals_len a b k p hp]
      have : b - a ≠ 0 := sub_ne_zero.2 hab.symm
      positivity
    have hs' : om * ((p.2 - p.1) / 2 * s) ≠ 0 := by
      rw [mul_left_comm]
      exact mul_ne_zero hh hs
    refine ⟨linear_nonsingular hP hs' hn, ?_⟩
    let G : Polynomial ℂ := F.comp (Polynomial.C (((p.2 - p.1) / 2 : ℝ) : ℂ) * Polynomial.X + Polynomial.C (((p.1 + p.2) / 2 : ℝ) : ℂ))
    have hG : G.degree < xn.length := by
      by_cases hF0 : F = 0
      · simp only [G, hF0, Polynomial.zero_comp, Polynomial.degree_zero]
        exact WithBot.bot_lt_coe _
      · have h1 : F.natDegree < xn.length := (Polynomial.natDegree_lt_iff_degree_lt hF0).2 hF
        refine (Polynomial.degree_le_natDegree).trans_lt ?_
        have h2 : G.natDegree ≤ F.natDegree := by
          refine (Polynomial.natDegree_comp_le).trans ?_
          refine (Nat.mul_le_mul_left _ (Polynomial.natDegree_linear_le)).trans (by simp)
        exact_mod_cast h2.trans_lt h1
    obtain ⟨c, hc⟩ := linear_span hP hs' hn hG
    refine ⟨c, fun t _ => ?_⟩
    have e : F.eval (((p.2 - p.1) / 2 * t + (p.1 + p.2) / 2 : ℝ) : ℂ) = G.eval (t : ℂ) := by
      simp [G, Polynomial.eval_comp]
    rw [e, hc t]
    refine sum_congr rfl fun k _ => ?_
    rw [image, (hP.hasDeriv k t).deriv]
    push_cast
    ring

theorem quadOsc_const {lstsq : Lstsq} {dea3 : ℂ → ℂ → ℂ → ℂ} {tiny abseps : ℝ} (he : 0 ≤ abseps) {maxiter : ℕ} (hm : 2 ≤ maxiter) {f : ℝ → ℂ}
    {g dg : ℝ → ℝ} {om : ℝ} {B : Basis} {xn : List ℝ} {a b : ℝ} (hab : a ≠ b) {v : ℂ}
    (hv : ∀ k, rule lstsq f g dg om B xn (level a b xn k) = v) :
    quadOsc lstsq dea3 tiny abseps maxiter f g dg om B xn a b = .ok (v, tiny, 3 * xn.length) := by
  obtain ⟨m, rfl⟩ : ∃ m, maxiter = m + 2 := ⟨maxiter - 2, by omega⟩
  unfold quadOsc
  rw [if_neg hab]
  have e : extrapolate dea3 (fun k => rule lstsq f g dg om B xn (level a b xn k)) 1 = (v, 0) := by
    simp [extrapolate, bestEstimate, hv]
  simp only [search, e, he, if_true]
  simp [sum_range_succ, mul_comm]

/-- `QuadOsc` returns the exact integral of a polynomial of degree less than the number of nodes times `exp(i omega (s x + o))` over any
finite interval, in both orders of the limits, and stops after the first bisection; for equal limits it returns zero. -/
theorem C206_linear {lstsq : Lstsq} (hl : Solves lstsq) (dea3 : ℂ → ℂ → ℂ → ℂ) (tiny : ℝ) {abseps : ℝ} (he : 0 ≤ abseps) {maxiter : ℕ}
    (hm : 2 ≤ maxiter) {B : Basis} (hB : IsBasis B) {om s : ℝ} (hs : om * s ≠ 0) (o : ℝ) {xn : List ℝ} (hn : xn.Nodup)
    (hx : ∀ t ∈ xn, t ∈ Set.Icc (-1 : ℝ) 1) {F : Polynomial ℂ} (hF : F.degree < xn.length) (a b : ℝ) :
    quad lstsq dea3 tiny abseps maxiter (fun t => F.eval (t : ℂ)) (fun t => s * t + o) (fun _ => s) om B xn a b =
      .ok (∫ t in a..b, F.eval (t : ℂ) * Complex.exp (Complex.I * om * (s * t + o : ℝ)), if a = b then 0 else tiny,
        if a = b then 0 else 3 * xn.length) := by
  unfold quad
  rcases lt_trichotomy a b with h | h | h
  · rw [if_neg (not_lt.2 h.le), quadOsc_const he hm h.ne (fun k => rule_linear hl hB hs o hn hx hF h.ne k), if_neg h.ne, if_neg h.ne]
  · subst h
    simp [quadOsc]
  · rw [if_pos h, quadOsc_const he hm h.ne (fun k => rule_linear hl hB hs o hn hx hF h.ne k), if_neg h.ne', if_neg h.ne']
    simp only []
    rw [← intervalIntegral.integral_symm]

/-- A cubic polynomial with four nodes and the limits in decreasing order. -/
example {lstsq : Lstsq} (hl : Solves lstsq) (dea3 : ℂ → ℂ → ℂ → ℂ) :
    quad lstsq dea3 (1 / 10 ^ 15) (1 / 10 ^ 10) 17 (fun t => (Polynomial.X ^ 3 : Polynomial ℂ).eval (t : ℂ)) (fun t => 2 * t + 0) (fun _ => 2) 100
      chebBasis [-1, -1 / 2, 0, 1] 3 1 =
      .ok (∫ t in (3 : ℝ)..1, (Polynomial.X ^ 3 : Polynomial ℂ).eval (t : ℂ) * Complex.exp (Complex.I * (100 : ℝ) * (2 * t + 0 : ℝ)),
        1 / 10 ^ 15, 12) := by
  have h := C206_linear hl dea3 (1 / 10 ^ 15) (abseps := 1 / 10 ^ 10) (by norm_num) (maxiter := 17) (by norm_num) (Or.inr rfl)
    (om := 100) (s := 2) (by norm_num) 0 (xn := [-1, -1 / 2, 0, 1]) (by norm_num) (by norm_num [Set.mem_Icc]) (F := Polynomial.X ^ 3)
    (by rw [Polynomial.degree_X_pow]; norm_num) 3 1
  norm_num at h ⊢
  exact h

/-- The documented parameter `maxiter` must be at least two: with one iteration the variable `converged` is never set, and with none the
first value has no place, for every function and all different limits. -/
theorem C206_maxiter_refuted (lstsq : Lstsq) (dea3 : ℂ → ℂ → ℂ → ℂ) (tiny abseps : ℝ) (f : ℝ → ℂ) (g dg : ℝ → ℝ) (om : ℝ) (B : Basis)
    (xn : List ℝ) {a b : ℝ} (hab : a ≠ b) :
    quad lstsq dea3 tiny abseps 1 f g dg om B xn a b = .error .unbound ∧ quad lstsq dea3 tiny abseps 0 f g dg om B xn a b = .error .index := by
  unfold quad quadOsc
  simp only [if_neg hab, if_neg hab.symm]
  constructor
  · by_cases h : b < a
    · rw [if_pos h]
    · rw [if_neg h]
  · by_cases h : b < a
    · rw [if_pos h]
    · rw [if_neg h]

/-! ### C207 -/

theorem smallest_mem (c : ℂ × ℝ) (l : List (ℂ × ℝ)) : smallest c l ∈ c :: l ∧ ∀ d ∈ c :: l, (smallest c l).2 ≤ d.2 := by
  induction l generalizing c with
  | nil => simp [smallest]
  | cons d t ih =>
    unfold smallest
    split_ifs with h
    · obtain ⟨h1, h2⟩ := ih d
      refine ⟨List.mem_cons_of_mem _ h1, fun e he => ?_⟩
      rcases List.mem_cons.1 he with rfl | he
      · exact (h2 d (by simp)).trans h.le
      · exact h2 e he
    · obtain ⟨h1, h2⟩ := ih c
      refine ⟨?_, fun e he => ?_⟩
      · rcases List.mem_cons.1 h1 with h1 | h1
        · rw [h1]; simp
        · exact List.mem_cons_of_mem _ (List.mem_cons_of_mem _ h1)
      · rcases List.mem_cons.1 he with rfl | he
        · exact h2 e (by simp)
        · rcases List.mem_cons.1 he with rfl | he
          · exact (h2 c (by simp)).trans (not_lt.1 h)
          · exact h2 e (List.mem_cons_of_mem _ he)

/-- The estimate after `k` bisections is the current value of the quadrature or one of its extrapolations, its error is the change since
the previous value of the same kind, and no other available value changed less. -/
theorem C207_estimate (dea3 : ℂ → ℂ → ℂ → ℂ) (q0 : ℕ → ℂ) {k : ℕ} (hk : 1 ≤ k) :
    let q1 : ℕ → ℂ := fun k => dea3 (q0 (k - 2)) (q0 (k - 1)) (q0 k)
    let q2 : ℕ → ℂ := fun k => dea3 (q1 (k - 2)) (q1 (k - 1)) (q1 k)
    let cand : List (ℕ → ℂ) := if 5 ≤ k then [q0, q1, q2] else if 3 ≤ k then [q0, q1] else [q0]
    (∃ q ∈ cand, extrapolate dea3 q0 k = (q k, ‖q k - q (k - 1)‖)) ∧ ∀ q ∈ cand, (extrapolate dea3 q0 k).2 ≤ ‖q k - q (k - 1)‖ := by
  intro q1 q2 cand
  let p1 : ℕ → ℂ := fun k => if 2 ≤ k then dea3 (q0 (k - 2)) (q0 (k - 1)) (q0 k) else 0
  let p2 : ℕ → ℂ := fun k => if 4 ≤ k then dea3 (p1 (k - 2)) (p1 (k - 1)) (p1 k) else 0
  have e1 : ∀ j, 2 ≤ j → p1 j = q1 j := fun j hj => if_pos hj
  have e2 : ∀ j, 4 ≤ j → p2 j = q2 j := fun j hj => by
    have : p2 j = dea3 (p1 (j - 2)) (p1 (j - 1)) (p1 j) := if_pos hj
    rw [this, e1 _ (by omega), e1 _ (by omega), e1 _ (by omega)]
  have ee : extrapolate dea3 q0 k = bestEstimate k q0 p1 p2 := rfl
  rw [ee]
  unfold bestEstimate
  simp only []
  by_cases h5 : 5 ≤ k
  · simp only [cand, if_pos h5]
    rw [e1 k (by omega), e1 (k - 1) (by omega), e2 k (by omega), e2 (k - 1) (by omega)]
    obtain ⟨h1, h2⟩ := smallest_mem (q0 k, ‖q0 k - q0 (k - 1)‖) [(q1 k, ‖q1 k - q1 (k - 1)‖), (q2 k, ‖q2 k - q2 (k - 1)‖)]
    refine ⟨?_, fun q hq => ?_⟩
    · simp only [List.mem_cons, List.not_mem_nil, or_false] at h1
      rcases h1 with h1 | h1 | h1 <;> rw [h1]
      · exact ⟨q0, by simp, rfl⟩
      · exact ⟨q1, by simp, rfl⟩
      · exact ⟨q2, by simp, rfl⟩
    · simp only [List.mem_cons, List.not_mem_nil, or_false] at hq
      rcases hq with rfl | rfl | rfl
      · exact h2 (q k, ‖q k - q (k - 1)‖) (by simp)
      · exact h2 (q1 k, ‖q1 k - q1 (k - 1)‖) (by simp)
      · exact h2 (q2 k, ‖q2 k - q2 (k - 1)‖) (by simp)
  · simp only [cand, if_neg h5]
    by_cases h3 : 3 ≤ k
    · simp only [if_pos h3]
      rw [e1 k (by omega), e1 (k - 1) (by omega)]
      obtain ⟨h1, h2⟩ := smallest_mem (q0 k, ‖q0 k - q0 (k - 1)‖) [(q1 k, ‖q1 k - q1 (k - 1)‖)]
      refine ⟨?_, fun q hq => ?_⟩
      · simp only [List.mem_cons, List.not_mem_nil, or_false] at h1
        rcases h1 with h1 | h1 <;> rw [h1]
        · exact ⟨q0, by simp, rfl⟩
        · exact ⟨q1, by simp, rfl⟩
      · simp only [List.mem_cons, List.not_mem_nil, or_false] at hq
        rcases hq with rfl | rfl
        · exact h2 (q k, ‖q k - q (k - 1)‖) (by simp)
        · exact h2 (q1 k, ‖q1 k - q1 (k - 1)‖) (by simp)
    · simp only [if_neg h3]
      exact ⟨⟨q0, by simp, rfl⟩, fun q hq => by
        rw [List.mem_singleton.1 hq]⟩

theorem search_spec (est : ℕ → ℂ × ℝ) (abseps : ℝ) (left k : ℕ) (hk : 1 ≤ k) (hprev : ∀ j, 1 ≤ j → j < k → abseps < (est j).2) :
    let r := search est abseps left k
    (r.1, r.2.1) = est r.2.2 ∧ r.2.2 < k + left ∧ (∀ j, 1 ≤ j → j < r.2.2 → abseps < (est j).2) ∧
      ((est r.2.2).2 ≤ abseps ∨ r.2.2 = k + left - 1) ∧ k - 1 ≤ r.2.2 ∧ (0 < left → k ≤ r.2.2) := by
  induction left generalizing k with
  | zero =>
    refine ⟨Eq.refl _, by simp only [search]; omega, fun j h1 h2 => hprev j h1 (by simp only [search] at h2; omega), Or.inr (Eq.refl _),
      le_refl _, fun h => by omega⟩
  | succ n ih =>
    unfold search
    by_cases h : (est k).2 ≤ abseps
    · simp only [if_pos h]
      exact ⟨trivial, by omega, hprev, Or.inl h, by omega, fun _ => le_rfl⟩
    · simp only [if_neg h]
      obtain ⟨h1, h2, h3, h4, h5, -⟩ := ih (k + 1) (by omega) (fun j hj1 hj2 => by
        rcases Nat.lt_succ_iff_lt_or_eq.1 hj2 with hj | rfl
        · exact hprev j hj1 hj
        · exact not_le.1 h)
      exact ⟨h1, by omega, h3, h4.imp_right fun e => by omega, by omega, fun _ => by omega⟩

/-- The result belongs to the first bisection with an error of at most `abseps`, or to the last one, and the number of nodes counts all
the values of the function up to this bisection. -/
theorem C207_stops (lstsq : Lstsq) (dea3 : ℂ → ℂ → ℂ → ℂ) (tiny abseps : ℝ) {maxiter : ℕ} (hm : 2 ≤ maxiter) (f : ℝ → ℂ) (g dg : ℝ → ℝ)
    (om : ℝ) (B : Basis) (xn : List ℝ) {a b : ℝ} (hab : a < b) :
    let est := extrapolate dea3 fun k => rule lstsq f g dg om B xn (level a b xn k)
    ∃ k, 1 ≤ k ∧ k < maxiter ∧ quad lstsq dea3 tiny abseps maxiter f g dg om B xn a b =
        .ok ((est k).1, (est k).2 + tiny, xn.length * (2 ^ (k + 1) - 1)) ∧
      (∀ j, 1 ≤ j → j < k → abseps < (est j).2) ∧ ((est k).2 ≤ abseps ∨ k = maxiter - 1) := by
  intro est
  obtain ⟨m, rfl⟩ : ∃ m, maxiter = m + 2 := ⟨maxiter - 2, by omega⟩
  obtain ⟨h1, h2, h3, h4, -, hk⟩ := search_spec est abseps (m + 1) 1 le_rfl (fun j _ _ => by omega)
  refine ⟨(search est abseps (m + 1) 1).2.2, hk (by omega), by omega, ?_, h3, h4.imp_right fun e => by omega⟩
  unfold quad quadOsc
  rw [if_neg (not_lt.2 hab.le), if_neg hab.ne]
  simp only []
  have hs : ∑ i ∈ range ((search est abseps (m + 1) 1).2.2 + 1), 2 ^ i = 2 ^ ((search est abseps (m + 1) 1).2.2 + 1) - 1 :=
    Nat.geomSum_eq le_rfl _ |>.trans (by simp)
  rw [← h1]
  exact congrArg Except.ok (Prod.ext rfl (Prod.ext rfl (by simpa using congrArg (xn.length * ·) hs)))

end

end Wafo.Osc

import Verif.Pade.Lemmas
import Verif.Cheb.FitProps
import Mathlib.Data.List.GetD

/-!
# Properties of `padefitlsq` and `padefit` (C303-C306)
-/

set_option linter.unusedSectionVars false

namespace Wafo.Pade

open Wafo.Poly Finset Polynomial

variable {m k n : ℕ}

section exact

variable (P Q : ℝ[X]) (x fs : Fin n → ℝ) (svd : (Fin n → Fin (m + k + 1) → ℝ) → Svd n (m + k + 1))

/-- The coefficients of `P` and `Q`. -/
def Same (c : List ℝ × List ℝ) : Prop := ∀ t, peval c.1 t = P.eval t ∧ peval c.2 t = Q.eval t

theorem cross_of_dev (N D F : ℝ) (i : Fin n) (hQ : Q.eval (x i) ≠ 0) (hF : F = P.eval (x i) / Q.eval (x i))
    (h : deviation N D F = .nan ∨ ∃ s ≤ 0, deviation N D F = .fin s) :
    N * Q.eval (x i) = P.eval (x i) * D := by
  unfold deviation at h
  by_cases hD : D = 0
  · rw [if_pos hD] at h
    by_cases hN : N = 0
    · rw [hN, hD]; simp
    · rw [if_neg hN] at h; simp at h
  · rw [if_neg hD] at h
    rcases h with h | ⟨s, hs, h⟩
    · simp at h
    · rw [Dev.fin.injEq] at h
      have : |N / D - F| = 0 := le_antisymm (by linarith) (abs_nonneg _)
      rw [abs_eq_zero, sub_eq_zero, hF, div_eq_div_iff hD hQ] at this
      exact this

variable (hsvd : ∀ u, IsSvd u (svd u)) (hx : Function.Injective x) (hn : m + k < n) (hP : P.natDegree ≤ m)
  (hQ : Q.natDegree ≤ k) (hQ0 : Q.coeff 0 = 1) (hc : IsCoprime P Q)
  (hdeg : Q.natDegree = k ∨ (P ≠ 0 ∧ P.natDegree = m))
  (hf : ∀ i, Q.eval (x i) ≠ 0 ∧ fs i = P.eval (x i) / Q.eval (x i))

include hx hn hP hQ hQ0 hc hdeg in
theorem same_of_cross (cof : Fin (m + k + 1) → ℝ)
    (h : ∀ i, (numPoly cof).eval (x i) * Q.eval (x i) = P.eval (x i) * (denPoly cof).eval (x i)) :
    Same P Q (numer m k cof, denom m k cof) := by
  obtain ⟨h1, h2⟩ := unique_quotient x hx hn (numPoly cof) (denPoly cof) P Q (numPoly_deg cof) (denPoly_deg cof) hP hQ
    (denPoly_zero cof) hQ0 hc hdeg h
  intro t
  exact ⟨by rw [peval_numer, h1], by rw [peval_denom, h2]⟩

include hsvd hx hn hP hQ hQ0 hc hdeg hf in
theorem first_same : Same P Q (coefs m k svd x fs (fun _ => 1, fun _ => 1, 0)) := by
  have hb : rhs fs (fun _ : Fin n => (1 : ℝ), fun _ => (1 : ℝ), (0 : ℝ)) = fs := by
    funext i; simp [rhs]
  unfold coefs
  simp only [hb]
  apply same_of_cross P Q x hx hn hP hQ hQ0 hc hdeg
  intro i
  have h1 := solve_spec (hsvd (design m k x (fun _ => 1) fs)) fs (cofOf m k P Q) (by
    intro i
    rw [design_mul, numPoly_cofOf P Q hP, denPoly_cofOf P Q hQ hQ0, (hf i).2]
    have := (hf i).1
    field_simp
    ring) i
  rw [design_mul, (hf i).2] at h1
  have := (hf i).1
  field_simp at h1
  linarith

include hsvd hx hn hP hQ hQ0 hc hdeg hf in
theorem first_step (small : ℝ) (h0 : 0 ≤ small) :
    ∃ s, step m k svd x fs ⟨some (fun _ => 1, fun _ => 1, 0), small, none⟩ = .ok s ∧ s.small = 0 ∧
      ∃ b, s.best = some b ∧ Same P Q b := by
  have hS := first_same P Q x fs svd hsvd hx hn hP hQ hQ0 hc hdeg hf
  set c := coefs m k svd x fs (fun _ => 1, fun _ => 1, 0) with hcdef
  have hd : ∀ i, deviation (peval c.1 (x i)) (peval c.2 (x i)) (fs i) = .fin 0 := by
    intro i
    rw [deviation, (hS (x i)).1, (hS (x i)).2, if_neg (hf i).1, (hf i).2, sub_self, abs_zero]
  have hm : devmax x fs c = .ok (.fin 0) := by
    unfold devmax
    cases hl : List.ofFn fun i => deviation (peval c.1 (x i)) (peval c.2 (x i)) (fs i) with
    | nil =>
      have := congrArg List.length hl
      simp at this; omega
    | cons d l =>
      have hall : ∀ e ∈ d :: l, e = .fin 0 := by
        intro e he
        rw [← hl, List.mem_ofFn] at he
        obtain ⟨i, rfl⟩ := he
        exact hd i
      rw [hall d (by simp)]
      show Except.ok (pymax (.fin 0) l) = _
      rw [pymax_const l 0 fun e he => hall e (by simp [he])]
  refine ⟨⟨next x fs c, 0, some c⟩, ?_, rfl, c, rfl, hS⟩
  unfold step
  simp only [← hcdef, hm]
  rw [if_pos h0]

include hx hn hP hQ hQ0 hc hdeg hf in
theorem later_step (s s' : State n) (h0 : s.small = 0) (hb : ∃ b, s.best = some b ∧ Same P Q b)
    (h : step m k svd x fs s = .ok s') : s'.small = 0 ∧ ∃ b, s'.best = some b ∧ Same P Q b := by
  unfold step at h
  cases hcur : s.cur with
  | none => rw [hcur] at h; simp at h
  | some cur =>
    rw [hcur] at h
    simp only at h
    set c := coefs m k svd x fs cur with hcdef
    cases hm : devmax x fs c with
    | error e => rw [hm] at h; simp at h
    | ok d =>
      rw [hm] at h
      cases d with
      | fin r =>
        simp only at h
        by_cases hr : r ≤ s.small
        · rw [if_pos hr] at h
          obtain ⟨hr0, hall⟩ := devmax_fin hm
          have hr' : r = 0 := le_antisymm (h0 ▸ hr) hr0
          subst hr'
          rw [← Except.ok.inj h]
          refine ⟨rfl, c, rfl, ?_⟩
          rw [hcdef]
          unfold coefs
          apply same_of_cross P Q x hx hn hP hQ hQ0 hc hdeg
          intro i
          rw [← peval_numer, ← peval_denom]
          exact cross_of_dev P Q x _ _ (fs i) i (hf i).1 (hf i).2 (hall i)
        · rw [if_neg hr] at h
          rw [← Except.ok.inj h]; exact ⟨h0, hb⟩
      | inf => rw [← Except.ok.inj h]; exact ⟨h0, hb⟩
      | nan => rw [← Except.ok.inj h]; exact ⟨h0, hb⟩

include hx hn hP hQ hQ0 hc hdeg hf in
theorem loop_same (j : ℕ) : ∀ (s s' : State n), s.small = 0 → (∃ b, s.best = some b ∧ Same P Q b) →
    loop m k svd x fs j s = .ok s' → ∃ b, s'.best = some b ∧ Same P Q b := by
  induction j with
  | zero => intro s s' _ hb h; rw [← Except.ok.inj h]; exact hb
  | succ j ih =>
    intro s s' h0 hb h
    unfold loop at h
    cases hs : step m k svd x fs s with
    | error e => rw [hs] at h; simp at h
    | ok s1 =>
      rw [hs] at h
      obtain ⟨a, b⟩ := later_step P Q x fs svd hx hn hP hQ hQ0 hc hdeg hf s s1 h0 hb hs
      exact ih s1 s' a b h

include hsvd hx hn hP hQ hQ0 hc hdeg hf in
/-- **C303** (given points)  If the function values are those of `P/Q` with `P` and `Q` without common factor, of degrees at
most `m` and `k` with one of these attained, `Q(0) = 1` and `Q` not zero at the points, then the pair returned is `P`, `Q`:
the fit reproduces rational functions of the requested orders exactly.  Missing for the full claim: that the later passes,
whose weights are then all zero, never raise. -/
theorem C303_points_partial (r : List ℝ × List ℝ) (hr : fitPoints m k svd x fs = .ok r) (t : ℝ) :
    peval r.1 t = P.eval t ∧ peval r.2 t = Q.eval t := by
  obtain ⟨s1, h1, h2, h3⟩ := first_step P Q x fs svd hsvd hx hn hP hQ hQ0 hc hdeg hf (10 ^ 30) (by positivity)
  unfold fitPoints at hr
  rw [loop, h1] at hr
  cases hl : loop m k svd x fs 4 s1 with
  | error e => simp only [hl] at hr; simp at hr
  | ok s =>
    obtain ⟨b, hb, hS⟩ := loop_same P Q x fs svd hx hn hP hQ hQ0 hc hdeg hf 4 s1 s h2 h3 hl
    simp only [hl, hb] at hr
    rw [← Except.ok.inj hr]
    exact hS t

end exact

theorem nodes_spec (npt : ℕ) (h2 : 2 ≤ npt) (e : Bool) (a b : ℝ) (hab : a ≠ b) :
    (nodes npt e a b).length = npt ∧ (nodes npt e a b).Nodup := by
  have hinj : Function.Injective fun t : ℝ => mapToInterval t a b := by
    intro s t h
    have h' : (s * (b - a) + (b + a)) / 2 = (t * (b - a) + (b + a)) / 2 := h
    have : b - a ≠ 0 := sub_ne_zero.2 hab.symm
    apply mul_right_cancel₀ this
    linarith
  unfold nodes
  cases e with
  | false =>
    obtain ⟨r, hr, hlen, hp, -⟩ := (Cheb.C95_chebroot npt 1).1 (Or.inl rfl)
    simp only [hr, Bool.false_eq_true, if_false, List.length_map]
    refine ⟨hlen, List.Nodup.map hinj ?_⟩
    exact List.Pairwise.imp (fun h => h.ne) hp
  | true =>
    simp only [if_true, List.length_map]
    refine ⟨by simp [Cheb.chebextr]; omega, List.Nodup.map hinj ?_⟩
    unfold Cheb.chebextr
    apply List.Nodup.map_on _ List.nodup_range
    intro i hi j hj h
    rw [List.mem_range] at hi hj
    have hN : (0 : ℝ) < ((npt - 1 : ℕ) : ℝ) := by exact_mod_cast (by omega : 0 < npt - 1)
    have mem : ∀ q : ℕ, q < npt - 1 + 1 → Real.pi * (q : ℝ) / ((npt - 1 : ℕ) : ℝ) ∈ Set.Icc 0 Real.pi := by
      intro q hq
      have : (q : ℝ) ≤ ((npt - 1 : ℕ) : ℝ) := by exact_mod_cast (by omega : q ≤ npt - 1)
      constructor
      · have := Real.pi_pos; positivity
      · rw [div_le_iff₀ hN]
        exact mul_le_mul_of_nonneg_left this Real.pi_pos.le
    have := Real.injOn_cos (mem i hi) (mem j hj) (neg_injective h)
    have h3 : (i : ℝ) = j := by
      have hp := Real.pi_pos
      field_simp at this
      exact this
    exact_mod_cast h3

/-- **C303**  `padefitlsq(fun, m, k, a, b)` for a callable rational function `P/Q` as above, finite at the points used. -/
theorem C303_rational_partial (m k : ℕ) (P Q : ℝ[X])
    (svd : (Fin (8 * (m + k + 1)) → Fin (m + k + 1) → ℝ) → Svd (8 * (m + k + 1)) (m + k + 1))
    (hsvd : ∀ u, IsSvd u (svd u)) (f : ℝ → ℝ) (a b : ℝ) (hab : a ≠ b) (endPoints : Bool)
    (hP : P.natDegree ≤ m) (hQ : Q.natDegree ≤ k) (hQ0 : Q.coeff 0 = 1) (hc : IsCoprime P Q)
    (hdeg : Q.natDegree = k ∨ (P ≠ 0 ∧ P.natDegree = m))
    (hf : ∀ t ∈ nodes (8 * (m + k + 1)) endPoints a b, Q.eval t ≠ 0 ∧ f t = P.eval t / Q.eval t)
    (r : List ℝ × List ℝ) (hr : fitFun m k svd f a b endPoints = .ok r) (t : ℝ) :
    peval r.1 t = P.eval t ∧ peval r.2 t = Q.eval t := by
  obtain ⟨hlen, hnd⟩ := nodes_spec (8 * (m + k + 1)) (by omega) endPoints a b hab
  unfold fitFun fitArrays at hr
  simp only [List.length_map, hlen, ne_eq, not_true_eq_false, false_and, or_self, if_false] at hr
  set xs := nodes (8 * (m + k + 1)) endPoints a b with hxs
  have h1 : ∀ i : Fin (8 * (m + k + 1)), spread xs i = xs[(i : ℕ)]'(by rw [hlen]; exact i.2) := by
    intro i
    rw [spread, if_neg (by omega), List.getD_eq_getElem _ _ (by rw [hlen]; exact i.2)]
  have h2 : ∀ i : Fin (8 * (m + k + 1)), spread (xs.map f) i = f (spread xs i) := by
    intro i
    rw [h1, spread, if_neg (by rw [List.length_map]; omega),
      List.getD_eq_getElem _ _ (by rw [List.length_map, hlen]; exact i.2), List.getElem_map]
  refine C303_points_partial P Q (spread xs) (spread (xs.map f)) svd hsvd ?_ (by omega) hP hQ hQ0 hc hdeg ?_ r hr t
  · intro i j hij
    rw [h1, h1] at hij
    exact Fin.ext ((List.Nodup.getElem_inj_iff hnd).1 hij)
  · intro i
    rw [h2]
    apply hf
    rw [h1]
    exact List.getElem_mem _

/-- The hypotheses on `P` and `Q` hold for `(1 + 2x)/(1 + x^2)` with `m = 1`, `k = 2`. -/
example : ∃ P Q : ℝ[X], P.natDegree ≤ 1 ∧ Q.natDegree ≤ 2 ∧ Q.coeff 0 = 1 ∧ IsCoprime P Q ∧ Q.natDegree = 2 ∧
    ∀ t, Q.eval t ≠ 0 := by
  refine ⟨1 + 2 * X, 1 + X ^ 2, by compute_degree!, by compute_degree!, by simp, ?_, by compute_degree!, ?_⟩
  · refine ⟨C (1 / 5) * (1 - 2 * X), C (4 / 5), ?_⟩
    apply Polynomial.funext
    intro t
    simp
    ring
  · intro t
    simp only [eval_add, eval_one, eval_pow, eval_X]
    positivity

/-- Singular value decompositions as required exist for one column. -/
example (n : ℕ) : ∃ svd : (Fin (n + 1) → Fin 1 → ℝ) → Svd (n + 1) 1, ∀ u, IsSvd u (svd u) := by
  classical
  have h : ∀ u : Fin (n + 1) → Fin 1 → ℝ, ∃ s, IsSvd u s := by
    intro u
    by_cases hz : ∑ i, u i 0 * u i 0 = 0
    · have h0 : ∀ i, u i 0 = 0 := by
        intro i
        have := (Finset.sum_eq_zero_iff_of_nonneg fun i _ => mul_self_nonneg (u i 0)).1 hz i (mem_univ i)
        exact mul_self_eq_zero.1 this
      refine ⟨⟨fun i _ => if i = 0 then 1 else 0, fun _ => 0, fun _ _ => 1⟩, ?_, ?_, ?_⟩
      · intro i j; rw [Subsingleton.elim j 0, h0]; simp
      · intro a b; simp [Subsingleton.elim a b]
      · intro a b; simp [Subsingleton.elim a b]
    · have hs : √(∑ i, u i 0 * u i 0) ≠ 0 := by
        rw [Real.sqrt_ne_zero (Finset.sum_nonneg fun i _ => mul_self_nonneg _)]; exact hz
      have hq := Real.mul_self_sqrt (Finset.sum_nonneg fun i (_ : i ∈ univ) => mul_self_nonneg (u i 0))
      refine ⟨⟨fun i _ => u i 0 / √(∑ i, u i 0 * u i 0), fun _ => √(∑ i, u i 0 * u i 0), fun _ _ => 1⟩, ?_, ?_, ?_⟩
      · intro i j; rw [Subsingleton.elim j 0]; simp [div_mul_cancel₀ _ hs]
      · intro a b
        simp only [Subsingleton.elim a b, if_true, div_mul_div_comm, hq]
        rw [← Finset.sum_div, div_self hz]
      · intro a b; simp [Subsingleton.elim a b]
  exact ⟨fun u => (h u).choose, fun u => (h u).choose_spec⟩

end Wafo.Pade

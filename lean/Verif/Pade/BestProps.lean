import Verif.Pade.Lemmas
import Mathlib.Data.List.GetD

/-!
# Properties of `padefitlsq` and `padefit` (C304-C306)
-/

set_option linter.unusedSectionVars false

namespace Wafo.Pade

open Wafo.Poly Finset Polynomial

variable {m k n : ℕ}

/-- The weights, deviations and mean deviation at the start of pass `j`; `none` if an earlier denominator vanished at a
point. -/
noncomputable def weights (svd : (Fin n → Fin (m + k + 1) → ℝ) → Svd n (m + k + 1)) (x fs : Fin n → ℝ) :
    ℕ → Option ((Fin n → ℝ) × (Fin n → ℝ) × ℝ)
  | 0 => some (fun _ => 1, fun _ => 1, 0)
  | j + 1 => (weights svd x fs j).bind fun cur => next x fs (coefs m k svd x fs cur)

/-- The pair found in pass `j`. -/
noncomputable def found (svd : (Fin n → Fin (m + k + 1) → ℝ) → Svd n (m + k + 1)) (x fs : Fin n → ℝ) (j : ℕ) :
    Option (List ℝ × List ℝ) := (weights svd x fs j).map fun cur => coefs m k svd x fs cur

/-- `c` deviates from the data by at most `r` wherever its quotient is defined, and its denominator does not vanish at a
point unless its numerator does. -/
def Within (x fs : Fin n → ℝ) (c : List ℝ × List ℝ) (r : ℝ) : Prop :=
  ∀ i, (peval c.2 (x i) = 0 → peval c.1 (x i) = 0) ∧
    (peval c.2 (x i) ≠ 0 → |peval c.1 (x i) / peval c.2 (x i) - fs i| ≤ r)

theorem within_of_devmax {x fs : Fin n → ℝ} {c : List ℝ × List ℝ} {r : ℝ} (h : devmax x fs c = .ok (.fin r)) :
    Within x fs c r := by
  intro i
  have := (devmax_fin h).2 i
  unfold deviation at this
  constructor
  · intro h0
    rw [if_pos h0] at this
    by_contra hn
    rw [if_neg hn] at this
    simp at this
  · intro h0
    rw [if_neg h0] at this
    rcases this with h | ⟨s, hs, h⟩
    · simp at h
    · rw [Dev.fin.injEq] at h; rw [h]; exact hs

theorem pymax_attained (l : List Dev) : ∀ (d : Dev), (∃ s, d = .fin s) → (∀ e ∈ l, ∃ s, e = .fin s) →
    ∃ r, pymax d l = .fin r ∧ Dev.fin r ∈ d :: l := by
  induction l with
  | nil => rintro d ⟨s, rfl⟩ _; exact ⟨s, rfl, by simp⟩
  | cons e l ih =>
    rintro d hd hl
    rw [pymax]
    by_cases hg : e.gt d
    · rw [if_pos hg]
      obtain ⟨r, h1, h2⟩ := ih e (hl e (by simp)) fun e he => hl e (by simp [he])
      exact ⟨r, h1, by simp only [List.mem_cons] at h2 ⊢; tauto⟩
    · rw [if_neg hg]
      obtain ⟨r, h1, h2⟩ := ih d hd fun e he => hl e (by simp [he])
      exact ⟨r, h1, by simp only [List.mem_cons] at h2 ⊢; tauto⟩

/-- With no vanishing denominator the maximal deviation is attained. -/
theorem devmax_attained (x fs : Fin n → ℝ) (c : List ℝ × List ℝ) (hn : n ≠ 0) (h : ∀ i, peval c.2 (x i) ≠ 0) :
    ∃ r, devmax x fs c = .ok (.fin r) ∧ ∃ i, r = |peval c.1 (x i) / peval c.2 (x i) - fs i| := by
  have hd : ∀ i, deviation (peval c.1 (x i)) (peval c.2 (x i)) (fs i) =
      .fin |peval c.1 (x i) / peval c.2 (x i) - fs i| := by
    intro i; rw [deviation, if_neg (h i)]
  unfold devmax
  cases hl : List.ofFn fun i => deviation (peval c.1 (x i)) (peval c.2 (x i)) (fs i) with
  | nil =>
    have := congrArg List.length hl
    simp at this; omega
  | cons d l =>
    have hall : ∀ e ∈ d :: l, ∃ i, e = .fin |peval c.1 (x i) / peval c.2 (x i) - fs i| := by
      intro e he
      rw [← hl, List.mem_ofFn] at he
      obtain ⟨i, rfl⟩ := he
      exact ⟨i, hd i⟩
    obtain ⟨r, h1, h2⟩ := pymax_attained l d ((hall d (by simp)).imp' _ fun i hi => hi)
      fun e he => (hall e (by simp [he])).imp' _ fun i hi => hi
    obtain ⟨i, hi⟩ := hall _ h2
    rw [Dev.fin.injEq] at hi
    exact ⟨r, by simp only [h1], i, hi⟩

variable (svd : (Fin n → Fin (m + k + 1) → ℝ) → Svd n (m + k + 1)) (x fs : Fin n → ℝ)

/-- What holds after `j` passes. -/
structure Inv (j : ℕ) (s : State n) : Prop where
  cur : s.cur = weights svd x fs j
  pick : ∀ b, s.best = some b → ∃ i < j, found svd x fs i = some b ∧ devmax x fs b = .ok (.fin s.small)
  all : ∀ i < j, ∃ c, found svd x fs i = some c ∧ ∀ r, devmax x fs c = .ok (.fin r) → s.small ≤ r ∨ (s.best = none ∧ 10 ^ 30 < r)
  start : s.best = none → s.small = 10 ^ 30

theorem inv_step (j : ℕ) (s s' : State n) (hI : Inv svd x fs j s) (h : step m k svd x fs s = .ok s') :
    Inv svd x fs (j + 1) s' := by
  unfold step at h
  cases hcur : s.cur with
  | none => rw [hcur] at h; simp at h
  | some cur =>
    rw [hcur] at h
    simp only at h
    have hw : weights svd x fs j = some cur := by rw [← hI.cur, hcur]
    set c := coefs m k svd x fs cur with hcdef
    have hfj : found svd x fs j = some c := by rw [found, hw]; rfl
    have hnext : next x fs c = weights svd x fs (j + 1) := by rw [weights, hw]; rfl
    have keep : (∀ r, devmax x fs c = .ok (.fin r) → s.small < r) →
        Inv svd x fs (j + 1) ⟨next x fs c, s.small, s.best⟩ := by
      intro hbig
      refine ⟨hnext, ?_, ?_, hI.start⟩
      · intro b hb
        obtain ⟨i, hi, h1, h2⟩ := hI.pick b hb
        exact ⟨i, by omega, h1, h2⟩
      · intro i hi
        rcases Nat.lt_succ_iff_lt_or_eq.1 hi with hi | rfl
        · exact hI.all i hi
        · exact ⟨c, hfj, fun r hr => Or.inl (hbig r hr).le⟩
    cases hm : devmax x fs c with
    | error e => rw [hm] at h; simp at h
    | ok d =>
      rw [hm] at h
      cases d with
      | fin r =>
        simp only at h
        by_cases hr : r ≤ s.small
        · rw [if_pos hr] at h
          rw [← Except.ok.inj h]
          refine ⟨hnext, ?_, ?_, by simp⟩
          · intro b hb
            have hbc : c = b := Option.some.inj hb
            subst hbc
            exact ⟨j, by omega, hfj, hm⟩
          · intro i hi
            rcases Nat.lt_succ_iff_lt_or_eq.1 hi with hi | rfl
            · obtain ⟨c', h1, h2⟩ := hI.all i hi
              refine ⟨c', h1, fun r' hr' => Or.inl ?_⟩
              rcases h2 r' hr' with h3 | ⟨hb, h3⟩
              · exact hr.trans h3
              · have := hI.start hb
                show r ≤ r'
                linarith
            · refine ⟨c, hfj, fun r' hr' => Or.inl ?_⟩
              rw [hm] at hr'
              have := Except.ok.inj hr'
              rw [Dev.fin.injEq] at this
              exact this.le
        · rw [if_neg hr] at h
          rw [← Except.ok.inj h]
          apply keep
          intro r' hr'
          rw [hm] at hr'
          have := Except.ok.inj hr'
          rw [Dev.fin.injEq] at this
          rw [← this]; exact not_le.1 hr
      | inf =>
        rw [← Except.ok.inj h]
        apply keep; intro r' hr'; rw [hm] at hr'; simp at hr'
      | nan =>
        rw [← Except.ok.inj h]
        apply keep; intro r' hr'; rw [hm] at hr'; simp at hr'

theorem inv_loop (p : ℕ) : ∀ (j : ℕ) (s s' : State n), Inv svd x fs j s → loop m k svd x fs p s = .ok s' →
    Inv svd x fs (j + p) s' := by
  induction p with
  | zero => intro j s s' hI h; rw [← Except.ok.inj h]; exact hI
  | succ p ih =>
    intro j s s' hI h
    unfold loop at h
    cases hs : step m k svd x fs s with
    | error e => rw [hs] at h; simp at h
    | ok s1 =>
      rw [hs] at h
      have := ih (j + 1) s1 s' (inv_step svd x fs j s s1 hI hs) h
      rwa [show j + 1 + p = j + (p + 1) by omega] at this

/-- **C304**  The pair returned is one of the five pairs found, it lies within some `r` of the data, and none of the five
whose denominator vanishes at no point lies strictly closer: each deviates by at least `r` at some point. -/
theorem C304_best (hn : n ≠ 0) (b : List ℝ × List ℝ) (h : fitPoints m k svd x fs = .ok b) :
    (∃ i < 5, found svd x fs i = some b) ∧ ∃ r, Within x fs b r ∧ ∀ i < 5, ∃ c, found svd x fs i = some c ∧
      ((∀ q, peval c.2 (x q) ≠ 0) → ∃ q, r ≤ |peval c.1 (x q) / peval c.2 (x q) - fs q|) := by
  unfold fitPoints at h
  cases hl : loop m k svd x fs 5 ⟨some (fun _ => 1, fun _ => 1, 0), 10 ^ 30, none⟩ with
  | error e => rw [hl] at h; simp at h
  | ok s =>
    rw [hl] at h
    have hI := inv_loop svd x fs 5 0 _ s ⟨rfl, by simp, by simp, fun _ => rfl⟩ hl
    rw [zero_add] at hI
    cases hb : s.best with
    | none => simp only [hb] at h; simp at h
    | some b' =>
      simp only [hb] at h
      rw [Except.ok.injEq] at h
      subst h
      obtain ⟨i, hi, h1, h2⟩ := hI.pick _ hb
      refine ⟨⟨i, hi, h1⟩, s.small, within_of_devmax h2, ?_⟩
      intro i hi
      obtain ⟨c, h3, h4⟩ := hI.all i hi
      refine ⟨c, h3, fun hq => ?_⟩
      obtain ⟨r, h5, q, h6⟩ := devmax_attained x fs c hn hq
      refine ⟨q, ?_⟩
      rw [← h6]
      rcases h4 r h5 with h7 | ⟨h7, -⟩
      · exact h7
      · rw [hb] at h7; simp at h7

/-- The hypothesis holds for one constant, eight values 0 and the decomposition with singular value 0: the pair is found and
returned. -/
example : fitPoints 0 0 (fun _ => ⟨fun _ _ => 0, fun _ => 0, fun _ _ => 0⟩) (fun _ : Fin 8 => (0 : ℝ)) (fun _ => 0) =
    .ok ([0], [1]) := by
  have hc : ∀ cur, coefs 0 0 (fun _ => ⟨fun _ _ => 0, fun _ => 0, fun _ _ => 0⟩) (fun _ : Fin 8 => (0 : ℝ)) (fun _ => 0) cur =
      ([0], [1]) := by
    intro cur
    simp [coefs, numer, denom, solve]
  have hd : devmax (fun _ : Fin 8 => (0 : ℝ)) (fun _ => 0) ([0], [1]) = .ok (.fin 0) := by
    simp [devmax, deviation, peval, pymax, List.ofFn_succ, Dev.gt]
  have hx : next (fun _ : Fin 8 => (0 : ℝ)) (fun _ => 0) ([0], [1]) = some (fun _ => 0, fun _ => 0, 0) := by
    simp [next, peval]
  have hs : ∀ cur (small : ℝ) b, 0 ≤ small → step 0 0 (fun _ => ⟨fun _ _ => 0, fun _ => 0, fun _ _ => 0⟩)
      (fun _ : Fin 8 => (0 : ℝ)) (fun _ => 0) ⟨some cur, small, b⟩ =
        .ok ⟨some (fun _ => 0, fun _ => 0, 0), 0, some ([0], [1])⟩ := by
    intro cur small b h
    unfold step
    simp only [hc, hd, hx]
    rw [if_pos h]
  unfold fitPoints
  simp only [loop]
  rw [hs _ _ _ (by positivity)]
  simp only [hs _ _ _ le_rfl]

/-- **C305**  (refuted)  The docstring demands `x` and function values of length more than `8 (m + k + 1)`; any such array
of values makes the function raise ValueError, as does any shorter one that is not of length one, though for these only a
warning is announced. -/
theorem C305_length_refuted (m k : ℕ)
    (svd : (Fin (8 * (m + k + 1)) → Fin (m + k + 1) → ℝ) → Svd (8 * (m + k + 1)) (m + k + 1)) (xs fs : List ℝ)
    (h : 8 * (m + k + 1) < fs.length ∨ 8 * (m + k + 1) < xs.length ∨ (1 < fs.length ∧ fs.length < 8 * (m + k + 1))) :
    fitArrays m k svd xs fs = .error .valueError := by
  unfold fitArrays
  rw [if_pos]
  rcases h with h | h | h
  · left; omega
  · right; omega
  · left; omega

/-- **C305** (partial)  Arrays of exactly this length are used point by point. -/
theorem C305_length_partial (m k : ℕ)
    (svd : (Fin (8 * (m + k + 1)) → Fin (m + k + 1) → ℝ) → Svd (8 * (m + k + 1)) (m + k + 1)) (xs fs : List ℝ)
    (hx : xs.length = 8 * (m + k + 1)) (hf : fs.length = 8 * (m + k + 1)) :
    fitArrays m k svd xs fs = fitPoints m k svd (fun i => xs[(i : ℕ)]) (fun i => fs[(i : ℕ)]) := by
  unfold fitArrays
  rw [if_neg (by omega)]
  congr 1 <;> funext i
  · rw [spread, if_neg (by omega), List.getD_eq_getElem]
  · rw [spread, if_neg (by omega), List.getD_eq_getElem]

/-- What `scipy.interpolate.pade(an, m)` returns: polynomials, here as highest coefficient first, of degrees at most
`len(an) - 1 - m` and `m` with `an(x) q(x) - p(x) = O(x^len(an))`. -/
def IsPade (an : List ℝ) (m : ℤ) (r : ℝ[X] × ℝ[X]) : Prop :=
  r.2.coeff 0 = 1 ∧ (r.1.natDegree : ℤ) ≤ an.length - 1 - m ∧ (r.2.natDegree : ℤ) ≤ m ∧
    ∀ A : ℝ[X], (∀ i, A.coeff i = an.getD i 0) → X ^ an.length ∣ A * r.2 - r.1

/-- **C306**  With `m ≠ 0` given, `padefit(c, m)` is the Padé approximant of the polynomial `polyval(c, x)`, with denominator of
degree at most `m`. -/
theorem C306_pade_partial (pade : List ℝ → ℤ → ℝ[X] × ℝ[X]) (hp : ∀ an m, 0 ≤ m → m < an.length → IsPade an m (pade an m))
    (c : Coefs) (m : ℤ) (h0 : 0 < m) (hm : m < c.array.length) (A : ℝ[X]) (hA : ∀ t, A.eval t = peval c.array t)
    (r : ℝ[X] × ℝ[X]) (hr : padefit pade c (some m) = r) :
    (r.2.natDegree : ℤ) ≤ m ∧ (r.1.natDegree : ℤ) ≤ c.array.length - 1 - m ∧ X ^ c.array.length ∣ A * r.2 - r.1 := by
  have hr' : padefit pade c (some m) = pade c.array.reverse m := by
    unfold padefit
    split
    · rename_i h; simp at h
    · rename_i h; rw [Option.some.injEq] at h; omega
    · rename_i h; rw [Option.some.injEq] at h; rw [h]
  have h := hp c.array.reverse m h0.le (by rw [List.length_reverse]; exact hm)
  rw [← hr', hr] at h
  obtain ⟨-, h1, h2, h3⟩ := h
  rw [List.length_reverse] at h1 h3
  refine ⟨h2, h1, h3 A ?_⟩
  have hAp : A = ∑ j : Fin c.array.length, C (c.array.reverse.getD j 0) * X ^ (j : ℕ) := by
    apply Polynomial.funext
    intro t
    have e : c.array = (List.ofFn fun j : Fin c.array.length => c.array.reverse.getD j 0).reverse := by
      conv_lhs => rw [← List.reverse_reverse c.array]
      congr 1
      apply List.ext_getElem
      · simp
      · intro i h4 h5
        rw [List.getElem_ofFn, List.getD_eq_getElem]
    rw [hA, e, peval_ofFn, eval_finsetSum]
    simp only [eval_mul, eval_C, eval_pow, eval_X]
    rw [← e]
  intro i
  rw [hAp, finsetSum_coeff]
  simp only [coeff_C_mul, coeff_X_pow, mul_ite, mul_one, mul_zero]
  by_cases hi : i < c.array.length
  · rw [Finset.sum_eq_single (⟨i, hi⟩ : Fin _)]
    · simp
    · intro j _ hj; rw [if_neg]; intro he; exact hj (Fin.ext he.symm)
    · simp
  · rw [Finset.sum_eq_zero, List.getD_eq_default]
    · rw [List.length_reverse]; omega
    · intro j _; rw [if_neg]; omega

/-- **C306**  (refuted)  The order `m = 0`, a denominator of degree 0, is replaced by the default. -/
theorem C306_zero_refuted {β : Type*} (pade : List ℝ → ℤ → β) (c : Coefs) :
    padefit pade c (some 0) = padefit pade c none := rfl

/-- **C306**  (refuted)  The default order depends on whether the same coefficients are passed as a sequence or as a `poly1d`
object: with an odd number of coefficients the orders differ by one. -/
theorem C306_default_refuted {β : Type*} (pade : List ℝ → ℤ → β) (l : List ℝ) (p : ℕ) (hl : l.length = 2 * p + 1) :
    padefit pade (.seq l) none = pade l.reverse p ∧ padefit pade (.poly l) none = pade l.reverse (p - 1) := by
  unfold padefit Coefs.len Coefs.array
  constructor
  · show pade l.reverse (((l.length : ℤ) - 1) / 2) = _
    rw [show ((l.length : ℤ) - 1) / 2 = p by omega]
  · show pade l.reverse (((l.length - 1 : ℕ) - 1 : ℤ) / 2) = _
    rw [show (((l.length - 1 : ℕ) : ℤ) - 1) / 2 = p - 1 by omega]

/-- The hypothesis of the two statements on seven coefficients. -/
example : (Coefs.seq [1, 2, 3, 4, 5, 6, 7]).array.length = 2 * 3 + 1 := rfl

end Wafo.Pade

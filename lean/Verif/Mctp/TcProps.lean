import Verif.Mctp.TcModel
import Mathlib.Algebra.BigOperators.Field
import Mathlib.LinearAlgebra.Matrix.NonsingularInverse
import Mathlib.Tactic.FieldSimp
import Mathlib.Tactic.Positivity
import Mathlib.Tactic.Ring
import Mathlib.Tactic.NormNum

/-!
# C284: `mctp2tc`, `mc2rfc` and `iter_mc` fail;  C285: test matrices
-/

set_option linter.unusedSectionVars false

namespace Wafo.Mctp

open Wafo Matrix

theorem foldlM_error {α β : Type*} (step : β → α → Except PyErr β) {l : List α} {x : α} (hx : x ∈ l)
    (h : ∀ b, ∃ e, step b x = .error e) (b : β) : ∃ e, l.foldlM step b = .error e := by
  induction l generalizing b with
  | nil => cases hx
  | cons a l ih =>
    rw [List.foldlM_cons]
    rcases List.mem_cons.1 hx with rfl | hx
    · obtain ⟨e, he⟩ := h b
      rw [he]
      exact ⟨e, rfl⟩
    · cases ha : step b a with
      | error e => exact ⟨e, rfl⟩
      | ok b' => exact ih hx b'

theorem foldlM_ok {α β : Type*} (step : β → α → Except PyErr β) {l : List α}
    (h : ∀ b, ∀ x ∈ l, ∃ b', step b x = .ok b') (b : β) : ∃ b', l.foldlM step b = .ok b' := by
  induction l generalizing b with
  | nil => exact ⟨b, rfl⟩
  | cons a l ih =>
    rw [List.foldlM_cons]
    obtain ⟨b', hb'⟩ := h b a (by simp)
    rw [hb']
    exact ih (fun b x hx => h b x (by simp [hx])) b'

theorem slice_down_none {n a : ℤ} (h0 : 0 ≤ a) (h1 : a < n) :
    (sliceIdx n (some a) none (-1)).length = (a + 1).toNat := by
  simp only [sliceIdx, List.length_map, List.length_range, Option.map_some, Option.getD_some, Option.map_none,
    Option.getD_none, show ((-1 : ℤ) < 0) = True by simp, if_true, neg_neg, Int.ediv_one]
  split_ifs <;> omega

theorem slice_down {n a b : ℤ} (h0 : 0 ≤ b) (h1 : b ≤ a) (h2 : a < n) :
    (sliceIdx n (some a) (some b) (-1)).length = (a - b).toNat := by
  simp only [sliceIdx, List.length_map, List.length_range, Option.map_some, Option.getD_some,
    show ((-1 : ℤ) < 0) = True by simp, if_true, neg_neg, Int.ediv_one]
  split_ifs <;> omega

theorem slice_up {n a b : ℤ} (h0 : 0 ≤ a) (h1 : a ≤ b) (h2 : b ≤ n) :
    (sliceIdx n (some a) (some b) 1).length = (b - a).toNat := by
  simp only [sliceIdx, List.length_map, List.length_range, Option.map_some, Option.getD_some,
    show ((1 : ℤ) < 0) = False by simp, if_false, Int.ediv_one]
  split_ifs <;> omega

theorem slice_up_none {n b : ℤ} (h1 : 0 ≤ b) (h2 : b ≤ n) :
    (sliceIdx n none (some b) 1).length = b.toNat := by
  simp only [sliceIdx, List.length_map, List.length_range, Option.map_some, Option.getD_some, Option.map_none,
    Option.getD_none, show ((1 : ℤ) < 0) = False by simp, if_false, Int.ediv_one]
  split_ifs <;> omega

/-- The number of columns which the slice `n - ntc - 1:-1:n - j + 1` selects. -/
theorem slice_bad {n ntc j : ℕ} (h1 : 1 ≤ ntc) (h2 : ntc + 1 ≤ n) (hj : j < n) :
    (sliceIdx n (some (n - ntc - 1)) (some (-1)) (n - j + 1)).length = (ntc - 1) / (n - j + 1) + 1 := by
  have hs : ((n : ℤ) - j + 1 < 0) = False := eq_false (by omega)
  have hneg : ((-1 : ℤ) < 0) = True := by simp
  simp only [sliceIdx, List.length_map, List.length_range, Option.map_some, Option.getD_some, hs, if_false, hneg, if_true]
  have e1 : (max (-1 + (n : ℤ)) 0) = n - 1 := by omega
  have e0 : (if (n : ℤ) - ntc - 1 < 0 then max ((n : ℤ) - ntc - 1 + n) 0 else min ((n : ℤ) - ntc - 1) n) = n - ntc - 1 := by
    split_ifs <;> omega
  rw [e1, e0, if_pos (by omega)]
  have e3 : ((n : ℤ) - 1 - ((n : ℤ) - ntc - 1) - 1) = ((ntc - 1 : ℕ) : ℤ) := by omega
  have e2 : (n : ℤ) - j + 1 = ((n - j + 1 : ℕ) : ℤ) := by omega
  rw [e3, e2, ← Int.natCast_ediv]
  generalize (ntc - 1) / (n - j + 1) = q
  omega

/-- What the linear solvers return: vectors with the dimensions of the equations. -/
structure Tc.Solves (s : Tc) : Prop where
  tempp : ∀ i p, s.tempp i = .ok p → p.length = s.ntc - 1 - i
  tempm : ∀ j m, s.tempm j = .ok m → m.length = j + 1 - s.ntc

theorem Tc.mem_pairs {s : Tc} {i j : ℕ} : (i, j) ∈ s.pairs ↔ (1 ≤ i ∧ i < s.ntc) ∧ s.ntc ≤ j + 1 ∧ s.ntc < s.n ∧ j + 1 < s.n := by
  unfold Tc.pairs
  simp only [List.mem_flatMap, List.mem_map, List.mem_range'_1, Prod.mk.injEq]
  constructor
  · rintro ⟨a, ha, b, hb, rfl, rfl⟩
    omega
  · rintro ⟨h1, h2, h3⟩
    exact ⟨i, by omega, j, by omega, rfl, rfl⟩

theorem vecMat_cases (f : Mat) (v : List ℝ) (rows cols : List ℤ) :
    (∃ e, vecMat f v rows cols = .error e) ∨ ∃ w, vecMat f v rows cols = .ok w ∧ w.length = cols.length := by
  unfold vecMat
  split_ifs
  · exact Or.inr ⟨_, rfl, by simp⟩
  · exact Or.inl ⟨_, rfl⟩

theorem Tc.termA_error {s : Tc} (hs : s.Solves) {i j : ℕ} (h1 : 1 ≤ s.ntc) (h2 : s.ntc + 1 ≤ s.n) (hj : j < s.n)
    (hne : (s.ntc - 1) / (s.n - j + 1) + 1 ≠ j + 1 - s.ntc) : ∃ e, s.termA i j = .error e := by
  unfold Tc.termA
  cases hp : s.tempp i with
  | error e => exact ⟨e, rfl⟩
  | ok p =>
    cases hm : s.tempm j with
    | error e => exact ⟨e, rfl⟩
    | ok m =>
      simp only [bind, Except.bind]
      rcases vecMat_cases s.fmM p (s.rows i) (sliceIdx s.n (some (s.n - s.ntc - 1)) (some (-1)) (s.n - j + 1)) with
        ⟨e, he⟩ | ⟨w, hw, hl⟩
      · rw [he]; exact ⟨e, rfl⟩
      · rw [hw]
        simp only
        unfold dotV
        rw [if_neg]
        · exact ⟨_, rfl⟩
        · rw [hl, slice_bad h1 h2 hj, hs.tempm j m hm]
          exact hne

/-- **C284** (`mctp2tc`).  Let `n` be the number of levels and `ntc` the number of levels not below the reference level.
Whenever there are at least three of these and at least two others, the call raises an exception, for every frequency
matrix, except for `n = 5, ntc = 3` (the case of the documentation) and `n = 7, ntc = 4`: the slice
`n - ntc - 1:-1:n - j + 1` has the order of arguments of another language. -/
theorem C284_raises_refuted (s : Tc) (hs : s.Solves) (h3 : 3 ≤ s.ntc) (hn : s.ntc + 2 ≤ s.n)
    (h5 : ¬ (s.n = 5 ∧ s.ntc = 3)) (h7 : ¬ (s.n = 7 ∧ s.ntc = 4)) (F : Mat) : ∃ e, s.loop F = .error e := by
  obtain ⟨j, hj1, hj2, hne⟩ : ∃ j, s.ntc ≤ j ∧ j + 2 ≤ s.n ∧ (s.ntc - 1) / (s.n - j + 1) + 1 ≠ j + 1 - s.ntc := by
    rcases Nat.lt_or_ge (s.n + 1) (2 * s.ntc) with h | h
    · refine ⟨s.ntc, le_rfl, hn, ?_⟩
      have : 1 ≤ (s.ntc - 1) / (s.n - s.ntc + 1) := (Nat.one_le_div_iff (by omega)).2 (by omega)
      omega
    · rcases Nat.lt_or_ge (2 * s.ntc) (s.n + 1) with h' | h'
      · refine ⟨s.ntc + 1, by omega, by omega, ?_⟩
        rw [Nat.div_eq_of_lt (by omega)]
        omega
      · refine ⟨s.ntc + 2, by omega, by omega, ?_⟩
        have : (s.ntc - 1) / (s.n - (s.ntc + 2) + 1) < 2 := (Nat.div_lt_iff_lt_mul (by omega)).2 (by omega)
        omega
  refine foldlM_error s.step (x := (1, j)) (Tc.mem_pairs.2 (by omega)) (fun F => ?_) F
  obtain ⟨e, he⟩ := Tc.termA_error hs (i := 1) (j := j) (by omega) (by omega) (by omega) hne
  unfold Tc.step
  have c1 : (1 < s.ntc - 1) = True := eq_true (by omega)
  have c2 : (j > s.ntc - 1) = True := eq_true (by omega)
  simp only [bind, Except.bind, c1, c2, and_self, if_true, he]
  split
  · exact ⟨_, rfl⟩
  · split
    · exact ⟨_, rfl⟩
    · exact ⟨_, rfl⟩

/-- **C284** (`mctp2tc`).  In the remaining cases there is a result, if the linear solvers have one. -/
theorem C284_returns (s : Tc) (hs : s.Solves) (hp : ∀ i, ∃ p, s.tempp i = .ok p) (hm : ∀ j, ∃ m, s.tempm j = .ok m)
    (h2 : 2 ≤ s.ntc) (hn : s.ntc + 1 ≤ s.n)
    (h : s.ntc = 2 ∨ s.ntc + 1 = s.n ∨ (s.n = 5 ∧ s.ntc = 3) ∨ (s.n = 7 ∧ s.ntc = 4)) (F : Mat) :
    ∃ F', s.loop F = .ok F' := by
  refine foldlM_ok s.step (fun F ij hij => ?_) F
  obtain ⟨i, j⟩ := ij
  obtain ⟨hi, hj1, -, hj2⟩ := Tc.mem_pairs.1 hij
  obtain ⟨p, hp'⟩ := hp i
  obtain ⟨m, hm'⟩ := hm j
  have lp := hs.tempp i p hp'
  have lm := hs.tempm j m hm'
  have lrows : (s.rows i).length = s.ntc - 1 - i := by
    unfold Tc.rows
    rw [slice_up (by omega) (by omega) (by omega)]
    omega
  have vm : ∀ (v : List ℝ) (rows cols : List ℤ), v.length = rows.length →
      ∃ w, vecMat s.fmM v rows cols = .ok w ∧ w.length = cols.length := fun v rows cols hl => by
    unfold vecMat
    rw [if_pos hl]
    exact ⟨_, rfl, by simp⟩
  have dv : ∀ a b : List ℝ, a.length = b.length → ∃ x, dotV a b = .ok x := fun a b hl => by
    unfold dotV
    rw [if_pos hl]
    exact ⟨_, rfl⟩
  have hB : ∃ b, s.termB i j = .ok b := by
    unfold Tc.termB
    rw [hp']
    simp only [bind, Except.bind]
    obtain ⟨w, hw, hl⟩ := vm p (s.rows i) (sliceIdx s.n (some (s.n - j - 2)) none (-1)) (by rw [lp, lrows])
    rw [hw]
    refine dv _ _ ?_
    rw [hl, slice_down_none (by omega) (by omega), List.length_replicate]
    omega
  have hC : j > s.ntc - 1 → ∃ b, s.termC i j = .ok b := fun hgt => by
    unfold Tc.termC
    rw [hm']
    simp only [bind, Except.bind]
    obtain ⟨w, hw, hl⟩ := vm (List.replicate i 1) (sliceIdx s.n none (some i) 1)
      (sliceIdx s.n (some (s.n - s.ntc - 1)) (some (s.n - j - 2)) (-1))
      (by rw [slice_up_none (by omega) (by omega), List.length_replicate]; omega)
    rw [hw]
    refine dv _ _ ?_
    rw [hl, slice_down (by omega) (by omega) (by omega), lm]
    omega
  have hA : j > s.ntc - 1 ∧ i < s.ntc - 1 → ∃ b, s.termA i j = .ok b := fun hgt => by
    unfold Tc.termA
    rw [hp', hm']
    simp only [bind, Except.bind]
    obtain ⟨w, hw, hl⟩ := vm p (s.rows i) (sliceIdx s.n (some (s.n - s.ntc - 1)) (some (-1)) (s.n - j + 1)) (by rw [lp, lrows])
    rw [hw]
    refine dv _ _ ?_
    rw [hl, slice_bad (by omega) (by omega) (by omega), lm]
    rcases h with h | h | ⟨ha, hb⟩ | ⟨ha, hb⟩
    · omega
    · omega
    · obtain rfl : j = 3 := by omega
      rw [ha, hb]
    · obtain rfl | rfl : j = 4 ∨ j = 5 := by omega
      · rw [ha, hb]
      · rw [ha, hb]
  obtain ⟨b, hb⟩ := hB
  unfold Tc.step
  by_cases c1 : i < s.ntc - 1
  · by_cases c2 : j > s.ntc - 1
    · obtain ⟨c, hc⟩ := hC c2
      obtain ⟨a, ha⟩ := hA ⟨c2, c1⟩
      simp only [bind, Except.bind, hb, hc, ha, eq_true c1, eq_true c2, and_self, if_true]
      exact ⟨_, rfl⟩
    · simp only [bind, Except.bind, hb, eq_true c1, eq_false c2, false_and, if_true, if_false]
      exact ⟨_, rfl⟩
  · by_cases c2 : j > s.ntc - 1
    · obtain ⟨c, hc⟩ := hC c2
      simp only [bind, Except.bind, hc, eq_false c1, eq_true c2, and_false, if_true, if_false]
      exact ⟨_, rfl⟩
    · simp only [bind, Except.bind, eq_false c1, eq_false c2, and_false, if_false]
      exact ⟨_, rfl⟩

/-- Eight levels, three of them not below the reference level: an exception.  Five levels: a result. -/
example (f : Mat) : (∃ e, Tc.loop ⟨8, 3, f, fun i => .ok (List.replicate (3 - 1 - i) 1), fun j => .ok (List.replicate (j + 1 - 3) 1)⟩
      (fun _ _ => 0) = .error e) ∧
    ∃ F, Tc.loop ⟨5, 3, f, fun i => .ok (List.replicate (3 - 1 - i) 1), fun j => .ok (List.replicate (j + 1 - 3) 1)⟩
      (fun _ _ => 0) = .ok F := by
  refine ⟨C284_raises_refuted _ ⟨fun i p h => ?_, fun j m h => ?_⟩ le_rfl (by norm_num) (by norm_num) (by norm_num) _,
    C284_returns _ ⟨fun i p h => ?_, fun j m h => ?_⟩ (fun i => ⟨_, rfl⟩) (fun j => ⟨_, rfl⟩) (by norm_num) (by norm_num)
      (Or.inr (Or.inr (Or.inl ⟨rfl, rfl⟩))) _⟩
  all_goals
    have := Except.ok.inj h
    rw [← this]
    simp

/-- **C284** (`mctp2tc`).  The function normalises the rows of the matrix the caller passed: after every call which passes
the checks of the levels the rows of the argument add up to one, so the argument has changed unless they did before. -/
theorem C284_argument_refuted {n : ℕ} {fMm : Mat} {utc : ℝ} {levels : List ℝ} {fmM : Option Mat}
    {solver : ℕ → Mat → Mat → Tc} {F0 : Tc → Mat} [DecidablePred fun u => utc ≤ u]
    (h1 : 1 < (levels.filter fun u => utc ≤ u).length) (h2 : (levels.filter fun u => utc ≤ u).length < n)
    (h3 : (levels.filter fun u => utc ≤ u).length < levels.length) :
    (∀ r, ∑ c ∈ Finset.range n, fMm r c ≠ 0 →
      ∑ c ∈ Finset.range n, (mctp2tc n fMm utc levels fmM solver F0).1 r c = 1) ∧
    ((∃ r, ∑ c ∈ Finset.range n, fMm r c ≠ 0 ∧ ∑ c ∈ Finset.range n, fMm r c ≠ 1) →
      (mctp2tc n fMm utc levels fmM solver F0).1 ≠ fMm) := by
  have e : (mctp2tc n fMm utc levels fmM solver F0).1 = normalizeRows n fMm := by
    unfold mctp2tc
    have hl : (levels.filter fun u => @decide (utc ≤ u) (Classical.propDecidable _)).length = (levels.filter fun u => utc ≤ u).length := by
      congr 2
      funext u
      exact decide_eq_decide.2 Iff.rfl
    simp only
    rw [hl, if_neg (by omega), if_neg (by simp only [not_not]; exact ⟨h1, h3⟩)]
  have hs : ∀ r, ∑ c ∈ Finset.range n, fMm r c ≠ 0 → ∑ c ∈ Finset.range n, normalizeRows n fMm r c = 1 := fun r hr => by
    unfold normalizeRows
    simp only [if_pos hr]
    rw [← Finset.sum_div, div_self hr]
  rw [e]
  refine ⟨hs, ?_⟩
  rintro ⟨r, h0, h1'⟩ heq
  apply h1'
  rw [← hs r h0, heq]

/-- Five levels, the reference level in the middle. -/
example : (([-1, -1 / 2, 0, 1 / 2, 1] : List ℚ).filter fun u => 0 ≤ u).length = 3 := by decide +kernel

/-- **C284** (`mc2rfc`, `iter_mc`).  These functions raise a `ValueError` for every matrix: `np.fliplr` is applied to a sum
of rows, which has one dimension. -/
theorem C284_mc2rfc_refuted (rest : List (List ℝ) → Arr → Except PyErr (List (List ℝ))) :
    (∀ f, mc2rfc rest f = .error .valueError) ∧
    ∀ loop frfc, ∃ e, iterMc rest loop frfc = .error e := by
  have h : ∀ f, mc2rfc rest f = .error .valueError := fun f => by
    unfold mc2rfc
    cases f <;> rfl
  refine ⟨h, fun loop frfc => ?_⟩
  unfold iterMc
  cases hl : loop frfc with
  | error e => exact ⟨e, rfl⟩
  | ok m =>
    simp only [bind, Except.bind, h]
    exact ⟨_, rfl⟩

theorem testS_det (s lam : ℝ) : (testS s lam).det = s ^ 4 * lam ^ 2 := by
  rw [testS, det_smul, det_fin_two_of, Fintype.card_fin]
  ring

theorem testS_quad {s lam : ℝ} (hs : s ≠ 0) (hl : lam ≠ 0) (d : Fin 2 → ℝ) :
    (d ᵥ* (testS s lam)⁻¹) ⬝ᵥ d = (d 0 + d 1) ^ 2 / (2 * s ^ 2 * lam ^ 2) + (d 0 - d 1) ^ 2 / (2 * s ^ 2) := by
  have hi : (testS s lam)⁻¹ = !![(lam ^ 2 + 1) / (2 * s ^ 2 * lam ^ 2), (1 - lam ^ 2) / (2 * s ^ 2 * lam ^ 2);
      (1 - lam ^ 2) / (2 * s ^ 2 * lam ^ 2), (lam ^ 2 + 1) / (2 * s ^ 2 * lam ^ 2)] := by
    refine inv_eq_right_inv ?_
    unfold testS
    ext i j
    fin_cases i <;> fin_cases j <;> simp [mul_apply, Fin.sum_univ_two] <;> field_simp <;> ring
  rw [hi]
  simp only [vecMul, dotProduct, Fin.sum_univ_two, of_apply, cons_val_zero, cons_val_one]
  field_simp
  ring

/-- **C285** (`mktestmat`).  The entries at and above the diagonal `numsubzero`, in all rows which have one, are those of a
normal kernel: `exp` of minus half the squared distance from the centre in coordinates along and across the diagonal, with
deviations `lam s` and `s`.  All other entries are zero; the max-min matrix is the transposed one. -/
theorem C285_mktestmat {n : ℕ} {u : ℕ → ℝ} {x0 : Fin 2 → ℝ} {s lam : ℝ} (hs : s ≠ 0) (hl : lam ≠ 0) {numsubzero : ℤ}
    {pinv : Matrix (Fin 2) (Fin 2) ℝ → Matrix (Fin 2) (Fin 2) ℝ} (hpinv : ∀ S, S.det ≠ 0 → pinv S = S⁻¹) :
    let F := (mktestmat n u x0 s lam numsubzero pinv).1
    let Fh := (mktestmat n u x0 s lam numsubzero pinv).2
    (∀ i j : ℕ, i < n → j < n → (i : ℤ) + numsubzero + 1 < n → (i : ℤ) + numsubzero ≤ j →
      F i j = Real.exp (-(1 / 2) * ((((u i - x0 0) + (u j - x0 1)) / Real.sqrt 2 / (lam * s)) ^ 2 +
        (((u i - x0 0) - (u j - x0 1)) / Real.sqrt 2 / s) ^ 2))) ∧
    (∀ i j : ℕ, (j : ℤ) < i + numsubzero → F i j = 0) ∧
    (∀ i j, Fh i j = F j i) ∧ ∀ i j, 0 ≤ F i j ∧ F i j ≤ 1 := by
  intro F Fh
  have hd : pinv (testS s lam) = (testS s lam)⁻¹ := hpinv _ (by rw [testS_det]; positivity)
  have hq : ∀ i j, ((![u i, u j] - x0) ᵥ* pinv (testS s lam)) ⬝ᵥ (![u i, u j] - x0) =
      ((u i - x0 0) + (u j - x0 1)) ^ 2 / (2 * s ^ 2 * lam ^ 2) + ((u i - x0 0) - (u j - x0 1)) ^ 2 / (2 * s ^ 2) := fun i j => by
    rw [hd, testS_quad hs hl]
    simp
  have hF : ∀ i j, F i j = if (i : ℤ) < min (n - 1 - numsubzero) n ∧ max (i + numsubzero) 0 ≤ (j : ℤ) ∧ j < n then
      Real.exp (-1 / 2 * (((u i - x0 0) + (u j - x0 1)) ^ 2 / (2 * s ^ 2 * lam ^ 2) + ((u i - x0 0) - (u j - x0 1)) ^ 2 / (2 * s ^ 2)))
      else 0 := fun i j => by
    show (if _ then _ else _) = _
    simp only [hq]
  refine ⟨fun i j hi hj h1 h2 => ?_, fun i j hj => ?_, fun i j => rfl, fun i j => ?_⟩
  · rw [hF, if_pos (by omega)]
    congr 1
    have h2 : Real.sqrt 2 ^ 2 = 2 := Real.sq_sqrt (by norm_num)
    simp only [div_pow, mul_pow, h2]
    field_simp
  · rw [hF, if_neg (by omega)]
  · rw [hF]
    split_ifs
    · refine ⟨(Real.exp_pos _).le, Real.exp_le_one_iff.2 ?_⟩
      have : 0 ≤ ((u i - x0 0) + (u j - x0 1)) ^ 2 / (2 * s ^ 2 * lam ^ 2) + ((u i - x0 0) - (u j - x0 1)) ^ 2 / (2 * s ^ 2) := by positivity
      linarith
    · exact ⟨le_rfl, zero_le_one⟩

/-- **C285** (`mktestmat`): the documentation says that with the default `numsubzero = 0` the diagonal is zero; it is
positive but for its last entry, a cycle from each class to itself. -/
theorem C285_diagonal_refuted {n : ℕ} {u : ℕ → ℝ} {x0 : Fin 2 → ℝ} {s lam : ℝ}
    {pinv : Matrix (Fin 2) (Fin 2) ℝ → Matrix (Fin 2) (Fin 2) ℝ} {i : ℕ} :
    (i + 1 < n → 0 < (mktestmat n u x0 s lam 0 pinv).1 i i) ∧
    (i + 1 = n → (mktestmat n u x0 s lam 0 pinv).1 i i = 0) := by
  unfold mktestmat
  simp only
  constructor
  · intro h
    rw [if_pos (by omega)]
    exact Real.exp_pos _
  · intro h
    rw [if_neg (by omega)]

/-- The values of the documentation. -/
example : (0.25 : ℝ) ≠ 0 ∧ (0.5 : ℝ) ≠ 0 ∧ ∀ S : Matrix (Fin 2) (Fin 2) ℝ, S.det ≠ 0 → (fun S => S⁻¹) S = S⁻¹ :=
  ⟨by norm_num, by norm_num, fun _ _ => rfl⟩

end Wafo.Mctp

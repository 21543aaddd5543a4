import Verif.Disufq.Model
import Mathlib.Analysis.Complex.Trigonometric
import Mathlib.Algebra.BigOperators.Intervals
import Mathlib.Data.Complex.BigOperators

set_option linter.unusedSectionVars false

/-! # Helper lemmas for `disufq` -/

namespace Wafo.Disufq
open Finset

/-- What the complex numbers `rvec + 1j * ivec` of case `i` sum up to against the powers of `z`. -/
noncomputable def transform (m n i : ℕ) (z : ℂ) (s : Acc) : ℂ :=
  ∑ k ∈ range n, (⟨s.r (k * m + i), s.v (k * m + i)⟩ : ℂ) * z ^ k

/-- What one update adds to it. -/
noncomputable def contrib (m i : ℕ) (z : ℂ) (u : Upd) : ℂ :=
  if u.idx % m = i then (⟨u.dr, u.di⟩ : ℂ) * z ^ (u.idx / m) else 0

theorem write_transform {m n i : ℕ} (hi : i < m) (z : ℂ) {s s' : Acc} {u : Upd} (h : write (n * m) s u = .ok s') :
    transform m n i z s' = transform m n i z s + contrib m i z u := by
  unfold write at h
  split_ifs at h with hu
  injection h with h
  subst h
  have hm : 0 < m := by omega
  have key : ∀ k ∈ range n, ((⟨if k * m + i = u.idx then s.r (k * m + i) + u.dr else s.r (k * m + i),
        if k * m + i = u.idx then s.v (k * m + i) + u.di else s.v (k * m + i)⟩ : ℂ) * z ^ k) =
      (⟨s.r (k * m + i), s.v (k * m + i)⟩ : ℂ) * z ^ k +
        if k = u.idx / m then contrib m i z u else 0 := by
    intro k _
    by_cases hk : k * m + i = u.idx
    · have h1 : u.idx % m = i := by rw [← hk, Nat.mul_comm, Nat.mul_add_mod, Nat.mod_eq_of_lt hi]
      have h2 : u.idx / m = k := by
        rw [← hk, Nat.mul_comm, Nat.mul_add_div hm, Nat.div_eq_of_lt hi]; rfl
      rw [if_pos hk, if_pos hk, if_pos h2.symm, contrib, if_pos h1, h2, ← add_mul]
      rfl
    · rw [if_neg hk, if_neg hk]
      split_ifs with h2
      · rw [contrib, if_neg, add_zero]
        intro h1
        apply hk
        rw [h2, ← h1, Nat.mul_comm]
        exact Nat.div_add_mod _ _
      · rw [add_zero]
  unfold transform
  rw [sum_congr rfl key, sum_add_distrib, sum_ite_eq', if_pos]
  rw [mem_range]
  exact Nat.div_lt_of_lt_mul (by rw [Nat.mul_comm]; exact hu)

theorem run_transform {m n i : ℕ} (hi : i < m) (z : ℂ) : ∀ (us : List Upd) (s s' : Acc), run (n * m) us s = .ok s' →
    transform m n i z s' = transform m n i z s + (us.map (contrib m i z)).sum
  | [], s, s', h => by
    rw [run] at h
    injection h with h
    simp [h]
  | u :: us, s, s', h => by
    rw [run] at h
    split at h
    · cases h
    · rename_i s1 h1
      rw [run_transform hi z us s1 s' h, write_transform hi z h1, List.map_cons, List.sum_cons, add_assoc]

theorem run_ok {size : ℕ} : ∀ (us : List Upd) (s : Acc), (∀ u ∈ us, u.idx < size) → ∃ s', run size us s = .ok s'
  | [], s, _ => ⟨s, rfl⟩
  | u :: us, s, h => by
    rw [run, write, if_pos (h u (List.mem_cons_self ..))]
    exact run_ok us _ fun v hv => h v (List.mem_cons_of_mem _ hv)

theorem run_error {size : ℕ} : ∀ (us : List Upd) (s : Acc), (∃ u ∈ us, size ≤ u.idx) → run size us s = .error .oobWrite
  | [], s, h => by obtain ⟨u, hu, _⟩ := h; cases hu
  | u :: us, s, h => by
    rw [run, write]
    by_cases hu : u.idx < size
    · rw [if_pos hu]
      apply run_error us
      obtain ⟨v, hv, hv2⟩ := h
      rcases List.mem_cons.1 hv with rfl | hv
      · omega
      · exact ⟨v, hv, hv2⟩
    · rw [if_neg hu]

theorem sum_pyRange {M : Type*} [AddCommMonoid M] (a b : ℕ) (f : ℕ → M) :
    ((pyRange a b).map f).sum = ∑ x ∈ Ico a b, f x := by
  unfold pyRange
  rw [Finset.sum_Ico_eq_sum_range]
  rw [List.range'_eq_map_range, List.map_map, Finset.sum_range, ← List.sum_ofFn]
  congr 1
  apply List.ext_getElem
  · simp
  · intro k h1 h2
    simp

theorem sum_flatMap {α : Type*} (l : List α) (f : α → List Upd) (c : Upd → ℂ) :
    ((l.flatMap f).map c).sum = (l.map fun x => ((f x).map c).sum).sum := by
  induction l with
  | nil => simp
  | cons a l ih => simp [ih]

/-- Summing over the pairs `a < b` twice and over the diagonal once is summing over all ordered pairs. -/
theorem sum_pairs (O : ℕ → ℕ → ℝ) (hO : ∀ a b, O a b = O b a) (a b : ℕ) (hab : a ≤ b) :
    ∑ x ∈ Ico a b, (O x x + ∑ y ∈ Ico (x + 1) b, 2 * O x y) = ∑ x ∈ Ico a b, ∑ y ∈ Ico a b, O x y := by
  induction b, hab using Nat.le_induction with
  | base => simp
  | succ N hN ih =>
    rw [sum_Ico_succ_top hN, sum_Ico_succ_top hN]
    have h1 : ∀ x ∈ Ico a N, (O x x + ∑ y ∈ Ico (x + 1) (N + 1), 2 * O x y) =
        (O x x + ∑ y ∈ Ico (x + 1) N, 2 * O x y) + 2 * O x N := by
      intro x hx
      rw [mem_Ico] at hx
      rw [sum_Ico_succ_top (by omega), add_assoc]
    have h2 : ∀ x ∈ Ico a N, ∑ y ∈ Ico a (N + 1), O x y = ∑ y ∈ Ico a N, O x y + O x N := by
      intro x _
      rw [sum_Ico_succ_top hN]
    rw [sum_congr rfl h1, sum_congr rfl h2, sum_add_distrib, ih, sum_add_distrib, sum_Ico_succ_top hN, Ico_self,
      sum_empty, add_zero, ← mul_sum]
    have h3 : ∑ y ∈ Ico a N, O N y = ∑ y ∈ Ico a N, O y N := sum_congr rfl fun y _ => hO N y
    rw [h3]
    ring

theorem sum_range_pick (m i : ℕ) (hi : i < m) (f : ℕ → ℂ) :
    ((List.range m).map fun j => if j = i then f j else 0).sum = f i := by
  have h := sum_pyRange 0 m fun j => if j = i then f j else 0
  have e : pyRange 0 m = List.range m := by rw [pyRange, List.range_eq_range']; rfl
  rw [e] at h
  rw [h, sum_ite_eq', if_pos (by rw [mem_Ico]; omega)]

theorem contrib_at {m i j q : ℕ} (hj : j < m) (z : ℂ) (x y : ℝ) :
    contrib m i z ⟨q * m + j, x, y⟩ = if j = i then (⟨x, y⟩ : ℂ) * z ^ q else 0 := by
  have hm : 0 < m := by omega
  have h1 : (q * m + j) % m = j := by rw [Nat.mul_comm, Nat.mul_add_mod, Nat.mod_eq_of_lt hj]
  have h2 : (q * m + j) / m = q := by rw [Nat.mul_comm, Nat.mul_add_div hm, Nat.div_eq_of_lt hj]; rfl
  unfold contrib
  simp only [h1, h2]

/-- The complex amplitude of component `a` of case `i`. -/
noncomputable def amp (rA iA : ℕ → ℝ) (m i a : ℕ) : ℂ := ⟨rA (a * m + i), iA (a * m + i)⟩

theorem sum_diagDeep (rA iA : ℕ → ℝ) {m i : ℕ} (hi : i < m) (ix : ℕ) (ep : ℝ) (z : ℂ) :
    ((diagDeep rA iA m ix ep).map (contrib m i z)).sum = 2 * ep * (amp rA iA m i ix * z ^ ix) ^ 2 := by
  unfold diagDeep
  rw [List.map_map]
  have key : ∀ j ∈ List.range m, ((contrib m i z) ∘ fun j =>
      (⟨2 * (ix * m) + j, kfact * (rA (ix * m + j) * rA (ix * m + j) - iA (ix * m + j) * iA (ix * m + j)) * ep,
        kfact * 2 * (rA (ix * m + j) * iA (ix * m + j)) * ep⟩ : Upd)) j =
      if j = i then 2 * ep * (amp rA iA m j ix * z ^ ix) ^ 2 else 0 := by
    intro j hj
    rw [List.mem_range] at hj
    rw [Function.comp_apply, show 2 * (ix * m) + j = (2 * ix) * m + j by ring, contrib_at hj]
    congr 1
    rw [mul_pow, ← pow_mul, mul_comm ix 2, ← mul_assoc (2 * (ep : ℂ))]
    refine congrArg (· * z ^ (2 * ix)) ?_
    apply Complex.ext
    · simp [amp, kfact, pow_two]; ring
    · simp [amp, kfact, pow_two]; ring
  rw [List.map_congr_left key, sum_range_pick m i hi]

theorem sum_diagFinite (rA iA : ℕ → ℝ) {m i : ℕ} (hi : i < m) (ix : ℕ) (ep ed : ℝ) (z : ℂ) :
    ((diagFinite rA iA m ix ep ed).map (contrib m i z)).sum =
      2 * ep * (amp rA iA m i ix * z ^ ix) ^ 2 + 2 * ed * Complex.normSq (amp rA iA m i ix) := by
  unfold diagFinite
  rw [sum_flatMap]
  have key : ∀ j ∈ List.range m, (List.map (contrib m i z)
      [(⟨2 * (ix * m) + j, kfact * (rA (ix * m + j) * rA (ix * m + j) - iA (ix * m + j) * iA (ix * m + j)) * ep,
        kfact * 2 * (rA (ix * m + j) * iA (ix * m + j)) * ep⟩ : Upd),
        ⟨j, 2 * (rA (ix * m + j) * rA (ix * m + j) + iA (ix * m + j) * iA (ix * m + j)) * ed, 0⟩]).sum =
      if j = i then 2 * ep * (amp rA iA m j ix * z ^ ix) ^ 2 + 2 * ed * Complex.normSq (amp rA iA m j ix) else 0 := by
    intro j hj
    rw [List.mem_range] at hj
    have h0 : ∀ x y, contrib m i z ⟨j, x, y⟩ = if j = i then (⟨x, y⟩ : ℂ) * z ^ 0 else 0 := by
      intro x y
      have := contrib_at (i := i) (q := 0) hj z x y
      rwa [Nat.zero_mul, Nat.zero_add] at this
    rw [List.map_cons, List.map_cons, List.map_nil, List.sum_cons, List.sum_cons, List.sum_nil, add_zero,
      show 2 * (ix * m) + j = (2 * ix) * m + j by ring, contrib_at hj, h0]
    split_ifs
    · rw [mul_pow, ← pow_mul, mul_comm ix 2, ← mul_assoc (2 * (ep : ℂ)), pow_zero, mul_one]
      congr 1
      · congr 1
        apply Complex.ext
        · simp [amp, kfact, pow_two]; ring
        · simp [amp, kfact, pow_two]; ring
      · apply Complex.ext
        · simp [amp, Complex.normSq]; ring
        · simp [amp, Complex.normSq]
    · rw [add_zero]
  rw [List.map_congr_left key, sum_range_pick m i hi fun j =>
    2 * ep * (amp rA iA m j ix * z ^ ix) ^ 2 + 2 * ed * Complex.normSq (amp rA iA m j ix)]

theorem sum_pairUpd (rA iA : ℕ → ℝ) {m i : ℕ} (hi : i < m) (ix jy : ℕ) (ep ed : ℝ) (z : ℂ) :
    ((pairUpd rA iA m ix jy ep ed).map (contrib m i z)).sum =
      4 * ep * (amp rA iA m i ix * z ^ ix * (amp rA iA m i jy * z ^ jy)) +
        4 * ed * ((starRingEnd ℂ) (amp rA iA m i ix) * amp rA iA m i jy * z ^ (jy - ix)) := by
  unfold pairUpd
  rw [sum_flatMap]
  have key : ∀ j ∈ List.range m, (List.map (contrib m i z)
      [(⟨(ix * m + jy * m) + j, kfact * 2 * (rA (ix * m + j) * rA (jy * m + j) - iA (ix * m + j) * iA (jy * m + j)) * ep,
        kfact * 2 * (rA (ix * m + j) * iA (jy * m + j) + iA (ix * m + j) * rA (jy * m + j)) * ep⟩ : Upd),
        ⟨(jy * m - ix * m) + j, kfact * 2 * (rA (ix * m + j) * rA (jy * m + j) + iA (ix * m + j) * iA (jy * m + j)) * ed,
        kfact * 2 * (rA (ix * m + j) * iA (jy * m + j) - iA (ix * m + j) * rA (jy * m + j)) * ed⟩]).sum =
      if j = i then 4 * ep * (amp rA iA m j ix * z ^ ix * (amp rA iA m j jy * z ^ jy)) +
        4 * ed * ((starRingEnd ℂ) (amp rA iA m j ix) * amp rA iA m j jy * z ^ (jy - ix)) else 0 := by
    intro j hj
    rw [List.mem_range] at hj
    rw [List.map_cons, List.map_cons, List.map_nil, List.sum_cons, List.sum_cons, List.sum_nil, add_zero,
      ← Nat.add_mul, ← Nat.sub_mul, contrib_at hj, contrib_at hj]
    split_ifs
    · congr 1
      · rw [show 4 * (ep : ℂ) * (amp rA iA m j ix * z ^ ix * (amp rA iA m j jy * z ^ jy)) =
          4 * ep * (amp rA iA m j ix * amp rA iA m j jy) * z ^ (ix + jy) by rw [pow_add]; ring]
        congr 1
        apply Complex.ext
        · simp [amp, kfact]; ring
        · simp [amp, kfact]; ring
      · rw [← mul_assoc]
        congr 1
        apply Complex.ext
        · simp [amp, kfact]; ring
        · simp [amp, kfact]; ring
    · rw [add_zero]
  rw [List.map_congr_left key, sum_range_pick m i hi fun j =>
    4 * ep * (amp rA iA m j ix * z ^ ix * (amp rA iA m j jy * z ^ jy)) +
        4 * ed * ((starRingEnd ℂ) (amp rA iA m j ix) * amp rA iA m j jy * z ^ (jy - ix))]

end Wafo.Disufq

import Verif.Quad.Legendre

/-! From the Newton sweeps of `p_roots` to the Gauss-Legendre rule. -/

set_option linter.unusedSectionVars false

namespace Wafo.Quad

open Polynomial Finset

theorem legPair_eq (x : ℝ) (k : ℕ) :
    legPair x k = ((legPoly k).eval x, (legPoly (k + 1)).eval x) := by
  induction k with
  | zero => simp [legPair, legPoly]
  | succ k ih =>
    rw [legPair, ih]
    simp only [Prod.mk.injEq, true_and]
    rw [legPoly]
    simp only [eval_mul, eval_sub, eval_C, eval_X]
    field_simp
    ring

theorem legPair'_eq (x : ℝ) (k : ℕ) : legPair' x k = legPair x k := by
  induction k with
  | zero => rfl
  | succ k ih =>
    rw [legPair', legPair, ih]
    simp only [Prod.mk.injEq, true_and]
    have h : (k : ℝ) + 2 ≠ 0 := by positivity
    field_simp
    ring

theorem legDeriv_eq (n : ℕ) (hn : n ≠ 0) (x : ℝ) (hx : 1 - x ^ 2 ≠ 0) :
    legDeriv n x = (derivative (legPoly n)).eval x := by
  obtain ⟨k, rfl⟩ : ∃ k, n = k + 1 := ⟨n - 1, by omega⟩
  have h := congrArg (eval x) (legPoly_deriv_sq k)
  simp only [eval_mul, eval_sub, eval_C, eval_X, eval_one, eval_pow] at h
  rw [legDeriv, show k + 1 - 1 = k by omega, legPair_eq, div_eq_iff hx]
  push_cast
  linarith

theorem legDeriv_neg_sq (n : ℕ) (hn : n ≠ 0) (x : ℝ) : legDeriv n (-x) ^ 2 = legDeriv n x ^ 2 := by
  obtain ⟨k, rfl⟩ : ∃ k, n = k + 1 := ⟨n - 1, by omega⟩
  simp only [legDeriv, show k + 1 - 1 = k by omega, legPair_eq, legPoly_neg]
  have hs : ((-1 : ℝ) ^ k) ^ 2 = 1 := by rw [← pow_mul, mul_comm, pow_mul]; simp
  rw [neg_sq, div_pow, div_pow]
  congr 1
  rw [pow_succ]
  linear_combination ((((k + 1 : ℕ) : ℝ) * (eval x (legPoly k) - x * eval x (legPoly (k + 1)))) ^ 2) * hs

theorem legPoly_zero_odd (n : ℕ) (h : Odd n) : (legPoly n).eval 0 = 0 := by
  have := legPoly_neg n 0
  rw [h.neg_one_pow, neg_zero] at this
  linarith

theorem sliceRev_map {β γ : Type*} (f : β → γ) (x : List β) (k : ℤ) :
    sliceRev (x.map f) k = (sliceRev x k).map f := by
  simp only [sliceRev, List.length_map]
  split_ifs <;> simp [List.map_take]

/-- What `_expand_roots` does to roots of one sign, with the middle root in the odd case. -/
theorem expandRoots_spec (n : ℕ) (ys : List ℝ) (hn : 2 ≤ n) (hl : ys.length = n / 2) (W : ℝ → ℝ)
    (hW : ∀ v, W (-v) = W v) :
    let mid := if Odd n then [(0 : ℝ)] else []
    let N := ys ++ mid ++ (ys.map fun v => -v).reverse
    expandRoots (ys ++ mid) ((ys ++ mid).map W) n (half n) = (N, N.map W) := by
  intro mid N
  rcases Nat.even_or_odd n with he | ho
  · have hmid : mid = [] := if_neg (Nat.not_odd_iff_even.2 he)
    have hlen : ys.length = half n := by rw [hl, half]; rcases he with ⟨r, rfl⟩; omega
    have hh : half n + half n = n := by rw [half]; rcases he with ⟨r, rfl⟩; omega
    have hs : sliceRev ys ((half n : ℤ) - 1) = ys.reverse := by
      have h1 : ¬ ((half n : ℤ) - 1 < 0) := by omega
      simp only [sliceRev]
      rw [if_neg h1, if_neg h1]
      rw [show ((half n : ℤ) - 1).toNat + 1 = ys.length by omega, List.take_length]
    simp only [expandRoots, N, hmid, List.append_nil]
    rw [if_neg (by omega), if_pos hh, sliceRev_map, hs]
    simp [List.map_append, List.map_reverse, Function.comp_def, hW]
  · have hmid : mid = [0] := if_pos ho
    have hh : half n = n / 2 + 1 := by rw [half]; rcases ho with ⟨r, rfl⟩; omega
    have hne : ¬ (half n + half n = n) := by rw [half]; rcases ho with ⟨r, rfl⟩; omega
    have hgt : half n + half n > n := by rw [half]; rcases ho with ⟨r, rfl⟩; omega
    have hset : (ys ++ [0]).set (half n - 1) 0 = ys ++ [0] := by
      rw [List.set_append]
      simp [hl, hh]
    have hs : sliceRev (ys ++ [0]) ((half n : ℤ) - 1 - 1) = ys.reverse := by
      have h1 : ¬ ((half n : ℤ) - 1 - 1 < 0) := by omega
      simp only [sliceRev]
      rw [if_neg h1, if_neg h1]
      rw [show ((half n : ℤ) - 1 - 1).toNat + 1 = ys.length by omega, List.take_left']
      rfl
    simp only [expandRoots, N, hmid]
    rw [if_pos hgt, if_neg hne, hset, sliceRev_map, hs]
    simp [List.map_append, List.map_reverse, Function.comp_def, hW]

theorem expand_nodup (n : ℕ) (ys : List ℝ) (hnd : ys.Nodup) (hneg : ∀ v ∈ ys, v < 0) :
    (ys ++ (if Odd n then [(0 : ℝ)] else []) ++ (ys.map fun v => -v).reverse).Nodup := by
  rw [List.nodup_append]
  refine ⟨?_, ?_, ?_⟩
  · rw [List.nodup_append]
    refine ⟨hnd, by split_ifs <;> simp, ?_⟩
    intro a ha b hb
    have := hneg a ha
    split_ifs at hb <;> simp at hb
    subst hb; exact this.ne
  · rw [List.nodup_reverse]
    exact hnd.map neg_injective
  · intro a ha b hb
    rw [List.mem_reverse, List.mem_map] at hb
    obtain ⟨c, hc, rfl⟩ := hb
    have h1 := hneg c hc
    rw [List.mem_append] at ha
    rcases ha with ha | ha
    · have := hneg a ha
      intro h; linarith
    · split_ifs at ha <;> simp at ha
      subst ha
      intro h; linarith

theorem expand_length (n : ℕ) (ys : List ℝ) (hl : ys.length = n / 2) :
    (ys ++ (if Odd n then [(0 : ℝ)] else []) ++ (ys.map fun v => -v).reverse).length = n := by
  simp only [List.length_append, List.length_reverse, List.length_map, hl]
  split_ifs with h
  · rcases h with ⟨r, rfl⟩; simp; omega
  · rw [Nat.not_odd_iff_even] at h
    rcases h with ⟨r, rfl⟩; simp; omega

/-- A rule whose weights are a function of the node. -/
theorem applyRule_zip_map (N : List ℝ) (hN : N.Nodup) (W f : ℝ → ℝ) :
    applyRule (N.zip (N.map W)) f = ∑ x ∈ N.toFinset, W x * f x := by
  rw [List.sum_toFinset _ hN, applyRule]
  congr 1
  clear hN
  induction N with
  | nil => simp
  | cons a N ih => simp [ih]

/-- The Gauss-Legendre rule in the form in which the Newton methods deliver it. -/
theorem legRule_exact (n : ℕ) (hn : 2 ≤ n) (xs : List ℝ) (hl : xs.length = n / 2) (hnd : xs.Nodup)
    (h01 : ∀ v ∈ xs, 0 < v ∧ v < 1) (hroot : ∀ v ∈ xs, (legPoly n).eval v = 0) (f : ℝ[X])
    (hf : f.degree < (2 * n : ℕ)) :
    let x := xs ++ (if Odd n then [(0 : ℝ)] else [])
    let r := expandRoots (x.map fun v => -v)
      (x.map fun v => 2 / ((1 - v ^ 2) * legDeriv n v ^ 2)) n (half n)
    applyRule (r.1.zip r.2) (fun t => f.eval t) = ∫ t in (-1 : ℝ)..1, f.eval t := by
  intro x r
  set W : ℝ → ℝ := fun v => 2 / ((1 - v ^ 2) * legDeriv n v ^ 2) with hW
  have hWneg : ∀ v, W (-v) = W v := by
    intro v; simp only [hW]; rw [legDeriv_neg_sq n (by omega), neg_sq]
  set ys := xs.map fun v => -v with hys
  have hr : r = expandRoots (ys ++ (if Odd n then [(0 : ℝ)] else []))
      ((ys ++ (if Odd n then [(0 : ℝ)] else [])).map W) n (half n) := by
    simp only [r, x, hys]
    have e1 : (xs ++ (if Odd n then [(0 : ℝ)] else [])).map (fun v => -v)
        = xs.map (fun v => -v) ++ (if Odd n then [(0 : ℝ)] else []) := by
      rw [List.map_append]; split_ifs <;> simp
    have e2 : (xs ++ (if Odd n then [(0 : ℝ)] else [])).map W
        = (xs.map (fun v => -v) ++ (if Odd n then [(0 : ℝ)] else [])).map W := by
      rw [← e1, List.map_map]
      refine List.map_congr_left fun v _ => ?_
      exact (hWneg v).symm
    rw [e1, ← e2]
  rw [hr, expandRoots_spec n ys hn (by rw [hys, List.length_map, hl]) W hWneg]
  have hneg : ∀ v ∈ ys, v < 0 := by
    intro v hv
    rw [hys, List.mem_map] at hv
    obtain ⟨u, hu, rfl⟩ := hv
    linarith [(h01 u hu).1]
  have hndN := expand_nodup n ys (hnd.map neg_injective) hneg
  have hlen := expand_length n ys (by rw [hys, List.length_map, hl])
  set N := ys ++ (if Odd n then [(0 : ℝ)] else []) ++ (ys.map fun v => -v).reverse with hN
  have hmem : ∀ v ∈ N.toFinset, (legPoly n).eval v = 0 ∧ 1 - v ^ 2 ≠ 0 := by
    intro v hv
    have key : ∀ u ∈ xs, 1 - u ^ 2 ≠ 0 := by
      intro u hu h
      obtain ⟨a, b⟩ := h01 u hu
      nlinarith
    rw [List.mem_toFinset, hN, List.mem_append, List.mem_append] at hv
    rcases hv with (hv | hv) | hv
    · rw [hys, List.mem_map] at hv
      obtain ⟨u, hu, rfl⟩ := hv
      rw [legPoly_neg, hroot u hu, mul_zero, neg_sq]
      exact ⟨rfl, key u hu⟩
    · split_ifs at hv with ho
      · simp at hv; subst hv
        exact ⟨legPoly_zero_odd n ho, by norm_num⟩
      · simp at hv
    · rw [List.mem_reverse, hys, List.map_map, List.mem_map] at hv
      obtain ⟨u, hu, rfl⟩ := hv
      simp only [Function.comp_def, neg_neg]
      exact ⟨hroot u hu, key u hu⟩
  rw [applyRule_zip_map N hndN]
  have hcard : N.toFinset.card = n := by rw [List.toFinset_card_of_nodup hndN, hlen]
  obtain ⟨h1, h2⟩ := legendre_gauss n (by omega) N.toFinset hcard (fun v hv => (hmem v hv).1)
    (fun v hv => (hmem v hv).2) f hf
  rw [← h1]
  refine Finset.sum_congr rfl fun v hv => ?_
  simp only [hW]
  rw [legDeriv_eq n (by omega) v (hmem v hv).2]

theorem pRootsNewton1_eq (n : ℕ) (x : List ℝ) (h : ∀ v ∈ x, legStep n v = 0) :
    pRootsNewton1 n x = expandRoots (x.map fun v => -v)
      (x.map fun v => 2 / ((1 - v ^ 2) * legDeriv n v ^ 2)) n (half n) := by
  simp only [pRootsNewton1]
  have e : (x.map fun v => v - legStep n v) = x := by
    conv_rhs => rw [← List.map_id x]
    exact List.map_congr_left fun v hv => by rw [h v hv]; simp
  rw [e]
  congr 1
  rw [List.zip_map', List.map_map]
  refine List.map_congr_left fun v _ => ?_
  simp

theorem pRootsNewton_eq (n : ℕ) (x : List ℝ) (h : ∀ v ∈ x, (legPair v (n - 1)).2 = 0)
    (h1 : ∀ v ∈ x, 1 - v ^ 2 ≠ 0) :
    pRootsNewton n x = expandRoots (x.map fun v => -v)
      (x.map fun v => 2 / ((1 - v ^ 2) * legDeriv n v ^ 2)) n (half n) := by
  have key : ∀ v ∈ x, pNewtonPoint n v = (-v, 2 / ((1 - v ^ 2) * legDeriv n v ^ 2)) := by
    intro v hv
    have hz := h v hv
    have ha := h1 v hv
    simp only [pNewtonPoint, legPair'_eq, hz, mul_zero, zero_div, neg_zero, zero_mul, add_zero,
      sub_zero, Prod.mk.injEq, true_and, legDeriv]
    rw [div_pow, neg_sq]
    rcases eq_or_ne ((n : ℝ) * (legPair v (n - 1)).1) 0 with h0 | h0
    · rw [h0]; simp
    · field_simp
  simp only [pRootsNewton, List.map_map]
  congr 1
  · refine List.map_congr_left fun v hv => ?_
    simp only [Function.comp_def, key v hv]
  · refine List.map_congr_left fun v hv => ?_
    simp only [Function.comp_def, key v hv]

end Wafo.Quad

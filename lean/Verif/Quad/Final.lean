import Verif.Quad.Roots
import Verif.Quad.Gaussq
import Verif.Quad.Q89
import Verif.Quad.Romberg
import Verif.Quad.Extrap
import Verif.Quad.ChebRules

/-! Consequences of the lemmas on quadrature that the properties are stated from. -/

set_option linter.unusedSectionVars false

namespace Wafo.Quad

open Polynomial Finset Real MeasureTheory

theorem legVal_eq (n : ℕ) (hn : n ≠ 0) (v : ℝ) : (legPair v (n - 1)).2 = (legPoly n).eval v := by
  rw [legPair_eq]; simp only; congr 2; omega

theorem legStart_exists (n : ℕ) (hn : 2 ≤ n) :
    ∃ xs : List ℝ, xs.length = n / 2 ∧ xs.Nodup ∧ ∀ v ∈ xs, 0 < v ∧ v < 1 ∧ (legPair v (n - 1)).2 = 0 := by
  obtain ⟨s, h1, h2⟩ := leg_roots n
  obtain ⟨xs, a, b, c⟩ := half_roots (legPoly n) n (legPoly_ne_zero n) (legPoly_natDegree n)
    (legPoly_neg n) s h1 (fun v hv => (h2 v hv).2)
  refine ⟨xs, a, b, fun v hv => ⟨(c v hv).1, (h2 v (c v hv).2).1.2, ?_⟩⟩
  rw [legVal_eq n (by omega)]; exact (h2 v (c v hv).2).2

theorem herStart_exists (n : ℕ) (hn : 2 ≤ n) :
    ∃ xs : List ℝ, xs.length = n / 2 ∧ xs.Nodup ∧ ∀ v ∈ xs, 0 < v ∧ (herPair v n).2 = 0 := by
  obtain ⟨s, h1, h2⟩ := her_roots n
  obtain ⟨xs, a, b, c⟩ := half_roots (herPoly n) n (herPoly_ne_zero n) (herPoly_natDegree n)
    (herPoly_neg n) s h1 h2
  refine ⟨xs, a, b, fun v hv => ⟨(c v hv).1, ?_⟩⟩
  obtain ⟨k, rfl⟩ : ∃ k, n = k + 1 := ⟨n - 1, by omega⟩
  rw [herPair_eq]; exact h2 v (c v hv).2

theorem applyRule_pMap (a b : ℝ) (r : List (ℝ × ℝ)) (f : ℝ → ℝ) :
    applyRule (pMap a b r) f = (b - a) / 2 * applyRule r (fun t => f ((b - a) / 2 * t + (a + b) / 2)) := by
  unfold pMap
  split_ifs with h
  · simp only [applyRule, List.map_map]
    rw [← List.sum_map_mul_left]
    congr 1
    refine List.map_congr_left fun p _ => ?_
    simp only [Function.comp_def]
    rw [show (b - a) / 2 * (p.1 + 1) + a = (b - a) / 2 * p.1 + (a + b) / 2 by ring]
    ring
  · push Not at h
    obtain ⟨rfl, rfl⟩ := h
    norm_num

theorem pMap_exact (a b : ℝ) (r : List (ℝ × ℝ)) (d : ℕ)
    (hr : ∀ Q : ℝ[X], Q.degree < (d : ℕ) →
      applyRule r (fun t => Q.eval t) = ∫ t in (-1 : ℝ)..1, Q.eval t)
    (P : ℝ[X]) (hP : P.degree < (d : ℕ)) :
    applyRule (pMap a b r) (fun t => P.eval t) = ∫ x in a..b, P.eval x := by
  rw [applyRule_pMap, integral_affine]
  have h := hr (affPoly P ((b - a) / 2) ((a + b) / 2)) (affPoly_degree P _ _ d hP)
  simp only [affPoly_eval] at h
  rw [h]

/-- Both Newton methods return the same rule at the roots. -/
theorem pRoots_same (n : ℕ) (hn : 2 ≤ n) (xs : List ℝ)
    (h : ∀ v ∈ xs, 0 < v ∧ v < 1 ∧ (legPair v (n - 1)).2 = 0) :
    let x := xs ++ (if Odd n then [(0 : ℝ)] else [])
    pRootsNewton n x = expandRoots (x.map fun v => -v)
      (x.map fun v => 2 / ((1 - v ^ 2) * legDeriv n v ^ 2)) n (half n) ∧
    pRootsNewton1 n x = expandRoots (x.map fun v => -v)
      (x.map fun v => 2 / ((1 - v ^ 2) * legDeriv n v ^ 2)) n (half n) := by
  intro x
  have hx : ∀ v ∈ x, (legPair v (n - 1)).2 = 0 ∧ 1 - v ^ 2 ≠ 0 := by
    intro v hv
    rw [List.mem_append] at hv
    rcases hv with hv | hv
    · obtain ⟨a, b, c⟩ := h v hv
      exact ⟨c, by nlinarith⟩
    · split_ifs at hv with ho
      · simp at hv; subst hv
        exact ⟨by rw [legVal_eq n (by omega)]; exact legPoly_zero_odd n ho, by norm_num⟩
      · simp at hv
  exact ⟨pRootsNewton_eq n x (fun v hv => (hx v hv).1) (fun v hv => (hx v hv).2),
    pRootsNewton1_eq n x (fun v hv => by rw [legStep, (hx v hv).1, zero_div])⟩

theorem pRoots_exact (n : ℕ) (hn : 2 ≤ n) (xs : List ℝ) (hl : xs.length = n / 2) (hnd : xs.Nodup)
    (h : ∀ v ∈ xs, 0 < v ∧ v < 1 ∧ (legPair v (n - 1)).2 = 0) (Q : ℝ[X])
    (hQ : Q.degree < (2 * n : ℕ)) :
    let x := xs ++ (if Odd n then [(0 : ℝ)] else [])
    applyRule ((pRootsNewton n x).1.zip (pRootsNewton n x).2) (fun t => Q.eval t)
      = ∫ t in (-1 : ℝ)..1, Q.eval t := by
  intro x
  rw [(pRoots_same n hn xs h).1]
  exact legRule_exact n hn xs hl hnd (fun v hv => ⟨(h v hv).1, (h v hv).2.1⟩)
    (fun v hv => by rw [← legVal_eq n (by omega)]; exact (h v hv).2.2) Q hQ

theorem zip_map_self {β γ : Type*} (l : List β) (g : β → γ) : l.zip (l.map g) = l.map fun v => (v, g v) := by
  induction l with
  | nil => rfl
  | cons a l ih => simp [ih]

/-- The rule of `p_roots` is symmetric. -/
theorem pRoots_sym (n : ℕ) (hn : 2 ≤ n) (xs : List ℝ) (hl : xs.length = n / 2)
    (h : ∀ v ∈ xs, 0 < v ∧ v < 1 ∧ (legPair v (n - 1)).2 = 0) :
    let x := xs ++ (if Odd n then [(0 : ℝ)] else [])
    let r := (pRootsNewton n x).1.zip (pRootsNewton n x).2
    (r.map fun p => (-p.1, p.2)).Perm r ∧ (Even n → ∀ p ∈ r, p.1 ≠ 0) := by
  intro x r
  have hWneg : ∀ v, 2 / ((1 - (-v) ^ 2) * legDeriv n (-v) ^ 2) = 2 / ((1 - v ^ 2) * legDeriv n v ^ 2) := by
    intro v; rw [legDeriv_neg_sq n (by omega), neg_sq]
  set W : ℝ → ℝ := fun v => 2 / ((1 - v ^ 2) * legDeriv n v ^ 2) with hW
  have e1 : x.map (fun v => -v) = xs.map (fun v => -v) ++ (if Odd n then [(0 : ℝ)] else []) := by
    simp only [x, List.map_append]; split_ifs <;> simp
  have e2 : x.map W = (xs.map (fun v => -v) ++ (if Odd n then [(0 : ℝ)] else [])).map W := by
    rw [← e1, List.map_map]
    exact List.map_congr_left fun v _ => (hWneg v).symm
  have hr : r = (xs.map (fun v => -v) ++ (if Odd n then [(0 : ℝ)] else [])
      ++ ((xs.map fun v => -v).map fun v => -v).reverse).map fun v => (v, W v) := by
    simp only [r]
    rw [(pRoots_same n hn xs h).1, e1, e2,
      expandRoots_spec n (xs.map fun v => -v) hn (by rw [List.length_map, hl]) W hWneg]
    exact zip_map_self _ _
  constructor
  · rw [hr, List.map_map]
    have e3 : ((fun p : ℝ × ℝ => (-p.1, p.2)) ∘ fun v => (v, W v)) = (fun v => (v, W v)) ∘ fun v => -v := by
      funext v
      simp only [Function.comp_def, Prod.mk.injEq, true_and]
      exact (hWneg v).symm
    rw [e3, ← List.map_map]
    refine List.Perm.map _ ?_
    have e4 : (if Odd n then [(0 : ℝ)] else []).map (fun v => -v) = (if Odd n then [(0 : ℝ)] else []) := by
      split_ifs <;> simp
    rw [List.map_append, List.map_append, e4, List.map_reverse, List.map_map, List.map_map]
    have e5 : ((fun v : ℝ => -v) ∘ fun v => -v) = id := by funext v; simp
    rw [e5, List.map_id]
    have p1 : (xs ++ (if Odd n then [(0 : ℝ)] else []) ++ (xs.map fun v => -v).reverse).Perm
        ((xs.map fun v => -v) ++ ((if Odd n then [(0 : ℝ)] else []) ++ xs)) := by
      refine (List.perm_append_comm).trans ?_
      refine List.Perm.append (List.reverse_perm _) List.perm_append_comm
    refine p1.trans ?_
    rw [← List.append_assoc]
    exact List.Perm.append_left _ (List.reverse_perm _).symm
  · intro he p hp
    rw [hr, if_neg (Nat.not_odd_iff_even.2 he), List.mem_map] at hp
    obtain ⟨v, hv, rfl⟩ := hp
    simp only [List.append_nil, List.mem_append, List.mem_map, List.mem_reverse] at hv
    rcases hv with ⟨u, hu, rfl⟩ | ⟨t, ⟨u, hu, rfl⟩, rfl⟩
    · have := (h u hu).1
      simp only; linarith
    · have := (h u hu).1
      simp only; linarith

theorem hRoots_exact (n : ℕ) (hn : 2 ≤ n) (xs : List ℝ) (hl : xs.length = n / 2) (hnd : xs.Nodup)
    (h : ∀ v ∈ xs, 0 < v ∧ (herPair v n).2 = 0) (Q : ℝ[X]) (hQ : Q.degree < (2 * n : ℕ)) :
    let z := xs ++ (if Odd n then [(0 : ℝ)] else [])
    applyRule ((hRootsNewton n z).1.zip (hRootsNewton n z).2) (fun t => Q.eval t)
      = ∫ t : ℝ, Q.eval t * exp (-t ^ 2) := by
  intro z
  have hval : ∀ v, (herPair v n).2 = (herPoly n).eval v := by
    intro v
    obtain ⟨k, rfl⟩ : ∃ k, n = k + 1 := ⟨n - 1, by omega⟩
    rw [herPair_eq]
  have hz : ∀ v ∈ z, (herPair v n).2 = 0 := by
    intro v hv
    rw [List.mem_append] at hv
    rcases hv with hv | hv
    · exact (h v hv).2
    · split_ifs at hv with ho
      · simp at hv; subst hv
        rw [hval]
        have := herPoly_neg n 0
        rw [neg_zero, ho.neg_one_pow] at this
        linarith
      · simp at hv
  have e : (z.map fun v => v - (herPair v n).2 / herDeriv n v) = z := by
    conv_rhs => rw [← List.map_id z]
    exact List.map_congr_left fun v hv => by rw [hz v hv]; simp
  have := herRule_exact n hn xs hl hnd (fun v hv => (h v hv).1) (fun v hv => by rw [← hval]; exact (h v hv).2) Q hQ
  simp only [hRootsNewton, e]
  exact this

theorem lagStart_exists {α : ℝ} (hα : -1 < α) (n : ℕ) (hn : n ≠ 0) :
    ∃ z : List ℝ, z.length = n ∧ z.Nodup ∧ ∀ v ∈ z, 0 < v ∧ (lagPair α v n).2 = 0 := by
  obtain ⟨s, h1, h2⟩ := lag_roots hα n
  refine ⟨s.toList, by rw [Finset.length_toList, h1], s.nodup_toList, fun v hv => ?_⟩
  rw [Finset.mem_toList] at hv
  refine ⟨(h2 v hv).1, ?_⟩
  obtain ⟨k, rfl⟩ : ∃ k, n = k + 1 := ⟨n - 1, by omega⟩
  rw [lagPair_eq]; exact (h2 v hv).2

theorem jacStart_exists {α β : ℝ} (hα : -1 < α) (hβ : -1 < β) (n : ℕ) (hn : n ≠ 0) :
    ∃ z : List ℝ, z.length = n ∧ z.Nodup ∧ ∀ v ∈ z, -1 < v ∧ v < 1 ∧ (jacPair α β v (n - 1)).2 = 0 := by
  obtain ⟨s, h1, h2⟩ := jac_roots hα hβ n
  refine ⟨s.toList, by rw [Finset.length_toList, h1], s.nodup_toList, fun v hv => ?_⟩
  rw [Finset.mem_toList] at hv
  refine ⟨(h2 v hv).1.1, (h2 v hv).1.2, ?_⟩
  rw [jacPair_eq]
  simp only
  rw [show n - 1 + 1 = n by omega]; exact (h2 v hv).2

theorem laRoots_exact {α : ℝ} (hα : -1 < α) (n : ℕ) (hn : n ≠ 0) (z : List ℝ) (hl : z.length = n)
    (hnd : z.Nodup) (h : ∀ v ∈ z, 0 < v ∧ (lagPair α v n).2 = 0) (Q : ℝ[X])
    (hQ : Q.degree < (2 * n : ℕ)) :
    applyRule (laRootsNewton n α z) (fun t => Q.eval t)
      = ∫ t in Set.Ioi (0 : ℝ), Q.eval t * t ^ α * exp (-t) := by
  refine lagRule_exact hα n hn z hl hnd (fun v hv => (h v hv).1.ne') (fun v hv => ?_) Q hQ
  have := (h v hv).2
  obtain ⟨k, rfl⟩ : ∃ k, n = k + 1 := ⟨n - 1, by omega⟩
  rw [lagPair_eq] at this; exact this

theorem jRoots_exact {α β : ℝ} (hα : -1 < α) (hβ : -1 < β) (n : ℕ) (hn : n ≠ 0) (z : List ℝ)
    (hl : z.length = n) (hnd : z.Nodup)
    (h : ∀ v ∈ z, -1 < v ∧ v < 1 ∧ (jacPair α β v (n - 1)).2 = 0) (Q : ℝ[X])
    (hQ : Q.degree < (2 * n : ℕ)) :
    applyRule (jRootsNewton n α β z) (fun t => Q.eval t)
      = ∫ t in (-1 : ℝ)..1, Q.eval t * ((1 - t) ^ α * (1 + t) ^ β) := by
  refine jacRule_exact hα hβ n hn z hl hnd (fun v hv => ?_) (fun v hv => ?_) Q hQ
  · obtain ⟨a, b, _⟩ := h v hv; nlinarith
  · have := (h v hv).2.2
    rw [jacPair_eq] at this
    simp only at this
    rwa [show n - 1 + 1 = n by omega] at this

theorem integral_quartic (a b c1 c2 c3 c4 : ℝ) :
    (∫ t in a..b, (c1 * t + c2 * t ^ 2 + c3 * t ^ 3 + c4 * t ^ 4))
      = c1 * (b ^ 2 - a ^ 2) / 2 + c2 * (b ^ 3 - a ^ 3) / 3 + c3 * (b ^ 4 - a ^ 4) / 4
        + c4 * (b ^ 5 - a ^ 5) / 5 := by
  have h := intLin_derivative a b (C (c1 / 2) * X ^ 2 + C (c2 / 3) * X ^ 3 + C (c3 / 4) * X ^ 4
    + C (c4 / 5) * X ^ 5)
  rw [intLin_apply] at h
  simp only [derivative_add, derivative_mul, derivative_C, derivative_X_pow, eval_add, eval_mul, eval_C,
    eval_pow, eval_X, eval_zero, zero_mul, zero_add] at h
  norm_num at h
  convert h using 1
  · refine intervalIntegral.integral_congr fun t _ => ?_
    ring
  · ring

/-! ### `quadgr` -/

theorem argmin_foldl (l : List (ℝ × ℝ)) (p : ℝ × ℝ) :
    let r := l.foldl (fun best q => open Classical in
      if |q.1 - q.2| < |best.1 - best.2| then q else best) p
    r ∈ p :: l ∧ ∀ q ∈ p :: l, |r.1 - r.2| ≤ |q.1 - q.2| := by
  induction l generalizing p with
  | nil => simp
  | cons a l ih =>
    simp only [List.foldl_cons]
    by_cases h : |a.1 - a.2| < |p.1 - p.2|
    · rw [if_pos h]
      obtain ⟨h1, h2⟩ := ih a
      refine ⟨List.mem_cons_of_mem _ h1, fun q hq => ?_⟩
      rw [List.mem_cons] at hq
      rcases hq with rfl | hq
      · exact le_trans (h2 a (by simp)) h.le
      · exact h2 q hq
    · rw [if_neg h]
      obtain ⟨h1, h2⟩ := ih p
      refine ⟨?_, fun q hq => ?_⟩
      · rw [List.mem_cons] at h1 ⊢
        rcases h1 with h1 | h1
        · exact Or.inl h1
        · exact Or.inr (List.mem_cons_of_mem _ h1)
      · rw [List.mem_cons, List.mem_cons] at hq
        rcases hq with rfl | rfl | hq
        · exact h2 q (by simp)
        · exact le_trans (h2 p (by simp)) (not_lt.1 h)
        · exact h2 q (List.mem_cons_of_mem _ hq)

theorem argminPair_spec (l : List (ℝ × ℝ)) (hl : l ≠ []) :
    argminPair l ∈ l ∧ ∀ q ∈ l, |(argminPair l).1 - (argminPair l).2| ≤ |q.1 - q.2| := by
  cases l with
  | nil => exact absurd rfl hl
  | cons p l =>
    have := argmin_foldl l p
    exact this

theorem quadLoop_spec (v0 v1 v2 : ℕ → ℝ) (abseps : ℝ) (fuel k : ℕ) :
    ∃ m, k ≤ m ∧ m ≤ k + fuel ∧
      quadLoop v0 v1 v2 abseps k fuel = ((argminPair (quadPairs v0 v1 v2 m)).1,
        |(argminPair (quadPairs v0 v1 v2 m)).1 - (argminPair (quadPairs v0 v1 v2 m)).2|) ∧
      (|(argminPair (quadPairs v0 v1 v2 m)).1 - (argminPair (quadPairs v0 v1 v2 m)).2| < abseps
        ∨ m = k + fuel) := by
  induction fuel generalizing k with
  | zero => exact ⟨k, le_rfl, le_rfl, rfl, Or.inr rfl⟩
  | succ fuel ih =>
    rw [quadLoop]
    by_cases h : |(argminPair (quadPairs v0 v1 v2 k)).1 - (argminPair (quadPairs v0 v1 v2 k)).2| < abseps
    · exact ⟨k, le_rfl, by omega, by simp only [if_pos h], Or.inl h⟩
    · obtain ⟨m, h1, h2, h3, h4⟩ := ih (k + 1)
      refine ⟨m, by omega, by omega, by simp only [if_neg h, h3], ?_⟩
      rcases h4 with h4 | h4
      · exact Or.inl h4
      · exact Or.inr (by omega)

theorem richardson_congr (q q' : ℕ → ℝ) (k : ℕ) (h : ∀ j, k - 2 ≤ j → j ≤ k → q j = q' j) :
    richardson q k = richardson q' k := by
  simp only [richardson, h k (by omega) le_rfl, h (k - 1) (by omega) (by omega), h (k - 2) le_rfl (by omega)]

/-- No entry is used before it is computed. -/
theorem quadPairs_fill (v0 : ℕ → ℝ) (fill fill' : ℝ) (k : ℕ) :
    quadPairs v0 (quadVal1 fill v0) (quadVal2 fill (quadVal1 fill v0)) k
      = quadPairs v0 (quadVal1 fill' v0) (quadVal2 fill' (quadVal1 fill' v0)) k := by
  have h1 : ∀ j, 3 ≤ j → quadVal1 fill v0 j = quadVal1 fill' v0 j := by
    intro j hj; simp only [quadVal1, if_pos hj]
  have h2 : ∀ j, 5 ≤ j → quadVal2 fill (quadVal1 fill v0) j = quadVal2 fill' (quadVal1 fill' v0) j := by
    intro j hj
    simp only [quadVal2, if_pos hj]
    exact richardson_congr _ _ j fun i hi _ => h1 i (by omega)
  unfold quadPairs
  split_ifs with ha hb
  · rw [h1 k (by omega), h1 (k - 1) (by omega), h2 k (by omega), h2 (k - 1) (by omega)]
  · rw [h1 k (by omega), h1 (k - 1) (by omega)]
  · rfl

theorem quadLoop_congr (v0 v1 v2 w0 w1 w2 : ℕ → ℝ) (abseps : ℝ) (fuel k : ℕ)
    (h : ∀ j, quadPairs v0 v1 v2 j = quadPairs w0 w1 w2 j) :
    quadLoop v0 v1 v2 abseps k fuel = quadLoop w0 w1 w2 abseps k fuel := by
  induction fuel generalizing k with
  | zero => simp only [quadLoop, h]
  | succ fuel ih => simp only [quadLoop, h, ih]

theorem quadIntegrate_fill (fill fill' eps : ℝ) (n : ℕ) (xn w : ℕ → ℝ) (f : ℝ → ℝ) (a b abseps : ℝ) :
    quadIntegrate fill eps n xn w f a b abseps = quadIntegrate fill' eps n xn w f a b abseps := by
  simp only [quadIntegrate]
  rw [quadLoop_congr _ _ _ _ _ _ abseps 15 1 (quadPairs_fill (quadVal0 n xn w f a b) fill fill')]

/-! ### `romberg` -/

theorem npRound_le (x : ℝ) (k : ℤ) (h : x ≤ k) : npRound x ≤ k := by
  have h1 : ⌊x⌋ ≤ k := by exact_mod_cast (Int.floor_le x).trans h
  have h2 : ⌊x⌋ + 1 ≤ k ∨ x ≤ ⌊x⌋ := by
    by_cases hk : ⌊x⌋ = k
    · right; rw [hk]; exact h
    · left; omega
  unfold npRound
  split_ifs with c1 c2 c3
  · exact h1
  · rcases h2 with h2 | h2
    · exact h2
    · linarith
  · exact h1
  · rcases h2 with h2 | h2
    · exact h2
    · exfalso; apply c1; linarith

theorem le_npRound (x : ℝ) (k : ℤ) (h : (k : ℝ) ≤ x) : k ≤ npRound x := by
  have h1 : k ≤ ⌊x⌋ := Int.le_floor.2 h
  unfold npRound
  split_ifs <;> omega

theorem tableLimit_type (h : ℝ) (h1 : 8 / 10 ^ 9 ≤ h) (h2 : h ≤ 2 ^ 30 / 10 ^ 9) :
    tableLimit h = .error .typeError := by
  have hpos : 0 < h := lt_of_lt_of_le (by positivity) h1
  have hx : 0 < h / (1 / 10 ^ 9) := by positivity
  have l1 : (3 : ℝ) ≤ logb 2 (h / (1 / 10 ^ 9)) := by
    rw [le_logb_iff_rpow_le (by norm_num) hx]
    norm_num at h1 ⊢; linarith
  have l2 : logb 2 (h / (1 / 10 ^ 9)) ≤ 30 := by
    rw [logb_le_iff_le_rpow (by norm_num) hx]
    have : (2 : ℝ) ^ (30 : ℝ) = 2 ^ 30 := by norm_cast
    rw [this]
    norm_num at h2 ⊢; linarith
  have r1 := le_npRound (logb 2 (h / (1 / 10 ^ 9))) 3 (by norm_num at l1 ⊢; exact l1)
  have r2 := npRound_le (logb 2 (h / (1 / 10 ^ 9))) 30 (by norm_num at l2 ⊢; exact l2)
  have hne : ¬ h < 0 := by linarith
  have hne2 : ¬ h = 0 := hpos.ne'
  simp only [tableLimit]
  rw [if_neg hne, if_neg hne2, if_neg (by omega), if_pos r1]

theorem tableLimit_long (h : ℝ) (h1 : 2 ^ 31 / 10 ^ 9 ≤ h) : tableLimit h = .ok 30 := by
  have hpos : 0 < h := lt_of_lt_of_le (by positivity) h1
  have hx : 0 < h / (1 / 10 ^ 9) := by positivity
  have l1 : (31 : ℝ) ≤ logb 2 (h / (1 / 10 ^ 9)) := by
    rw [le_logb_iff_rpow_le (by norm_num) hx]
    have : (2 : ℝ) ^ (31 : ℝ) = 2 ^ 31 := by norm_cast
    rw [this]
    norm_num at h1 ⊢; linarith
  have r1 := le_npRound (logb 2 (h / (1 / 10 ^ 9))) 31 (by norm_num at l1 ⊢; exact l1)
  have hne : ¬ h < 0 := by linarith
  have hne2 : ¬ h = 0 := hpos.ne'
  simp only [tableLimit]
  rw [if_neg hne, if_neg hne2, if_pos (by omega)]

end Wafo.Quad

import Verif.Discretize.Lemmas
import Mathlib.Data.Rat.Defs
import Mathlib.Algebra.Order.Field.Rat

/-!
Property C48.
-/

set_option linter.unusedSectionVars false

namespace Wafo.Discretize

variable {α : Type*} [Field α] [LinearOrder α] [IsStrictOrderedRing α]

/-- A good sampling of `fn` on [a, b]: strictly increasing abscissae from `a` to `b` and function values. -/
def GoodSampling (fn : α → α) (a b : α) (x y : List α) : Prop :=
  x.Pairwise (· < ·) ∧ x.head? = some a ∧ x.getLast? = some b ∧ y = x.map fn

theorem linLoop_spec (p : Par α) (fuel : ℕ) : ∀ (s : LinState α), 2 ≤ s.n →
    2 ^ 20 ≤ (s.n - 1) * 2 ^ fuel → s.x = linspace p.a p.b s.n → s.y = s.x.map p.fn →
    ∃ k x y, linLoop p fuel s = some (x, y) ∧ k ≤ fuel ∧ x = linspace p.a p.b ((s.n - 1) * 2 ^ k + 1) ∧
      y = x.map p.fn := by
  induction fuel with
  | zero =>
    intro s h2 hn hx hy
    refine ⟨0, s.x, s.y, ?_, le_rfl, ?_, hy⟩
    · unfold linLoop
      rw [if_neg]
      have hc : ¬ s.n < 2 ^ 20 := by norm_num at hn ⊢; omega
      simp only [linGo, Bool.and_eq_true, decide_eq_true_eq, not_and]
      intro _
      exact hc
    · rw [hx]; congr 1; omega
  | succ fuel ih =>
    intro s h2 hn hx hy
    unfold linLoop
    split
    · have e : (linStep p s).n = 2 * (s.n - 1) + 1 := rfl
      obtain ⟨k, x, y, h, hk, hx', hy'⟩ := ih (linStep p s) (by rw [e]; omega)
        (by rw [e, Nat.add_sub_cancel]; rw [pow_succ] at hn; calc 2 ^ 20 ≤ _ := hn
            _ = _ := by ring) rfl rfl
      refine ⟨k + 1, x, y, h, by omega, ?_, hy'⟩
      rw [hx', e, Nat.add_sub_cancel]
      congr 1
      rw [pow_succ]; ring
    · refine ⟨0, s.x, s.y, rfl, by omega, ?_, hy⟩
      rw [hx]; congr 1; omega

/-- **C48, linear method.**  Whatever the function, tolerance and interpolation error: starting with at least
two points, the loop ends after at most twenty refinements, each of which halves the spacing, and returns a
good sampling. -/
theorem C48_linear (p : Par α) (hab : p.a < p.b) (n fuel : ℕ) (hn : 2 ≤ n) (hf : 20 ≤ fuel) :
    ∃ x y k, discretizeLinear p n fuel = some (x, y) ∧ GoodSampling p.fn p.a p.b x y ∧
      x = linspace p.a p.b ((n - 1) * 2 ^ k + 1) ∧ k ≤ 20 := by
  -- with twenty rounds
  have h20 : ∃ k x y, discretizeLinear p n 20 = some (x, y) ∧ k ≤ 20 ∧
      x = linspace p.a p.b ((n - 1) * 2 ^ k + 1) ∧ y = x.map p.fn := by
    unfold discretizeLinear
    exact linLoop_spec p 20 _ hn (by dsimp only; exact Nat.le_mul_of_pos_left _ (by omega)) rfl rfl
  -- more rounds do not matter
  have hmono : ∀ (m : ℕ) (s : LinState α) r, linLoop p m s = some r → linLoop p (m + 1) s = some r := by
    intro m
    induction m with
    | zero =>
      intro s r h
      rw [show linLoop p 0 s = (if linGo p s then none else some (s.x, s.y)) from rfl] at h
      rw [show linLoop p 1 s = (if linGo p s then linLoop p 0 (linStep p s) else some (s.x, s.y)) from rfl]
      split at h
      · cases h
      · rename_i hg; rw [if_neg hg]; exact h
    | succ m ih =>
      intro s r h
      rw [show linLoop p (m + 1) s = (if linGo p s then linLoop p m (linStep p s)
        else some (s.x, s.y)) from rfl] at h
      rw [show linLoop p (m + 1 + 1) s = (if linGo p s then linLoop p (m + 1) (linStep p s)
        else some (s.x, s.y)) from rfl]
      split at h
      · rename_i hg; rw [if_pos hg]; exact ih _ _ h
      · rename_i hg; rw [if_neg hg]; exact h
  have hmore : ∀ d, ∀ r, discretizeLinear p n 20 = some r → discretizeLinear p n (20 + d) = some r := by
    intro d
    induction d with
    | zero => intro r h; exact h
    | succ d ih => intro r h; exact hmono _ _ _ (ih r h)
  obtain ⟨k, x, y, h1, h2, h3, h4⟩ := h20
  have h5 := hmore (fuel - 20) _ h1
  rw [show 20 + (fuel - 20) = fuel by omega] at h5
  have hN : 2 ≤ (n - 1) * 2 ^ k + 1 := by
    have : 1 ≤ (n - 1) * 2 ^ k := Nat.mul_pos (by omega) (by positivity)
    omega
  refine ⟨x, y, k, h5, ⟨?_, ?_, ?_, h4⟩, h3, h2⟩
  · rw [h3]; exact linspace_sorted _ _ _ hab hN
  · rw [h3, List.head?_eq_getElem?]; exact linspace_first _ _ _ hN
  · rw [h3, List.getLast?_eq_getElem?, linspace_length]; exact linspace_last _ _ _ hN

/-- **C48, adaptive method.**  For every function, non-negative tolerance and interpolation error: starting
with at least two points (made odd), no index is out of range and the result is a good sampling that contains
all points of the initial grid. -/
theorem C48_adaptive (p : Par α) (hab : p.a < p.b) (ht : 0 ≤ p.tol) (n : ℕ) (hn : 2 ≤ n) :
    ∃ x y, discretizeAdaptive p n = .ok (x, y) ∧ GoodSampling p.fn p.a p.b x y ∧
      ∀ v ∈ linspace p.a p.b (if n % 2 = 0 then n + 1 else n), v ∈ x := by
  unfold discretizeAdaptive
  dsimp only
  set N := if n % 2 = 0 then n + 1 else n with hN
  have hN3 : 3 ≤ N := by rw [hN]; split <;> omega
  have hNodd : N % 2 = 1 := by rw [hN]; split <;> omega
  rw [if_neg (by omega)]
  set grid : List (Node α) := (List.range N).zipWith (fun k v =>
      { x := v, fx := p.fn v, err := if k % 2 = 1 then 1 else 0 : Node α }) (linspace p.a p.b N) with hgrid
  have hlen : grid.length = N := by rw [hgrid]; simp [linspace_length]
  have hget : ∀ (k : ℕ) v, grid[k]? = some v → ∃ w, (linspace p.a p.b N)[k]? = some w ∧ v.x = w ∧
      v.fx = p.fn w ∧ v.err = if k % 2 = 1 then 1 else 0 := by
    intro k v hv
    rw [hgrid, List.getElem?_zipWith] at hv
    have hk : k < N := by
      by_contra hc
      rw [List.getElem?_eq_none (by simpa using hc)] at hv
      simp at hv
    rw [List.getElem?_range hk] at hv
    rw [linspace_get _ _ _ _ (by omega) hk] at hv ⊢
    simp only [Option.some.injEq] at hv
    subst hv
    exact ⟨_, rfl, rfl, rfl, rfl⟩
  have hI : Inv p grid := by
    refine ⟨?_, ?_, ?_, ?_, ?_⟩
    · rw [List.pairwise_iff_getElem]
      intro i j hi hj hij
      obtain ⟨u, hu, e1, _⟩ := hget i grid[i] (List.getElem?_eq_getElem hi)
      obtain ⟨v, hv, e2, _⟩ := hget j grid[j] (List.getElem?_eq_getElem hj)
      rw [e1, e2]
      obtain ⟨hi', rfl⟩ := List.getElem?_eq_some_iff.1 hu
      obtain ⟨hj', rfl⟩ := List.getElem?_eq_some_iff.1 hv
      exact List.pairwise_iff_getElem.1 (linspace_sorted p.a p.b N hab (by omega)) i j hi' hj' hij
    · intro v hv
      obtain ⟨k, hk⟩ := List.mem_iff_getElem?.1 hv
      obtain ⟨w, _, e1, e2, _⟩ := hget k v hk
      rw [e1, e2]
    · have h0 : grid[0]? = some (grid[0]'(by omega)) := List.getElem?_eq_getElem _
      obtain ⟨w, hw, e1, _, e3⟩ := hget 0 _ h0
      rw [linspace_first _ _ _ (by omega)] at hw
      refine ⟨_, h0, ?_, ?_⟩
      · rw [e1]; simpa using hw.symm
      · rw [e3]; simpa using ht
    · have h0 : grid[grid.length - 1]? = some (grid[grid.length - 1]'(by omega)) := List.getElem?_eq_getElem _
      obtain ⟨w, hw, e1, _, e3⟩ := hget _ _ h0
      rw [hlen, linspace_last _ _ _ (by omega)] at hw
      refine ⟨_, h0, ?_, ?_⟩
      · rw [e1]; simpa using hw.symm
      · rw [e3, if_neg (by omega)]; exact not_lt.2 ht
    · intro i u v hu hv ⟨h1, h2⟩
      obtain ⟨_, _, _, _, e1⟩ := hget i u hu
      obtain ⟨_, _, _, _, e2⟩ := hget (i + 1) v hv
      rw [e1] at h1
      rw [e2] at h2
      by_cases hp : i % 2 = 1
      · rw [if_neg (by omega)] at h2; exact absurd h2 (not_lt.2 ht)
      · rw [if_neg hp] at h1; exact absurd h1 (not_lt.2 ht)
  obtain ⟨g, h1, h2, h3⟩ := adLoop_inv p ht 50 { grid := grid, err := 1, tries := 0 } hI
  rw [h1]
  refine ⟨_, _, rfl, ⟨?_, ?_, ?_, ?_⟩, ?_⟩
  · rw [List.pairwise_map]; exact h2.sorted
  · obtain ⟨v, hv, hx, _⟩ := h2.first
    rw [List.head?_eq_getElem?, List.getElem?_map, hv, ← hx]; rfl
  · obtain ⟨v, hv, hx, _⟩ := h2.last
    rw [List.getLast?_eq_getElem?, List.length_map, List.getElem?_map, hv, ← hx]; rfl
  · rw [List.map_map]
    exact List.map_congr_left (fun v hv => h2.vals v hv)
  · intro v hv
    obtain ⟨k, hk⟩ := List.mem_iff_getElem?.1 hv
    have hkN : k < N := by
      have := (List.getElem?_eq_some_iff.1 hk).1
      rwa [linspace_length] at this
    have hgk : grid[k]? = some (grid[k]'(by omega)) := List.getElem?_eq_getElem _
    obtain ⟨w, hw, e1, _⟩ := hget k _ hgk
    rw [hk] at hw
    simp only [Option.some.injEq] at hw
    obtain ⟨u, hu, hux⟩ := h3 _ (List.getElem_mem (by omega : k < grid.length))
    rw [List.mem_map]
    exact ⟨u, hu, by rw [hux, e1, hw]⟩

/-- **C48**: `discretize` itself, for both methods. -/
theorem C48_discretize (p : Par α) (hab : p.a < p.b) (ht : 0 ≤ p.tol) (n fuel : ℕ) (hn : 2 ≤ n)
    (hf : 20 ≤ fuel) (method : String) :
    ∃ x y, discretize p n fuel method = .ok (some (x, y)) ∧ GoodSampling p.fn p.a p.b x y := by
  unfold discretize
  split
  · obtain ⟨x, y, h1, h2, _⟩ := C48_adaptive p hab ht n hn
    exact ⟨x, y, by rw [h1]; rfl, h2⟩
  · obtain ⟨x, y, _, h1, h2, _⟩ := C48_linear p hab n fuel hn hf
    exact ⟨x, y, by rw [h1], h2⟩

/-- With fewer than two points the adaptive method raises a ValueError. -/
theorem C48_one_point (p : Par α) (n : ℕ) (hn : n ≤ 1) : discretizeAdaptive p n = .error .valueError := by
  unfold discretizeAdaptive
  have : (if n % 2 = 0 then n + 1 else n) - 1 = 0 := by split <;> omega
  dsimp only
  rw [if_pos this]

/-- Discretising `|x - 1/8|` on [0, 1] with a stand-in for `np.interp` that is wrong on the left half in the
first round: the grid is refined a second time, on the left only. -/
example : discretizeAdaptive (α := ℚ)
    { fn := fun x => |x - 1 / 8|,
      interp := fun x0 _ x => if x0.length < 5 ∧ x < 1 / 2 then 0 else |x - 1 / 8|, a := 0, b := 1,
      tol := 1 / 10, tiny := 1 / 1000 } 2 = .ok ([0, 1 / 8, 1 / 4, 3 / 8, 1 / 2, 3 / 4, 1],
      [1 / 8, 0, 1 / 8, 1 / 4, 3 / 8, 5 / 8, 7 / 8]) := by
  decide +kernel

end Wafo.Discretize

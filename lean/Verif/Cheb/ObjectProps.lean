import Verif.Cheb.Object
import Verif.Cheb.Props
import Mathlib.Algebra.Polynomial.Roots

set_option linter.unusedSectionVars false

/-! Properties of the class `Cheb1d` (C289 - C293). -/

namespace Wafo.Cheb1d

open Wafo.Cheb Wafo.Poly Polynomial.Chebyshev

variable {α : Type*} [Field α] [DecidableEq α]

/-! ### Helpers -/

/-- A heap and an object that a program can have: the array is in use, the view lies in it, `order` is its length less
one. -/
def WF (h : Heap α) (o : Obj α) : Prop :=
  o.loc < h.next ∧ o.len ≤ (h.arr o.loc).length ∧ o.order = (o.len : ℤ) - 1

theorem trim_split (l : List α) : ∃ z, l = l.take (trimLen l) ++ List.replicate z 0 ∧
    (l.take (trimLen l)).getLast? ≠ some 0 ∧ trimLen l ≤ l.length := by
  induction l using List.reverseRecOn with
  | nil => exact ⟨0, by simp, by simp, by simp [trimLen]⟩
  | append_singleton l c ih =>
    by_cases hc : c = 0
    · obtain ⟨z, h1, h2, h3⟩ := ih
      have ht : trimLen (l ++ [c]) = trimLen l := by simp [trimLen, hc]
      refine ⟨z + 1, ?_, ?_, ?_⟩
      · rw [ht, List.take_append_of_le_length h3, List.replicate_succ', ← List.append_assoc, ← h1, hc]
      · rw [ht, List.take_append_of_le_length h3]; exact h2
      · rw [ht]; simp; omega
    · have ht : trimLen (l ++ [c]) = (l ++ [c]).length := by simp [trimLen, hc]
      refine ⟨0, ?_, ?_, ?_⟩
      · rw [ht]; simp
      · rw [ht, List.take_length]; simp [hc]
      · exact ht.le

theorem coeffs_list (h : Heap α) (l : List α) (a b : α) (k : ℕ) :
    (init h (.list l) a b k).2.coeffs (init h (.list l) a b k).1 = l.take (trimLen l) := by
  simp [init, Obj.coeffs, Heap.alloc]

theorem coeffs_array (h : Heap α) (p : ℕ) (a b : α) (k : ℕ) :
    (init h (.array p) a b k).2.coeffs (init h (.array p) a b k).1 = (h.arr p).take (trimLen (h.arr p)) := by
  simp [init, Obj.coeffs]

theorem seriesPoly_zeros (m : ℕ) (l : List ℝ) : seriesPoly (List.replicate m 0 ++ l) = seriesPoly l := by
  induction m with
  | zero => simp
  | succ m ih => simp [List.replicate_succ, seriesPoly, ih]

theorem lead_split (l : List ℝ) (h : l ≠ []) (hl : l.getLast? ≠ some 0) :
    ∃ m c l', l = List.replicate m 0 ++ c :: l' ∧ c ≠ 0 := by
  induction l with
  | nil => exact absurd rfl h
  | cons c l ih =>
    by_cases hc : c = 0
    · subst hc
      have hne : l ≠ [] := by rintro rfl; simp at hl
      obtain ⟨m, d, l', e, hd⟩ := ih hne (by
        obtain ⟨a, as, rfl⟩ := List.exists_cons_of_ne_nil hne
        simpa using hl)
      exact ⟨m + 1, d, l', by rw [e, List.replicate_succ, List.cons_append], hd⟩
    · exact ⟨0, c, l, by simp, hc⟩

/-- Only the array of the object and newly made ones change. -/
theorem setItem_other (h : Heap α) (o : Obj α) (key : ℤ) (v : α) (h' : Heap α) (o' : Obj α)
    (hs : setItem h o key v = .ok (h', o')) (p : ℕ) (hp : p < h.next) (hp' : p ≠ o.loc) : h'.arr p = h.arr p := by
  have hp1 : p ≠ h.next := hp.ne
  simp only [setItem] at hs
  by_cases hk : key < 0
  · rw [if_pos hk] at hs
    exact absurd hs (by simp)
  · rw [if_neg hk] at hs
    by_cases ho : o.order < key
    · rw [if_pos ho] at hs
      rw [← (Prod.mk.inj (Except.ok.inj hs)).1]
      simp [Heap.write, Heap.alloc, hp1]
    · rw [if_neg ho] at hs
      rw [← (Prod.mk.inj (Except.ok.inj hs)).1]
      simp [Heap.write, hp']

/-! ### C289: values -/

/-- **C289**  The object made from a list or an array evaluates the series of what remains of the list when its trailing
zeros are removed.  Coefficients are listed from the highest degree, so these are the coefficients of degrees
`0, 1, ...` -/
theorem C289_value (h : Heap α) (ck : List α) (p : ℕ) (hp : h.arr p = ck) (a b : α) (kind : ℕ) :
    ∃ l z, ck = l ++ List.replicate z 0 ∧ l.getLast? ≠ some 0 ∧
      (∀ x, (init h (.list ck) a b kind).2.call (init h (.list ck) a b kind).1 x = chebval x l a b kind) ∧
      ∀ x, (init h (.array p) a b kind).2.call (init h (.array p) a b kind).1 x = chebval x l a b kind := by
  obtain ⟨z, h1, h2, -⟩ := trim_split ck
  refine ⟨ck.take (trimLen ck), z, h1, h2, ?_, ?_⟩
  · intro x
    rw [Obj.call, coeffs_list]; rfl
  · intro x
    rw [Obj.call, coeffs_array, hp]; rfl

example : (init (⟨0, fun _ => []⟩ : Heap ℚ) (.list [1, 0, 3]) (-1) 1 1).2.call
    (init (⟨0, fun _ => []⟩ : Heap ℚ) (.list [1, 0, 3]) (-1) 1 1).1 (1 / 2) = .ok (5 / 2) := by decide +kernel

/-- **C289**  `Cheb1d(ck, a, b)(x) == chebval(x, ck, a, b)` for all `x` exactly when the coefficient of degree zero,
`ck[-1]`, is not zero. -/
theorem C289_iff (h : Heap ℝ) (ck : List ℝ) (a b : ℝ) (hab : a ≠ b) :
    (∀ x, (init h (.list ck) a b 1).2.call (init h (.list ck) a b 1).1 x = chebval x ck a b 1) ↔
      ck.getLast? ≠ some 0 := by
  obtain ⟨z, h1, h2, -⟩ := trim_split ck
  have hcall : ∀ x, (init h (.list ck) a b 1).2.call (init h (.list ck) a b 1).1 x =
      chebval x (ck.take (trimLen ck)) a b 1 := by
    intro x; rw [Obj.call, coeffs_list]; rfl
  simp only [hcall]
  constructor
  · intro hx hlast
    have hz : z ≠ 0 := by
      rintro rfl
      rw [List.replicate_zero, List.append_nil] at h1
      exact h2 (h1 ▸ hlast)
    have hne : ck ≠ [] := by rintro rfl; simp at hlast
    generalize ck.take (trimLen ck) = l at *
    by_cases hl : l = []
    · have := hx 0
      rw [hl, chebval, chebval, chebval0_T _ _ hne] at this
      simp [chebval0] at this
    · obtain ⟨m, c, l', e, hc⟩ := lead_split l hl h2
      have hpoly : seriesPoly l = seriesPoly ck := by
        apply Polynomial.funext
        intro y
        have hba : b - a ≠ 0 := sub_ne_zero.2 (Ne.symm hab)
        have hy : mapFromInterval (y * (b - a) / 2 + (b + a) / 2) a b = y := by
          unfold mapFromInterval; field_simp; ring
        have := hx (y * (b - a) / 2 + (b + a) / 2)
        rw [chebval, chebval, hy, chebval0_T _ _ hne, chebval0_T _ _ hl] at this
        rw [seriesPoly_eval, seriesPoly_eval]
        exact Except.ok.inj this
      have hd := congrArg Polynomial.natDegree hpoly
      rw [h1, e, List.append_assoc, seriesPoly_zeros, seriesPoly_zeros, List.cons_append,
        seriesPoly_degree c hc, seriesPoly_degree c hc] at hd
      simp at hd
      omega
  · intro hlast x
    have hz : z = 0 := by
      by_contra hz
      obtain ⟨k, rfl⟩ := Nat.exists_eq_succ_of_ne_zero hz
      apply hlast
      rw [h1, List.replicate_succ']
      simp
    rw [hz, List.replicate_zero, List.append_nil] at h1
    rw [← h1]

/-- **C289** negated: `Cheb1d([1, 0])` is the constant 1, not `T_1`; `Cheb1d([0])` cannot be evaluated. -/
theorem C289_refuted (h : Heap ℝ) :
    (∀ x, (init h (.list [1, 0]) (-1) 1 1).2.call (init h (.list [1, 0]) (-1) 1 1).1 x = .ok 1) ∧
    (∀ x : ℝ, chebval x [1, 0] (-1) 1 1 = .ok x) ∧
    ∀ x, (init h (.list [0]) (-1) 1 1).2.call (init h (.list [0]) (-1) 1 1).1 x = .error .indexError := by
  have h1 : trimLen [(1 : ℝ), 0] = 1 := by simp [trimLen]
  have h2 : trimLen [(0 : ℝ)] = 0 := by simp [trimLen]
  refine ⟨?_, ?_, ?_⟩
  · intro x
    rw [Obj.call, coeffs_list, h1]
    simp [chebval, chebval0]
  · intro x
    simp [chebval, chebval0, clenStep, mapFromInterval]
    norm_num
  · intro x
    rw [Obj.call, coeffs_list, h2]
    simp [chebval, chebval0]

/-! ### C290: items -/

/-- **C290**  Reading and assigning items: `c[k] = v` with `k < 0` raises ValueError; otherwise afterwards `c[k]` is `v`,
every other item is what it was, and the order has grown to at least `k`.  Items outside `0 .. order` read as 0. -/
theorem C290_items (h : Heap α) (o : Obj α) (ho : WF h o) (key : ℤ) (v : α) :
    (key < 0 → setItem h o key v = .error .valueError) ∧
    (0 ≤ key → ∃ h' o', setItem h o key v = .ok (h', o') ∧ WF h' o' ∧ o'.order = max o.order key ∧
      o'.getItem h' key = v ∧ ∀ i, i ≠ key → o'.getItem h' i = o.getItem h i) ∧
    (∀ i, i < 0 ∨ o.order < i → o.getItem h i = 0) := by
  obtain ⟨hw1, hw2, hw3⟩ := ho
  refine ⟨fun hk => by simp [setItem, hk], fun hk => ?_, ?_⟩
  · obtain ⟨k, rfl⟩ := Int.eq_ofNat_of_zero_le hk
    simp only [setItem, if_neg (not_lt.2 hk)]
    by_cases hlt : o.order < (k : ℤ)
    · rw [if_pos hlt]
      obtain ⟨n, hn⟩ : ∃ n : ℕ, ((k : ℤ) - o.order).toNat = n := ⟨_, rfl⟩
      have hnk : o.len + n = k + 1 := by omega
      have hcl : (o.coeffs h).length = o.len := by simp [Obj.coeffs, hw2]
      have htl : ((h.arr o.loc).take o.len).length = o.len := by simp [hw2]
      have hal : ((h.arr o.loc).take o.len ++ List.replicate n (0 : α)).length = k + 1 := by
        rw [List.length_append, htl, List.length_replicate, hnk]
      have hsl : (((h.arr o.loc).take o.len ++ List.replicate n (0 : α)).set k v).length ≤ o.len + n := by
        rw [List.length_set, hal, hnk]
      refine ⟨_, _, rfl, ?_, ?_, ?_, ?_⟩
      · refine ⟨?_, ?_, ?_⟩
        · simp [Heap.write, Heap.alloc]
        · simp [Heap.write, Heap.alloc, hcl]
        · simp only [hn]; omega
      · rw [max_eq_right hlt.le]
      · simp only [Obj.getItem, lt_irrefl, if_false, if_neg (not_lt.2 hk), Obj.coeffs, Heap.write, Heap.alloc, if_true, hn,
          Int.toNat_natCast]
        rw [List.take_of_length_le hsl, List.getD_eq_getElem?_getD, List.getElem?_set_self (by omega)]
        rfl
      · intro i hi
        simp only [Obj.getItem]
        by_cases hi0 : i < 0
        · simp [hi0]
        · obtain ⟨j, rfl⟩ := Int.eq_ofNat_of_zero_le (not_lt.1 hi0)
          simp only [if_neg hi0, Int.toNat_natCast, Obj.coeffs, Heap.write, Heap.alloc, if_true, hn]
          have hjk : k ≠ j := fun e => hi (by rw [e])
          by_cases hkj : (k : ℤ) < j
          · rw [if_pos hkj, if_pos (by omega)]
          · rw [if_neg hkj, List.take_of_length_le hsl, List.getD_eq_getElem?_getD, List.getElem?_set_ne hjk]
            by_cases hoj : o.order < (j : ℤ)
            · rw [if_pos hoj, List.getElem?_append_right (by omega), List.getElem?_replicate, if_pos (by omega)]
              rfl
            · rw [if_neg hoj, List.getElem?_append_left (by omega), List.getD_eq_getElem?_getD]
    · rw [if_neg hlt]
      have hkl : k < o.len := by omega
      refine ⟨_, _, rfl, ⟨hw1, by simp [Heap.write, hw2], hw3⟩, (max_eq_left (not_lt.1 hlt)).symm, ?_, ?_⟩
      · simp only [Obj.getItem, if_neg hlt, if_neg (not_lt.2 hk), Obj.coeffs, Heap.write, if_true, Int.toNat_natCast]
        rw [List.getD_eq_getElem?_getD, List.getElem?_take_of_lt hkl, List.getElem?_set_self (by omega)]
        rfl
      · intro i hi
        simp only [Obj.getItem]
        by_cases hi0 : i < 0
        · simp [hi0]
        · obtain ⟨j, rfl⟩ := Int.eq_ofNat_of_zero_le (not_lt.1 hi0)
          have hjk : k ≠ j := fun e => hi (by rw [e])
          by_cases hoj : o.order < (j : ℤ)
          · simp [hoj]
          · simp only [if_neg hoj, if_neg hi0, Obj.coeffs, Heap.write, if_true, Int.toNat_natCast]
            rw [List.getD_eq_getElem?_getD, List.getElem?_take_of_lt (by omega), List.getElem?_set_ne hjk,
              List.getD_eq_getElem?_getD, List.getElem?_take_of_lt (by omega)]
  · rintro i (hi | hi)
    · simp only [Obj.getItem, hi, if_true, ite_self]
    · simp only [Obj.getItem, hi, if_true]

example : WF (init (⟨0, fun _ => []⟩ : Heap ℚ) (.list [1, 0, 3]) (-1) 1 1).1
    (init (⟨0, fun _ => []⟩ : Heap ℚ) (.list [1, 0, 3]) (-1) 1 1).2 := by
  refine ⟨?_, ?_, ?_⟩ <;> decide +kernel

/-- **C290** negated for the polynomial: an item beyond the order reads as 0, but assigning 0 to it changes the values:
with `c = Cheb1d([1])`, the constant 1, the assignment `c[1] = 0` turns `c` into `T_1`. -/
theorem C290_extend_refuted (h : Heap ℝ) :
    ∃ h1 o1 h2 o2, init h (.list [1]) (-1) 1 1 = (h1, o1) ∧ o1.getItem h1 1 = 0 ∧
      setItem h1 o1 1 0 = .ok (h2, o2) ∧ (∀ x, o1.call h1 x = .ok 1) ∧ ∀ x, o2.call h2 x = .ok x := by
  have h1 : trimLen [(1 : ℝ)] = 1 := by simp [trimLen]
  refine ⟨_, _, _, _, rfl, ?_, if_neg (by norm_num) |>.trans (if_pos (by simp [h1])), ?_, ?_⟩
  · simp [Obj.getItem, h1]
  · intro x
    simp [Obj.call, Obj.coeffs, h1, Heap.alloc, chebval, chebval0]
  · intro x
    simp [Obj.call, Obj.coeffs, h1, Heap.alloc, Heap.write, chebval, chebval0, clenStep, mapFromInterval]
    norm_num

/-! ### C291: sharing -/

/-- **C291** (lists)  An object made from a list has an array of its own: whatever is assigned to its items, all other
objects and arrays keep their coefficients. -/
theorem C291_list_partial (h : Heap α) (l : List α) (a b : α) (kind : ℕ) (key : ℤ) (v : α) (h' : Heap α) (o' : Obj α)
    (hs : setItem (init h (.list l) a b kind).1 (init h (.list l) a b kind).2 key v = .ok (h', o')) :
    (∀ p, p < h.next → h'.arr p = h.arr p) ∧ ∀ o, WF h o → o.coeffs h' = o.coeffs h := by
  have key1 : ∀ p, p < h.next → h'.arr p = h.arr p := by
    intro p hp
    have hp1 : p ≠ h.next := hp.ne
    rw [setItem_other _ _ _ _ _ _ hs p (by simp only [init, Heap.alloc]; omega) hp1]
    simp [init, Heap.alloc, hp1]
  exact ⟨key1, fun o ho => by rw [Obj.coeffs, Obj.coeffs, key1 _ ho.1]⟩

/-- **C291** (extension)  Assigning beyond the order gives the object a new array, so all others keep theirs. -/
theorem C291_extend_partial (h : Heap α) (o : Obj α) (key : ℤ) (hk : o.order < key) (v : α) (h' : Heap α) (o' : Obj α)
    (hs : setItem h o key v = .ok (h', o')) : ∀ p, p < h.next → h'.arr p = h.arr p := by
  intro p hp
  have hp1 : p ≠ h.next := hp.ne
  simp only [setItem, if_pos hk] at hs
  by_cases h0 : key < 0
  · rw [if_pos h0] at hs
    exact absurd hs (by simp)
  · rw [if_neg h0] at hs
    rw [← (Prod.mk.inj (Except.ok.inj hs)).1]
    simp [Heap.write, Heap.alloc, hp1]

/-- **C291** negated, for every object: `d = Cheb1d(c); d[k] = v` with `k` within the order also sets `c[k]`. -/
theorem C291_copy_refuted (h : Heap α) (c : Obj α) (hc : WF h c) (key : ℤ) (h0 : 0 ≤ key) (hk : key ≤ c.order) (v : α) :
    ∃ h' d', setItem (init h (.obj c) (-1) 1 1).1 (init h (.obj c) (-1) 1 1).2 key v = .ok (h', d') ∧
      c.getItem h' key = v := by
  obtain ⟨-, h2, -⟩ := C290_items h c hc key v
  obtain ⟨h', o', e, -, -, e2, -⟩ := h2 h0
  refine ⟨h', o', e, ?_⟩
  have : o' = c := by
    simp only [setItem, if_neg (not_lt.2 h0), if_neg (not_lt.2 hk)] at e
    exact ((Prod.mk.inj (Except.ok.inj e)).2).symm
  rwa [this] at e2

example : trimLen ((fun _ => [1, 2, 0] : ℕ → List ℚ) 0) = 2 := by decide +kernel

/-- **C291** negated for arrays: `c = Cheb1d(arr); c[k] = v` with `k` within the order writes to `arr`. -/
theorem C291_array_refuted (h : Heap α) (p : ℕ) (a b : α) (kind : ℕ) (k : ℕ) (hk : k < trimLen (h.arr p)) (v : α) :
    ∃ h' c', setItem (init h (.array p) a b kind).1 (init h (.array p) a b kind).2 k v = .ok (h', c') ∧
      h'.arr p = (h.arr p).set k v := by
  refine ⟨h.write p k v, (init h (.array p) a b kind).2, ?_, by simp [Heap.write]⟩
  have h1 : ¬ ((k : ℤ) < 0) := by omega
  have h2 : ¬ ((trimLen (h.arr p) : ℤ) - 1 < k) := by omega
  simp [setItem, init, h1, h2]

/-! ### C292: arithmetic -/

/-- **C292** negated: negation, addition, subtraction, integration and differentiation raise for every object and every
argument: all of them assign to `new.coeffs`, which `__setattr__` refuses. -/
theorem C292_arithmetic_refuted (h : Heap α) (o : Obj α) (other : Arg α) :
    neg h o = .error .valueError ∧ add h o other = .error .valueError ∧
    (∃ e, sub h o other = .error e) ∧ (∃ e, rsub h o other = .error e) ∧
    (∃ e, integ h o = .error e) ∧ ∃ e, deriv h o = .error e := by
  have hsub : ∃ e, sub h o other = .error e := by
    unfold sub
    cases hn : negArg h other with
    | error e => exact ⟨e, rfl⟩
    | ok r => exact ⟨_, rfl⟩
  refine ⟨rfl, rfl, hsub, ?_, ?_, ?_⟩
  · obtain ⟨e, he⟩ := hsub
    exact ⟨e, by simp [rsub, he]⟩
  · unfold integ
    cases chebint (o.coeffs h) o.a o.b with
    | error e => exact ⟨e, rfl⟩
    | ok r => exact ⟨_, rfl⟩
  · unfold deriv
    cases chebder (o.coeffs h) o.a o.b with
    | error e => exact ⟨e, rfl⟩
    | ok r => exact ⟨_, rfl⟩

/-- **C292**  `len(c)` is the order, one less than the number of coefficients, and raises for the zero series. -/
theorem C292_len (h : Heap α) (o : Obj α) (ho : WF h o) :
    (∀ n, o.pyLen = .ok n → (o.coeffs h).length = n + 1) ∧ (o.coeffs h = [] ↔ o.pyLen = .error .valueError) := by
  obtain ⟨-, h2, h3⟩ := ho
  have hl : (o.coeffs h).length = o.len := by simp [Obj.coeffs, h2]
  rw [← List.length_eq_zero_iff, hl]
  unfold Obj.pyLen
  constructor
  · intro n hn
    split at hn
    · exact absurd hn (by simp)
    · have := Except.ok.inj hn
      omega
  · by_cases hlt : o.order < 0
    · simp only [if_pos hlt, iff_true]; omega
    · simp only [if_neg hlt, reduceCtorEq, iff_false]; omega

/-! ### C293: equality -/

/-- **C293** (equal lengths)  For objects with the same number of coefficients `==` says whether coefficients, limits and
kind agree. -/
theorem C293_equality_partial (mm : Except PyErr Unit) (h : Heap α) (o q : Obj α)
    (hl : (o.coeffs h).length = (q.coeffs h).length) :
    ∃ r, eq mm h o (.obj q) = .ok r ∧
      (r = true ↔ o.coeffs h = q.coeffs h ∧ o.a = q.a ∧ o.b = q.b ∧ o.kind = q.kind) := by
  have ha : allEq mm (o.coeffs h) (q.coeffs h) = .ok (decide (o.coeffs h = q.coeffs h)) := by
    unfold allEq; rw [if_pos hl]
  refine ⟨decide (o.coeffs h = q.coeffs h) && decide (o.a = q.a) && decide (o.b = q.b) && decide (o.kind = q.kind),
    by simp only [eq, init]; rw [ha]; rfl, ?_⟩
  simp only [Bool.and_eq_true, decide_eq_true_eq, and_assoc]

example : (eq (.ok ()) (⟨2, fun p => if p = 0 then [1, 2] else [1, 3]⟩ : Heap ℚ) ⟨0, 2, 1, -1, 1, 1⟩
    (.obj ⟨1, 2, 1, -1, 1, 1⟩)).toOption = some false := by decide +kernel

/-- **C293** negated: a constant equals every series that has this constant as all of its coefficients, and the zero
series equals every constant. -/
theorem C293_broadcast_refuted (mm : Except PyErr Unit) (h : Heap α) (c : α) (hc : c ≠ 0) (n : ℕ) :
    let s := init h (.list (List.replicate (n + 2) c)) (-1) 1 1
    let o := init s.1 (.list [c]) (-1) 1 1
    eq mm o.1 o.2 (.obj s.2) = .ok true ∧
    let z := init h (.list [0]) (-1) 1 1
    eq mm z.1 z.2 (.list [c]) = .ok true := by
  have h1 : trimLen [c] = 1 := by simp [trimLen, hc]
  have h2 : trimLen [(0 : α)] = 0 := by simp [trimLen]
  have h3 : trimLen (List.replicate (n + 2) c) = n + 2 := by
    rw [trimLen, List.reverse_replicate, List.replicate_succ, List.dropWhile_cons_of_neg (by simp [hc])]
    simp
  constructor
  · have e1 : ¬ h.next = h.next + 1 := by omega
    simp [eq, init, Obj.coeffs, Heap.alloc, allEq, h1, h3]
  · have e1 : ¬ h.next = h.next + 1 := by omega
    simp [eq, init, Obj.coeffs, Heap.alloc, allEq, h1, h2]

end Wafo.Cheb1d

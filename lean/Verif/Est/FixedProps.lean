import Verif.Est.FitModel
import Verif.Est.ProfileProps
import Mathlib.Analysis.SpecialFunctions.Log.Basic
import Mathlib.Analysis.Complex.ExponentialBounds
import Mathlib.Data.List.Nodup

/-!
# Fits: fixed parameters and Moran's statistic (properties C247-C250)
-/

set_option linter.unusedSectionVars false

namespace Wafo.Est

section fixed
variable {α : Type}

/-! ### C247: names of fixed parameters -/

theorem lookup_filter_ne (k k' : Key) (kw : Kwds α) :
    (kw.filter fun p => p.1 ≠ k).lookup k' = if k' = k then none else kw.lookup k' := by
  induction kw with
  | nil => simp
  | cons p kw ih =>
    obtain ⟨q, v⟩ := p
    by_cases hq : q = k
    · rw [List.filter_cons_of_neg (by simpa using hq), ih]
      split_ifs with h
      · rfl
      · rw [List.lookup_cons]
        have : (k' == q) = false := by simpa [hq] using h
        rw [this]
    · rw [List.filter_cons_of_pos (by simpa using hq), List.lookup_cons, List.lookup_cons]
      by_cases h : k' = q
      · have hb : (k' == q) = true := by simpa using h
        rw [hb, if_neg (by rw [h]; exact hq)]
      · have hb : (k' == q) = false := by simpa using h
        rw [hb]; exact ih

theorem popAll_spec : ∀ (ks : List Key) (kw : Kwds α), ks.Nodup →
    (popAll ks kw).1 = ks.filterMap (fun k => kw.lookup k) ∧
    ∀ k, (popAll ks kw).2.lookup k = if k ∈ ks then none else kw.lookup k := by
  intro ks
  induction ks with
  | nil => intro kw _; simp [popAll]
  | cons k ks ih =>
    intro kw hnd
    obtain ⟨hk, hnd'⟩ := List.nodup_cons.1 hnd
    cases h : kw.lookup k with
    | none =>
      obtain ⟨h1, h2⟩ := ih kw hnd'
      simp only [popAll, h]
      refine ⟨by rw [h1, List.filterMap_cons_none (f := fun k => kw.lookup k) h], fun k' => ?_⟩
      rw [h2]
      by_cases hkk : k' = k
      · subst hkk; simp [h]
      · simp [hkk]
    | some v =>
      obtain ⟨h1, h2⟩ := ih (kw.filter fun p => p.1 ≠ k) hnd'
      simp only [popAll, h]
      constructor
      · rw [List.filterMap_cons_some (f := fun k => kw.lookup k) h, h1]
        congr 1
        apply List.filterMap_congr
        intro q hq
        rw [lookup_filter_ne, if_neg (by rintro rfl; exact hk hq)]
      · intro k'
        rw [h2, lookup_filter_ne]
        by_cases hkk : k' = k
        · subst hkk; simp
        · simp [hkk]

/-- Specification: the values given for shape parameter `j`, named `s`, under its three names. -/
def given (kw : Kwds α) (j : ℕ) (s : String) : List (Option α) :=
  [Key.num j, Key.shape s, Key.fix s].filterMap (fun k => kw.lookup k)

theorem convertShapes_spec : ∀ (shapes : List String) (j : ℕ) (kw : Kwds α), shapes.Nodup →
    ((∃ i s, shapes[i]? = some s ∧ 2 ≤ (given kw (j + i) s).length) →
      convertShapes j shapes kw = .error .valueError) ∧
    ((∀ i s, shapes[i]? = some s → (given kw (j + i) s).length ≤ 1) →
      ∃ kw', convertShapes j shapes kw = .ok kw' ∧
        (∀ i s v, shapes[i]? = some s →
          (kw'.lookup (.num (j + i)) = some (some v) ↔ given kw (j + i) s = [some v])) ∧
        (∀ i s, shapes[i]? = some s → kw'.lookup (.num (j + i)) ≠ some none) ∧
        (∀ i, i < j ∨ j + shapes.length ≤ i → kw'.lookup (.num i) = kw.lookup (.num i)) ∧
        kw'.lookup .loc = kw.lookup .loc ∧ kw'.lookup .scale = kw.lookup .scale) := by
  intro shapes
  induction shapes with
  | nil =>
    intro j kw _
    refine ⟨by rintro ⟨i, s, h, -⟩; simp at h, fun _ => ⟨kw, rfl, ?_⟩⟩
    simp
  | cons s ss ih =>
    intro j kw hnd
    obtain ⟨hs, hnd'⟩ := List.nodup_cons.1 hnd
    obtain ⟨p1, p2⟩ := popAll_spec [Key.num j, Key.shape s, Key.fix s] kw (by simp)
    have hg : given kw j s = (popAll [Key.num j, Key.shape s, Key.fix s] kw).1 := p1.symm
    -- lookups of other shapes survive in a dictionary that agrees away from the three names
    have hstep : ∀ kw1 : Kwds α, (∀ k, k ∉ [Key.num j, Key.shape s, Key.fix s] →
        kw1.lookup k = kw.lookup k) →
        ∀ i t, ss[i]? = some t → given kw1 (j + 1 + i) t = given kw (j + (i + 1)) t := by
      intro kw1 h1 i t ht
      have htne : t ≠ s := by rintro rfl; exact hs (List.mem_of_getElem? ht)
      have e : j + 1 + i = j + (i + 1) := by omega
      rw [e]
      unfold given
      apply List.filterMap_congr
      intro k hk
      apply h1
      simp only [List.mem_cons, List.not_mem_nil, or_false] at hk ⊢
      rcases hk with rfl | rfl | rfl <;> simp [htne]
    cases hp : popAll [Key.num j, Key.shape s, Key.fix s] kw with
    | mk vals kw0 =>
      rw [hp] at p2 hg
      simp only at hg p2
      have hkw0 : ∀ k, k ∉ [Key.num j, Key.shape s, Key.fix s] → kw0.lookup k = kw.lookup k := by
        intro k hk; rw [p2, if_neg hk]
      match vals, hg, hp with
      | [], hg, hp =>
        have hc : convertShapes j (s :: ss) kw = convertShapes (j + 1) ss kw0 := by
          simp only [convertShapes, getFixedFitValue, hp]
        obtain ⟨i1, i2⟩ := ih (j + 1) kw0 hnd'
        rw [hc]
        refine ⟨?_, ?_⟩
        · rintro ⟨i, t, hi, hl⟩
          cases i with
          | zero =>
            simp only [List.getElem?_cons_zero, Option.some.injEq] at hi
            subst hi
            rw [Nat.add_zero, hg] at hl; simp at hl
          | succ i =>
            rw [List.getElem?_cons_succ] at hi
            exact i1 ⟨i, t, hi, by rw [hstep kw0 hkw0 i t hi]; exact hl⟩
        · intro hall
          obtain ⟨kw', e1, e2, e3, e4, e5, e6⟩ := i2 fun i t hi => by
            rw [hstep kw0 hkw0 i t hi]
            exact hall (i + 1) t (by rw [List.getElem?_cons_succ]; exact hi)
          have hj0 : kw'.lookup (.num j) = none := by
            rw [e4 j (by omega), p2, if_pos (by simp)]
          refine ⟨kw', e1, ?_, ?_, ?_, ?_, ?_⟩
          · intro i t v hi
            cases i with
            | zero =>
              simp only [List.getElem?_cons_zero, Option.some.injEq] at hi
              subst hi
              rw [Nat.add_zero, hj0, hg]; simp
            | succ i =>
              rw [List.getElem?_cons_succ] at hi
              have := e2 i t v hi
              rw [hstep kw0 hkw0 i t hi] at this
              rw [show j + (i + 1) = j + 1 + i by omega] at this ⊢
              exact this
          · intro i t hi
            cases i with
            | zero => rw [Nat.add_zero, hj0]; simp
            | succ i =>
              rw [List.getElem?_cons_succ] at hi
              rw [show j + (i + 1) = j + 1 + i by omega]
              exact e3 i t hi
          · intro i hi
            rw [List.length_cons] at hi
            rw [e4 i (by omega)]
            apply hkw0
            simp; omega
          · rw [e5]; exact hkw0 _ (by simp)
          · rw [e6]; exact hkw0 _ (by simp)
      | [none], hg, hp =>
        have hc : convertShapes j (s :: ss) kw = convertShapes (j + 1) ss kw0 := by
          simp only [convertShapes, getFixedFitValue, hp]
        obtain ⟨i1, i2⟩ := ih (j + 1) kw0 hnd'
        rw [hc]
        refine ⟨?_, ?_⟩
        · rintro ⟨i, t, hi, hl⟩
          cases i with
          | zero =>
            simp only [List.getElem?_cons_zero, Option.some.injEq] at hi
            subst hi
            rw [Nat.add_zero, hg] at hl; simp at hl
          | succ i =>
            rw [List.getElem?_cons_succ] at hi
            exact i1 ⟨i, t, hi, by rw [hstep kw0 hkw0 i t hi]; exact hl⟩
        · intro hall
          obtain ⟨kw', e1, e2, e3, e4, e5, e6⟩ := i2 fun i t hi => by
            rw [hstep kw0 hkw0 i t hi]
            exact hall (i + 1) t (by rw [List.getElem?_cons_succ]; exact hi)
          have hj0 : kw'.lookup (.num j) = none := by
            rw [e4 j (by omega), p2, if_pos (by simp)]
          refine ⟨kw', e1, ?_, ?_, ?_, ?_, ?_⟩
          · intro i t v hi
            cases i with
            | zero =>
              simp only [List.getElem?_cons_zero, Option.some.injEq] at hi
              subst hi
              rw [Nat.add_zero, hj0, hg]; simp
            | succ i =>
              rw [List.getElem?_cons_succ] at hi
              have := e2 i t v hi
              rw [hstep kw0 hkw0 i t hi] at this
              rw [show j + (i + 1) = j + 1 + i by omega] at this ⊢
              exact this
          · intro i t hi
            cases i with
            | zero => rw [Nat.add_zero, hj0]; simp
            | succ i =>
              rw [List.getElem?_cons_succ] at hi
              rw [show j + (i + 1) = j + 1 + i by omega]
              exact e3 i t hi
          · intro i hi
            rw [List.length_cons] at hi
            rw [e4 i (by omega)]
            apply hkw0
            simp; omega
          · rw [e5]; exact hkw0 _ (by simp)
          · rw [e6]; exact hkw0 _ (by simp)
      | [some w], hg, hp =>
        have hc : convertShapes j (s :: ss) kw = convertShapes (j + 1) ss ((.num j, some w) :: kw0) := by
          simp only [convertShapes, getFixedFitValue, hp]
        have hkw1 : ∀ k, k ∉ [Key.num j, Key.shape s, Key.fix s] →
            List.lookup k ((Key.num j, some w) :: kw0) = kw.lookup k := by
          intro k hk
          rw [List.lookup_cons]
          have : (k == Key.num j) = false := by
            simp only [List.mem_cons, not_or] at hk
            simpa using hk.1
          rw [this]; exact hkw0 k hk
        obtain ⟨i1, i2⟩ := ih (j + 1) ((.num j, some w) :: kw0) hnd'
        rw [hc]
        refine ⟨?_, ?_⟩
        · rintro ⟨i, t, hi, hl⟩
          cases i with
          | zero =>
            simp only [List.getElem?_cons_zero, Option.some.injEq] at hi
            subst hi
            rw [Nat.add_zero, hg] at hl; simp at hl
          | succ i =>
            rw [List.getElem?_cons_succ] at hi
            exact i1 ⟨i, t, hi, by rw [hstep _ hkw1 i t hi]; exact hl⟩
        · intro hall
          obtain ⟨kw', e1, e2, e3, e4, e5, e6⟩ := i2 fun i t hi => by
            rw [hstep _ hkw1 i t hi]
            exact hall (i + 1) t (by rw [List.getElem?_cons_succ]; exact hi)
          have hj0 : kw'.lookup (.num j) = some (some w) := by
            rw [e4 j (by omega), List.lookup_cons]; simp
          refine ⟨kw', e1, ?_, ?_, ?_, ?_, ?_⟩
          · intro i t v hi
            cases i with
            | zero =>
              simp only [List.getElem?_cons_zero, Option.some.injEq] at hi
              subst hi
              rw [Nat.add_zero, hj0, hg]; simp
            | succ i =>
              rw [List.getElem?_cons_succ] at hi
              have := e2 i t v hi
              rw [hstep _ hkw1 i t hi] at this
              rw [show j + (i + 1) = j + 1 + i by omega] at this ⊢
              exact this
          · intro i t hi
            cases i with
            | zero => rw [Nat.add_zero, hj0]; simp
            | succ i =>
              rw [List.getElem?_cons_succ] at hi
              rw [show j + (i + 1) = j + 1 + i by omega]
              exact e3 i t hi
          · intro i hi
            rw [List.length_cons] at hi
            rw [e4 i (by omega)]
            apply hkw1
            simp; omega
          · rw [e5]; exact hkw1 _ (by simp)
          · rw [e6]; exact hkw1 _ (by simp)
      | a :: b :: vs, hg, hp =>
        have hc : convertShapes j (s :: ss) kw = .error .valueError := by
          simp only [convertShapes, getFixedFitValue, hp]
        refine ⟨fun _ => hc, fun hall => ?_⟩
        have := hall 0 s (by simp)
        rw [Nat.add_zero, hg] at this
        simp at this

/-- **C247.** A shape parameter may be fixed as `f0`, `fa` or `fix_a`, to the same effect; giving it twice
is a `ValueError`; `None` means not fixed.  Location and scale keep their own names. -/
theorem C247_names (shapes : List String) (kw : Kwds α) (hnd : shapes.Nodup) :
    ((∃ i s, shapes[i]? = some s ∧ 2 ≤ (given kw i s).length) →
      convertShapes 0 shapes kw = .error .valueError) ∧
    ((∀ i s, shapes[i]? = some s → (given kw i s).length ≤ 1) →
      ∃ kw', convertShapes 0 shapes kw = .ok kw' ∧
        (∀ i s v, shapes[i]? = some s →
          (kw'.lookup (.num i) = some (some v) ↔ given kw i s = [some v])) ∧
        (∀ i s, shapes[i]? = some s → kw'.lookup (.num i) ≠ some none) ∧
        kw'.lookup .loc = kw.lookup .loc ∧ kw'.lookup .scale = kw.lookup .scale) := by
  obtain ⟨h1, h2⟩ := convertShapes_spec shapes 0 kw hnd
  simp only [Nat.zero_add] at h1 h2
  refine ⟨h1, fun h => ?_⟩
  obtain ⟨kw', e1, e2, e3, -, e5, e6⟩ := h2 h
  exact ⟨kw', e1, e2, e3, e5, e6⟩

example : (convertShapes 0 ["a", "c"] [(Key.fix "c", some (5 : ℕ)), (Key.loc, some 7)]).toOption.map
    (fun kw => kw.lookup (.num 1)) = some (some (some 5)) := by decide

/-! ### C247: the reduced function -/

/-- Specification: the entries of a list whose positions, counted from `n`, are not in `fixedn`. -/
def freePart {β : Type} (fixedn : List ℕ) (n : ℕ) (l : List β) : List β :=
  ((l.zipIdx n).filter fun p => p.2 ∉ fixedn).map Prod.fst

theorem freePart_cons {β : Type} (fixedn : List ℕ) (n : ℕ) (a : β) (l : List β) :
    freePart fixedn n (a :: l) = if n ∈ fixedn then freePart fixedn (n + 1) l
      else a :: freePart fixedn (n + 1) l := by
  unfold freePart
  rw [List.zipIdx_cons]
  split_ifs with h
  · rw [List.filter_cons_of_neg (by simpa using h)]
  · rw [List.filter_cons_of_pos (by simpa using h), List.map_cons]

theorem freePart_congr {β : Type} (f1 f2 : List ℕ) (n : ℕ) (l : List β)
    (h : ∀ k, n ≤ k → (k ∈ f1 ↔ k ∈ f2)) : freePart f1 n l = freePart f2 n l := by
  induction l generalizing n with
  | nil => rfl
  | cons a l ih =>
    rw [freePart_cons, freePart_cons, ih (n + 1) fun k hk => h k (by omega)]
    by_cases hn : n ∈ f1
    · rw [if_pos hn, if_pos ((h n le_rfl).1 hn)]
    · rw [if_neg hn, if_neg fun h' => hn ((h n le_rfl).2 h')]

theorem unpackLoop_spec (len : ℕ) (kw : Kwds α) : ∀ (as : List α) (n : ℕ),
    (unpackLoop len kw n as).2.1.length = as.length ∧
    (∀ k ∈ (unpackLoop len kw n as).2.2, n ≤ k ∧ k < n + as.length) ∧
    (∀ i a, as[i]? = some a →
      (n + i ∈ (unpackLoop len kw n as).2.2 ↔ (kw.lookup (keyOf len (n + i))).isSome) ∧
      (unpackLoop len kw n as).2.1[i]? = some ((kw.lookup (keyOf len (n + i))).getD (some a))) ∧
    (unpackLoop len kw n as).1 = freePart (unpackLoop len kw n as).2.2 n as := by
  intro as
  induction as with
  | nil => intro n; simp [unpackLoop, freePart]
  | cons a as ih =>
    intro n
    obtain ⟨h1, h2, h3, h4⟩ := ih (n + 1)
    have hnot : n ∉ (unpackLoop len kw (n + 1) as).2.2 := fun h => by have := (h2 n h).1; omega
    cases hk : kw.lookup (keyOf len n) with
    | some v =>
      simp only [unpackLoop, hk]
      refine ⟨by simp [h1], ?_, ?_, ?_⟩
      · intro k hk'
        rcases List.mem_cons.1 hk' with rfl | h
        · simp
        · have := h2 k h
          simp only [List.length_cons]; omega
      · intro i b hi
        cases i with
        | zero => simp [hk]
        | succ i =>
          rw [List.getElem?_cons_succ] at hi
          obtain ⟨e1, e2⟩ := h3 i b hi
          rw [show n + (i + 1) = n + 1 + i by omega]
          constructor
          · rw [← e1, List.mem_cons]
            constructor
            · rintro (h | h)
              · omega
              · exact h
            · exact Or.inr
          · rw [List.getElem?_cons_succ]; exact e2
      · rw [freePart_cons, if_pos (by simp), h4]
        apply freePart_congr
        intro k hk'
        simp only [List.mem_cons]
        constructor
        · exact Or.inr
        · rintro (h | h)
          · omega
          · exact h
    | none =>
      simp only [unpackLoop, hk]
      refine ⟨by simp [h1], ?_, ?_, ?_⟩
      · intro k h
        have := h2 k h
        simp only [List.length_cons]; omega
      · intro i b hi
        cases i with
        | zero =>
          simp only [List.getElem?_cons_zero, Option.some.injEq] at hi
          subst hi
          simp [hk, hnot]
        | succ i =>
          rw [List.getElem?_cons_succ] at hi
          obtain ⟨e1, e2⟩ := h3 i b hi
          rw [show n + (i + 1) = n + 1 + i by omega]
          exact ⟨e1, by rw [List.getElem?_cons_succ]; exact e2⟩
      · rw [freePart_cons, if_neg hnot, h4]

theorem restore_spec (fixedn : List ℕ) : ∀ (full : List (Option α)) (n : ℕ) (theta : List α),
    (theta.length < (freePart fixedn n full).length → restore fixedn n full theta = .error .indexError) ∧
    ((freePart fixedn n full).length = theta.length → ∃ r, restore fixedn n full theta = .ok r ∧
      r.length = full.length ∧ (∀ i, n + i ∈ fixedn → r[i]? = full[i]?) ∧
      freePart fixedn n r = theta.map some) := by
  intro full
  induction full with
  | nil =>
    intro n theta
    refine ⟨fun h => by simp [freePart] at h, fun h => ⟨[], rfl, rfl, fun _ _ => rfl, ?_⟩⟩
    have : theta = [] := List.eq_nil_of_length_eq_zero (by rw [← h]; rfl)
    subst this; rfl
  | cons a as ih =>
    intro n theta
    by_cases hn : n ∈ fixedn
    · obtain ⟨h1, h2⟩ := ih (n + 1) theta
      rw [freePart_cons, if_pos hn]
      constructor
      · intro h
        simp only [restore, if_pos hn, h1 h]
      · intro h
        obtain ⟨r, e1, e2, e3, e4⟩ := h2 h
        refine ⟨a :: r, by simp only [restore, if_pos hn, e1], by simp [e2], ?_, ?_⟩
        · intro i hi
          cases i with
          | zero => rfl
          | succ i =>
            rw [List.getElem?_cons_succ, List.getElem?_cons_succ]
            exact e3 i (by rw [show n + 1 + i = n + (i + 1) by omega]; exact hi)
        · rw [freePart_cons, if_pos hn, e4]
    · rw [freePart_cons, if_neg hn]
      cases theta with
      | nil =>
        constructor
        · intro _
          simp only [restore, if_neg hn]
        · intro h; simp at h
      | cons t ts =>
        obtain ⟨h1, h2⟩ := ih (n + 1) ts
        constructor
        · intro h
          simp only [restore, if_neg hn, h1 (by simpa using h)]
        · intro h
          obtain ⟨r, e1, e2, e3, e4⟩ := h2 (by simpa using h)
          refine ⟨some t :: r, by simp only [restore, if_neg hn, e1], by simp [e2], ?_, ?_⟩
          · intro i hi
            cases i with
            | zero => exact absurd hi hn
            | succ i =>
              rw [List.getElem?_cons_succ, List.getElem?_cons_succ]
              exact e3 i (by rw [show n + 1 + i = n + (i + 1) by omega]; exact hi)
          · rw [freePart_cons, if_neg hn, e4]; rfl

/-- **C247.** The parameters of a fit: those with a keyword are fixed at the given value, the others
start, in order, from their starting values.  The function given to the optimiser, applied to a vector
with one entry per free parameter, is the fit function of the parameter vector with the fixed values in
their places and the entries of the vector in the other places, in order; with fewer entries it is an
`IndexError`.  Fixing everything is a `ValueError`. -/
theorem C247_reduced {β : Type} (fitfun : List (Option α) → Except PyErr β) (shapes : List String)
    (args : List α) (kw kw' : Kwds α) (hkw : convertShapes 0 shapes kw = .ok kw') :
    ∃ fixedn : List ℕ, (∀ i < args.length, i ∈ fixedn ↔ (kw'.lookup (keyOf args.length i)).isSome) ∧
      ((∀ i < args.length, i ∈ fixedn) → args ≠ [] → reduceFunc fitfun shapes args kw = .error .valueError) ∧
      ((∃ i < args.length, i ∉ fixedn) → ∃ g, reduceFunc fitfun shapes args kw =
          .ok (freePart fixedn 0 args, g) ∧
        (∀ theta : List α, theta.length < (freePart fixedn 0 args).length →
          fixedn ≠ [] → g theta = .error .indexError) ∧
        ∀ theta : List α, theta.length = (freePart fixedn 0 args).length →
          ∃ r, g theta = fitfun r ∧ r.length = args.length ∧ freePart fixedn 0 r = theta.map some ∧
            ∀ i ∈ fixedn, r[i]? = some ((kw'.lookup (keyOf args.length i)).getD none)) := by
  obtain ⟨h1, h2, h3, h4⟩ := unpackLoop_spec args.length kw' args 0
  have hu : unpackArgs shapes args kw = .ok (unpackLoop args.length kw' 0 args) := by
    unfold unpackArgs; rw [hkw]
  cases hun : unpackLoop args.length kw' 0 args with
  | mk x0 rest =>
    obtain ⟨full, fixedn⟩ := rest
    rw [hun] at h1 h2 h3 h4 hu
    simp only [Nat.zero_add] at h1 h2 h3 h4
    have hmem : ∀ i < args.length, i ∈ fixedn ↔ (kw'.lookup (keyOf args.length i)).isSome := by
      intro i hi
      exact (h3 i args[i] (List.getElem?_eq_getElem hi)).1
    have hlenfix : fixedn.length ≤ args.length ∧ ((∀ i < args.length, i ∈ fixedn) →
        fixedn.length = args.length) ∧ ((∃ i < args.length, i ∉ fixedn) → fixedn.length < args.length) := by
      have hnd : fixedn.Nodup := by
        have : ∀ (as : List α) (n : ℕ), (unpackLoop args.length kw' n as).2.2.Pairwise (· < ·) := by
          intro as
          induction as with
          | nil => intro n; simp [unpackLoop]
          | cons a as ih =>
            intro n
            cases hk : kw'.lookup (keyOf args.length n) with
            | some v =>
              simp only [unpackLoop, hk]
              refine List.pairwise_cons.2 ⟨fun k hk' => ?_, ih (n + 1)⟩
              have := ((unpackLoop_spec args.length kw' as (n + 1)).2.1 k hk').1
              omega
            | none => simp only [unpackLoop, hk]; exact ih (n + 1)
        have h := this args 0
        rw [hun] at h
        exact h.imp fun h => h.ne
      have hsub : fixedn ⊆ List.range args.length := fun k hk => List.mem_range.2 (h2 k hk).2
      have hsp := List.subperm_of_subset hnd hsub
      have hle := hsp.length_le
      rw [List.length_range] at hle
      refine ⟨hle, fun hall => ?_, fun ⟨i, hi, hni⟩ => ?_⟩
      · have := (List.subperm_of_subset List.nodup_range
          (fun k hk => hall k (List.mem_range.1 hk)) : (List.range args.length).Subperm fixedn).length_le
        rw [List.length_range] at this
        omega
      · refine lt_of_le_of_ne hle fun heq => hni ?_
        have hp := hsp.perm_of_length_le (by rw [List.length_range, heq])
        exact hp.mem_iff.2 (List.mem_range.2 hi)
    have hfreelen : ∀ {β γ : Type} (l1 : List β) (l2 : List γ) (n : ℕ), l1.length = l2.length →
        (freePart fixedn n l1).length = (freePart fixedn n l2).length := by
      intro β γ l1
      induction l1 with
      | nil =>
        intro l2 n h
        have : l2 = [] := List.eq_nil_of_length_eq_zero (by rw [← h]; rfl)
        subst this; rfl
      | cons a l1 ih =>
        intro l2 n h
        cases l2 with
        | nil => simp at h
        | cons b l2 =>
          rw [freePart_cons, freePart_cons]
          have := ih l2 (n + 1) (by simpa using h)
          split_ifs <;> simp [this]
    refine ⟨fixedn, hmem, ?_, ?_⟩
    · intro hall hne
      have hl := hlenfix.2.1 hall
      have hpos : 0 < args.length := List.length_pos_iff.2 hne
      unfold reduceFunc
      rw [hu]
      simp only
      rw [if_neg (by omega), if_pos (by omega)]
    · rintro hex
      have hl := hlenfix.2.2 hex
      unfold reduceFunc
      rw [hu]
      simp only
      by_cases h0 : fixedn.length = 0
      · rw [if_pos h0]
        have hnil : fixedn = [] := List.eq_nil_of_length_eq_zero h0
        subst hnil
        have hall : ∀ {γ : Type} (n : ℕ) (l : List γ), freePart [] n l = l := by
          intro γ n l
          induction l generalizing n with
          | nil => rfl
          | cons a l ih => rw [freePart_cons, if_neg (by simp), ih]
        refine ⟨_, by rw [h4], fun _ _ h => absurd rfl h, fun theta ht => ?_⟩
        rw [hall] at ht
        exact ⟨theta.map some, rfl, by simp [ht], hall _ _, fun i hi => by simp at hi⟩
      · rw [if_neg h0, if_neg (by omega)]
        refine ⟨_, by rw [h4], fun theta ht _ => ?_, fun theta ht => ?_⟩
        · have := (restore_spec fixedn full 0 theta).1 (by rw [hfreelen full args 0 h1]; exact ht)
          simp only [this]
        · obtain ⟨r, e1, e2, e3, e4⟩ := (restore_spec fixedn full 0 theta).2
            (by rw [hfreelen full args 0 h1, ht])
          refine ⟨r, by simp only [e1], by rw [e2, h1], e4, fun i hi => ?_⟩
          have hil := (h2 i hi).2
          obtain ⟨a1, a2⟩ := h3 i args[i] (List.getElem?_eq_getElem hil)
          rw [e3 i (by simpa using hi), a2]
          obtain ⟨v, hv⟩ := Option.isSome_iff_exists.1 (a1.1 hi)
          rw [hv]; rfl

/-- **C247.** The optimiser starts at the fit function of the given starting values. -/
theorem C247_start (full : List (Option α)) (fixedn : List ℕ) (x0 : List α)
    (h : freePart fixedn 0 full = x0.map some) : restore fixedn 0 full x0 = .ok full := by
  have key : ∀ (full : List (Option α)) (n : ℕ) (x0 : List α), freePart fixedn n full = x0.map some →
      restore fixedn n full x0 = .ok full := by
    intro full
    induction full with
    | nil => intro n x0 _; rfl
    | cons a as ih =>
      intro n x0 h
      rw [freePart_cons] at h
      by_cases hn : n ∈ fixedn
      · rw [if_pos hn] at h
        simp only [restore, if_pos hn, ih (n + 1) x0 h]
      · rw [if_neg hn] at h
        cases x0 with
        | nil => simp at h
        | cons t ts =>
          simp only [List.map_cons, List.cons.injEq] at h
          simp only [restore, if_neg hn, ih (n + 1) ts h.2, h.1]
  exact key full 0 x0 h

/-- `None` does not mean "not fixed" for location and scale: `floc=None` fixes the location at `None`,
while `f0=None` leaves the shape free. -/
theorem C247_none_refuted (c l s : α) :
    unpackArgs ["c"] [c, l, s] [(.num 0, none)] = .ok ([c, l, s], [some c, some l, some s], []) ∧
    unpackArgs ["c"] [c, l, s] [(.loc, none)] = .ok ([c, s], [some c, none, some s], [1]) := by
  constructor <;> rfl

example (c l s v : α) : unpackArgs ["c"] [c, l, s] [(.fix "c", some v)] =
    .ok ([l, s], [some v, some l, some s], [0]) := by rfl

/-! ### C250: confidence intervals by profiles -/

/-- The profiler of `/repo/src/wafo/stats/estimation.py` L1406-1407: it first sets its indexes. -/
def profilerOf {β γ : Type} (parFix : Option (List (Option α))) (numPar : ℕ) (i : ℤ)
    (rest : β → Except PyErr γ) (q : β) : Except PyErr γ :=
  match setIndexes parFix numPar (some i) with
  | .error e => .error e
  | .ok _ => rest q

/-- **C250** (partial). One row per parameter, in order; a row is the bounds of its own profile, or `nan`
if that profile fails.  Missing: that the default index suits the distribution
(`C250_default_refuted`). -/
theorem C250_rows_partial {β γ : Type} (profile : β → Except PyErr γ) (params : List β) :
    (ciProfile profile params).length = params.length ∧
    ∀ (i : ℕ) (p : β), params[i]? = some p →
      (∀ b, profile p = .ok b → (ciProfile profile params)[i]? = some (some b)) ∧
      (∀ e, profile p = .error e → (ciProfile profile params)[i]? = some none) := by
  refine ⟨by simp [ciProfile], fun i p hp => ⟨fun b hb => ?_, fun e he => ?_⟩⟩
  · simp [ciProfile, List.getElem?_map, hp, hb, Except.toOption]
  · simp [ciProfile, List.getElem?_map, hp, he, Except.toOption]

/-- With the default index 2, a distribution with location and scale only, or a three-parameter
distribution with fixed scale, gives nothing but `nan`. -/
theorem C250_default_refuted {β γ : Type} (rest : β → Except PyErr γ) (params : List β) (v : α) :
    (ciProfile (profilerOf (none : Option (List (Option α))) 2 2 rest) params) = params.map (fun _ => none) ∧
    (ciProfile (profilerOf (some [none, none, some v]) 3 2 rest) params) = params.map (fun _ => none) := by
  have h1 : setIndexes (none : Option (List (Option α))) 2 (some 2) = .error .indexError :=
    (C239_indexes_partial none 2 2).2 (by rintro ⟨j, hj, hf⟩; simp only [Free] at hf; omega)
  have h2 : setIndexes (some [none, none, some v]) 3 (some 2) = .error .indexError :=
    (C239_indexes_partial _ 3 2).2 (by
      rintro ⟨j, hj, hf⟩
      have : j = 2 := by omega
      subst this
      simp [Free] at hf)
  constructor
  · simp [ciProfile, profilerOf, h1, Except.toOption]
  · simp [ciProfile, profilerOf, h2, Except.toOption]

example : ciProfile (fun q : ℕ => if q = 2 then .error .valueError else .ok (q + 10)) [1, 2, 3] =
    [some 11, none, some 13] := by rfl

end fixed

/-! ### C248: Moran's statistic -/

theorem diffs_spec (l : List ℝ) (hne : l ≠ []) : (diffs l).length + 1 = l.length ∧
    (diffs l).sum = l.getLast hne - l.head hne ∧
    (l.Pairwise (· ≤ ·) → ∀ d ∈ diffs l, 0 ≤ d) := by
  induction l with
  | nil => exact absurd rfl hne
  | cons a l ih =>
    cases l with
    | nil => simp [diffs]
    | cons b l =>
      obtain ⟨h1, h2, h3⟩ := ih (by simp)
      refine ⟨by simp [diffs] at h1 ⊢; exact h1, ?_, ?_⟩
      · rw [diffs, List.sum_cons, h2]
        simp
      · intro hp d hd
        rw [diffs] at hd
        rcases List.mem_cons.1 hd with rfl | hd
        · exact sub_nonneg.2 ((List.pairwise_cons.1 hp).1 b (by simp))
        · exact h3 (List.pairwise_cons.1 hp).2 d hd

theorem resolveTies_noties (pdf : ℝ → ℝ) (scale : ℝ) (x : List ℝ) (terms : List (Option ℝ))
    (hx : x.Pairwise (· < ·)) : resolveTies pdf scale x terms = terms := by
  unfold resolveTies
  apply List.ext_getElem?
  intro k
  rw [List.getElem?_mapIdx]
  cases ht : terms[k]? with
  | none => rfl
  | some t =>
    simp only [Option.map_some]
    congr 1
    cases k with
    | zero => rfl
    | succ i =>
      simp only
      cases ha : x[i]? with
      | none => rfl
      | some a =>
        cases hb : x[i + 1]? with
        | none => rfl
        | some b =>
          obtain ⟨hi, rfl⟩ := List.getElem?_eq_some_iff.1 ha
          obtain ⟨hi', rfl⟩ := List.getElem?_eq_some_iff.1 hb
          have := List.pairwise_iff_getElem.1 hx i (i + 1) hi hi' (by omega)
          simp only
          rw [if_neg (by linarith)]

theorem sum_log_le (ds : List ℝ) (ε a : ℝ) (hε : 0 < ε) (ha : 0 < a) (hd : ∀ d ∈ ds, 0 ≤ d) :
    (ds.map fun d => Real.log (d + ε)).sum ≤
      (ds.sum + ds.length * ε) / a - ds.length + ds.length * Real.log a := by
  induction ds with
  | nil => simp
  | cons d ds ih =>
    have h1 := ih fun x hx => hd x (List.mem_cons_of_mem _ hx)
    have h2 : Real.log (d + ε) ≤ (d + ε) / a - 1 + Real.log a := by
      have hpos : 0 < d + ε := by have := hd d (by simp); linarith
      have := Real.log_le_sub_one_of_pos (div_pos hpos ha)
      rw [Real.log_div hpos.ne' ha.ne'] at this
      linarith
    simp only [List.map_cons, List.sum_cons, List.length_cons]
    push_cast
    have e : (d + ds.sum + ((ds.length : ℝ) + 1) * ε) / a = (d + ε) / a + (ds.sum + ds.length * ε) / a := by
      rw [← add_div]; congr 1; ring
    rw [e]
    linarith

theorem nlogps_eq (cdf sf pdf : ℝ → ℝ) (supp : ℝ → Bool) (xmin pen scale : ℝ) (x : List ℝ)
    (hε : 0 < xmin) (hx : x.Pairwise (· < ·)) (hmono : Monotone cdf) (h0 : ∀ a, 0 ≤ cdf a)
    (h1 : ∀ a, cdf a ≤ 1) :
    ∃ ds : List ℝ, ds.length = (x.filter supp).length + 1 ∧ ds.sum = 1 ∧ (∀ d ∈ ds, 0 ≤ d) ∧
      ds = diffs (0 :: ((x.filter supp).map cdf ++ [1])) ∧
      nlogps cdf sf pdf supp xmin pen scale x =
        -(ds.map fun d => Real.log (d + xmin)).sum + pen * ((x.length - (x.filter supp).length : ℕ) : ℝ) := by
  have hg : (x.filter supp).Pairwise (· < ·) := hx.filter _
  set g := x.filter supp with hgdef
  obtain ⟨d1, d2, d3⟩ := diffs_spec (0 :: (g.map cdf ++ [1])) (by simp)
  have hpw : (0 :: (g.map cdf ++ [1])).Pairwise (· ≤ ·) := by
    refine List.pairwise_cons.2 ⟨?_, List.pairwise_append.2 ⟨?_, by simp, ?_⟩⟩
    · intro b hb
      rcases List.mem_append.1 hb with hb | hb
      · obtain ⟨a, -, rfl⟩ := List.mem_map.1 hb; exact h0 a
      · simp at hb; rw [hb]; norm_num
    · rw [List.pairwise_map]
      exact hg.imp fun h => hmono h.le
    · intro b hb c hc
      obtain ⟨a, -, rfl⟩ := List.mem_map.1 hb
      simp at hc; rw [hc]; exact h1 a
  set ds := diffs (0 :: (g.map cdf ++ [1])) with hds
  have hterms : logDprb cdf sf pdf xmin scale true g = ds.map fun d => some (Real.log (d + xmin)) := by
    unfold logDprb
    dsimp only
    rw [if_pos rfl, resolveTies_noties _ _ _ _ hg]
    apply List.map_congr_left
    intro d hd
    unfold logF
    rw [if_pos (by have := d3 hpw d hd; linarith)]
  refine ⟨ds, by simpa using d1, by rw [d2]; simp, d3 hpw, rfl, ?_⟩
  unfold nlogps
  dsimp only
  rw [← hgdef, hterms]
  have hnone : ((ds.map fun d => some (Real.log (d + xmin))).filter Option.isNone) = [] := by
    rw [List.filter_eq_nil_iff]
    intro o ho
    obtain ⟨d, -, rfl⟩ := List.mem_map.1 ho
    simp
  have hfm : (ds.map fun d => some (Real.log (d + xmin))).filterMap id = ds.map fun d => Real.log (d + xmin) := by
    rw [List.filterMap_map]
    simp
  rw [hnone, hfm, List.length_nil, Nat.add_zero]
  split_ifs with hb
  · rfl
  · have : x.length - g.length = 0 := by omega
    rw [this]; simp

/-- **C248** (partial). For sorted data without ties, Moran's statistic is at least
`m log (m / (1 + m ε))` with `m` one more than the number of observations in the support, plus the penalty
for each observation outside.  Missing: tied data (`C248_ties_refuted`). -/
theorem C248_bound_partial (cdf sf pdf : ℝ → ℝ) (supp : ℝ → Bool) (xmin pen scale : ℝ) (x : List ℝ)
    (hε : 0 < xmin) (hx : x.Pairwise (· < ·)) (hmono : Monotone cdf) (h0 : ∀ a, 0 ≤ cdf a)
    (h1 : ∀ a, cdf a ≤ 1) (m : ℝ) (hm : m = ((x.filter supp).length : ℝ) + 1) :
    m * Real.log (m / (1 + m * xmin)) + pen * ((x.length - (x.filter supp).length : ℕ) : ℝ) ≤
      nlogps cdf sf pdf supp xmin pen scale x := by
  obtain ⟨ds, e1, e2, e3, -, e5⟩ := nlogps_eq cdf sf pdf supp xmin pen scale x hε hx hmono h0 h1
  have hm0 : 0 < m := by rw [hm]; positivity
  have hmε : 0 < 1 + m * xmin := by positivity
  have hlen : (ds.length : ℝ) = m := by rw [e1, hm]; push_cast; ring
  have := sum_log_le ds xmin ((1 + m * xmin) / m) hε (by positivity) e3
  rw [e2, hlen] at this
  have e : (1 + m * xmin) / ((1 + m * xmin) / m) = m := by field_simp
  rw [e, sub_self, zero_add, Real.log_div hmε.ne' hm0.ne'] at this
  rw [e5, Real.log_div hm0.ne' hmε.ne']
  linarith

example : (3 : ℝ) * Real.log (3 / (1 + 3 * (1/100))) ≤
    nlogps (fun a => max 0 (min a 1)) (fun a => 1 - max 0 (min a 1)) (fun _ => 1) (fun _ => true) (1/100) 7 1
      [1/4, 2/3] := by
  have := C248_bound_partial (fun a => max 0 (min a 1)) (fun a => 1 - max 0 (min a 1)) (fun _ => 1)
    (fun _ => true) (1/100) 7 1 [1/4, 2/3] (by norm_num) (by norm_num)
    (fun a b h => max_le_max le_rfl (min_le_min h le_rfl)) (fun a => le_max_left _ _)
    (fun a => max_le (by norm_num) (min_le_right _ _)) 3 (by norm_num)
  simpa using this

/-- **C248.** The bound is attained by equal spacings. -/
theorem C248_attained (cdf sf pdf : ℝ → ℝ) (xmin pen scale : ℝ) (x : List ℝ)
    (hε : 0 < xmin) (hx : x.Pairwise (· < ·)) (hmono : Monotone cdf) (h0 : ∀ a, 0 ≤ cdf a)
    (h1 : ∀ a, cdf a ≤ 1) (heq : ∀ d ∈ diffs (0 :: (x.map cdf ++ [1])), d = 1 / ((x.length : ℝ) + 1)) :
    nlogps cdf sf pdf (fun _ => true) xmin pen scale x =
      ((x.length : ℝ) + 1) * Real.log (((x.length : ℝ) + 1) / (1 + ((x.length : ℝ) + 1) * xmin)) := by
  obtain ⟨ds, e1, e2, e3, e4, e5⟩ :=
    nlogps_eq cdf sf pdf (fun _ => true) xmin pen scale x hε hx hmono h0 h1
  have hf : x.filter (fun _ => true) = x := by simp
  rw [hf] at e1 e4 e5
  have hc : ds.map (fun d => Real.log (d + xmin)) =
      List.replicate ds.length (Real.log (1 / ((x.length : ℝ) + 1) + xmin)) := by
    rw [List.eq_replicate_iff]
    refine ⟨by simp, fun b hb => ?_⟩
    obtain ⟨d, hd, rfl⟩ := List.mem_map.1 hb
    rw [heq d (by rw [← e4]; exact hd)]
  rw [e5, hc, List.sum_replicate, e1, Nat.sub_self]
  have hm0 : (0 : ℝ) < (x.length : ℝ) + 1 := by positivity
  have e : 1 / ((x.length : ℝ) + 1) + xmin = (((x.length : ℝ) + 1) / (1 + ((x.length : ℝ) + 1) * xmin))⁻¹ := by
    field_simp
  rw [e, Real.log_inv, nsmul_eq_mul]
  push_cast
  ring

/-- **C248.** Computing the spacings from the lower or the upper tail gives the same. -/
theorem C248_tails (cdf sf pdf : ℝ → ℝ) (xmin scale : ℝ) (x : List ℝ) (h : ∀ a, sf a = 1 - cdf a) :
    logDprb cdf sf pdf xmin scale true x = logDprb cdf sf pdf xmin scale false x := by
  unfold logDprb
  dsimp only
  rw [if_pos rfl, if_neg (by simp)]
  congr 2
  have key : ∀ l : List ℝ, diffs l = (diffs (l.map fun a => 1 - a)).map (-·) := by
    intro l
    induction l with
    | nil => rfl
    | cons a l ih =>
      cases l with
      | nil => rfl
      | cons b l =>
        rw [diffs, ih]
        simp only [List.map_cons, diffs]
        congr 1
        ring
  rw [key]
  congr 2
  simp only [List.map_cons, List.map_append, List.map_map, List.map_nil, sub_zero, sub_self]
  congr 2
  apply List.map_congr_left
  intro a _
  simp [h a]

/-- With tied data the statistic can be below the bound, and it depends on the unit of measurement: two
equal observations of a uniform variable measured in a small unit. -/
theorem C248_ties_refuted : ∃ (xmin scale : ℝ), 0 < xmin ∧ 0 < scale ∧
    nlogps (fun a => max 0 (min a 1)) (fun a => 1 - max 0 (min a 1)) (fun _ => 1) (fun _ => true) xmin 0 scale
      [1/2, 1/2] < 0 ∧ 0 < (3 : ℝ) * Real.log (3 / (1 + 3 * xmin)) := by
  refine ⟨1/3, Real.exp (-100), by norm_num, Real.exp_pos _, ?_, ?_⟩
  · have hterms : logDprb (fun a => max 0 (min a 1)) (fun a => 1 - max 0 (min a 1)) (fun _ => 1) (1/3)
        (Real.exp (-100)) true [1/2, 1/2] =
        [some (Real.log (5/6)), some 100, some (Real.log (5/6))] := by
      have e1 : max (0 : ℝ) (min (1/2) 1) = 1/2 := by norm_num
      unfold logDprb
      simp only [if_true, List.map_cons, List.map_nil, List.cons_append, List.nil_append, diffs, e1]
      have e2 : (1/2 : ℝ) - 0 + 1/3 = 5/6 := by norm_num
      have e3 : (1 : ℝ) - 1/2 + 1/3 = 5/6 := by norm_num
      have e4 : logF (5/6) = some (Real.log (5/6)) := by unfold logF; rw [if_pos (by norm_num)]
      have e5 : logF 1 = some 0 := by unfold logF; rw [if_pos (by norm_num), Real.log_one]
      have e6 : logF (Real.exp (-100)) = some (-100) := by
        unfold logF; rw [if_pos (Real.exp_pos _), Real.log_exp]
      rw [e2, e3, e4]
      simp [resolveTies, List.mapIdx_cons, e5, e6]
    unfold nlogps
    have hf : ([1/2, 1/2] : List ℝ).filter (fun _ => true) = [1/2, 1/2] := by simp
    simp only [hf, hterms]
    have hl : -1 < Real.log (5/6) := by
      rw [Real.lt_log_iff_exp_lt (by norm_num), Real.exp_neg]
      have := Real.exp_one_gt_d9
      rw [inv_lt_comm₀ (Real.exp_pos _) (by norm_num)]
      norm_num at this ⊢
      linarith
    simp
    linarith
  · have : (0 : ℝ) < Real.log (3 / (1 + 3 * (1/3))) := Real.log_pos (by norm_num)
    linarith

/-! ### C249: invariance -/

/-- **C249.** Shifting data and location together does not change the statistic; without ties in the data,
neither does changing the unit of measurement. A scale that is not positive, or invalid shapes, give `inf`. -/
theorem C249_invariance (ok : Bool) (cdf sf pdf : ℝ → ℝ) (supp : ℝ → Bool) (xmin pen loc scale : ℝ) (x : List ℝ) :
    (∀ s, penalizedNlogps ok cdf sf pdf supp xmin pen (loc + s) scale (x.map (· + s)) =
      penalizedNlogps ok cdf sf pdf supp xmin pen loc scale x) ∧
    (x.Pairwise (· < ·) → ∀ k, 0 < k → penalizedNlogps ok cdf sf pdf supp xmin pen (k * loc) (k * scale) (x.map (k * ·)) =
      penalizedNlogps ok cdf sf pdf supp xmin pen loc scale x) ∧
    (penalizedNlogps ok cdf sf pdf supp xmin pen loc scale x = none ↔ ok = false ∨ scale ≤ 0) := by
  refine ⟨fun s => ?_, fun hx k hk => ?_, ?_⟩
  · unfold penalizedNlogps
    have : (x.map (· + s)).map (fun a => (a - (loc + s)) / scale) = x.map fun a => (a - loc) / scale := by
      rw [List.map_map]
      apply List.map_congr_left
      intro a _
      simp
    rw [this]
  · unfold penalizedNlogps
    by_cases hc : ok = false ∨ scale ≤ 0
    · rw [if_pos hc, if_pos]
      rcases hc with h | h
      · exact Or.inl h
      · exact Or.inr (mul_nonpos_of_nonneg_of_nonpos hk.le h)
    · push Not at hc
      have hs := hc.2
      rw [if_neg (c := ok = false ∨ k * scale ≤ 0) (by push Not; exact ⟨hc.1, by positivity⟩),
        if_neg (c := ok = false ∨ scale ≤ 0) (by push Not; exact hc)]
      have e : (x.map (k * ·)).map (fun a => (a - k * loc) / (k * scale)) = x.map fun a => (a - loc) / scale := by
        rw [List.map_map]
        apply List.map_congr_left
        intro a _
        simp only [Function.comp_apply]
        field_simp
      rw [e]
      congr 1
      have hp : ((x.map fun a => (a - loc) / scale).filter supp).Pairwise (· < ·) := by
        apply List.Pairwise.filter
        rw [List.pairwise_map]
        exact hx.imp fun h => by rw [div_lt_div_iff_of_pos_right hs]; linarith
      unfold nlogps logDprb
      simp only [if_true, resolveTies_noties _ _ _ _ hp]
  · unfold penalizedNlogps
    split_ifs with h <;> simp [h]

end Wafo.Est

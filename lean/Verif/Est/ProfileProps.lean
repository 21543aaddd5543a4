import Verif.Est.ProfileModel
import Verif.Cross.Props
import Verif.Discretize.Lemmas
import Mathlib.Tactic.FieldSimp
import Mathlib.Data.Finset.Card
import Mathlib.Data.Finset.Dedup
import Mathlib.Data.Fintype.Basic

/-!
# Profiles: indexes, search, evaluation, bounds (properties C239-C243)
-/

set_option linter.unusedSectionVars false

namespace Wafo.Est

open Wafo.Cross Wafo.Discretize

/-! ### C239: indexes -/

section indexes
variable {α : Type}

theorem mem_flatnonzero (l : List Bool) (i : ℕ) : i ∈ flatnonzero l ↔ l[i]? = some true := by
  unfold flatnonzero
  rw [List.mem_filter, List.mem_range]
  constructor
  · rintro ⟨_, h⟩
    simpa using h
  · intro h
    exact ⟨(List.getElem?_eq_some_iff.1 h).1, by simpa using h⟩

theorem flatnonzero_sorted (l : List Bool) : (flatnonzero l).Pairwise (· < ·) :=
  List.pairwise_lt_range.filter _

/-- Specification: parameter `j` is free (to be estimated): no parameters are fixed, or its entry is
`nan`. -/
def Free (parFix : Option (List (Option α))) (numPar : ℕ) (j : ℕ) : Prop :=
  match parFix with
  | none => j < numPar
  | some l => l[j]? = some none

theorem mem_notfixed (parFix : Option (List (Option α))) (numPar : ℕ) (j : ℕ) :
    j ∈ flatnonzero (notFixedMask parFix numPar) ↔ Free parFix numPar j := by
  rw [mem_flatnonzero]
  cases parFix with
  | none =>
    simp only [notFixedMask, Free, List.getElem?_replicate]
    split_ifs with h <;> simp [h]
  | some l =>
    simp only [notFixedMask, Free, List.getElem?_map]
    cases h : l[j]? with
    | none => simp
    | some o => cases o <;> simp

/-- **C239** (partial). A profile is set up exactly for a free parameter; it keeps that parameter
fixed and lets all other free parameters vary, and no others.  Missing: the default index, which is
not the documented one (`C239_default_refuted`). -/
theorem C239_indexes_partial (parFix : Option (List (Option α))) (numPar : ℕ) (i : ℤ) :
    ((∃ j : ℕ, i = j ∧ Free parFix numPar j) →
      ∃ nf fr, setIndexes parFix numPar (some i) = .ok (i, nf, fr) ∧
        (∀ j, j ∈ nf ↔ Free parFix numPar j) ∧
        (∀ j : ℕ, j ∈ fr ↔ Free parFix numPar j ∧ (j : ℤ) ≠ i) ∧
        nf.Pairwise (· < ·) ∧ fr.Pairwise (· < ·)) ∧
    ((¬ ∃ j : ℕ, i = j ∧ Free parFix numPar j) →
      setIndexes parFix numPar (some i) = .error .indexError) := by
  have hmem : i ∈ (flatnonzero (notFixedMask parFix numPar)).map (fun j : ℕ => (j : ℤ)) ↔
      ∃ j : ℕ, i = j ∧ Free parFix numPar j := by
    rw [List.mem_map]
    constructor
    · rintro ⟨j, hj, rfl⟩
      exact ⟨j, rfl, (mem_notfixed _ _ _).1 hj⟩
    · rintro ⟨j, rfl, hj⟩
      exact ⟨j, (mem_notfixed _ _ _).2 hj, rfl⟩
  constructor
  · intro h
    refine ⟨_, flatnonzero ((notFixedMask parFix numPar).set i.toNat false), ?_,
      mem_notfixed parFix numPar, ?_, flatnonzero_sorted _, flatnonzero_sorted _⟩
    · simp only [setIndexes, bind, Except.bind]
      rw [if_pos (hmem.2 h)]
    · intro j
      obtain ⟨k, rfl, hk⟩ := h
      rw [mem_flatnonzero, List.getElem?_set, ← mem_notfixed, mem_flatnonzero]
      simp only [Int.toNat_natCast]
      by_cases hkj : k = j
      · subst hkj
        simp only [if_true, ne_eq, not_true_eq_false, and_false, iff_false]
        split_ifs <;> simp
      · rw [if_neg hkj]
        constructor
        · intro h
          exact ⟨h, fun h' => hkj (by exact_mod_cast h'.symm)⟩
        · exact fun h => h.1
  · intro h
    simp only [setIndexes, bind, Except.bind]
    rw [if_neg (fun h' => h (hmem.1 h'))]

/-- With fixed parameters the default is the *last* free parameter; the documentation says the first
(`/repo/src/wafo/stats/estimation.py` L611-613).  Here the middle one of three is fixed. -/
theorem C239_default_refuted (v : α) :
    defaultIFixed (some [none, some v, none]) = .ok 2 ∧ Free (some [none, some v, none]) 3 0 := by
  constructor <;> rfl

/-- The default with and without fixed parameters. -/
theorem C239_default (parFix : Option (List (Option α))) (numPar : ℕ) (i : ℕ)
    (h : defaultIFixed parFix = .ok i) :
    (parFix = none → i = 0) ∧
      (∀ l, parFix = some l → Free parFix numPar i ∧ ∀ j, Free parFix numPar j → j ≤ i) := by
  constructor
  · rintro rfl
    simpa [defaultIFixed, eq_comm] using h
  · rintro l rfl
    have hmask : l.map Option.isNone = notFixedMask (some l) numPar := rfl
    simp only [defaultIFixed, hmask] at h
    cases hl : (flatnonzero (notFixedMask (some l) numPar)).getLast? with
    | none => rw [hl] at h; simp at h
    | some k =>
      rw [hl] at h
      simp only [Except.ok.injEq] at h
      subst h
      obtain ⟨pre, hpre⟩ := List.getLast?_eq_some_iff.1 hl
      refine ⟨(mem_notfixed _ _ _).1 (by rw [hpre]; simp), fun j hj => ?_⟩
      have hs := flatnonzero_sorted (notFixedMask (some l) numPar)
      have hj' := (mem_notfixed (some l) numPar j).2 hj
      rw [hpre] at hs hj'
      rcases List.mem_append.1 hj' with h1 | h1
      · exact ((List.pairwise_append.1 hs).2.2 j h1 k (by simp)).le
      · simp at h1; exact h1.le

example : setIndexes (some [none, some (5 : ℚ), none]) 3 (some 0) = .ok (0, [0, 2], [2]) ∧
    setIndexes (some [none, some (5 : ℚ), none]) 3 (some 1) = .error .indexError := by
  decide +kernel

end indexes

variable {α : Type} [Field α] [LinearOrder α] [IsStrictOrderedRing α]

/-! ### C240: search for the limits -/

theorem searchLoop_spec (P : ℕ → α → Option α × α) (range pOpt sign : α) (hs : sign ≠ 0)
    (k : ℕ) : ∀ (j : ℕ) (popt delta : α), 0 < delta →
    ∀ r, searchLoop P range pOpt sign k j popt delta = r →
      (r.2.2 ≤ j + k) ∧ (r.2.1 = false → r.2.2 = j + k) ∧
      (r.2.1 = true → 0 < sign * (r.1 - pOpt) ∧ ∃ m, (P r.2.2 r.1).1 = some m ∧
        (P r.2.2 r.1).2 - range * 5 * ((r.2.2 : α) + 1) ≤ m ∧ m < (P r.2.2 r.1).2) ∧
      (r.1 = popt ∨ (0 < sign * (r.1 - pOpt) ∧ ∃ c ≤ r.2.2, ∃ m, (P c r.1).1 = some m ∧
        (m < (P c r.1).2 + range ∨ m < (P c r.1).2 - range * 5 * ((c : α) + 1) ∨ m < (P c r.1).2))) := by
  have hs2 : 0 < sign * sign := by
    rcases lt_or_gt_of_ne hs with h | h
    · exact mul_pos_of_neg_of_neg h h
    · exact mul_pos h h
  induction k with
  | zero =>
    intro j popt delta hd r hr
    subst hr
    simp [searchLoop]
  | succ k ih =>
    intro j popt delta hd r hr
    have hside : 0 < sign * (pOpt + sign * delta - pOpt) := by
      have : sign * (pOpt + sign * delta - pOpt) = sign * sign * delta := by ring
      rw [this]; exact mul_pos hs2 hd
    rw [searchLoop] at hr
    set p := pOpt + sign * delta with hp
    -- the update
    cases hm : (P (j + 1) p).1 with
    | none =>
      simp only [hm, updateP, Bool.false_eq_true, if_false] at hr
      obtain ⟨h1, h2, h3, h4⟩ := ih (j + 1) popt (delta * (33 / 100)) (by positivity) r hr
      exact ⟨by omega, fun h => by rw [h2 h]; omega, h3, h4⟩
    | some m =>
      simp only [hm, updateP] at hr
      by_cases c1 : m < (P (j + 1) p).2 - range * 5 * (((j + 1 : ℕ) : α) + 1)
      · simp only [c1, if_true, Bool.false_eq_true, if_false] at hr
        obtain ⟨h1, h2, h3, h4⟩ := ih (j + 1) p (delta * (33 / 100)) (by positivity) r hr
        refine ⟨by omega, fun h => by rw [h2 h]; omega, h3, ?_⟩
        rcases h4 with h4 | h4
        · right
          have hj : j + 1 ≤ r.2.2 := by
            by_cases hb : r.2.1 = true
            · by_contra hlt
              push Not at hlt
              -- the loop never returns fewer iterations
              exact absurd hlt (not_lt.2 (searchLoop_count P range pOpt sign k (j + 1) p _ r hr))
            · have := h2 (by simpa using hb); omega
          rw [h4]
          exact ⟨hside, j + 1, hj, m, hm, Or.inr (Or.inl c1)⟩
        · exact Or.inr h4
      · by_cases c2 : m < (P (j + 1) p).2
        · simp only [c1, c2, if_true, if_false] at hr
          subst hr
          refine ⟨by simp, by simp, fun _ => ⟨hside, m, hm, not_lt.1 c1, c2⟩, ?_⟩
          exact Or.inr ⟨hside, j + 1, le_rfl, m, hm, Or.inr (Or.inr c2)⟩
        · simp only [c1, c2, if_false, Bool.false_eq_true] at hr
          obtain ⟨h1, h2, h3, h4⟩ := ih (j + 1) _ (delta * (167 / 100)) (by positivity) r hr
          refine ⟨by omega, fun h => by rw [h2 h]; omega, h3, ?_⟩
          rcases h4 with h4 | h4
          · by_cases c3 : m < (P (j + 1) p).2 + range
            · rw [if_pos c3] at h4
              right
              have hj := searchLoop_count P range pOpt sign k (j + 1) _ _ r hr
              rw [h4]
              exact ⟨hside, j + 1, hj, m, hm, Or.inl c3⟩
            · rw [if_neg c3] at h4
              exact Or.inl h4
          · exact Or.inr h4
where
  searchLoop_count (P : ℕ → α → Option α × α) (range pOpt sign : α) (k : ℕ) :
      ∀ (j : ℕ) (popt delta : α) r, searchLoop P range pOpt sign k j popt delta = r → j ≤ r.2.2 := by
    induction k with
    | zero => intro j popt delta r hr; subst hr; simp [searchLoop]
    | succ k ih =>
      intro j popt delta r hr
      rw [searchLoop] at hr
      split_ifs at hr with h
      · subst hr; simp
      · have := ih _ _ _ _ hr; omega

/-- **C240.** The search for a limit of the profile makes at most 51 steps.  If it converges, the limit
lies on the requested side of the optimum and the profile there is below the crossing level, by no more
than `5 * range * (steps + 1)`; otherwise all 51 steps were made.  In any case the limit is the starting
guess or a point on the requested side where the profile was evaluated, not `nan`, and below the
crossing level plus `range`. -/
theorem C240_search (P : ℕ → α → Option α × α) (range p0 pOpt sign : α) (hr : 0 ≤ range)
    (hs : sign = 1 ∨ sign = -1) (p : α) (conv : Bool) (steps : ℕ)
    (h : searchP P range p0 pOpt sign = (p, conv, steps)) :
    steps ≤ 51 ∧ (conv = false → steps = 51) ∧
    (conv = true → (sign = 1 → pOpt < p) ∧ (sign = -1 → p < pOpt) ∧
      ∃ m, (P steps p).1 = some m ∧ m < (P steps p).2 ∧
        (P steps p).2 - 5 * range * ((steps : α) + 1) ≤ m) ∧
    (p = p0 ∨ ((sign = 1 → pOpt < p) ∧ (sign = -1 → p < pOpt) ∧
      ∃ c ≤ steps, ∃ m, (P c p).1 = some m ∧ m < (P c p).2 + range)) := by
  have hs0 : sign ≠ 0 := by rcases hs with rfl | rfl <;> simp
  have hd : (0 : α) < max (sign * (p0 - pOpt) / 40) (1 / 100) * 10 := by
    have : (0 : α) < max (sign * (p0 - pOpt) / 40) (1 / 100) := lt_max_of_lt_right (by norm_num)
    positivity
  obtain ⟨h1, h2, h3, h4⟩ := searchLoop_spec P range pOpt sign hs0 51 0 p0 _ hd _ h
  have hside : 0 < sign * (p - pOpt) → (sign = 1 → pOpt < p) ∧ (sign = -1 → p < pOpt) := by
    intro hp
    constructor
    · rintro rfl; linarith
    · rintro rfl; linarith
  refine ⟨by simpa using h1, fun hc => by simpa using h2 hc, fun hc => ?_, ?_⟩
  · obtain ⟨ha, m, hm, hb, hc'⟩ := h3 hc
    exact ⟨(hside ha).1, (hside ha).2, m, hm, hc', by linarith [mul_comm range 5]⟩
  · rcases h4 with h4 | ⟨ha, c, hc, m, hm, hd'⟩
    · exact Or.inl h4
    · refine Or.inr ⟨(hside ha).1, (hside ha).2, c, hc, m, hm, ?_⟩
      have : 0 ≤ range * 5 * ((c : α) + 1) := by positivity
      simp only at hd'
      rcases hd' with h | h | h <;> linarith

example : (searchP (fun _ p => (some (-p ^ 2), (-2 : ℚ))) 2 1 0 1).2.1 = true := by decide +kernel

/-! ### C241: evaluation of the profile -/

theorem scanSide_spec (P : ℕ → α → Option α) (level : Option α) : ∀ (l : List α) (c : ℕ),
    ∃ post, l = (scanSide P level c l).map Prod.fst ++ post ∧
      (post = [] ∨ ∃ init p m, scanSide P level c l = init ++ [(p, m)] ∧ below m level = true) ∧
      (∀ init q, scanSide P level c l = init ++ [q] → ∀ x ∈ init, below x.2 level = false) ∧
      ∀ q ∈ scanSide P level c l, ∃ k, q.2 = P k q.1 := by
  intro l
  induction l with
  | nil => intro c; exact ⟨[], by simp [scanSide]⟩
  | cons p ps ih =>
    intro c
    rw [scanSide]
    cases hb : below (P c p) level with
    | true =>
      refine ⟨ps, by simp, Or.inr ⟨[], p, P c p, by simp, hb⟩, ?_, ?_⟩
      · intro init q h x hx
        simp only [if_true] at h
        have := congrArg List.length h
        simp only [List.length_cons, List.length_nil, List.length_append] at this
        have h0 : init = [] := List.eq_nil_of_length_eq_zero (by omega)
        simp [h0] at hx
      · intro q hq
        simp only [if_true, List.mem_singleton] at hq
        exact ⟨c, by rw [hq]⟩
    | false =>
      simp only [Bool.false_eq_true, if_false]
      obtain ⟨post, h1, h2, h3, h4⟩ := ih (c + 1)
      refine ⟨post, by simp [← h1], ?_, ?_, ?_⟩
      · rcases h2 with h2 | ⟨init, p', m, h5, h6⟩
        · exact Or.inl h2
        · exact Or.inr ⟨(p, P c p) :: init, p', m, by simp [h5], h6⟩
      · intro init q h x hx
        cases init with
        | nil => simp at hx
        | cons y init' =>
          simp only [List.cons_append, List.cons.injEq] at h
          rcases List.mem_cons.1 hx with rfl | hx
          · rw [← h.1]; exact hb
          · exact h3 init' q h.2 x hx
      · intro q hq
        rcases List.mem_cons.1 hq with rfl | hq
        · exact ⟨c, rfl⟩
        · exact h4 q hq

/-- The points a profile selects: those with a value. -/
theorem filterMap_sublist (l : List (α × Option α)) :
    ((l.filterMap fun q => q.2.map fun v => (q.1, v)).map Prod.fst).Sublist (l.map Prod.fst) := by
  induction l with
  | nil => simp
  | cons q l ih =>
    obtain ⟨p, m⟩ := q
    cases m with
    | none => simpa using ih.cons p
    | some v => simpa using ih.cons_cons p

theorem filterMap_all (l : List (α × Option α)) (h : ∀ q ∈ l, q.2.isSome) :
    ∃ l' : List (α × α), l = l'.map (fun q => (q.1, some q.2)) ∧
      (l.filterMap fun q => q.2.map fun v => (q.1, v)) = l' := by
  induction l with
  | nil => exact ⟨[], by simp⟩
  | cons q l ih =>
    obtain ⟨l', h1, h2⟩ := ih fun x hx => h x (List.mem_cons_of_mem _ hx)
    obtain ⟨p, m⟩ := q
    cases m with
    | none => exact absurd (h (p, none) (by simp)) (by simp)
    | some v => exact ⟨(p, v) :: l', by simp [← h1], by simp [h2]⟩

theorem startIndex_lt {pvec : List α} (h : pvec ≠ []) (pOpt : α) : startIndex pvec pOpt < pvec.length := by
  unfold startIndex
  split_ifs with h1
  · rw [List.any_eq_true] at h1
    exact List.findIdx_lt_length.2 h1
  · exact List.length_pos_iff.2 h

/-- **C241.** The profile is computed whenever there is a point at all.  Its arguments are points of
the grid in the order of the grid, and every value is one the optimiser returned for that very point. -/
theorem C241_sublist (P : ℕ → α → Option α) (range : α) (pvec : List α) (pOpt : α) :
    (pvec = [] → getProfile P range pvec pOpt = .error .valueError) ∧
    (pvec ≠ [] → ∃ out, getProfile P range pvec pOpt = .ok out ∧ (out.map Prod.fst).Sublist pvec ∧
      ∀ q ∈ out, ∃ c, P c q.1 = some q.2) := by
  constructor
  · rintro rfl
    simp [getProfile]
  · intro h
    have hlt := startIndex_lt h pOpt
    unfold getProfile
    dsimp only
    rw [List.getElem?_eq_getElem hlt]
    dsimp only
    set k := startIndex pvec pOpt with hk
    set level := (P 0 pvec[k]).map fun m => m - range with hlev
    obtain ⟨post1, a1, a2, a3, a4⟩ := scanSide_spec P level (pvec.take k).reverse 1
    set L := scanSide P level 1 (pvec.take k).reverse with hL
    obtain ⟨post2, b1, b2, b3, b4⟩ := scanSide_spec P level (pvec.drop (k + 1)) (1 + L.length)
    set R := scanSide P level (1 + L.length) (pvec.drop (k + 1)) with hR
    refine ⟨_, rfl, ?_, ?_⟩
    · refine (filterMap_sublist _).trans ?_
      rw [List.map_append, List.map_append, List.map_reverse]
      have e : pvec = (post1.reverse ++ (L.map Prod.fst).reverse) ++ [pvec[k]] ++ (R.map Prod.fst ++ post2) := by
        rw [← List.reverse_append, ← a1, ← b1, List.reverse_reverse]
        simp
      conv_rhs => rw [e]
      simp only [List.map_cons, List.map_nil, List.append_assoc]
      refine List.Sublist.trans ?_ (List.sublist_append_right _ _)
      refine List.Sublist.append_left ?_ _
      refine List.Sublist.append_left ?_ _
      exact List.sublist_append_left _ _
    · intro q hq
      rw [List.mem_filterMap] at hq
      obtain ⟨x, hx, hxq⟩ := hq
      cases hx2 : x.2 with
      | none => rw [hx2] at hxq; simp at hxq
      | some v =>
        rw [hx2] at hxq
        simp only [Option.map_some, Option.some.injEq] at hxq
        subst hxq
        simp only [List.mem_append, List.mem_reverse, List.mem_singleton] at hx
        rcases hx with (hx | hx) | hx
        · obtain ⟨c, hc⟩ := a4 x hx
          exact ⟨c, by rw [← hc, hx2]⟩
        · refine ⟨0, ?_⟩
          rw [hx] at hx2 ⊢
          exact hx2
        · obtain ⟨c, hc⟩ := b4 x hx
          exact ⟨c, by rw [← hc, hx2]⟩

/-- **C241.** If the optimiser never returns `nan`, the points of the profile are an unbroken stretch
of the grid around the first point at or beyond the optimum.  The stretch ends where the grid ends or at
the first point where the profile is below its value at the start minus `range`; all points in between
are not below. -/
theorem C241_contiguous (P : ℕ → α → Option α) (range : α) (pvec : List α) (pOpt : α)
    (hP : ∀ c p, (P c p).isSome) (h : pvec ≠ []) :
    ∃ (left right : List (α × α)) (ps m0 : α) (pre post : List α),
      getProfile P range pvec pOpt = .ok (left.reverse ++ [(ps, m0)] ++ right) ∧
      pvec = pre ++ (left.reverse ++ [(ps, m0)] ++ right).map Prod.fst ++ post ∧
      P 0 ps = some m0 ∧
      ((∃ p ∈ pvec, pOpt ≤ p) → pOpt ≤ ps ∧ (∀ p ∈ pre, p < pOpt) ∧ ∀ q ∈ left, q.1 < pOpt) ∧
      (pre = [] ∨ ∃ init q, left = init ++ [q] ∧ q.2 < m0 - range) ∧
      (post = [] ∨ ∃ init q, right = init ++ [q] ∧ q.2 < m0 - range) ∧
      (∀ init q, left = init ++ [q] → ∀ x ∈ init, m0 - range ≤ x.2) ∧
      (∀ init q, right = init ++ [q] → ∀ x ∈ init, m0 - range ≤ x.2) := by
  have hlt := startIndex_lt h pOpt
  set k := startIndex pvec pOpt with hk
  obtain ⟨m0, hm0⟩ := Option.isSome_iff_exists.1 (hP 0 pvec[k])
  obtain ⟨post1, a1, a2, a3, a4⟩ := scanSide_spec P (some (m0 - range)) (pvec.take k).reverse 1
  have hgp : getProfile P range pvec pOpt = .ok
      (((scanSide P (some (m0 - range)) 1 (pvec.take k).reverse).reverse ++ [(pvec[k], some m0)] ++
        scanSide P (some (m0 - range)) (1 + (scanSide P (some (m0 - range)) 1 (pvec.take k).reverse).length)
          (pvec.drop (k + 1))).filterMap fun q => q.2.map fun v => (q.1, v)) := by
    unfold getProfile
    dsimp only
    rw [← hk, List.getElem?_eq_getElem hlt]
    simp only [hm0, Option.map_some]
  set L := scanSide P (some (m0 - range)) 1 (pvec.take k).reverse with hL
  obtain ⟨post2, b1, b2, b3, b4⟩ := scanSide_spec P (some (m0 - range)) (pvec.drop (k + 1)) (1 + L.length)
  set R := scanSide P (some (m0 - range)) (1 + L.length) (pvec.drop (k + 1)) with hR
  have hsL : ∀ q ∈ L, q.2.isSome := fun q hq => by
    obtain ⟨c, hc⟩ := a4 q hq
    rw [hc]; exact hP c q.1
  have hsR : ∀ q ∈ R, q.2.isSome := fun q hq => by
    obtain ⟨c, hc⟩ := b4 q hq
    rw [hc]; exact hP c q.1
  obtain ⟨L', hL1, -⟩ := filterMap_all L hsL
  obtain ⟨R', hR1, -⟩ := filterMap_all R hsR
  have e : pvec = (post1.reverse ++ (L.map Prod.fst).reverse) ++ [pvec[k]] ++ (R.map Prod.fst ++ post2) := by
    rw [← List.reverse_append, ← a1, ← b1, List.reverse_reverse]
    simp
  have hLf : L.map Prod.fst = L'.map Prod.fst := by rw [hL1]; simp
  have hRf : R.map Prod.fst = R'.map Prod.fst := by rw [hR1]; simp
  have hid : ∀ l : List (α × α), (l.map fun q => (q.1, some q.2)).filterMap
      (fun q => q.2.map fun v => (q.1, v)) = l := by
    intro l
    induction l with
    | nil => rfl
    | cons x l ih => simp [ih]
  have key : ∀ (X : List (α × Option α)) (X' : List (α × α)), X = X'.map (fun q => (q.1, some q.2)) →
      ∀ post : List α, (post = [] ∨ ∃ init p m, X = init ++ [(p, m)] ∧ below m (some (m0 - range)) = true) →
      (post = [] ∨ ∃ init q, X' = init ++ [q] ∧ q.2 < m0 - range) := by
    intro X X' hX post h
    rcases h with h | ⟨init, p, m, h1, h2⟩
    · exact Or.inl h
    · right
      rw [hX] at h1
      obtain ⟨i', t', e1, e2, e3⟩ := List.map_eq_append_iff.1 h1
      obtain ⟨q, tl, rfl, e4, e5⟩ := List.map_eq_cons_iff.1 e3
      have htl : tl = [] := by simpa using e5
      subst htl
      refine ⟨i', q, e1, ?_⟩
      simp only [Prod.mk.injEq] at e4
      rw [← e4.2] at h2
      simpa [below] using h2
  have key2 : ∀ (X : List (α × Option α)) (X' : List (α × α)), X = X'.map (fun q => (q.1, some q.2)) →
      (∀ init q, X = init ++ [q] → ∀ x ∈ init, below x.2 (some (m0 - range)) = false) →
      ∀ init q, X' = init ++ [q] → ∀ x ∈ init, m0 - range ≤ x.2 := by
    intro X X' hX h init q hq x hx
    have := h (init.map fun q => (q.1, some q.2)) (q.1, some q.2) (by rw [hX, hq]; simp)
      (x.1, some x.2) (List.mem_map.2 ⟨x, hx, rfl⟩)
    simpa [below] using this
  refine ⟨L', R', pvec[k], m0, post1.reverse, post2, ?_, ?_, hm0, ?_, ?_, key R R' hR1 post2 b2,
    key2 L L' hL1 a3, key2 R R' hR1 b3⟩
  · rw [hgp]
    congr 1
    rw [List.filterMap_append, List.filterMap_append, List.filterMap_reverse, hL1, hR1, hid, hid]
    simp
  · rw [List.map_append, List.map_append, List.map_reverse, ← hLf, ← hRf]
    conv_lhs => rw [e]
    simp
  · rintro ⟨p, hp, hpo⟩
    have hany : (pvec.any fun p => decide (pOpt ≤ p)) = true :=
      List.any_eq_true.2 ⟨p, hp, by simpa using hpo⟩
    have hk' : k = pvec.findIdx fun p => decide (pOpt ≤ p) := by
      rw [hk]; unfold startIndex; rw [if_pos hany]
    refine ⟨?_, ?_, ?_⟩
    · have := List.findIdx_getElem (xs := pvec) (p := fun p => decide (pOpt ≤ p)) (w := hk' ▸ hlt)
      simp only [← hk'] at this
      simpa using this
    all_goals
      have hbefore : ∀ x ∈ pvec.take k, x < pOpt := by
        intro x hx
        obtain ⟨i, hi, rfl⟩ := List.mem_take_iff_getElem.1 hx
        have := List.not_of_lt_findIdx (xs := pvec) (p := fun p => decide (pOpt ≤ p)) (i := i)
          (by rw [← hk']; omega)
        simpa using this
      have hrev : pvec.take k = post1.reverse ++ (L.map Prod.fst).reverse := by
        rw [← List.reverse_append, ← a1, List.reverse_reverse]
      rw [hrev] at hbefore
    · intro x hx
      exact hbefore x (List.mem_append_left _ hx)
    · intro q hq
      apply hbefore q.1
      refine List.mem_append_right _ (List.mem_reverse.2 ?_)
      rw [hLf]
      exact List.mem_map.2 ⟨q, hq, rfl⟩
  · rcases key L L' hL1 post1 a2 with h | h
    · left; simp [h]
    · exact Or.inr h

example : getProfile (fun _ p => some (-p ^ 2)) 2 ([-3, -2, -1, 0, 1, 2, 3] : List ℚ) 0 =
    .ok [(-2, -4), (-1, -1), (0, 0), (1, -1), (2, -4)] := by
  decide +kernel

/-! ### C242: confidence bounds -/

theorem ecross1_spec {t f : List α} {v : α} {i : ℕ} {t0 t1 f0 f1 : α} (h1 : t[i]? = some t0)
    (h2 : t[i + 1]? = some t1) (h3 : f[i]? = some f0) (h4 : f[i + 1]? = some f1) (hne : f0 ≠ f1) :
    ∃ c, ecross1 t f v i = .ok c ∧ (c - t0) * (f1 - f0) = (v - f0) * (t1 - t0) := by
  refine ⟨_, by simp only [ecross1, h1, h2, h3, h4]; rw [if_neg (sub_ne_zero.2 hne.symm)], ?_⟩
  have : f1 - f0 ≠ 0 := sub_ne_zero.2 hne.symm
  field_simp
  ring

theorem last_off {data : List α} {level : α} {j0 n : ℕ} {a0 : α} (h0 : data[j0]? = some a0)
    (ha0 : a0 ≠ level) (hj : j0 ≤ n) (hn : n < data.length) :
    ∃ j ≤ n, ∃ a, data[j]? = some a ∧ a ≠ level ∧ ∀ k, j < k → k ≤ n → data[k]? = some level := by
  induction n with
  | zero =>
    obtain rfl : j0 = 0 := by omega
    exact ⟨0, le_rfl, a0, h0, ha0, fun k h1 h2 => by omega⟩
  | succ n ih =>
    by_cases hc : data[n + 1] = level
    · have hj' : j0 ≤ n := by
        by_contra h
        obtain rfl : j0 = n + 1 := by omega
        rw [List.getElem?_eq_getElem hn, hc] at h0
        exact ha0 (by simpa using h0.symm)
      obtain ⟨j, h1, a, h2, h3, h4⟩ := ih hj' (by omega)
      refine ⟨j, by omega, a, h2, h3, fun k hk1 hk2 => ?_⟩
      by_cases hk : k = n + 1
      · subst hk; rw [List.getElem?_eq_getElem hn, hc]
      · exact h4 k hk1 (by omega)
    · exact ⟨n + 1, le_rfl, _, List.getElem?_eq_getElem hn, hc, fun k h1 h2 => by omega⟩

/-- Specification: `c` lies on segment `i` of the polygon through the points, where it takes the
value `v`. -/
def OnSegment (args data : List α) (v c : α) (i : ℕ) : Prop :=
  ∃ t0 t1 f0 f1, args[i]? = some t0 ∧ args[i + 1]? = some t1 ∧ data[i]? = some f0 ∧
    data[i + 1]? = some f1 ∧ t0 ≤ c ∧ c ≤ t1 ∧ f0 + (c - t0) * (f1 - f0) / (t1 - t0) = v

/-- **C242.** If the profile is below the level at both ends and above it somewhere, the bounds are
a proper interval, on the polygon through the computed points where it crosses the level, and every
computed point above the level is strictly inside. -/
theorem C242_bounds (args data : List α) (pmin pmax level : α) (hlen : args.length = data.length)
    (hargs : args.Pairwise (· < ·)) (first last : α) (hfirst : data[0]? = some first)
    (hf : first < level) (hlast : data[data.length - 1]? = some last) (hl : last < level)
    (hab : ∃ d ∈ data, level < d) :
    ∃ lo hi, getBounds args data pmin pmax level = .ok (lo, hi) ∧ lo < hi ∧
      (∃ i, OnSegment args data level lo i) ∧ (∃ i, OnSegment args data level hi i) ∧
      ∀ (k : ℕ) (t d : α), args[k]? = some t → data[k]? = some d → level < d → lo < t ∧ t < hi := by
  have hne : data ≠ [] := by rintro rfl; simp at hfirst
  obtain ⟨l, hl1, hl2⟩ := C01_findcross_exact data level hne
  obtain ⟨hsort, hlt, -⟩ := C02_findcross_ordered data level l hl1
  have hmono : ∀ (i j : ℕ) (a b : α), i < j → args[i]? = some a → args[j]? = some b → a < b := by
    intro i j a b hij ha hb
    obtain ⟨hi, rfl⟩ := List.getElem?_eq_some_iff.1 ha
    obtain ⟨hj, rfl⟩ := List.getElem?_eq_some_iff.1 hb
    exact List.pairwise_iff_getElem.1 hargs i j hi hj hij
  -- the first and the last point above the level
  have hex : ∃ k : ℕ, ∃ d, data[k]? = some d ∧ level < d := by
    obtain ⟨d, hd, hd'⟩ := hab
    obtain ⟨k, hk, rfl⟩ := List.mem_iff_getElem.1 hd
    exact ⟨k, _, List.getElem?_eq_getElem hk, hd'⟩
  classical
  let u := Nat.find hex
  obtain ⟨du, hdu, hdu'⟩ : ∃ d, data[u]? = some d ∧ level < d := Nat.find_spec hex
  have hbef : ∀ k < u, ∀ d, data[k]? = some d → d ≤ level := by
    intro k hk d hd
    by_contra hc
    exact Nat.find_min hex hk ⟨d, hd, not_le.1 hc⟩
  have hu0 : u ≠ 0 := by
    intro h0
    rw [h0, hfirst] at hdu
    simp only [Option.some.injEq] at hdu
    rw [← hdu] at hdu'
    exact absurd hdu' (not_lt.2 hf.le)
  obtain ⟨u', hu'⟩ : ∃ u', u = u' + 1 := Nat.exists_eq_succ_of_ne_zero hu0
  have hulen : u < data.length := (List.getElem?_eq_some_iff.1 hdu).1
  have hu'mem : u' ∈ l := by
    rw [hl2]
    refine ⟨du, by rw [← hu']; exact hdu, hdu'.ne', Or.inr ?_⟩
    obtain ⟨j, hj, a, ha, hane, hrest⟩ := last_off hfirst hf.ne (Nat.zero_le u') (by omega)
    exact ⟨j, hj, a, ha, Or.inl ⟨lt_of_le_of_ne (hbef j (by omega) a ha) hane, hdu'⟩, hrest⟩
  -- the last point above the level
  let w := Nat.findGreatest (fun k => ∃ d, data[k]? = some d ∧ level < d) (data.length - 1)
  obtain ⟨dw, hdw, hdw'⟩ : ∃ d, data[w]? = some d ∧ level < d :=
    Nat.findGreatest_spec (P := fun k => ∃ d, data[k]? = some d ∧ level < d) (m := u) (by omega)
      ⟨du, hdu, hdu'⟩
  have hle_w : ∀ (k : ℕ) (d : α), data[k]? = some d → level < d → k ≤ w := by
    intro k d hd hd'
    have hk := (List.getElem?_eq_some_iff.1 hd).1
    exact Nat.le_findGreatest (by omega) ⟨d, hd, hd'⟩
  have huw : u ≤ w := hle_w u du hdu hdu'
  have hwlen : w < data.length := (List.getElem?_eq_some_iff.1 hdw).1
  have hwlast : w ≠ data.length - 1 := by
    intro h
    rw [h, hlast] at hdw
    simp only [Option.some.injEq] at hdw
    rw [← hdw] at hdw'
    exact absurd hdw' (not_lt.2 hl.le)
  -- the first point below after that
  have hexv : ∃ k : ℕ, w < k ∧ ∃ d, data[k]? = some d ∧ d < level :=
    ⟨data.length - 1, by omega, last, hlast, hl⟩
  let v := Nat.find hexv
  obtain ⟨hwv, dv, hdv, hdv'⟩ : w < v ∧ ∃ d, data[v]? = some d ∧ d < level := Nat.find_spec hexv
  have hvlen : v < data.length := (List.getElem?_eq_some_iff.1 hdv).1
  have hmid : ∀ k, w < k → k < v → data[k]? = some level := by
    intro k h1 h2
    have hk : k < data.length := by omega
    rw [List.getElem?_eq_getElem hk]
    congr 1
    apply le_antisymm
    · by_contra hc
      have := hle_w k _ (List.getElem?_eq_getElem hk) (not_le.1 hc)
      omega
    · by_contra hc
      exact Nat.find_min hexv h2 ⟨h1, _, List.getElem?_eq_getElem hk, not_le.1 hc⟩
  obtain ⟨v', hv'⟩ : ∃ v', v = v' + 1 := Nat.exists_eq_succ_of_ne_zero (by omega)
  have hv'mem : v' ∈ l := by
    rw [hl2]
    refine ⟨dv, by rw [← hv']; exact hdv, hdv'.ne, Or.inr ?_⟩
    exact ⟨w, by omega, dw, hdw, Or.inr ⟨hdv', hdw'⟩, fun k h1 h2 => hmid k h1 (by omega)⟩
  have hnotall : ∀ i : ℕ, ¬ ∀ k : ℕ, k ≤ i → data[k]? = some level := by
    intro i h
    have := h 0 (Nat.zero_le _)
    rw [hfirst] at this
    simp only [Option.some.injEq] at this
    exact hf.ne this
  have hmin : ∀ i ∈ l, u' ≤ i := by
    intro i hi
    by_contra hc
    obtain ⟨b, hb, hbne, hcase⟩ := (hl2 i).1 hi
    have hb' := hbef (i + 1) (by omega) b hb
    rcases hcase with h | ⟨j, hj, a, ha, hcase, -⟩
    · exact hnotall i h
    · have ha' := hbef j (by omega) a ha
      rcases hcase with ⟨_, h⟩ | ⟨_, h⟩
      · exact absurd h (not_lt.2 hb')
      · exact absurd h (not_lt.2 ha')
  have hmax : ∀ i ∈ l, i ≤ v' := by
    intro i hi
    by_contra hc
    obtain ⟨b, hb, hbne, hcase⟩ := (hl2 i).1 hi
    have hb' : ¬ level < b := fun h => by have := hle_w (i + 1) b hb h; omega
    rcases hcase with h | ⟨j, hj, a, ha, hcase, hrest⟩
    · exact hnotall i h
    · rcases hcase with ⟨_, h⟩ | ⟨_, h⟩
      · exact hb' h
      · have hjw := hle_w j a ha h
        have := hrest v (by omega) (by omega)
        rw [hdv] at this
        simp only [Option.some.injEq] at this
        exact hdv'.ne this
  -- the shape of the list of crossings
  obtain ⟨i0, rest, rfl⟩ : ∃ i0 rest, l = i0 :: rest := by
    cases l with
    | nil => simp at hu'mem
    | cons a b => exact ⟨a, b, rfl⟩
  have hi0 : i0 = u' := by
    have h1 := hmin i0 (by simp)
    rcases List.mem_cons.1 hu'mem with h | h
    · exact h.symm
    · have := (List.pairwise_cons.1 hsort).1 u' h; omega
  have hrest : v' ∈ rest := by
    rcases List.mem_cons.1 hv'mem with h | h
    · omega
    · exact h
  have hlastv : rest.getLastD i0 = v' := by
    have hne' : rest ≠ [] := List.ne_nil_of_mem hrest
    rw [List.getLastD_eq_getLast?, List.getLast?_eq_some_getLast hne']
    simp only [Option.getD_some]
    have h1 := hmax (rest.getLast hne') (List.mem_cons_of_mem _ (List.getLast_mem hne'))
    have h2 : v' ≤ rest.getLast hne' := by
      have hs2 := (List.pairwise_cons.1 hsort).2
      have h3 := List.dropLast_append_getLast hne'
      rw [← h3] at hs2 hrest
      rcases List.mem_append.1 hrest with h | h
      · exact ((List.pairwise_append.1 hs2).2.2 v' h _ (by simp)).le
      · simp at h; exact h.le
    omega
  -- the lower bound
  have hg : ∀ i < data.length, ∃ t d, args[i]? = some t ∧ data[i]? = some d := fun i hi =>
    ⟨_, _, List.getElem?_eq_getElem (by omega), List.getElem?_eq_getElem hi⟩
  obtain ⟨tu, fu, htu, hfu⟩ := hg u' (by omega)
  obtain ⟨tu1, fu1, htu1, hfu1⟩ := hg (u' + 1) (by omega)
  obtain rfl : fu1 = du := by
    rw [← hu', hdu] at hfu1; simpa using hfu1.symm
  have hfule := hbef u' (by omega) fu hfu
  obtain ⟨lo, hlo, hloeq⟩ := ecross1_spec (v := level) htu htu1 hfu hfu1 (by
    intro h; rw [h] at hfule; exact absurd hdu' (not_lt.2 hfule))
  have htulu := hmono u' (u' + 1) tu tu1 (by omega) htu htu1
  have hlo1 : tu ≤ lo := by
    by_contra hc
    nlinarith [mul_pos (sub_pos.2 (not_le.1 hc)) (sub_pos.2 (lt_of_le_of_lt hfule hdu')),
      mul_nonneg (sub_nonneg.2 hfule) (sub_nonneg.2 htulu.le)]
  have hlo2 : lo < tu1 := by
    by_contra hc
    push Not at hc
    nlinarith [mul_pos (sub_pos.2 hdu') (sub_pos.2 htulu),
      mul_nonneg (sub_nonneg.2 hc) (sub_nonneg.2 (le_trans hfule hdu'.le))]
  -- the upper bound
  obtain ⟨tv, fv, htv, hfv⟩ := hg v' (by omega)
  obtain ⟨tv1, fv1, htv1, hfv1⟩ := hg (v' + 1) (by omega)
  obtain rfl : fv1 = dv := by
    rw [← hv', hdv] at hfv1; simpa using hfv1.symm
  have hfvge : level ≤ fv ∧ (v' = w → level < fv) := by
    by_cases h : v' = w
    · rw [h, hdw] at hfv
      simp only [Option.some.injEq] at hfv
      rw [← hfv]
      exact ⟨hdw'.le, fun _ => hdw'⟩
    · have := hmid v' (by omega) (by omega)
      rw [hfv] at this
      simp only [Option.some.injEq] at this
      exact ⟨this.ge, fun h' => absurd h' h⟩
  obtain ⟨hi, hhi, hhieq⟩ := ecross1_spec (v := level) htv htv1 hfv hfv1 (by
    intro h; rw [h] at hfvge; exact absurd hdv' (not_lt.2 hfvge.1))
  have htvlt := hmono v' (v' + 1) tv tv1 (by omega) htv htv1
  have hff : fv1 < fv := lt_of_lt_of_le hdv' hfvge.1
  have hhi1 : tv ≤ hi := by
    by_contra hc
    nlinarith [mul_pos (sub_pos.2 (not_le.1 hc)) (sub_pos.2 hff),
      mul_nonneg (sub_nonneg.2 hfvge.1) (sub_nonneg.2 htvlt.le)]
  have hhi1' : v' = w → tv < hi := by
    intro h
    by_contra hc
    push Not at hc
    nlinarith [mul_nonneg (sub_nonneg.2 hc) (sub_nonneg.2 hff.le),
      mul_pos (sub_pos.2 (hfvge.2 h)) (sub_pos.2 htvlt)]
  have hhi2 : hi ≤ tv1 := by
    by_contra hc
    push Not at hc
    nlinarith [mul_pos (sub_pos.2 hc) (sub_pos.2 hff), mul_pos (sub_pos.2 hdv') (sub_pos.2 htvlt)]
  have hmain : ∀ (k : ℕ) (t d : α), args[k]? = some t → data[k]? = some d → level < d → lo < t ∧ t < hi := by
    intro k t d ht hd hd'
    have hkw := hle_w k d hd hd'
    have hku : u ≤ k := by
      by_contra hc
      exact absurd hd' (not_lt.2 (hbef k (by omega) d hd))
    constructor
    · by_cases h : k = u' + 1
      · rw [h, htu1] at ht
        simp only [Option.some.injEq] at ht
        rw [← ht]; exact hlo2
      · exact hlo2.trans (hmono (u' + 1) k _ _ (by omega) htu1 ht)
    · by_cases h : k = v'
      · have hvw : v' = w := by omega
        rw [h, htv] at ht
        simp only [Option.some.injEq] at ht
        rw [← ht]; exact hhi1' hvw
      · exact lt_of_lt_of_le (hmono k v' _ _ (by omega) ht htv) hhi1
  refine ⟨lo, hi, ?_, ?_, ⟨u', tu, tu1, fu, _, htu, htu1, hfu, hfu1, hlo1, hlo2.le, ?_⟩,
    ⟨v', tv, tv1, fv, _, htv, htv1, hfv, hfv1, hhi1, hhi2, ?_⟩, hmain⟩
  · unfold getBounds
    rw [hl1]
    simp only [bind, Except.bind]
    cases rest with
    | nil => simp at hrest
    | cons r rs =>
      rw [hi0] at hlastv ⊢
      simp only [hlastv, hlo, hhi]
  · have := hmain (u' + 1) tu1 fu1 htu1 hfu1 hdu'
    exact this.1.trans this.2
  · have : tu1 - tu ≠ 0 := (sub_pos.2 htulu).ne'
    rw [hloeq]; field_simp; ring
  · have : tv1 - tv ≠ 0 := (sub_pos.2 htvlt).ne'
    rw [hhieq]; field_simp; ring

example : getBounds ([-2, -1, 0, 1, 2] : List ℚ) [-4, -1, 0, -1, -4] (-5) 5 (-2) = .ok (-4/3, 4/3) := by
  decide +kernel

/-- **C242.** With exactly one crossing the missing bound is the limit of the profile: the upper one if
the profile rises through the level, the lower one if it falls; without a crossing both are. -/
theorem C242_one_sided (args data : List α) (pmin pmax level : α) (hlen : args.length = data.length)
    (hne : data ≠ []) :
    ((∀ i, ¬ IsCrossing data level i) → getBounds args data pmin pmax level = .ok (pmin, pmax)) ∧
    ∀ i, (∀ k, IsCrossing data level k ↔ k = i) → ∀ f0 f1, data[i]? = some f0 → data[i + 1]? = some f1 →
      f0 ≠ f1 → ∃ c, ecross1 args data level i = .ok c ∧
        (f0 < f1 → getBounds args data pmin pmax level = .ok (c, pmax)) ∧
        (f1 < f0 → getBounds args data pmin pmax level = .ok (pmin, c)) := by
  obtain ⟨l, hl1, hl2⟩ := C01_findcross_exact data level hne
  obtain ⟨hsort, -, -⟩ := C02_findcross_ordered data level l hl1
  constructor
  · intro h
    have : l = [] := by
      apply List.eq_nil_of_length_eq_zero
      by_contra hc
      obtain ⟨i, hi⟩ := List.exists_mem_of_length_pos (Nat.pos_of_ne_zero hc)
      exact h i ((hl2 i).1 hi)
    unfold getBounds
    rw [hl1, this]
    rfl
  · intro i hi f0 f1 h0 h1 hff
    have hli : l = [i] := by
      have hmem : ∀ k, k ∈ l ↔ k = i := fun k => (hl2 k).trans (hi k)
      cases l with
      | nil => exact absurd ((hmem i).2 rfl) (by simp)
      | cons a r =>
        have ha := (hmem a).1 (by simp)
        cases r with
        | nil => rw [ha]
        | cons b r =>
          have hb := (hmem b).1 (by simp)
          have := (List.pairwise_cons.1 hsort).1 b (by simp)
          omega
    have hlt := (List.getElem?_eq_some_iff.1 h1).1
    obtain ⟨c, hc, -⟩ := ecross1_spec (v := level) (t := args)
      (List.getElem?_eq_getElem (by omega)) (List.getElem?_eq_getElem (by omega)) h0 h1 hff
    refine ⟨c, hc, fun h => ?_, fun h => ?_⟩
    · unfold getBounds
      rw [hl1, hli]
      simp only [bind, Except.bind, hc, h0, h1, if_pos h]
    · unfold getBounds
      rw [hl1, hli]
      simp only [bind, Except.bind, hc, h0, h1, if_neg (not_lt.2 h.le)]

example : getBounds ([0, 1, 2] : List ℚ) [0, -1, -4] (-5) 5 (-2) = .ok (-5, 4/3) := by
  decide +kernel

/-! ### C243: the grid of the profile -/

theorem unique_sorted (l : List α) : (l.dedup.insertionSort (· ≤ ·)).Pairwise (· < ·) := by
  have h1 : (l.dedup.insertionSort (· ≤ ·)).Pairwise (· ≤ ·) := List.pairwise_insertionSort _ _
  have h2 : (l.dedup.insertionSort (· ≤ ·)).Nodup :=
    (List.perm_insertionSort _ _).nodup_iff.2 (List.nodup_dedup l)
  exact (h1.and h2).imp fun h => lt_of_le_of_ne h.1 h.2

/-- The points before sorting. -/
theorem mem_adaptive (n : ℕ) (pOpt pmin pmax x : α) : x ∈ adaptivePvec n pOpt pmin pmax ↔
    x ∈ linspace pmin (pOpt - (pOpt - pmin) / 5) (n / 4 + 1) ∨ x = pOpt ∨
    x ∈ linspace (pOpt - (pOpt - pmin) / 5) (pOpt + (pmax - pOpt) / 5) (n - 2 * (n / 4)) ∨
    x ∈ linspace (pOpt + (pmax - pOpt) / 5) pmax (n / 4 + 1) := by
  unfold adaptivePvec
  simp only [List.mem_insertionSort, List.mem_dedup, List.mem_append, List.mem_singleton]
  tauto

theorem linspace_between {a b : α} (hab : a ≤ b) {n : ℕ} {x : α} (hx : x ∈ linspace a b n) :
    a ≤ x ∧ x ≤ b := by
  unfold linspace at hx
  split_ifs at hx with h1
  · simp only [List.mem_singleton] at hx
    subst hx; exact ⟨le_rfl, hab⟩
  · obtain ⟨k, hk, rfl⟩ := List.mem_map.1 hx
    rw [List.mem_range] at hk
    have hn : (0 : α) < (n : α) - 1 := by
      have : ((1 : ℕ) : α) < (n : α) := by exact_mod_cast (by omega : 1 < n)
      rw [Nat.cast_one] at this; linarith
    have hkn : (k : α) ≤ (n : α) - 1 := by
      have : ((k + 1 : ℕ) : α) ≤ (n : α) := by exact_mod_cast hk
      push_cast at this; linarith
    have h0 : 0 ≤ (b - a) / ((n : α) - 1) := div_nonneg (sub_nonneg.2 hab) hn.le
    refine ⟨by nlinarith [mul_nonneg (Nat.cast_nonneg (α := α) k) h0], ?_⟩
    have : (k : α) * ((b - a) / ((n : α) - 1)) ≤ ((n : α) - 1) * ((b - a) / ((n : α) - 1)) :=
      mul_le_mul_of_nonneg_right hkn h0
    rw [mul_div_cancel₀ _ hn.ne'] at this
    linarith

theorem linspace_left (a b : α) {n : ℕ} (hn : 1 ≤ n) : a ∈ linspace a b n := by
  unfold linspace
  split_ifs with h
  · simp
  · exact List.mem_map.2 ⟨0, List.mem_range.2 (by omega), by simp⟩

theorem linspace_right (a b : α) {n : ℕ} (hn : 2 ≤ n) : b ∈ linspace a b n := by
  unfold linspace
  rw [if_neg (by omega)]
  refine List.mem_map.2 ⟨n - 1, List.mem_range.2 (by omega), ?_⟩
  have : (0 : α) < (n : α) - 1 := by
    have : ((1 : ℕ) : α) < (n : α) := by exact_mod_cast (by omega : 1 < n)
    rw [Nat.cast_one] at this; linarith
  rw [Nat.cast_sub (by omega), Nat.cast_one, mul_div_cancel₀ _ this.ne']
  ring

/-- **C243** (partial). The grid is strictly increasing, stays between its limits and contains both
limits and the optimum, and has at most one point more than asked for.  Missing: the documented maximal
number of points (`C243_count_refuted`), and grids of fewer than four points, which lack the upper
limit (`C243_few_refuted`). -/
theorem C243_grid_partial (n : ℕ) (hn : 4 ≤ n) (pOpt pmin pmax : α) (h1 : pmin ≤ pOpt) (h2 : pOpt ≤ pmax) :
    (adaptivePvec n pOpt pmin pmax).Pairwise (· < ·) ∧
    (∀ x ∈ adaptivePvec n pOpt pmin pmax, pmin ≤ x ∧ x ≤ pmax) ∧
    pmin ∈ adaptivePvec n pOpt pmin pmax ∧ pOpt ∈ adaptivePvec n pOpt pmin pmax ∧
    pmax ∈ adaptivePvec n pOpt pmin pmax ∧ (adaptivePvec n pOpt pmin pmax).length ≤ n + 1 := by
  refine ⟨unique_sorted _, fun x hx => ?_, ?_, ?_, ?_, ?_⟩
  · have ha : pmin ≤ pOpt - (pOpt - pmin) / 5 := by linarith
    have hb : pOpt + (pmax - pOpt) / 5 ≤ pmax := by linarith
    have ha' : pOpt - (pOpt - pmin) / 5 ≤ pOpt := by linarith
    have hb' : pOpt ≤ pOpt + (pmax - pOpt) / 5 := by linarith
    rcases (mem_adaptive _ _ _ _ _).1 hx with h | h | h | h
    · have := linspace_between ha h
      exact ⟨this.1, by linarith [this.2]⟩
    · subst h; exact ⟨h1, h2⟩
    · have := linspace_between (ha'.trans hb') h
      exact ⟨by linarith [this.1], by linarith [this.2]⟩
    · have := linspace_between hb h
      exact ⟨by linarith [this.1], this.2⟩
  · exact (mem_adaptive _ _ _ _ _).2 (Or.inl (linspace_left _ _ (by omega)))
  · exact (mem_adaptive _ _ _ _ _).2 (Or.inr (Or.inl rfl))
  · exact (mem_adaptive _ _ _ _ _).2 (Or.inr (Or.inr (Or.inr (linspace_right _ _ (by omega)))))
  · unfold adaptivePvec
    dsimp only
    rw [List.length_insertionSort, ← List.card_toFinset]
    set a := pOpt - (pOpt - pmin) / 5
    set b := pOpt + (pmax - pOpt) / 5
    have hsub : (linspace pmin a (n / 4 + 1) ++ [pOpt] ++ linspace a b (n - 2 * (n / 4)) ++
        linspace b pmax (n / 4 + 1)).toFinset ⊆
        (((linspace pmin a (n / 4 + 1)).toFinset.erase a ∪ {pOpt}) ∪
          (linspace a b (n - 2 * (n / 4))).toFinset) ∪ (linspace b pmax (n / 4 + 1)).toFinset.erase b := by
      intro x hx
      simp only [List.mem_toFinset, List.mem_append, List.mem_singleton] at hx
      simp only [Finset.mem_union, Finset.mem_erase, Finset.mem_singleton, List.mem_toFinset]
      by_cases hxa : x = a
      · subst hxa; exact Or.inl (Or.inr (linspace_left _ _ (by omega)))
      by_cases hxb : x = b
      · subst hxb; exact Or.inl (Or.inr (linspace_right _ _ (by omega)))
      tauto
    refine (Finset.card_le_card hsub).trans ?_
    refine (Finset.card_union_le _ _).trans ?_
    have c1 : ((linspace pmin a (n / 4 + 1)).toFinset.erase a).card ≤ n / 4 := by
      rw [Finset.card_erase_of_mem (List.mem_toFinset.2 (linspace_right _ _ (by omega)))]
      have := List.toFinset_card_le (linspace pmin a (n / 4 + 1))
      rw [linspace_length] at this
      omega
    have c3 : ((linspace b pmax (n / 4 + 1)).toFinset.erase b).card ≤ n / 4 := by
      rw [Finset.card_erase_of_mem (List.mem_toFinset.2 (linspace_left _ _ (by omega)))]
      have := List.toFinset_card_le (linspace b pmax (n / 4 + 1))
      rw [linspace_length] at this
      omega
    have c2 : (linspace a b (n - 2 * (n / 4))).toFinset.card ≤ n - 2 * (n / 4) := by
      have := List.toFinset_card_le (linspace a b (n - 2 * (n / 4)))
      rwa [linspace_length] at this
    have d1 := Finset.card_union_le ((linspace pmin a (n / 4 + 1)).toFinset.erase a ∪ {pOpt})
      (linspace a b (n - 2 * (n / 4))).toFinset
    have d2 := Finset.card_union_le ((linspace pmin a (n / 4 + 1)).toFinset.erase a) {pOpt}
    rw [Finset.card_singleton] at d2
    omega

/-- The grid can have more points than the documented maximum. -/
theorem C243_count_refuted : adaptivePvec 4 (0 : ℚ) (-5) 5 = [-5, -1, 0, 1, 5] := by decide +kernel

/-- With three points the grid lacks the upper limit. -/
theorem C243_few_refuted : adaptivePvec 3 (0 : ℚ) (-5) 5 = [-5, -1, 0, 1] := by decide +kernel

example : adaptivePvec 4 (1 : ℚ) (-4) 11 = [-4, 0, 1, 3, 11] := by decide +kernel

end Wafo.Est

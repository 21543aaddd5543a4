import Verif.Cross.Lemmas
import Mathlib.Data.Rat.Defs
import Mathlib.Algebra.Order.Field.Rat
import Mathlib.Tactic.NormNum
import Mathlib.Tactic.FieldSimp
import Mathlib.Data.List.Perm.Subperm

/-!
Property theorems for the level-crossing routines (C01 - C06).
The specification is stated on the samples `x` and the level `v` only.
-/

set_option linter.unusedSectionVars false

namespace Wafo.Cross

variable {α : Type*} [Field α] [LinearOrder α] [IsStrictOrderedRing α]

/-! ### Specification -/

/-- `i` is a crossing of level `v`: the next sample is off the level, and either all samples up to
`i` are on the level, or the last sample off the level is on the other side. -/
def IsCrossing (x : List α) (v : α) (i : ℕ) : Prop :=
  ∃ b, x[i + 1]? = some b ∧ b ≠ v ∧
    ((∀ k ≤ i, x[k]? = some v) ∨
      ∃ j ≤ i, ∃ a, x[j]? = some a ∧ ((a < v ∧ v < b) ∨ (b < v ∧ v < a)) ∧
        ∀ k, j < k → k ≤ i → x[k]? = some v)

/-- The sample after `i` is above the level. -/
def UpAt (x : List α) (v : α) (i : ℕ) : Prop := ∃ b, x[i + 1]? = some b ∧ v < b

/-- The sample after `i` is below the level. -/
def DownAt (x : List α) (v : α) (i : ℕ) : Prop := ∃ b, x[i + 1]? = some b ∧ b < v

/-- Executable forms of `UpAt` and `DownAt`. -/
def upAtb (x : List α) (v : α) (i : ℕ) : Bool := (x[i + 1]?).any (fun b => decide (v < b))
def downAtb (x : List α) (v : α) (i : ℕ) : Bool := (x[i + 1]?).any (fun b => decide (b < v))

/-! ### C01 -/

/-- C01: `findcross(x, v)` returns exactly the crossings of level `v`. -/
theorem C01_findcross_exact (x : List α) (v : α) (hx : x ≠ []) :
    ∃ l, findcross x v none = .ok l ∧ ∀ i, i ∈ l ↔ IsCrossing x v i := by
  obtain ⟨l, hl⟩ := findcross0_ok (signs x v) (by simpa [signs] using hx)
  refine ⟨l, by rw [findcross_none_eq, hl], fun i => ?_⟩
  rw [mem_findcross0 _ _ hl]
  constructor
  · rintro ⟨s, hs, hs0, hle⟩
    obtain ⟨b, hb, rfl⟩ := (signs_some_iff _ _ _ _).1 hs
    have hbv : b ≠ v := fun h => hs0 ((sgn_eq_zero_iff _ _).2 h)
    refine ⟨b, hb, hbv, ?_⟩
    have hlen : i + 1 < x.length := (List.getElem?_eq_some_iff.1 hb).1
    have htl : ((signs x v).take (i + 1)).length = i + 1 := by simp [signs]; omega
    rcases lastNZ_cases 0 ((signs x v).take (i + 1)) with ⟨h1, -⟩ | ⟨j, s', h1, h2, h3⟩
    · left
      intro k hk
      rw [← signs_zero_iff]
      have hk' : k < ((signs x v).take (i + 1)).length := by omega
      have h3 := h1 _ (List.getElem_mem hk')
      have h4 : ((signs x v).take (i + 1))[k]? = some 0 := by
        rw [List.getElem?_eq_getElem hk', h3]
      rw [List.getElem?_take_of_lt (by omega)] at h4
      exact h4
    · right
      have hj : j < i + 1 := by
        have := (List.getElem?_eq_some_iff.1 h1).1
        omega
      rw [List.getElem?_take_of_lt hj] at h1
      obtain ⟨a, ha, rfl⟩ := (signs_some_iff _ _ _ _).1 h1
      refine ⟨j, by omega, a, ha, ?_, ?_⟩
      · rcases h3 with ⟨h3, h4⟩ | ⟨h3, h4⟩
        · left
          rw [h4] at hle
          exact ⟨(sgn_neg_iff _ _).1 h3, (sgn_pos_iff _ _).1 (by omega)⟩
        · right
          rw [h4] at hle
          exact ⟨(sgn_neg_iff _ _).1 (by omega), (sgn_pos_iff _ _).1 h3⟩
      · intro k hk1 hk2
        rw [← signs_zero_iff]
        have := h2 k hk1 (by omega)
        rwa [List.getElem?_take_of_lt (by omega)] at this
  · rintro ⟨b, hb, hbv, h⟩
    refine ⟨sgn v b, (signs_some_iff _ _ _ _).2 ⟨b, hb, rfl⟩,
      fun h0 => hbv ((sgn_eq_zero_iff _ _).1 h0), ?_⟩
    have hlen : i + 1 < x.length := (List.getElem?_eq_some_iff.1 hb).1
    have htl : ((signs x v).take (i + 1)).length = i + 1 := by simp [signs]; omega
    rcases h with h | ⟨j, hj, a, ha, hab, hz⟩
    · rw [lastNZ_zeros]
      · simp
      · exact take_zero_of _ i (fun k hk => (signs_zero_iff _ _ _).2 (h k hk)) _ (le_refl _)
    · have ha' : ((signs x v).take (i + 1))[j]? = some (sgn v a) := by
        rw [List.getElem?_take_of_lt (by omega)]
        exact (signs_some_iff _ _ _ _).2 ⟨a, ha, rfl⟩
      have hz' : ∀ k, j < k → k ≤ i → ((signs x v).take (i + 1))[k]? = some 0 := by
        intro k hk1 hk2
        rw [List.getElem?_take_of_lt (by omega)]
        exact (signs_zero_iff _ _ _).2 (hz k hk1 hk2)
      have hane : sgn v a ≠ 0 := by
        intro h0
        rw [sgn_eq_zero_iff] at h0
        subst h0
        rcases hab with ⟨h1, -⟩ | ⟨-, h1⟩ <;> exact lt_irrefl _ h1
      rcases lastNZ_cases 0 ((signs x v).take (i + 1)) with ⟨h1, -⟩ | ⟨j', s', h1, h2, h3⟩
      · exact absurd (h1 _ (List.mem_of_getElem? ha')) hane
      · have hj' : j' < i + 1 := by
          have := (List.getElem?_eq_some_iff.1 h1).1
          omega
        have hjj : j' = j := by
          rcases Nat.lt_trichotomy j' j with h4 | h4 | h4
          · have := h2 j h4 (by omega)
            rw [ha'] at this
            exact absurd (Option.some.inj this) hane
          · exact h4
          · have := hz' j' h4 (by omega)
            rw [h1] at this
            rw [Option.some.inj this] at h3
            rcases h3 with ⟨h5, -⟩ | ⟨h5, -⟩ <;> simp at h5
        subst hjj
        rw [ha'] at h1
        obtain rfl := Option.some.inj h1
        rcases h3 with ⟨h3, h4⟩ | ⟨h3, h4⟩
        · rw [h4]
          rw [sgn_neg_iff] at h3
          rcases hab with ⟨-, h5⟩ | ⟨-, h5⟩
          · have := (sgn_pos_iff v b).2 h5; omega
          · exact absurd h5 (not_lt.2 h3.le)
        · rw [h4]
          rw [sgn_pos_iff] at h3
          rcases hab with ⟨h5, -⟩ | ⟨h5, -⟩
          · exact absurd h5 (not_lt.2 h3.le)
          · have := (sgn_neg_iff v b).2 h5; omega

/-- The empty signal is the excluded point of C01: the compiled scan then reads `y[0]` outside its
input. -/
theorem C01_findcross_empty (v : α) (kind : Option String) :
    findcross ([] : List α) v kind = .error .oobRead := by
  simp [findcross, signs, findcross0]

/-- Non-vacuity: a signal resting on the level, with crossings. -/
example : findcross ([0, 0, 1, 0, -1, 0, -2, 3] : List ℚ) 0 none = .ok [1, 3, 6] := by
  decide +kernel

/-! ### C02 -/

theorem upAt_of_sgn {x : List α} {v : α} {i : ℕ} {s : ℤ} (h : (signs x v)[i + 1]? = some s)
    (hs : 0 < s) : UpAt x v i := by
  obtain ⟨b, hb, rfl⟩ := (signs_some_iff _ _ _ _).1 h
  exact ⟨b, hb, (sgn_pos_iff _ _).1 hs⟩

theorem downAt_of_sgn {x : List α} {v : α} {i : ℕ} {s : ℤ} (h : (signs x v)[i + 1]? = some s)
    (hs : s < 0) : DownAt x v i := by
  obtain ⟨b, hb, rfl⟩ := (signs_some_iff _ _ _ _).1 h
  exact ⟨b, hb, (sgn_neg_iff _ _).1 hs⟩

theorem altDir_isChain (x : List α) (v : α) (l : List ℕ) : ∀ s : ℤ, (s = 1 ∨ s = -1) →
    AltDir (signs x v) s l →
    l.IsChain (fun i j => (UpAt x v i ∧ DownAt x v j) ∨ (DownAt x v i ∧ UpAt x v j)) := by
  induction l with
  | nil => intro s _ _; simp
  | cons i r ih =>
    intro s hs h
    have h2 := ih (-s) (by rcases hs with h | h <;> simp [h]) h.2
    rcases r with _ | ⟨j, r⟩
    · simp
    · refine List.isChain_cons_cons.2 ⟨?_, h2⟩
      obtain ⟨⟨a, ha, hsa⟩, ⟨b, hb, hsb⟩, -⟩ := h
      rcases hs with rfl | rfl
      · left; exact ⟨upAt_of_sgn ha (by omega), downAt_of_sgn hb (by omega)⟩
      · right; exact ⟨downAt_of_sgn ha (by omega), upAt_of_sgn hb (by omega)⟩

/-- C02: crossings are strictly increasing, in range, and alternate in direction. -/
theorem C02_findcross_ordered (x : List α) (v : α) (l : List ℕ)
    (h : findcross x v none = .ok l) :
    l.Pairwise (· < ·) ∧ (∀ i ∈ l, i + 1 < x.length) ∧
    l.IsChain (fun i j => (UpAt x v i ∧ DownAt x v j) ∨ (DownAt x v i ∧ UpAt x v j)) := by
  rw [findcross_none_eq] at h
  refine ⟨findcross0_pairwise _ _ h, fun i hi => ?_, ?_⟩
  · obtain ⟨b, hb, -⟩ := (mem_findcross0 _ _ h i).1 hi
    have := (List.getElem?_eq_some_iff.1 hb).1
    simpa [signs] using this
  · obtain ⟨s, hs, h2⟩ := findcross0_alt _ _ h
    exact altDir_isChain x v l s hs h2

/-- The result buffer of `_misc_numba.findcross` (as many entries as samples) never overflows. -/
theorem C02_findcross_fits (x : List α) (v : α) (l : List ℕ)
    (h : findcross x v none = .ok l) : l.length ≤ x.length - 1 := by
  obtain ⟨h1, h2, -⟩ := C02_findcross_ordered x v l h
  have hnd : l.Nodup := h1.imp (fun h => ne_of_lt h)
  have hsub : l ⊆ List.range (x.length - 1) := by
    intro i hi; have := h2 i hi; simp; omega
  simpa using (List.subperm_of_subset hnd hsub).length_le

example : findcross ([1, -1, 1, 1, -2] : List ℚ) 0 none = .ok [0, 1, 3] := by decide +kernel

/-! ### C03 -/

theorem dirb_eq_down (x : List α) (v : α) : dirb (signs x v) (-1) = downAtb x v := by
  funext i
  simp only [dirb, downAtb, signs_getElem?]
  cases h : x[i + 1]? with
  | none => simp
  | some b =>
    simp only [Option.map_some, Option.any_some, decide_eq_decide]
    rw [← sgn_neg_iff v b]; omega

theorem dirb_eq_up (x : List α) (v : α) : dirb (signs x v) 1 = upAtb x v := by
  funext i
  simp only [dirb, upAtb, signs_getElem?]
  cases h : x[i + 1]? with
  | none => simp
  | some b =>
    simp only [Option.map_some, Option.any_some, decide_eq_decide]
    rw [← sgn_pos_iff v b]; omega

/-- C03: kind `'d'` returns the crossings whose next sample is below the level, `'u'` those whose
next sample is above it, in order, and every crossing is of exactly one of these kinds. -/
theorem C03_findcross_du (x : List α) (v : α) (l : List ℕ) (h : findcross x v none = .ok l) :
    findcross x v (some "d") = .ok (l.filter (downAtb x v)) ∧
    findcross x v (some "u") = .ok (l.filter (upAtb x v)) ∧
    ∀ i ∈ l, downAtb x v i = !upAtb x v i := by
  rw [findcross_none_eq] at h
  obtain ⟨s, hs, halt⟩ := findcross0_alt _ _ h
  obtain ⟨hf1, hf2⟩ := altDir_filter _ _ _ halt
  rw [← dirb_eq_down, ← dirb_eq_up]
  have h3 : ∀ i ∈ l, dirb (signs x v) (-1) i = !dirb (signs x v) 1 i := by
    intro i hi
    obtain ⟨b, hb, hb0, -⟩ := (mem_findcross0 _ _ h i).1 hi
    simp only [dirb, hb, Option.any_some]
    rcases lt_or_gt_of_ne hb0 with h1 | h1
    · simp only [neg_mul, one_mul]
      rw [decide_eq_true (by omega), decide_eq_false (by omega)]; rfl
    · simp only [neg_mul, one_mul]
      rw [decide_eq_false (by omega), decide_eq_true (by omega)]; rfl
  rcases l with _ | ⟨i0, rest⟩
  · simp [findcross, h]
  · obtain ⟨⟨b, hb, hsb⟩, -⟩ := halt
    refine ⟨?_, ?_, h3⟩
    · simp only [findcross, h, selectKind, hb]
      simp only [reduceCtorEq, Option.some.injEq, String.reduceEq, or_self, ↓reduceIte, gt_iff_lt]
      rcases hs with rfl | rfl
      · rw [if_pos (by omega), hf2]
      · rw [if_neg (by omega), List.drop_zero, hf1]
    · simp only [findcross, h, selectKind, hb]
      simp only [reduceCtorEq, Option.some.injEq, String.reduceEq, or_self, ↓reduceIte]
      rcases hs with rfl | rfl
      · rw [if_neg (by omega), List.drop_zero, hf1]
      · rw [if_pos (by omega), hf2, neg_neg]

example : findcross ([1, -1, 1, 1, -2] : List ℚ) 0 (some "d") = .ok [0, 3] := by decide +kernel

/-! ### C04 -/

/-- Does a wave kind start with a down-crossing? -/
def startsDown (kind : String) : Bool := decide (kind = "dw" ∨ kind = "tw")
/-- Does a wave kind comprise an odd number of crossings? -/
def oddKind (kind : String) : Bool := decide (kind = "dw" ∨ kind = "uw")

theorem drop_dir (s : ℤ) (hs : s = 1 ∨ s = -1) (w : Bool) (h : ((decide (s = -1)) ^^ w) = true) :
    -s = if w = true then -1 else 1 := by
  rcases hs with rfl | rfl <;> cases w <;> simp at h ⊢

theorem keep_dir (s : ℤ) (hs : s = 1 ∨ s = -1) (w : Bool) (h : ¬ ((decide (s = -1)) ^^ w) = true) :
    s = if w = true then -1 else 1 := by
  rcases hs with rfl | rfl <;> cases w <;> simp at h ⊢

/-- C04: crossing-defined waves.  The result `m` is a contiguous run of all the crossings `l` with at
most one crossing dropped in front (only if it has the wrong direction) and at most one at the end;
it starts with a crossing of the required direction; it has odd length (or is empty) and ends in the
same direction for `dw`/`uw`, even length and ends in the opposite direction for `tw`/`cw`. -/
theorem C04_findcross_waves (x : List α) (v : α) (l : List ℕ) (kind : String)
    (hk : kind ∈ ["dw", "uw", "tw", "cw"]) (h : findcross x v none = .ok l) :
    ∃ m p q, findcross x v (some kind) = .ok m ∧ l = p ++ m ++ q ∧
      p.length ≤ 1 ∧ q.length ≤ 1 ∧
      (∀ i ∈ p, if startsDown kind then UpAt x v i else DownAt x v i) ∧
      (∀ i, m.head? = some i → if startsDown kind then DownAt x v i else UpAt x v i) ∧
      (if oddKind kind then m = [] ∨ m.length % 2 = 1 else m.length % 2 = 0) ∧
      (∀ i, m.getLast? = some i →
        if startsDown kind = oddKind kind then DownAt x v i else UpAt x v i) := by
  rw [findcross_none_eq] at h
  obtain ⟨s, hs, halt⟩ := findcross0_alt _ _ h
  rcases l with _ | ⟨i0, rest⟩
  · refine ⟨[], [], [], by simp [findcross, h], by simp, by simp, by simp, by simp, by simp, ?_,
      by simp⟩
    split <;> simp
  · obtain ⟨a, b, ha, hb, hb0, hab⟩ := findcross0_prev _ _ h i0 (by simp)
    have hsb : 0 < s * b := by
      obtain ⟨⟨b', hb', hsb⟩, -⟩ := halt
      rw [hb] at hb'; obtain rfl := Option.some.inj hb'; exact hsb
    have hfd : decide (a > b) = decide (s = -1) := by
      rw [decide_eq_decide]
      rcases hs with rfl | rfl
      · constructor
        · intro h; exfalso; nlinarith
        · intro h; omega
      · constructor
        · intro _; rfl
        · intro _; nlinarith
    -- the run after dropping a crossing in the wrong direction
    have key : ∀ m0 p0 : List ℕ, ∀ (wantDown wantOdd : Bool), ∀ s' : ℤ,
        (s' = if wantDown then -1 else 1) → i0 :: rest = p0 ++ m0 → p0.length ≤ 1 →
        (∀ i ∈ p0, ∃ b, (signs x v)[i + 1]? = some b ∧ 0 < (-s') * b) →
        AltDir (signs x v) s' m0 →
        ∃ m p q, m = (if (decide (m0.length % 2 = 1)) ^^ wantOdd then m0.dropLast else m0) ∧
          i0 :: rest = p ++ m ++ q ∧ p.length ≤ 1 ∧ q.length ≤ 1 ∧
          (∀ i ∈ p, if wantDown then UpAt x v i else DownAt x v i) ∧
          (∀ i, m.head? = some i → if wantDown then DownAt x v i else UpAt x v i) ∧
          (if wantOdd then m = [] ∨ m.length % 2 = 1 else m.length % 2 = 0) ∧
          (∀ i, m.getLast? = some i →
            if wantDown = wantOdd then DownAt x v i else UpAt x v i) := by
      intro m0 p0 wantDown wantOdd s' hs' hl hp0 hpd halt0
      have hm : ∃ q, m0 = (if (decide (m0.length % 2 = 1)) ^^ wantOdd then m0.dropLast else m0) ++ q
          ∧ q.length ≤ 1 := by
        split
        · rcases List.eq_nil_or_concat m0 with rfl | ⟨t, c, rfl⟩
          · exact ⟨[], by simp, by simp⟩
          · exact ⟨[c], by simp, by simp⟩
        · exact ⟨[], by simp, by simp⟩
      obtain ⟨q, hq, hq1⟩ := hm
      have haltm : AltDir (signs x v) s'
          (if (decide (m0.length % 2 = 1)) ^^ wantOdd then m0.dropLast else m0) := by
        split
        · exact altDir_dropLast _ _ _ halt0
        · exact halt0
      have hparity : if wantOdd = true then
          (if (decide (m0.length % 2 = 1)) ^^ wantOdd then m0.dropLast else m0) = [] ∨
          (if (decide (m0.length % 2 = 1)) ^^ wantOdd then m0.dropLast else m0).length % 2 = 1
          else (if (decide (m0.length % 2 = 1)) ^^ wantOdd then m0.dropLast else m0).length % 2 = 0
            := by
        cases wantOdd with
        | true =>
          simp only [Bool.xor_true, ↓reduceIte]
          by_cases ho : m0.length % 2 = 1
          · simp [ho]
          · simp only [ho, decide_false, Bool.not_false, ↓reduceIte, List.length_dropLast]
            rcases m0 with _ | ⟨c, m0⟩
            · simp
            · right; simp only [List.length_cons] at ho ⊢; omega
        | false =>
          simp only [Bool.xor_false, Bool.false_eq_true, ↓reduceIte]
          by_cases ho : m0.length % 2 = 1
          · simp only [ho, decide_true, ↓reduceIte, List.length_dropLast]; omega
          · simp only [ho, decide_false, Bool.false_eq_true, ↓reduceIte]; omega
      refine ⟨_, p0, q, rfl, ?_, hp0, hq1, ?_, ?_, hparity, ?_⟩
      · rw [List.append_assoc, ← hq]; exact hl
      · intro i hi
        obtain ⟨b', hb', hsb'⟩ := hpd i hi
        cases wantDown with
        | true => simp only [↓reduceIte] at hs' ⊢; subst hs'; exact upAt_of_sgn hb' (by omega)
        | false => simp only [Bool.false_eq_true, ↓reduceIte] at hs' ⊢
                   subst hs'; exact downAt_of_sgn hb' (by omega)
      · intro i hi
        generalize (if (decide (m0.length % 2 = 1)) ^^ wantOdd then m0.dropLast else m0) = m
          at hi haltm
        rcases m with _ | ⟨c, m⟩
        · simp at hi
        · simp at hi; subst hi
          obtain ⟨⟨b', hb', hsb'⟩, -⟩ := haltm
          cases wantDown with
          | true => simp only [↓reduceIte] at hs' ⊢; subst hs'; exact downAt_of_sgn hb' (by omega)
          | false => simp only [Bool.false_eq_true, ↓reduceIte] at hs' ⊢
                     subst hs'; exact upAt_of_sgn hb' (by omega)
      · intro i hi
        generalize (if (decide (m0.length % 2 = 1)) ^^ wantOdd then m0.dropLast else m0) = m
          at hi haltm hparity
        obtain ⟨b', hb', hsb'⟩ := altDir_getLast _ _ _ haltm i hi
        have hne : m ≠ [] := by rintro rfl; simp at hi
        cases wantOdd with
        | true =>
          simp only [↓reduceIte, hne, false_or] at hparity
          rw [if_pos hparity] at hsb'
          cases wantDown with
          | true => simp only [↓reduceIte] at hs' ⊢; subst hs'; exact downAt_of_sgn hb' (by omega)
          | false => simp only [Bool.false_eq_true, ↓reduceIte] at hs' ⊢
                     subst hs'; exact upAt_of_sgn hb' (by omega)
        | false =>
          simp only [Bool.false_eq_true, ↓reduceIte] at hparity
          rw [if_neg (by omega)] at hsb'
          cases wantDown with
          | true => simp only [↓reduceIte] at hs' ⊢
                    subst hs'; exact upAt_of_sgn hb' (by omega)
          | false => simp only [Bool.false_eq_true, ↓reduceIte] at hs' ⊢
                     subst hs'; exact downAt_of_sgn hb' (by omega)
    -- the two cases for the first crossing
    have key2 : ∀ (wantDown wantOdd : Bool), ∃ m p q,
        m = (let ind1 := if (decide (s = -1)) ^^ wantDown then (i0 :: rest).drop 1 else i0 :: rest
             if (decide (ind1.length % 2 = 1)) ^^ wantOdd then ind1.dropLast else ind1) ∧
          i0 :: rest = p ++ m ++ q ∧ p.length ≤ 1 ∧ q.length ≤ 1 ∧
          (∀ i ∈ p, if wantDown then UpAt x v i else DownAt x v i) ∧
          (∀ i, m.head? = some i → if wantDown then DownAt x v i else UpAt x v i) ∧
          (if wantOdd then m = [] ∨ m.length % 2 = 1 else m.length % 2 = 0) ∧
          (∀ i, m.getLast? = some i →
            if wantDown = wantOdd then DownAt x v i else UpAt x v i) := by
      intro wantDown wantOdd
      by_cases hx : ((decide (s = -1)) ^^ wantDown) = true
      · simp only [hx, ↓reduceIte]
        refine key _ [i0] wantDown wantOdd (-s) (drop_dir s hs wantDown hx) (by simp) (by simp) ?_ (altDir_drop _ _ _ halt)
        intro i hi
        simp at hi; subst hi
        exact ⟨b, hb, by simpa using hsb⟩
      · simp only [hx, Bool.false_eq_true, ↓reduceIte]
        exact key _ [] wantDown wantOdd s (keep_dir s hs wantDown hx) (by simp) (by simp) (by simp) halt
    obtain ⟨m, p, q, hm, h1, h2, h3, h4, h5, h6, h7⟩ :=
      key2 (startsDown kind) (oddKind kind)
    refine ⟨m, p, q, ?_, h1, h2, h3, h4, h5, h6, h7⟩
    · simp only [findcross, h, selectKind, hb, ha, hfd]
      rw [hm]
      simp only [List.mem_cons, List.not_mem_nil, or_false] at hk
      rcases hk with rfl | rfl | rfl | rfl <;>
        simp [startsDown, oddKind]

example : findcross ([1, -1, 1, -1, 1, -2] : List ℚ) 0 (some "uw") = .ok [1, 2, 3] := by
  decide +kernel
example : findcross ([1, -1, 1, -1, 1, -2] : List ℚ) 0 (some "cw") = .ok [1, 2, 3, 4] := by
  decide +kernel

/-! ### C05 -/

/-- The kinds accepted by `findcross`. -/
def documentedKinds : List (Option String) :=
  [none, some "du", some "all", some "d", some "u", some "dw", some "uw", some "tw", some "cw"]

/-- C05 (partial): an unknown kind raises `ValueError` whenever the signal has a crossing.  Missing:
signals without crossings, for which the code returns before checking (`C05_refuted`). -/
theorem C05_unknown_kind_partial (x : List α) (v : α) (l : List ℕ) (kind : Option String)
    (hk : kind ∉ documentedKinds) (h : findcross x v none = .ok l) (hl : l ≠ []) :
    findcross x v kind = .error .valueError := by
  rw [findcross_none_eq] at h
  rcases l with _ | ⟨i0, rest⟩
  · exact absurd rfl hl
  · simp only [findcross, h, selectKind]
    simp only [documentedKinds, List.mem_cons, List.not_mem_nil, or_false, not_or] at hk
    obtain ⟨k1, k2, k3, k4, k5, k6, k7, k8, k9⟩ := hk
    simp [k1, k2, k3, k4, k5, k6, k7, k8, k9]

/-- Documented kinds never raise `ValueError` (nor anything else) on non-empty signals. -/
theorem C05_known_kind_ok (x : List α) (v : α) (kind : Option String) (hk : kind ∈ documentedKinds)
    (hx : x ≠ []) : ∃ m, findcross x v kind = .ok m := by
  obtain ⟨l, hl, -⟩ := C01_findcross_exact x v hx
  simp only [documentedKinds, List.mem_cons, List.not_mem_nil, or_false] at hk
  have h0 := hl
  rw [findcross_none_eq] at h0
  rcases hk with rfl | rfl | rfl | rfl | rfl | rfl | rfl | rfl | rfl
  · exact ⟨l, hl⟩
  · rcases l with _ | ⟨i0, rest⟩ <;> simp [findcross, h0, selectKind]
  · rcases l with _ | ⟨i0, rest⟩ <;> simp [findcross, h0, selectKind]
  · exact ⟨_, (C03_findcross_du x v l hl).1⟩
  · exact ⟨_, (C03_findcross_du x v l hl).2.1⟩
  · obtain ⟨m, _, _, hm, -⟩ := C04_findcross_waves x v l "dw" (by simp) hl; exact ⟨m, hm⟩
  · obtain ⟨m, _, _, hm, -⟩ := C04_findcross_waves x v l "uw" (by simp) hl; exact ⟨m, hm⟩
  · obtain ⟨m, _, _, hm, -⟩ := C04_findcross_waves x v l "tw" (by simp) hl; exact ⟨m, hm⟩
  · obtain ⟨m, _, _, hm, -⟩ := C04_findcross_waves x v l "cw" (by simp) hl; exact ⟨m, hm⟩

/-- C05 is false as stated: a signal without crossings is accepted with any kind. -/
theorem C05_refuted : ¬ ∀ (x : List ℚ) (v : ℚ) (kind : Option String), x ≠ [] →
    kind ∉ documentedKinds → findcross x v kind = .error .valueError := by
  intro h
  have := h [1, 2] 0 (some "nonsense") (by simp) (by decide)
  revert this
  decide +kernel

example : (some "xx") ∉ documentedKinds ∧ findcross ([1, -1] : List ℚ) 0 none = .ok [0] := by
  decide +kernel

/-! ### C06 -/

/-- C06: at every crossing returned by `findcross`, `ecross` returns the time in `[t[i], t[i+1]]` at
which the chord through the two samples has the value `v`. -/
theorem C06_ecross_interpolates (t f : List α) (v : α) (l : List ℕ)
    (h : findcross f v none = .ok l) (i : ℕ) (hi : i ∈ l) (t0 t1 f0 f1 : α)
    (ht0 : t[i]? = some t0) (ht1 : t[i + 1]? = some t1) (hf0 : f[i]? = some f0)
    (hf1 : f[i + 1]? = some f1) (ht : t0 < t1) :
    ∃ tc, ecross1 t f v i = .ok tc ∧ t0 ≤ tc ∧ tc < t1 ∧
      f0 + (f1 - f0) / (t1 - t0) * (tc - t0) = v := by
  rw [findcross_none_eq] at h
  obtain ⟨a, b, ha, hb, hb0, hab⟩ := findcross0_prev _ _ h i hi
  obtain ⟨f0', h0, rfl⟩ := (signs_some_iff _ _ _ _).1 ha
  obtain ⟨f1', h1, rfl⟩ := (signs_some_iff _ _ _ _).1 hb
  rw [hf0] at h0; obtain rfl := Option.some.inj h0
  rw [hf1] at h1; obtain rfl := Option.some.inj h1
  have ht' : 0 < t1 - t0 := by linarith
  have hcase : (f0 ≤ v ∧ v < f1) ∨ (v ≤ f0 ∧ f1 < v) := by
    rcases lt_or_gt_of_ne hb0 with h2 | h2
    · right
      refine ⟨?_, (sgn_neg_iff _ _).1 h2⟩
      by_contra hc
      have := (sgn_neg_iff v f0).2 (not_le.1 hc)
      nlinarith
    · left
      refine ⟨?_, (sgn_pos_iff _ _).1 h2⟩
      by_contra hc
      have := (sgn_pos_iff v f0).2 (not_le.1 hc)
      nlinarith
  have hne : f1 - f0 ≠ 0 := by
    rcases hcase with ⟨h2, h3⟩ | ⟨h2, h3⟩
    · have : 0 < f1 - f0 := by linarith
      exact ne_of_gt this
    · have : f1 - f0 < 0 := by linarith
      exact ne_of_lt this
  have hq : 0 ≤ (v - f0) / (f1 - f0) ∧ (v - f0) / (f1 - f0) < 1 := by
    rcases hcase with ⟨h2, h3⟩ | ⟨h2, h3⟩
    · have hp : 0 < f1 - f0 := by linarith
      exact ⟨div_nonneg (by linarith) hp.le, (div_lt_one hp).2 (by linarith)⟩
    · have hp : f1 - f0 < 0 := by linarith
      exact ⟨div_nonneg_of_nonpos (by linarith) hp.le, (div_lt_one_of_neg hp).2 (by linarith)⟩
  have hrw : (v - f0) * (t1 - t0) / (f1 - f0) = (v - f0) / (f1 - f0) * (t1 - t0) := by ring
  refine ⟨t0 + (v - f0) * (t1 - t0) / (f1 - f0), ?_, ?_, ?_, ?_⟩
  · simp [ecross1, ht0, ht1, hf0, hf1, hne]
  · rw [hrw]; nlinarith [mul_nonneg hq.1 ht'.le]
  · rw [hrw]; nlinarith [mul_lt_mul_of_pos_right hq.2 ht']
  · have : t1 - t0 ≠ 0 := ne_of_gt ht'
    field_simp
    ring

example : findcross ([0, 2, -2] : List ℚ) 1 none = .ok [0, 1] ∧
    ecross1 ([10, 20, 30] : List ℚ) [0, 2, -2] 1 1 = .ok (45 / 2) := by
  decide +kernel

end Wafo.Cross

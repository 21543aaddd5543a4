import Verif.Poly.Horner
import Verif.Poly.Props

set_option linter.unusedSectionVars false

/-! Property C60: the text printed by `poly2hstr`. -/

namespace Wafo.Poly

variable {α : Type*} [Field α] [LinearOrder α] [IsStrictOrderedRing α]

/-- A text ending in the variable that stays a term of the expected value when an exponent is attached. -/
def Open (s : List (Tok α)) (q : α → α) : Prop :=
  s ≠ [] ∧ Reads .term s (fun x => q x * x) ∧ ∀ k, Reads .term (s ++ [.pow k]) (fun x => q x * x ^ k)

theorem Reads.congr {lv : Level} {ts : List (Tok α)} {f g : α → α} (h : Reads lv ts f) (e : ∀ x, f x = g x) :
    Reads lv ts g := by
  have : f = g := funext e
  exact this ▸ h

theorem open_first (c : α) (hc : c ≠ 0) (e : ℕ) (he : e ≠ 0) :
    Open (appendCoef [] c e) (fun _ => c) := by
  have hv : Reads (α := α) .factor [.var] (fun x => x) := .factor (.power .var)
  have hvp : ∀ k, Reads (α := α) .factor [.var, .pow k] (fun x => x ^ k) := fun k =>
    .factor (.pow (ts := [.var]) k .var)
  have hn : Reads (α := α) .factor [.num |c|] (fun _ => |c|) := .factor (.power (.num |c|))
  by_cases hneg : c < 0
  · by_cases h1 : |c| = 1
    · have hc1 : c = -1 := by rw [abs_of_neg hneg] at h1; linarith
      have e1 : appendCoef ([] : List (Tok α)) c e = [.minus, .var] := by
        simp [appendCoef, hneg, h1, he]
      rw [e1]
      refine ⟨by simp, (Reads.term (.neg hv)).congr (by intro x; rw [hc1]; ring), fun k => ?_⟩
      exact (Reads.term (.neg (hvp k))).congr (by intro x; rw [hc1]; ring)
    · have e1 : appendCoef ([] : List (Tok α)) c e = [.minus, .num |c|, .star, .var] := by
        simp [appendCoef, hneg, h1, he]
      rw [e1]
      have hm : Reads (α := α) .term [.minus, .num |c|] (fun _ => -|c|) := .term (.neg hn)
      refine ⟨by simp, (Reads.mul hm hv).congr (by intro x; rw [abs_of_neg hneg]; ring), fun k => ?_⟩
      exact (Reads.mul hm (hvp k)).congr (by intro x; rw [abs_of_neg hneg]; ring)
  · have hpos : 0 < c := lt_of_le_of_ne (not_lt.1 hneg) (Ne.symm hc)
    by_cases h1 : |c| = 1
    · have hc1 : c = 1 := by rw [abs_of_pos hpos] at h1; exact h1
      have e1 : appendCoef ([] : List (Tok α)) c e = [.var] := by
        simp [appendCoef, hneg, h1, he]
      rw [e1]
      refine ⟨by simp, (Reads.term hv).congr (by intro x; rw [hc1]; ring), fun k => ?_⟩
      exact (Reads.term (hvp k)).congr (by intro x; rw [hc1]; ring)
    · have e1 : appendCoef ([] : List (Tok α)) c e = [.num |c|, .star, .var] := by
        simp [appendCoef, hneg, h1, he]
      rw [e1]
      have hm : Reads (α := α) .term [.num |c|] (fun _ => |c|) := .term hn
      refine ⟨by simp, (Reads.mul hm hv).congr (by intro x; rw [abs_of_pos hpos]), fun k => ?_⟩
      exact (Reads.mul hm (hvp k)).congr (by intro x; rw [abs_of_pos hpos])

theorem closed_first (c : α) (hc : c ≠ 0) : Reads .sum (appendCoef [] c 0) (fun _ => c) := by
  have hn : Reads (α := α) .factor [.num |c|] (fun _ => |c|) := .factor (.power (.num |c|))
  by_cases hneg : c < 0
  · have e1 : appendCoef ([] : List (Tok α)) c 0 = [.minus, .num |c|] := by simp [appendCoef, hneg]
    rw [e1]
    exact (Reads.sum (.term (.neg hn))).congr (by intro x; rw [abs_of_neg hneg]; ring)
  · have hpos : 0 < c := lt_of_le_of_ne (not_lt.1 hneg) (Ne.symm hc)
    have e1 : appendCoef ([] : List (Tok α)) c 0 = [.num |c|] := by simp [appendCoef, hneg]
    rw [e1]
    exact (Reads.sum (.term hn)).congr (by intro x; rw [abs_of_pos hpos])

theorem reads_addnum (s : List (Tok α)) (g : α → α) (hs : Reads .term s g) (c : α) (hc : c ≠ 0) :
    Reads .sum (s ++ [if c < 0 then Tok.minus else Tok.plus] ++ [Tok.num |c|]) (fun x => g x + c) := by
  have hn : Reads (α := α) .term [.num |c|] (fun _ => |c|) := .term (.factor (.power (.num |c|)))
  by_cases hneg : c < 0
  · have := (Reads.sub (.sum hs) hn).congr (g := fun x => g x + c) (by intro x; rw [abs_of_neg hneg]; ring)
    simpa [hneg] using this
  · have hpos : 0 < c := lt_of_le_of_ne (not_lt.1 hneg) (Ne.symm hc)
    have := (Reads.add (.sum hs) hn).congr (g := fun x => g x + c) (by intro x; rw [abs_of_pos hpos])
    simpa [hneg] using this

theorem open_next (s : List (Tok α)) (hne : s ≠ []) (g : α → α) (hs : Reads .term s g) (c : α) (hc : c ≠ 0)
    (e : ℕ) (he : e ≠ 0) : Open (appendCoef s c e) (fun x => g x + c) := by
  have hsum := reads_addnum s g hs c hc
  have e1 : appendCoef s c e = (.lpar :: (s ++ [if c < 0 then Tok.minus else Tok.plus] ++ [Tok.num |c|]) ++ [.rpar])
      ++ .star :: [.var] := by
    simp [appendCoef, he, hne, List.isEmpty_iff]
  have ht := Reads.term (.factor (.power (.par hsum)))
  rw [e1]
  refine ⟨by simp, Reads.mul ht (.factor (.power .var)), fun k => ?_⟩
  have := Reads.mul ht (.factor (.pow k (Reads.var (α := α))))
  simpa using this

theorem closed_next (s : List (Tok α)) (hne : s ≠ []) (g : α → α) (hs : Reads .term s g) (c : α) (hc : c ≠ 0) :
    Reads .sum (appendCoef s c 0) (fun x => g x + c) := by
  have hsum := reads_addnum s g hs c hc
  have e1 : appendCoef s c 0 = s ++ [if c < 0 then Tok.minus else Tok.plus] ++ [Tok.num |c|] := by
    simp [appendCoef, hne, List.isEmpty_iff]
  rw [e1]; exact hsum

/-- The loop after at least one printed coefficient: `q` is the value of the part up to the last printed coefficient,
`ix - 1` zeros have been skipped since.  If the rest does not end with a zero the final text reads as the polynomial. -/
theorem loop_open (l : List α) : ∀ (s : List (Tok α)) (q : α → α) (ix : ℕ), Open s q → 1 ≤ ix → (l ≠ []) →
    (l.getLastD 0 ≠ 0) →
    Reads .sum (hstrLoop s ix l) (fun x => q x * x ^ (ix - 1 + l.length) + peval l x) := by
  induction l with
  | nil => intro s q ix _ _ h; exact absurd rfl h
  | cons c l ih =>
    intro s q ix hs hix _ hlast
    by_cases hc : c = 0
    · have hl : l ≠ [] := by rintro rfl; simp [hc] at hlast
      have hlast' : l.getLastD 0 ≠ 0 := by
        rw [List.getLastD_cons] at hlast
        rwa [hc] at hlast
      have := ih s q (ix + 1) hs (by omega) hl hlast'
      rw [show hstrLoop s ix (c :: l) = hstrLoop s (ix + 1) l by simp [hstrLoop, hc]]
      refine this.congr ?_
      intro x
      rw [peval_cons, hc, List.length_cons]
      rw [show ix + 1 - 1 + l.length = ix - 1 + (l.length + 1) by omega]
      ring
    · obtain ⟨hne, ht, hp⟩ := hs
      -- the text with the exponent attached
      have hterm : ∃ s1 : List (Tok α), s1 = (if 1 < ix then s ++ [Tok.pow ix] else s) ∧ s1 ≠ [] ∧
          Reads .term s1 (fun x => q x * x ^ ix) := by
        by_cases h1 : 1 < ix
        · exact ⟨_, rfl, by simp [h1], by simpa [h1] using hp ix⟩
        · have : ix = 1 := by omega
          subst this
          exact ⟨_, rfl, by simpa using hne, by simpa using ht⟩
      obtain ⟨s1, e1, hne1, hr1⟩ := hterm
      have hstep : hstrLoop s ix (c :: l) = hstrLoop (appendCoef s1 c l.length) 1 l := by
        simp only [hstrLoop, hc, if_false, e1]
      rw [hstep]
      by_cases hl : l = []
      · subst hl
        have := closed_next s1 hne1 _ hr1 c hc
        refine Reads.congr this ?_
        intro x
        simp only [List.length_cons, List.length_nil, peval_cons, peval_nil]
        rw [show ix - 1 + (0 + 1) = ix by omega]; ring
      · have hlen : l.length ≠ 0 := by simpa [List.length_eq_zero_iff] using hl
        have ho := open_next s1 hne1 _ hr1 c hc l.length hlen
        have hlast' : l.getLastD 0 ≠ 0 := by
          rw [List.getLastD_cons] at hlast
          obtain ⟨a, b, rfl⟩ : ∃ a b, l = a :: b := by
            cases l with
            | nil => exact absurd rfl hl
            | cons a b => exact ⟨a, b, rfl⟩
          simpa only [List.getLastD_cons] using hlast
        refine (ih _ _ 1 ho le_rfl hl hlast').congr ?_
        intro x
        rw [peval_cons, List.length_cons]
        rw [show ix - 1 + (l.length + 1) = ix + l.length by omega, pow_add]
        simp only [Nat.sub_self]
        ring

/-- Zeros at the end are skipped: the text does not change. -/
theorem loop_zeros (s : List (Tok α)) (ix z : ℕ) : hstrLoop s ix (List.replicate z 0) = s := by
  induction z generalizing ix with
  | zero => simp [hstrLoop]
  | succ z ih => simp [List.replicate_succ, hstrLoop, ih]

/-- The loop after one printed coefficient when the polynomial ends with `z >= 1` zeros. -/
theorem loop_open_zeros (l : List α) : ∀ (s : List (Tok α)) (q : α → α) (ix z : ℕ), Open s q → 1 ≤ ix → 1 ≤ z →
    (l = [] ∧ ix = 1 ∨ l.getLastD 0 ≠ 0) →
    Reads .term (hstrLoop s ix (l ++ List.replicate z 0))
      (fun x => q x * x ^ (ix - 1 + (l.length + 1)) + peval (l ++ [0]) x) := by
  induction l with
  | nil =>
    intro s q ix z hs hix hz h
    have h1 : ix = 1 := by
      rcases h with ⟨-, h⟩ | h
      · exact h
      · simp at h
    subst h1
    rw [List.nil_append, loop_zeros]
    refine hs.2.1.congr ?_
    intro x
    simp [peval]
  | cons c l ih =>
    intro s q ix z hs hix hz h
    have hlast : (c :: l).getLastD 0 ≠ 0 := by
      rcases h with ⟨h, -⟩ | h
      · simp at h
      · exact h
    by_cases hc : c = 0
    · have hl : l ≠ [] := by rintro rfl; simp [hc] at hlast
      have hlast' : l.getLastD 0 ≠ 0 := by
        rw [List.getLastD_cons] at hlast
        rwa [hc] at hlast
      have := ih s q (ix + 1) z hs (by omega) hz (Or.inr hlast')
      rw [show hstrLoop s ix (c :: l ++ List.replicate z 0) = hstrLoop s (ix + 1) (l ++ List.replicate z 0) by
        simp [hstrLoop, hc]]
      refine this.congr ?_
      intro x
      rw [List.cons_append, peval_cons, hc, List.length_cons]
      rw [show ix + 1 - 1 + (l.length + 1) = ix - 1 + (l.length + 1 + 1) by omega]
      ring
    · obtain ⟨hne, ht, hp⟩ := hs
      have hterm : ∃ s1 : List (Tok α), s1 = (if 1 < ix then s ++ [Tok.pow ix] else s) ∧ s1 ≠ [] ∧
          Reads .term s1 (fun x => q x * x ^ ix) := by
        by_cases h1 : 1 < ix
        · exact ⟨_, rfl, by simp [h1], by simpa [h1] using hp ix⟩
        · have : ix = 1 := by omega
          subst this
          exact ⟨_, rfl, by simpa using hne, by simpa using ht⟩
      obtain ⟨s1, e1, hne1, hr1⟩ := hterm
      have hstep : hstrLoop s ix (c :: l ++ List.replicate z 0)
          = hstrLoop (appendCoef s1 c (l ++ List.replicate z 0).length) 1 (l ++ List.replicate z 0) := by
        simp only [List.cons_append, hstrLoop, hc, if_false, e1]
      rw [hstep]
      have ho := open_next s1 hne1 _ hr1 c hc (l ++ List.replicate z 0).length (by simp; omega)
      have hlast' : l = [] ∧ 1 = 1 ∨ l.getLastD 0 ≠ 0 := by
        rw [List.getLastD_cons] at hlast
        cases l with
        | nil => exact Or.inl ⟨rfl, rfl⟩
        | cons a b => right; simpa only [List.getLastD_cons] using hlast
      refine (ih _ _ 1 z ho le_rfl hz hlast').congr ?_
      intro x
      rw [List.cons_append, peval_cons, List.length_cons, List.length_append, List.length_singleton]
      rw [show ix - 1 + (l.length + 1 + 1) = ix + (l.length + 1) by omega, pow_add]
      simp only [Nat.sub_self]
      ring

theorem hstrLoop_ne_nil (l : List α) : ∀ (s : List (Tok α)) (ix : ℕ), s ≠ [] → hstrLoop s ix l ≠ [] := by
  have hap : ∀ (s : List (Tok α)) (c : α) (e : ℕ), s ≠ [] → appendCoef s c e ≠ [] := by
    intro s c e hs
    by_cases he : e = 0 <;> simp [appendCoef, hs, List.isEmpty_iff, he]
  induction l with
  | nil => intro s ix h; simpa [hstrLoop] using h
  | cons c l ih =>
    intro s ix h
    simp only [hstrLoop]
    split
    · exact ih _ _ h
    · apply ih
      apply hap
      split <;> simp [h]

theorem polytrim_of_head (c : α) (l : List α) (hc : c ≠ 0) : polytrim (c :: l) = c :: l := by
  rw [polytrim_cons, if_neg hc]

theorem hstr_start (c : α) (l : List α) (hc : c ≠ 0) :
    poly2hstr (c :: l) = hstrLoop (appendCoef [] c l.length) 1 l := by
  have h0 : hstrLoop ([] : List (Tok α)) 1 (c :: l) = hstrLoop (appendCoef [] c l.length) 1 l := by
    simp [hstrLoop, hc]
  have hne : hstrLoop (appendCoef [] c l.length) 1 l ≠ [] := by
    apply hstrLoop_ne_nil
    by_cases hl : l.length = 0
    · simp [appendCoef, hl]
    · exact (open_first c hc l.length hl).1
  unfold poly2hstr
  rw [polytrim_of_head c l hc, h0, if_neg hne]

theorem getLastD_trim (p : List α) (c : α) (l : List α) (h : polytrim p = c :: l) (d : α) :
    p.getLastD d = (c :: l).getLastD d := by
  obtain ⟨-, -, ⟨n, hn⟩, -⟩ := C59_polytrim p
  rw [hn, h]
  rw [List.getLastD_eq_getLast?, List.getLast?_append]
  simp [List.getLastD_eq_getLast?, List.getLast?_cons]

/-- **C60** (part).  If the constant term is not zero, or the polynomial is zero, or it has exactly one factor of the
variable (last coefficient zero, the one before not), the printed text is a Python expression whose value is the
value of the polynomial at every point.  For two or more trailing zeros see `C60_trailing_zeros`. -/
theorem C60_poly2hstr_partial (p : List α)
    (h : (∀ c ∈ p, c = 0) ∨ p.getLastD 0 ≠ 0 ∨ (p.getLastD 0 = 0 ∧ p.dropLast.getLastD 0 ≠ 0)) :
    Reads .sum (poly2hstr p) (peval p) := by
  obtain ⟨t1, t2, ⟨n, t3⟩, t4⟩ := C59_polytrim p
  cases ht : polytrim p with
  | nil =>
    have e : poly2hstr p = [Tok.num 0] := by simp [poly2hstr, ht, hstrLoop]
    rw [e]
    have := Reads.sum (.term (.factor (.power (Reads.num (0 : α)))))
    refine this.congr ?_
    intro x
    rw [← t1 x, ht]; rfl
  | cons c l =>
    have hc : c ≠ 0 := t2 c (by rw [ht]; rfl)
    have hp : poly2hstr p = poly2hstr (c :: l) := by
      unfold poly2hstr
      rw [ht, polytrim_of_head c l hc]
    have hev : ∀ x, peval (c :: l) x = peval p x := by intro x; rw [← t1 x, ht]
    have hlastp := getLastD_trim p c l ht 0
    rw [hp, hstr_start c l hc]
    rcases h with h | h | ⟨h, h'⟩
    · exfalso
      apply hc
      apply h
      rw [t3, ht]; simp
    · rw [hlastp] at h
      by_cases hl : l = []
      · subst hl
        refine Reads.congr (closed_first c hc) ?_
        intro x; rw [← hev x]; simp [peval]
      · have hlen : l.length ≠ 0 := by simpa [List.length_eq_zero_iff] using hl
        have hlast' : l.getLastD 0 ≠ 0 := by
          rw [List.getLastD_cons] at h
          cases l with
          | nil => exact absurd rfl hl
          | cons a b => simpa only [List.getLastD_cons] using h
        refine (loop_open l _ _ 1 (open_first c hc l.length hlen) le_rfl hl hlast').congr ?_
        intro x
        rw [← hev x, peval_cons]; simp
    · rw [hlastp] at h
      have hl : l ≠ [] := by rintro rfl; simp at h; exact hc h
      have hlz : l.getLast hl = 0 := by
        rw [List.getLastD_cons, List.getLastD_eq_getLast?, List.getLast?_eq_getLast_of_ne_nil hl] at h
        simpa using h
      have el : l = l.dropLast ++ [0] := by rw [← hlz, List.dropLast_append_getLast]
      have hdl : p.dropLast.getLastD 0 = (c :: l.dropLast).getLastD 0 := by
        rw [t3, ht, List.dropLast_append_of_ne_nil (by simp), List.dropLast_cons_of_ne_nil hl,
          List.getLastD_eq_getLast?, List.getLast?_append]
        simp [List.getLastD_eq_getLast?, List.getLast?_cons]
      rw [hdl] at h'
      have hcase : l.dropLast = [] ∧ 1 = 1 ∨ l.dropLast.getLastD 0 ≠ 0 := by
        cases hd : l.dropLast with
        | nil => exact Or.inl ⟨rfl, rfl⟩
        | cons a b =>
          right
          rw [hd, List.getLastD_cons] at h'
          simpa only [List.getLastD_cons] using h'
      have hlen : l.length ≠ 0 := by simpa [List.length_eq_zero_iff] using hl
      have := loop_open_zeros l.dropLast _ _ 1 1 (open_first c hc l.length hlen) le_rfl le_rfl hcase
      simp only [List.replicate_one] at this
      rw [← el] at this
      refine Reads.congr (Reads.sum this) ?_
      intro x
      rw [← hev x, peval_cons, List.length_dropLast]
      have : l.length - 1 + 1 = l.length := by omega
      simp [this]

/-- **C60** negated: any polynomial that ends with two or more zeros is printed like the same polynomial ending with a
single zero, so the exponent is lost. -/
theorem C60_trailing_zeros (p : List α) (hp : ∃ c ∈ p, c ≠ 0) (z : ℕ) (hz : 1 ≤ z) :
    poly2hstr (p ++ List.replicate z 0) = poly2hstr (p ++ [0]) := by
  obtain ⟨t1, t2, ⟨n, t3⟩, t4⟩ := C59_polytrim p
  have key : ∀ z : ℕ, polytrim (p ++ List.replicate z 0) = polytrim p ++ List.replicate z 0 := by
    intro z
    obtain ⟨c, hc, hc0⟩ := hp
    clear t1 t2 t3 t4
    induction p with
    | nil => simp at hc
    | cons d l ih =>
      rw [List.cons_append, polytrim_cons, polytrim_cons]
      by_cases hd : d = 0
      · rw [if_pos hd, if_pos hd]
        apply ih
        rcases List.mem_cons.1 hc with h | h
        · exact absurd (h.trans hd) hc0
        · exact h
      · rw [if_neg hd, if_neg hd]; simp
  have hne : ∃ c l, polytrim p = c :: l := by
    cases ht : polytrim p with
    | nil =>
      exfalso
      obtain ⟨c, hc, hc0⟩ := hp
      rw [t3, ht, List.append_nil] at hc
      exact hc0 (List.eq_of_mem_replicate hc)
    | cons c l => exact ⟨c, l, rfl⟩
  obtain ⟨c, l, ht⟩ := hne
  have hc : c ≠ 0 := t2 c (by rw [ht]; rfl)
  have aux : ∀ (l : List α) (s : List (Tok α)) (ix z w : ℕ), 1 ≤ z → 1 ≤ w → s ≠ [] →
      hstrLoop s ix (l ++ List.replicate z 0) = hstrLoop s ix (l ++ List.replicate w 0) := by
    intro l
    induction l with
    | nil => intro s ix z w _ _ _; rw [List.nil_append, List.nil_append, loop_zeros, loop_zeros]
    | cons d l ih =>
      intro s ix z w hz hw hs
      simp only [List.cons_append, hstrLoop]
      split
      · exact ih _ _ z w hz hw hs
      · have he : appendCoef (if 1 < ix then s ++ [Tok.pow ix] else s) d (l ++ List.replicate z 0).length
            = appendCoef (if 1 < ix then s ++ [Tok.pow ix] else s) d (l ++ List.replicate w 0).length := by
          have h1 : (l ++ List.replicate z (0 : α)).length ≠ 0 := by simp; omega
          have h2 : (l ++ List.replicate w (0 : α)).length ≠ 0 := by simp; omega
          simp only [appendCoef, h1, h2, ne_eq, not_false_eq_true, if_true, decide_false]
        rw [he]
        have hne2 : appendCoef (if 1 < ix then s ++ [Tok.pow ix] else s) d (l ++ List.replicate w 0).length ≠ [] := by
          have h2 : (l ++ List.replicate w (0 : α)).length ≠ 0 := by simp; omega
          unfold appendCoef
          rw [if_pos h2]
          simp
        exact ih _ _ z w hz hw hne2
  have e : ∀ z : ℕ, 1 ≤ z → poly2hstr (p ++ List.replicate z 0)
      = hstrLoop (appendCoef [] c (l ++ List.replicate z 0).length) 1 (l ++ List.replicate z 0) := by
    intro z hz
    have h1 : poly2hstr (p ++ List.replicate z 0) = poly2hstr (c :: (l ++ List.replicate z 0)) := by
      unfold poly2hstr
      rw [key, ht, List.cons_append, polytrim_of_head c _ hc]
    rw [h1, hstr_start c _ hc]
  rw [e z hz, show p ++ [0] = p ++ List.replicate 1 0 by simp, e 1 le_rfl]
  have he : appendCoef [] c (l ++ List.replicate z 0).length
      = appendCoef [] c (l ++ List.replicate 1 0).length := by
    have h1 : (l ++ List.replicate z (0 : α)).length ≠ 0 := by simp; omega
    have h2 : (l ++ List.replicate 1 (0 : α)).length ≠ 0 := by simp
    simp only [appendCoef, h1, h2, ne_eq, not_false_eq_true, if_true, decide_false]
  rw [he]
  exact aux l _ 1 z 1 hz le_rfl (by
    have h2 : (l ++ List.replicate 1 (0 : α)).length ≠ 0 := by simp
    exact (open_first c hc _ h2).1)

/-- **C60**, concrete failure: `x**2` is printed as `x`, which reads as the identity. -/
theorem C60_square_refuted :
    poly2hstr [(1 : ℚ), 0, 0] = [Tok.var] ∧ Reads .sum (poly2hstr [(1 : ℚ), 0, 0]) (fun x => x) ∧
      (fun x : ℚ => x) ≠ peval [1, 0, 0] := by
  have e : poly2hstr [(1 : ℚ), 0, 0] = [Tok.var] := by decide +kernel
  refine ⟨e, by rw [e]; exact .sum (.term (.factor (.power .var))), ?_⟩
  intro h
  have := congrFun h 2
  revert this
  decide +kernel

/-- Instance of C60: `2*x**3 + 2*x + 1` is printed as `(2*x**2 + 2)*x + 1`. -/
example : poly2hstr [(2 : ℚ), 0, 2, 1] = [.lpar, .num 2, .star, .var, .pow 2, .plus, .num 2, .rpar, .star, .var,
    .plus, .num 1] := by decide +kernel

end Wafo.Poly

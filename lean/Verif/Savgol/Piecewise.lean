import Verif.Savgol.Model
import Mathlib.Data.Rat.Floor
import Mathlib.Algebra.Order.Field.Rat
import Mathlib.Data.List.Chain
import Mathlib.Tactic.Linarith

/-!
Property C89: `savitzky_golay_piecewise` smooths the monotone pieces of the abscissa separately.
-/

set_option linter.unusedSectionVars false

namespace Wafo.Savgol

variable {α : Type*} [Field α] [LinearOrder α] [IsStrictOrderedRing α]

/-! ### Specification -/

/-- Never falls. -/
def Rising (l : List α) : Prop := l.IsChain (· ≤ ·)

/-- Never rises. -/
def Falling (l : List α) : Prop := l.IsChain (fun a b => b ≤ a)

/-- Cut the data into pieces of the same lengths as the pieces of the abscissa. -/
def cutLike {β γ : Type*} : List (List β) → List γ → List (List γ)
  | [], _ => []
  | p :: ps, d => d.take p.length :: cutLike ps (d.drop p.length)

/-- `q` follows `p`: the piece `p` has at least two samples, and it could not have been extended by the first sample of `q`
unless its first two samples are equal. -/
def Cut (p q : List α) : Prop :=
  2 ≤ p.length ∧ ∀ h ∈ q.head?, p[0]? ≠ p[1]? → ¬ Rising (p ++ [h]) ∧ ¬ Falling (p ++ [h])

/-! ### Lemmas -/

/-- Order in the direction of travel. -/
def dirLe (up : Bool) (a b : α) : Prop := if up then a ≤ b else b ≤ a

theorem turnGo_zero (up : Bool) : ∀ (l : List α) (prev : α) (i : ℕ), 1 ≤ i → turnGo up prev i l = 0 →
    (prev :: l).IsChain (dirLe up)
  | [], prev, i, _, _ => by simp
  | x :: l, prev, i, hi, h => by
    unfold turnGo at h
    by_cases c : (if up then x < prev else x > prev)
    · rw [if_pos c] at h; omega
    · rw [if_neg c] at h
      rw [List.isChain_cons_cons]
      refine ⟨?_, turnGo_zero up l x (i + 1) (by omega) h⟩
      unfold dirLe
      cases up <;> simpa using c

theorem turnGo_pos (up : Bool) : ∀ (l : List α) (prev : α) (i t : ℕ), 1 ≤ i → turnGo up prev i l = t → t ≠ 0 →
    ∃ s b r, l = s ++ b :: r ∧ t = i + s.length ∧ (prev :: s).IsChain (dirLe up) ∧
      ¬ (prev :: s ++ [b]).IsChain (dirLe up)
  | [], prev, i, t, _, h, h0 => by
    simp [turnGo] at h; omega
  | x :: l, prev, i, t, hi, h, h0 => by
    unfold turnGo at h
    by_cases c : (if up then x < prev else x > prev)
    · rw [if_pos c] at h
      refine ⟨[], x, l, rfl, by simpa using h.symm, by simp, ?_⟩
      intro hc
      simp only [List.cons_append, List.nil_append, List.isChain_cons_cons] at hc
      have := hc.1
      unfold dirLe at this
      cases up <;> simp at c this <;> linarith
    · rw [if_neg c] at h
      obtain ⟨s, b, r, h1, h2, h3, h4⟩ := turnGo_pos up l x (i + 1) t (by omega) h h0
      refine ⟨x :: s, b, r, by rw [h1]; rfl, by rw [h2]; simp; omega, ?_, ?_⟩
      · rw [List.isChain_cons_cons]
        refine ⟨?_, h3⟩
        unfold dirLe
        cases up <;> simpa using c
      · intro hc
        simp only [List.cons_append, List.isChain_cons_cons] at hc
        exact h4 hc.2

theorem dirLe_true : (dirLe true : α → α → Prop) = (· ≤ ·) := by funext a b; simp [dirLe]

theorem dirLe_false : (dirLe false : α → α → Prop) = fun a b => b ≤ a := by funext a b; simp [dirLe]

theorem dir_mono (up : Bool) (l : List α) (h : l.IsChain (dirLe up)) : Rising l ∨ Falling l := by
  cases up
  · right; unfold Falling; rwa [dirLe_false] at h
  · left; unfold Rising; rwa [dirLe_true] at h

theorem piecewise_zero (smooth : List α → Except PyErr (List α)) (x data : List α) (h : getTurn x = .ok 0) :
    piecewise smooth x data = smooth data := by
  rw [piecewise]
  split
  · rename_i e he; rw [h] at he; cases he
  · rename_i t ht
    rw [h] at ht
    cases ht
    rw [dif_pos rfl]

theorem piecewise_succ (smooth : List α → Except PyErr (List α)) (x data : List α) (t : ℕ) (h : getTurn x = .ok t)
    (h0 : t ≠ 0) :
    piecewise smooth x data = (do
      let first ← smooth (data.take t)
      let rest ← piecewise smooth (x.drop t) (data.drop t)
      pure (first ++ rest)) := by
  conv_lhs => rw [piecewise]
  split
  · rename_i e he; rw [h] at he; cases he
  · rename_i t' ht
    rw [h] at ht
    cases ht
    rw [dif_neg h0]
    cases h1 : smooth (data.take t) with
    | error e => rfl
    | ok first =>
      cases h2 : piecewise smooth (x.drop t) (data.drop t) with
      | error e => rfl
      | ok rest => rfl

theorem getTurn_cons (a b : α) (l : List α) :
    getTurn (a :: b :: l) = .ok (turnGo (decide (a < b)) a 1 (b :: l)) := rfl

/-- The pieces and what is done with them. -/
theorem pieces_exist (n : ℕ) : ∀ (x : List α), x.length ≤ n → 1 ≤ x.length →
    ∃ ps : List (List α), ps ≠ [] ∧ ps.flatten = x ∧ (∀ p ∈ ps, p ≠ [] ∧ (Rising p ∨ Falling p)) ∧ ps.IsChain Cut ∧
      ∀ (smooth : List α → Except PyErr (List α)) (data : List α), data.length = x.length →
        ((∀ p ∈ ps.getLast?, 2 ≤ p.length) →
          piecewise smooth x data = ((cutLike ps data).mapM smooth).map List.flatten) ∧
        ((∀ p ∈ ps.getLast?, p.length = 1) → (∀ d, ∃ r, smooth d = .ok r) →
          piecewise smooth x data = .error .indexError) := by
  induction n with
  | zero => intro x h1 h2; omega
  | succ n ih =>
    intro x h1 h2
    match x, h1, h2 with
    | [a], _, _ =>
      refine ⟨[[a]], by simp, by simp, ?_, by simp, ?_⟩
      · intro p hp
        simp only [List.mem_singleton] at hp
        subst hp
        exact ⟨by simp, Or.inl (by unfold Rising; simp)⟩
      · intro smooth data _
        refine ⟨fun h => ?_, fun _ _ => ?_⟩
        · have := h [a] (by simp)
          simp at this
        · rw [piecewise]; rfl
    | a :: b :: l, h1, _ =>
      have hg := getTurn_cons a b l
      by_cases ht : turnGo (decide (a < b)) a 1 (b :: l) = 0
      · rw [ht] at hg
        have hm := turnGo_zero _ _ _ _ (le_refl 1) ht
        refine ⟨[a :: b :: l], by simp, by simp, ?_, by simp, ?_⟩
        · intro p hp
          simp only [List.mem_singleton] at hp
          subst hp
          exact ⟨by simp, dir_mono _ _ hm⟩
        · intro smooth data hdata
          refine ⟨fun _ => ?_, fun h => ?_⟩
          · rw [piecewise_zero smooth _ data hg]
            simp only [cutLike]
            rw [← hdata, List.take_length]
            cases hs : smooth data with
            | error e => simp [hs]; rfl
            | ok r => simp [hs, Except.map]
          · have := h (a :: b :: l) (by simp)
            simp at this
      · obtain ⟨s, c, r, e1, e2, e3, e4⟩ := turnGo_pos _ _ _ _ _ (le_refl 1) rfl ht
        rw [e2] at hg
        -- the first piece has at least two samples
        have hs2 : ∃ s', s = b :: s' := by
          rcases s with _ | ⟨b', s'⟩
          · exfalso
            simp only [List.nil_append, List.cons.injEq] at e1
            obtain ⟨rfl, -⟩ := e1
            apply e4
            simp only [List.cons_append, List.nil_append, List.isChain_cons_cons, List.isChain_singleton, and_true]
            unfold dirLe
            by_cases c : a < b
            · simp [c, le_of_lt c]
            · simp only [c, decide_false]; exact le_of_not_gt c
          · simp only [List.cons_append, List.cons.injEq] at e1
            exact ⟨s', by rw [e1.1]⟩
        obtain ⟨s', rfl⟩ := hs2
        have e1' : l = s' ++ c :: r := by simpa using e1
        have hlen : (c :: r).length ≤ n := by
          have : (a :: b :: l).length ≤ n + 1 := h1
          rw [e1'] at this
          simp at this ⊢; omega
        obtain ⟨ps, p0, p1, p2, p3, p4⟩ := ih (c :: r) hlen (by simp)
        have hdrop : (a :: b :: l).drop (1 + (b :: s').length) = c :: r := by
          rw [e1', show 1 + (b :: s').length = (a :: b :: s').length by simp; omega,
            show a :: b :: (s' ++ c :: r) = (a :: b :: s') ++ c :: r by simp, List.drop_left]
        refine ⟨(a :: b :: s') :: ps, by simp, ?_, ?_, ?_, ?_⟩
        · simp [p1, e1']
        · intro p hp
          rcases List.mem_cons.1 hp with rfl | hp
          · exact ⟨by simp, dir_mono _ _ e3⟩
          · exact p2 p hp
        · rw [List.isChain_cons]
          refine ⟨?_, p3⟩
          intro q hq
          refine ⟨by simp, ?_⟩
          intro h hh hne
          -- the head of the next piece is `c`
          have hc : h = c := by
            rcases ps with _ | ⟨q', ps⟩
            · simp at hq
            · simp only [List.head?_cons, Option.mem_some_iff] at hq
              subst hq
              rcases q' with _ | ⟨w, q'⟩
              · simp at hh
              · simp only [List.head?_cons, Option.mem_some_iff] at hh
                simp only [List.flatten_cons, List.cons_append, List.cons.injEq] at p1
                rw [← hh, p1.1]
          subst hc
          have hab : a ≠ b := by simpa using hne
          rcases lt_or_gt_of_ne hab with hlt | hgt
          · constructor
            · intro hr
              apply e4
              simp only [hlt, decide_true]
              rw [dirLe_true]; exact hr
            · intro hf
              unfold Falling at hf
              simp only [List.cons_append, List.isChain_cons_cons] at hf
              exact absurd hf.1 (not_le.2 hlt)
          · constructor
            · intro hr
              unfold Rising at hr
              simp only [List.cons_append, List.isChain_cons_cons] at hr
              exact absurd hr.1 (not_le.2 hgt)
            · intro hf
              apply e4
              have : ¬ a < b := not_lt.2 (le_of_lt hgt)
              simp only [this, decide_false]
              rw [dirLe_false]; exact hf
        · intro smooth data hdata
          have hpw := piecewise_succ smooth (a :: b :: l) data _ hg (by omega)
          rw [hdrop] at hpw
          have hd2 : (data.drop (1 + (b :: s').length)).length = (c :: r).length := by
            rw [List.length_drop, hdata, ← List.length_drop, hdrop]
          obtain ⟨q1, q2⟩ := p4 smooth (data.drop (1 + (b :: s').length)) hd2
          have hlast : ((a :: b :: s') :: ps).getLast? = ps.getLast? := by
            rcases ps with _ | ⟨q', ps⟩
            · exact absurd rfl p0
            · rw [List.getLast?_cons_cons]
          have hL : (a :: b :: s').length = 1 + (b :: s').length := by simp; omega
          refine ⟨fun h => ?_, fun h hs => ?_⟩
          · rw [hpw, q1 (by rw [← hlast]; exact h)]
            simp only [cutLike]
            rw [hL, List.mapM_cons]
            cases h1 : smooth (data.take (1 + (b :: s').length)) with
            | error e => rfl
            | ok first =>
              cases h2 : (cutLike ps (data.drop (1 + (b :: s').length))).mapM smooth with
              | error e => rfl
              | ok rest => rfl
          · obtain ⟨f, hf⟩ := hs (data.take (1 + (b :: s').length))
            rw [hpw, q2 (by rw [← hlast]; exact h) hs, hf]
            rfl

/-! ### Properties -/

/-- **C89, what holds.**  Every abscissa with at least two samples is cut into consecutive non-empty monotone pieces; a piece
followed by another one cannot be extended unless its first two samples are equal.  If the last piece has two or more samples,
the result is the concatenation of the separately smoothed pieces of the data, for every smoother; if it is a single sample,
IndexError is raised. -/
theorem C89_pieces_partial (x : List α) (hx : 2 ≤ x.length) :
    ∃ ps : List (List α), ps.flatten = x ∧ (∀ p ∈ ps, p ≠ [] ∧ (Rising p ∨ Falling p)) ∧ ps.IsChain Cut ∧
      ∀ (smooth : List α → Except PyErr (List α)) (data : List α), data.length = x.length →
        ((∀ p ∈ ps.getLast?, 2 ≤ p.length) →
          piecewise smooth x data = ((cutLike ps data).mapM smooth).map List.flatten) ∧
        ((∀ p ∈ ps.getLast?, p.length = 1) → (∀ d, ∃ r, smooth d = .ok r) →
          piecewise smooth x data = .error .indexError) := by
  obtain ⟨ps, -, h1, h2, h3, h4⟩ := pieces_exist x.length x (le_refl _) (by omega)
  exact ⟨ps, h1, h2, h3, h4⟩

/-- **C89 refuted.**  A turn at the last sample raises IndexError whatever the smoother does, and an abscissa that starts
with two equal samples and then rises raises IndexError though it never turns. -/
theorem C89_refuted (smooth : List ℚ → Except PyErr (List ℚ)) (hs : ∀ d, ∃ r, smooth d = .ok r) (data : List ℚ) :
    piecewise smooth [0, 1, 0] data = .error .indexError ∧ piecewise smooth [0, 0, 1] data = .error .indexError := by
  obtain ⟨f, hf⟩ := hs (data.take 2)
  have hone : ∀ (a : ℚ) d, piecewise smooth [a] d = .error .indexError := by
    intro a d; rw [piecewise]; rfl
  constructor
  · rw [piecewise_succ smooth [0, 1, 0] data 2 (by decide +kernel) (by norm_num), hf]
    simp only [List.drop]
    rw [hone]; rfl
  · rw [piecewise_succ smooth [0, 0, 1] data 2 (by decide +kernel) (by norm_num), hf]
    simp only [List.drop]
    rw [hone]; rfl

/-- A triangle wave is cut at its turns; reversing each piece of the data stands for the smoother. -/
example : piecewise (fun d => .ok d.reverse) ([0, 1, 2, 1, 0, 3, 4] : List ℚ) [1, 2, 3, 4, 5, 6, 7] =
    .ok [3, 2, 1, 5, 4, 7, 6] := by
  rw [piecewise_succ _ _ _ 3 (by decide +kernel) (by norm_num)]
  simp only [List.drop, List.take]
  rw [piecewise_succ _ _ _ 2 (by decide +kernel) (by norm_num)]
  simp only [List.drop, List.take]
  rw [piecewise_zero _ _ _ (by decide +kernel)]
  rfl

end Wafo.Savgol

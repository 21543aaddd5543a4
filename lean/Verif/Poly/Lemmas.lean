import Verif.Poly.Model
import Mathlib.Tactic.FieldSimp
import Mathlib.Algebra.CharZero.Defs

set_option linter.unusedSectionVars false

/-! Helper lemmas about coefficient lists. -/

namespace Wafo.Poly

variable {α : Type*} [Field α]

theorem peval_append_singleton (l : List α) (c t : α) : peval (l ++ [c]) t = peval l t * t + c := by
  simp [peval]

theorem foldl_acc (l : List α) (t a : α) :
    l.foldl (fun acc c => acc * t + c) a = a * t ^ l.length + peval l t := by
  induction l generalizing a with
  | nil => simp [peval]
  | cons c l ih =>
    unfold peval
    simp only [List.foldl_cons, List.length_cons]
    rw [ih, ih (0 * t + c)]
    ring

theorem peval_cons (c : α) (l : List α) (t : α) : peval (c :: l) t = c * t ^ l.length + peval l t := by
  have := foldl_acc l t (0 * t + c)
  unfold peval at *
  simp only [List.foldl_cons]
  rw [this]; ring

theorem peval_nil (t : α) : peval ([] : List α) t = 0 := rfl

/-! ### der1 / int1 -/

theorem int1_length (p : List α) (k : α) : (int1 p k).length = p.length + 1 := by simp [int1]

theorem der1_length (p : List α) : (der1 p).length = p.length - 1 := by simp [der1]

theorem der1_int1 [CharZero α] (p : List α) (k : α) : der1 (int1 p k) = p := by
  have hl := int1_length p k
  apply List.ext_getElem
  · rw [der1_length, hl]; rfl
  · intro i h1 h2
    have hdrop : (int1 p k).dropLast = List.zipWith (fun c (i : ℕ) => c / ((p.length - i : ℕ) : α)) p (List.range p.length) := by
      simp [int1]
    simp only [der1, hl, List.getElem_zipWith, List.getElem_range, hdrop]
    have : ((p.length - i : ℕ) : α) ≠ 0 := by
      exact_mod_cast (by omega : p.length - i ≠ 0)
    rw [show p.length + 1 - 1 - i = p.length - i by omega]
    field_simp

theorem der1_cons (c : α) (l : List α) (hl : l ≠ []) : der1 (c :: l) = ((l.length : ℕ) : α) * c :: der1 l := by
  obtain ⟨n, hn⟩ : ∃ n, l.length = n + 1 :=
    ⟨l.length - 1, by have := List.length_pos_iff.2 hl; omega⟩
  apply List.ext_getElem
  · simp [der1_length, hn]
  · intro i h1 h2
    cases i with
    | zero => simp [der1, List.dropLast_cons_of_ne_nil hl]
    | succ i =>
      simp only [der1, List.dropLast_cons_of_ne_nil hl, List.getElem_zipWith, List.getElem_cons_succ,
        List.getElem_range, List.length_cons]
      congr 2
      omega

/-! ### polyreloc -/

/-- Synthetic division: the running value of Horner's scheme at `-x`. -/
def synth (x : α) : α → List α → List α
  | _, [] => []
  | prev, c :: l => (c - x * prev) :: synth x (c - x * prev) l

theorem synth_length (x prev : α) (l : List α) : (synth x prev l).length = l.length := by
  induction l generalizing prev with
  | nil => rfl
  | cons c l ih => simp [synth, ih]

/-- A pass over the first `ii` entries is synthetic division on them. -/
theorem relocPass_aux (x : α) (done : List α) (prev : α) (l rest : List α) :
    (List.range' (done.length + 1) l.length).foldl
      (fun r i => r.set i (id (r.getD i 0 - x * r.getD (i - 1) 0))) (done ++ [prev] ++ l ++ rest)
      = done ++ [prev] ++ synth x prev l ++ rest := by
  induction l generalizing done prev with
  | nil => simp [synth]
  | cons c l ih =>
    rw [List.length_cons, List.range'_succ, List.foldl_cons]
    have e : (done ++ [prev] ++ c :: l ++ rest).set (done.length + 1)
        (id ((done ++ [prev] ++ c :: l ++ rest).getD (done.length + 1) 0
          - x * (done ++ [prev] ++ c :: l ++ rest).getD (done.length + 1 - 1) 0))
        = (done ++ [prev]) ++ [c - x * prev] ++ l ++ rest := by
      have g1 : (done ++ [prev] ++ c :: l ++ rest).getD (done.length + 1) 0 = c := by
        rw [List.getD_eq_getElem?_getD, List.append_assoc,
          List.getElem?_append_right (by simp)]
        simp
      have g2 : (done ++ [prev] ++ c :: l ++ rest).getD (done.length + 1 - 1) 0 = prev := by
        rw [List.getD_eq_getElem?_getD, List.append_assoc, List.append_assoc,
          List.getElem?_append_right (by simp)]
        simp
      rw [g1, g2]
      rw [List.append_assoc, List.set_append_right _ _ (by simp)]
      simp
    rw [e]
    have h := ih (done ++ [prev]) (c - x * prev)
    simp only [List.length_append, List.length_cons, List.length_nil] at h ⊢
    rw [show done.length + 1 + 1 = done.length + (0 + 1) + 1 by omega, h]
    simp [synth]

theorem relocPass_eq (x : α) (c : α) (l rest : List α) :
    relocPass id x (l.length + 1) (c :: l ++ rest) = synth x 0 (c :: l) ++ rest := by
  have h := relocPass_aux x [] c l rest
  simp only [List.nil_append, List.length_nil] at h
  simpa [relocPass, synth] using h

/-- Division of the polynomial by `s + x`. -/
theorem synth_eval (x s prev : α) (l : List α) (hl : l ≠ []) :
    prev * s ^ l.length + peval l s
      = (prev * s ^ (l.length - 1) + peval (synth x prev l).dropLast s) * (s + x)
        + (synth x prev l).getLast (by
          intro h; apply hl; have := synth_length x prev l; rw [h] at this
          exact List.length_eq_zero_iff.1 this.symm) := by
  induction l generalizing prev with
  | nil => exact absurd rfl hl
  | cons c l ih =>
    by_cases hl2 : l = []
    · subst hl2
      simp [synth, peval]; ring
    · have hs : synth x (c - x * prev) l ≠ [] := by
        intro h; have := synth_length x (c - x * prev) l; rw [h] at this
        exact hl2 (List.length_eq_zero_iff.1 this.symm)
      have h := ih (c - x * prev) hl2
      have hlen : l.length = (l.length - 1) + 1 := by have := List.length_pos_iff.2 hl2; omega
      rw [peval_cons]
      simp only [synth, List.dropLast_cons_of_ne_nil hs, List.getLast_cons hs, List.length_cons,
        Nat.add_sub_cancel, peval_cons, List.length_dropLast, synth_length]
      have h2 : peval l s = ((c - x * prev) * s ^ (l.length - 1)
          + peval (synth x (c - x * prev) l).dropLast s) * (s + x)
          + (synth x (c - x * prev) l).getLast hs - (c - x * prev) * s ^ l.length := by
        rw [← h]; ring
      rw [h2]
      have hp : s ^ l.length = s ^ (l.length - 1) * s := by
        conv_lhs => rw [hlen, pow_succ]
      rw [pow_succ, hp]
      ring

/-- The relocation loop evaluates the polynomial at the shifted point; the entries beyond the first `n` stay. -/
theorem relocLoop_eval (x : α) (n : ℕ) : ∀ (l rest : List α), l.length = n →
    ∃ l', relocLoop id x n (l ++ rest) = l' ++ rest ∧ l'.length = n ∧ ∀ t, peval l' t = peval l (t - x) := by
  induction n with
  | zero => intro l rest h; exact ⟨[], by simp [relocLoop, List.length_eq_zero_iff.1 h], rfl, by
      simp [List.length_eq_zero_iff.1 h, peval]⟩
  | succ n ih =>
    intro l rest h
    by_cases hn : 1 < n + 1
    · obtain ⟨c, l, rfl⟩ : ∃ c l', l = c :: l' := by
        cases l with
        | nil => simp at h
        | cons c l => exact ⟨c, l, rfl⟩
      have hlen : l.length = n := by simpa using h
      set q := synth x 0 (c :: l) with hq
      have hql : q.length = n + 1 := by rw [hq, synth_length]; simp [hlen]
      have hqne : q ≠ [] := by intro h0; rw [h0] at hql; simp at hql
      have step : relocLoop id x (n + 1) (c :: l ++ rest)
          = relocLoop id x n (q.dropLast ++ (q.getLast hqne :: rest)) := by
        simp only [relocLoop, hn, if_true]
        rw [← hlen, relocPass_eq, ← hq]
        congr 1
        conv_lhs => rw [← List.dropLast_append_getLast hqne]
        simp
      obtain ⟨l', e1, e2, e3⟩ := ih q.dropLast (q.getLast hqne :: rest) (by simp [hql])
      refine ⟨l' ++ [q.getLast hqne], ?_, by simp [e2], ?_⟩
      · rw [step, e1]; simp
      · intro t
        rw [peval_append_singleton, e3]
        have hs := synth_eval x (t - x) 0 (c :: l) (by simp)
        simp only [zero_mul, zero_add, ← hq] at hs
        rw [hs]; ring
    · have h0 : n = 0 := by omega
      subst h0
      refine ⟨l, by simp [relocLoop], h, ?_⟩
      intro t
      obtain ⟨c, rfl⟩ := List.length_eq_one_iff.1 h
      simp [peval]

theorem polyreloc_eval (p : List α) (hp : p ≠ []) (x y : α) :
    ∃ r, polyreloc id p x y = .ok r ∧ r.length = p.length ∧ ∀ t, peval r t = peval p (t - x) + y := by
  obtain ⟨l', e1, e2, e3⟩ := relocLoop_eval x p.length p [] rfl
  rw [List.append_nil, List.append_nil] at e1
  have hl' : l' ≠ [] := by
    intro h; rw [h] at e2; exact hp (List.length_eq_zero_iff.1 e2.symm)
  have hset : ∀ v : α, l'.set (l'.length - 1) v = l'.dropLast ++ [v] := by
    intro v
    conv_lhs => rw [← List.dropLast_append_getLast hl']
    rw [List.set_append_right _ _ (by simp)]
    simp
  have hget : l'.getD (l'.length - 1) 0 = l'.getLast hl' := by
    rw [List.getD_eq_getElem?_getD, ← List.getLast?_eq_getElem?, List.getLast?_eq_getLast_of_ne_nil hl']; rfl
  refine ⟨l'.set (l'.length - 1) (id (l'.getD (l'.length - 1) 0 + y)), ?_, by simp [e2], ?_⟩
  · obtain ⟨c, l, rfl⟩ : ∃ c l', p = c :: l' := by
      cases p with
      | nil => exact absurd rfl hp
      | cons c l => exact ⟨c, l, rfl⟩
    simp only [polyreloc, e1]
  · intro t
    rw [hset, hget, peval_append_singleton, ← e3]
    conv_rhs => rw [← List.dropLast_append_getLast hl', peval_append_singleton]
    simp only [id]; ring

theorem polyrescl_cons (c : α) (l : List α) (x y : α) :
    polyrescl (c :: l) x y = y * c * x ^ (-(l.length : ℤ)) :: polyrescl l x y := by
  apply List.ext_getElem
  · simp [polyrescl]
  · intro i h1 h2
    cases i with
    | zero => simp [polyrescl]
    | succ i =>
      simp only [polyrescl, List.getElem_zipWith, List.getElem_range, List.getElem_cons_succ,
        List.length_cons]
      congr 2
      push_cast; ring

theorem polyrescl_length (p : List α) (x y : α) : (polyrescl p x y).length = p.length := by simp [polyrescl]

theorem polyrescl_eval (p : List α) (x y t : α) (hx : x ≠ 0) : peval (polyrescl p x y) t = y * peval p (t / x) := by
  induction p with
  | nil => simp [polyrescl, peval]
  | cons c l ih =>
    rw [polyrescl_cons, peval_cons, peval_cons, ih, polyrescl_length, zpow_neg, zpow_natCast, div_pow]
    field_simp

end Wafo.Poly

import Verif.Cheb.Model
import Verif.Poly.Props
import Mathlib.RingTheory.Polynomial.Chebyshev

set_option linter.unusedSectionVars false

/-! Helper lemmas for the Chebyshev functions. -/

namespace Wafo.Cheb

open Wafo.Poly Polynomial.Chebyshev

variable {α : Type*} [Field α]

/-- Specification: `sum_i c_i * f(degree i)` for coefficients listed from the highest degree down; the last entry
has degree `z`. -/
noncomputable def series (f : ℤ → Polynomial α) (x : α) : List α → ℤ → α
  | [], _ => 0
  | c :: l, z => c * (f (z + l.length)).eval x + series f x l z

theorem series_append (f : ℤ → Polynomial α) (x : α) (l : List α) (c : α) (z : ℤ) :
    series f x (l ++ [c]) z = series f x l (z + 1) + c * (f z).eval x := by
  induction l with
  | nil => simp [series]
  | cons d l ih =>
    simp only [List.cons_append, series, ih, List.length_append, List.length_singleton]
    push_cast
    rw [show z + ((l.length : ℤ) + 1) = z + 1 + l.length by ring]
    ring

theorem U_rec (x : α) (z : ℤ) : (U α (z + 1)).eval x = 2 * x * (U α z).eval x - (U α (z - 1)).eval x := by
  rw [U_add_one]; simp

theorem series_U_rec (x : α) (l : List α) (z : ℤ) :
    series (U α) x l (z + 1) = 2 * x * series (U α) x l z - series (U α) x l (z - 1) := by
  induction l with
  | nil => simp [series]
  | cons c l ih =>
    simp only [series, ih]
    rw [show z + 1 + (l.length : ℤ) = (z + l.length) + 1 by ring, U_rec,
      show z - 1 + (l.length : ℤ) = (z + l.length) - 1 by ring]
    ring

/-- State of the Clenshaw recurrence. -/
theorem clen_state (x : α) (l : List α) :
    l.foldl (clenStep x) (0, 0) = (series (U α) x l 0, series (U α) x l (-1)) := by
  induction l using List.reverseRecOn with
  | nil => simp [series]
  | append_singleton l c ih =>
    rw [List.foldl_append, ih]
    simp only [List.foldl_cons, List.foldl_nil, clenStep, series_append]
    have := series_U_rec x l 0
    simp only [zero_add, zero_sub] at this
    rw [show (0 : ℤ) + 1 = 1 by norm_num, this]
    simp

theorem T_U (x : α) (z : ℤ) : (T α z).eval x = x * (U α (z - 1)).eval x - (U α (z - 2)).eval x := by
  have := T_eq_X_mul_U_sub_U α (z - 2)
  rw [show z - 2 + 2 = z by ring, show z - 2 + 1 = z - 1 by ring] at this
  rw [this]; simp

theorem series_T_U (x : α) (l : List α) (z : ℤ) :
    series (T α) x l z = x * series (U α) x l (z - 1) - series (U α) x l (z - 2) := by
  induction l with
  | nil => simp [series]
  | cons c l ih =>
    simp only [series, ih]
    rw [T_U, show z - 1 + (l.length : ℤ) = z + l.length - 1 by ring,
      show z - 2 + (l.length : ℤ) = z + l.length - 2 by ring]
    ring

theorem chebval0_T (x : α) (ck : List α) (h : ck ≠ []) : chebval0 x ck 1 = .ok (series (T α) x ck 0) := by
  rcases List.eq_nil_or_concat ck with rfl | ⟨l, c, rfl⟩
  · exact absurd rfl h
  · rw [List.concat_eq_append]
    simp only [chebval0, List.getLast?_append, List.getLast?_singleton, Option.some_or, List.dropLast_concat,
      clen_state, Except.ok.injEq, series_append]
    rw [series_T_U]
    norm_num

theorem chebval0_U (x : α) (ck : List α) (h : ck ≠ []) : chebval0 x ck 2 = .ok (series (U α) x ck 0) := by
  rcases List.eq_nil_or_concat ck with rfl | ⟨l, c, rfl⟩
  · exact absurd rfl h
  · rw [List.concat_eq_append]
    simp only [chebval0, List.getLast?_append, List.getLast?_singleton, Option.some_or, List.dropLast_concat,
      clen_state, Except.ok.injEq, series_append]
    have := series_U_rec x l 0
    simp only [zero_add, zero_sub] at this
    rw [show (0 : ℤ) + 1 = 1 by norm_num, this]
    simp

/-- The series as a sum over degrees. -/
theorem series_eq_sum (f : ℤ → Polynomial α) (x : α) (l : List α) :
    series f x l 0 = ∑ k ∈ Finset.range l.length, l.getD (l.length - 1 - k) 0 * (f k).eval x := by
  induction l with
  | nil => simp [series]
  | cons c l ih =>
    rw [series, ih, List.length_cons, Finset.sum_range_succ, add_comm]
    congr 1
    · apply Finset.sum_congr rfl
      intro k hk
      have := Finset.mem_range.1 hk
      rw [show l.length + 1 - 1 - k = (l.length - 1 - k) + 1 by omega, List.getD_cons_succ]
    · simp

/-! ### chebder -/

theorem U_diff (x : α) (z : ℤ) : (U α z).eval x - (U α (z - 2)).eval x = 2 * (T α z).eval x := by
  have := two_mul_T_eq_U_sub_U α (z - 2)
  rw [show z - 2 + 2 = z by ring] at this
  have h := congrArg (Polynomial.eval x) this
  simp at h
  rw [h]

/-- `sum_i (degree+1) c_i U_degree`: the derivative of `sum c_i T_(degree+1)`. -/
noncomputable def dsum (x : α) : List α → α
  | [] => 0
  | c :: l => ((l.length + 1 : ℕ) : α) * c * (U α (l.length : ℤ)).eval x + dsum x l

theorem derGo_sum (x : α) (l : List α) : ∀ p2 p1 : α,
    2 * series (T α) x (derGo p2 p1 l) 0 = 2 * dsum x l + p2 * (U α ((l.length : ℤ) - 1)).eval x
      + p1 * (U α ((l.length : ℤ) - 2)).eval x + (derGo p2 p1 l).getLastD p1 := by
  induction l with
  | nil => intro p2 p1; simp [derGo, series, dsum, U_neg_two, U_neg_one]
  | cons c l ih =>
    intro p2 p1
    have hlen : ∀ (a b : α) (l : List α), (derGo a b l).length = l.length := by
      intro a b l
      induction l generalizing a b with
      | nil => rfl
      | cons c l ih => simp [derGo, ih]
    simp only [derGo, series, hlen, dsum, List.length_cons, List.getLastD_cons]
    have h := ih p1 (p2 + 2 * ((l.length + 1 : ℕ) : α) * c)
    have hU := U_diff x (l.length : ℤ)
    rw [mul_add, h]
    have e1 : ((l.length + 1 : ℕ) : ℤ) - 1 = l.length := by push_cast; ring
    have e2 : ((l.length + 1 : ℕ) : ℤ) - 2 = (l.length : ℤ) - 1 := by push_cast; ring
    rw [e1, e2, zero_add]
    linear_combination (-(p2 + 2 * ((l.length + 1 : ℕ) : α) * c)) * hU

theorem series_map_mul (f : ℤ → Polynomial α) (x k : α) (l : List α) (z : ℤ) :
    series f x (l.map (fun d => d * k)) z = series f x l z * k := by
  induction l with
  | nil => simp [series]
  | cons c l ih => simp only [List.map_cons, series, ih, List.length_map]; ring

/-! ### cheb2poly -/

theorem addL_length (p q : List α) : (addL p q).length = max p.length q.length := by
  induction p generalizing q with
  | nil => simp [addL]
  | cons a p ih =>
    cases q with
    | nil => simp [addL]
    | cons b q => simp [addL, ih]

theorem pad_eval (p : List α) (n : ℕ) (t : α) : peval (p ++ List.replicate n 0) t = peval p t * t ^ n := by
  induction n with
  | zero => simp
  | succ n ih => rw [List.replicate_succ', ← List.append_assoc, peval_append_singleton, ih]; ring

theorem addL_eval (p q : List α) (t : α) (h : p.length ≤ q.length) :
    peval (addL p q) t = peval p t * t ^ (q.length - p.length) + peval q t := by
  induction p generalizing q with
  | nil => simp [addL, peval_nil]
  | cons a p ih =>
    cases q with
    | nil => simp at h
    | cons b q =>
      have h' : p.length ≤ q.length := by simpa using h
      rw [addL, peval_cons, ih q h', peval_cons, peval_cons, addL_length, max_eq_right h']
      simp only [List.length_cons, Nat.add_sub_add_right]
      have : q.length = p.length + (q.length - p.length) := by omega
      conv_lhs => rw [this, pow_add]
      conv_rhs => rw [this, pow_add]
      simp only [Nat.add_sub_cancel_left]
      ring

theorem map_mul_eval (c : α) (q : List α) (t : α) : peval (q.map (fun d => c * d)) t = c * peval q t := by
  induction q with
  | nil => simp [peval_nil]
  | cons d q ih => rw [List.map_cons, peval_cons, peval_cons, ih, List.length_map]; ring

/-- Product with a linear factor. -/
theorem conv2 (y0 y1 : α) (q : List α) (hq : q ≠ []) :
    (conv [y0, y1] q).length = q.length + 1 ∧ (∀ t, peval (conv [y0, y1] q) t = (y0 * t + y1) * peval q t) ∧
    (conv [y0, y1] q).head? = q.head?.map (fun d => y0 * d) := by
  obtain ⟨d, q, rfl⟩ : ∃ d q', q = d :: q' := by
    cases q with
    | nil => exact absurd rfl hq
    | cons d q => exact ⟨d, q, rfl⟩
  have e : conv [y0, y1] (d :: q) = addL ((d :: q).map (fun d => y0 * d)) (0 :: (d :: q).map (fun d => y1 * d)) := rfl
  refine ⟨by rw [e, addL_length]; simp, ?_, by rw [e]; simp [addL]⟩
  intro t
  rw [e, addL_eval _ _ _ (by simp), map_mul_eval, peval_cons 0, map_mul_eval]
  simp; ring

variable [DecidableEq α]

theorem trim1_ne_nil (p : List α) : trim1 p ≠ [] := by
  unfold trim1
  split <;> simp_all

theorem trim1_eval (p : List α) (t : α) : peval (trim1 p) t = peval p t := by
  unfold trim1
  split
  · rename_i h
    rw [← (C59_polytrim p).1 t, h]; simp [peval]
  · exact (C59_polytrim p).1 t

theorem trim1_lin (y0 y1 : α) (h : y0 ≠ 0) : trim1 [y0, y1] = [y0, y1] := by
  have : polytrim [y0, y1] = [y0, y1] := by rw [polytrim_cons, if_neg h]
  simp [trim1, this]

theorem polymul_lin (y0 y1 : α) (h : y0 ≠ 0) (q : List α) :
    (polymul [y0, y1] q).length = (trim1 q).length + 1 ∧
    (∀ t, peval (polymul [y0, y1] q) t = (y0 * t + y1) * peval q t) ∧
    (polymul [y0, y1] q).head? = (trim1 q).head?.map (fun d => y0 * d) := by
  unfold polymul
  rw [trim1_lin y0 y1 h]
  obtain ⟨h1, h2, h3⟩ := conv2 y0 y1 (trim1 q) (trim1_ne_nil q)
  refine ⟨h1, fun t => ?_, h3⟩
  rw [h2, trim1_eval]

theorem subLast_length (w : List α) (c : α) : (subLast w c).length = w.length := by simp [subLast]

theorem subLast_append (l : List α) (d c : α) : subLast (l ++ [d]) c = l ++ [d - c] := by
  simp [subLast]

theorem subLast_eval (w : List α) (hw : w ≠ []) (c t : α) : peval (subLast w c) t = peval w t - c := by
  rcases List.eq_nil_or_concat w with rfl | ⟨l, d, rfl⟩
  · exact absurd rfl hw
  · rw [List.concat_eq_append, subLast_append, peval_append_singleton, peval_append_singleton]; ring

theorem zipWith_sub_eval (v w : List α) (h : v.length = w.length) (t : α) :
    peval (List.zipWith (· - ·) v w) t = peval v t - peval w t := by
  induction v generalizing w with
  | nil =>
    have : w = [] := List.length_eq_zero_iff.1 (by simpa using h.symm)
    subst this; simp [peval]
  | cons a v ih =>
    cases w with
    | nil => simp at h
    | cons b w =>
      have h' : v.length = w.length := by simpa using h
      rw [List.zipWith_cons_cons, peval_cons, peval_cons, peval_cons, ih w h']
      simp [h']; ring

theorem append_eval (u v : List α) (t : α) : peval (u ++ v) t = peval u t * t ^ v.length + peval v t := by
  unfold peval
  rw [List.foldl_append]
  exact foldl_acc v t _

theorem subTail_ok (v w : List α) (h : w.length ≤ v.length) :
    ∃ r, subTail v w = .ok r ∧ r.length = v.length ∧ (∀ t, peval r t = peval v t - peval w t) ∧
      (w.length < v.length → r.head? = v.head?) := by
  refine ⟨_, by rw [subTail, if_pos h], ?_, ?_, ?_⟩
  · simp; omega
  · intro t
    have hl : (v.drop (v.length - w.length)).length = w.length := by simp; omega
    rw [append_eval, zipWith_sub_eval _ _ hl]
    conv_rhs => rw [← List.take_append_drop (v.length - w.length) v, append_eval]
    rw [List.length_zipWith, hl, min_self]; ring
  · intro hlt
    cases v with
    | nil => simp at hlt
    | cons a v =>
      have : (a :: v).length - w.length = ((a :: v).length - w.length - 1) + 1 := by omega
      rw [this, List.take_succ_cons]; rfl

/-- Shape invariant of the pair `(b_Nmi, b_Nmip1)`. -/
def Shape (b m : List α) : Prop :=
  m ≠ [] ∧ ((polytrim b = [] ∧ b.length ≤ 2 ∧ polytrim m = [] ∧ m.length ≤ 2) ∨
   ((∃ c, c ≠ 0 ∧ b = [0, c]) ∧ polytrim m = [] ∧ m.length ≤ 2) ∨
   ((∃ c l, c ≠ 0 ∧ b = c :: l) ∧ 2 ≤ b.length ∧ m.length ≤ b.length)) ∧ b ≠ []

theorem trim_nil_short (m : List α) (hne : m ≠ []) (h : polytrim m = []) (hl : m.length ≤ 2) : m = [0] ∨ m = [0, 0] := by
  rcases m with _ | ⟨a, _ | ⟨b, _ | ⟨c, m⟩⟩⟩
  · exact absurd rfl hne
  · rw [polytrim_cons] at h
    split at h
    · left; simp [*]
    · simp at h
  · rw [polytrim_cons] at h
    split at h
    · rw [polytrim_cons] at h
      split at h
      · right; simp [*]
      · simp at h
    · simp at h
  · simp at hl

theorem shape_len (b m : List α) (h : Shape b m) : m.length ≤ (trim1 b).length + 1 := by
  obtain ⟨-, h, -⟩ := h
  have h1 : 1 ≤ (trim1 b).length := List.length_pos_iff.2 (trim1_ne_nil b)
  rcases h with ⟨-, -, -, h⟩ | ⟨-, -, h⟩ | ⟨⟨c, l, hc, rfl⟩, -, h⟩
  · omega
  · omega
  · have : trim1 (c :: l) = c :: l := by
      have : polytrim (c :: l) = c :: l := by rw [polytrim_cons, if_neg hc]
      simp [trim1, this]
    rw [this]; omega

theorem shape_step (y0 y1 : α) (hy : y0 ≠ 0) (b m : List α) (c : α) (h : Shape b m) :
    ∃ r, subTail (polymul [y0, y1] b) (subLast m c) = .ok r ∧ Shape r b ∧
      ∀ t, peval r t = (y0 * t + y1) * peval b t - peval m t + c := by
  obtain ⟨hl, hev, hhead⟩ := polymul_lin y0 y1 hy b
  have hlen := shape_len b m h
  obtain ⟨r, e1, e2, e3, e4⟩ := subTail_ok (polymul [y0, y1] b) (subLast m c) (by rw [subLast_length, hl]; exact hlen)
  refine ⟨r, e1, ?_, ?_⟩
  · obtain ⟨hm, hs, hb⟩ := h
    refine ⟨hb, ?_, ?_⟩
    · rcases hs with ⟨h1, h2, h3, h4⟩ | ⟨⟨d, hd, rfl⟩, h3, h4⟩ | ⟨⟨d, l, hd, rfl⟩, h3, h4⟩
      · -- everything zero so far
        have ht : trim1 b = [0] := by simp [trim1, h1]
        have hpm : polymul [y0, y1] b = [0, 0] := by
          unfold polymul; rw [trim1_lin _ _ hy, ht]; simp [conv, addL]
        rw [hpm] at e1
        have hr : r = [0, c] := by
          rcases trim_nil_short m hm h3 h4 with rfl | rfl
          · have : subTail [0, 0] (subLast [(0 : α)] c) = .ok [0, c] := by simp [subTail, subLast]
            rw [this] at e1; exact (Except.ok.inj e1).symm
          · have : subTail [0, 0] (subLast [(0 : α), 0] c) = .ok [0, c] := by simp [subTail, subLast]
            rw [this] at e1; exact (Except.ok.inj e1).symm
        subst hr
        by_cases hc : c = 0
        · left
          subst hc
          refine ⟨?_, by simp, h1, h2⟩
          rw [polytrim_cons, if_pos rfl, polytrim_cons, if_pos rfl]; rfl
        · right; left
          exact ⟨⟨c, hc, rfl⟩, h1, h2⟩
      · -- one non-zero constant
        have ht0 : polytrim [0, d] = [d] := by rw [polytrim_cons, if_pos rfl, polytrim_cons, if_neg hd]
        have ht : trim1 [0, d] = [d] := by simp [trim1, ht0]
        have hpm : polymul [y0, y1] [0, d] = [y0 * d, y1 * d] := by
          unfold polymul; rw [trim1_lin _ _ hy, ht]; simp [conv, addL]
        rw [hpm] at e1
        have hr : r = [y0 * d, y1 * d + c] := by
          rcases trim_nil_short m hm h3 h4 with rfl | rfl
          · have : subTail [y0 * d, y1 * d] (subLast [(0 : α)] c) = .ok [y0 * d, y1 * d + c] := by
              simp [subTail, subLast]
            rw [this] at e1; exact (Except.ok.inj e1).symm
          · have : subTail [y0 * d, y1 * d] (subLast [(0 : α), 0] c) = .ok [y0 * d, y1 * d + c] := by
              simp [subTail, subLast]
            rw [this] at e1; exact (Except.ok.inj e1).symm
        right; right
        subst hr
        exact ⟨⟨_, _, mul_ne_zero hy hd, rfl⟩, by simp, by simp⟩
      · have ht0 : polytrim (d :: l) = d :: l := by rw [polytrim_cons, if_neg hd]
        have ht : trim1 (d :: l) = d :: l := by simp [trim1, ht0]
        rw [ht] at hl hhead
        right; right
        have hlt : (subLast m c).length < (polymul [y0, y1] (d :: l)).length := by rw [subLast_length, hl]; omega
        have hh := e4 hlt
        rw [hhead] at hh
        refine ⟨?_, by rw [e2, hl]; omega, by rw [e2, hl]; omega⟩
        cases r with
        | nil => simp at hh
        | cons r0 r =>
          simp at hh
          exact ⟨r0, r, by rw [hh]; exact mul_ne_zero hy hd, rfl⟩
    · intro h0; rw [h0] at e2; rw [hl] at e2; simp at e2
  · intro t
    rw [e3, hev, subLast_eval m h.1]; ring

theorem c2pLoop_ok (y0 y1 : α) (hy : y0 ≠ 0) (h2 : (2 : α) ≠ 0) (l : List α) : ∀ (b m : List α), Shape b m →
    ∃ b' m', c2pLoop [2 * y0, 2 * y1] l (b, m) = .ok (b', m') ∧ Shape b' m' ∧
      ∀ t, (peval b' t, peval m' t) = l.foldl (clenStep (y0 * t + y1)) (peval b t, peval m t) := by
  induction l with
  | nil => intro b m h; exact ⟨b, m, rfl, h, fun t => rfl⟩
  | cons c l ih =>
    intro b m h
    obtain ⟨r, e1, e2, e3⟩ := shape_step (2 * y0) (2 * y1) (mul_ne_zero h2 hy) b m c h
    obtain ⟨b', m', f1, f2, f3⟩ := ih r b e2
    refine ⟨b', m', ?_, f2, ?_⟩
    · simp only [c2pLoop, e1]; exact f1
    · intro t
      rw [f3 t, List.foldl_cons]
      congr 1
      simp only [clenStep, e3 t, Prod.mk.injEq, and_true]
      ring

end Wafo.Cheb

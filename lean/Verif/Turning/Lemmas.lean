import Verif.Cross.Lemmas
import Verif.Turning.Model

/-! Helper lemmas: monotone stretches between crossings of the difference signal. -/

set_option linter.unusedSectionVars false

namespace Wafo.Cross

/-- Directions alternate and the sign does not change between crossings. -/
def AltRun (y : List ℤ) : ℤ → List ℕ → Prop
  | _, [] => True
  | s, i :: r => (∃ b, y[i + 1]? = some b ∧ 0 < s * b) ∧ (∀ j, r.head? = some j → i < j) ∧
      (∀ k b, i + 1 ≤ k → (∀ j, r.head? = some j → k ≤ j) → y[k]? = some b → 0 ≤ s * b) ∧
      AltRun y (-s) r

theorem scan_run (y : List ℤ) (l : List ℤ) : ∀ (i : ℕ) (d a : ℤ), (d = 1 ∨ d = -1) →
    0 ≤ d * a → y.drop i = a :: l →
    (∀ k b, i ≤ k → (∀ j, (scan i d (a :: l)).head? = some j → k ≤ j) → y[k]? = some b →
      0 ≤ d * b) ∧ AltRun y (-d) (scan i d (a :: l)) := by
  induction l with
  | nil =>
    intro i d a hd ha hy
    refine ⟨?_, by simp [scan, AltRun]⟩
    intro k b hk _ hb
    have h1 : k < y.length := (List.getElem?_eq_some_iff.1 hb).1
    have h2 : y.length = i + 1 := by
      have := congrArg List.length hy
      simp at this; omega
    obtain rfl : k = i := by omega
    have : y[k]? = some a := by
      have : (y.drop k)[0]? = some a := by rw [hy]; simp
      simpa using this
    rw [this] at hb
    obtain rfl := Option.some.inj hb
    exact ha
  | cons c l ih =>
    intro i d a hd ha hy
    have hyi : y[i]? = some a := by
      have : (y.drop i)[0]? = some a := by rw [hy]; simp
      simpa using this
    have hy1 : y.drop (i + 1) = c :: l := by rw [← List.drop_drop, hy]; simp
    have hc : y[i + 1]? = some c := by
      have : (y.drop (i + 1))[0]? = some c := by rw [hy1]; simp
      simpa using this
    have hcond : ((d = -1 ∧ a ≤ 0 ∧ 0 < c) ∨ (d = 1 ∧ 0 ≤ a ∧ c < 0)) ↔ d * c < 0 := by
      rcases hd with rfl | rfl
      · constructor
        · rintro (⟨h, -⟩ | ⟨-, -, h⟩) <;> omega
        · intro h; right; refine ⟨rfl, ?_, ?_⟩ <;> omega
      · constructor
        · rintro (⟨-, -, h⟩ | ⟨h, -⟩) <;> omega
        · intro h; left; refine ⟨rfl, ?_, ?_⟩ <;> omega
    rw [scan]
    simp only [hcond]
    by_cases hneg : d * c < 0
    · rw [if_pos hneg]
      obtain ⟨h1, h2⟩ := ih (i + 1) (-d) c (by rcases hd with h | h <;> simp [h])
        (by nlinarith) hy1
      refine ⟨?_, ⟨c, hc, by nlinarith⟩, ?_, ?_, ?_⟩
      · intro k b hk hj hb
        have := hj i (by simp)
        obtain rfl : k = i := by omega
        rw [hyi] at hb; obtain rfl := Option.some.inj hb; exact ha
      · intro j hj
        have := scan_ge _ _ _ _ (List.mem_of_mem_head? hj)
        omega
      · intro k b hk hj hb
        exact h1 k b hk hj hb
      · exact h2
    · rw [if_neg hneg]
      obtain ⟨h1, h2⟩ := ih (i + 1) d c hd (by omega) hy1
      refine ⟨?_, h2⟩
      intro k b hk hj hb
      rcases Nat.eq_or_lt_of_le hk with rfl | hlt
      · rw [hyi] at hb; obtain rfl := Option.some.inj hb; exact ha
      · exact h1 k b hlt hj hb

theorem findcross0_run (y : List ℤ) (l : List ℕ) (h : findcross0 y = .ok l) :
    ∃ s : ℤ, (s = 1 ∨ s = -1) ∧ AltRun y s l ∧
      (∀ k b, (∀ j, l.head? = some j → k ≤ j) → y[k]? = some b → 0 ≤ (-s) * b) := by
  rcases findcross0_cases y l h with ⟨a, r, s, rfl, hs, hsa, rfl⟩ | ⟨rfl, h0⟩ |
    ⟨m, s, a, r, h0, hdrop, hs, hsa, rfl⟩
  · obtain ⟨h1, h2⟩ := scan_run (a :: r) r 0 s a hs hsa.le rfl
    refine ⟨-s, by rcases hs with h | h <;> simp [h], h2, ?_⟩
    intro k b hj hb
    rw [neg_neg]
    exact h1 k b (Nat.zero_le _) hj hb
  · refine ⟨1, Or.inl rfl, trivial, ?_⟩
    intro k b _ hb
    have := h0 k (List.getElem?_eq_some_iff.1 hb).1
    rw [hb] at this; rw [Option.some.inj this]; simp
  · have hgm : y[m + 1]? = some a := by
      have : (y.drop (m + 1))[0]? = some a := by rw [hdrop]; simp
      simpa using this
    obtain ⟨h1, h2⟩ := scan_run y r (m + 1) s a hs hsa.le hdrop
    refine ⟨s, hs, ⟨⟨a, hgm, hsa⟩, ?_, h1, h2⟩, ?_⟩
    · intro j hj
      have := scan_ge _ _ _ _ (List.mem_of_mem_head? hj)
      omega
    · intro k b hj hb
      have := hj m (by simp)
      rw [h0 k this] at hb
      rw [← Option.some.inj hb]; simp

end Wafo.Cross

namespace Wafo.Turning
open Wafo.Cross

variable {α : Type*} [Field α] [LinearOrder α] [IsStrictOrderedRing α]

theorem diff_length (x : List α) : (diff x).length = x.length - 1 := by
  fun_induction diff x <;> simp_all

theorem diff_getElem? (x : List α) : ∀ k a b, x[k]? = some a → x[k + 1]? = some b →
    (diff x)[k]? = some (b - a) := by
  fun_induction diff x with
  | case1 => intro k a b h; simp at h
  | case2 => intro k a b _ h; simp at h
  | case3 a b l ih =>
    intro k a' b' h1 h2
    rcases k with _ | k
    · simp at h1 h2; subst h1; subst h2; simp
    · simp only [List.getElem?_cons_succ]
      exact ih k a' b' (by simpa using h1) (by simpa using h2)

/-! ### Specification vocabulary -/

/-- `x` is monotone on the index range `[p, q]`, rising if `up`, else falling. -/
def MonoOn (up : Bool) (x : List α) (p q : ℕ) : Prop :=
  ∀ i j a b, p ≤ i → i ≤ j → j ≤ q → x[i]? = some a → x[j]? = some b →
    if up then a ≤ b else b ≤ a

/-- Rising (or falling) from `p` to `q` by a positive amount. -/
def StrictChange (up : Bool) (x : List α) (p q : ℕ) : Prop :=
  ∃ a b, x[p]? = some a ∧ x[q]? = some b ∧ if up then a < b else b < a

/-- From index `p` on, `x` is made of strictly changing monotone stretches of alternating direction,
delimited by the indices in the list, the last one reaching the end of the signal. -/
def Stretches (x : List α) : Bool → ℕ → List ℕ → Prop
  | up, p, [] => p < x.length - 1 ∧ MonoOn up x p (x.length - 1) ∧
      StrictChange up x p (x.length - 1)
  | up, p, q :: r => p < q ∧ q < x.length ∧ MonoOn up x p q ∧ StrictChange up x p q ∧
      Stretches x (!up) q r

theorem monoOn_of_steps (up : Bool) (x : List α) (p q : ℕ) (hq : q < x.length)
    (h : ∀ k a b, p ≤ k → k + 1 ≤ q → x[k]? = some a → x[k + 1]? = some b →
      if up then a ≤ b else b ≤ a) : MonoOn up x p q := by
  intro i j a b hi hij hj ha hb
  induction j, hij using Nat.le_induction generalizing b with
  | base => rw [ha] at hb; obtain rfl := Option.some.inj hb; cases up <;> simp
  | succ j hij ih =>
    have hj' : j < x.length := by omega
    have h1 := ih x[j] (by omega) (List.getElem?_eq_getElem hj')
    have h2 := h j x[j] b (by omega) hj (List.getElem?_eq_getElem hj') hb
    cases up <;> simp only [Bool.false_eq_true, ↓reduceIte] at h1 h2 ⊢
    · exact le_trans h2 h1
    · exact le_trans h1 h2

theorem dsign (x : List α) (k : ℕ) (a b : α) (ha : x[k]? = some a) (hb : x[k + 1]? = some b) :
    (signs (diff x) 0)[k]? = some (sgn 0 (b - a)) := by
  rw [signs_getElem?, diff_getElem? x k a b ha hb]; rfl

theorem sgn_le_up (a b : α) (h : 0 ≤ (1 : ℤ) * sgn 0 (b - a)) : a ≤ b := by
  by_contra hc
  have := (sgn_neg_iff 0 (b - a)).2 (by linarith [not_le.1 hc])
  omega

theorem sgn_le_down (a b : α) (h : 0 ≤ (-1 : ℤ) * sgn 0 (b - a)) : b ≤ a := by
  by_contra hc
  have := (sgn_pos_iff 0 (b - a)).2 (by linarith [not_le.1 hc])
  omega

theorem sgn_lt_up (a b : α) (h : 0 < (1 : ℤ) * sgn 0 (b - a)) : a < b := by
  have := (sgn_pos_iff 0 (b - a)).1 (by omega)
  linarith

theorem sgn_lt_down (a b : α) (h : 0 < (-1 : ℤ) * sgn 0 (b - a)) : b < a := by
  have := (sgn_neg_iff 0 (b - a)).1 (by omega)
  linarith

/-- A stretch on which the difference does not change sign is monotone. -/
theorem monoOn_of_sign (x : List α) (s : ℤ) (hs : s = 1 ∨ s = -1) (p q : ℕ) (hq : q < x.length)
    (h : ∀ k b, p ≤ k → k + 1 ≤ q → (signs (diff x) 0)[k]? = some b → 0 ≤ s * b) :
    MonoOn (decide (s = 1)) x p q := by
  apply monoOn_of_steps _ _ _ _ hq
  intro k a b hk hkq ha hb
  have := h k _ hk hkq (dsign x k a b ha hb)
  rcases hs with rfl | rfl
  · simp only [decide_true, ↓reduceIte]; exact sgn_le_up a b this
  · simp only [reduceCtorEq, Int.reduceNeg, decide_false, Bool.false_eq_true, ↓reduceIte]
    exact sgn_le_down a b this

theorem strictChange_of (x : List α) (s : ℤ) (hs : s = 1 ∨ s = -1) (p q : ℕ) (hpq : p < q)
    (hq : q < x.length) (hm : MonoOn (decide (s = 1)) x p q) (b : ℤ)
    (hb : (signs (diff x) 0)[p]? = some b) (hsb : 0 < s * b) :
    StrictChange (decide (s = 1)) x p q := by
  have hp : p < x.length := by omega
  have hp1 : p + 1 < x.length := by omega
  refine ⟨x[p], x[q], List.getElem?_eq_getElem hp, List.getElem?_eq_getElem hq, ?_⟩
  have h1 := dsign x p x[p] x[p + 1] (List.getElem?_eq_getElem hp) (List.getElem?_eq_getElem hp1)
  rw [hb] at h1
  obtain rfl := Option.some.inj h1
  have h2 := hm (p + 1) q x[p + 1] x[q] (by omega) hpq (le_refl _)
    (List.getElem?_eq_getElem hp1) (List.getElem?_eq_getElem hq)
  rcases hs with rfl | rfl
  · simp only [decide_true, ↓reduceIte] at h2 ⊢
    exact lt_of_lt_of_le (sgn_lt_up _ _ hsb) h2
  · simp only [reduceCtorEq, Int.reduceNeg, decide_false, Bool.false_eq_true, ↓reduceIte] at h2 ⊢
    exact lt_of_le_of_lt h2 (sgn_lt_down _ _ hsb)

theorem not_decide_sign (s : ℤ) (hs : s = 1 ∨ s = -1) :
    (!decide (s = 1)) = decide (-s = 1) := by
  rcases hs with rfl | rfl <;> simp

theorem stretches_of_altRun (x : List α) (r : List ℕ) : ∀ (s : ℤ) (i : ℕ), (s = 1 ∨ s = -1) →
    AltRun (signs (diff x) 0) s (i :: r) →
    Stretches x (decide (s = 1)) (i + 1) (r.map (· + 1)) := by
  induction r with
  | nil =>
    intro s i hs h
    obtain ⟨⟨b, hb, hsb⟩, -, h2, -⟩ := h
    have hlen : i + 1 < x.length - 1 := by
      have := (List.getElem?_eq_some_iff.1 hb).1
      simpa [signs, diff_length] using this
    have hm : MonoOn (decide (s = 1)) x (i + 1) (x.length - 1) := by
      apply monoOn_of_sign x s hs _ _ (by omega)
      intro k c hk _ hc
      exact h2 k c hk (by simp) hc
    exact ⟨hlen, hm, strictChange_of x s hs _ _ hlen (by omega) hm b hb hsb⟩
  | cons j r ih =>
    intro s i hs h
    obtain ⟨⟨b, hb, hsb⟩, h1, h2, h3⟩ := h
    have hij : i < j := h1 j (by simp)
    have hjl : j + 1 < x.length := by
      obtain ⟨⟨c, hc, -⟩, -⟩ := h3
      have := (List.getElem?_eq_some_iff.1 hc).1
      simp [signs, diff_length] at this
      omega
    have hm : MonoOn (decide (s = 1)) x (i + 1) (j + 1) := by
      apply monoOn_of_sign x s hs _ _ (by omega)
      intro k c hk hk2 hc
      refine h2 k c hk ?_ hc
      intro j' hj'
      simp at hj'; omega
    simp only [List.map_cons]
    refine ⟨by omega, hjl, hm, strictChange_of x s hs _ _ (by omega) hjl hm b hb hsb, ?_⟩
    rw [not_decide_sign s hs]
    exact ih (-s) j (by rcases hs with h | h <;> simp [h]) h3

end Wafo.Turning

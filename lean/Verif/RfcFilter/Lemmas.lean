import Verif.RfcFilter.Model
import Mathlib.Data.List.Perm.Subperm

/-! Invariant of the rainflow filter. -/

set_option linter.unusedSectionVars false

namespace Wafo.RfcFilter

variable {α : Type*} [Field α] [LinearOrder α] [IsStrictOrderedRing α]

/-- Admissible thresholds: positive, or zero for method 1. -/
def Adm (strict : Bool) (h : α) : Prop := 0 < h ∨ (strict = true ∧ 0 ≤ h)

theorem Adm.nonneg {strict : Bool} {h : α} (H : Adm strict h) : 0 ≤ h := by
  rcases H with h1 | ⟨-, h1⟩
  · exact h1.le
  · exact h1

/-- All samples of `[p, q]` lie between those at `p` and `q`, and there is no reversal against the
direction `s` of size `h`. -/
def Good (strict : Bool) (h : α) (f : ℕ → α) (s : α) (p q : ℕ) : Prop :=
  (∀ k, p ≤ k → k ≤ q → s * f p ≤ s * f k ∧ s * f k ≤ s * f q) ∧
  ∀ i j, p ≤ i → i < j → j ≤ q → cmp1 strict (s * f j) (s * f i - h) = false

/-- The emitted turning points, most recent first; the next stretch goes in direction `s`. -/
def Kept (strict : Bool) (h : α) (f : ℕ → α) : α → List ℕ → Prop
  | _, [] => False
  | _, [e] => e = 0
  | s, e :: d :: r => d < e ∧ cmp1 strict (-s * f d + h) (-s * f e) = true ∧
      (r ≠ [] → Good strict h f (-s) d e) ∧
      (r = [] → ∀ k, k ≤ e → -s * f k ≤ -s * f e ∧ -s * f 0 - h ≤ -s * f k) ∧
      Kept strict h f (-s) (d :: r)

/-- Loop invariant after the samples up to index `ti` have been processed. -/
def Inv (strict : Bool) (h : α) (f : ℕ → α) (ti : ℕ) (st : St α) : Prop :=
  (st.z0 = 0 ∧ st.out = [0] ∧ st.t0 = 0 ∧ st.y0 = f 0 ∧
    ∀ k, 1 ≤ k → k ≤ ti → cmp1 strict (f k) (f 0 - h) = false ∧
      cmp1 strict (f 0 + h) (f k) = false) ∨
  ∃ s : α, ((s = 1 ∧ st.z0 = 1) ∨ (s = -1 ∧ st.z0 = -1)) ∧ ∃ e r, st.out = e :: r ∧
    e < st.t0 ∧ st.t0 ≤ ti ∧ st.y0 = f st.t0 ∧
    cmp1 strict (s * f e + h) (s * st.y0) = true ∧
    (∀ k, st.t0 ≤ k → k ≤ ti → s * f k ≤ s * st.y0 ∧
      cmp1 strict (s * f k) (s * st.y0 - h) = false) ∧
    (r ≠ [] → Good strict h f s e st.t0) ∧
    (r = [] → ∀ k, k ≤ st.t0 → s * f k ≤ s * st.y0 ∧ s * f 0 - h ≤ s * f k) ∧
    Kept strict h f s (e :: r)

theorem cmp1_true {strict : Bool} {a b : α} (h : cmp1 strict a b = true) : a ≤ b := by
  cases strict <;> simp [cmp1] at h
  · exact h
  · exact h.le

theorem cmp1_false {strict : Bool} {a b : α} (h : cmp1 strict a b = false) : b ≤ a := by
  cases strict <;> simp [cmp1] at h
  · exact h.le
  · exact h

theorem cmp1_mono {strict : Bool} {a b a' b' : α} (h : cmp1 strict a b = true) (ha : a' ≤ a)
    (hb : b ≤ b') : cmp1 strict a' b' = true := by
  cases strict <;> simp [cmp1] at h ⊢
  · linarith
  · linarith

theorem cmp1_false_mono {strict : Bool} {a b a' b' : α} (h : cmp1 strict a b = false)
    (ha : a ≤ a') (hb : b' ≤ b) : cmp1 strict a' b' = false := by
  cases strict <;> simp [cmp1] at h ⊢
  · linarith
  · linarith

theorem cmp1_self {strict : Bool} {h : α} (H : Adm strict h) (a b : α) (hab : b ≤ a) :
    cmp1 strict a (b - h) = false := by
  rcases H with h1 | ⟨rfl, h1⟩
  · cases strict <;> simp [cmp1] <;> linarith
  · simp [cmp1]; linarith

theorem cmp2_eq (strict : Bool) (a b : α) : cmp2 strict a b = !cmp1 strict b a := by
  cases strict <;> simp only [cmp1, cmp2, Bool.false_eq_true, ↓reduceIte]
  · rw [← decide_not, decide_eq_decide, not_le]
  · rw [← decide_not, decide_eq_decide, not_lt]

theorem cmp1_congr (strict : Bool) {a b a' b' : α} (h : b - a = b' - a') :
    cmp1 strict a b = cmp1 strict a' b' := by
  cases strict <;> simp only [cmp1, Bool.false_eq_true, ↓reduceIte, decide_eq_decide]
  · constructor <;> intro _ <;> linarith
  · constructor <;> intro _ <;> linarith

/-- The loop body in a state with a direction, written symmetrically. -/
theorem step_dir (strict : Bool) (h : α) (n : ℕ) (st : St α) (ti : ℕ) (yi : α) (s : α)
    (hs : (s = 1 ∧ st.z0 = 1) ∨ (s = -1 ∧ st.z0 = -1)) :
    step strict h n st ti yi =
      if cmp1 strict (s * yi) (s * st.y0 - h) then
        if st.out.length < n then .ok ⟨ti, yi, -st.z0, st.t0 :: st.out⟩ else .error .oobWrite
      else if s * yi < s * st.y0 then .ok ⟨st.t0, st.y0, st.z0, st.out⟩
      else .ok ⟨ti, yi, st.z0, st.out⟩ := by
  obtain ⟨t0, y0, z0, out⟩ := st
  rcases hs with ⟨rfl, hz⟩ | ⟨rfl, hz⟩
  · simp only at hz; subst hz
    simp only [one_mul]
    by_cases hc : cmp1 strict yi (y0 - h) = true
    · simp [step, newDir, newExtreme, hc]
    · rw [Bool.not_eq_true] at hc
      have h2 : cmp2 strict (y0 - h) yi = true := by rw [cmp2_eq, hc]; rfl
      simp [step, newDir, newExtreme, hc, h2]
      split <;> rfl
  · simp only at hz; subst hz
    have e : cmp1 strict (-1 * yi) (-1 * y0 - h) = cmp1 strict (y0 + h) yi :=
      cmp1_congr strict (by ring)
    rw [e]
    have e2 : (-1 * yi < -1 * y0) ↔ y0 < yi := by constructor <;> intro _ <;> linarith
    simp only [e2]
    by_cases hc : cmp1 strict (y0 + h) yi = true
    · have h2 : cmp2 strict yi (y0 + h) = false := by rw [cmp2_eq, hc]; rfl
      simp [step, newDir, newExtreme, hc, h2]
    · rw [Bool.not_eq_true] at hc
      have h2 : cmp2 strict yi (y0 + h) = true := by rw [cmp2_eq, hc]; rfl
      simp [step, newDir, newExtreme, hc, h2]
      split <;> rfl

/-- The loop body before a direction is known. -/
theorem step_zero (strict : Bool) (h : α) (n : ℕ) (st : St α) (ti : ℕ) (yi : α) (hz : st.z0 = 0) :
    step strict h n st ti yi =
      if cmp1 strict yi (st.y0 - h) then .ok ⟨ti, yi, -1, st.out⟩
      else if cmp1 strict (st.y0 + h) yi then .ok ⟨ti, yi, 1, st.out⟩
      else .ok ⟨st.t0, st.y0, 0, st.out⟩ := by
  obtain ⟨t0, y0, z0, out⟩ := st
  simp only at hz; subst hz
  unfold step newDir newExtreme
  by_cases h1 : cmp1 strict yi (y0 - h) = true
  · simp [h1]
  · by_cases h2 : cmp1 strict (y0 + h) yi = true
    · simp [h1, h2]
    · simp [h1, h2]

/-- `Kept` lists are strictly decreasing and end in 0. -/
theorem kept_pairwise (strict : Bool) (h : α) (f : ℕ → α) (l : List ℕ) : ∀ s,
    Kept strict h f s l → l.Pairwise (· > ·) ∧ l.getLast? = some 0 := by
  induction l with
  | nil => intro s hk; exact hk.elim
  | cons e r ih =>
    intro s hk
    rcases r with _ | ⟨d, r⟩
    · have : e = 0 := hk
      subst this; simp
    · obtain ⟨h1, -, -, -, h2⟩ := hk
      obtain ⟨h3, h4⟩ := ih _ h2
      refine ⟨List.pairwise_cons.2 ⟨?_, h3⟩, by rw [List.getLast?_cons_cons]; exact h4⟩
      intro a ha
      rcases List.mem_cons.1 ha with rfl | ha
      · exact h1
      · exact lt_trans (List.rel_of_pairwise_cons h3 ha) h1

theorem length_le_of_pairwise (l : List ℕ) (h : l.Pairwise (· > ·)) (m : ℕ)
    (hm : ∀ a ∈ l, a < m) : l.length ≤ m := by
  have hnd : l.Nodup := h.imp (fun h => ne_of_gt h)
  have hsub : l ⊆ List.range m := fun i hi => List.mem_range.2 (hm i hi)
  simpa using (List.subperm_of_subset hnd hsub).length_le

theorem kept_length (strict : Bool) (h : α) (f : ℕ → α) (s : α) (e : ℕ) (r : List ℕ)
    (hk : Kept strict h f s (e :: r)) : (e :: r).length ≤ e + 1 := by
  obtain ⟨h1, -⟩ := kept_pairwise strict h f _ s hk
  apply length_le_of_pairwise _ h1
  intro a ha
  rcases List.mem_cons.1 ha with rfl | ha
  · omega
  · have := List.rel_of_pairwise_cons h1 ha
    omega

/-- The invariant is preserved and no exception occurs. -/
theorem step_inv (strict : Bool) (h : α) (H : Adm strict h) (n : ℕ) (f : ℕ → α) (ti : ℕ)
    (st : St α) (hinv : Inv strict h f ti st) (hn : ti + 1 < n) :
    ∃ st', step strict h n st (ti + 1) (f (ti + 1)) = .ok st' ∧ Inv strict h f (ti + 1) st' := by
  have hnn := H.nonneg
  rcases hinv with ⟨hz, hout, ht0, hy0, hk⟩ | ⟨s, hs, e, r, hout, het, htt, hy0, hgap, hI3, hI4, hI5,
    hkept⟩
  · rw [step_zero strict h n st _ _ hz, hy0, hout, ht0]
    have first : ∀ s : α, (s = 1 ∨ s = -1) → cmp1 strict (s * f 0 + h) (s * f (ti + 1)) = true →
        (∀ k, k ≤ ti + 1 → s * f k ≤ s * f (ti + 1) ∧ s * f 0 - h ≤ s * f k) ∧
        (∀ k, ti + 1 ≤ k → k ≤ ti + 1 → s * f k ≤ s * f (ti + 1) ∧
          cmp1 strict (s * f k) (s * f (ti + 1) - h) = false) := by
      intro s hs hg
      have hle := cmp1_true hg
      refine ⟨?_, ?_⟩
      · intro k hk'
        rcases Nat.eq_zero_or_pos k with rfl | hpos
        · exact ⟨by linarith, by linarith⟩
        · rcases Nat.lt_or_ge k (ti + 1) with hlt | hge
          · obtain ⟨e1, e2⟩ := hk k hpos (by omega)
            have e1' := cmp1_false e1
            have e2' := cmp1_false e2
            rcases hs with rfl | rfl <;> constructor <;> linarith
          · obtain rfl : k = ti + 1 := by omega
            exact ⟨le_refl _, by linarith⟩
      · intro k h1 h2
        obtain rfl : k = ti + 1 := by omega
        exact ⟨le_refl _, cmp1_self H _ _ (le_refl _)⟩
    by_cases h1 : cmp1 strict (f (ti + 1)) (f 0 - h) = true
    · rw [if_pos h1]
      refine ⟨_, rfl, Or.inr ⟨-1, Or.inr ⟨rfl, rfl⟩, 0, [], rfl, Nat.succ_pos _, le_refl _, rfl, ?_⟩⟩
      have hg : cmp1 strict (-1 * f 0 + h) (-1 * f (ti + 1)) = true := by
        rw [← h1]; exact cmp1_congr strict (by ring)
      obtain ⟨g1, g2⟩ := first (-1) (Or.inr rfl) hg
      exact ⟨hg, g2, by simp, fun _ => g1, rfl⟩
    · rw [if_neg h1]
      by_cases h2 : cmp1 strict (f 0 + h) (f (ti + 1)) = true
      · rw [if_pos h2]
        refine ⟨_, rfl, Or.inr ⟨1, Or.inl ⟨rfl, rfl⟩, 0, [], rfl, Nat.succ_pos _, le_refl _, rfl, ?_⟩⟩
        have hg : cmp1 strict (1 * f 0 + h) (1 * f (ti + 1)) = true := by
          rw [← h2]; exact cmp1_congr strict (by ring)
        obtain ⟨g1, g2⟩ := first 1 (Or.inl rfl) hg
        exact ⟨hg, g2, by simp, fun _ => g1, rfl⟩
      · rw [if_neg h2]
        refine ⟨_, rfl, Or.inl ⟨rfl, rfl, rfl, rfl, ?_⟩⟩
        intro k hk1 hk2
        rcases Nat.lt_or_ge k (ti + 1) with hlt | hge
        · exact hk k hk1 (by omega)
        · obtain rfl : k = ti + 1 := by omega
          exact ⟨by simpa using h1, by simpa using h2⟩
  · rw [step_dir strict h n st _ _ s hs]
    have hse : s * f e + h ≤ s * st.y0 := cmp1_true hgap
    by_cases hc : cmp1 strict (s * f (ti + 1)) (s * st.y0 - h) = true
    · -- reversal
      rw [if_pos hc]
      have hlen : st.out.length < n := by
        rw [hout]
        have := kept_length strict h f s e r hkept
        omega
      rw [if_pos hlen, hout]
      have hcle := cmp1_true hc
      refine ⟨_, rfl, Or.inr ⟨-s, ?_, st.t0, e :: r, rfl, by simp only; omega, le_refl _, rfl, ?_, ?_,
        ?_, ?_, ?_⟩⟩
      · rcases hs with ⟨rfl, hz⟩ | ⟨rfl, hz⟩
        · right; simp [hz]
        · left; simp [hz]
      · simp only
        rw [← hy0, ← hc]
        exact cmp1_congr strict (by ring)
      · intro k hk1 hk2
        simp only at hk1 ⊢
        obtain rfl : k = ti + 1 := by omega
        exact ⟨le_refl _, cmp1_self H _ _ (le_refl _)⟩
      · intro _
        simp only
        refine ⟨?_, ?_⟩
        · intro k hk1 hk2
          rw [← hy0]
          rcases Nat.lt_or_ge k (ti + 1) with hlt | hge
          · obtain ⟨e1, e2⟩ := hI3 k hk1 (by omega)
            have e2' := cmp1_false e2
            constructor <;> linarith
          · obtain rfl : k = ti + 1 := by omega
            constructor <;> linarith
        · intro i j hi hij hj
          obtain ⟨e1, e2⟩ := hI3 i hi (by omega)
          rcases Nat.lt_or_ge j (ti + 1) with hlt | hge
          · obtain ⟨e3, e4⟩ := hI3 j (by omega) (by omega)
            rw [show cmp1 strict (-s * f j) (-s * f i - h) = cmp1 strict (s * f i) (s * f j - h) from
              cmp1_congr strict (by ring)]
            exact cmp1_false_mono e2 (le_refl _) (by linarith)
          · obtain rfl : j = ti + 1 := by omega
            rw [show cmp1 strict (-s * f (ti + 1)) (-s * f i - h) =
              cmp1 strict (s * f i) (s * f (ti + 1) - h) from cmp1_congr strict (by ring)]
            have e2' := cmp1_false e2
            exact cmp1_self H _ _ (by linarith)
      · intro h0; simp at h0
      · refine ⟨het, ?_, ?_, ?_, ?_⟩
        · rw [neg_neg, ← hy0]; exact hgap
        · intro hr; rw [neg_neg]; exact hI4 hr
        · intro hr; rw [neg_neg, ← hy0]; exact hI5 hr
        · rw [neg_neg]; exact hkept
    · rw [if_neg hc]
      rw [Bool.not_eq_true] at hc
      by_cases hlt : s * f (ti + 1) < s * st.y0
      · -- nothing new
        rw [if_pos hlt]
        refine ⟨_, rfl, Or.inr ⟨s, hs, e, r, hout, het, by simp only; omega, hy0, hgap, ?_, hI4, hI5,
          hkept⟩⟩
        intro k hk1 hk2
        simp only at hk1 ⊢
        rcases Nat.lt_or_ge k (ti + 1) with hlt' | hge
        · exact hI3 k hk1 (by omega)
        · obtain rfl : k = ti + 1 := by omega
          exact ⟨hlt.le, hc⟩
      · -- new extreme
        rw [if_neg hlt]
        have hge : s * st.y0 ≤ s * f (ti + 1) := not_lt.1 hlt
        refine ⟨_, rfl, Or.inr ⟨s, hs, e, r, hout, by simp only; omega, le_refl _, rfl, ?_, ?_, ?_, ?_,
          hkept⟩⟩
        · exact cmp1_mono hgap (le_refl _) hge
        · intro k hk1 hk2
          simp only at hk1 ⊢
          obtain rfl : k = ti + 1 := by omega
          exact ⟨le_refl _, cmp1_self H _ _ (le_refl _)⟩
        · intro hr
          simp only
          obtain ⟨g1, g2⟩ := hI4 hr
          rw [← hy0] at g1
          have hall : ∀ k, e ≤ k → k ≤ ti → s * f e ≤ s * f k ∧ s * f k ≤ s * st.y0 := by
            intro k hk1 hk2
            rcases le_or_gt k st.t0 with h1 | h1
            · exact g1 k hk1 h1
            · obtain ⟨e1, e2⟩ := hI3 k (by omega) hk2
              have := cmp1_false e2
              exact ⟨by linarith, e1⟩
          refine ⟨?_, ?_⟩
          · intro k hk1 hk2
            rcases Nat.lt_or_ge k (ti + 1) with hlt' | hge'
            · obtain ⟨e1, e2⟩ := hall k hk1 (by omega)
              exact ⟨e1, by linarith⟩
            · obtain rfl : k = ti + 1 := by omega
              exact ⟨by linarith, le_refl _⟩
          · intro i j hi hij hj
            obtain ⟨i1, i2⟩ := hall i hi (by omega)
            rcases Nat.lt_or_ge j (ti + 1) with hlt' | hge'
            · rcases le_or_gt j st.t0 with h1 | h1
              · exact g2 i j hi hij h1
              · obtain ⟨e1, e2⟩ := hI3 j (by omega) (by omega)
                exact cmp1_false_mono e2 (le_refl _) (by linarith)
            · obtain rfl : j = ti + 1 := by omega
              exact cmp1_self H _ _ (by linarith)
        · intro hr k hk
          simp only at hk ⊢
          have he0 : e = 0 := by subst hr; exact hkept
          rw [he0] at hse
          rcases le_or_gt k st.t0 with h1 | h1
          · exact ⟨le_trans (hI5 hr k h1).1 hge, (hI5 hr k h1).2⟩
          · rcases Nat.lt_or_ge k (ti + 1) with hlt' | hge'
            · obtain ⟨e1, e2⟩ := hI3 k (by omega) (by omega)
              have := cmp1_false e2
              exact ⟨le_trans e1 hge, by linarith⟩
            · obtain rfl : k = ti + 1 := by omega
              exact ⟨le_refl _, by linarith⟩

theorem loop_inv (strict : Bool) (h : α) (H : Adm strict h) (n : ℕ) (f : ℕ → α) (l : List α) :
    ∀ (ti : ℕ) (st : St α), Inv strict h f ti st → ti + l.length + 1 = n →
    (∀ (k : ℕ) a, l[k]? = some a → f (ti + 1 + k) = a) →
    ∃ st', loop strict h n st (ti + 1) l = .ok st' ∧ Inv strict h f (n - 1) st' := by
  induction l with
  | nil =>
    intro ti st hinv hn _
    refine ⟨st, rfl, ?_⟩
    simp at hn
    rw [show n - 1 = ti by omega]; exact hinv
  | cons a l ih =>
    intro ti st hinv hn hf
    have ha : f (ti + 1) = a := hf 0 a (by simp)
    simp only [List.length_cons] at hn
    obtain ⟨st', h1, h2⟩ := step_inv strict h H n f ti st hinv (by omega)
    rw [ha] at h1
    obtain ⟨st'', h3, h4⟩ := ih (ti + 1) st' h2 (by omega) (by
      intro k b hb
      have := hf (k + 1) b (by simpa using hb)
      rw [← this]; congr 1; omega)
    exact ⟨st'', by rw [loop, h1]; exact h3, h4⟩

/-- The signal is constant. -/
def Constant (y : List α) : Prop := ∀ (i j : ℕ) a b, y[i]? = some a → y[j]? = some b → a = b

/-- What the filter returns, in terms of the invariant. -/
theorem rfc_result (strict : Bool) (h : α) (H : Adm strict h) (y : List α) (hy : y ≠ [])
    (hc : h = 0 → ¬ Constant y) (f : ℕ → α) (hf : ∀ (k : ℕ) a, y[k]? = some a → f k = a) :
    ∃ out : List ℕ, rfc strict h y = .ok out.reverse ∧
      ∃ s : α, (s = 1 ∨ s = -1) ∧ Kept strict h f s out ∧ (∀ k ∈ out, k < y.length) ∧
      -- the tail
      ((out = [0] ∧ (∀ k, 1 ≤ k → k < y.length → cmp1 strict (f k) (f 0 - h) = false ∧
          cmp1 strict (f 0 + h) (f k) = false)) ∨
       (∃ e r, out = e :: r ∧ r ≠ [] ∧ cmp2 strict h |f e - f (r.headD 0)| = true ∧
          ∀ k, e ≤ k → k < y.length → (-s) * f k ≤ (-s) * f e ∧
            cmp1 strict ((-s) * f k) ((-s) * f e - h) = false) ∨
       (strict = false ∧ ∃ e r t, out = e :: r ∧ e < t ∧ t < y.length ∧
          s * f t = s * f e + h ∧
          (∀ k, e ≤ k → k < y.length → s * f e - h ≤ s * f k ∧ s * f k ≤ s * f t))) := by
  rcases y with _ | ⟨y0, ys⟩
  · exact absurd rfl hy
  have hnn := H.nonneg
  have h0 : f 0 = y0 := hf 0 y0 (by simp)
  have hinit : Inv strict h f 0 ⟨0, y0, 0, [0]⟩ := by
    left; exact ⟨rfl, rfl, rfl, h0.symm, by intro k h1 h2; omega⟩
  obtain ⟨st, hl, hinv⟩ := loop_inv strict h H (y0 :: ys).length f ys 0 _ hinit (by simp) (by
    intro k a ha
    rw [show 0 + 1 + k = k + 1 by omega]
    exact hf (k + 1) a (by simpa using ha))
  have hlast : ∀ k, k < (y0 :: ys).length → k ≤ (y0 :: ys).length - 1 := by intro k hk; omega
  have hnpos : 0 < (y0 :: ys).length := by simp
  rw [rfc]
  simp only [hl]
  rcases hinv with ⟨hz, hout, ht0, hy0, hk⟩ | ⟨s, hs, e, r, hout, het, htt, hy0, hgap, hI3, hI4, hI5,
    hkept⟩
  · -- no direction found
    have hcmp : cmp2 strict h |st.y0 - y0| = false := by
      rw [hy0, h0, sub_self, abs_zero]
      rcases lt_or_eq_of_le hnn with hp | hp
      · cases strict <;> simp [cmp2]
        · exact hp.le
        · exact hp
      · exfalso
        apply hc hp.symm
        have hstrict : strict = true := by
          rcases H with h1 | ⟨h1, -⟩
          · rw [← hp] at h1; exact absurd h1 (lt_irrefl _)
          · exact h1
        have hall : ∀ (i : ℕ) a, (y0 :: ys)[i]? = some a → a = y0 := by
          intro i a ha
          rcases i with _ | i
          · simpa using ha.symm
          · have hlt := (List.getElem?_eq_some_iff.1 ha).1
            obtain ⟨e1, e2⟩ := hk (i + 1) (by omega) (by omega)
            rw [hf _ _ ha, h0, ← hp, hstrict] at e1 e2
            simp [cmp1] at e1 e2
            exact le_antisymm e2 e1
        intro i j a b ha hb
        rw [hall i a ha, hall j b hb]
    refine ⟨[0], ?_, 1, Or.inl rfl, rfl, by simp, Or.inl ⟨rfl, ?_⟩⟩
    · unfold finish
      rw [hout]
      simp [hcmp]
    · intro k hk1 hk2
      exact hk k hk1 (by omega)
  · have hs' : s = 1 ∨ s = -1 := by
      rcases hs with ⟨h1, -⟩ | ⟨h1, -⟩
      · left; exact h1
      · right; exact h1
    have hel : e < (y0 :: ys).length := by omega
    have hye : (y0 :: ys)[e]? = some (f e) := by
      rw [List.getElem?_eq_getElem hel]
      congr 1
      exact (hf e _ (List.getElem?_eq_getElem hel)).symm
    have habs : |st.y0 - f e| = s * st.y0 - s * f e := by
      have := cmp1_true hgap
      rcases hs' with rfl | rfl
      · rw [abs_of_nonneg (by linarith)]; ring
      · rw [abs_of_nonpos (by linarith)]; ring
    have hmemlt : ∀ k ∈ e :: r, k < (y0 :: ys).length := by
      intro k hk
      obtain ⟨h1, -⟩ := kept_pairwise strict h f _ s hkept
      rcases List.mem_cons.1 hk with rfl | hk
      · exact hel
      · have := List.rel_of_pairwise_cons h1 hk
        omega
    by_cases hcmp : cmp2 strict h |st.y0 - f e| = true
    · -- last extreme is appended
      have hlen : st.out.length < (y0 :: ys).length := by
        rw [hout]
        have := kept_length strict h f s e r hkept
        omega
      refine ⟨st.t0 :: e :: r, ?_, -s, ?_, ?_, ?_, Or.inr (Or.inl ⟨st.t0, e :: r, rfl, by simp, ?_, ?_⟩)⟩
      · unfold finish
        rw [hout]
        rw [hout] at hlen
        simp only [hye, hcmp, hlen, ↓reduceIte]
      · rcases hs' with rfl | rfl
        · right; rfl
        · left; simp
      · refine ⟨het, ?_, ?_, ?_, ?_⟩
        · rw [neg_neg, ← hy0]; exact hgap
        · intro hr; rw [neg_neg]; exact hI4 hr
        · intro hr; rw [neg_neg, ← hy0]; exact hI5 hr
        · rw [neg_neg]; exact hkept
      · intro k hk
        rcases List.mem_cons.1 hk with rfl | hk
        · omega
        · exact hmemlt k hk
      · simp only [List.headD_cons]
        rw [← hy0]; exact hcmp
      · intro k hk1 hk2
        rw [neg_neg, ← hy0]
        exact hI3 k hk1 (by omega)
    · -- only possible for method 0 at an exact tie
      rw [Bool.not_eq_true] at hcmp
      have hcmp2 := hcmp
      rw [habs, cmp2_eq] at hcmp
      have htie : strict = false ∧ s * st.y0 - s * f e = h := by
        cases strict with
        | true => simp [cmp1] at hcmp hgap; linarith
        | false =>
          refine ⟨rfl, ?_⟩
          simp [cmp1] at hcmp hgap
          linarith
      refine ⟨e :: r, ?_, s, hs', hkept, hmemlt, Or.inr (Or.inr ⟨htie.1, e, r, st.t0, rfl, het,
        by omega, ?_, ?_⟩)⟩
      · unfold finish
        rw [hout]
        simp only [hye]
        rw [if_neg (by rw [hcmp2]; simp)]
      · rw [← hy0]; linarith [htie.2]
      · intro k hk1 hk2
        rcases le_or_gt k st.t0 with h1 | h1
        · rcases r with _ | ⟨d, r⟩
          · have he0 : e = 0 := hkept
            obtain ⟨g1, g2⟩ := hI5 rfl k h1
            rw [← hy0, he0]
            exact ⟨g2, g1⟩
          · obtain ⟨g1, -⟩ := hI4 (by simp)
            obtain ⟨g2, g3⟩ := g1 k hk1 h1
            exact ⟨by linarith, g3⟩
        · rw [← hy0]
          obtain ⟨e1, e2⟩ := hI3 k (by omega) (by omega)
          have := cmp1_false e2
          exact ⟨by linarith [htie.2], e1⟩

end Wafo.RfcFilter

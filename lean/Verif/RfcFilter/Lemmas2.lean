import Verif.RfcFilter.Lemmas

/-! Consequences of the invariant; fixed points of the rainflow filter. -/

set_option linter.unusedSectionVars false

namespace Wafo.RfcFilter

variable {α : Type*} [Field α] [LinearOrder α] [IsStrictOrderedRing α]

/-- The swing `d` is high enough to be kept: at least `h` for method 0, more than `h` for method 1. -/
def High (strict : Bool) (h d : α) : Prop := if strict then h < d else h ≤ d

theorem cmp1_high (strict : Bool) (h a b : α) (H : cmp1 strict (a + h) b = true) :
    High strict h (b - a) := by
  cases strict <;> simp [cmp1, High] at H ⊢ <;> linarith

theorem high_cmp1 (strict : Bool) (h a b : α) (H : High strict h (b - a)) :
    cmp1 strict (a + h) b = true := by
  cases strict <;> simp [cmp1, High] at H ⊢ <;> linarith

theorem cmp1_low (strict : Bool) (h a b : α) (H : cmp1 strict b (a - h) = false) :
    ¬ High strict h (a - b) := by
  cases strict <;> simp [cmp1, High] at H ⊢ <;> linarith

theorem takeIdx_ok {β : Type*} (y : List β) (ix : List ℕ) (h : ∀ i ∈ ix, i < y.length) :
    ∃ l, takeIdx y ix = .ok l := by
  induction ix with
  | nil => exact ⟨[], rfl⟩
  | cons i ix ih =>
    obtain ⟨l, hl⟩ := ih (fun j hj => h j (List.mem_cons_of_mem _ hj))
    have hi := h i (by simp)
    exact ⟨y[i] :: l, by simp [takeIdx, List.getElem?_eq_getElem hi, hl]⟩

theorem takeIdx_get {β : Type*} (y : List β) (ix : List ℕ) : ∀ l, takeIdx y ix = .ok l →
    l.length = ix.length ∧
    ∀ (k : ℕ) a, l[k]? = some a → ∃ i, ix[k]? = some i ∧ y[i]? = some a := by
  induction ix with
  | nil => intro l hl; simp only [takeIdx, Except.ok.injEq] at hl; subst hl; simp
  | cons i ix ih =>
    intro l hl
    unfold takeIdx at hl
    rcases hy : y[i]? with _ | b
    · simp [hy] at hl
    · rcases ht : takeIdx y ix with e | l'
      · simp [hy, ht] at hl
      · simp only [hy, ht, Except.ok.injEq] at hl
        subst hl
        obtain ⟨h1, h2⟩ := ih l' ht
        refine ⟨by simp [h1], ?_⟩
        intro k a hk
        rcases k with _ | k
        · refine ⟨i, by simp, ?_⟩
          simpa [hy] using hk
        · exact h2 k a (by simpa using hk)

theorem takeIdx_range {β : Type*} (y : List β) : takeIdx y (List.range y.length) = .ok y := by
  obtain ⟨l, hl⟩ := takeIdx_ok y (List.range y.length) (fun i hi => List.mem_range.1 hi)
  rw [hl]
  obtain ⟨h1, h2⟩ := takeIdx_get y _ l hl
  congr 1
  rw [List.length_range] at h1
  apply List.ext_getElem h1
  intro k hk hk'
  obtain ⟨i, hi, hi'⟩ := h2 k _ (List.getElem?_eq_getElem hk)
  rw [List.getElem?_range hk'] at hi
  cases hi
  rw [List.getElem?_eq_getElem hk'] at hi'
  exact (Option.some.inj hi').symm

/-- Adjacent entries of a `Kept` list. -/
theorem kept_adj (strict : Bool) (h : α) (f : ℕ → α) (l : List ℕ) : ∀ s, (s = 1 ∨ s = -1) →
    Kept strict h f s l → ∀ (j : ℕ) q p, l[j]? = some q → l[j + 1]? = some p →
    ∃ s', (s' = 1 ∨ s' = -1) ∧ p < q ∧ cmp1 strict (s' * f p + h) (s' * f q) = true ∧
      (j + 2 < l.length → Good strict h f s' p q) ∧
      (j + 2 = l.length → p = 0 ∧ ∀ k, k ≤ q → s' * f k ≤ s' * f q ∧ s' * f 0 - h ≤ s' * f k) ∧
      (∀ o, l[j + 2]? = some o → cmp1 strict (-s' * f o + h) (-s' * f p) = true) := by
  induction l with
  | nil => intro s hs hk; exact hk.elim
  | cons e r ih =>
    intro s hs hk j q p hq hp
    rcases r with _ | ⟨d, r⟩
    · simp at hp
    · obtain ⟨h1, h2, h3, h4, h5⟩ := hk
      have hs' : -s = 1 ∨ -s = -1 := by rcases hs with rfl | rfl <;> simp
      rcases j with _ | j
      · simp at hq hp
        subst hq hp
        refine ⟨-s, hs', h1, h2, ?_, ?_, ?_⟩
        · intro hl; apply h3; rintro rfl; simp at hl
        · intro hl
          have hr : r = [] := by simpa using hl
          subst hr
          exact ⟨h5, h4 rfl⟩
        · intro o ho
          rcases r with _ | ⟨c, r⟩
          · simp at ho
          · simp at ho; subst ho
            exact h5.2.1
      · obtain ⟨s', g1, g2, g3, g4, g5, g6⟩ := ih (-s) hs' h5 j q p (by simpa using hq)
          (by simpa using hp)
        refine ⟨s', g1, g2, g3, ?_, ?_, ?_⟩
        · intro hl; apply g4; simp at hl ⊢; omega
        · intro hl; apply g5; simp at hl ⊢; omega
        · intro o ho; exact g6 o (by simpa using ho)

/-- The value of a signal at an index. -/
def sig (y : List α) (k : ℕ) : α := y.getD k 0

theorem sig_of (y : List α) (k : ℕ) (a : α) (h : y[k]? = some a) : sig y k = a := by
  simp [sig, List.getD, h]

/-- The loop started in a tight zigzag emits every index. -/
theorem loop_zigzag (strict : Bool) (h : α) (z : List α)
    (hsw : ∀ (i : ℕ) a b, z[i]? = some a → z[i + 1]? = some b → High strict h |b - a|)
    (halt : ∀ (i : ℕ) a b c, z[i]? = some a → z[i + 1]? = some b → z[i + 2]? = some c →
      (a < b ∧ c < b) ∨ (b < a ∧ b < c)) (l : List α) :
    ∀ (t : ℕ) (a b s : α) (zz : ℤ), z.drop (t + 2) = l → z[t]? = some a → z[t + 1]? = some b →
    ((s = 1 ∧ zz = 1) ∨ (s = -1 ∧ zz = -1)) → s * a < s * b →
    ∃ a' b' zz', loop strict h z.length ⟨t + 1, b, zz, (List.range (t + 1)).reverse⟩ (t + 2) l =
      .ok ⟨z.length - 1, b', zz', (List.range (z.length - 1)).reverse⟩ ∧
      z[z.length - 2]? = some a' ∧ z[z.length - 1]? = some b' := by
  induction l with
  | nil =>
    intro t a b s zz hd ha hb hs hlt
    have h1 := (List.getElem?_eq_some_iff.1 hb).1
    have h2 : z.length ≤ t + 2 := List.drop_eq_nil_iff.1 hd
    have h3 : z.length - 1 = t + 1 := by omega
    have h4 : z.length - 2 = t := by omega
    refine ⟨a, b, zz, ?_, by rw [h4]; exact ha, by rw [h3]; exact hb⟩
    rw [loop, h3]
  | cons c l ih =>
    intro t a b s zz hd ha hb hs hlt
    have hc : z[t + 2]? = some c := by
      have := congrArg (fun m => m[0]?) hd
      simpa using this
    have hlen := (List.getElem?_eq_some_iff.1 hc).1
    have hd' : z.drop (t + 1 + 2) = l := by
      have := congrArg List.tail hd
      simpa [List.tail_drop] using this
    have hal := halt t a b c ha hb hc
    have hlt2 : s * c < s * b := by
      rcases hs with ⟨rfl, -⟩ | ⟨rfl, -⟩ <;> rcases hal with ⟨h1, h2⟩ | ⟨h1, h2⟩ <;> linarith
    have hcond : cmp1 strict (s * c) (s * b - h) = true := by
      have h1 := hsw (t + 1) b c hb hc
      have h2 : |c - b| = s * b - s * c := by
        rcases hs with ⟨rfl, -⟩ | ⟨rfl, -⟩
        · rw [abs_of_nonpos (by linarith)]; ring
        · rw [abs_of_nonneg (by linarith)]; ring
      rw [h2] at h1
      rw [← high_cmp1 strict h _ _ h1]
      exact cmp1_congr strict (by ring)
    rw [loop, step_dir strict h z.length _ (t + 2) c s (by simpa using hs)]
    simp only [hcond, ↓reduceIte]
    rw [if_pos (by simp; omega)]
    have hrev : (t + 1) :: (List.range (t + 1)).reverse = (List.range (t + 1 + 1)).reverse := by
      rw [List.range_succ (n := t + 1)]; simp
    simp only [hrev]
    exact ih (t + 1) b c (-s) (-zz) hd' hb hc (by
      rcases hs with ⟨rfl, rfl⟩ | ⟨rfl, rfl⟩ <;> simp) (by linarith)

/-- A signal that zigzags by high enough swings passes the filter unchanged. -/
theorem rfc_zigzag (strict : Bool) (h : α) (hn0 : 0 ≤ h) (z : List α) (hz : z ≠ [])
    (hpos : z.length = 1 → strict = true → 0 < h)
    (hsw : ∀ (i : ℕ) a b, z[i]? = some a → z[i + 1]? = some b → High strict h |b - a|)
    (hlast : ∀ a b, 2 ≤ z.length → z[z.length - 2]? = some a → z[z.length - 1]? = some b →
      h < |b - a|)
    (halt : ∀ (i : ℕ) a b c, z[i]? = some a → z[i + 1]? = some b → z[i + 2]? = some c →
      (a < b ∧ c < b) ∨ (b < a ∧ b < c)) :
    rfc strict h z = .ok (List.range z.length) := by
  rcases z with _ | ⟨a, _ | ⟨b, l⟩⟩
  · exact absurd rfl hz
  · have : cmp2 strict h |a - a| = false := by
      rw [sub_self, abs_zero]
      cases strict
      · simp [cmp2, hn0]
      · simpa [cmp2] using hpos rfl rfl
    simpa [rfc, loop, finish] using this
  · have hne : a ≠ b := by
      rintro rfl
      rcases l with _ | ⟨c, l⟩
      · have := hlast a a (by simp) (by simp) (by simp)
        simp at this
        linarith
      · rcases halt 0 a a c (by simp) (by simp) (by simp) with ⟨h1, -⟩ | ⟨h1, -⟩ <;>
          exact absurd h1 (lt_irrefl _)
    have h01 := hsw 0 a b (by simp) (by simp)
    have hs : ∃ s : α, ∃ zz : ℤ, ((s = 1 ∧ zz = 1) ∨ (s = -1 ∧ zz = -1)) ∧ s * a < s * b ∧
        step strict h (a :: b :: l).length ⟨0, a, 0, [0]⟩ 1 b = .ok ⟨1, b, zz, [0]⟩ := by
      rcases lt_or_gt_of_ne hne with hlt | hgt
      · refine ⟨1, 1, Or.inl ⟨rfl, rfl⟩, by linarith, ?_⟩
        rw [step_zero _ _ _ _ _ _ rfl]
        have e1 : cmp1 strict b (a - h) = false := by
          cases strict <;> simp [cmp1] <;> linarith
        have e2 : cmp1 strict (a + h) b = true := by
          apply high_cmp1
          rwa [abs_of_pos (by linarith)] at h01
        simp [e1, e2]
      · refine ⟨-1, -1, Or.inr ⟨rfl, rfl⟩, by linarith, ?_⟩
        rw [step_zero _ _ _ _ _ _ rfl]
        have e1 : cmp1 strict b (a - h) = true := by
          have e2 : cmp1 strict (b + h) a = true := by
            apply high_cmp1
            rw [abs_of_neg (by linarith)] at h01
            rwa [neg_sub] at h01
          rw [← e2]; exact cmp1_congr strict (by ring)
        simp [e1]
    obtain ⟨s, zz, hs1, hs2, hs3⟩ := hs
    obtain ⟨a', b', zz', hl, ha', hb'⟩ := loop_zigzag strict h (a :: b :: l) hsw halt l 0 a b s zz
      (by simp) (by simp) (by simp) hs1 hs2
    have hl' : loop strict h (a :: b :: l).length ⟨0, a, 0, [0]⟩ 1 (b :: l) =
      .ok ⟨(a :: b :: l).length - 1, b', zz', (List.range ((a :: b :: l).length - 1)).reverse⟩ := by
      rw [loop, hs3]
      exact hl
    rw [rfc]
    simp only [hl']
    have hrng : (List.range ((a :: b :: l).length - 1)).reverse =
        ((a :: b :: l).length - 2) :: (List.range ((a :: b :: l).length - 2)).reverse := by
      have : (a :: b :: l).length - 1 = ((a :: b :: l).length - 2) + 1 := by simp
      rw [this, List.range_succ]; simp
    have hc2 : cmp2 strict h |b' - a'| = true := by
      have := hlast a' b' (by simp) ha' hb'
      cases strict
      · simpa [cmp2] using this
      · simpa [cmp2] using this.le
    unfold finish
    simp only [hrng, ha', hc2, ↓reduceIte]
    rw [if_pos (by simp)]
    rw [← hrng]
    congr 1
    have h1 : (a :: b :: l).length = ((a :: b :: l).length - 1) + 1 := by simp
    conv_rhs => rw [h1, List.range_succ]
    simp

end Wafo.RfcFilter

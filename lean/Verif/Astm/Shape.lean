import Verif.Astm.Lemmas

/-! Shape of the stack and of the half cycles of the ASTM rainflow counting. -/

set_option linter.unusedSectionVars false

namespace Wafo.Astm

variable {α : Type*} [Field α] [LinearOrder α] [IsStrictOrderedRing α]

/-- The ranges on the stack (top first) grow strictly towards the bottom. -/
def DecS : List α → Prop
  | c :: b :: a :: r => |c - b| < |b - a| ∧ DecS (b :: a :: r)
  | _ => True

/-- The two lowest entries of a stack (top first). -/
def bot : List α → α × α
  | [] => (0, 0)
  | [a] => (a, a)
  | [p, q] => (p, q)
  | _ :: b :: a :: r => bot (b :: a :: r)

/-- `x` lies between the two values. -/
def InHull (b : α × α) (x : α) : Prop := min b.1 b.2 ≤ x ∧ x ≤ max b.1 b.2

/-- Interval inclusion. -/
def Sub (b b' : α × α) : Prop := min b'.1 b'.2 ≤ min b.1 b.2 ∧ max b.1 b.2 ≤ max b'.1 b'.2

theorem Sub.refl (b : α × α) : Sub b b := ⟨le_refl _, le_refl _⟩

theorem Sub.trans {a b c : α × α} (h : Sub a b) (h' : Sub b c) : Sub a c :=
  ⟨le_trans h'.1 h.1, le_trans h.2 h'.2⟩

theorem Sub.mem {a b : α × α} (h : Sub a b) {x : α} (hx : InHull a x) : InHull b x :=
  ⟨le_trans h.1 hx.1, le_trans hx.2 h.2⟩

theorem Sub.range {a b : α × α} (h : Sub a b) : |a.1 - a.2| ≤ |b.1 - b.2| := by
  rw [← max_sub_min_eq_abs', ← max_sub_min_eq_abs']
  obtain ⟨h1, h2⟩ := h
  linarith

/-- Amplitudes of the rows counted as half cycles, in order. -/
def halves (rows : List (Row3 α)) : List α :=
  (rows.filter (fun r => decide (r.cnt = 1 / 2))).map Row3.ampl

theorem halves_append (r s : List (Row3 α)) : halves (r ++ s) = halves r ++ halves s := by
  simp [halves]

theorem halves_row3_one (a b : α) : halves (row3 a b 1) = [] := by
  unfold row3 halves
  have : ¬ ((1 : α) = 1 / 2) := fun h => half_ne_one h.symm
  split
  · simp only [List.filter_cons, this, decide_false]; simp
  · rfl

theorem halves_row3_half (a b : α) (h : a ≠ b) : halves (row3 a b (1 / 2)) = [|b - a| / 2] := by
  unfold row3 halves
  have h0 : 0 < |(b - a) / 2| := by
    rw [abs_pos]
    intro hc
    apply h
    have : b - a = 0 := by linarith [hc]
    linarith
  rw [if_pos h0]
  simp [abs_div]

/-- On a shrinking alternating stack the two newest values lie between the two oldest. -/
theorem nest (r : List α) : ∀ (c b s : α), (s = 1 ∨ s = -1) → AltS s (c :: b :: r) → DecS (c :: b :: r) →
    InHull (bot (c :: b :: r)) c ∧ InHull (bot (c :: b :: r)) b := by
  induction r with
  | nil =>
    intro c b s _ _ _
    exact ⟨⟨min_le_left _ _, le_max_left _ _⟩, ⟨min_le_right _ _, le_max_right _ _⟩⟩
  | cons a r ih =>
    intro c b s hs halt hdec
    have hs' : -s = 1 ∨ -s = -1 := by rcases hs with rfl | rfl <;> simp
    obtain ⟨hcb, hrest⟩ := halt
    obtain ⟨hlt, hdec'⟩ := hdec
    obtain ⟨hb, ha⟩ := ih b a (-s) hs' hrest hdec'
    have hba : 0 < -s * (b - a) := hrest.1
    rw [abs_dir s _ hs hcb, abs_dir (-s) _ hs' hba] at hlt
    have hbot : bot (c :: b :: a :: r) = bot (b :: a :: r) := rfl
    rw [hbot]
    refine ⟨?_, hb⟩
    obtain ⟨b1, b2⟩ := hb
    obtain ⟨a1, a2⟩ := ha
    rcases hs with rfl | rfl
    · exact ⟨by linarith, by linarith⟩
    · exact ⟨by linarith, by linarith⟩

theorem reduce3_bot (c : α) (n : ℕ) : ∀ (l : List α) (s : α), (s = 1 ∨ s = -1) → l.length ≤ n → l ≠ [] →
    AltS s (c :: l) → DecS l →
    ∃ st rows k, reduce3 c l = (c :: st, rows, k) ∧ st ≠ [] ∧ DecS (c :: st) ∧
      Sub (bot l) (bot (c :: st)) ∧ InHull (bot (c :: st)) c ∧
      (halves rows = [] ∨ halves rows = [|(bot l).1 - (bot l).2| / 2]) := by
  induction n with
  | zero =>
    intro l s hs hl hne
    exact absurd (List.length_eq_zero_iff.1 (by omega)) hne
  | succ n ih =>
    intro l s hs hl hne halt hdec
    have hs' : -s = 1 ∨ -s = -1 := by rcases hs with rfl | rfl <;> simp
    rcases l with _ | ⟨b, _ | ⟨a, rest⟩⟩
    · exact absurd rfl hne
    · refine ⟨[b], [], 0, rfl, by simp, trivial, ?_, ⟨min_le_left _ _, le_max_left _ _⟩, Or.inl rfl⟩
      exact ⟨by simp [bot], by simp [bot]⟩
    · obtain ⟨hcb, hba, hrest⟩ : 0 < s * (c - b) ∧ 0 < -s * (b - a) ∧ AltS (- -s) (a :: rest) := halt
      rw [reduce3_step]
      by_cases hcond : |b - a| ≤ |c - b|
      · rw [if_pos hcond]
        rw [abs_dir s _ hs hcb, abs_dir (-s) _ hs' hba] at hcond
        rcases rest with _ | ⟨p, r⟩
        · have hne' : a ≠ b := by rintro rfl; simp at hba
          refine ⟨[b], row3 a b (1 / 2), 0, rfl, by simp, trivial, ?_,
            ⟨min_le_left _ _, le_max_left _ _⟩, Or.inr ?_⟩
          · rcases hs with rfl | rfl
            · refine ⟨?_, ?_⟩
              · simp only [bot]; rw [min_eq_right (by linarith), min_eq_left (by linarith)]
              · simp only [bot]; rw [max_eq_right (by linarith), max_eq_left (by linarith)]; linarith
            · refine ⟨?_, ?_⟩
              · simp only [bot]; rw [min_eq_left (by linarith), min_eq_right (by linarith)]; linarith
              · simp only [bot]; rw [max_eq_left (by linarith), max_eq_right (by linarith)]
          · rw [halves_row3_half a b hne']; rfl
        · rw [neg_neg] at hrest
          obtain ⟨hap, hr⟩ : 0 < s * (a - p) ∧ AltS (-s) (p :: r) := hrest
          have hcp : 0 < s * (c - p) := by linarith
          have hdec' : DecS (p :: r) := by
            have h1 := hdec.2
            rcases r with _ | ⟨q, r⟩
            · trivial
            · exact h1.2
          obtain ⟨st, rows, k, h1, h2, h3, h4, h5, h6⟩ := ih (p :: r) s hs (by simp at hl ⊢; omega)
            (by simp) ⟨hcp, hr⟩ hdec'
          refine ⟨st, row3 a b 1 ++ rows, (if 0 < |(b - a) / 2| then 1 else 0) + k, by simp only [h1], h2, h3, ?_,
            h5, ?_⟩
          · rcases r with _ | ⟨q, r⟩
            · have hst : st = [p] := by
                have : reduce3 c [p] = ([c, p], [], 0) := rfl
                rw [this] at h1
                simp only [Prod.mk.injEq, List.cons.injEq, true_and] at h1
                exact h1.1.symm
              subst hst
              rcases hs with rfl | rfl
              · refine ⟨?_, ?_⟩
                · simp only [bot]; rw [min_eq_right (by linarith), min_eq_right (by linarith)]
                · simp only [bot]; rw [max_eq_left (by linarith), max_eq_left (by linarith)]; linarith
              · refine ⟨?_, ?_⟩
                · simp only [bot]; rw [min_eq_left (by linarith), min_eq_left (by linarith)]; linarith
                · simp only [bot]; rw [max_eq_right (by linarith), max_eq_right (by linarith)]
            · exact h4
          · rw [halves_append, halves_row3_one, List.nil_append]
            rcases r with _ | ⟨q, r⟩
            · left
              have : reduce3 c [p] = ([c, p], [], 0) := rfl
              rw [this] at h1
              simp only [Prod.mk.injEq] at h1
              rw [← h1.2.1]; rfl
            · exact h6
      · rw [if_neg hcond]
        have hd : DecS (c :: b :: a :: rest) := ⟨not_le.1 hcond, hdec⟩
        refine ⟨b :: a :: rest, [], 0, rfl, by simp, hd, Sub.refl _, ?_, Or.inl rfl⟩
        exact (nest (a :: rest) c b s hs ⟨hcb, hba, hrest⟩ hd).1

/-- Invariant of the outer loop. -/
structure Shape (s : α) (seen : List α) (st : List α) (rows : List (Row3 α)) : Prop where
  alt : AltS s st
  dec : DecS st
  ne : st ≠ []
  hull : ∀ x ∈ seen, InHull (bot st) x
  grow : (halves rows).Pairwise (· ≤ ·)
  below : ∀ h ∈ halves rows, h ≤ |(bot st).1 - (bot st).2| / 2

theorem loop3_shape (l : List α) : ∀ (c : α) (st : List α) (rows : List (Row3 α)) (k : ℕ) (s : α) (seen : List α),
    (s = 1 ∨ s = -1) → AltF s c l → Shape (-s) seen (c :: st) rows →
    ∃ st' rows' k' s', loop3 l (c :: st) rows k = (st', rows', k') ∧ (s' = 1 ∨ s' = -1) ∧
      Shape s' (seen ++ l) st' rows' ∧ (2 ≤ (c :: st).length + l.length → 2 ≤ st'.length) := by
  induction l with
  | nil =>
    intro c st rows k s seen hs _ hsh
    refine ⟨c :: st, rows, k, -s, rfl, by rcases hs with rfl | rfl <;> simp, by simpa using hsh, ?_⟩
    intro h; simpa using h
  | cons x l ih =>
    intro c st rows k s seen hs hf hsh
    obtain ⟨hx, hf⟩ := hf
    have hs' : -s = 1 ∨ -s = -1 := by rcases hs with rfl | rfl <;> simp
    have halt : AltS s (x :: c :: st) := ⟨hx, hsh.alt⟩
    obtain ⟨st1, rows1, k1, h1, h2, h3, h4, h5, h6⟩ := reduce3_bot x (c :: st).length (c :: st) s hs (le_refl _)
      (by simp) halt hsh.dec
    obtain ⟨st1', rows1', k1', e1, e2, -, -⟩ := reduce3_alt x (c :: st).length (c :: st) s hs (le_refl _) halt
    rw [h1] at e1
    simp only [Prod.mk.injEq, List.cons.injEq, true_and] at e1
    obtain ⟨rfl, rfl, rfl⟩ := e1
    have hr := h4.range
    have hsh1 : Shape (- -s) (seen ++ [x]) (x :: st1) (rows ++ rows1) := by
      refine ⟨by rw [neg_neg]; exact e2, h3, by simp, ?_, ?_, ?_⟩
      · intro z hz
        rcases List.mem_append.1 hz with hz | hz
        · exact h4.mem (hsh.hull z hz)
        · rw [List.mem_singleton.1 hz]; exact h5
      · rw [halves_append]
        rcases h6 with h6 | h6
        · rw [h6, List.append_nil]; exact hsh.grow
        · rw [h6, List.pairwise_append]
          refine ⟨hsh.grow, List.pairwise_singleton _ _, ?_⟩
          intro g hg z hz
          rw [List.mem_singleton.1 hz]
          exact hsh.below g hg
      · intro g hg
        rw [halves_append, List.mem_append] at hg
        rcases hg with hg | hg
        · have := hsh.below g hg; linarith
        · rcases h6 with h6 | h6
          · rw [h6] at hg; simp at hg
          · rw [h6] at hg; rw [List.mem_singleton.1 hg]; linarith
    obtain ⟨st', rows', k', s', g1, g2, g3, g4⟩ := ih x st1 (rows ++ rows1) (k + k1) (-s) (seen ++ [x]) hs' hf hsh1
    refine ⟨st', rows', k', s', ?_, g2, ?_, ?_⟩
    · rw [loop3, h1]; exact g1
    · rw [show seen ++ x :: l = seen ++ [x] ++ l by simp]; exact g3
    · intro _
      apply g4
      have := List.length_pos_iff.2 h2
      simp only [List.length_cons]
      omega

theorem close3_halves (r : List α) : ∀ (c b s : α), (s = 1 ∨ s = -1) → AltS s (c :: b :: r) → DecS (c :: b :: r) →
    (halves (close3 (c :: b :: r))).Pairwise (· > ·) ∧
    (∀ h ∈ halves (close3 (c :: b :: r)), |c - b| / 2 ≤ h) ∧
    ∃ row ∈ close3 (c :: b :: r), row.cnt = 1 / 2 ∧
      row.mean - row.ampl = min (bot (c :: b :: r)).1 (bot (c :: b :: r)).2 ∧
      row.mean + row.ampl = max (bot (c :: b :: r)).1 (bot (c :: b :: r)).2 := by
  induction r with
  | nil =>
    intro c b s hs halt _
    have hpos : 0 < |b - c| / 2 := by
      rw [abs_sub_comm, abs_dir s _ hs halt.1]; linarith [halt.1]
    have e : close3 [c, b] = [⟨|b - c| / 2, (b + c) / 2, 1 / 2⟩] := by
      rw [close3, if_pos hpos]; rfl
    rw [e]
    refine ⟨by simp [halves], ?_, _, List.mem_singleton_self _, rfl, ?_, ?_⟩
    · intro h hh
      simp [halves] at hh
      rw [hh, abs_sub_comm]
    · simp only [bot]
      have h1 := max_sub_min_eq_abs' c b
      have h2 := min_add_max c b
      rw [abs_sub_comm, ← h1]; linarith
    · simp only [bot]
      have h1 := max_sub_min_eq_abs' c b
      have h2 := min_add_max c b
      rw [abs_sub_comm, ← h1]; linarith
  | cons a r ih =>
    intro c b s hs halt hdec
    have hs' : -s = 1 ∨ -s = -1 := by rcases hs with rfl | rfl <;> simp
    obtain ⟨hcb, hrest⟩ := halt
    obtain ⟨hlt, hdec'⟩ := hdec
    obtain ⟨h1, h2, row, h3, h4, h5⟩ := ih b a (-s) hs' hrest hdec'
    have hpos : 0 < |b - c| / 2 := by
      rw [abs_sub_comm, abs_dir s _ hs hcb]; linarith
    have e : close3 (c :: b :: a :: r) = close3 (b :: a :: r) ++ [⟨|b - c| / 2, (b + c) / 2, 1 / 2⟩] := by
      rw [close3, if_pos hpos]
    have eh : halves (close3 (c :: b :: a :: r)) = halves (close3 (b :: a :: r)) ++ [|c - b| / 2] := by
      rw [e, halves_append]; simp [halves, abs_sub_comm]
    rw [eh]
    refine ⟨?_, ?_, row, ?_, h4, h5⟩
    · rw [List.pairwise_append]
      refine ⟨h1, List.pairwise_singleton _ _, ?_⟩
      intro g hg z hz
      rw [List.mem_singleton.1 hz]
      have := h2 g hg
      change |c - b| / 2 < g
      linarith
    · intro h hh
      rcases List.mem_append.1 hh with hh | hh
      · have := h2 h hh; linarith
      · rw [List.mem_singleton.1 hh]
    · rw [e]; exact List.mem_append_left _ h3

end Wafo.Astm

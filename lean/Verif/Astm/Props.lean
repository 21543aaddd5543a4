import Verif.Astm.Lemmas
import Mathlib.Data.Rat.Defs
import Mathlib.Algebra.Order.Field.Rat
import Mathlib.Tactic.NormNum

/-!
Property theorems for the ASTM rainflow counting (C20 - C23).
-/

set_option linter.unusedSectionVars false

namespace Wafo.Astm

variable {α : Type*} [Field α] [LinearOrder α] [IsStrictOrderedRing α]

/-- A sequence of turning points: neighbours differ and every inner point is a local extreme. -/
def Zigzag (y : List α) : Prop :=
  (∀ (i : ℕ) a b, y[i]? = some a → y[i + 1]? = some b → a ≠ b) ∧
  ∀ (i : ℕ) a b c, y[i]? = some a → y[i + 1]? = some b → y[i + 2]? = some c →
    (a < b ∧ c < b) ∨ (b < a ∧ b < c)

theorem altF_of_zigzag (l : List α) : ∀ (c s : α), (s = 1 ∨ s = -1) → Zigzag (c :: l) →
    (∀ x, l[0]? = some x → 0 < s * (x - c)) → AltF s c l := by
  induction l with
  | nil => intro c s _ _ _; trivial
  | cons x l ih =>
    intro c s hs hz h0
    have hx := h0 x (by simp)
    refine ⟨hx, ih x (-s) (by rcases hs with rfl | rfl <;> simp) ?_ ?_⟩
    · refine ⟨fun i a b ha hb => hz.1 (i + 1) a b (by simpa using ha) (by simpa using hb),
        fun i a b d ha hb hd => hz.2 (i + 1) a b d (by simpa using ha) (by simpa using hb)
          (by simpa using hd)⟩
    · intro d hd
      have := hz.2 0 c x d (by simp) (by simp) (by simpa using hd)
      rcases hs with rfl | rfl <;> rcases this with ⟨h1, h2⟩ | ⟨h1, h2⟩ <;> linarith

theorem zigzag_alt (c : α) (l : List α) (hz : Zigzag (c :: l)) :
    ∃ s, (s = 1 ∨ s = -1) ∧ AltF s c l := by
  rcases l with _ | ⟨x, l⟩
  · exact ⟨1, Or.inl rfl, trivial⟩
  · have hne := hz.1 0 c x (by simp) (by simp)
    rcases lt_or_gt_of_ne hne with h | h
    · exact ⟨1, Or.inl rfl, altF_of_zigzag _ c 1 (Or.inl rfl) hz (by
        intro d hd; simp at hd; subst hd; linarith)⟩
    · exact ⟨-1, Or.inr rfl, altF_of_zigzag _ c (-1) (Or.inr rfl) hz (by
        intro d hd; simp at hd; subst hd; linarith)⟩

/-- For every signal: the returned array consists of the rows written followed by zero rows only, so
no counted cycle is cut off and no write goes outside the array. -/
theorem C20_nothing_cut (y : List α) :
    (rows3 y).length ≤ y.length ∧
    ∃ k, findrfc3 y = rows3 y ++ List.replicate k (⟨0, 0, 0⟩ : Row3 α) := by
  obtain ⟨h1, h2, h3, h4⟩ := rows3_spec y
  rcases eq_or_ne y [] with rfl | hy
  · refine ⟨by simp [h4 rfl], 0, by simp [findrfc3, h4 rfl]⟩
  · have := h3 hy
    refine ⟨by omega, min (y.length - cnr3 y - (rows3 y).length) (y.length - (rows3 y).length), ?_⟩
    rw [findrfc3, List.take_append, List.take_of_length_le (by omega), List.take_replicate]

/-- C20, for turning points: the result has exactly `n - 1 - (number of full cycles)` rows, every row
is a counted cycle of positive amplitude with count 0.5 or 1, and twice the full cycles plus the half
cycles is `n - 1`. -/
theorem C20_astm_accounts_partial (y : List α) (hy : y ≠ []) (hz : Zigzag y) :
    (findrfc3 y).length + (findrfc3 y).countP (fun r => decide (r.cnt = 1)) + 1 = y.length ∧
    (∀ r ∈ findrfc3 y, 0 < r.ampl ∧ (r.cnt = 1 / 2 ∨ r.cnt = 1)) ∧
    2 * (findrfc3 y).countP (fun r => decide (r.cnt = 1)) +
      (findrfc3 y).countP (fun r => decide (r.cnt = 1 / 2)) + 1 = y.length := by
  rcases y with _ | ⟨c, l⟩
  · exact absurd rfl hy
  obtain ⟨s, hs, hf⟩ := zigzag_alt c l hz
  obtain ⟨h1, h2, -, -⟩ := rows3_spec (c :: l)
  obtain ⟨h3, -⟩ := rows3_alt c l s hs hf
  have heq : findrfc3 (c :: l) = rows3 (c :: l) := by
    rw [findrfc3, List.take_append, List.take_of_length_le (by omega), List.take_replicate]
    rw [show min ((c :: l).length - cnr3 (c :: l) - (rows3 (c :: l)).length)
      ((c :: l).length - (rows3 (c :: l)).length) = 0 by omega]
    simp
  rw [heq]
  have hcount : ∀ rows : List (Row3 α), (∀ r ∈ rows, r.cnt = 1 / 2 ∨ r.cnt = 1) →
      rows.countP (fun r => decide (r.cnt = 1 / 2)) + rows.countP (fun r => decide (r.cnt = 1)) =
        rows.length := by
    intro rows hr
    induction rows with
    | nil => rfl
    | cons r rows ih =>
      have := ih (fun x hx => hr x (List.mem_cons_of_mem _ hx))
      rw [List.countP_cons, List.countP_cons, List.length_cons]
      rcases hr r (by simp) with h | h
      · have hne : ¬ ((1 : α) / 2 = 1) := half_ne_one
        rw [h]
        simp only [decide_true, if_true, hne, decide_false, Bool.false_eq_true, if_false]
        omega
      · have hne : ¬ ((1 : α) = 1 / 2) := fun h => half_ne_one h.symm
        rw [h]
        simp only [decide_true, if_true, hne, decide_false, Bool.false_eq_true, if_false]
        omega
  have hc := hcount (rows3 (c :: l)) (fun r hr => (h1 r hr).2.1)
  have h2' : cnr3 (c :: l) = 1 + (rows3 (c :: l)).countP (fun r => decide (r.cnt = 1)) := h2
  refine ⟨by omega, fun r hr => ⟨(h1 r hr).1, (h1 r hr).2.1⟩, by omega⟩

example : findrfc3 ([0, 3, 1, 2, -1, 4] : List ℚ) =
    [⟨1/2, 3/2, 1⟩, ⟨3/2, 3/2, 1/2⟩, ⟨2, 1, 1/2⟩, ⟨5/2, 3/2, 1/2⟩] := by decide +kernel

/-- The claim is false if only equal neighbours are excluded: for the sequence 0, 10, 12, 0 the result
ends with a spurious row of zeros. -/
theorem C20_refuted : findrfc3 ([0, 10, 12, 0] : List ℚ) = [⟨1, 11, 1⟩, ⟨0, 0, 0⟩] := by
  decide +kernel

/-! ### C21 -/

/-- C21: for turning points the counted cycles account for the whole up and down movement: the sum of
2 * count * range over all rows (range is twice the amplitude) is the total variation. -/
theorem C21_total_variation (y : List α) (hz : Zigzag y) :
    ((findrfc3 y).map (fun r => 2 * r.cnt * (2 * r.ampl))).sum = tvar y := by
  rcases y with _ | ⟨c, l⟩
  · rfl
  · obtain ⟨s, hs, hf⟩ := zigzag_alt c l hz
    obtain ⟨h3, h4⟩ := rows3_alt c l s hs hf
    obtain ⟨-, k, hk⟩ := C20_nothing_cut (c :: l)
    rw [hk, ← h4, weight, List.map_append, List.sum_append]
    rw [List.map_replicate, mul_zero, mul_zero, List.sum_replicate, nsmul_zero, add_zero]
    congr 1
    apply List.map_congr_left
    intro r _
    ring

example : Zigzag ([0, 3, 1, 2] : List ℚ) := by
  refine ⟨?_, ?_⟩
  · intro i a b ha hb
    rcases i with _ | _ | _ | _ | i <;> simp at ha hb <;> subst ha <;> subst hb <;> norm_num
  · intro i a b c ha hb hc
    rcases i with _ | _ | _ | i <;> simp at ha hb hc <;> subst ha <;> subst hb <;> subst hc <;>
      norm_num

/-- Without alternation the law fails. -/
theorem C21_needs_turning_points :
    ((findrfc3 ([0, 10, 12, 0] : List ℚ)).map (fun r => 2 * r.cnt * (2 * r.ampl))).sum = 4 ∧
    tvar ([0, 10, 12, 0] : List ℚ) = 24 := by
  refine ⟨by decide +kernel, by norm_num [tvar]⟩

/-! ### C22 -/

/-- C22: every counted cycle runs between two values of the signal, for every signal. -/
theorem C22_cycles_inside (y : List α) : ∀ r ∈ findrfc3 y, r ≠ ⟨0, 0, 0⟩ →
    0 < r.ampl ∧ r.mean - r.ampl ∈ y ∧ r.mean + r.ampl ∈ y := by
  intro r hr hne
  obtain ⟨-, k, hk⟩ := C20_nothing_cut y
  rw [hk] at hr
  rcases List.mem_append.1 hr with hr | hr
  · obtain ⟨h1, -⟩ := rows3_spec y
    obtain ⟨g1, -, g3, g4⟩ := h1 r hr
    exact ⟨g1, g3, g4⟩
  · exact absurd (List.eq_of_mem_replicate hr) hne

/-- C22: hence all cycles lie between any bounds of the signal. -/
theorem C22_within_bounds (y : List α) (lo hi : α) (hb : ∀ x ∈ y, lo ≤ x ∧ x ≤ hi) :
    ∀ r ∈ findrfc3 y, r ≠ ⟨0, 0, 0⟩ → lo ≤ r.mean - r.ampl ∧ r.mean + r.ampl ≤ hi := by
  intro r hr hne
  obtain ⟨-, h1, h2⟩ := C22_cycles_inside y r hr hne
  exact ⟨(hb _ h1).1, (hb _ h2).2⟩

example : (⟨1/2, 3/2, 1⟩ : Row3 ℚ) ∈ findrfc3 ([0, 3, 1, 2, -1, 4] : List ℚ) := by decide +kernel

/-! ### C23 -/

theorem zip_fst (y t : List α) (h : y.length ≤ t.length) : (y.zip t).map Prod.fst = y := by
  rw [List.map_fst_zip]; exact h

/-- C23: with times the same amplitudes, means and counts are reported row by row. -/
theorem C23_times_agree (y t : List α) (h : y.length ≤ t.length) :
    ∃ rows, findrfc5 y t = .ok rows ∧ rows.map (fun r => (⟨r.ampl, r.mean, r.cnt⟩ : Row3 α)) =
      findrfc3 y := by
  have hf := rows5_forget (y.zip t)
  rw [zip_fst y t h] at hf
  refine ⟨_, by rw [findrfc5, if_neg (by omega)], ?_⟩
  have hlen : (rows5 (y.zip t)).length = (rows3 y).length := by rw [← hf.1]; simp
  rw [List.map_take, List.map_append, List.map_replicate, hf.2, hlen, findrfc3]
  have : (rows5 (y.zip t)).map (fun r => (⟨r.ampl, r.mean, r.cnt⟩ : Row3 α)) = rows3 y := hf.1
  rw [this]

/-- C23: for strictly increasing times every counted cycle has a positive period. -/
theorem C23_period_positive (y t : List α) (ht : t.Pairwise (· < ·)) (rows : List (Row5 α))
    (hr : findrfc5 y t = .ok rows) :
    ∀ r ∈ rows, r ≠ ⟨0, 0, 0, 0, 0⟩ → 0 < r.period := by
  unfold findrfc5 at hr
  split at hr
  · simp at hr
  · simp only [Except.ok.injEq] at hr
    intro r hr' hne
    rw [← hr] at hr'
    rcases List.mem_append.1 (List.mem_of_mem_take hr') with h | h
    · refine rows5_time _ ?_ r h
      clear hr hr' h
      induction y generalizing t with
      | nil => simp
      | cons a y ih =>
        rcases t with _ | ⟨b, t⟩
        · simp
        · obtain ⟨h1, h2⟩ := List.pairwise_cons.1 ht
          rw [List.zip_cons_cons, List.pairwise_cons]
          refine ⟨?_, ih t h2 (by simp at *; omega)⟩
          rintro ⟨p, q⟩ hp
          exact h1 q (List.of_mem_zip hp).2
    · exact absurd (List.eq_of_mem_replicate h) hne

/-- A row describes the cycle from the turning point `p` to the later turning point `q` (value, time). -/
def Describes (r : Row5 α) (p q : α × α) : Prop :=
  r.ampl = |q.1 - p.1| / 2 ∧ r.mean = (p.1 + q.1) / 2 ∧ r.atime = p.2 ∧ r.period = 2 * (q.2 - p.2)

theorem row5_describes (x y : α × α) (c : α) : ∀ r ∈ row5 x y c, Describes r x y := by
  intro r hr
  unfold row5 at hr
  split at hr
  · simp only [List.mem_singleton] at hr
    subst hr
    refine ⟨?_, by simp only; ring, rfl, by simp only; ring⟩
    simp only [abs_div, abs_two]
  · simp at hr

/-- Every row written so far describes two points of the processed part `w` (latest first). -/
def Good (w : List (α × α)) (rows : List (Row5 α)) : Prop :=
  ∀ r ∈ rows, ∃ p q, [q, p].Sublist w ∧ Describes r p q

theorem Good.mono {w w' : List (α × α)} {rows : List (Row5 α)} (h : Good w rows) (hw : w.Sublist w') : Good w' rows := by
  intro r hr
  obtain ⟨p, q, h1, h2⟩ := h r hr
  exact ⟨p, q, h1.trans hw, h2⟩

theorem Good.append {w : List (α × α)} {r1 r2 : List (Row5 α)} (h1 : Good w r1) (h2 : Good w r2) : Good w (r1 ++ r2) := by
  intro r hr
  rcases List.mem_append.1 hr with h | h
  · exact h1 r h
  · exact h2 r h

theorem reduce5_good (c : α × α) (w : List (α × α)) (n : ℕ) : ∀ l : List (α × α), l.length ≤ n → (c :: l).Sublist w →
    (reduce5 c l).1.Sublist w ∧ Good w (reduce5 c l).2.1 := by
  induction n with
  | zero =>
    intro l hl hw
    have : l = [] := List.length_eq_zero_iff.1 (by omega)
    subst this; exact ⟨hw, by simp [reduce5, Good]⟩
  | succ n ih =>
    intro l hl hw
    rcases l with _ | ⟨b, _ | ⟨a, rest⟩⟩
    · exact ⟨hw, by simp [reduce5, Good]⟩
    · exact ⟨hw, by simp [reduce5, Good]⟩
    · rw [reduce5_step]
      have hab : Good w (row5 a b (1 / 2)) ∧ Good w (row5 a b 1) := by
        have : [b, a].Sublist w :=
          (((List.nil_sublist rest).cons_cons a).cons_cons b).trans ((List.sublist_cons_self c _).trans hw)
        exact ⟨fun r hr => ⟨a, b, this, row5_describes a b _ r hr⟩, fun r hr => ⟨a, b, this, row5_describes a b _ r hr⟩⟩
      by_cases hcond : |b.1 - a.1| ≤ |c.1 - b.1|
      · rw [if_pos hcond]
        rcases rest with _ | ⟨p, r⟩
        · exact ⟨(((List.nil_sublist _).cons_cons b).cons_cons c).trans hw, hab.1⟩
        · obtain ⟨h1, h2⟩ := ih (p :: r) (by simp at hl ⊢; omega)
            ((((List.sublist_cons_self a _).trans (List.sublist_cons_self b _)).cons_cons c).trans hw)
          exact ⟨h1, hab.2.append h2⟩
      · rw [if_neg hcond]
        exact ⟨hw, by simp [Good]⟩

theorem loop5_good (l : List (α × α)) : ∀ st rows k w, st.Sublist w → Good w rows →
    (loop5 l st rows k).1.Sublist (l.reverse ++ w) ∧ Good (l.reverse ++ w) (loop5 l st rows k).2.1 := by
  induction l with
  | nil => intro st rows k w h1 h2; exact ⟨h1, h2⟩
  | cons x l ih =>
    intro st rows k w h1 h2
    obtain ⟨g1, g2⟩ := reduce5_good x (x :: w) st.length st (le_refl _) (h1.cons_cons x)
    rw [loop5]
    rcases hr : reduce5 x st with ⟨st', rows', k'⟩
    rw [hr] at g1 g2
    simp only at g1 g2 ⊢
    have := ih st' (rows ++ rows') (k + k') (x :: w) g1 ((h2.mono (List.sublist_cons_self x w)).append g2)
    simpa using this

theorem close5_good (w : List (α × α)) (st : List (α × α)) : st.Sublist w → Good w (close5 st) := by
  induction st with
  | nil => intro _; simp [close5, Good]
  | cons c st ih =>
    rcases st with _ | ⟨b, r⟩
    · intro _; simp [close5, Good]
    · intro h x hx
      rw [close5] at hx
      rcases List.mem_append.1 hx with hx | hx
      · exact ih ((List.sublist_cons_self c _).trans h) x hx
      · split at hx
        · simp only [List.mem_singleton] at hx
          subst hx
          refine ⟨b, c, (((List.nil_sublist r).cons_cons b).cons_cons c).trans h, ?_, rfl, rfl, by simp only; ring⟩
          simp only [abs_sub_comm]
        · simp at hx

/-- C23: every counted cycle runs from one turning point to a later one; its begin time is the time of the first and its
period twice the time between them. -/
theorem C23_times_exact (y t : List α) (rows : List (Row5 α)) (hr : findrfc5 y t = .ok rows) :
    ∀ r ∈ rows, r ≠ ⟨0, 0, 0, 0, 0⟩ → ∃ p q, [p, q].Sublist (y.zip t) ∧ Describes r p q := by
  unfold findrfc5 at hr
  split at hr
  · simp at hr
  · simp only [Except.ok.injEq] at hr
    intro r hr' hne
    rw [← hr] at hr'
    rcases List.mem_append.1 (List.mem_of_mem_take hr') with h | h
    · obtain ⟨h1, h2⟩ := loop5_good (y.zip t) [] [] 0 [] (List.nil_sublist _) (by simp [Good])
      rw [List.append_nil] at h1 h2
      have : Good (y.zip t).reverse (rows5 (y.zip t)) := by
        unfold rows5
        exact h2.append (close5_good _ _ h1)
      obtain ⟨p, q, g1, g2⟩ := this r h
      refine ⟨p, q, ?_, g2⟩
      have := g1.reverse
      simpa using this
    · exact absurd (List.eq_of_mem_replicate h) hne

example : findrfc5 ([0, 3, 1, 2, -1] : List ℚ) [0, 1, 2, 3, 4] =
    .ok [⟨1/2, 3/2, 1, 2, 2⟩, ⟨3/2, 3/2, 1/2, 0, 2⟩, ⟨2, 1, 1/2, 1, 6⟩] := by decide +kernel

end Wafo.Astm

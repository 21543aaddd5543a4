import Verif.Astm.Model
import Mathlib.Tactic.FieldSimp

/-! Stack invariants of the ASTM rainflow counting. -/

set_option linter.unusedSectionVars false

namespace Wafo.Astm

variable {α : Type*} [Field α] [LinearOrder α] [IsStrictOrderedRing α]

theorem reduce3_step (c b a : α) (rest : List α) : reduce3 c (b :: a :: rest) =
    if |b - a| ≤ |c - b| then
      match rest with
      | [] => ([c, b], row3 a b (1 / 2), 0)
      | p :: r =>
        ((reduce3 c (p :: r)).1, row3 a b 1 ++ (reduce3 c (p :: r)).2.1,
          (if 0 < |(b - a) / 2| then 1 else 0) + (reduce3 c (p :: r)).2.2)
    else (c :: b :: a :: rest, [], 0) := by
  rcases rest with _ | ⟨p, r⟩ <;> rfl

theorem reduce5_step (c b a : α × α) (rest : List (α × α)) : reduce5 c (b :: a :: rest) =
    if |b.1 - a.1| ≤ |c.1 - b.1| then
      match rest with
      | [] => ([c, b], row5 a b (1 / 2), 0)
      | p :: r =>
        ((reduce5 c (p :: r)).1, row5 a b 1 ++ (reduce5 c (p :: r)).2.1,
          (if 0 < |(b.1 - a.1) / 2| then 1 else 0) + (reduce5 c (p :: r)).2.2)
    else (c :: b :: a :: rest, [], 0) := by
  rcases rest with _ | ⟨p, r⟩ <;> rfl

/-- Number of rows counted as full cycles. -/
def fulls (rows : List (Row3 α)) : ℕ := rows.countP (fun r => decide (r.cnt = 1))

/-- Every row is a positive amplitude, counted as a half or full cycle, spanned by two values from
`S`. -/
def RowOk (S : List α) (r : Row3 α) : Prop :=
  0 < r.ampl ∧ (r.cnt = 1 / 2 ∨ r.cnt = 1) ∧ r.mean - r.ampl ∈ S ∧ r.mean + r.ampl ∈ S

theorem half_ne_one : (1 / 2 : α) ≠ 1 := by
  intro h; have : (1 : α) = 2 := by linarith
  linarith

theorem row3_length (x y c : α) : (row3 x y c).length ≤ 1 := by
  unfold row3; split <;> simp

theorem abs_mem (S : List α) (x y : α) (hx : x ∈ S) (hy : y ∈ S) :
    (y + x) / 2 - |(y - x) / 2| ∈ S ∧ (y + x) / 2 + |(y - x) / 2| ∈ S := by
  rcases le_total x y with h | h
  · rw [abs_of_nonneg (by linarith)]
    constructor
    · rwa [show (y + x) / 2 - (y - x) / 2 = x by ring]
    · rwa [show (y + x) / 2 + (y - x) / 2 = y by ring]
  · rw [abs_of_nonpos (by linarith)]
    constructor
    · rwa [show (y + x) / 2 - -((y - x) / 2) = y by ring]
    · rwa [show (y + x) / 2 + -((y - x) / 2) = x by ring]

theorem row3_ok (S : List α) (x y c : α) (hx : x ∈ S) (hy : y ∈ S) (hc : c = 1 / 2 ∨ c = 1) :
    ∀ r ∈ row3 x y c, RowOk S r := by
  intro r hr
  unfold row3 at hr
  split at hr
  · rename_i h
    simp at hr; subst hr
    obtain ⟨h1, h2⟩ := abs_mem S x y hx hy
    exact ⟨h, hc, h1, h2⟩
  · simp at hr

theorem fulls_append (r s : List (Row3 α)) : fulls (r ++ s) = fulls r + fulls s := by
  simp [fulls]

/-- One run of the inner loop, for every stack. -/
theorem reduce3_spec (S : List α) (c : α) (hc : c ∈ S) (n : ℕ) : ∀ (l : List α), l.length ≤ n →
    (∀ x ∈ l, x ∈ S) →
    ∃ st rows k, reduce3 c l = (c :: st, rows, k) ∧ (∀ x ∈ st, x ∈ S) ∧
      (∀ r ∈ rows, RowOk S r) ∧ fulls rows = k ∧
      rows.length + k + st.length ≤ l.length := by
  induction n with
  | zero =>
    intro l hl hS
    have : l = [] := List.length_eq_zero_iff.1 (by omega)
    subst this
    exact ⟨[], [], 0, rfl, by simp, by simp, rfl, by simp⟩
  | succ n ih =>
    intro l hl hS
    rcases l with _ | ⟨b, _ | ⟨a, rest⟩⟩
    · exact ⟨[], [], 0, rfl, by simp, by simp, rfl, by simp⟩
    · exact ⟨[b], [], 0, rfl, hS, by simp, rfl, by simp⟩
    · rw [reduce3_step]
      have hb : b ∈ S := hS b (by simp)
      have ha : a ∈ S := hS a (by simp)
      by_cases hcond : |b - a| ≤ |c - b|
      · rw [if_pos hcond]
        rcases rest with _ | ⟨p, r⟩
        · refine ⟨[b], row3 a b (1 / 2), 0, rfl, by simpa using hb,
            row3_ok S a b _ ha hb (Or.inl rfl), ?_, ?_⟩
          · unfold fulls row3
            split
            · simp
            · rfl
          · have := row3_length a b (1 / 2 : α)
            simp only [List.length_cons, List.length_nil]; omega
        · obtain ⟨st, rows, k, h1, h2, h3, h4, h5⟩ := ih (p :: r) (by simp at hl ⊢; omega)
            (fun x hx => hS x (List.mem_cons_of_mem _ (List.mem_cons_of_mem _ hx)))
          refine ⟨st, row3 a b 1 ++ rows, (if 0 < |(b - a) / 2| then 1 else 0) + k, by simp only [h1], h2, ?_, ?_,
            ?_⟩
          · intro x hx
            rcases List.mem_append.1 hx with hx | hx
            · exact row3_ok S a b 1 ha hb (Or.inr rfl) x hx
            · exact h3 x hx
          · rw [fulls_append, h4]
            congr 1
            unfold fulls row3
            split <;> simp
          · simp only [List.length_append, List.length_cons] at h5 ⊢
            unfold row3
            split <;> simp <;> omega
      · rw [if_neg hcond]
        exact ⟨b :: a :: rest, [], 0, rfl, hS, by simp, rfl, by simp⟩

theorem loop3_spec (S : List α) (l : List α) : ∀ (st : List α) (rows : List (Row3 α)) (k m : ℕ),
    (∀ x ∈ l, x ∈ S) → (∀ x ∈ st, x ∈ S) → (∀ r ∈ rows, RowOk S r) → fulls rows = k →
    rows.length + k + st.length ≤ m →
    ∃ st' rows' k', loop3 l st rows k = (st', rows', k') ∧ (∀ x ∈ st', x ∈ S) ∧
      (∀ r ∈ rows', RowOk S r) ∧ fulls rows' = k' ∧
      rows'.length + k' + st'.length ≤ m + l.length ∧ (st' = [] → l = [] ∧ st = []) := by
  induction l with
  | nil =>
    intro st rows k m hl hst hrows hk hm
    exact ⟨st, rows, k, rfl, hst, hrows, hk, by simpa using hm, fun h => ⟨rfl, h⟩⟩
  | cons x l ih =>
    intro st rows k m hl hst hrows hk hm
    obtain ⟨st1, rows1, k1, h1, h2, h3, h4, h5⟩ := reduce3_spec S x (hl x (by simp)) st.length st
      (le_refl _) hst
    obtain ⟨st', rows', k', g1, g2, g3, g4, g5, g6⟩ := ih (x :: st1) (rows ++ rows1) (k + k1) (m + 1)
      (fun y hy => hl y (List.mem_cons_of_mem _ hy))
      (by intro y hy
          rcases List.mem_cons.1 hy with rfl | hy
          · exact hl y (by simp)
          · exact h2 y hy)
      (by intro r hr
          rcases List.mem_append.1 hr with hr | hr
          · exact hrows r hr
          · exact h3 r hr)
      (by rw [fulls_append, hk, h4])
      (by simp only [List.length_append, List.length_cons]; omega)
    refine ⟨st', rows', k', ?_, g2, g3, g4, ?_, ?_⟩
    · rw [loop3, h1]; exact g1
    · simp only [List.length_cons]; omega
    · intro h
      obtain ⟨-, h'⟩ := g6 h
      simp at h'

theorem close3_spec (S : List α) (st : List α) (hS : ∀ x ∈ st, x ∈ S) :
    (∀ r ∈ close3 st, RowOk S r) ∧ fulls (close3 st) = 0 ∧ (close3 st).length ≤ st.length - 1 := by
  induction st with
  | nil => exact ⟨by simp [close3], rfl, by simp [close3]⟩
  | cons c st ih =>
    rcases st with _ | ⟨b, r⟩
    · exact ⟨by simp [close3], rfl, by simp [close3]⟩
    · obtain ⟨h1, h2, h3⟩ := ih (fun x hx => hS x (List.mem_cons_of_mem _ hx))
      rw [close3]
      have hnew : ∀ r ∈ (if 0 < |b - c| / 2 then [(⟨|b - c| / 2, (b + c) / 2, 1 / 2⟩ : Row3 α)]
          else []), RowOk S r := by
        intro r hr
        split at hr
        · rename_i h
          simp at hr; subst hr
          obtain ⟨m1, m2⟩ := abs_mem S c b (hS c (by simp)) (hS b (by simp))
          have : |b - c| / 2 = |(b - c) / 2| := by rw [abs_div, abs_two]
          refine ⟨h, Or.inl (by norm_num), ?_, ?_⟩
          · simp only [this]; exact m1
          · simp only [this]; exact m2
        · simp at hr
      refine ⟨?_, ?_, ?_⟩
      · intro x hx
        rcases List.mem_append.1 hx with hx | hx
        · exact h1 x hx
        · exact hnew x hx
      · rw [fulls_append, h2]
        unfold fulls
        split
        · simp
        · rfl
      · rw [List.length_append]
        simp only [List.length_cons] at h3 ⊢
        split <;> simp <;> omega

/-- Accounting for every input: what is written fits the array and the returned slice. -/
theorem rows3_spec (y : List α) : (∀ r ∈ rows3 y, RowOk y r) ∧ cnr3 y = 1 + fulls (rows3 y) ∧
    (y ≠ [] → (rows3 y).length + cnr3 y ≤ y.length) ∧ (y = [] → rows3 y = []) := by
  obtain ⟨st, rows, k, h1, h2, h3, h4, h5, h6⟩ := loop3_spec y y [] [] 0 0 (fun x h => h) (by simp)
    (by simp) rfl (by simp)
  obtain ⟨g1, g2, g3⟩ := close3_spec y st h2
  have hrows : rows3 y = rows ++ close3 st := by rw [rows3, h1]
  have hcnr : cnr3 y = 1 + k := by rw [cnr3, h1]
  refine ⟨?_, ?_, ?_, ?_⟩
  · rw [hrows]
    intro r hr
    rcases List.mem_append.1 hr with hr | hr
    · exact h3 r hr
    · exact g1 r hr
  · rw [hrows, hcnr, fulls_append, g2, h4]; simp
  · intro hy
    have hst : st ≠ [] := fun h => hy (h6 h).1
    have := List.length_pos_iff.2 hst
    rw [hrows, hcnr, List.length_append]
    omega
  · intro hy
    subst hy
    simp [rows3, loop3, close3]

/-! ### Alternating signals -/

/-- The list (latest value first) alternates, the latest step having direction `s`. -/
def AltS : α → List α → Prop
  | _, [] => True
  | _, [_] => True
  | s, c :: b :: r => 0 < s * (c - b) ∧ AltS (-s) (b :: r)

/-- The coming values alternate, starting from `c` with a step of direction `s`. -/
def AltF : α → α → List α → Prop
  | _, _, [] => True
  | s, c, x :: l => 0 < s * (x - c) ∧ AltF (-s) x l

/-- Sum of absolute steps. -/
def tvar : List α → α
  | a :: b :: l => |b - a| + tvar (b :: l)
  | _ => 0

/-- Total variation accounted for by rows: twice the range for full, once for half cycles. -/
def weight (rows : List (Row3 α)) : α := (rows.map (fun r => 4 * r.cnt * r.ampl)).sum

theorem weight_append (r s : List (Row3 α)) : weight (r ++ s) = weight r + weight s := by
  simp [weight]

theorem abs_dir (s u : α) (hs : s = 1 ∨ s = -1) (h : 0 < s * u) : |u| = s * u := by
  rcases hs with rfl | rfl
  · rw [abs_of_pos (by linarith)]; ring
  · rw [abs_of_neg (by linarith)]; ring

theorem row3_pos (a b cnt s : α) (hs : s = 1 ∨ s = -1) (h : 0 < s * (b - a)) :
    (row3 a b cnt).length = 1 ∧ weight (row3 a b cnt) = 2 * cnt * |b - a| := by
  have h1 : 0 < |(b - a) / 2| := by
    rw [abs_div, abs_two, abs_dir s _ hs h]; linarith
  unfold row3
  rw [if_pos h1]
  refine ⟨rfl, ?_⟩
  simp only [weight, List.map_cons, List.map_nil, List.sum_cons, List.sum_nil, abs_div, abs_two]
  ring

theorem reduce3_alt (c : α) (n : ℕ) : ∀ (l : List α) (s : α), (s = 1 ∨ s = -1) → l.length ≤ n →
    AltS s (c :: l) →
    ∃ st rows k, reduce3 c l = (c :: st, rows, k) ∧ AltS s (c :: st) ∧
      rows.length + k + st.length = l.length ∧
      tvar (c :: st) + weight rows = tvar (c :: l) := by
  induction n with
  | zero =>
    intro l s hs hl halt
    have : l = [] := List.length_eq_zero_iff.1 (by omega)
    subst this
    exact ⟨[], [], 0, rfl, trivial, rfl, by simp [tvar, weight]⟩
  | succ n ih =>
    intro l s hs hl halt
    rcases l with _ | ⟨b, _ | ⟨a, rest⟩⟩
    · exact ⟨[], [], 0, rfl, trivial, rfl, by simp [tvar, weight]⟩
    · exact ⟨[b], [], 0, rfl, halt, rfl, by simp [weight]⟩
    · obtain ⟨hcb, hba, hrest⟩ : 0 < s * (c - b) ∧ 0 < -s * (b - a) ∧ AltS (- -s) (a :: rest) := halt
      have hs' : -s = 1 ∨ -s = -1 := by rcases hs with rfl | rfl <;> simp
      rw [reduce3_step]
      by_cases hcond : |b - a| ≤ |c - b|
      · rw [if_pos hcond]
        rcases rest with _ | ⟨p, r⟩
        · obtain ⟨l1, w1⟩ := row3_pos a b (1 / 2) (-s) hs' hba
          refine ⟨[b], row3 a b (1 / 2), 0, rfl, ⟨hcb, trivial⟩, by rw [l1]; rfl, ?_⟩
          rw [w1]
          simp only [tvar]
          rw [abs_sub_comm b a]; ring
        · rw [neg_neg] at hrest
          obtain ⟨hap, hr⟩ : 0 < s * (a - p) ∧ AltS (-s) (p :: r) := hrest
          rw [abs_dir s _ hs hcb, abs_dir (-s) _ hs' hba] at hcond
          have hcp : 0 < s * (c - p) := by linarith
          obtain ⟨st, rows, k, h1, h2, h3, h4⟩ := ih (p :: r) s hs (by simp at hl ⊢; omega) ⟨hcp, hr⟩
          obtain ⟨l1, w1⟩ := row3_pos a b 1 (-s) hs' hba
          have hpos : 0 < |(b - a) / 2| := by
            rw [abs_div, abs_two, abs_dir (-s) _ hs' hba]; linarith
          refine ⟨st, row3 a b 1 ++ rows, 1 + k, by simp only [h1, hpos, ↓reduceIte], h2, ?_, ?_⟩
          · simp only [List.length_append, l1, List.length_cons] at h3 ⊢
            omega
          · rw [weight_append, w1]
            have e1 : tvar (c :: b :: a :: p :: r) = |b - c| + (|a - b| + (|p - a| + tvar (p :: r))) :=
              rfl
            have e2 : tvar (c :: p :: r) = |p - c| + tvar (p :: r) := rfl
            rw [e1]
            rw [e2] at h4
            rw [abs_sub_comm b c, abs_sub_comm a b, abs_sub_comm p a, abs_dir s _ hs hcb,
              abs_dir (-s) _ hs' hba, abs_dir s _ hs hap]
            rw [abs_sub_comm p c, abs_dir s _ hs hcp] at h4
            linarith
      · rw [if_neg hcond]
        exact ⟨b :: a :: rest, [], 0, rfl, ⟨hcb, hba, hrest⟩, by simp, by simp [weight]⟩

theorem loop3_alt (l : List α) : ∀ (c : α) (st : List α) (rows : List (Row3 α)) (k : ℕ) (s : α),
    (s = 1 ∨ s = -1) → AltS (-s) (c :: st) → AltF s c l →
    ∃ st' rows' k' s', loop3 l (c :: st) rows k = (st', rows', k') ∧ (s' = 1 ∨ s' = -1) ∧
      AltS s' st' ∧ st' ≠ [] ∧
      rows'.length + k' + st'.length = rows.length + k + (c :: st).length + l.length ∧
      tvar st' + weight rows' = tvar (c :: st) + weight rows + tvar (c :: l) := by
  induction l with
  | nil =>
    intro c st rows k s hs halt hf
    refine ⟨c :: st, rows, k, -s, rfl, ?_, halt, by simp, by simp, by simp [tvar]⟩
    rcases hs with rfl | rfl <;> simp
  | cons x l ih =>
    intro c st rows k s hs halt hf
    obtain ⟨hx, hf⟩ := hf
    have hs' : -s = 1 ∨ -s = -1 := by rcases hs with rfl | rfl <;> simp
    obtain ⟨st1, rows1, k1, h1, h2, h3, h4⟩ := reduce3_alt x (c :: st).length (c :: st) s hs (le_refl _)
      ⟨hx, halt⟩
    obtain ⟨st', rows', k', s', g1, g2, g3, g4, g5, g6⟩ := ih x st1 (rows ++ rows1) (k + k1) (-s) hs'
      (by rw [neg_neg]; exact h2) hf
    refine ⟨st', rows', k', s', ?_, g2, g3, g4, ?_, ?_⟩
    · rw [loop3, h1]; exact g1
    · simp only [List.length_append, List.length_cons] at g5 h3 ⊢
      omega
    · rw [g6, weight_append]
      have e1 : tvar (x :: c :: st) = |c - x| + tvar (c :: st) := rfl
      have e2 : tvar (c :: x :: l) = |x - c| + tvar (x :: l) := rfl
      rw [e2]
      rw [e1] at h4
      rw [abs_sub_comm x c]
      linarith

theorem close3_alt (st : List α) : ∀ s : α, (s = 1 ∨ s = -1) → AltS s st →
    (close3 st).length = st.length - 1 ∧ weight (close3 st) = tvar st := by
  induction st with
  | nil => intro s hs _; simp [close3, tvar, weight]
  | cons c st ih =>
    intro s hs halt
    rcases st with _ | ⟨b, r⟩
    · simp [close3, tvar, weight]
    · obtain ⟨h1, h2⟩ := halt
      obtain ⟨g1, g2⟩ := ih (-s) (by rcases hs with rfl | rfl <;> simp) h2
      have hpos : 0 < |b - c| / 2 := by
        rw [abs_sub_comm, abs_dir s _ hs h1]; linarith
      rw [close3, if_pos hpos, weight_append, g2]
      refine ⟨by simp [g1], ?_⟩
      have e2 : tvar (c :: b :: r) = |b - c| + tvar (b :: r) := rfl
      rw [e2]
      simp only [weight, List.map_cons, List.map_nil, List.sum_cons, List.sum_nil]
      ring

/-- Accounting for alternating signals. -/
theorem rows3_alt (c : α) (l : List α) (s : α) (hs : s = 1 ∨ s = -1) (hf : AltF s c l) :
    (rows3 (c :: l)).length + cnr3 (c :: l) = (c :: l).length ∧
    weight (rows3 (c :: l)) = tvar (c :: l) := by
  obtain ⟨st, rows, k, s', h1, h2, h3, h4, h5, h6⟩ := loop3_alt l c [] [] 0 s hs trivial hf
  obtain ⟨g1, g2⟩ := close3_alt st s' h2 h3
  have hl : loop3 (c :: l) [] [] 0 = (st, rows, k) := by
    rw [loop3]; exact h1
  have hrows : rows3 (c :: l) = rows ++ close3 st := by rw [rows3, hl]
  have hcnr : cnr3 (c :: l) = 1 + k := by rw [cnr3, hl]
  have := List.length_pos_iff.2 h4
  refine ⟨?_, ?_⟩
  · rw [hrows, hcnr, List.length_append, g1]
    simp only [List.length_cons, List.length_nil] at h5 ⊢
    omega
  · rw [hrows, weight_append, g2]
    simp only [tvar, weight, List.map_nil, List.sum_nil] at h6 ⊢
    linarith

/-! ### Times -/

/-- Forget the times of a row. -/
def Row5.forget (r : Row5 α) : Row3 α := ⟨r.ampl, r.mean, r.cnt⟩

theorem row5_forget (x y : α × α) (c : α) : (row5 x y c).map Row5.forget = row3 x.1 y.1 c := by
  unfold row5 row3; split <;> rfl

theorem reduce5_forget (c : α × α) (n : ℕ) : ∀ l : List (α × α), l.length ≤ n →
    reduce3 c.1 (l.map Prod.fst) = ((reduce5 c l).1.map Prod.fst,
      (reduce5 c l).2.1.map Row5.forget, (reduce5 c l).2.2) := by
  induction n with
  | zero =>
    intro l hl
    have : l = [] := List.length_eq_zero_iff.1 (by omega)
    subst this; rfl
  | succ n ih =>
    intro l hl
    rcases l with _ | ⟨b, _ | ⟨a, rest⟩⟩
    · rfl
    · rfl
    · rw [List.map_cons, List.map_cons, reduce3_step, reduce5_step]
      by_cases hcond : |b.1 - a.1| ≤ |c.1 - b.1|
      · rw [if_pos hcond, if_pos hcond]
        rcases rest with _ | ⟨p, r⟩
        · simp [row5_forget]
        · have := ih (p :: r) (by simp at hl ⊢; omega)
          rw [List.map_cons] at this ⊢
          simp only [this, List.map_append, row5_forget]
      · rw [if_neg hcond, if_neg hcond]; rfl

theorem loop5_forget (l : List (α × α)) : ∀ st rows k,
    loop3 (l.map Prod.fst) (st.map Prod.fst) (rows.map Row5.forget) k =
      ((loop5 l st rows k).1.map Prod.fst, (loop5 l st rows k).2.1.map Row5.forget,
        (loop5 l st rows k).2.2) := by
  induction l with
  | nil => intro st rows k; rfl
  | cons x l ih =>
    intro st rows k
    rw [List.map_cons, loop3, loop5, reduce5_forget x st.length st (le_refl _)]
    simp only
    rw [← List.map_append]
    exact ih _ _ _

theorem close5_forget (st : List (α × α)) :
    (close5 st).map Row5.forget = close3 (st.map Prod.fst) := by
  induction st with
  | nil => rfl
  | cons c st ih =>
    rcases st with _ | ⟨b, r⟩
    · rfl
    · have e : close3 ((c :: b :: r).map Prod.fst) = close3 ((b :: r).map Prod.fst) ++
          (if 0 < |b.1 - c.1| / 2 then [⟨|b.1 - c.1| / 2, (b.1 + c.1) / 2, 1 / 2⟩] else []) := rfl
      rw [close5, List.map_append, ih, e]
      congr 1
      split <;> rfl

theorem rows5_forget (z : List (α × α)) : (rows5 z).map Row5.forget = rows3 (z.map Prod.fst) ∧
    1 + (loop5 z [] [] 0).2.2 = cnr3 (z.map Prod.fst) := by
  have h := loop5_forget z [] [] 0
  simp only [List.map_nil] at h
  refine ⟨?_, ?_⟩
  · rw [rows5, rows3, h, List.map_append, close5_forget]
  · rw [cnr3, h]

/-- Times strictly decrease along the stack (top first), staying below a bound. -/
def TimeDec : List (α × α) → Prop
  | c :: b :: r => b.2 < c.2 ∧ TimeDec (b :: r)
  | _ => True

theorem row5_time (x y : α × α) (c : α) (h : x.2 < y.2) : ∀ r ∈ row5 x y c, 0 < r.period := by
  intro r hr
  unfold row5 at hr
  split at hr
  · simp at hr; subst hr; simp only; linarith
  · simp at hr

theorem reduce5_time (c : α × α) (n : ℕ) : ∀ l : List (α × α), l.length ≤ n →
    TimeDec (c :: l) → ∃ st, (reduce5 c l).1 = c :: st ∧ TimeDec (c :: st) ∧
      ∀ r ∈ (reduce5 c l).2.1, 0 < r.period := by
  induction n with
  | zero =>
    intro l hl ht
    have : l = [] := List.length_eq_zero_iff.1 (by omega)
    subst this; exact ⟨[], rfl, trivial, by simp [reduce5]⟩
  | succ n ih =>
    intro l hl ht
    rcases l with _ | ⟨b, _ | ⟨a, rest⟩⟩
    · exact ⟨[], rfl, trivial, by simp [reduce5]⟩
    · exact ⟨[b], rfl, ht, by simp [reduce5]⟩
    · rw [reduce5_step]
      by_cases hcond : |b.1 - a.1| ≤ |c.1 - b.1|
      · rw [if_pos hcond]
        rcases rest with _ | ⟨p, r⟩
        · exact ⟨[b], rfl, ⟨ht.1, trivial⟩, row5_time a b _ ht.2.1⟩
        · obtain ⟨st, h1, h2, h3⟩ := ih (p :: r) (by simp at hl ⊢; omega)
            ⟨lt_trans ht.2.2.1 (lt_trans ht.2.1 ht.1), ht.2.2.2⟩
          refine ⟨st, h1, h2, ?_⟩
          intro x hx
          rcases List.mem_append.1 hx with hx | hx
          · exact row5_time a b _ ht.2.1 x hx
          · exact h3 x hx
      · rw [if_neg hcond]
        exact ⟨b :: a :: rest, rfl, ht, by simp⟩

theorem loop5_time (l : List (α × α)) : ∀ c st rows k, TimeDec (c :: st) →
    (∀ r ∈ rows, 0 < r.period) → (c :: l).Pairwise (fun a b => a.2 < b.2) →
    TimeDec (loop5 l (c :: st) rows k).1 ∧ ∀ r ∈ (loop5 l (c :: st) rows k).2.1, 0 < r.period := by
  induction l with
  | nil => intro c st rows k h1 h2 _; exact ⟨h1, h2⟩
  | cons x l ih =>
    intro c st rows k h1 h2 h3
    obtain ⟨h4, h5⟩ := List.pairwise_cons.1 h3
    obtain ⟨st1, g1, g2, g3⟩ := reduce5_time x (c :: st).length (c :: st) (le_refl _)
      ⟨h4 x (by simp), h1⟩
    rw [loop5]
    rcases hr : reduce5 x (c :: st) with ⟨st', rows', k'⟩
    rw [hr] at g1 g3
    simp only at g1 g3 ⊢
    rw [g1]
    apply ih x st1 _ _ g2 _ h5
    intro r hr
    rcases List.mem_append.1 hr with hr | hr
    · exact h2 r hr
    · exact g3 r hr

theorem close5_time (st : List (α × α)) : TimeDec st → ∀ r ∈ close5 st, 0 < r.period := by
  induction st with
  | nil => intro _; simp [close5]
  | cons c st ih =>
    rcases st with _ | ⟨b, r⟩
    · intro _; simp [close5]
    · rintro ⟨h1, h2⟩ x hx
      rw [close5] at hx
      rcases List.mem_append.1 hx with hx | hx
      · exact ih h2 x hx
      · split at hx
        · simp at hx; subst hx; simp only; linarith
        · simp at hx

theorem rows5_time (z : List (α × α)) (hz : z.Pairwise (fun a b => a.2 < b.2)) :
    ∀ r ∈ rows5 z, 0 < r.period := by
  rcases z with _ | ⟨c, l⟩
  · simp [rows5, loop5, close5]
  · obtain ⟨h1, h2⟩ := loop5_time l c [] [] 0 trivial (by simp) hz
    have e : loop5 (c :: l) [] [] 0 = loop5 l [c] [] 0 := rfl
    intro r hr
    rw [rows5, e] at hr
    rcases List.mem_append.1 hr with hr | hr
    · exact h2 r hr
    · exact close5_time _ h1 r hr

end Wafo.Astm

import Mathlib.Tactic.FieldSimp
import Mathlib.Tactic.Positivity
import Mathlib.Algebra.BigOperators.Ring.List
import Mathlib.Algebra.Order.BigOperators.Group.List
import Verif.Thresh.Props

set_option linter.unusedSectionVars false

/-!
Property C223: `dispersion_idx` of stats/core.py.
-/

namespace Wafo.Thresh

variable {α : Type} [Field α] [LinearOrder α] [IsStrictOrderedRing α] [FloorRing α]

theorem occ_sum_aux (l : List (α × ℤ)) (u : α) (m : ℕ) (h : ∀ p ∈ l, 0 ≤ p.2 ∧ p.2 < (m : ℤ)) :
    ((List.range m).map fun b : ℕ => (((l.filter fun p => decide (p.2 = (b : ℤ)) && decide (u < p.1)).length : ℕ) : α)).sum =
      (((l.filter fun p => decide (u < p.1)).length : ℕ) : α) := by
  induction l with
  | nil => simp
  | cons p l ih =>
    have ih := ih fun q hq => h q (List.mem_cons_of_mem _ hq)
    obtain ⟨h0, h1⟩ := h p List.mem_cons_self
    obtain ⟨j, hj⟩ : ∃ j : ℕ, p.2 = (j : ℤ) := ⟨p.2.toNat, (Int.toNat_of_nonneg h0).symm⟩
    have hjm : j < m := by rw [hj] at h1; exact_mod_cast h1
    by_cases hu : u < p.1
    · have e1 : (p :: l).filter (fun p => decide (u < p.1)) = p :: l.filter fun p => decide (u < p.1) := by simp [hu]
      rw [e1, List.length_cons]
      push_cast
      rw [← ih]
      have e2 : ∀ b : ℕ, ((((p :: l).filter fun p => decide (p.2 = (b : ℤ)) && decide (u < p.1)).length : ℕ) : α) =
          (((l.filter fun p => decide (p.2 = (b : ℤ)) && decide (u < p.1)).length : ℕ) : α) + if b = j then 1 else 0 := by
        intro b
        by_cases hb : b = j
        · subst hb
          simp [hu, hj]
        · have : ¬ (p.2 = (b : ℤ)) := by rw [hj]; intro hh; exact hb (by exact_mod_cast hh.symm)
          simp [this, hb]
      rw [List.map_congr_left fun b _ => e2 b, List.sum_map_add]
      congr 1
      have : ∀ m : ℕ, j < m → ((List.range m).map fun b => if b = j then (1 : α) else 0).sum = 1 := by
        intro m hm
        induction m with
        | zero => omega
        | succ m ihm =>
          rw [List.range_succ, List.map_append, List.sum_append]
          by_cases hjm' : j < m
          · rw [ihm hjm']; simp [show ¬ m = j by omega]
          · have : j = m := by omega
            subst this
            have hz : ((List.range j).map fun b => if b = j then (1 : α) else 0).sum = 0 := by
              apply List.sum_eq_zero
              intro x hx
              obtain ⟨b, hb, rfl⟩ := List.mem_map.1 hx
              rw [List.mem_range] at hb
              simp [show ¬ b = j by omega]
            rw [hz]; simp
      exact this m hjm
    · have e2 : ∀ b : ℕ, ((((p :: l).filter fun p => decide (p.2 = (b : ℤ)) && decide (u < p.1)).length : ℕ) : α) =
          (((l.filter fun p => decide (p.2 = (b : ℤ)) && decide (u < p.1)).length : ℕ) : α) := by
        intro b; simp [hu]
      rw [List.map_congr_left fun b _ => e2 b, ih]
      simp [hu]

theorem zip_filter_fst (data : List α) (t1 : List ℤ) (h : t1.length = data.length) (u : α) :
    ((data.zip t1).filter fun p => decide (u < p.1)).length = (data.filter fun d => decide (u < d)).length := by
  induction data generalizing t1 with
  | nil => rfl
  | cons a l ih =>
    rcases t1 with _ | ⟨b, t⟩
    · simp at h
    · have := ih t (by simpa using h)
      by_cases hu : u < a
      · simp [hu, this]
      · simp [hu, this]

theorem foldl_max_ge (l : List ℤ) (a : ℤ) : ∀ b ∈ a :: l, b ≤ l.foldl max a := by
  induction l generalizing a with
  | nil => intro b hb; simp at hb; simp [hb]
  | cons c l ih =>
    intro b hb
    simp only [List.foldl_cons]
    rcases List.mem_cons.1 hb with rfl | hb
    · exact (le_max_left _ _).trans (ih (max b c) _ List.mem_cons_self)
    · rcases List.mem_cons.1 hb with rfl | hb
      · exact (le_max_right _ _).trans (ih (max a b) _ List.mem_cons_self)
      · exact ih (max a c) b (List.mem_cons_of_mem _ hb)

theorem foldl_minZ_le (l : List ℤ) (a : ℤ) : ∀ b ∈ a :: l, l.foldl min a ≤ b := by
  induction l generalizing a with
  | nil => intro b hb; simp at hb; simp [hb]
  | cons c l ih =>
    intro b hb
    simp only [List.foldl_cons]
    rcases List.mem_cons.1 hb with rfl | hb
    · exact (ih (min b c) _ List.mem_cons_self).trans (min_le_left _ _)
    · rcases List.mem_cons.1 hb with rfl | hb
      · exact (ih (min a b) _ List.mem_cons_self).trans (min_le_right _ _)
      · exact ih (min a c) b (List.mem_cons_of_mem _ hb)

theorem foldl_min_mem {β : Type} [LinearOrder β] (l : List β) (a : β) : l.foldl min a ∈ a :: l := by
  induction l generalizing a with
  | nil => simp
  | cons c l ih =>
    simp only [List.foldl_cons]
    have := ih (min a c)
    rcases List.mem_cons.1 this with h | h
    · rw [h]
      rcases min_choice a c with hh | hh <;> rw [hh] <;> simp
    · exact List.mem_cons_of_mem _ (List.mem_cons_of_mem _ h)

/-- All block numbers are non-negative, and 0 is one of them. -/
theorem blocks_zero (n : ℕ) (hn : 0 < n) (t : Option (List α)) (ht : ∀ l, t = some l → l ≠ []) (tb : α) (htb : 0 < tb) :
    (0 : ℤ) ∈ blocks n t tb ∧ ∀ b ∈ blocks n t tb, 0 ≤ b := by
  rcases t with _ | l
  · refine ⟨List.mem_map.2 ⟨0, List.mem_range.2 hn, by simp⟩, ?_⟩
    intro b hb
    obtain ⟨k, _, rfl⟩ := List.mem_map.1 hb
    exact Int.floor_nonneg.2 (by positivity)
  · rcases l with _ | ⟨a, l⟩
    · exact absurd rfl (ht [] rfl)
    · refine ⟨List.mem_map.2 ⟨l.foldl min a, foldl_min_mem l a, by simp⟩, ?_⟩
      intro b hb
      obtain ⟨v, hv, rfl⟩ := List.mem_map.1 hb
      exact Int.floor_nonneg.2 (div_nonneg (sub_nonneg.2 (foldl_min_le l a v hv)) htb.le)

theorem numBlocks_spec (t1 : List ℤ) (h0 : (0 : ℤ) ∈ t1) (hnn : ∀ b ∈ t1, 0 ≤ b) :
    ∃ m : ℕ, numBlocks t1 = .ok m ∧ 0 < m ∧ (∀ b ∈ t1, b < (m : ℤ)) ∧ ((m : ℤ) - 1) ∈ t1 := by
  rcases t1 with _ | ⟨a, l⟩
  · simp at h0
  · have hmin : l.foldl min a = 0 := le_antisymm (foldl_minZ_le l a 0 h0) (hnn _ (foldl_min_mem l a))
    have hmax0 : 0 ≤ l.foldl max a := foldl_max_ge l a 0 h0
    have hmem : l.foldl max a ∈ a :: l := by
      have : ∀ (l : List ℤ) (a : ℤ), l.foldl max a ∈ a :: l := by
        intro l
        induction l with
        | nil => intro a; simp
        | cons c l ih =>
          intro a
          simp only [List.foldl_cons]
          rcases List.mem_cons.1 (ih (max a c)) with h | h
          · rw [h]; rcases max_choice a c with hh | hh <;> rw [hh] <;> simp
          · exact List.mem_cons_of_mem _ (List.mem_cons_of_mem _ h)
      exact this l a
    refine ⟨_, rfl, ?_, ?_, ?_⟩
    · rw [hmin]; omega
    · intro b hb
      have := foldl_max_ge l a b hb
      rw [hmin]; omega
    · have : (((l.foldl max a - l.foldl min a + 1).toNat : ℤ)) - 1 = l.foldl max a := by rw [hmin]; omega
      rw [this]; exact hmem

theorem numBlocks_of_ok (n : ℕ) (hn : 0 < n) (t : Option (List α)) (ht : ∀ l, t = some l → l ≠ []) (tb : α) (htb : 0 < tb) (m : ℕ)
    (hm : numBlocks (blocks n t tb) = .ok m) : 0 < m ∧ ∀ b ∈ blocks n t tb, 0 ≤ b ∧ b < (m : ℤ) := by
  obtain ⟨h0, hnn⟩ := blocks_zero n hn t ht tb htb
  obtain ⟨m', h1, h2, h3, _⟩ := numBlocks_spec _ h0 hnn
  rw [hm] at h1
  have := Except.ok.inj h1
  subst this
  exact ⟨h2, fun b hb => ⟨hnn b hb, h3 b hb⟩⟩

/-- C223: every datum above the threshold falls into exactly one of the blocks, so the numbers in the blocks add up to the number of exceedances, for sampled times in any order and any positive block length. -/
theorem C223_total (data : List α) (hd : data ≠ []) (t : Option (List α)) (ht : ∀ l, t = some l → l.length = data.length) (tb : α) (htb : 0 < tb) :
    ∃ m, numBlocks (blocks data.length t tb) = .ok m ∧ 0 < m ∧
      ∀ u, (occ data (blocks data.length t tb) m u).length = m ∧ (occ data (blocks data.length t tb) m u).sum = ((data.filter fun d => decide (u < d)).length : α) := by
  have hn : 0 < data.length := List.length_pos_iff.2 hd
  have ht' : ∀ l, t = some l → l ≠ [] := by
    intro l hl h; have := ht l hl; rw [h] at this; simp at this; omega
  obtain ⟨h0, hnn⟩ := blocks_zero data.length hn t ht' tb htb
  obtain ⟨m, h1, h2, h3, _⟩ := numBlocks_spec _ h0 hnn
  refine ⟨m, h1, h2, fun u => ⟨by simp [occ], ?_⟩⟩
  have hlen : (blocks data.length t tb).length = data.length := by
    rcases t with _ | l
    · simp [blocks]
    · have := ht l rfl
      rcases l with _ | ⟨a, l⟩
      · simp at this; omega
      · simpa [blocks] using this
  unfold occ
  rw [occ_sum_aux, zip_filter_fst _ _ hlen]
  intro p hp
  have := (List.of_mem_zip hp).2
  exact ⟨hnn _ this, h3 _ this⟩

theorem sum_sq_nonneg' (l : List α) (c : α) : 0 ≤ (l.map fun v => (v - c) ^ 2).sum := by
  apply List.sum_nonneg
  intro x hx
  obtain ⟨v, _, rfl⟩ := List.mem_map.1 hx
  exact sq_nonneg _

theorem sum_sq_zero (l : List α) (c : α) : (l.map fun v => (v - c) ^ 2).sum = 0 ↔ ∀ v ∈ l, v = c := by
  induction l with
  | nil => simp
  | cons a l ih =>
    simp only [List.map_cons, List.sum_cons, List.mem_cons, forall_eq_or_imp, ← ih]
    have h1 := sq_nonneg (a - c)
    have h2 := sum_sq_nonneg' l c
    constructor
    · intro h
      have : (a - c) ^ 2 = 0 := by linarith
      exact ⟨by have := pow_eq_zero_iff (two_ne_zero) |>.1 this; linarith, by linarith⟩
    · rintro ⟨rfl, h⟩; simp [h]

/-- C223: the dispersion index is missing exactly if no datum is above the threshold; otherwise it is the (population) variance of the numbers in the blocks divided by their mean, both about the same mean; it is never
negative, and zero exactly if every block has the same number of exceedances. -/
theorem C223_index (data : List α) (hd : data ≠ []) (t : Option (List α)) (ht : ∀ l, t = some l → l.length = data.length) (tb : α) (htb : 0 < tb) (m : ℕ)
    (hm : numBlocks (blocks data.length t tb) = .ok m) (u : α) :
    (dispersion data (blocks data.length t tb) m u = none ↔ ∀ d ∈ data, d ≤ u) ∧
    ∀ di, dispersion data (blocks data.length t tb) m u = some di →
      (let o := occ data (blocks data.length t tb) m u
       di * o.sum = (o.map fun v => (v - o.sum / (m : α)) ^ 2).sum) ∧ 0 ≤ di ∧
      (di = 0 ↔ ∃ c, ∀ v ∈ occ data (blocks data.length t tb) m u, v = c) := by
  obtain ⟨m', h1, h2, h3⟩ := C223_total data hd t ht tb htb
  rw [hm] at h1
  have := Except.ok.inj h1
  subst this
  obtain ⟨hlen, hsum⟩ := h3 u
  have hm0 : (0 : α) < (m : α) := by exact_mod_cast h2
  have hlam : ((data.filter fun d => decide (u < d)).length : α) / (m : α) = 0 ↔ ∀ d ∈ data, d ≤ u := by
    rw [div_eq_zero_iff]
    simp only [hm0.ne', or_false, Nat.cast_eq_zero, List.length_eq_zero_iff, List.filter_eq_nil_iff, decide_eq_true_eq, not_lt]
  constructor
  · rw [← hlam]
    unfold dispersion
    dsimp only
    split
    · rename_i h; simp [h]
    · rename_i h; simp [h]
  · intro di hdi
    unfold dispersion at hdi
    dsimp only at hdi
    split at hdi
    · simp at hdi
    · rename_i h
      have hdi := (Option.some.inj hdi).symm
      have hN : ((data.filter fun d => decide (u < d)).length : α) ≠ 0 := fun hh => h (by rw [hh, zero_div])
      have hNpos : (0 : α) < ((data.filter fun d => decide (u < d)).length : α) := lt_of_le_of_ne (Nat.cast_nonneg _) hN.symm
      have hlampos : 0 < ((data.filter fun d => decide (u < d)).length : α) / (m : α) := div_pos hNpos hm0
      refine ⟨?_, ?_, ?_⟩
      · dsimp only
        rw [hdi]
        rw [hsum]
        generalize ((occ data (blocks data.length t tb) m u).map fun v => (v - ((data.filter fun d => decide (u < d)).length : α) / (m : α)) ^ 2).sum = X
        field_simp
      · rw [hdi]
        exact div_nonneg (div_nonneg (sum_sq_nonneg' _ _) hm0.le) hlampos.le
      · rw [hdi, div_eq_zero_iff, div_eq_zero_iff]
        simp only [hm0.ne', hlampos.ne', or_false]
        rw [sum_sq_zero]
        constructor
        · intro hh; exact ⟨_, hh⟩
        · rintro ⟨c, hc⟩ v hv
          have hs : (occ data (blocks data.length t tb) m u).sum = (m : α) * c := by
            have : occ data (blocks data.length t tb) m u = List.replicate m c := by
              rw [List.eq_replicate_iff]; exact ⟨hlen, hc⟩
            rw [this]; simp
          rw [hc v hv, hs]
          field_simp

/-- C223: starting the clock at another time, or measuring times and block length in another unit, changes nothing. -/
theorem C223_times (lo hi : ℕ → Option α) (data : List α) (t : List α) (tb s c : α) (hs : 0 < s) (u : List α) :
    dispersionIdx lo hi data (some (t.map fun v => s * v + c)) (s * tb) u = dispersionIdx lo hi data (some t) tb u := by
  have hb : blocks data.length (some (t.map fun v => s * v + c)) (s * tb) = blocks data.length (some t) tb := by
    rcases t with _ | ⟨a, l⟩
    · rfl
    · have hfold : ∀ (l : List α) (a : α), (l.map fun v => s * v + c).foldl min (s * a + c) = s * l.foldl min a + c := by
        intro l
        induction l with
        | nil => intro a; rfl
        | cons b l ih =>
          intro a
          simp only [List.map_cons, List.foldl_cons]
          have : min (s * a + c) (s * b + c) = s * min a b + c := by
            rw [min_add_add_right, mul_min_of_nonneg _ _ hs.le]
          rw [this, ih]
      simp only [blocks, List.map_cons, List.map_map, hfold]
      have e : ∀ v : α, (s * v + c - (s * l.foldl min a + c)) / (s * tb) = (v - l.foldl min a) / tb := by
        intro v
        rw [show s * v + c - (s * l.foldl min a + c) = s * (v - l.foldl min a) by ring, mul_div_mul_left _ _ hs.ne']
      congr 1
      · rw [e]
      · apply List.map_congr_left
        intro v _
        simp only [Function.comp]
        rw [e]
  unfold dispersionIdx
  rw [hb]

/-- C223: only the order of the data and the thresholds matters: a strictly increasing transformation of both leaves every index unchanged. -/
theorem C223_monotone (f : α → α) (hf : StrictMono f) (data : List α) (t1 : List ℤ) (m : ℕ) (u : α) :
    dispersion (data.map f) t1 m (f u) = dispersion data t1 m u := by
  have h1 : ((data.map f).filter fun d => decide (f u < d)).length = (data.filter fun d => decide (u < d)).length := by
    rw [List.filter_map, List.length_map]
    congr 2
    funext d
    simp [hf.lt_iff_lt]
  have h2 : occ (data.map f) t1 m (f u) = occ data t1 m u := by
    unfold occ
    apply List.map_congr_left
    intro b _
    congr 1
    have : (data.map f).zip t1 = (data.zip t1).map fun p => (f p.1, p.2) := by
      rw [List.zip_map_left]; rfl
    rw [this, List.filter_map, List.length_map]
    congr 2
    funext p
    simp [hf.lt_iff_lt]
  unfold dispersion
  rw [h1, h2]

theorem between_iff (lo hi d : Option α) : between lo hi d = true ↔ ∃ a b v, lo = some a ∧ hi = some b ∧ d = some v ∧ a < v ∧ v < b := by
  cases lo <;> cases hi <;> cases d <;> simp [between]

theorem exists_gt_mean (l : List α) (hne : l ≠ []) : (∃ v ∈ l, l.sum / (l.length : α) < v) ∨ ∀ v ∈ l, v = l.sum / (l.length : α) := by
  by_contra hcon
  push Not at hcon
  obtain ⟨h1, w, hw, hwne⟩ := hcon
  have hl : (0 : α) < (l.length : α) := by exact_mod_cast List.length_pos_iff.2 hne
  have hsum : (l.map fun v => l.sum / (l.length : α) - v).sum = 0 := by
    have : ∀ (k : List α) (c : α), (k.map fun v => c - v).sum = (k.length : α) * c - k.sum := by
      intro k c
      induction k with
      | nil => simp
      | cons a k ih => simp only [List.map_cons, List.sum_cons, ih, List.length_cons]; push_cast; ring
    rw [this]
    field_simp
    ring
  have hnn : ∀ x ∈ l.map fun v => l.sum / (l.length : α) - v, 0 ≤ x := by
    intro x hx
    obtain ⟨v, hv, rfl⟩ := List.mem_map.1 hx
    exact sub_nonneg.2 (h1 v hv)
  have hle := List.single_le_sum hnn _ (List.mem_map.2 ⟨w, hw, rfl⟩)
  rw [hsum] at hle
  exact hwne (le_antisymm (h1 w hw) (by linarith))

/-- C223: the accepted thresholds are exactly those whose index lies strictly between the limits, in the given order; the chosen threshold is one of them, the first whose index is above the mean of the accepted indices
(the first accepted one if they are all equal).  There is no choice exactly if none is accepted. -/
theorem C223_threshold (u : List α) (di : List (Option α)) (lo hi : Option α) :
    (appropriate u di lo hi = none ↔ ∀ p ∈ u.zip di, between lo hi p.2 = false) ∧
    ∀ b ok, appropriate u di lo hi = some (b, ok) →
      ok = ((u.zip di).filter fun p => between lo hi p.2).map (·.1) ∧
      ∃ v, (b, some v) ∈ u.zip di ∧ between lo hi (some v) = true ∧
        (let acc := (u.zip di).filterMap fun p => if between lo hi p.2 then p.2 else none
         acc.sum / (acc.length : α) < v ∨ ∀ w ∈ acc, w = acc.sum / (acc.length : α)) := by
  set k1 := (u.zip di).filter fun p => between lo hi p.2 with hk1
  have hsome : ∀ p ∈ k1, ∃ v, p.2 = some v ∧ between lo hi (some v) = true ∧ p ∈ u.zip di := by
    intro p hp
    obtain ⟨h1, h2⟩ := List.mem_filter.1 hp
    have h2' := h2
    obtain ⟨a, b, v, _, _, hv, _⟩ := (between_iff _ _ _).1 h2
    exact ⟨v, hv, by rw [← hv]; exact h2', h1⟩
  have hacc : ((u.zip di).filterMap fun p => if between lo hi p.2 then p.2 else none) = k1.map fun p => p.2.getD 0 := by
    rw [hk1]
    generalize u.zip di = z
    induction z with
    | nil => rfl
    | cons p z ih =>
      by_cases h : between lo hi p.2 = true
      · obtain ⟨a, b, v, _, _, hv, _⟩ := (between_iff _ _ _).1 h
        rw [List.filterMap_cons, List.filter_cons, if_pos h, if_pos h, List.map_cons, ih, hv]
        rfl
      · rw [List.filterMap_cons, List.filter_cons, if_neg h, if_neg h, ih]
  constructor
  · rw [show (∀ p ∈ u.zip di, between lo hi p.2 = false) ↔ k1 = [] by rw [hk1, List.filter_eq_nil_iff]; simp]
    unfold appropriate
    dsimp only
    rw [← hk1]
    cases k1 <;> simp
  · intro b ok h
    unfold appropriate at h
    dsimp only at h
    rw [← hk1] at h
    rw [hacc]
    cases hk : k1 with
    | nil => rw [hk] at h; simp at h
    | cons p l =>
      rw [hk] at h
      dsimp only at h
      rw [← hk] at h
      obtain ⟨hb, hok⟩ := Prod.mk.inj (Option.some.inj h)
      rw [← hk]
      refine ⟨hok.symm, ?_⟩
      set d := k1.map fun p => p.2.getD 0 with hd
      set mu := d.sum / (d.length : α) with hmu
      have key : ∃ j, j < k1.length ∧ ((d.map fun v => decide (mu < v)).findIdx? (· = true)).getD 0 = j ∧
          ((∃ v, d[j]? = some v ∧ mu < v) ∨ ∀ w ∈ d, w = mu) := by
        cases hf : (d.map fun v => decide (mu < v)).findIdx? (· = true) with
        | none =>
          refine ⟨0, by rw [hk]; simp, rfl, Or.inr ?_⟩
          have hdne : d ≠ [] := by rw [hd, hk]; simp
          rcases exists_gt_mean d hdne with ⟨v, hv, hlt⟩ | hall
          · rw [List.findIdx?_eq_none_iff] at hf
            have := hf _ (List.mem_map.2 ⟨v, hv, rfl⟩)
            simp at this
            exact absurd hlt (not_lt.2 this)
          · exact hall
        | some j =>
          obtain ⟨hj, hj2, _⟩ := List.findIdx?_eq_some_iff_getElem.1 hf
          simp only [List.length_map, List.getElem_map, decide_eq_true_eq] at hj hj2
          refine ⟨j, by rw [hd, List.length_map] at hj; exact hj, rfl, Or.inl ⟨d[j], List.getElem?_eq_getElem hj, hj2⟩⟩
      obtain ⟨j, hj, hje, hcase⟩ := key
      obtain ⟨v, hv1, hv2, hv3⟩ := hsome k1[j] (List.getElem_mem hj)
      refine ⟨v, ?_, hv2, ?_⟩
      · have : b = k1[j].1 := by
          rw [← hb, hje]
          simp [List.getD, hj]
        rw [this, ← hv1]
        exact hv3
      · dsimp only
        rcases hcase with ⟨w, hw, hlt⟩ | hall
        · left
          rw [hd, List.getElem?_map, List.getElem?_eq_getElem hj] at hw
          simp only [Option.map_some, Option.some.injEq, hv1, Option.getD_some] at hw
          rw [hw]; exact hlt
        · right; exact hall

/-- C223: the result of `dispersion_idx` for given thresholds: one index for each threshold and the choice among them; and no data is an error. -/
theorem C223_result (lo hi : ℕ → Option α) (data : List α) (hd : data ≠ []) (t : Option (List α)) (ht : ∀ l, t = some l → l.length = data.length) (tb : α) (htb : 0 < tb) (u : List α) :
    ∃ m, numBlocks (blocks data.length t tb) = .ok m ∧
      dispersionIdx lo hi data t tb u = .ok (u.map fun v => dispersion data (blocks data.length t tb) m v,
        appropriate u (u.map fun v => dispersion data (blocks data.length t tb) m v) (lo m) (hi m)) := by
  obtain ⟨m, h1, _, _⟩ := C223_total data hd t ht tb htb
  have hn : 0 < data.length := List.length_pos_iff.2 hd
  have hlen : (blocks data.length t tb).length = data.length := by
    rcases t with _ | l
    · simp [blocks]
    · have := ht l rfl
      rcases l with _ | ⟨a, l⟩
      · simp at this; omega
      · simpa [blocks] using this
  refine ⟨m, h1, ?_⟩
  simp [dispersionIdx, h1, hlen]

/-- C223: the documentation's interval `chi2 / (M - 1)` is for the variance with divisor `M - 1`; the computed index has divisor `M` and is smaller by the factor `(M - 1) / M`.  Witness: one exceedance in the first of two
blocks and three in the second have sample variance 2 and mean 2, dispersion 1, but the computed index is 1/2. -/
theorem C223_divisor_refuted : dispersion ([5, 5, 5, 5] : List ℚ) [0, 1, 1, 1] 2 4 = some (1 / 2) ∧
    occ ([5, 5, 5, 5] : List ℚ) [0, 1, 1, 1] 2 4 = [1, 3] ∧ (((1 : ℚ) - 2) ^ 2 + (3 - 2) ^ 2) / (2 - 1) / 2 = 1 := by
  refine ⟨by decide +kernel, by decide +kernel, by norm_num⟩

example : blocks 6 (some ([10, 11, 12, 13, 14, 15] : List ℚ)) 2 = [0, 0, 1, 1, 2, 2] := by
  norm_num [blocks, Int.floor_eq_iff]
example : numBlocks [0, 0, 1, 1, 2, 2] = .ok 3 := by decide +kernel
example : ([0, 4, 5, 9] : List ℚ).map (dispersion [1, 5, 3, 6, 7, 2] [0, 0, 1, 1, 2, 2] 3) = [some 0, some 0, some (1 / 3), none] := by decide +kernel
example : appropriate ([0, 4, 5, 9] : List ℚ) [some 2, some 1, some (3 / 2), none] (some (1 / 2)) (some 2) = some (5, [4, 5]) := by decide +kernel

end Wafo.Thresh

import Verif.LevelX.Props
import Mathlib.Data.List.Pairwise

/-!
Properties of the extrapolated crossing spectrum.
-/

set_option linter.unusedSectionVars false

namespace Wafo.LevelX

variable {α : Type} [Field α] [LinearOrder α] [IsStrictOrderedRing α] [FloorRing α]

/-- `np.interp` at a level returns its count. -/
theorem npInterp_level (x : α) (c : α) : ∀ (lcx lcf : List α), lcx.Pairwise (· < ·) → (x, c) ∈ lcx.zip lcf → npInterp x lcx lcf = c
  | [], _, _, h => by simp at h
  | _ :: _, [], _, h => by simp at h
  | [x0], f :: l, _, h => by
    simp only [List.zip_cons_cons, List.zip_nil_left, List.mem_singleton, Prod.mk.injEq] at h
    simp [npInterp, h.2]
  | x0 :: x1 :: xs, [f], hx, h => by
    simp only [List.zip_cons_cons, List.zip_nil_right, List.mem_singleton, Prod.mk.injEq] at h
    simp [npInterp, h.2]
  | x0 :: x1 :: xs, f0 :: f1 :: fs, hx, h => by
    rw [npInterp]
    obtain ⟨h1, h2⟩ := List.pairwise_cons.1 hx
    rw [List.zip_cons_cons, List.mem_cons] at h
    rcases h with h | h
    · simp only [Prod.mk.injEq] at h
      rw [if_pos h.1.le, h.2]
    · have hm := (List.of_mem_zip h).1
      rw [if_neg (not_le.2 (h1 x hm))]
      have : ¬ x < x1 := by
        rcases List.mem_cons.1 hm with rfl | hm
        · exact lt_irrefl _
        · exact not_lt.2 ((List.pairwise_cons.1 h2).1 x hm).le
      rw [if_neg this]
      exact npInterp_level x c (x1 :: xs) (f1 :: fs) h2 h

theorem xF_increasing : (xF : List α).Pairwise (· < ·) := by
  unfold xF
  rw [List.pairwise_map]
  refine List.pairwise_lt_range.imp ?_
  intro a b h
  have : (a : α) < b := by exact_mod_cast h
  exact div_lt_div_of_pos_right this (by norm_num)

theorem xF_nonneg (y : α) (h : y ∈ (xF : List α)) : 0 ≤ y := by
  obtain ⟨k, -, rfl⟩ := List.mem_map.1 h
  positivity

theorem xF_zero : (0 : α) ∈ (xF : List α) := List.mem_map.2 ⟨0, by simp, by simp⟩

theorem tail_ok (fit : List α → Except PyErr (α → α)) (lcx lcf : List α) (u : α) (r : List (α × α)) (h : tail fit lcx lcf u = .ok r) :
    ∃ s sf, exceedances lcx lcf u = .ok s ∧ fit s = .ok sf ∧ r = xF.map fun y => (y + u, (npInterp u lcx lcf + 1) * sf y) := by
  unfold tail at h
  cases hs : exceedances lcx lcf u with
  | error e => rw [hs] at h; cases h
  | ok s =>
    rw [hs] at h
    simp only at h
    cases hf : fit s with
    | error e => rw [hf] at h; cases h
    | ok sf =>
      rw [hf] at h
      exact ⟨s, sf, rfl, hf, (Except.ok.inj h).symm⟩

/-- C169: what `extrapolate` returns.  The tails are fitted to the exceedances over the thresholds `a` and `b`, above `b` and, with
the sign of the levels changed, below `a`; they are sampled at distances 0, 0.01, ..., 4 from the thresholds. -/
theorem C169_result (fit : List α → Except PyErr (α → α)) (lcx lcf : List α) (umin umax : Option α) (a b : α)
    (hab : thresholds lcx lcf umin umax = .ok (a, b)) (r : List (α × α)) (h : extrapolate fit lcx lcf umin umax = .ok r) :
    ∃ s s' sf sf', exceedances lcx lcf b = .ok s ∧ fit s = .ok sf ∧
      exceedances (lcx.reverse.map fun y => -y) lcf.reverse (-a) = .ok s' ∧ fit s' = .ok sf' ∧
      r = (xF.reverse.map fun y => (a - y, (npInterp (-a) (lcx.reverse.map fun y => -y) lcf.reverse + 1) * sf' y)) ++
        (lcx.zip lcf).filter (fun p => decide (a < p.1 ∧ p.1 < b)) ++
        (xF.map fun y => (b + y, (npInterp b lcx lcf + 1) * sf y)) := by
  unfold extrapolate at h
  split at h
  · cases h
  rw [hab] at h
  simp only at h
  cases hh : tail fit lcx lcf b with
  | error e => rw [hh] at h; cases h
  | ok high =>
    rw [hh] at h
    simp only at h
    cases hl : tail fit (lcx.reverse.map fun y => -y) lcf.reverse (-a) with
    | error e => rw [hl] at h; cases h
    | ok low =>
      rw [hl] at h
      obtain ⟨s, sf, hs, hsf, rfl⟩ := tail_ok _ _ _ _ _ hh
      obtain ⟨s', sf', hs', hsf', rfl⟩ := tail_ok _ _ _ _ _ hl
      refine ⟨s, s', sf, sf', hs, hsf, hs', hsf', ?_⟩
      rw [← Except.ok.inj h]
      congr 1
      · congr 1
        rw [← List.map_reverse, List.map_map]
        apply List.map_congr_left
        intro y _
        simp only [Function.comp, Prod.mk.injEq, and_true]
        ring
      · apply List.map_congr_left
        intro y _
        rw [add_comm]

/-- `np.interp` between two neighbouring points is the straight line through them. -/
theorem npInterp_between (u : α) (p q : α × α) (l2 : List (α × α)) (h1 : p.1 ≤ u) (h2 : u ≤ q.1) :
    ∀ l1 : List (α × α), ((l1 ++ p :: q :: l2).map Prod.fst).Pairwise (· < ·) →
      npInterp u ((l1 ++ p :: q :: l2).map Prod.fst) ((l1 ++ p :: q :: l2).map Prod.snd) =
        p.2 + (q.2 - p.2) * ((u - p.1) / (q.1 - p.1))
  | [], h => by
    have hpq : p.1 < q.1 := (List.pairwise_cons.1 h).1 _ (by simp)
    have hq := (List.pairwise_cons.1 h).2
    simp only [List.nil_append, List.map_cons] at hq ⊢
    rw [npInterp]
    split_ifs with a1 a2
    · rw [le_antisymm a1 h1, sub_self, zero_div, mul_zero, add_zero]
    · rfl
    · have e : u = q.1 := le_antisymm h2 (not_lt.1 a2)
      rw [npInterp_level u q.2 _ _ hq (by simp [e]), e, div_self (sub_pos.2 hpq).ne', mul_one]
      ring
  | [w], h => by
    have ih := npInterp_between u p q l2 h1 h2 [] (List.pairwise_cons.1 h).2
    have hw : w.1 < p.1 := (List.pairwise_cons.1 h).1 _ (by simp)
    simp only [List.cons_append, List.nil_append, List.map_cons] at ih ⊢
    rw [npInterp, if_neg (not_le.2 (hw.trans_le h1)), if_neg (not_lt.2 h1), ih]
  | w :: w' :: l1, h => by
    have ih := npInterp_between u p q l2 h1 h2 (w' :: l1) (List.pairwise_cons.1 h).2
    have hw : w.1 < p.1 := (List.pairwise_cons.1 h).1 _ (by simp)
    have hw' : w'.1 < p.1 := (List.pairwise_cons.1 (List.pairwise_cons.1 h).2).1 _ (by simp)
    simp only [List.cons_append, List.map_cons] at ih ⊢
    rw [npInterp, if_neg (not_le.2 (hw.trans_le h1)), if_neg (not_lt.2 (hw'.le.trans h1)), ih]

/-- C169: the counts beyond a threshold that lies between the neighbouring levels `p.1` and `q.1`: the fitted survival function times
one more than the count at the threshold on the straight line from `p` to `q`; above `b` and, mirrored, below `a`. -/
theorem C169_counts (fit : List α → Except PyErr (α → α)) (lcx lcf : List α) (umin umax : Option α) (a b : α)
    (hab : thresholds lcx lcf umin umax = .ok (a, b)) (r : List (α × α)) (h : extrapolate fit lcx lcf umin umax = .ok r)
    (hlen : lcx.length = lcf.length) (hx : lcx.Pairwise (· < ·)) (l1 l2 : List (α × α)) (p q : α × α)
    (hpq : lcx.zip lcf = l1 ++ p :: q :: l2) :
    (p.1 ≤ b → b ≤ q.1 → ∃ s sf, exceedances lcx lcf b = .ok s ∧ fit s = .ok sf ∧ ∀ k : ℕ, k ≤ 400 →
      (b + (k : α) / 100, (p.2 + (q.2 - p.2) * ((b - p.1) / (q.1 - p.1)) + 1) * sf ((k : α) / 100)) ∈ r) ∧
    (p.1 ≤ a → a ≤ q.1 → ∃ s sf, exceedances (lcx.reverse.map fun y => -y) lcf.reverse (-a) = .ok s ∧ fit s = .ok sf ∧
      ∀ k : ℕ, k ≤ 400 →
      (a - (k : α) / 100, (p.2 + (q.2 - p.2) * ((a - p.1) / (q.1 - p.1)) + 1) * sf ((k : α) / 100)) ∈ r) := by
  obtain ⟨s, s', sf, sf', hs, hsf, hs', hsf', rfl⟩ := C169_result fit lcx lcf umin umax a b hab r h
  have e1 : lcx = (l1 ++ p :: q :: l2).map Prod.fst := by rw [← hpq, List.map_fst_zip hlen.le]
  have e2 : lcf = (l1 ++ p :: q :: l2).map Prod.snd := by rw [← hpq, List.map_snd_zip hlen.ge]
  have hk : ∀ k : ℕ, k ≤ 400 → (k : α) / 100 ∈ (xF : List α) := fun k hk =>
    List.mem_map.2 ⟨k, List.mem_range.2 (by omega), rfl⟩
  constructor
  · intro c1 c2
    refine ⟨s, sf, hs, hsf, fun k h4 => List.mem_append_right _ (List.mem_map.2 ⟨_, hk k h4, ?_⟩)⟩
    rw [e1, e2, npInterp_between b p q l2 c1 c2 l1 (e1 ▸ hx)]
  · intro c1 c2
    refine ⟨s', sf', hs', hsf', fun k h4 => List.mem_append_left _ (List.mem_append_left _
      (List.mem_map.2 ⟨_, List.mem_reverse.2 (hk k h4), ?_⟩))⟩
    have hne : q.1 - p.1 ≠ 0 := by
      have hx' := hx
      rw [e1, List.map_append, List.pairwise_append] at hx'
      exact (sub_pos.2 ((List.pairwise_cons.1 hx'.2.1).1 q.1 (by simp))).ne'
    have m1 : (lcx.reverse.map fun y => -y) =
        (((l2.reverse.map fun w => (-w.1, w.2)) ++ (-q.1, q.2) :: (-p.1, p.2) :: (l1.reverse.map fun w => (-w.1, w.2))).map Prod.fst) := by
      rw [e1]; simp; rfl
    have m2 : lcf.reverse =
        (((l2.reverse.map fun w => (-w.1, w.2)) ++ (-q.1, q.2) :: (-p.1, p.2) :: (l1.reverse.map fun w => (-w.1, w.2))).map Prod.snd) := by
      rw [e2]; simp; rfl
    have hr : (lcx.reverse.map fun y => -y).Pairwise (· < ·) := by
      rw [List.pairwise_map, List.pairwise_reverse]
      exact hx.imp fun h => neg_lt_neg h
    rw [m1] at hr
    rw [m1, m2, npInterp_between (-a) (-q.1, q.2) (-p.1, p.2) _ (neg_le_neg c2) (neg_le_neg c1) _ hr]
    congr 3
    have : -p.1 - -q.1 = q.1 - p.1 := by ring
    simp only [this]
    field_simp
    ring

/-- C169: the levels of the result increase when the thresholds and the levels do, and between the thresholds nothing is added,
removed or changed. -/
theorem C169_levels (fit : List α → Except PyErr (α → α)) (lcx lcf : List α) (umin umax : Option α) (a b : α)
    (hab : thresholds lcx lcf umin umax = .ok (a, b)) (r : List (α × α)) (h : extrapolate fit lcx lcf umin umax = .ok r)
    (hlen : lcx.length = lcf.length) (hx : lcx.Pairwise (· < ·)) (hlt : a < b) :
    (r.map Prod.fst).Pairwise (· < ·) ∧ (∀ p, a < p.1 → p.1 < b → (p ∈ r ↔ p ∈ lcx.zip lcf)) := by
  obtain ⟨s, s', sf, sf', -, -, -, -, rfl⟩ := C169_result fit lcx lcf umin umax a b hab r h
  constructor
  · rw [List.map_append, List.map_append, List.map_map, List.map_map]
    have hin : ∀ y ∈ ((lcx.zip lcf).filter (fun p => decide (a < p.1 ∧ p.1 < b))).map Prod.fst, a < y ∧ y < b := by
      intro y hy
      obtain ⟨p, hp, rfl⟩ := List.mem_map.1 hy
      simpa using (List.mem_filter.1 hp).2
    have hlow : ∀ y ∈ (xF.reverse.map (Prod.fst ∘ fun y => (a - y,
        (npInterp (-a) (lcx.reverse.map fun y => -y) lcf.reverse + 1) * sf' y))), y ≤ a := by
      intro y hy
      obtain ⟨z, hz, rfl⟩ := List.mem_map.1 hy
      have := xF_nonneg z (List.mem_reverse.1 hz)
      simpa using this
    have hhigh : ∀ y ∈ (xF.map (Prod.fst ∘ fun y => (b + y, (npInterp b lcx lcf + 1) * sf y))), b ≤ y := by
      intro y hy
      obtain ⟨z, hz, rfl⟩ := List.mem_map.1 hy
      have := xF_nonneg z hz
      simpa using this
    rw [List.pairwise_append, List.pairwise_append]
    refine ⟨⟨?_, ?_, ?_⟩, ?_, ?_⟩
    · rw [List.pairwise_map, List.pairwise_reverse]
      refine xF_increasing.imp ?_
      intro y z hyz
      simpa using hyz
    · have : ((lcx.zip lcf).map Prod.fst).Pairwise (· < ·) := by
        rw [List.map_fst_zip (by omega)]
        exact hx
      rw [List.pairwise_map] at this ⊢
      exact this.filter _
    · intro y hy z hz
      exact (hlow y hy).trans_lt (hin z hz).1
    · rw [List.pairwise_map]
      refine xF_increasing.imp ?_
      intro y z hyz
      simpa using hyz
    · intro y hy z hz
      rcases List.mem_append.1 hy with hy | hy
      · exact ((hlow y hy).trans_lt hlt).trans_le (hhigh z hz)
      · exact (hin y hy).2.trans_le (hhigh z hz)
  · intro p hpa hpb
    rw [List.mem_append, List.mem_append]
    constructor
    · rintro ((hp | hp) | hp)
      · obtain ⟨z, hz, rfl⟩ := List.mem_map.1 hp
        have := xF_nonneg z (List.mem_reverse.1 hz)
        exact absurd hpa (not_lt.2 (by simpa using this))
      · exact (List.mem_filter.1 hp).1
      · obtain ⟨z, hz, rfl⟩ := List.mem_map.1 hp
        have := xF_nonneg z hz
        exact absurd hpb (not_lt.2 (by simpa using this))
    · intro hp
      exact Or.inl (Or.inr (List.mem_filter.2 ⟨hp, by simpa using ⟨hpa, hpb⟩⟩))

/-- C169, refuting that observed counts are kept at the thresholds: there the result has one crossing more than was observed,
whatever distribution is fitted. -/
theorem C169_jump (fit : List α → Except PyErr (α → α)) (hfit : ∀ s sf, fit s = .ok sf → sf 0 = 1) (lcx lcf : List α)
    (umin umax : Option α) (a b : α) (hab : thresholds lcx lcf umin umax = .ok (a, b)) (r : List (α × α))
    (h : extrapolate fit lcx lcf umin umax = .ok r) (hx : lcx.Pairwise (· < ·)) (ca cb : α)
    (hlen : lcx.length = lcf.length) (ha : (a, ca) ∈ lcx.zip lcf) (hb : (b, cb) ∈ lcx.zip lcf) : (a, ca + 1) ∈ r ∧ (b, cb + 1) ∈ r := by
  obtain ⟨s, s', sf, sf', -, hsf, -, hsf', rfl⟩ := C169_result fit lcx lcf umin umax a b hab r h
  have hx' : (lcx.reverse.map fun y => -y).Pairwise (· < ·) := by
    rw [List.pairwise_map, List.pairwise_reverse]
    exact hx.imp fun h => neg_lt_neg h
  have ha' : (-a, ca) ∈ (lcx.reverse.map fun y => -y).zip lcf.reverse := by
    rw [List.zip_map_left, List.zip_eq_zipWith, ← List.reverse_zipWith hlen, ← List.zip_eq_zipWith]
    exact List.mem_map.2 ⟨(a, ca), by simpa using ha, rfl⟩
  constructor
  · refine List.mem_append_left _ (List.mem_append_left _ (List.mem_map.2 ⟨0, by simpa using xF_zero, ?_⟩))
    rw [npInterp_level (-a) ca _ _ hx' ha', hfit _ _ hsf']
    simp
  · refine List.mem_append_right _ (List.mem_map.2 ⟨0, xF_zero, ?_⟩)
    rw [npInterp_level b cb _ _ hx hb, hfit _ _ hsf]
    simp

theorem busy_mem (lcx lcf : List α) (y : α) : y ∈ busy lcx lcf ↔ ∃ c, (y, c) ∈ lcx.zip lcf ∧ 0 < c ∧ ∀ d ∈ lcf, d < c * c := by
  unfold busy
  rw [List.mem_map]
  constructor
  · rintro ⟨p, hp, rfl⟩
    obtain ⟨h1, h2⟩ := List.mem_filter.1 hp
    refine ⟨p.1, ?_, by simpa using h2⟩
    rw [← List.zip_swap lcx lcf, List.mem_map] at h1
    obtain ⟨q, hq, rfl⟩ := h1
    exact hq
  · rintro ⟨c, hc, h⟩
    refine ⟨(c, y), List.mem_filter.2 ⟨?_, by simpa using h⟩, rfl⟩
    rw [← List.zip_swap lcx lcf, List.mem_map]
    exact ⟨_, hc, rfl⟩

theorem busy_sorted (lcx lcf : List α) (hlen : lcx.length = lcf.length) (hx : lcx.Pairwise (· < ·)) : (busy lcx lcf).Pairwise (· < ·) := by
  have : ((lcf.zip lcx).map Prod.snd).Pairwise (· < ·) := by
    rw [List.map_snd_zip (by omega)]
    exact hx
  unfold busy
  rw [List.pairwise_map] at this ⊢
  exact this.filter _

/-- C169: the default thresholds are the first and the last level whose count is larger than the root of the largest count.  There
is none, and a ValueError, when no count is larger than one. -/
theorem C169_default (lcx lcf : List α) (hlen : lcx.length = lcf.length) (hx : lcx.Pairwise (· < ·)) :
    (∀ a b, thresholds lcx lcf none none = .ok (a, b) →
      (∃ c, (a, c) ∈ lcx.zip lcf ∧ 0 < c ∧ ∀ d ∈ lcf, d < c * c) ∧ (∃ c, (b, c) ∈ lcx.zip lcf ∧ 0 < c ∧ ∀ d ∈ lcf, d < c * c) ∧
      ∀ y c, (y, c) ∈ lcx.zip lcf → 0 < c → (∀ d ∈ lcf, d < c * c) → a ≤ y ∧ y ≤ b) ∧
    ((∃ c ∈ lcf, 1 < c) → ∃ a b, thresholds lcx lcf none none = .ok (a, b)) ∧
    ((∀ c ∈ lcf, c ≤ 1) → thresholds lcx lcf none none = .error .valueError) := by
  have hs := busy_sorted lcx lcf hlen hx
  refine ⟨?_, ?_, ?_⟩
  · intro a b h
    unfold thresholds at h
    simp only at h
    cases hb : busy lcx lcf with
    | nil => rw [hb] at h; cases h
    | cons y0 l =>
      rw [hb] at h hs
      obtain ⟨z, hz⟩ : ∃ z, (y0 :: l).getLast? = some z := ⟨_, List.getLast?_eq_some_getLast (by simp)⟩
      rw [hz] at h
      simp only [List.head?_cons, Option.getD_none, Except.ok.injEq, Prod.mk.injEq] at h
      obtain ⟨rfl, rfl⟩ := h
      refine ⟨(busy_mem lcx lcf y0).1 (by simp [hb]), (busy_mem lcx lcf z).1 (by rw [hb]; exact List.mem_of_getLast? hz), ?_⟩
      intro y c hy hc hd
      have hm : y ∈ y0 :: l := by
        rw [← hb]
        exact (busy_mem lcx lcf y).2 ⟨c, hy, hc, hd⟩
      constructor
      · rcases List.mem_cons.1 hm with rfl | hm
        · exact le_rfl
        · exact ((List.pairwise_cons.1 hs).1 y hm).le
      · obtain ⟨l', hl'⟩ := List.getLast?_eq_some_iff.1 hz
        rw [hl'] at hm hs
        rcases List.mem_append.1 hm with hm | hm
        · exact ((List.pairwise_append.1 hs).2.2 y hm z (by simp)).le
        · exact (List.mem_singleton.1 hm).le
  · rintro ⟨c0, hc0, h1⟩
    obtain ⟨c, hc, hmax⟩ : ∃ c ∈ lcf, ∀ d ∈ lcf, d ≤ c := by
      obtain ⟨c, hc⟩ : ∃ c, lcf.max? = some c := by
        cases h : lcf.max? with
        | none => rw [List.max?_eq_none_iff] at h; simp [h] at hc0
        | some c => exact ⟨c, rfl⟩
      rw [List.max?_eq_some_iff] at hc
      exact ⟨c, hc⟩
    have hc1 : 1 < c := h1.trans_le (hmax c0 hc0)
    obtain ⟨k, hk, hkc⟩ := List.getElem_of_mem hc
    have hm : lcx[k]'(hlen ▸ hk) ∈ busy lcx lcf := by
      rw [busy_mem]
      refine ⟨c, ?_, by linarith, fun d hd => (hmax d hd).trans_lt (by nlinarith)⟩
      rw [List.mem_iff_getElem]
      exact ⟨k, by simp [hk, hlen], by simp [hkc]⟩
    unfold thresholds
    simp only
    cases hb : busy lcx lcf with
    | nil => rw [hb] at hm; simp at hm
    | cons y0 l =>
      obtain ⟨z, hz⟩ : ∃ z, (y0 :: l).getLast? = some z := ⟨_, List.getLast?_eq_some_getLast (by simp)⟩
      rw [hz]
      exact ⟨y0, z, rfl⟩
  · intro h
    have : busy lcx lcf = [] := by
      rw [List.eq_nil_iff_forall_not_mem]
      intro y hy
      obtain ⟨c, hc, h0, hd⟩ := (busy_mem lcx lcf y).1 hy
      have hcm := (List.of_mem_zip hc).2
      have h1 := h c hcm
      have := hd c hcm
      nlinarith
    unfold thresholds
    simp only [this]
    rfl

/-- C169, refuting that `extrapolate` works without arguments: when the count at the highest level is larger than the root of the
largest count, nothing is left above the threshold and an IndexError is raised. -/
theorem C169_top_refuted (fit : List α → Except PyErr (α → α)) (lcx lcf : List α) (hlen : lcx.length = lcf.length)
    (hx : lcx.Pairwise (· < ·)) (y c : α) (hy : lcx.getLast? = some y) (hyc : (y, c) ∈ lcx.zip lcf) (hc : 0 < c)
    (hd : ∀ d ∈ lcf, d < c * c) : extrapolate fit lcx lcf none none = .error .indexError := by
  have hne : lcf ≠ [] := by
    rintro rfl
    simp at hyc
  have h1 : ∃ c ∈ lcf, 1 < c := ⟨c, (List.of_mem_zip hyc).2, by
    have := hd c (List.of_mem_zip hyc).2
    nlinarith⟩
  obtain ⟨a, b, hab⟩ := (C169_default lcx lcf hlen hx).2.1 h1
  obtain ⟨-, ⟨cb, hb, -⟩, hbd⟩ := (C169_default lcx lcf hlen hx).1 a b hab
  have hyb := (hbd y c hyc hc hd).2
  have hle : ∀ z ∈ lcx, z ≤ y := by
    obtain ⟨l', hl'⟩ := List.getLast?_eq_some_iff.1 hy
    intro z hz
    rw [hl'] at hz hx
    rcases List.mem_append.1 hz with hz | hz
    · exact ((List.pairwise_append.1 hx).2.2 z hz y (by simp)).le
    · exact (List.mem_singleton.1 hz).le
  unfold extrapolate
  rw [if_neg hne, hab]
  simp only [tail]
  rw [C168_none lcx lcf b fun z hz => (hle z hz).trans hyb]

/-- A survival function for the examples. -/
def fitEx : List ℚ → Except PyErr (ℚ → ℚ) := fun s => if s = [] then .error .valueError else .ok fun y => 1 / (1 + y)

example : thresholds ([0, 1, 2, 3, 4] : List ℚ) [1, 4, 9, 4, 1] none none = .ok (1, 3) := by decide +kernel

/-- Thresholds between levels: the count at 5/2 is 13/2, that at 1/2 is 5/2. -/
example : (extrapolate fitEx [0, 1, 2, 3, 4] [1, 4, 9, 4, 1] (some (1 / 2)) (some (5 / 2))).map
    (fun r => (r[400]?, r[403]?)) = .ok (some (1 / 2, 7 / 2), some (5 / 2, 15 / 2)) := by decide +kernel
example : (extrapolate fitEx [0, 1, 2, 3, 4] [1, 4, 9, 4, 1] none none).map (fun r => (r.length, r[400]?, r[401]?, r[402]?)) =
    .ok (803, some (1, 5), some (2, 9), some (3, 5)) := by decide +kernel

example : extrapolate fitEx [0, 1, 2] [4, 9, 4] none none = .error .indexError := by decide +kernel

end Wafo.LevelX

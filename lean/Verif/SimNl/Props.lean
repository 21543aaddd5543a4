import Verif.SimNl.Model
import Verif.Disufq.Props
import Mathlib.Algebra.Order.BigOperators.Group.List
import Mathlib.Tactic.FieldSimp
import Mathlib.Tactic.NormNum

set_option linter.unusedSectionVars false

/-!
# C321-C323: the components `sim_nl` uses, and the moments of `stats_nl`
-/

namespace Wafo.SimNl

variable {α : Type*} [Field α] [LinearOrder α] [IsStrictOrderedRing α]

theorem lastIdx_some {p : ℕ → Bool} : ∀ {n i : ℕ}, lastIdx p n = some i → i < n ∧ p i = true ∧ ∀ j, i < j → j < n → p j = false
  | 0, i, h => by simp [lastIdx] at h
  | n + 1, i, h => by
    unfold lastIdx at h
    split_ifs at h with hp
    · injection h with h
      subst h
      exact ⟨by omega, hp, fun j h1 h2 => by omega⟩
    · obtain ⟨h1, h2, h3⟩ := lastIdx_some h
      refine ⟨by omega, h2, fun j hj1 hj2 => ?_⟩
      by_cases hj : j = n
      · subst hj; simpa using hp
      · exact h3 j hj1 (by omega)

theorem firstIdx_some {p : ℕ → Bool} {n i : ℕ} (h : firstIdx p n = some i) :
    i < n ∧ p i = true ∧ ∀ j, j < i → p j = false := by
  unfold firstIdx at h
  rw [List.find?_range_eq_some] at h
  obtain ⟨h1, h2, h3⟩ := h
  refine ⟨List.mem_range.1 h2, h1, fun j hj => ?_⟩
  simpa using h3 j hj

theorem orValueError_ok {o : Option ℕ} {i : ℕ} (h : orValueError o = .ok i) : o = some i := by
  cases o with
  | none => cases h
  | some j => injection h with h; rw [h]

/-- What a result of `window` consists of. -/
theorem window_ok {s : ℕ → α} {len : ℕ} {thr flo fup df : α} {nmin nmax : ℕ}
    (h : window s len thr flo fup df = .ok (nmin, nmax)) :
    ∃ last up lo, lastIdx (fun j => decide (0 < s j)) len = some last ∧
      lastIdx (fun j => decide (freqAt df j ≤ fup)) len = some up ∧
      firstIdx (fun j => decide (flo ≤ freqAt df j)) len = some lo ∧
      nmin = max lo ((firstIdx (fun j => decide (thr < s j)) len).getD 0) + 1 ∧ nmax = min up last + 1 := by
  unfold window at h
  simp only [Bind.bind, Except.bind] at h
  split at h
  · cases h
  · rename_i last h1
    split at h
    · cases h
    · rename_i up h2
      split at h
      · cases h
      · rename_i lo h3
        injection h with h
        rw [Prod.mk.injEq] at h
        exact ⟨last, up, lo, orValueError_ok h1, orValueError_ok h2, orValueError_ok h3, h.1.symm, h.2.symm⟩

theorem freqAt_mono {df : α} (hdf : 0 < df) {i j : ℕ} (h : i ≤ j) : freqAt df i ≤ freqAt df j := by
  unfold freqAt
  apply mul_le_mul_of_nonneg_right _ hdf.le
  exact_mod_cast Nat.succ_le_succ h

theorem freqAt_eq (df : α) (c : ℕ) : freqAt df c = compFreq df (c + 1) := rfl

/-- **C321.**  The components of the second order loops are **one too low**: of every component `c` in the loops it is
the next one, `c + 1`, that lies within the frequency limits ... -/
theorem C321_window_partial {s : ℕ → α} {len : ℕ} {thr flo fup df : α} (hdf : 0 < df) {nmin nmax : ℕ}
    (h : window s len thr flo fup df = .ok (nmin, nmax)) (c : ℕ) (hc : inLoop nmin nmax c) :
    flo ≤ compFreq df (c + 1) ∧ compFreq df (c + 1) ≤ fup ∧ c + 1 ≤ len := by
  obtain ⟨last, up, lo, h1, h2, h3, rfl, rfl⟩ := window_ok h
  have hlast := lastIdx_some h1
  have hup := lastIdx_some h2
  have hlo := firstIdx_some h3
  obtain ⟨hc1, hc2⟩ := hc
  have e2 := of_decide_eq_true hup.2.1
  have e3 := of_decide_eq_true hlo.2.1
  rw [← freqAt_eq]
  refine ⟨le_trans e3 (freqAt_mono hdf ?_), le_trans (freqAt_mono hdf ?_) e2, ?_⟩
  · have := le_max_left lo ((firstIdx (fun j => decide (thr < s j)) len).getD 0)
    omega
  · have := min_le_left up last
    omega
  · have := min_le_right up last
    omega

/-- ... so the largest component within the limits is never used, ... -/
theorem C321_top_refuted {s : ℕ → α} {len : ℕ} {thr flo fup df : α} (hdf : 0 < df) {nmin nmax : ℕ}
    (h : window s len thr flo fup df = .ok (nmin, nmax)) :
    compFreq df nmax ≤ fup ∧ nmax ≤ len ∧ ¬ inLoop nmin nmax nmax := by
  obtain ⟨last, up, lo, h1, h2, h3, rfl, rfl⟩ := window_ok h
  have hlast := lastIdx_some h1
  have hup := lastIdx_some h2
  have e2 := of_decide_eq_true hup.2.1
  refine ⟨?_, ?_, fun hl => by have := hl.2; omega⟩
  · rw [← freqAt_eq]
    exact le_trans (freqAt_mono hdf (min_le_left up last)) e2
  · have := min_le_right up last
    omega

/-- ... this component is the last one within the limits: the components after it lie above the upper limit or have no
spectrum, ... -/
theorem C321_top_is_last {s : ℕ → α} {len : ℕ} {thr flo fup df : α} {nmin nmax : ℕ}
    (h : window s len thr flo fup df = .ok (nmin, nmax)) {c : ℕ} (hc : nmax < c) (hlen : c ≤ len) :
    fup < compFreq df c ∨ ¬ 0 < s (c - 1) := by
  obtain ⟨last, up, lo, h1, h2, h3, rfl, rfl⟩ := window_ok h
  obtain ⟨c, rfl⟩ : ∃ c', c = c' + 1 := ⟨c - 1, by omega⟩
  rcases le_total up last with hle | hle
  · left
    rw [min_eq_left hle] at hc
    have := of_decide_eq_false ((lastIdx_some h2).2.2 c (by omega) (by omega))
    rw [← freqAt_eq]
    exact not_le.mp this
  · right
    rw [min_eq_right hle] at hc
    exact of_decide_eq_false ((lastIdx_some h1).2.2 c (by omega) (by omega))

/-- ... a component below the lower limit is used whenever this limit decides, ... -/
theorem C321_low_refuted {s : ℕ → α} {len : ℕ} {thr flo fup df : α} {nmin nmax : ℕ} (hflo : df < flo) (hthr : thr < s 0)
    (h : window s len thr flo fup df = .ok (nmin, nmax)) (hne : nmin ≤ nmax) :
    inLoop nmin nmax (nmin - 1) ∧ compFreq df (nmin - 1) < flo := by
  obtain ⟨last, up, lo, h1, h2, h3, rfl, rfl⟩ := window_ok h
  have hlo := firstIdx_some h3
  have hlen : 0 < len := by omega
  have hfirst : firstIdx (fun j => decide (thr < s j)) len = some 0 := by
    unfold firstIdx
    rw [List.find?_range_eq_some]
    exact ⟨decide_eq_true hthr, List.mem_range.2 hlen, fun j hj => by omega⟩
  rw [hfirst] at hne ⊢
  rw [Option.getD_some, Nat.max_zero] at hne ⊢
  refine ⟨⟨le_rfl, by omega⟩, ?_⟩
  rw [Nat.add_sub_cancel]
  cases lo with
  | zero =>
    exfalso
    have e3 := of_decide_eq_true hlo.2.1
    unfold freqAt at e3
    norm_num at e3
    exact absurd e3 (not_le.2 hflo)
  | succ l =>
    have := hlo.2.2 l (by omega)
    rw [← freqAt_eq]
    simpa using this

/-- ... and if the spectrum is already large at the first frequency, the loops start with frequency zero, for which the
finite depth formulas divide by zero. -/
theorem C321_zero_refuted {s : ℕ → α} {len : ℕ} {thr flo fup df : α} {nmin nmax : ℕ} (hflo : flo ≤ df) (hthr : thr < s 0)
    (h : window s len thr flo fup df = .ok (nmin, nmax)) : inLoop nmin nmax 0 ∧ compFreq df 0 = 0 := by
  obtain ⟨last, up, lo, h1, h2, h3, rfl, rfl⟩ := window_ok h
  have hlast := lastIdx_some h1
  have hlen : 0 < len := by omega
  have hfirst : firstIdx (fun j => decide (thr < s j)) len = some 0 := by
    unfold firstIdx
    rw [List.find?_range_eq_some]
    exact ⟨decide_eq_true hthr, List.mem_range.2 hlen, fun j hj => by omega⟩
  have hlo0 : lo = 0 := by
    by_contra hne
    have := (firstIdx_some h3).2.2 0 (by omega)
    have h4 := of_decide_eq_false this
    apply h4
    unfold freqAt
    norm_num
    exact hflo
  rw [hfirst, hlo0]
  refine ⟨⟨by simp, by omega⟩, ?_⟩
  unfold compFreq
  norm_num

/-- **C321 (memory).**  With these limits `disufq` writes inside its arrays of `ns` numbers per case
(`f` has `ns // 2 - 1` entries and `ns` is even). -/
theorem C321_memory {s : ℕ → α} {ns : ℕ} {thr flo fup df : α} {nmin nmax : ℕ}
    (h : window s (ns / 2 - 1) thr flo fup df = .ok (nmin, nmax)) (rA iA w kw : ℕ → ℝ) (depth g : ℝ) (m : ℕ) :
    ∃ r, Disufq.disufq rA iA w kw depth g (nmin - 1) nmax m ns = .ok r := by
  obtain ⟨last, up, lo, h1, h2, h3, rfl, rfl⟩ := window_ok h
  have hlast := lastIdx_some h1
  have := min_le_right up last
  exact Disufq.C314_in_bounds _ _ _ _ _ _ _ _ _ _ (by omega)

/-- Non-vacuity: five frequencies 1, ..., 5, limits 2 and 4: the components 1, 2, 3 are used instead of 2, 3, 4. -/
example : window (fun _ => (1 : ℚ)) 5 0 2 4 1 = .ok (2, 4) := by decide +kernel

/-- No frequency below the upper limit: ValueError. -/
example : window (fun _ => (1 : ℚ)) 5 0 2 0 1 = .error .valueError := by decide +kernel

/-! ## `stats_nl` -/

/-- The tables of `qtf` for infinite depth, for wavenumbers `k ≥ 0` (`spectrum/core.py:173-175`). -/
def tableSum (k : List α) : List (List α) := k.map fun a => k.map fun b => (a + b) / 4

/-- See `tableSum`. -/
def tableDif (k : List α) : List (List α) := k.map fun a => k.map fun b => -|a - b| / 4

theorem trapz_nonneg : ∀ (y x : List α), (∀ v ∈ y, 0 ≤ v) → x.Pairwise (· ≤ ·) → 0 ≤ trapz y x
  | [], _, _, _ => by simp [trapz]
  | [_], _, _, _ => by simp [trapz]
  | _ :: _ :: _, [], _, _ => by simp [trapz]
  | _ :: _ :: _, [_], _, _ => by simp [trapz]
  | y0 :: y1 :: ys, x0 :: x1 :: xs, hy, hx => by
    rw [trapz]
    have h1 : x0 ≤ x1 := (List.pairwise_cons.1 hx).1 x1 (List.mem_cons_self ..)
    have h2 : 0 ≤ y0 := hy y0 (List.mem_cons_self ..)
    have h3 : 0 ≤ y1 := hy y1 (List.mem_cons_of_mem _ (List.mem_cons_self ..))
    have ih := trapz_nonneg (y1 :: ys) (x1 :: xs) (fun v hv => hy v (List.mem_cons_of_mem _ hv))
      (List.pairwise_cons.1 hx).2
    have h4 : 0 ≤ (x1 - x0) * (y0 + y1) / 2 :=
      div_nonneg (mul_nonneg (sub_nonneg.2 h1) (add_nonneg h2 h3)) (by norm_num)
    exact add_nonneg h4 ih

theorem zipWith_mul_nonneg : ∀ (a b : List α), (∀ v ∈ a, 0 ≤ v) → (∀ v ∈ b, 0 ≤ v) → ∀ v ∈ List.zipWith (· * ·) a b, 0 ≤ v
  | [], _, _, _ => by simp
  | _ :: _, [], _, _ => by simp
  | a :: as, b :: bs, ha, hb => by
    intro v hv
    rw [List.zipWith_cons_cons, List.mem_cons] at hv
    rcases hv with rfl | hv
    · exact mul_nonneg (ha a (List.mem_cons_self ..)) (hb b (List.mem_cons_self ..))
    · exact zipWith_mul_nonneg as bs (fun v hv => ha v (List.mem_cons_of_mem _ hv))
        (fun v hv => hb v (List.mem_cons_of_mem _ hv)) v hv

/-- Sum and difference table together: half the smaller wavenumber. -/
theorem sum_dif (a b : α) : (a + b) / 4 + -|a - b| / 4 = min a b / 2 := by
  rcases le_total a b with h | h
  · rw [abs_of_nonpos (sub_nonpos.2 h), min_eq_left h]; ring
  · rw [abs_of_nonneg (sub_nonneg.2 h), min_eq_right h]; ring

theorem hspd_eq (k s w : List α) : hspd (tableSum k) (tableDif k) s w =
    trapz (List.zipWith (· * ·) (k.map fun a => trapz (List.zipWith (· * ·) (k.map fun b => min a b / 2) s) w) s) w := by
  unfold hspd tableSum tableDif
  rw [List.zipWith_map, List.zipWith_self]
  simp only [List.zipWith_map, List.zipWith_self, sum_dif]

theorem hspd_nonneg {k s w : List α} (hk : ∀ v ∈ k, 0 ≤ v) (hs : ∀ v ∈ s, 0 ≤ v) (hw : w.Pairwise (· ≤ ·)) :
    0 ≤ hspd (tableSum k) (tableDif k) s w := by
  rw [hspd_eq]
  apply trapz_nonneg _ _ _ hw
  apply zipWith_mul_nonneg _ _ _ hs
  intro v hv
  obtain ⟨a, ha, rfl⟩ := List.mem_map.1 hv
  apply trapz_nonneg _ _ _ hw
  apply zipWith_mul_nonneg _ _ _ hs
  intro v hv
  obtain ⟨b, hb, rfl⟩ := List.mem_map.1 hv
  exact div_nonneg (le_min (hk a ha) (hk b hb)) (by norm_num)

theorem trapz_zero : ∀ (s w : List α) (z : List α), (∀ v ∈ z, v = 0) → trapz (List.zipWith (· * ·) z s) w = 0
  | [], _, z, _ => by cases z <;> simp [trapz]
  | [_], _, z, _ => by rcases z with _ | ⟨_, _ | _⟩ <;> simp [trapz]
  | s0 :: s1 :: s, [], z, _ => by rcases z with _ | ⟨_, _ | _⟩ <;> simp [trapz]
  | s0 :: s1 :: s, [_], z, _ => by rcases z with _ | ⟨_, _ | _⟩ <;> simp [trapz]
  | s0 :: s1 :: s, w0 :: w1 :: w, [], _ => by simp [trapz]
  | s0 :: s1 :: s, w0 :: w1 :: w, [_], _ => by simp [trapz]
  | s0 :: s1 :: s, w0 :: w1 :: w, z0 :: z1 :: z, hz => by
    have ih := trapz_zero (s1 :: s) (w1 :: w) (z1 :: z) fun v hv => hz v (List.mem_cons_of_mem _ hv)
    rw [List.zipWith_cons_cons] at ih
    rw [List.zipWith_cons_cons, List.zipWith_cons_cons, trapz, ih, hz z0 (List.mem_cons_self ..),
      hz z1 (List.mem_cons_of_mem _ (List.mem_cons_self ..))]
    ring

/-- **C322.**  In infinite depth the second order wave has mean zero, nonnegative skewness (crests sharper than
troughs) and kurtosis at least 3, for every nonnegative spectrum on an increasing grid. -/
theorem C322_deep (k s w : List α) (m0 sa : α) (hk : ∀ v ∈ k, 0 ≤ v) (hs : ∀ v ∈ s, 0 ≤ v) (hw : w.Pairwise (· ≤ ·))
    (hsa : 0 < sa) : ∃ skew : α, 0 ≤ skew ∧
      statsNl (tableSum k) (tableDif k) (k.map fun _ => 0) s w m0 sa ['m', 'v', 's', 'k'] "approximate".toList =
        .ok [0, m0, skew, 3 + (4 * skew / 3) ^ 2] ∧ 3 ≤ 3 + (4 * skew / 3) ^ 2 := by
  refine ⟨6 / sa ^ 3 * hspd (tableSum k) (tableDif k) s w,
    mul_nonneg (by positivity) (hspd_nonneg hk hs hw), ?_, by nlinarith [sq_nonneg (4 * (6 / sa ^ 3 * hspd (tableSum k) (tableDif k) s w) / 3)]⟩
  have hz : trapz (List.zipWith (· * ·) (k.map fun _ => (0 : α)) s) w = 0 :=
    trapz_zero s w _ fun v hv => by
      obtain ⟨_, _, rfl⟩ := List.mem_map.1 hv
      rfl
  have hm : "approximate".toList = 'a' :: "pproximate".toList := by decide
  rw [hm]
  simp only [statsNl, if_true, hz]
  simp [add_comm]

/-- **C323.**  The values come in the order mean, variance, skewness, kurtosis whatever the order of the letters: only
the set of letters counts ... -/
theorem C323_order (hs hd : List (List α)) (hdii s w : List α) (m0 sa : α) (mo mo' method : List Char)
    (h : ∀ c, c ∈ mo ↔ c ∈ mo') : statsNl hs hd hdii s w m0 sa mo method = statsNl hs hd hdii s w m0 sa mo' method := by
  unfold statsNl
  simp only [h]

/-- ... the values asked for are those of the full list mean, variance, skewness, kurtosis, in this order, ... -/
theorem C323_selection (hs hd : List (List α)) (hdii s w : List α) (m0 sa : α) :
    ∃ mean skew : α, ∀ mo rest : List Char, statsNl hs hd hdii s w m0 sa mo ('a' :: rest) =
      .ok (([('m', mean), ('v', m0), ('s', skew), ('k', 3 + (4 / 3 * skew) ^ 2)].filter fun p => decide (p.1 ∈ mo)).map Prod.snd) := by
  refine ⟨2 * trapz (List.zipWith (· * ·) hdii s) w, 6 / sa ^ 3 * hspd hs hd s w, fun mo rest => ?_⟩
  have e : (4 * (6 / sa ^ 3 * hspd hs hd s w) / 3) ^ 2 + 3 = 3 + (4 / 3 * (6 / sa ^ 3 * hspd hs hd s w)) ^ 2 := by ring
  simp only [statsNl, if_true, e, List.filter_cons, List.filter_nil, decide_eq_true_eq]
  congr 1
  split_ifs <;> rfl

/-- ... and the documented method 'eigenvalue' is a ValueError. -/
theorem C323_eigenvalue_refuted (hs hd : List (List α)) (hdii s w : List α) (m0 sa : α) (mo : List Char) :
    statsNl hs hd hdii s w m0 sa mo "eigenvalue".toList = .error .valueError := by
  have hm : "eigenvalue".toList = 'e' :: "igenvalue".toList := by decide
  rw [hm]
  simp [statsNl]

/-- Non-vacuity of C322 and C323: a spectrum on three frequencies. -/
example : statsNl (tableSum [(0 : ℚ), 1, 4]) (tableDif [0, 1, 4]) [0, 0, 0] [0, 2, 0] [0, 1, 2] 2 2 ['k', 's'] ['a'] =
    .ok [3 / 2, 7] := by decide +kernel

end Wafo.SimNl

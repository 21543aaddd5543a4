import Verif.PP.Props
import Mathlib.Data.List.GetD
import Mathlib.MeasureTheory.Integral.IntervalIntegral.FundThmCalculus

set_option linter.unusedSectionVars false

/-! Integration and differentiation of piecewise polynomials (C68). -/

namespace Wafo.PP
open Wafo.Poly

section field
variable {α : Type*} [Field α] [LinearOrder α] [IsStrictOrderedRing α]

theorem rightVal_fold (d : α) (l : List α) (c : α) :
    l.foldl (fun vv c' => d * (vv + c')) (d * c) = d * peval (c :: l) d := by
  induction l using List.reverseRecOn with
  | nil => simp [peval]
  | append_singleton l a ih =>
    rw [List.foldl_append, ih, ← List.cons_append, peval_append_singleton]
    simp only [List.foldl_cons, List.foldl_nil]; ring

theorem int1_dropLast (p : List α) (k k' : α) : (int1 p k).dropLast ++ [k'] = int1 p k' := by simp [int1]

theorem int1_const (p : List α) (k t : α) : peval (int1 p k) t = peval (int1 p 0) t + k := by
  simp [int1, peval_append_singleton]

theorem rightVal_int1 (d : α) (p : List α) (hp : p ≠ []) : rightVal d (int1 p 0) = peval (int1 p 0) d := by
  have hl : (int1 p 0).dropLast.length = p.length := by simp [int1_length]
  unfold rightVal
  conv_rhs => rw [← int1_dropLast p 0 0, peval_append_singleton, add_zero]
  generalize (int1 p (0 : α)).dropLast = q at hl
  cases q with
  | nil => exact absurd (List.length_eq_zero_iff.1 hl.symm) hp
  | cons c l => simp only; rw [rightVal_fold, mul_comm]

theorem cumsum_get (l : List α) : ∀ (s : α) (i : ℕ), i < l.length →
    (cumsum s l)[i]? = some (s + (l.take (i + 1)).sum) := by
  induction l with
  | nil => intro s i h; simp at h
  | cons a l ih =>
    intro s i h
    cases i with
    | zero => simp [cumsum]
    | succ i =>
      simp only [cumsum, List.getElem?_cons_succ]
      rw [ih (s + a) i (by simpa using h)]
      simp [add_assoc]

theorem cumsum_length (l : List α) : ∀ s : α, (cumsum s l).length = l.length := by
  induction l with
  | nil => intro s; rfl
  | cons a l ih => intro s; simp [cumsum, ih]

theorem diff_length (l : List α) : (Wafo.Tran.diff l).length = l.length - 1 := by
  match l with
  | [] => rfl
  | [_] => rfl
  | a :: b :: l =>
    have := diff_length (b :: l)
    simp only [Wafo.Tran.diff, List.length_cons, this]
    simp

theorem diff_get (l : List α) (k : ℕ) (a b : α) (ha : l[k]? = some a) (hb : l[k + 1]? = some b) :
    (Wafo.Tran.diff l)[k]? = some (b - a) := by
  induction l generalizing k with
  | nil => simp at ha
  | cons c l ih =>
    cases l with
    | nil => simp at hb
    | cons d l =>
      cases k with
      | zero => simp at ha hb; simp [Wafo.Tran.diff, ha, hb]
      | succ k =>
        simp only [Wafo.Tran.diff, List.getElem?_cons_succ] at ha hb ⊢
        exact ih k ha hb

/-- The constants of the integrated pieces: integral up to the left end of piece `i`. -/
def konst (c : List (List α)) (b : List α) (i : ℕ) : α :=
  ((List.range i).map fun j => peval (int1 (c.getD j []) 0) (b.getD (j + 1) 0 - b.getD j 0)).sum

theorem konst_succ (c : List (List α)) (b : List α) (i : ℕ) :
    konst c b (i + 1) = konst c b i + peval (int1 (c.getD i []) 0) (b.getD (i + 1) 0 - b.getD i 0) := by
  simp [konst, List.range_succ]

theorem integrate_spec (pp : PPform α) (hw : WF pp) : ∃ ipp, integrate pp = .ok ipp ∧ WF ipp ∧
    make (pp.order + 1) ipp.coefs pp.breaks pp.fill = .ok ipp ∧ ipp.coefs.length = pp.coefs.length ∧
    ∀ i (hi : i < pp.coefs.length), ipp.coefs[i]? = some (int1 pp.coefs[i] (konst pp.coefs pp.breaks i)) := by
  obtain ⟨hs, hl, hcols, hpos, hpc⟩ := hw
  have hne : ∀ p ∈ pp.coefs, p ≠ [] := by
    intro p hp e
    have := hcols _ hp
    rw [e] at this; simp at this; omega
  have hbne : pp.breaks ≠ [] := by intro e; rw [e] at hl; simp at hl
  have key : ∀ C : List (List α), C.length = pp.coefs.length →
      (∀ i (hi : i < pp.coefs.length), C[i]? = some (int1 pp.coefs[i] (konst pp.coefs pp.breaks i))) →
      ∃ ipp, make (pp.order + 1) C pp.breaks pp.fill = .ok ipp ∧ WF ipp ∧
      make (pp.order + 1) ipp.coefs pp.breaks pp.fill = .ok ipp ∧ ipp.coefs.length = pp.coefs.length ∧
      ∀ i (hi : i < pp.coefs.length), ipp.coefs[i]? = some (int1 pp.coefs[i] (konst pp.coefs pp.breaks i)) := by
    intro C hC hget
    refine ⟨_, make_ok _ C pp.breaks pp.fill hbne, ⟨hs, by simpa [hC] using hl, ?_, by simp, ?_⟩,
      make_ok _ C pp.breaks pp.fill hbne, hC, hget⟩
    · intro p hp
      obtain ⟨i, hi, rfl⟩ := List.mem_iff_getElem.1 hp
      have h1 := hget i (by simpa [hC] using hi)
      rw [List.getElem?_eq_getElem hi, Option.some.injEq] at h1
      rw [h1, int1_length, hcols _ (List.getElem_mem _)]
    · intro e; exact hpc (List.length_eq_zero_iff.1 (by rw [← hC]; exact List.length_eq_zero_iff.2 e))
  unfold integrate
  by_cases h1 : 1 < pp.breaks.length - 1
  · rw [if_pos h1]
    simp only
    set vv := List.zipWith rightVal (Wafo.Tran.diff pp.breaks.dropLast) (pp.coefs.map fun p => int1 p 0) with hvv
    have hvlen : vv.length = pp.coefs.length - 1 := by
      rw [hvv, List.length_zipWith, diff_length]; simp; omega
    have hvget : ∀ j, j < vv.length → vv[j]? =
        some (peval (int1 (pp.coefs.getD j []) 0) (pp.breaks.getD (j + 1) 0 - pp.breaks.getD j 0)) := by
      intro j hj
      have hjc : j < pp.coefs.length := by omega
      have d : (Wafo.Tran.diff pp.breaks.dropLast)[j]? = some (pp.breaks.getD (j + 1) 0 - pp.breaks.getD j 0) := by
        apply diff_get
        · rw [List.getElem?_dropLast, if_pos (by omega)]
          rw [List.getElem?_eq_getElem (by omega), List.getD_eq_getElem _ _ (by omega)]
        · rw [List.getElem?_dropLast, if_pos (by omega)]
          rw [List.getElem?_eq_getElem (by omega), List.getD_eq_getElem _ _ (by omega)]
      rw [hvv, List.getElem?_zipWith, d, List.getElem?_map, List.getElem?_eq_getElem hjc]
      simp only [Option.map_some]
      rw [rightVal_int1 _ _ (hne _ (List.getElem_mem hjc)), List.getD_eq_getElem _ _ hjc]
    have hsum : ∀ i, i ≤ vv.length → (vv.take i).sum = konst pp.coefs pp.breaks i := by
      intro i
      induction i with
      | zero => intro _; simp [konst]
      | succ i ih =>
        intro hi
        rw [List.take_add_one, List.sum_append, ih (by omega), konst_succ, hvget i (by omega)]
        simp
    apply key
    · rw [List.length_zipWith, cumsum_length, List.length_cons, hvlen, List.length_map]; omega
    · intro i hi
      rw [List.getElem?_zipWith, cumsum_get _ _ _ (by simp; omega), List.getElem?_map, List.getElem?_eq_getElem hi]
      simp only [Option.map_some, List.take_succ_cons, List.sum_cons]
      rw [hsum i (by omega), int1_dropLast]; simp
  · rw [if_neg h1]
    apply key
    · simp
    · intro i hi
      obtain rfl : i = 0 := by omega
      rw [List.getElem?_map, List.getElem?_eq_getElem hi]
      simp [konst]

/-- **C68**  Differentiating the integral gives back the coefficients and the breaks exactly. -/
theorem C68_derivative_integrate (k : ℕ) (c : List (List α)) (b : List α) (f : α) (pp : PPform α)
    (hm : make k c b f = .ok pp) (hw : WF pp) :
    ∃ ipp, integrate pp = .ok ipp ∧ derivative ipp = .ok pp := by
  obtain ⟨ipp, h1, hwi, h2, h3, h4⟩ := integrate_spec pp hw
  refine ⟨ipp, h1, ?_⟩
  obtain ⟨e1, e2, e3, e4⟩ := fields_make h2
  obtain ⟨g1, g2, g3, g4⟩ := fields_make hm
  unfold derivative
  have : ipp.coefs.map der1 = pp.coefs := by
    apply List.ext_getElem (by simpa using h3)
    intro i hi1 hi2
    rw [List.getElem_map]
    have := h4 i hi2
    rw [List.getElem?_eq_getElem (by omega), Option.some.injEq] at this
    rw [this, der1_int1]
  rw [this, e1, e3, e4, g1, g2, g3, g4]
  simpa using hm

end field

section real
open MeasureTheory

theorem peval_shift_deriv (p : List ℝ) (k a t : ℝ) :
    HasDerivAt (fun t => peval (int1 p k) (t - a)) (peval p (t - a)) t := by
  have h := der1_hasDerivAt (int1 p k) (t - a)
  rw [der1_int1] at h
  exact h.comp_sub_const t a

theorem peval_continuous (p : List ℝ) (a : ℝ) : Continuous (fun t => peval p (t - a)) :=
  continuous_iff_continuousAt.2 fun t => ((der1_hasDerivAt p (t - a)).comp_sub_const t a).continuousAt

/-- **C68**  On the interval covered by the breaks, `integrate()` is the integral from the first break: it succeeds, and
its value at `x` is `∫ S(t) dt` from `breaks[0]` to `x` where `S` is the piecewise polynomial.  (So it vanishes at the first
break and is continuous.) -/
theorem C68_integrate (k : ℕ) (c : List (List ℝ)) (b : List ℝ) (f : ℝ) (pp : PPform ℝ)
    (hm : make k c b f = .ok pp) (hw : WF pp) (h0 : 0 < b.length) :
    ∃ ipp, integrate pp = .ok ipp ∧ ∀ (S : ℝ → ℝ),
      (∀ t, b[0] ≤ t → t ≤ b[b.length - 1] → call id pp t = .ok (S t)) →
      ∀ x, b[0] ≤ x → x ≤ b[b.length - 1] →
        IntervalIntegrable S volume b[0] x ∧ call id ipp x = .ok (∫ t in b[0]..x, S t) := by
  obtain ⟨ipp, h1, hwi, h2, h3, h4⟩ := integrate_spec pp hw
  obtain ⟨g1, g2, g3, g4⟩ := fields_make hm
  have hl := hw.len
  have hs := hw.sorted
  subst g1 g2 g3 g4
  refine ⟨ipp, h1, ?_⟩
  intro S hS x hx1 hx2
  have hc0 : 0 < pp.coefs.length := List.length_pos_iff.2 hw.pieces
  have hp := List.pairwise_iff_getElem.1 hs
  have hmono : ∀ i j (hi : i < pp.breaks.length) (hj : j < pp.breaks.length), i ≤ j → pp.breaks[i] ≤ pp.breaks[j] := by
    intro i j hi hj hij
    rcases Nat.lt_or_ge i j with h | h
    · exact (hp i j hi hj h).le
    · obtain rfl : i = j := by omega
      exact le_rfl
  -- one piece
  have piece : ∀ i (hi : i < pp.coefs.length) (y : ℝ), pp.breaks[i] ≤ y → y ≤ pp.breaks[i + 1] →
      IntervalIntegrable S volume pp.breaks[i] y ∧
      ∫ t in pp.breaks[i]..y, S t = peval (int1 pp.coefs[i] 0) (y - pp.breaks[i]) := by
    intro i hi y hy1 hy2
    have hEq : Set.EqOn (fun t => peval pp.coefs[i] (t - pp.breaks[i])) S (Set.uIoc pp.breaks[i] y) := by
      intro t ht
      rw [Set.uIoc_of_le hy1] at ht
      have e1 := hS t ((hmono 0 i _ _ (by omega)).trans ht.1.le)
        ((ht.2.trans hy2).trans (hmono (i + 1) _ _ (by omega) (by omega)))
      have e2 := (C67_call_partial _ _ _ _ pp hm hw id t h0 hc0).2.2.2 i (by omega) hi ht.1 (ht.2.trans hy2)
      rw [e1] at e2
      injection e2 with e2
      exact e2.symm
    have hint : IntervalIntegrable (fun t => peval pp.coefs[i] (t - pp.breaks[i])) volume pp.breaks[i] y :=
      (peval_continuous _ _).intervalIntegrable _ _
    refine ⟨(intervalIntegrable_congr hEq).1 hint, ?_⟩
    have : ∫ t in pp.breaks[i]..y, S t = ∫ t in pp.breaks[i]..y, peval pp.coefs[i] (t - pp.breaks[i]) :=
      intervalIntegral.integral_congr_ae (Filter.Eventually.of_forall fun t ht => (hEq ht).symm)
    rw [this, intervalIntegral.integral_eq_sub_of_hasDerivAt
      (fun t _ => peval_shift_deriv pp.coefs[i] 0 pp.breaks[i] t) hint, sub_self]
    have : peval (int1 pp.coefs[i] 0) 0 = 0 := by simp [int1, peval_append_singleton]
    rw [this, sub_zero]
  -- up to the left end of piece i
  have upto : ∀ i (hi : i < pp.breaks.length), IntervalIntegrable S volume pp.breaks[0] pp.breaks[i] ∧
      ∫ t in pp.breaks[0]..pp.breaks[i], S t = konst pp.coefs pp.breaks i := by
    intro i
    induction i with
    | zero => intro _; simp [konst]
    | succ i ih =>
      intro hi
      obtain ⟨i1, i2⟩ := ih (by omega)
      obtain ⟨p1, p2⟩ := piece i (by omega) pp.breaks[i + 1] (hmono _ _ _ _ (by omega)) le_rfl
      refine ⟨i1.trans p1, ?_⟩
      rw [← intervalIntegral.integral_add_adjacent_intervals i1 p1, i2, p2, konst_succ,
        List.getD_eq_getElem _ _ (show i < pp.coefs.length by omega),
        List.getD_eq_getElem _ _ (show i + 1 < pp.breaks.length by omega),
        List.getD_eq_getElem _ _ (show i < pp.breaks.length by omega)]
  -- value of the integrated form
  have hval := C67_call_partial _ _ _ _ ipp h2 hwi id x h0 (by omega)
  rcases hx1.eq_or_lt with hx | hx
  · subst hx
    refine ⟨by simp, ?_⟩
    rw [hval.2.2.1 rfl, intervalIntegral.integral_same]
    have := h4 0 hc0
    rw [List.getElem?_eq_getElem (by omega), Option.some.injEq] at this
    rw [this, int1_const, sub_self]
    simp [int1, peval_append_singleton, konst]
  · obtain ⟨i, hi, h5, h6⟩ := interval_exists pp.breaks x h0 hx hx2
    obtain ⟨p1, p2⟩ := piece i (by omega) x h5.le h6
    obtain ⟨u1, u2⟩ := upto i (by omega)
    refine ⟨u1.trans p1, ?_⟩
    rw [hval.2.2.2 i hi (by omega) h5 h6, ← intervalIntegral.integral_add_adjacent_intervals u1 p1, u2, p2]
    have := h4 i (by omega)
    rw [List.getElem?_eq_getElem (by omega), Option.some.injEq] at this
    rw [this, int1_const]
    simp [add_comm]

end real

example : (integrate (⟨1, [[(1 : ℚ)], [2]], [0, 1, 3], 0, some 0, some 3⟩ : PPform ℚ)).toOption.map
    (fun p => (p.coefs, p.order)) = some ([[1, 0], [2, 1]], 2) := by decide +kernel

end Wafo.PP

import Verif.PP.Integral

set_option linter.unusedSectionVars false

/-! Linear extrapolation of piecewise polynomials (C69). -/

namespace Wafo.PP
open Wafo.Poly

section field
variable {α : Type*} [Field α] [LinearOrder α] [IsStrictOrderedRing α]

theorem peval_zeros (n : ℕ) (r : List α) (t : α) : peval (List.replicate n 0 ++ r) t = peval r t := by
  induction n with
  | zero => rfl
  | succ n ih => rw [List.replicate_succ, List.cons_append, ← ih]; simp [peval]

theorem peval_two (a c t : α) : peval [a, c] t = a * t + c := by simp [peval]

theorem der1_last (q : List α) (a c : α) : peval (der1 (q ++ [a, c])) 0 = a := by
  have h1 : (q ++ [a, c]).dropLast = q ++ [a] := by
    rw [show q ++ [a, c] = (q ++ [a]) ++ [c] by simp, List.dropLast_concat]
  unfold der1
  rw [h1]
  simp only [List.length_append, List.length_cons, List.length_nil]
  rw [show q.length + (0 + 1 + 1) - 1 = q.length + 1 by omega, List.range_succ,
    List.zipWith_append (by simp)]
  simp [peval_append_singleton]

theorem peval_zero_last (q : List α) (c : α) : peval (q ++ [c]) 0 = c := by simp [peval_append_singleton]

theorem exists_two (p : List α) (h : 2 ≤ p.length) : ∃ q a c, p = q ++ [a, c] ∧ p.drop (p.length - 2) = [a, c] := by
  rcases List.eq_nil_or_concat p with rfl | ⟨q, c, rfl⟩
  · simp at h
  · rcases List.eq_nil_or_concat q with rfl | ⟨q, a, rfl⟩
    · simp at h
    · refine ⟨q, a, c, by simp, ?_⟩
      simp

end field

/-- **C69 (partial)**  For a piecewise polynomial with float coefficients and order > 2, `linear_extrapolate()` succeeds;
its values inside the basic interval are unchanged, and outside it is the straight line through the end value with the
slope of the end piece (its derivative there), on both sides.

Missing: integer coefficients, see `C69_integer_refuted`. -/
theorem C69_linear_extrapolate_partial (k : ℕ) (c : List (List ℝ)) (b : List ℝ) (f : ℝ) (pp : PPform ℝ)
    (hm : make k c b f = .ok pp) (hw : WF pp) (hk : 2 < k) (h0 : 1 < b.length) (hc : b.length = c.length + 1) :
    ∃ e, linearExtrapolate id pp = .ok e ∧
      (∀ x, b[0] ≤ x → x ≤ b[b.length - 1] → call id e x = call id pp x) ∧
      (∀ x, x ≤ b[0] → call id e x = .ok (peval c[0] 0 + peval (der1 c[0]) 0 * (x - b[0]))) ∧
      (∀ x, b[b.length - 1] ≤ x → call id e x = .ok
        (peval c[c.length - 1] (b[b.length - 1] - b[b.length - 2]) +
         peval (der1 c[c.length - 1]) (b[b.length - 1] - b[b.length - 2]) * (x - b[b.length - 1]))) := by
  obtain ⟨g1, g2, g3, g4⟩ := fields_make hm
  obtain ⟨hs, hl, hcols, hpos, hpc⟩ := id hw
  subst g1 g2 g3 g4
  have hp := List.pairwise_iff_getElem.1 hs
  have hc0 : 0 < pp.coefs.length := by omega
  have hne : ∀ i (h : i < pp.coefs.length), pp.coefs[i].length = pp.order := fun i h => hcols _ (List.getElem_mem h)
  -- the two new pieces
  obtain ⟨q0, a0, c0, e0, d0⟩ := exists_two pp.coefs[0] (by rw [hne 0 hc0]; omega)
  rw [hne 0 hc0] at d0
  obtain ⟨r1, hr1, hlr1, hev1⟩ := polyreloc_eval [a0, c0] (by simp) (-((pp.breaks[0] - (1 : ℝ)) - pp.breaks[0])) 0
  set D := pp.breaks[pp.breaks.length - 1] - pp.breaks[pp.breaks.length - 2] with hD
  have hN : pp.coefs.length - 1 < pp.coefs.length := by omega
  obtain ⟨rn, hrn, hlrn, hevn⟩ := polyreloc_eval pp.coefs[pp.coefs.length - 1]
    (by intro e; have := hne _ hN; rw [e] at this; simp at this; omega) (-D) 0
  obtain ⟨qn, an, cn, en, dn⟩ := exists_two rn (by rw [hlrn, hne _ hN]; omega)
  rw [hlrn, hne _ hN] at dn
  -- value and slope of the relocated last piece
  have hcn : cn = peval pp.coefs[pp.coefs.length - 1] D := by
    have := hevn 0
    rw [en, show qn ++ [an, cn] = (qn ++ [an]) ++ [cn] by simp, peval_zero_last] at this
    rw [this]; simp
  have han : an = peval (der1 pp.coefs[pp.coefs.length - 1]) D := by
    have h1 := der1_hasDerivAt rn 0
    have h2 : HasDerivAt (peval rn) (peval (der1 pp.coefs[pp.coefs.length - 1]) D) 0 := by
      have h3 : HasDerivAt (peval pp.coefs[pp.coefs.length - 1])
          (peval (der1 pp.coefs[pp.coefs.length - 1]) D) (0 - -D) := by
        rw [zero_sub, neg_neg]; exact der1_hasDerivAt _ D
      have h4 := (h3.comp_sub_const 0 (-D))
      have : peval rn = fun t => peval pp.coefs[pp.coefs.length - 1] (t - -D) := by
        funext t; rw [hevn t, add_zero]
      rw [this]; exact h4
    have := h1.unique h2
    rw [en, der1_last] at this
    exact this
  have hc00 : c0 = peval pp.coefs[0] 0 := by
    rw [e0, show q0 ++ [a0, c0] = (q0 ++ [a0]) ++ [c0] by simp, peval_zero_last]
  have ha0 : a0 = peval (der1 pp.coefs[0]) 0 := by rw [e0, der1_last]
  -- the result
  set P1 := List.replicate (pp.order - 2) 0 ++ r1 with hP1
  set Pn := List.replicate (pp.order - 2) 0 ++ [an, cn] with hPn
  set e : PPform ℝ := ⟨pp.order, (P1 :: pp.coefs) ++ [Pn],
    ((pp.breaks[0] - 1) :: pp.breaks) ++ [pp.breaks[pp.breaks.length - 1] + 1], 0, none, none⟩ with he
  have hres : linearExtrapolate id pp = .ok e := by
    unfold linearExtrapolate
    rw [if_neg (by omega)]
    have x1 : pp.breaks.head? = some pp.breaks[0] := by
      rw [List.head?_eq_getElem?, List.getElem?_eq_getElem]
    have x2 : pp.breaks.dropLast.getLast? = some pp.breaks[pp.breaks.length - 2] := by
      rw [List.getLast?_eq_getElem?, List.length_dropLast, List.getElem?_dropLast, if_pos (by omega)]
      rw [show pp.breaks.length - 1 - 1 = pp.breaks.length - 2 by omega, List.getElem?_eq_getElem]
    have x3 : pp.breaks.getLast? = some pp.breaks[pp.breaks.length - 1] := by
      rw [List.getLast?_eq_getElem?, List.getElem?_eq_getElem]
    have x4 : pp.coefs.head? = some pp.coefs[0] := by
      rw [List.head?_eq_getElem?, List.getElem?_eq_getElem]
    have x5 : pp.coefs.getLast? = some pp.coefs[pp.coefs.length - 1] := by
      rw [List.getLast?_eq_getElem?, List.getElem?_eq_getElem]
    rw [x1, x2, x3, x4, x5]
    simp only
    rw [hrn, d0, hr1]
    simp only [bind, Except.bind]
    rw [he, hPn, dn]
  have hin : ∀ x, inside e x = true := by intro x; simp [inside, he]
  have hsorted : e.breaks.Pairwise (· < ·) := by
    rw [List.pairwise_iff_getElem]
    intro i j hi hj hij
    simp only [he, List.length_append, List.length_cons, List.length_nil] at hi hj ⊢
    have hmid : ∀ m (hm : m < pp.breaks.length), pp.breaks[0] ≤ pp.breaks[m] ∧
        pp.breaks[m] ≤ pp.breaks[pp.breaks.length - 1] := by
      intro m hm
      constructor
      · rcases Nat.eq_zero_or_pos m with rfl | h
        · exact le_rfl
        · exact (hp 0 m _ _ h).le
      · rcases Nat.lt_or_ge m (pp.breaks.length - 1) with h | h
        · exact (hp m _ _ (by omega) h).le
        · have : m = pp.breaks.length - 1 := by omega
          simp [this]
    rcases Nat.eq_zero_or_pos i with rfl | hi0
    · obtain ⟨j, rfl⟩ : ∃ j', j = j' + 1 := ⟨j - 1, by omega⟩
      simp only [List.cons_append, List.getElem_cons_zero, List.getElem_cons_succ]
      rcases Nat.lt_or_ge j pp.breaks.length with h | h
      · rw [List.getElem_append_left h]
        have := (hmid j h).1; linarith
      · rw [List.getElem_append_right h]
        simp only [List.getElem_singleton]
        have := (hmid 0 (by omega)).2; linarith
    · obtain ⟨i, rfl⟩ : ∃ i', i = i' + 1 := ⟨i - 1, by omega⟩
      obtain ⟨j, rfl⟩ : ∃ j', j = j' + 1 := ⟨j - 1, by omega⟩
      simp only [List.cons_append, List.getElem_cons_succ]
      have hil : i < pp.breaks.length := by omega
      rw [List.getElem_append_left hil]
      rcases Nat.lt_or_ge j pp.breaks.length with h | h
      · rw [List.getElem_append_left h]
        exact hp i j _ _ (by omega)
      · rw [List.getElem_append_right h]
        simp only [List.getElem_singleton]
        have := (hmid i hil).2; linarith
  have heb : e.breaks.length = pp.breaks.length + 2 := by simp [he]
  have hec : e.coefs.length = pp.coefs.length + 2 := by simp [he]
  have b0' : e.breaks[0]'(by omega) = pp.breaks[0] - 1 := by simp [he]
  have bi' : ∀ i (hi : i < pp.breaks.length), e.breaks[i + 1]'(by omega) = pp.breaks[i] := by
    intro i hi
    simp only [he, List.cons_append, List.getElem_cons_succ]
    rw [List.getElem_append_left hi]
  have c0' : e.coefs[0]'(by omega) = P1 := by simp [he]
  have ci' : ∀ i (hi : i < pp.coefs.length), e.coefs[i + 1]'(by omega) = pp.coefs[i] := by
    intro i hi
    simp only [he, List.cons_append, List.getElem_cons_succ]
    rw [List.getElem_append_left hi]
  have cn' : e.coefs[pp.coefs.length + 1]'(by omega) = Pn := by
    simp [he]
  -- below the first break
  have hlow : ∀ x, x ≤ pp.breaks[0] →
      call id e x = .ok (peval pp.coefs[0] 0 + peval (der1 pp.coefs[0]) 0 * (x - pp.breaks[0])) := by
    intro x hx
    have hidx : pieceIndex e.breaks x = 0 := by
      rcases le_or_gt x (pp.breaks[0] - 1) with h | h
      · exact pieceIndex_low _ hsorted x (by omega) (by rw [b0']; exact h)
      · exact pieceIndex_eq _ hsorted x 0 (by omega) (by rw [b0']; exact h) (by rw [bi' 0 (by omega)]; exact hx)
    rw [call_piece id e x 0 (hin x) hidx (by omega) (by omega)
      (by rw [c0', hP1]; intro hnil; have := congrArg List.length hnil; simp [hlr1] at this)]
    rw [b0', c0', hP1, peval_zeros, hev1, peval_two, ← ha0, ← hc00]
    congr 1; simp only [id]; ring
  have hhigh : ∀ x, pp.breaks[pp.breaks.length - 1] ≤ x → pp.breaks[pp.breaks.length - 1] < x →
      call id e x = .ok (peval pp.coefs[pp.coefs.length - 1] D + peval (der1 pp.coefs[pp.coefs.length - 1]) D *
        (x - pp.breaks[pp.breaks.length - 1])) := by
    intro x _ hx
    have hbl : e.breaks[pp.coefs.length + 1]'(by omega) = pp.breaks[pp.breaks.length - 1] := by
      rw [bi' pp.coefs.length (by omega)]; congr 1; omega
    have hidx : pieceIndex e.breaks x = pp.coefs.length + 1 :=
      pieceIndex_high _ hsorted x _ (by omega) (by rw [hbl]; exact hx)
    rw [call_piece id e x _ (hin x) hidx (by omega) (by omega) (by rw [cn', hPn]; simp)]
    rw [hbl, cn', hPn, peval_zeros, peval_two, ← hcn, ← han]
    congr 1; simp only [id]; ring
  have hmid : ∀ x, pp.breaks[0] < x → x ≤ pp.breaks[pp.breaks.length - 1] → call id e x = call id pp x := by
    intro x h1 h2
    obtain ⟨i, hi, h5, h6⟩ := interval_exists pp.breaks x (by omega) h1 h2
    rw [(C67_call_partial _ _ _ _ pp hm hw id x (by omega) hc0).2.2.2 i hi (by omega) h5 h6]
    have hidx : pieceIndex e.breaks x = i + 1 := pieceIndex_eq _ hsorted x (i + 1) (by omega)
      (by rw [bi' i (by omega)]; exact h5) (by rw [bi' (i + 1) (by omega)]; exact h6)
    rw [call_piece id e x _ (hin x) hidx (by omega) (by omega)
      (by rw [ci' i (by omega)]; intro hnil; have := hne i (by omega); rw [hnil] at this; simp at this; omega)]
    rw [ci' i (by omega), bi' i (by omega)]
  refine ⟨e, hres, ?_, hlow, ?_⟩
  · intro x h1 h2
    rcases h1.lt_or_eq with h | h
    · exact hmid x h h2
    · rw [hlow x h.symm.le, (C67_call_partial _ _ _ _ pp hm hw id x (by omega) hc0).2.2.1 h.symm, ← h]
      simp
  · intro x hx
    rcases hx.lt_or_eq with h | h
    · exact hhigh x hx h
    · have hlast : pp.breaks[pp.breaks.length - 2] < x := by
        rw [← h]; exact hp _ _ _ _ (by omega)
      have hfirst : pp.breaks[0] < x := by
        rw [← h]; exact hp _ _ _ _ (by omega)
      rw [hmid x hfirst h.symm.le]
      rw [(C67_call_partial _ _ _ _ pp hm hw id x (by omega) hc0).2.2.2 (pp.breaks.length - 2) (by omega) (by omega)
        hlast (by rw [← h]; apply le_of_eq; congr 1; omega)]
      have : pp.breaks.length - 2 = pp.coefs.length - 1 := by omega
      rw [← h, hD]
      simp [this]

/-- The hypotheses hold for the parabola on `[0, 1]` and its mirror image on `[1, 3]`. -/
example : ∃ pp, make 3 [[(1 : ℝ), 0, 0], [-1, 2, 1]] [0, 1, 3] 0 = .ok pp ∧ WF pp :=
  ⟨_, rfl, ⟨by norm_num, rfl, by simp, by simp, by simp⟩⟩

example : (linearExtrapolate id (⟨3, [[(1 : ℚ), 0, 0], [-1, 2, 1]], [0, 1, 3], 0, some 0, some 3⟩ : PPform ℚ)).toOption.map
    (fun p => (p.coefs, p.breaks)) =
    some ([[0, 0, 0], [1, 0, 0], [-1, 2, 1], [0, -2, 1]], [-1, 0, 1, 3, 4]) := by decide +kernel

/-- **C69 refuted** (integer coefficients)  `x**2` on `[0, 1/2]` with an integer coefficient array: relocation truncates
value and slope at the upper end (1/4 and 1) to 0. -/
theorem C69_integer_refuted : ∃ pp e : PPform ℚ, make 3 [[1, 0, 0]] [0, 1 / 2] 0 = .ok pp ∧
    linearExtrapolate truncInt pp = .ok e ∧ call id pp (1 / 2) = .ok (1 / 4) ∧ call id e 1 = .ok 0 ∧
    peval [(1 : ℚ), 0, 0] (1 / 2) + peval (der1 [(1 : ℚ), 0, 0]) (1 / 2) * (1 - 1 / 2) = 3 / 4 :=
  ⟨_, ⟨3, [[0, 0, 0], [1, 0, 0], [0, 0, 0]], [-1, 0, 1 / 2, 3 / 2], 0, none, none⟩, rfl, by decide +kernel,
    by decide +kernel, by decide +kernel, by decide +kernel⟩

/-- **C97 refuted**  `derivative()` and `integrate()` of a linearly extrapolated form fall back to the bounds given by the
breaks, which reach only one unit beyond the data: for `x**2` on `[0, 1]`, extrapolated, the value at 3 is 5 and the
slope there is 2, but `derivative()` returns the fill value 0 at 3; the same for the integral. -/
theorem C97_refuted : ∃ pp e d i : PPform ℚ, make 3 [[1, 0, 0]] [0, 1] 0 = .ok pp ∧ WF pp ∧
    linearExtrapolate id pp = .ok e ∧ derivative e = .ok d ∧ integrate e = .ok i ∧
    call id e 3 = .ok 5 ∧ call id e 4 = .ok 7 ∧ call id d 2 = .ok 2 ∧ call id d 3 = .ok 0 ∧ call id i 3 = .ok 0 :=
  ⟨_, ⟨3, [[0, 0, 0], [1, 0, 0], [0, 2, 1]], [-1, 0, 1, 2], 0, none, none⟩,
    ⟨2, [[0, 0], [2, 0], [0, 2]], [-1, 0, 1, 2], 0, some (-1), some 2⟩,
    ⟨4, [[0, 0, 0, 0], [1 / 3, 0, 0, 0], [0, 1, 1, 1 / 3]], [-1, 0, 1, 2], 0, some (-1), some 2⟩, rfl,
    ⟨by decide +kernel, rfl, by decide +kernel, by decide +kernel, by decide⟩, by decide +kernel, by decide +kernel,
    by decide +kernel, by decide +kernel, by decide +kernel, by decide +kernel, by decide +kernel, by decide +kernel⟩

/-- **C97 (partial)**  What does hold, for every form (extrapolated or not) of order at least 2: strictly between two
breaks, `derivative()` returns the derivative of the form. -/
theorem C97_derivative_partial (pp : PPform ℝ) (hw : WF pp) (hk : 2 ≤ pp.order) (S : ℝ → ℝ)
    (hin : ∀ t, pp.breaks.head? ≤ some t → some t ≤ pp.breaks.getLast? → inside pp t = true)
    (hS : ∀ t, inside pp t = true → call id pp t = .ok (S t))
    (x : ℝ) (i : ℕ) (hi : i + 1 < pp.breaks.length) (h1 : pp.breaks[i] < x) (h2 : x < pp.breaks[i + 1]) :
    ∃ d v, derivative pp = .ok d ∧ call id d x = .ok v ∧ HasDerivAt S v x := by
  obtain ⟨hs, hl, hcols, hpos, hpc⟩ := id hw
  have hic : i < pp.coefs.length := by omega
  have hp := List.pairwise_iff_getElem.1 hs
  have hbne : pp.breaks ≠ [] := List.length_pos_iff.1 (by omega)
  have hmk := make_ok (pp.order - 1) (pp.coefs.map der1) pp.breaks pp.fill hbne
  set d : PPform ℝ := ⟨pp.order - 1, pp.coefs.map der1, pp.breaks, pp.fill, some (pp.breaks.head hbne),
    some (pp.breaks.getLast hbne)⟩ with hd
  have hwd : WF d := by
    refine ⟨hs, by simpa [hd] using hl, ?_, by simp [hd]; omega, by simpa [hd] using hpc⟩
    intro p hp
    simp only [hd, List.mem_map] at hp
    obtain ⟨q, hq, rfl⟩ := hp
    rw [der1_length, hcols q hq]
  have hcall := (C67_call_partial _ _ _ _ d hmk hwd id x (by omega) (by simp; omega)).2.2.2 i hi (by simpa using hic)
    h1 h2.le
  refine ⟨d, _, hmk, hcall, ?_⟩
  simp only [id, List.getElem_map]
  have hder := (der1_hasDerivAt pp.coefs[i] (x - pp.breaks[i])).comp_sub_const x pp.breaks[i]
  refine hder.congr_of_eventuallyEq ?_
  filter_upwards [Ioo_mem_nhds h1 h2] with t ht
  have hins : inside pp t = true := by
    apply hin
    · rw [List.head?_eq_getElem?, List.getElem?_eq_getElem (by omega)]
      simp only [Option.some_le_some]
      rcases Nat.eq_zero_or_pos i with rfl | h
      · exact ht.1.le
      · exact ((hp 0 i (by omega) (by omega) h).trans ht.1).le
    · rw [List.getLast?_eq_getElem?, List.getElem?_eq_getElem (by omega)]
      simp only [Option.some_le_some]
      rcases Nat.lt_or_ge (i + 1) (pp.breaks.length - 1) with h | h
      · exact (ht.2.trans (hp (i + 1) _ (by omega) (by omega) h)).le
      · have : i + 1 = pp.breaks.length - 1 := by omega
        simpa [this] using ht.2.le
  have e1 := call_piece id pp t i hins (pieceIndex_eq _ hs t i hi ht.1 ht.2.le) (by omega) hic
    (by intro hnil; have := hcols _ (List.getElem_mem hic); rw [hnil] at this; simp at this; omega)
  rw [hS t hins] at e1
  injection e1 with e1

example : WF (⟨3, [[0, 0, 0], [1, 0, 0], [0, 2, 1]], [-1, 0, 1, 2], 0, none, none⟩ : PPform ℝ) :=
  ⟨by norm_num, rfl, by simp, by simp, by simp⟩

end Wafo.PP

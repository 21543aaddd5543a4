import Verif.Spline.CoreLemmas
import Verif.PP.Props
import Verif.PP.Extrap
import Mathlib.Data.List.GetD

/-! C286-C288: `SmoothSpline` is the cubic smoothing spline. -/

set_option linter.unusedSectionVars false

namespace Wafo.Spline

open Wafo Matrix Finset

theorem estimateP_eq (x v : ℕ → ℝ) (m : ℕ) (hm : 1 ≤ m) (hx : ∀ i, i ≤ m → 0 < dx x i) (hv : ∀ i, i < m + 2 → 0 < v i) :
    estimateP x v m = defaultP (m + 2) x v ∧ 0 < defaultP (m + 2) x v ∧ defaultP (m + 2) x v < 1 := by
  have e1 : ∀ j ∈ range m, QDQ x v m j j = v j / (x (j + 1) - x j) ^ 2 +
      v (j + 1) * (1 / (x (j + 1) - x j) + 1 / (x (j + 2) - x (j + 1))) ^ 2 + v (j + 2) / (x (j + 2) - x (j + 1)) ^ 2 := by
    intro j hj
    have hjm := mem_range.1 hj
    have a := hx j (by omega)
    have b := hx (j + 1) (by omega)
    have : QDQ x v m j j = ∑ k ∈ range (m + 2), Q x k j * (v k * Q x k j) := Finset.sum_congr rfl fun k _ => by ring
    rw [this, sum_Q_col x m (fun k => v k * Q x k j) hjm]
    simp only [Q_eq]
    simp only [if_true, if_false, show ¬ (j + 1 = j) by omega, show ¬ (j + 2 = j) by omega, show ¬ (j = j + 1) by omega,
      show ¬ (j = j + 2) by omega, show ¬ (j + 1 = j + 2) by omega, show ¬ (j + 2 = j + 1) by omega]
    rw [dx1, dx1]
    change _ = v j / dx x j ^ 2 + v (j + 1) * (1 / dx x j + 1 / dx x (j + 1)) ^ 2 + v (j + 2) / dx x (j + 1) ^ 2
    field_simp
    ring
  have e2 : ∀ j ∈ range m, R x j j = 2 * (x (j + 2) - x j) := by
    intro j hj
    rw [R_eq]
    simp [dx]
  have hE : 1 / (1 + (∑ i ∈ Finset.range m, QDQ x v m i i) / (100 * (∑ i ∈ Finset.range m, R x i i) ^ 2)) =
      defaultP (m + 2) x v := by
    rw [Finset.sum_congr rfl e1, Finset.sum_congr rfl e2]; rfl
  have t1 : 0 < ∑ i ∈ Finset.range m, QDQ x v m i i := by
    refine Finset.sum_pos (fun j hj => ?_) ⟨0, mem_range.2 (by omega)⟩
    rw [e1 j hj]
    have hjm := mem_range.1 hj
    have a := hx j (by omega)
    have b := hx (j + 1) (by omega)
    have v1 := hv j (by omega)
    have v2 := hv (j + 1) (by omega)
    have v3 := hv (j + 2) (by omega)
    rw [dx] at a b
    rw [show j + 1 + 1 = j + 2 from rfl] at b
    positivity
  have t2 : 0 < ∑ i ∈ Finset.range m, R x i i := by
    refine Finset.sum_pos (fun j hj => ?_) ⟨0, mem_range.2 (by omega)⟩
    rw [e2 j hj]
    have hjm := mem_range.1 hj
    have a := hx j (by omega)
    have b := hx (j + 1) (by omega)
    rw [dx] at a b
    rw [show j + 1 + 1 = j + 2 from rfl] at b
    linarith
  have q : 0 < (∑ i ∈ Finset.range m, QDQ x v m i i) / (100 * (∑ i ∈ Finset.range m, R x i i) ^ 2) := by positivity
  have r0 : 0 < defaultP (m + 2) x v := by rw [← hE]; positivity
  have r1 : defaultP (m + 2) x v < 1 := by
    rw [← hE, div_lt_one (by linarith)]; linarith
  refine ⟨?_, r0, r1⟩
  rw [estimateP, hE, min_eq_left r1.le, max_eq_right r0.le]

/-- The parameter chosen by default is a proper one: it neither interpolates nor ignores the data. -/
theorem C287_default (n : ℕ) (x v : ℕ → ℝ) (hn : 3 ≤ n) (hx : ∀ i, i + 1 < n → x i < x (i + 1))
    (hv : ∀ i, i < n → 0 < v i) : 0 < defaultP n x v ∧ defaultP n x v < 1 := by
  obtain ⟨m, rfl⟩ : ∃ m, n = m + 2 := ⟨n - 2, by omega⟩
  exact (estimateP_eq x v m (by omega) (fun i hi => sub_pos.2 (hx i (by omega))) hv).2

example : (3 : ℕ) ≤ 3 ∧ (∀ i : ℕ, i + 1 < 3 → (i : ℝ) < ((i + 1 : ℕ) : ℝ)) ∧ ∀ i : ℕ, i < 3 → (0 : ℝ) < i + 1 :=
  ⟨le_rfl, fun i _ => by push_cast; linarith, fun i _ => by positivity⟩

theorem effectiveP_mem (p : Option ℝ) (m : ℕ) (x v : ℕ → ℝ) (hm : 1 ≤ m) (hx : ∀ i, i ≤ m → 0 < dx x i)
    (hv : ∀ i, i < m + 2 → 0 < v i) : 0 ≤ effectiveP p (m + 2) x v ∧ effectiveP p (m + 2) x v ≤ 1 ∧
      chooseP x v m p = effectiveP p (m + 2) x v := by
  obtain ⟨e, a, b⟩ := estimateP_eq x v m hm hx hv
  unfold effectiveP chooseP
  rcases p with _ | p
  · exact ⟨a.le, b.le, e⟩
  · dsimp only
    by_cases h : 0 ≤ p ∧ p ≤ 1
    · rw [if_pos h, if_neg (by rintro (h' | h') <;> linarith [h.1, h.2])]
      exact ⟨h.1, h.2, rfl⟩
    · rw [if_neg h, if_pos]
      · exact ⟨a.le, b.le, e⟩
      · by_contra h'
        push Not at h'
        exact h h'

theorem at_lt {xs : List ℝ} (hx : xs.Pairwise (· < ·)) {i : ℕ} (hi : i + 1 < xs.length) : 0 < dx (at' xs) i := by
  have := List.pairwise_iff_getElem.1 hx i (i + 1) (by omega) hi (by omega)
  rw [dx, at', at', List.getD_eq_getElem _ _ hi, List.getD_eq_getElem _ _ (show i < xs.length by omega)]
  linarith

/-- `_compute_coefs` for sorted points -/
theorem computeCoefs_ok (xs ys vs : List ℝ) (p : Option ℝ) (m : ℕ) (hm : 1 ≤ m) (hn : xs.length = m + 2)
    (hx : xs.Pairwise (· < ·)) (hy : ys.length = xs.length) (hv : vs.length = 1 ∨ vs.length = xs.length)
    (hpos : ∀ i, i < m + 2 → 0 < var' vs i) :
    ∃ u, computeCoefs xs ys p vs = .ok (columns (at' xs) (at' ys) (var' vs) (effectiveP p (m + 2) (at' xs) (var' vs)) m u,
        xs) ∧ ∀ j : Fin m, (QQ (at' xs) (var' vs) (effectiveP p (m + 2) (at' xs) (var' vs)) m *ᵥ u) j =
          ddiff (at' xs) (at' ys) j := by
  have hd : ∀ i, i ≤ m → 0 < dx (at' xs) i := fun i hi => at_lt hx (by omega)
  obtain ⟨p0, p1, pe⟩ := effectiveP_mem p m (at' xs) (var' vs) hm hd hpos
  obtain ⟨u, hu, hq⟩ := computeU_spec (at' ys) m hd hpos p0 p1
  refine ⟨u, ?_, hq⟩
  have hs : spacing xs ys = .ok (xs, ys) := by
    rw [spacing, if_neg]
    rintro ⟨i, h1, h2⟩
    exact absurd h2 (hd i (by omega)).not_gt
  rw [computeCoefs, hs]
  dsimp only
  rw [if_neg (by omega), if_neg, if_neg (by omega), if_neg (by omega), if_neg (by omega)]
  · have e1 : xs.length - 2 = m := by omega
    rw [e1]
    change (match computeU (at' xs) (at' ys) (var' vs) (chooseP (at' xs) (var' vs) m p) m with
      | .error e => Except.error e
      | .ok u => Except.ok (columns (at' xs) (at' ys) (var' vs) (chooseP (at' xs) (var' vs) m p) m u, xs)) = _
    rw [pe, hu]
  · rintro ⟨i, h1, h2⟩
    exact absurd h2 (hd i (by omega)).not_ge

theorem peval4 (d c b a t : ℝ) : Poly.peval [d, c, b, a] t = a + b * t + c * t ^ 2 + d * t ^ 3 := by
  simp [Poly.peval]; ring

theorem peval_der4 (d c b a t : ℝ) : Poly.peval (Poly.der1 [d, c, b, a]) t = b + 2 * c * t + 3 * d * t ^ 2 := by
  simp [Poly.peval, Poly.der1, List.range_succ]; ring

/-- **C286**  For three or more points in increasing order, positive variances (one for all or one each) and any `p`,
`SmoothSpline` returns the smoothing spline of the data: its values between the first and the last point, and with
`lin_extrap` everywhere, are those of a function `S` that is twice continuously differentiable, straight outside the
points and the cheapest of all such functions, `p` weighing the distances from the data against the integrated squared
second derivative.  Without `lin_extrap` the value outside is 0.

Missing: two points, points out of order, several data sets (see `C288_two_points_refuted`, `C288_variance_refuted`). -/
theorem C286_smoothing_partial (xs ys vs : List ℝ) (p : Option ℝ) (lin : Bool) (hn : 3 ≤ xs.length)
    (hx : xs.Pairwise (· < ·)) (hy : ys.length = xs.length) (hv : vs.length = 1 ∨ vs.length = xs.length)
    (hpos : ∀ a ∈ vs, 0 < a) :
    ∃ pp S S1 S2, smoothSpline xs ys p lin vs = .ok pp ∧
      SmoothingSpline (effectiveP p xs.length (at' xs) (var' vs)) xs.length (at' xs) (at' ys) (var' vs) S S1 S2 ∧
      (∀ t, xs[0] ≤ t → t ≤ xs[xs.length - 1] → PP.call id pp t = .ok (S t)) ∧
      (lin = true → ∀ t, PP.call id pp t = .ok (S t)) ∧
      (lin = false → ∀ t, t < xs[0] ∨ xs[xs.length - 1] < t → PP.call id pp t = .ok 0) := by
  obtain ⟨m, hm⟩ : ∃ m, xs.length = m + 2 := ⟨xs.length - 2, by omega⟩
  have hpos' : ∀ i, i < m + 2 → 0 < var' vs i := by
    intro i hi
    rw [var']
    split
    · rw [List.getD_eq_getElem _ _ (by omega)]; exact hpos _ (List.getElem_mem _)
    · rw [List.getD_eq_getElem _ _ (by omega)]; exact hpos _ (List.getElem_mem _)
  obtain ⟨u, hc, hu⟩ := computeCoefs_ok xs ys vs p m (by omega) hm hx hy hv hpos'
  have hd : ∀ i, i ≤ m → 0 < dx (at' xs) i := fun i hi => at_lt hx (by omega)
  obtain ⟨p0, p1, -⟩ := effectiveP_mem p m (at' xs) (var' vs) (by omega) hd hpos'
  set q := effectiveP p (m + 2) (at' xs) (var' vs) with hq
  set C := columns (at' xs) (at' ys) (var' vs) q m u with hC
  have hne : xs ≠ [] := by intro h; rw [h] at hm; simp at hm
  have hCl : C.length = m + 1 := by rw [hC, columns]; simp
  have hCi : ∀ i (h : i < C.length), C[i] = [di (at' xs) q m u i, ci q m u i, bi (at' xs) (at' ys) (var' vs) q m u i,
      ai (at' xs) (at' ys) (var' vs) q m u i] := fun i h => by
    simp only [hC, columns, List.getElem_map, List.getElem_range]
  have hmk := PP.make_ok 4 C xs (0 : ℝ) hne
  set pp0 : PP.PPform ℝ := ⟨4, C, xs, 0, some (xs.head hne), some (xs.getLast hne)⟩ with hpp0
  have hw : PP.WF pp0 := by
    refine ⟨hx, ?_, ?_, ?_, ?_⟩
    · change xs.length = C.length + 1; omega
    · intro l hl
      change l ∈ C at hl
      obtain ⟨i, h, rfl⟩ := List.getElem_of_mem hl
      rw [hCi]; rfl
    · change 1 ≤ 4; omega
    · change C ≠ []
      intro h; rw [h] at hCl; simp at hCl
  have hat : ∀ i (h : i < xs.length), at' xs i = xs[i] := fun i h => List.getD_eq_getElem _ _ h
  have hval : ∀ t, xs[0] ≤ t → t ≤ xs[xs.length - 1] → PP.call id pp0 t = .ok (nat0 (m + 2) (at' xs) (jump (at' xs) m u) q
      (ai (at' xs) (at' ys) (var' vs) q m u 0) (bi (at' xs) (at' ys) (var' vs) q m u 0) t) := by
    intro t l r
    obtain ⟨-, -, cz, cm⟩ := PP.C67_call_partial 4 C xs 0 pp0 hmk hw id t (by omega) (by omega)
    rcases l.eq_or_lt with l | l
    · rw [cz l.symm, hCi, peval4, core_left hd hpos' p0 p1 hu t (by rw [hat 0 (by omega), ← l]), hat 0 (by omega), ← l]
      simp
    · -- the piece that contains `t`
      have : ∃ i, ∃ h : i + 1 < xs.length, xs[i] < t ∧ t ≤ xs[i + 1] := by
        by_contra hno
        push Not at hno
        have : ∀ i (h : i < xs.length), xs[i] < t := by
          intro i
          induction i with
          | zero => intro _; exact l
          | succ i ih => intro h; exact hno i h (ih (by omega))
        exact absurd r (this (xs.length - 1) (by omega)).not_ge
      obtain ⟨i, h, h1, h2⟩ := this
      rw [cm i h (by omega) h1 h2, hCi, peval4, core_piece hd hpos' p0 p1 hu (show i ≤ m by omega) t
        (by rw [hat i (by omega)]; exact h1.le) (by rw [hat (i + 1) h]; exact h2), hat i (by omega)]
      rfl
  have hcore := core hd hpos' p0 p1 hu
  rw [← hm] at hcore hq
  rw [hq] at hcore hval
  have hspl : ∀ lin', smoothSpline xs ys p lin' vs = if lin' then PP.linearExtrapolate id pp0 else .ok pp0 := by
    intro lin'
    rw [smoothSpline, hc]
    simp only [Bind.bind, Except.bind]
    rw [hmk]
  rcases lin with _ | _
  · refine ⟨pp0, _, _, _, hspl false, hcore, ?_, by simp, fun _ t ht => ?_⟩
    · rw [← hm] at hval
      exact hval
    · exact (PP.C67_call_partial 4 C xs 0 pp0 hmk hw id t (by omega) (by omega)).2.1 ht
  · obtain ⟨e, he, hi, hl, hr⟩ := PP.C69_linear_extrapolate_partial 4 C xs 0 pp0 hmk hw (by omega) (by omega) (by omega)
    rw [← hm] at hval
    refine ⟨e, _, _, _, (hspl true).trans he, hcore, fun t a b => (hi t a b).trans (hval t a b), fun _ t => ?_, by simp⟩
    rcases lt_or_ge t xs[0] with h | h
    · have := core_left hd hpos' p0 p1 hu t (by rw [hat 0 (by omega)]; exact h.le)
      rw [hq, ← hm] at this
      rw [hl t h.le, this, hCi, peval4, peval_der4, hat 0 (by omega), hq]
      simp
    · rcases lt_or_ge xs[xs.length - 1] t with h' | h'
      · have := core_right hd hpos' p0 p1 hu t (by
          have h2 := h'.le
          simp only [show xs.length - 1 = m + 1 by omega] at h2
          rw [hat (m + 1) (by omega)]; exact h2)
        have st := ai_step (y := at' ys) (v := var' vs) (p := q) (u := u) hd (le_refl m)
        rw [st, hq, ← hm] at this
        rw [hr t h'.le, this]
        have i1 : C.length - 1 = m := by omega
        have i2 : xs.length - 1 = m + 1 := by omega
        have i3 : xs.length - 2 = m := by omega
        rw [hCi, peval4, peval_der4, hat m (by omega), hat (m + 1) (by omega)]
        simp only [i1, i2, i3, hq]
      · exact (hi t h h').trans (hval t h h')

example : (3 ≤ [(0 : ℝ), 1, 3].length) ∧ [(0 : ℝ), 1, 3].Pairwise (· < ·) ∧ ∀ a ∈ [(1 : ℝ), 2, 1 / 2], 0 < a := by
  refine ⟨by simp, by simp, by simp⟩

/-- **C288 (positive part)**  Points out of order are put in order, the values with them: the result is that for the
reordered points and values, but with the variances as they were. -/
theorem C288_sorted (xs ys vs : List ℝ) (p : Option ℝ) (lin : Bool) (ind : List ℕ) (hy : ys.length = xs.length)
    (hp : ind.Perm (List.range xs.length)) (hs : (ind.map (at' xs)).Pairwise (· < ·)) :
    smoothSpline xs ys p lin vs = smoothSpline (ind.map (at' xs)) (ind.map (at' ys)) p lin vs := by
  have hlen : ind.length = xs.length := by rw [hp.length_eq, List.length_range]
  have hmem : ∀ i ∈ ind, i < xs.length := fun i hi => List.mem_range.1 (hp.mem_iff.1 hi)
  have hs' : ind.Pairwise fun i j => at' xs i < at' xs j := List.pairwise_map.1 hs
  have key : ∀ l : List ℕ, l.Perm (List.range xs.length) → l.Pairwise (fun i j => at' xs i ≤ at' xs j) → l = ind := by
    intro l hl hsl
    have hinj : ∀ i ∈ ind, ∀ j ∈ ind, at' xs i = at' xs j → i = j := by
      intro i hi j hj e
      by_contra hne
      obtain ⟨a, ha, rfl⟩ := List.getElem_of_mem hi
      obtain ⟨b, hb, rfl⟩ := List.getElem_of_mem hj
      have hpw := List.pairwise_iff_getElem.1 hs'
      rcases lt_trichotomy a b with h | h | h
      · exact (hpw a b ha hb h).ne e
      · subst h; exact hne rfl
      · exact (hpw b a hb ha h).ne e.symm
    refine (hl.trans hp.symm).eq_of_pairwise (le := fun i j => at' xs i ≤ at' xs j) ?_ hsl (hs'.imp fun h => h.le)
    intro i j hi hj a b
    exact hinj i ((hl.trans hp.symm).mem_iff.1 hi) j hj (le_antisymm a b)
  have h1 : spacing (ind.map (at' xs)) (ind.map (at' ys)) = .ok (ind.map (at' xs), ind.map (at' ys)) := by
    rw [spacing, if_neg]
    rintro ⟨i, h, h2⟩
    exact absurd h2 (at_lt hs h).not_gt
  have h2 : spacing xs ys = .ok (ind.map (at' xs), ind.map (at' ys)) := by
    rw [spacing]
    split
    · rename_i hc
      have e : ((List.range xs.length).mergeSort fun i j => decide (at' xs i ≤ at' xs j)) = ind := by
        refine key _ (List.mergeSort_perm _ _) ?_
        have := List.pairwise_mergeSort (le := fun i j => decide (at' xs i ≤ at' xs j))
          (fun a b c h1 h2 => by simp only [decide_eq_true_eq] at *; exact h1.trans h2)
          (fun a b => by simp only [Bool.or_eq_true, decide_eq_true_eq]; exact le_total _ _) (List.range xs.length)
        exact this.imp fun h => by simpa using h
      rw [if_neg]
      · change Except.ok (List.map (at' xs) ((List.range xs.length).mergeSort fun i j => _),
          List.map (at' ys) ((List.range xs.length).mergeSort fun i j => _)) = _
        rw [← e]
        congr!
      · rintro ⟨i, hi, h⟩
        have := (List.mergeSort_perm _ _).mem_iff.1 hi
        rw [List.mem_range] at this
        omega
    · rename_i hc
      push Not at hc
      have hr : List.range xs.length = ind := by
        refine key _ (List.Perm.refl _) ?_
        have hmono : ∀ j, j < xs.length → ∀ i, i ≤ j → at' xs i ≤ at' xs j := by
          intro j
          induction j with
          | zero => intro _ i hi; rw [Nat.le_zero.1 hi]
          | succ j ih =>
            intro hj i hi
            rcases Nat.lt_or_ge i (j + 1) with h | h
            · have := ih (by omega) i (by omega)
              have h2 : 0 ≤ at' xs (j + 1) - at' xs j := hc j hj
              linarith
            · rw [le_antisymm hi h]
        rw [List.pairwise_iff_getElem]
        intro i j hi hj hij
        simp only [List.length_range] at hi hj
        simp only [List.getElem_range]
        exact hmono j hj i hij.le
      have hx : (List.range xs.length).map (at' xs) = xs := by
        refine List.ext_getElem (by simp) fun i h1 h2 => ?_
        simp only [List.getElem_map, List.getElem_range]
        exact List.getD_eq_getElem _ _ h2
      have hyy : (List.range xs.length).map (at' ys) = ys := by
        refine List.ext_getElem (by simp [hy]) fun i h1 h2 => ?_
        simp only [List.getElem_map, List.getElem_range]
        exact List.getD_eq_getElem _ _ h2
      rw [← hr, hx, hyy]
  unfold smoothSpline computeCoefs
  rw [h1, h2]

example : [1, 0, 2].Perm (List.range [(1 : ℝ), 0, 2].length) ∧ ([1, 0, 2].map (at' [(1 : ℝ), 0, 2])).Pairwise (· < ·) := by
  refine ⟨by decide, ?_⟩
  simp [at']

/-- **C288 refuted** (two points)  The line through two points is never returned: with one data set the call always
raises IndexError. -/
theorem C288_two_points_refuted (x0 x1 y0 y1 : ℝ) (h : x0 < x1) (p : Option ℝ) (lin : Bool) (vs : List ℝ) :
    smoothSpline [x0, x1] [y0, y1] p lin vs = .error .indexError := by
  have hs : spacing [x0, x1] [y0, y1] = .ok ([x0, x1], [y0, y1]) := by
    rw [spacing, if_neg]
    rintro ⟨i, h1, h2⟩
    obtain rfl : i = 0 := by simp at h1; exact h1
    simp [dx] at h2
    linarith
  have : computeCoefs [x0, x1] [y0, y1] p vs = .error .indexError := by
    rw [computeCoefs, hs]
    dsimp only
    rw [if_neg (by simp), if_neg, if_neg (by simp), if_pos (by simp)]
    rintro ⟨i, h1, h2⟩
    obtain rfl : i = 0 := by simp at h1; exact h1
    simp [dx] at h2
    linarith
  rw [smoothSpline, this]
  rfl

/-- For `p = 0` and any variances the value at the first of the points 0, 1, 2 with values 0, 0, 1. -/
theorem line_value (a b c : ℝ) (ha : 0 < a) (hb : 0 < b) (hc : 0 < c) (lin : Bool) :
    ∃ pp, smoothSpline [0, 1, 2] [0, 0, 1] (some 0) lin [a, b, c] = .ok pp ∧
      PP.call id pp 0 = .ok (-(a / (a + 4 * b + c))) := by
  obtain ⟨pp, S, S1, S2, h, hS, hin, -, -⟩ := C286_smoothing_partial [0, 1, 2] [0, 0, 1] [a, b, c] (some 0) lin (by simp)
    (by simp) rfl (Or.inr rfl) (by simp [ha, hb, hc])
  refine ⟨pp, h, ?_⟩
  rw [hin 0 (by simp) (by simp)]
  have he : effectiveP (some 0) [(0 : ℝ), 1, 2].length (at' [0, 1, 2]) (var' [a, b, c]) = 0 := by
    simp [effectiveP]
  rw [he] at hS
  obtain ⟨⟨A, B, hAB⟩, hl⟩ := hS.line rfl
  set k := a + 4 * b + c with hk
  have hk0 : 0 < k := by positivity
  have mis : ∀ f : ℝ → ℝ, misfit [(0 : ℝ), 1, 2].length (at' [0, 1, 2]) (at' [0, 0, 1]) (var' [a, b, c]) f =
      f 0 ^ 2 / a + f 1 ^ 2 / b + (1 - f 2) ^ 2 / c := fun f => by
    simp [misfit, at', var', Finset.sum_range_succ]
  have := (hl (-(a / k)) ((a + 2 * b) / k)).2 (by
    rw [mis, mis, hAB, hAB, hAB]
    have e1 : 1 - (-(a / k) + (a + 2 * b) / k * 2) = c / k := by rw [hk]; field_simp; ring
    have e2 : -(a / k) + (a + 2 * b) / k * 1 = 2 * b / k := by ring
    have e3 : -(a / k) + (a + 2 * b) / k * 0 = - (a / k) := by ring
    rw [e1, e2, e3]
    have id : (A + B * 0) ^ 2 / a + (A + B * 1) ^ 2 / b + (1 - (A + B * 2)) ^ 2 / c =
        (-(a / k)) ^ 2 / a + (2 * b / k) ^ 2 / b + (c / k) ^ 2 / c +
        ((A + a / k) ^ 2 / a + (A + B - 2 * b / k) ^ 2 / b + (1 - (A + B * 2) - c / k) ^ 2 / c) := by
      rw [hk]; field_simp; ring
    rw [id]
    have : 0 ≤ (A + a / k) ^ 2 / a + (A + B - 2 * b / k) ^ 2 / b + (1 - (A + B * 2) - c / k) ^ 2 / c := by positivity
    linarith) 0
  rw [this]; simp

/-- **C288 refuted** (variances)  When the points are out of order they are sorted with their values, but the variances
are not: for the points 1, 0, 2 with values 0, 0, 1 and variances 1, 2, 1 the straight line (`p = 0`) has the value -1/10
at 0; for the same data given in order (variances 2, 1, 1) it has the value -2/7. -/
theorem C288_variance_refuted (lin : Bool) : ∃ pp pp',
    smoothSpline [1, 0, 2] [0, 0, 1] (some 0) lin [1, 2, 1] = .ok pp ∧
    smoothSpline [0, 1, 2] [0, 0, 1] (some 0) lin [2, 1, 1] = .ok pp' ∧
    PP.call id pp 0 = .ok (-(1 / 10)) ∧ PP.call id pp' 0 = .ok (-(2 / 7)) := by
  obtain ⟨pp, h, c⟩ := line_value 1 2 1 (by norm_num) (by norm_num) (by norm_num) lin
  obtain ⟨pp', h', c'⟩ := line_value 2 1 1 (by norm_num) (by norm_num) (by norm_num) lin
  refine ⟨pp, pp', ?_, h', ?_, ?_⟩
  · rw [C288_sorted [1, 0, 2] [0, 0, 1] [1, 2, 1] (some 0) lin [1, 0, 2] rfl (by decide) (by simp [at'])]
    rw [← h]
    simp [at']
  · rw [c]; norm_num
  · rw [c']; norm_num

end Wafo.Spline

import Mathlib.Algebra.Order.Field.Basic
import Verif.SpecD.Resample
import Verif.Cov.SpecProps
import Verif.Stine.Props

/-! Properties of `resample` and `tocov_matrix` in spectrum/core.py. -/

set_option linter.unusedSectionVars false

namespace Wafo.SpecD
open Cov Finset

noncomputable section

/-! ### Specification -/

/-- A spectrum with at least two frequencies, which are increasing and not negative. -/
structure Ordered (s : Spec) : Prop where
  incr : s.args.Pairwise (· < ·)
  nonneg : ∀ w ∈ s.args, 0 ≤ w
  two : 2 ≤ s.args.length
  data : s.data.length = s.args.length

/-- What is assumed of the routines: interpolation succeeds within the range of the points and has the given values at the points, and
`discretize` returns at least two points. -/
structure Sound (T : Tools) : Prop where
  defined : ∀ (x y : List ℝ) (u : ℝ), x.Pairwise (· < ·) → y.length = x.length → 2 ≤ x.length → x.headD 0 ≤ u → u ≤ lastOf x →
    ∃ v, T.interp x y u = .ok v
  knots : ∀ (x y : List ℝ) (i : ℕ) (a b : ℝ), x.Pairwise (· < ·) → y.length = x.length → 2 ≤ x.length → x[i]? = some a → y[i]? = some b →
    T.interp x y a = .ok b
  disc : ∀ x y b, 2 ≤ (T.disc x y b).length

/-- The points of `discretize` are at least `c` apart. -/
def Coarse (T : Tools) (c : ℝ) : Prop := ∀ x y b, ∀ d ∈ diffs (T.disc x y b), c ≤ d

/-! ### Lemmas -/

theorem lastOf_concat (l : List ℝ) (z : ℝ) : lastOf (l ++ [z]) = z := by simp [lastOf]

theorem le_lastOf {w : List ℝ} (hw : w.Pairwise (· < ·)) {a : ℝ} (ha : a ∈ w) : a ≤ lastOf w := by
  rcases List.eq_nil_or_concat w with rfl | ⟨l, z, rfl⟩
  · exact absurd ha (by simp)
  · rw [List.concat_eq_append] at *
    rw [lastOf_concat]
    rw [List.pairwise_append] at hw
    rcases List.mem_append.1 ha with h | h
    · exact (hw.2.2 a h z (by simp)).le
    · rw [List.mem_singleton.1 h]

theorem lastOf_mem {w : List ℝ} (h : w ≠ []) : lastOf w ∈ w := by
  rcases List.eq_nil_or_concat w with rfl | ⟨l, z, rfl⟩
  · exact absurd rfl h
  · rw [List.concat_eq_append, lastOf_concat]; simp

theorem lastOf_cons (a : ℝ) {w : List ℝ} (h : w ≠ []) : lastOf (a :: w) = lastOf w := by
  rcases List.eq_nil_or_concat w with rfl | ⟨l, z, rfl⟩
  · exact absurd rfl h
  · rw [List.concat_eq_append, ← List.cons_append, lastOf_concat, lastOf_concat]

theorem diffs_cons (a b : ℝ) (l : List ℝ) : diffs (a :: b :: l) = (b - a) :: diffs (b :: l) := rfl

theorem diffs_pos : ∀ (w : List ℝ), w.Pairwise (· < ·) → ∀ d ∈ diffs w, 0 < d
  | [], _, d, hd => by simp [diffs] at hd
  | [a], _, d, hd => by simp [diffs] at hd
  | a :: b :: l, hw, d, hd => by
    rw [diffs_cons] at hd
    rcases List.mem_cons.1 hd with h | h
    · rw [h]
      have := (List.pairwise_cons.1 hw).1 b (by simp)
      linarith
    · exact diffs_pos (b :: l) (List.pairwise_cons.1 hw).2 d h

theorem foldr_min_ge (c : ℝ) : ∀ (l : List ℝ) (d : ℝ), c ≤ d → (∀ x ∈ l, c ≤ x) → c ≤ l.foldr min d
  | [], d, h, _ => h
  | a :: l, d, h, hl => le_min (hl a (by simp)) (foldr_min_ge c l d h fun x hx => hl x (by simp [hx]))

theorem foldr_min_mem : ∀ (l : List ℝ) (d : ℝ), l.foldr min d ∈ d :: l
  | [], d => by simp
  | a :: l, d => by
    have ih := foldr_min_mem l d
    rw [List.foldr_cons]
    rcases min_choice a (l.foldr min d) with h | h <;> rw [h]
    · simp
    · rcases List.mem_cons.1 ih with h | h
      · rw [h]; simp
      · exact List.mem_cons_of_mem _ (List.mem_cons_of_mem _ h)

theorem minDiff_ok {w : List ℝ} (h : 2 ≤ w.length) : ∃ d, minDiff (diffs w) = .ok d ∧ d ∈ diffs w ∧ ∀ c, (∀ x ∈ diffs w, c ≤ x) → c ≤ d := by
  match w, h with
  | a :: b :: l, _ =>
    rw [diffs_cons]
    exact ⟨_, rfl, foldr_min_mem _ _, fun c hc => foldr_min_ge c _ _ (hc _ (by simp)) fun x hx => hc x (by simp [hx])⟩

theorem mapOk_ok (f : ℝ → Except PyErr ℝ) : ∀ l : List ℝ, (∀ x ∈ l, ∃ v, f x = .ok v) →
    ∃ vs, mapOk f l = .ok vs ∧ vs.length = l.length ∧ ∀ (i : ℕ) (x : ℝ), l[i]? = some x → ∃ v, vs[i]? = some v ∧ f x = .ok v
  | [], _ => ⟨[], rfl, rfl, by simp⟩
  | x :: l, h => by
    obtain ⟨v, hv⟩ := h x (by simp)
    obtain ⟨vs, h1, h2, h3⟩ := mapOk_ok f l fun y hy => h y (by simp [hy])
    refine ⟨v :: vs, by simp only [mapOk, hv, h1], by simp [h2], fun i y hy => ?_⟩
    cases i with
    | zero =>
      simp only [List.getElem?_cons_zero, Option.some.injEq] at hy ⊢
      exact ⟨v, rfl, hy ▸ hv⟩
    | succ i =>
      simp only [List.getElem?_cons_succ] at hy ⊢
      exact h3 i y hy

/-- Points for the interpolation that contain those of `w` and `s`. -/
structure Extends (w s w' s' : List ℝ) : Prop where
  incr : w'.Pairwise (· < ·)
  len : s'.length = w'.length
  le : w.length ≤ w'.length
  keep : ∀ (i : ℕ) (a b : ℝ), w[i]? = some a → s[i]? = some b → ∃ k : ℕ, w'[k]? = some a ∧ s'[k]? = some b

theorem padUp_spec (w s : List ℝ) (wn dw : ℝ) (hw : w.Pairwise (· < ·)) (hs : s.length = w.length) (hne : w ≠ []) (hdw : 0 < dw) :
    Extends w s (padUp w s wn dw).1 (padUp w s wn dw).2 ∧ (padUp w s wn dw).1.headD 0 = w.headD 0 ∧ wn ≤ lastOf (padUp w s wn dw).1 := by
  have hhead : ∀ l, (w ++ l).headD 0 = w.headD 0 := by
    intro l
    cases w with
    | nil => exact absurd rfl hne
    | cons a t => rfl
  unfold padUp
  by_cases h : 0 < wn - lastOf w
  · rw [if_pos h]
    by_cases h2 : dw < wn - lastOf w
    · rw [if_pos h2]
      refine ⟨⟨?_, by simp [hs], by simp, fun i a b ha hb => ⟨i, ?_, ?_⟩⟩, hhead _, ?_⟩
      · rw [List.pairwise_append]
        refine ⟨hw, by simp; linarith, fun a ha b hb => ?_⟩
        have := le_lastOf hw ha
        simp only [List.mem_cons, List.not_mem_nil, or_false] at hb
        rcases hb with rfl | rfl <;> linarith
      · obtain ⟨hi, _⟩ := List.getElem?_eq_some_iff.1 ha
        simp only []
        rw [List.getElem?_append_left hi, ha]
      · obtain ⟨hi, _⟩ := List.getElem?_eq_some_iff.1 hb
        simp only []
        rw [List.getElem?_append_left hi, hb]
      · simp only []
        rw [show w ++ [lastOf w + dw, wn] = (w ++ [lastOf w + dw]) ++ [wn] by simp, lastOf_concat]
    · rw [if_neg h2]
      refine ⟨⟨?_, by simp [hs], by simp, fun i a b ha hb => ⟨i, ?_, ?_⟩⟩, hhead _, ?_⟩
      · rw [List.pairwise_append]
        refine ⟨hw, by simp, fun a ha b hb => ?_⟩
        have := le_lastOf hw ha
        rw [List.mem_singleton.1 hb]
        linarith
      · obtain ⟨hi, _⟩ := List.getElem?_eq_some_iff.1 ha
        simp only []
        rw [List.getElem?_append_left hi, ha]
      · obtain ⟨hi, _⟩ := List.getElem?_eq_some_iff.1 hb
        simp only []
        rw [List.getElem?_append_left hi, hb]
      · simp only []
        rw [lastOf_concat]
  · rw [if_neg h]
    exact ⟨⟨hw, hs, le_rfl, fun i a b ha hb => ⟨i, ha, hb⟩⟩, rfl, by simp only []; linarith⟩

theorem padDown_spec (w s : List ℝ) (dw : ℝ) (hw : w.Pairwise (· < ·)) (hs : s.length = w.length) (hne : w ≠ []) (hdw : 0 < dw) :
    Extends w s (padDown w s dw).1 (padDown w s dw).2 ∧ (padDown w s dw).1.headD 0 ≤ 0 ∧ lastOf (padDown w s dw).1 = lastOf w := by
  have hhead : ∀ a ∈ w, w.headD 0 ≤ a := by
    intro a ha
    cases w with
    | nil => exact absurd rfl hne
    | cons b t =>
      rcases List.mem_cons.1 ha with h | h
      · rw [h]; rfl
      · exact ((List.pairwise_cons.1 hw).1 a h).le
  unfold padDown
  by_cases h : 0 < w.headD 0
  · rw [if_pos h]
    by_cases h2 : dw < w.headD 0
    · rw [if_pos h2]
      refine ⟨⟨?_, by simp [hs], by simp only [List.length_cons]; omega, fun i a b ha hb => ⟨i + 2, ha, hb⟩⟩, le_rfl, ?_⟩
      · simp only [List.pairwise_cons]
        refine ⟨fun a ha => ?_, fun a ha => ?_, hw⟩
        · rcases List.mem_cons.1 ha with h | h
          · rw [h]; linarith
          · have := hhead a h; linarith
        · have := hhead a ha; linarith
      · simp only []
        rw [lastOf_cons _ (by simp), lastOf_cons _ hne]
    · rw [if_neg h2]
      refine ⟨⟨?_, by simp [hs], by simp, fun i a b ha hb => ⟨i + 1, ha, hb⟩⟩, le_rfl, ?_⟩
      · simp only [List.pairwise_cons]
        exact ⟨fun a ha => by have := hhead a ha; linarith, hw⟩
      · simp only []
        rw [lastOf_cons _ hne]
  · rw [if_neg h]
    exact ⟨⟨hw, hs, le_rfl, fun i a b ha hb => ⟨i, ha, hb⟩⟩, by simp only []; linarith, rfl⟩

theorem pow2_exp (n : ℕ) : pow2 n = 2 ^ expOf n := rfl

theorem linspace0_mem {b : ℝ} (hb : 0 ≤ b) {n : ℕ} {x : ℝ} (hx : x ∈ linspace0 b n) : 0 ≤ x ∧ x ≤ b := by
  unfold linspace0 at hx
  simp only [List.mem_map, List.mem_range] at hx
  obtain ⟨k, hk, rfl⟩ := hx
  rcases Nat.lt_or_ge n 2 with h | h
  · have : k = 0 := by omega
    rw [this]; simpa using hb
  · have h1 : (0 : ℝ) < (n - 1 : ℕ) := by exact_mod_cast (by omega : 0 < n - 1)
    have h2 : (k : ℝ) ≤ (n - 1 : ℕ) := by exact_mod_cast (by omega : k ≤ n - 1)
    refine ⟨by positivity, ?_⟩
    rw [mul_div_assoc', div_le_iff₀ h1, mul_comm]
    exact mul_le_mul_of_nonneg_left h2 hb

theorem regrid_spec (T : Tools) (hT : Sound T) (s : Spec) (hs : Ordered s) (h4 : 4 ≤ s.args.length) (wn : ℝ) (hwn : 0 < wn) (k : ℕ) :
    ∃ (m : ℕ) (v : List ℝ), regrid T s wn k = .ok { s with args := linspace0 wn (2 ^ m + 1), data := v.map (max 0) } ∧ k ≤ m ∧ v.length = 2 ^ m + 1 ∧
      (∀ (i j : ℕ) (a b : ℝ), s.args[i]? = some a → s.data[i]? = some b → (linspace0 wn (2 ^ m + 1))[j]? = some a → v[j]? = some b) ∧
      (Coarse T (wn / 2 ^ k) → m = k) := by
  have hne : s.args ≠ [] := by intro h; rw [h] at h4; simp at h4
  obtain ⟨dw, hd, hdm, _⟩ := minDiff_ok hs.two
  have hdw := diffs_pos _ hs.incr dw hdm
  obtain ⟨e1, hh1, hl1⟩ := padUp_spec s.args s.data wn dw hs.incr hs.data hne hdw
  have hne1 : (padUp s.args s.data wn dw).1 ≠ [] := by
    intro h
    have := e1.le
    rw [h, List.length_nil] at this
    omega
  obtain ⟨e2, hh2, hl2⟩ := padDown_spec _ _ dw e1.incr e1.len hne1 hdw
  set p := padDown (padUp s.args s.data wn dw).1 (padUp s.args s.data wn dw).2 dw with hp
  have hlen := le_trans e1.le e2.le
  obtain ⟨dm, hdm1, hdm2, hdm3⟩ := minDiff_ok (hT.disc p.1 p.2 wn)
  obtain ⟨m, hm, hkm, hmc⟩ : ∃ m, max (2 ^ k + 1) (pow2 ⌈wn / dm⌉₊ + 1) = 2 ^ m + 1 ∧ k ≤ m ∧ (Coarse T (wn / 2 ^ k) → m = k) := by
    rw [pow2_exp]
    refine ⟨max k (expOf ⌈wn / dm⌉₊), ?_, le_max_left _ _, fun hc => ?_⟩
    · rcases le_total k (expOf ⌈wn / dm⌉₊) with h | h
      · rw [max_eq_right h, max_eq_right (by have := Nat.pow_le_pow_right (n := 2) (by norm_num) h; omega)]
      · rw [max_eq_left h, max_eq_left (by have := Nat.pow_le_pow_right (n := 2) (by norm_num) h; omega)]
    · apply max_eq_left
      have h1 := hdm3 _ (hc p.1 p.2 wn)
      have h2 : (0 : ℝ) < wn / 2 ^ k := by positivity
      have h3 : wn / dm ≤ 2 ^ k := by
        rw [div_le_iff₀ (lt_of_lt_of_le h2 h1)]
        rw [div_le_iff₀ (by positivity)] at h1
        linarith
      have h4 : ⌈wn / dm⌉₊ ≤ 2 ^ k := Nat.ceil_le.2 (by exact_mod_cast h3)
      have h5 : 0 < ⌈wn / dm⌉₊ := Nat.ceil_pos.2 (div_pos hwn (lt_of_lt_of_le h2 h1))
      have h6 := pow2_le _ k h5 h4
      rw [pow2_exp] at h6
      exact (Nat.pow_le_pow_iff_right (by norm_num)).1 h6
  obtain ⟨v, hv1, hv2, hv3⟩ := mapOk_ok (T.interp p.1 p.2) (linspace0 wn (2 ^ m + 1)) fun x hx => by
    have := linspace0_mem hwn.le hx
    exact hT.defined _ _ _ e2.incr e2.len (by omega) (by linarith) (by rw [hl2]; linarith)
  refine ⟨m, v, ?_, hkm, by rw [hv2]; simp [linspace0], fun i j a b ha hb hj => ?_, hmc⟩
  · unfold regrid
    rw [hd]
    simp only []
    rw [← hp, if_neg (by omega), hdm1]
    simp only []
    rw [hm, hv1]
  · obtain ⟨k1, h1, h2⟩ := e1.keep i a b ha hb
    obtain ⟨k2, h3, h4⟩ := e2.keep k1 a b h1 h2
    obtain ⟨u, h5, h6⟩ := hv3 j a hj
    rw [hT.knots _ _ k2 a b e2.incr e2.len (by omega) h3 h4] at h6
    rw [h5, Except.ok.inj h6]

theorem Ordered.last_pos {s : Spec} (hs : Ordered s) : 0 < lastOf s.args := by
  have h2 := hs.two
  match h : s.args, h2 with
  | a :: b :: l, _ =>
    have h1 := hs.nonneg a (by rw [h]; simp)
    have hi := hs.incr
    rw [h] at hi
    have h3 := (List.pairwise_cons.1 hi).1 b (by simp)
    have h4 := le_lastOf hi (a := b) (by simp)
    linarith

theorem Ordered.second {s : Spec} (hs : Ordered s) : ∃ w1, s.args[1]? = some w1 ∧ 0 < w1 := by
  have h2 := hs.two
  match h : s.args, h2 with
  | a :: b :: l, _ =>
    have h1 := hs.nonneg a (by rw [h]; simp)
    have hi := hs.incr
    rw [h] at hi
    have h3 := (List.pairwise_cons.1 hi).1 b (by simp)
    exact ⟨b, rfl, by linarith⟩

theorem wmdt_pos (t : FreqType) : 0 < wmdt t := by
  cases t <;> simp only [wmdt] <;> positivity

theorem resample_eq (T : Tools) (s : Spec) (hs : Ordered s) (dt : Option ℝ) (Nmin Nmax : ℕ) :
    resample T s dt Nmin Nmax = regrid T s (wmdt s.ftype / dt.getD (samplingPeriod s))
      (grow (samplingPeriod s) (dt.getD (samplingPeriod s)) (s.args.length - 1) Nmax (expOf (max (s.args.length - 1) (Nmin - 1)))) := by
  obtain ⟨w1, h1, h2⟩ := hs.second
  have := hs.two
  unfold resample
  simp only []
  rw [if_neg (by omega), h1]
  simp only []
  rw [if_pos (Or.inl h2), ite_self]
  rfl

theorem le_grow (dTold dt : ℝ) (n1 Nmax k : ℕ) : k ≤ grow dTold dt n1 Nmax k := by
  induction k using grow.induct (dTold := dTold) (dt := dt) (n1 := n1) (Nmax := Nmax) with
  | case1 k h ih => rw [grow, if_pos h]; omega
  | case2 k h => rw [grow, if_neg h]

theorem grow_stop (dTold dt : ℝ) (n1 Nmax k : ℕ) :
    dTold * n1 / 2 ^ grow dTold dt n1 Nmax k ≤ dt ∨ Nmax - 1 ≤ 2 ^ grow dTold dt n1 Nmax k := by
  induction k using grow.induct (dTold := dTold) (dt := dt) (n1 := n1) (Nmax := Nmax) with
  | case1 k h ih => rw [grow, if_pos h]; exact ih
  | case2 k h =>
    rw [grow, if_neg h]
    by_contra hc
    rw [not_or] at hc
    exact h ⟨by linarith [not_le.1 hc.1], by omega⟩

theorem le_two_exp (n : ℕ) : n ≤ 2 ^ expOf n := by
  rcases Nat.eq_zero_or_pos n with h | h
  · rw [h]; positivity
  · exact le_pow2 n h

/-! ### Properties -/

/-- After `resample` the frequencies are equidistant, start at zero and end at the Nyquist frequency of the wanted sampling interval; their
number is a power of two plus one, at least the old number and at least `Nmin`.  The densities are not negative, and at old frequencies they
are the old ones. -/
theorem C195_grid (T : Tools) (hT : Sound T) (s : Spec) (hs : Ordered s) (h4 : 4 ≤ s.args.length) (dt : Option ℝ) (Nmin Nmax : ℕ)
    (d : ℝ) (hd : d = dt.getD (samplingPeriod s)) (hpos : 0 < d) :
    ∃ out m, resample T s dt Nmin Nmax = .ok out ∧ OnGrid out (2 ^ m + 1) (wmdt s.ftype / d / 2 ^ m) ∧ samplingPeriod out = d ∧
      out.ftype = s.ftype ∧ s.args.length ≤ 2 ^ m + 1 ∧ Nmin ≤ 2 ^ m + 1 ∧ (∀ v ∈ out.data, 0 ≤ v) ∧
      ∀ (i j : ℕ) (w v : ℝ), s.args[i]? = some w → s.data[i]? = some v → 0 ≤ v → out.args[j]? = some w → out.data[j]? = some v := by
  have hw := wmdt_pos s.ftype
  rw [resample_eq T s hs, ← hd]
  set k := grow (samplingPeriod s) d (s.args.length - 1) Nmax (expOf (max (s.args.length - 1) (Nmin - 1)))
  obtain ⟨m, v, h1, h2, h3, h5, _⟩ := regrid_spec T hT s hs h4 (wmdt s.ftype / d) (by positivity) k
  have h6 : max (s.args.length - 1) (Nmin - 1) ≤ 2 ^ m :=
    le_trans (le_two_exp _) (Nat.pow_le_pow_right (by norm_num) (le_trans (le_grow _ _ _ _ _) h2))
  have h7 := le_max_left (s.args.length - 1) (Nmin - 1)
  have h8 := le_max_right (s.args.length - 1) (Nmin - 1)
  have hp : 0 < 2 ^ m := by positivity
  have hargs : linspace0 (wmdt s.ftype / d) (2 ^ m + 1) = (List.range (2 ^ m + 1)).map fun j : ℕ => (j : ℝ) * (wmdt s.ftype / d / 2 ^ m) := by
    unfold linspace0
    simp
  refine ⟨_, m, h1, ⟨by omega, by positivity, hargs, by simp [h3]⟩, ?_, rfl, by omega, by omega, ?_, ?_⟩
  · unfold samplingPeriod
    simp only []
    rw [hargs, List.range_succ, List.map_append, List.map_singleton, lastOf_concat]
    push_cast
    field_simp
  · intro x hx
    simp only [List.mem_map] at hx
    obtain ⟨y, _, rfl⟩ := hx
    exact le_max_left _ _
  · intro i j w x hi hx h0 hj
    simp only []
    rw [List.getElem?_map, h5 i j w x hi hx hj, Option.map_some, max_eq_right h0]

/-- The new grid is at least as fine as the old one was on average, counted from the frequency zero, unless `Nmax` is reached. -/
theorem C195_dense_partial (T : Tools) (hT : Sound T) (s : Spec) (hs : Ordered s) (h4 : 4 ≤ s.args.length) (dt : Option ℝ) (Nmin Nmax : ℕ)
    (d : ℝ) (hd : d = dt.getD (samplingPeriod s)) (hpos : 0 < d) :
    ∃ out m h, resample T s dt Nmin Nmax = .ok out ∧ OnGrid out (2 ^ m + 1) h ∧
      (h ≤ lastOf s.args / (s.args.length - 1 : ℕ) ∨ Nmax ≤ 2 ^ m + 1) := by
  have hw := wmdt_pos s.ftype
  have hl := hs.last_pos
  obtain ⟨out, m', ho, hgrid, _⟩ := C195_grid T hT s hs h4 dt Nmin Nmax d hd hpos
  refine ⟨out, m', _, ho, hgrid, ?_⟩
  rw [resample_eq T s hs, ← hd] at ho
  set k := grow (samplingPeriod s) d (s.args.length - 1) Nmax (expOf (max (s.args.length - 1) (Nmin - 1))) with hk
  obtain ⟨m, v, h1, h2, h3, _⟩ := regrid_spec T hT s hs h4 (wmdt s.ftype / d) (by positivity) k
  have he := Except.ok.inj (h1.symm.trans ho)
  have hmm : 2 ^ m + 1 = 2 ^ m' + 1 := by
    have h5 := congrArg (fun s : Spec => s.args.length) he
    simp only [hgrid.args, linspace0, List.length_map, List.length_range] at h5
    exact h5
  have h2k : 2 ^ k ≤ 2 ^ m' := by
    have := Nat.pow_le_pow_right (n := 2) (by norm_num) h2
    omega
  rcases grow_stop (samplingPeriod s) d (s.args.length - 1) Nmax (expOf (max (s.args.length - 1) (Nmin - 1))) with h | h
  · left
    rw [← hk] at h
    have hn : (0 : ℝ) < (s.args.length - 1 : ℕ) := by exact_mod_cast (by omega : 0 < s.args.length - 1)
    have h2r : (2 : ℝ) ^ k ≤ 2 ^ m' := by exact_mod_cast h2k
    have hpk : (0 : ℝ) < 2 ^ k := by positivity
    rw [div_le_iff₀ hpk, samplingPeriod, div_mul_eq_mul_div, div_le_iff₀ hl] at h
    rw [div_div, div_le_div_iff₀ (by positivity) hn]
    calc wmdt s.ftype * ((s.args.length - 1 : ℕ) : ℝ) ≤ d * 2 ^ k * lastOf s.args := h
      _ ≤ d * 2 ^ m' * lastOf s.args := by gcongr
      _ = lastOf s.args * (d * 2 ^ m') := by ring
  · right
    rw [← hk] at h
    omega

/-- The interpolation with Stineman's method, with the slopes of `slopes`, and two points in place of `discretize`. -/
def stineTools : Tools where
  interp := fun x y u => match Stine.interpDefault 0 0 id x y .stineman false false u with
    | .ok (some v) => .ok v
    | .ok none => .error .valueError
    | .error e => .error e
  disc := fun _ _ b => [0, b]

theorem stine_sound : Sound stineTools where
  defined := by
    intro x y u hx hy h2 _ _
    have h := Slopes.slopes0_ok 0 0 id x y .stineman 0 false hx hy h2 (by simp)
    rw [if_neg Bool.false_ne_true] at h
    obtain ⟨v, hv⟩ := (Stine.C72_stineman x y ((List.range x.length).map (Slopes.rawSlopes 0 0 0 x.length (fun k => x.getD k 0)
      (fun k => y.getD k 0) (Slopes.width x) (Slopes.sec x y) .stineman)) hx hy (by simp) h2).1 u
    refine ⟨v, ?_⟩
    simp only [stineTools, Stine.interpDefault, Slopes.slopes, Bool.false_eq_true, if_false, h, hv]
  knots := by
    intro x y i a b hx hy h2 ha hb
    have h := Slopes.slopes0_ok 0 0 id x y .stineman 0 false hx hy h2 (by simp)
    rw [if_neg Bool.false_ne_true] at h
    obtain ⟨hi, rfl⟩ := List.getElem?_eq_some_iff.1 ha
    obtain ⟨hi', rfl⟩ := List.getElem?_eq_some_iff.1 hb
    have hv := (Stine.C72_stineman x y ((List.range x.length).map (Slopes.rawSlopes 0 0 0 x.length (fun k => x.getD k 0)
      (fun k => y.getD k 0) (Slopes.width x) (Slopes.sec x y) .stineman)) hx hy (by simp) h2).2.1 i hi
    simp only [stineTools, Stine.interpDefault, Slopes.slopes, Bool.false_eq_true, if_false, h, hv]
  disc := fun _ _ _ => le_rfl

example : Sound stineTools ∧ Ordered { args := [0, 1, 2, 4, 5], data := [0, 1, 2, 1, 0], ftype := .w } := by
  refine ⟨stine_sound, ⟨?_, ?_, ?_, rfl⟩⟩
  · norm_num
  · intro w hw
    simp only [List.mem_cons, List.not_mem_nil, or_false] at hw
    rcases hw with rfl | rfl | rfl | rfl | rfl <;> norm_num
  · norm_num

theorem _root_.Wafo.Cov.OnGrid.ordered {s : Spec} {n : ℕ} {h : ℝ} (g : OnGrid s n h) : Ordered s where
  incr := by
    rw [g.args, List.pairwise_map]
    refine (List.pairwise_lt_range (n := n)).imp fun {a b} hab => ?_
    have : (a : ℝ) < b := by exact_mod_cast hab
    exact mul_lt_mul_of_pos_right this g.pos
  nonneg := by
    intro w hw
    rw [g.args] at hw
    simp only [List.mem_map] at hw
    obtain ⟨k, _, rfl⟩ := hw
    have := g.pos
    positivity
  two := by rw [g.args]; simpa using g.two
  data := by rw [g.args, g.data]; simp

theorem _root_.Wafo.Cov.OnGrid.len {s : Spec} {n : ℕ} {h : ℝ} (g : OnGrid s n h) : s.args.length = n := by rw [g.args]; simp

/-- A spectrum whose frequencies do not start at zero gets a coarser grid than it had: `2 ** k + 1` frequencies at the distance one are
replaced by as many frequencies at a larger distance, unless `discretize` finds that too coarse. -/
theorem C195_dense_refuted (T : Tools) (hT : Sound T) (s : Spec) (A : ℝ) (hA : 0 < A) (k : ℕ) (hk : 2 ≤ k)
    (ha : s.args = (List.range (2 ^ k + 1)).map fun j : ℕ => A + j) (hdata : s.data.length = 2 ^ k + 1)
    (hc : Coarse T ((A + 2 ^ k) / 2 ^ k)) (Nmax : ℕ) :
    ∃ out, resample T s none 0 Nmax = .ok out ∧ OnGrid out (2 ^ k + 1) ((A + 2 ^ k) / 2 ^ k) ∧ 1 < (A + 2 ^ k) / (2 : ℝ) ^ k := by
  have h4 : 4 ≤ 2 ^ k := le_trans (by norm_num) (Nat.pow_le_pow_right (n := 2) (by norm_num) hk)
  have hlen : s.args.length = 2 ^ k + 1 := by rw [ha]; simp
  have hs : Ordered s := by
    refine ⟨?_, ?_, by omega, by omega⟩
    · rw [ha, List.pairwise_map]
      refine (List.pairwise_lt_range (n := 2 ^ k + 1)).imp fun {a b} hab => ?_
      have : (a : ℝ) < b := by exact_mod_cast hab
      linarith
    · intro w hw
      rw [ha] at hw
      simp only [List.mem_map] at hw
      obtain ⟨j, _, rfl⟩ := hw
      positivity
  have hlast : lastOf s.args = A + 2 ^ k := by
    rw [ha, List.range_succ, List.map_append, List.map_singleton, lastOf_concat]
    push_cast
    rfl
  have hw := wmdt_pos s.ftype
  have hwn : wmdt s.ftype / (none : Option ℝ).getD (samplingPeriod s) = A + 2 ^ k := by
    rw [Option.getD_none, samplingPeriod, hlast]
    field_simp
  have hexp : expOf (max (s.args.length - 1) (0 - 1)) = k := by
    have : max (s.args.length - 1) (0 - 1) = 2 ^ k := by rw [hlen]; omega
    rw [this]
    have h1 := pow2_pow k
    rw [pow2_exp] at h1
    exact Nat.pow_right_injective (le_refl 2) h1
  have hgrow : grow (samplingPeriod s) ((none : Option ℝ).getD (samplingPeriod s)) (s.args.length - 1) Nmax k = k := by
    rw [grow, if_neg]
    rintro ⟨h, _⟩
    rw [hlen] at h
    push_cast at h
    rw [mul_div_assoc, div_self (by positivity), mul_one, Option.getD_none] at h
    exact lt_irrefl _ h
  rw [resample_eq T s hs, hwn, hexp, hgrow]
  obtain ⟨m, v, h1, h2, h3, _, h5⟩ := regrid_spec T hT s hs (by omega) (A + 2 ^ k) (by positivity) k
  have hm := h5 hc
  subst hm
  refine ⟨_, h1, ⟨by omega, by positivity, ?_, by simp [h3]⟩, ?_⟩
  · unfold linspace0
    simp
  · rw [lt_div_iff₀ (by positivity)]
    linarith

/-- `discretize` as in the example, but for a fixed interval. -/
example (c : ℝ) : ∃ T, Sound T ∧ Coarse T c :=
  ⟨{ stineTools with disc := fun _ _ _ => [0, c] }, ⟨stine_sound.defined, stine_sound.knots, fun _ _ _ => le_rfl⟩, fun _ _ _ d hd => by
    simp only [diffs, List.tail_cons, List.zipWith_cons_cons, List.zipWith_nil_right, List.mem_singleton, sub_zero] at hd
    rw [hd]⟩

/-- Without a wanted sampling interval the frequencies change even if they start at zero, unless their number is a power of two plus one:
zero padding is not the only effect. -/
theorem C195_default_refuted (T : Tools) (hT : Sound T) (s : Spec) (n : ℕ) (h : ℝ) (g : OnGrid s n h) (h4 : 4 ≤ n)
    (hn : ∀ m, n ≠ 2 ^ m + 1) (Nmin Nmax : ℕ) :
    ∃ out, resample T s none Nmin Nmax = .ok out ∧ out.args ≠ s.args ∧ n < out.args.length := by
  have hpos : 0 < samplingPeriod s := div_pos (wmdt_pos _) g.ordered.last_pos
  obtain ⟨out, m, ho, hg, _, _, hl, _⟩ := C195_grid T hT s g.ordered (by rw [g.len]; exact h4) none Nmin Nmax _ rfl hpos
  rw [g.len] at hl
  have hlt : n < out.args.length := by
    rw [hg.len]
    exact lt_of_le_of_ne hl (hn m)
  refine ⟨out, ho, fun he => ?_, hlt⟩
  rw [he, g.len] at hlt
  exact lt_irrefl _ hlt

example : OnGrid { args := [0, 1, 2, 3], data := [0, 3, 1, 0], ftype := .w } 4 1 ∧ ∀ m, 4 ≠ 2 ^ m + 1 := by
  refine ⟨⟨by norm_num, by norm_num, by simp [List.range_succ], rfl⟩, fun m hm => ?_⟩
  cases m with
  | zero => simp at hm
  | succ m => rw [pow_succ] at hm; omega

/-- The largest number of frequencies is not respected: if `Nmax` is more than a power of two and the sampling interval is small enough,
the number of frequencies is more than `Nmax`. -/
theorem C195_nmax_refuted (T : Tools) (hT : Sound T) (s : Spec) (hs : Ordered s) (h4 : 4 ≤ s.args.length) (Nmax j : ℕ)
    (h1 : 2 ^ j + 1 < Nmax) (h2 : Nmax ≤ 2 ^ (j + 1)) (d : ℝ) (hpos : 0 < d)
    (hd : d * Nmax < samplingPeriod s * (s.args.length - 1 : ℕ)) :
    ∃ out, resample T s (some d) 0 Nmax = .ok out ∧ Nmax < out.args.length := by
  have hw := wmdt_pos s.ftype
  rw [resample_eq T s hs, Option.getD_some]
  set k := grow (samplingPeriod s) d (s.args.length - 1) Nmax (expOf (max (s.args.length - 1) (0 - 1))) with hk
  obtain ⟨m, v, e1, e2, e3, _⟩ := regrid_spec T hT s hs h4 (wmdt s.ftype / d) (by positivity) k
  refine ⟨_, e1, ?_⟩
  simp only [linspace0, List.length_map, List.length_range]
  have hmk := Nat.pow_le_pow_right (n := 2) (by norm_num) e2
  have hkN : Nmax - 1 ≤ 2 ^ k := by
    rcases grow_stop (samplingPeriod s) d (s.args.length - 1) Nmax (expOf (max (s.args.length - 1) (0 - 1))) with h | h
    · rw [← hk, div_le_iff₀ (by positivity)] at h
      have h5 : d * Nmax < d * 2 ^ k := lt_of_lt_of_le hd h
      have h6 := lt_of_mul_lt_mul_left h5 hpos.le
      have h7 : Nmax < 2 ^ k := by exact_mod_cast h6
      omega
    · rwa [← hk] at h
  have hjk : j < k := (Nat.pow_lt_pow_iff_right (by norm_num : 1 < 2)).1 (by omega : 2 ^ j < 2 ^ k)
  have := Nat.pow_le_pow_right (n := 2) (by norm_num) (by omega : j + 1 ≤ k)
  omega

example : 2 ^ 3 + 1 < 10 ∧ 10 ≤ 2 ^ (3 + 1) := by norm_num

/-! ### Covariance matrix -/

theorem columns_ok (nt : ℕ) : ∀ l : List (List ℝ), (∀ r ∈ l, nt + 1 ≤ r.length) → columns nt l = .ok (l.map fun r => r.take (nt + 1))
  | [], _ => rfl
  | r :: l, h => by
    have h1 : column nt r = .ok (r.take (nt + 1)) := by
      unfold column
      simp only []
      rw [if_pos (by rw [List.length_take]; have := h r (by simp); omega)]
    have h2 := columns_ok nt l fun q hq => h q (by simp [hq])
    simp only [columns, h1, h2, List.map_cons]

theorem column_err (nt : ℕ) (r : List ℝ) (h1 : r.length < nt + 1) (h2 : 2 ≤ r.length) : column nt r = .error .valueError := by
  unfold column
  simp only []
  rw [List.take_of_length_le h1.le, if_neg h1.ne]
  match r, h2 with
  | a :: b :: l, _ => rfl

theorem step_eq (s : Spec) (m : ℕ) (h : ℝ) (g : OnGrid s (2 ^ m + 1) h) (nr : ℕ) (nt : Option ℕ) (R : Acf)
    (hR : specToCov s nr nt (some 1) = .ok R) :
    R.args = (List.range (ntOf nt 1 (2 ^ m + 1) + 1)).map fun k : ℕ => (k : ℝ) * samplingPeriod s := by
  have hr : rateOf (some 1) = 1 := by
    show pow2 1 = 1
    exact pow2_pow 0
  have := Except.ok.inj (hR.symm.trans (g.ok nr nt (some 1)))
  rw [this]
  simp only [hr]
  refine List.map_congr_left fun k _ => ?_
  have e : 2 * (2 ^ m + 1) - 2 = 2 ^ (m + 1) := by rw [pow_succ]; omega
  rw [e, pow2_pow, one_mul, mul_div_assoc, div_self (by positivity), mul_one]

/-- The entry in row `j` and column `i` of the matrix is the `i`th derivative, at the time `j * dt`, of the covariance function of the
spectrum resampled to the sampling interval `dt`; the matrix has `nt + 1` rows, where `nt` is the number asked for, but at most the number
of frequencies less one times the rate. -/
theorem C196_matrix (T : Tools) (hT : Sound T) (s : Spec) (hs : Ordered s) (h4 : 4 ≤ s.args.length) (nr : ℕ) (nt : Option ℕ) (dt : Option ℝ)
    (hpos : ∀ d, dt = some d → 0 < d) (cols : List (List ℝ)) (hc : covMatrix T s nr nt dt = .ok cols) :
    ∃ d N out n h, d = dt.getD (samplingPeriod s) ∧ N = ntOf nt (defaultRate s dt).2 s.args.length ∧
      resample T s (some d) 0 (2 ^ 13 + 1) = .ok out ∧ OnGrid out n h ∧ cols.length = nr + 1 ∧
      ∀ i ≤ nr, ∃ c, cols[i]? = some c ∧ c.length = N + 1 ∧ ∀ j ≤ N, c[j]? = some (iteratedDeriv i (covAt out n h) (j * d)) := by
  have hd : (defaultRate s dt).1 = dt.getD (samplingPeriod s) := by cases dt <;> rfl
  have hdpos : 0 < dt.getD (samplingPeriod s) := by
    cases dt with
    | none => exact div_pos (wmdt_pos _) hs.last_pos
    | some d => exact hpos d rfl
  unfold covMatrix at hc
  simp only [hd] at hc
  set d := dt.getD (samplingPeriod s) with hdd
  set N := ntOf nt (defaultRate s dt).2 s.args.length with hN
  obtain ⟨out, m, ho, hg, hper, _⟩ := C195_grid T hT s hs h4 (some d) 0 (2 ^ 13 + 1) d rfl hdpos
  refine ⟨d, N, out, _, _, rfl, rfl, ho, hg, ?_⟩
  cases hcd : checkDt s d with
  | error e => rw [hcd] at hc; exact absurd hc (by simp)
  | ok u =>
    rw [hcd, ho] at hc
    simp only [] at hc
    obtain ⟨R, hR, hRl, hRn, hRv⟩ := C176_covariance out _ _ hg nr (some N) (some 1)
    obtain ⟨R', hR', hDl, hDv⟩ := C177_derivatives out _ _ hg nr (some N) (some 1)
    have e1 : R' = R := Except.ok.inj (hR'.symm.trans hR)
    subst e1
    have hargs := step_eq out m _ hg nr (some N) R' hR
    rw [hR] at hc
    simp only [] at hc
    have hlen : R'.args.length = min N (2 ^ m) + 1 := by
      rw [hargs]
      simp [ntOf]
    by_cases hle : N ≤ 2 ^ m
    · rw [min_eq_left hle] at hlen
      rw [columns_ok N (R'.data :: R'.derivs) (by
        intro r hr
        rcases List.mem_cons.1 hr with h | h
        · rw [h]; omega
        · obtain ⟨i, hi, rfl⟩ := List.mem_iff_getElem.1 h
          obtain ⟨c, hc1, hc2, _⟩ := hDv i (by omega)
          rw [List.getElem?_eq_getElem hi] at hc1
          rw [Option.some.inj hc1]
          omega)] at hc
      simp only [] at hc
      split at hc
      · exact absurd hc (by simp)
      · have hcols := Except.ok.inj hc
        have htime : ∀ j ≤ N, R'.args[j]? = some ((j : ℝ) * d) := by
          intro j hj
          rw [hargs, List.getElem?_map, List.getElem?_range (by simp only [ntOf, one_mul]; omega), Option.map_some, hper]
        refine ⟨by rw [← hcols]; simp [hDl], fun i hi => ?_⟩
        cases i with
        | zero =>
          refine ⟨R'.data.take (N + 1), by rw [← hcols]; rfl, by rw [List.length_take]; omega, fun j hj => ?_⟩
          rw [List.getElem?_take_of_lt (by omega), hRv j _ (htime j hj), iteratedDeriv_zero]
        | succ i =>
          obtain ⟨c, hc1, hc2, hc3⟩ := hDv i (by omega)
          refine ⟨c.take (N + 1), ?_, by rw [List.length_take]; omega, fun j hj => ?_⟩
          · rw [← hcols, List.map_cons, List.getElem?_cons_succ, List.getElem?_map, hc1]
            rfl
          · rw [List.getElem?_take_of_lt (by omega), hc3 j _ (htime j hj)]
    · exfalso
      have h5 : 0 < 2 ^ m := by positivity
      have := column_err N R'.data (by omega) (by omega)
      simp only [columns, this] at hc
      exact absurd hc (by simp)

/-- The number of rows can be more than the resampled spectrum gives: if the sampling interval is 5/8 of that of the spectrum, then the rate
is rounded to two and the call with the default number of rows fails. -/
theorem C196_rows_refuted (T : Tools) (hT : Sound T) (s : Spec) (j : ℕ) (h : ℝ) (g : OnGrid s (5 * 2 ^ j + 1) h) (nr : ℕ) (d : ℝ)
    (hd : d = 5 / 8 * samplingPeriod s) (hcd : checkDt s d = .ok ()) (hc : Coarse T (wmdt s.ftype / d / 2 ^ (j + 3))) :
    covMatrix T s nr none (some d) = .error .valueError := by
  have hp : 0 < 2 ^ j := by positivity
  have hs := g.ordered
  have hsp : 0 < samplingPeriod s := div_pos (wmdt_pos _) hs.last_pos
  have hdpos : 0 < d := by rw [hd]; positivity
  have hrate : (defaultRate s (some d)).2 = 2 := by
    have e : samplingPeriod s / d = 8 / 5 := by rw [hd]; field_simp
    have f : ⌊(8 / 5 : ℝ)⌋ = 1 := by rw [Int.floor_eq_iff]; norm_num
    simp only [defaultRate, e, Quad.npRound, f]
    norm_num
    rfl
  have hexp : expOf (max (s.args.length - 1) (0 - 1)) = j + 3 := by
    have e : max (s.args.length - 1) (0 - 1) = 5 * 2 ^ j := by rw [g.len]; omega
    rw [e]
    have h1 := pow2_eq (5 * 2 ^ j) (j + 2) (by rw [pow_add]; omega) (by rw [pow_add, pow_add]; omega)
    rw [pow2_exp] at h1
    exact Nat.pow_right_injective (le_refl 2) h1
  have hgrow : grow (samplingPeriod s) d (s.args.length - 1) (2 ^ 13 + 1) (j + 3) = j + 3 := by
    rw [grow, if_neg]
    rintro ⟨h1, _⟩
    rw [g.len, Nat.add_sub_cancel, hd] at h1
    push_cast at h1
    rw [pow_add] at h1
    have e : samplingPeriod s * (5 * 2 ^ j) / (2 ^ j * 2 ^ 3) = 5 / 8 * samplingPeriod s := by field_simp; norm_num
    rw [e] at h1
    exact lt_irrefl _ h1
  have hw := wmdt_pos s.ftype
  obtain ⟨m, v, e1, e2, e3, _, e5⟩ := regrid_spec T hT s hs (by rw [g.len]; omega) (wmdt s.ftype / d) (by positivity) (j + 3)
  have hm := e5 hc
  subst hm
  have hres : resample T s (some d) 0 (2 ^ 13 + 1) = .ok { s with args := linspace0 (wmdt s.ftype / d) (2 ^ (j + 3) + 1), data := v.map (max 0) } := by
    rw [resample_eq T s hs, Option.getD_some, hexp, hgrow, e1]
  have hg : OnGrid { s with args := linspace0 (wmdt s.ftype / d) (2 ^ (j + 3) + 1), data := v.map (max 0) } (2 ^ (j + 3) + 1)
      (wmdt s.ftype / d / 2 ^ (j + 3)) := by
    refine ⟨by have : 0 < 2 ^ (j + 3) := by positivity
               omega, by positivity, ?_, by simp [e3]⟩
    unfold linspace0
    simp
  obtain ⟨R, hR, hRl, hRn, _⟩ := C176_covariance _ _ _ hg nr (some (10 * 2 ^ j)) (some 1)
  have hargs := step_eq _ (j + 3) _ hg nr (some (10 * 2 ^ j)) R hR
  have hlen : R.data.length = 8 * 2 ^ j + 1 := by
    rw [hRl, hargs]
    simp only [List.length_map, List.length_range, ntOf, one_mul, Nat.add_sub_cancel]
    rw [pow_add]
    omega
  unfold covMatrix
  have hN : ntOf none (defaultRate s (some d)).2 s.args.length = 10 * 2 ^ j := by
    rw [hrate, g.len]
    simp only [ntOf, Nat.add_sub_cancel]
    ring
  have hdd : (defaultRate s (some d)).1 = d := rfl
  simp only [hN, hdd, hcd, hres, hR, columns, column_err (10 * 2 ^ j) R.data (by omega) (by omega)]

example : ∃ s : Spec, OnGrid s (5 * 2 ^ 0 + 1) 1 ∧ checkDt s (5 / 8 * samplingPeriod s) = .ok () := by
  refine ⟨{ args := [0, 1, 2, 3, 4, 5], data := [0, 1, 2, 1, 1, 0], ftype := .w }, ⟨by norm_num, by norm_num, by simp [List.range_succ], rfl⟩, ?_⟩
  have h1 := Real.two_le_pi
  have h2 := Real.pi_le_four
  refine if_neg ?_
  simp only [samplingPeriod, wmdt, lastOf]
  norm_num
  rw [if_neg (by simp), div_div, div_div, div_le_div_iff₀ (by positivity) (by positivity)]
  nlinarith

/-- A matrix with no more rows than the spectrum has frequencies can be computed: the only error left is the TypeError that replaces the
warnings about the covariances. -/
theorem C196_total (T : Tools) (hT : Sound T) (s : Spec) (hs : Ordered s) (h4 : 4 ≤ s.args.length) (nr N : ℕ) (d : ℝ) (hpos : 0 < d)
    (hN1 : 1 ≤ N) (hN : N ≤ s.args.length - 1) (hcd : checkDt s d = .ok ()) :
    (∃ cols, covMatrix T s nr (some N) (some d) = .ok cols) ∨ covMatrix T s nr (some N) (some d) = .error .typeError := by
  obtain ⟨out, m, ho, hg, hper, _, hlm, _⟩ := C195_grid T hT s hs h4 (some d) 0 (2 ^ 13 + 1) d rfl hpos
  have hrate : 1 ≤ (defaultRate s (some d)).2 := by
    simp only [defaultRate]
    omega
  have hNN : ntOf (some N) (defaultRate s (some d)).2 s.args.length = N := by
    simp only [ntOf]
    exact min_eq_left (le_trans hN (Nat.le_mul_of_pos_left _ hrate))
  obtain ⟨R, hR, hRl, hRn, hRv⟩ := C176_covariance out _ _ hg nr (some N) (some 1)
  obtain ⟨R', hR', hDl, hDv⟩ := C177_derivatives out _ _ hg nr (some N) (some 1)
  have e1 : R' = R := Except.ok.inj (hR'.symm.trans hR)
  subst e1
  have hargs := step_eq out m _ hg nr (some N) R' hR
  have hlen : R'.args.length = N + 1 := by
    rw [hargs]
    simp only [List.length_map, List.length_range, ntOf, one_mul]
    omega
  have hcol := columns_ok N (R'.data :: R'.derivs) (by
    intro r hr
    rcases List.mem_cons.1 hr with h | h
    · rw [h]; omega
    · obtain ⟨i, hi, rfl⟩ := List.mem_iff_getElem.1 h
      obtain ⟨c, hc1, hc2, _⟩ := hDv i (by omega)
      rw [List.getElem?_eq_getElem hi] at hc1
      rw [Option.some.inj hc1]
      omega)
  have hdd : (defaultRate s (some d)).1 = d := rfl
  unfold covMatrix
  simp only [hNN, hdd, hcd, ho, hR, hcol]
  unfold checkCov
  simp only []
  split_ifs with h1 h2 h3
  · exact Or.inr rfl
  · omega
  · exact Or.inr rfl
  · exact Or.inl ⟨_, rfl⟩

end

end Wafo.SpecD

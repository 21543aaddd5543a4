import Verif.SpecD.Sim

/-! Properties C190 and C191: simulation of a Gaussian process from its spectrum. -/

set_option linter.unusedSectionVars false

namespace Wafo.SpecD
open Cov Finset RealInnerProductSpace

noncomputable section

/-! ### Specification -/

/-- The factor between the unit of the frequencies and hertz. -/
def perHertz : FreqType → ℝ
  | .f => 1
  | .w => 2 * Real.pi
  | .k => 2 * Real.pi

/-- The density in hertz, with zeros at the frequency zero and at the last frequency, without the first and the last given value. -/
def densityPoints (s : Spec) : List (ℝ × ℝ) :=
  (0, 0) :: ((List.zip s.args s.data).dropLast.drop 1).map (fun p => (p.1 / perHertz s.ftype, |p.2| * perHertz s.ftype)) ++
    [(lastOf s.args / perHertz s.ftype, 0)]

/-- `S` is linear between neighbouring points. -/
def LinearThrough (S : ℝ → ℝ) (pts : List (ℝ × ℝ)) : Prop :=
  ∀ (i : ℕ) (p q : ℝ × ℝ), pts[i]? = some p → pts[i + 1]? = some q → ∀ t, p.1 ≤ t → t ≤ q.1 →
    S t = p.2 + (q.2 - p.2) * ((t - p.1) / (q.1 - p.1))

/-- At least two frequencies, increasing and not negative, and as many values. -/
structure Rising (s : Spec) : Prop where
  two : 2 ≤ s.args.length
  data : s.data.length = s.args.length
  nonneg : ∀ v ∈ s.args, 0 ≤ v
  sorted : s.args.Pairwise (· < ·)

/-! ### Lemmas -/

theorem npInterp_head (x : ℝ) (xs : List ℝ) (f : ℝ) (fs : List ℝ) : LevelX.npInterp x (x :: xs) (f :: fs) = f := by
  cases xs <;> cases fs <;> simp [LevelX.npInterp]

theorem npInterp_linear : ∀ pts : List (ℝ × ℝ), (pts.map Prod.fst).Pairwise (· < ·) →
    LinearThrough (fun t => LevelX.npInterp t (pts.map Prod.fst) (pts.map Prod.snd)) pts
  | [], _ => fun i p q hp => by simp at hp
  | [_], _ => fun i p q _ hq => by simp at hq
  | p0 :: p1 :: l, hs => by
    have hs' := List.pairwise_cons.1 hs
    have h01 : p0.1 < p1.1 := hs'.1 _ (by simp)
    intro i p q hp hq t h1 h2
    simp only [List.map_cons, LevelX.npInterp]
    cases i with
    | zero =>
      simp only [List.getElem?_cons_zero, Option.some.injEq] at hp
      simp only [List.getElem?_cons_succ, List.getElem?_cons_zero, Option.some.injEq] at hq
      subst hp; subst hq
      split
      · next h => rw [le_antisymm h h1]; simp
      · split
        · rfl
        · next h =>
          have : t = p1.1 := le_antisymm h2 (not_lt.1 h)
          rw [this, npInterp_head, div_self (by linarith)]; ring
    | succ i =>
      simp only [List.getElem?_cons_succ] at hp
      rw [List.getElem?_cons_succ] at hq
      have hp1 : p1.1 ≤ p.1 := by
        cases i with
        | zero => simp only [List.getElem?_cons_zero, Option.some.injEq] at hp; rw [hp]
        | succ i =>
          have := (List.pairwise_cons.1 hs'.2).1 p.1 (by
            have := List.mem_of_getElem? hp
            exact List.mem_map_of_mem (List.mem_of_getElem? (by simpa using hp)))
          exact this.le
      rw [if_neg (by linarith), if_neg (by linarith)]
      exact npInterp_linear (p1 :: l) hs'.2 i p q hp hq t h1 h2

theorem npInterp_nonneg (t : ℝ) : ∀ xs fs : List ℝ, (∀ f ∈ fs, 0 ≤ f) → 0 ≤ LevelX.npInterp t xs fs
  | [], _, _ => by simp [LevelX.npInterp]
  | _ :: _, [], _ => by simp [LevelX.npInterp]
  | [_], f :: _, h => by simpa [LevelX.npInterp] using h f (by simp)
  | _ :: _ :: _, [f], h => by simpa [LevelX.npInterp] using h f (by simp)
  | x0 :: x1 :: x, f0 :: f1 :: f, h => by
    have h0 := h f0 (by simp)
    have h1 := h f1 (by simp)
    simp only [LevelX.npInterp]
    split
    · exact h0
    · next ha =>
      push Not at ha
      split
      · next hb =>
        have hd : 0 < x1 - x0 := by linarith
        have e : f0 + (f1 - f0) * ((t - x0) / (x1 - x0)) = (f0 * (x1 - t) + f1 * (t - x0)) / (x1 - x0) := by field_simp; ring
        rw [e]
        exact div_nonneg (add_nonneg (mul_nonneg h0 (by linarith)) (mul_nonneg h1 (by linarith))) hd.le
      · exact npInterp_nonneg t (x1 :: x) (f1 :: f) fun v hv => h v (List.mem_cons_of_mem _ hv)

theorem npInterp_half (t : ℝ) : ∀ xs fs : List ℝ, LevelX.npInterp t xs (fs.map fun v => v / 2) = LevelX.npInterp t xs fs / 2
  | [], _ => by simp [LevelX.npInterp]
  | _ :: _, [] => by simp [LevelX.npInterp]
  | [_], f :: _ => by simp [LevelX.npInterp]
  | _ :: _ :: _, [f] => by simp [LevelX.npInterp]
  | x0 :: x1 :: x, f0 :: f1 :: f => by
    simp only [List.map_cons, LevelX.npInterp]
    have := npInterp_half t (x1 :: x) (f1 :: f)
    simp only [List.map_cons] at this
    rw [this]
    split_ifs <;> ring

theorem perHertz_pos (t : FreqType) : 0 < perHertz t := by
  cases t <;> simp [perHertz] <;> positivity

/-- The density that the simulation uses. -/
def pointDens (s : Spec) (t : ℝ) : ℝ := LevelX.npInterp t ((densityPoints s).map Prod.fst) ((densityPoints s).map Prod.snd)

theorem simStep_eq (s : Spec) (h : ℕ) (hh : 1 ≤ h) (hl : 0 < lastOf s.args) :
    simStep s (2 * h) * h = lastOf s.args / perHertz s.ftype := by
  have h0 : (h : ℝ) ≠ 0 := by exact_mod_cast (by omega : h ≠ 0)
  unfold simStep samplingPeriod
  have hpi := Real.pi_pos
  cases s.ftype <;> simp only [wmdt, perHertz] <;> push_cast <;> field_simp

theorem zip_inner : ∀ x y : List ℝ, y.length = x.length →
    ((List.zip x y).dropLast.drop 1).map Prod.fst = inner x ∧ ((List.zip x y).dropLast.drop 1).map Prod.snd = inner y := by
  intro x y h
  unfold inner
  rw [List.map_drop, List.map_drop, List.map_dropLast, List.map_dropLast, List.map_fst_zip (by omega), List.map_snd_zip (by omega)]
  exact ⟨rfl, rfl⟩

theorem points_fst (s : Spec) (hd : s.data.length = s.args.length) :
    (densityPoints s).map Prod.fst = 0 :: innerFreq s ++ [lastOf s.args / perHertz s.ftype] := by
  have h := (zip_inner s.args s.data hd).1
  unfold densityPoints innerFreq
  rw [List.map_append, List.map_cons, List.map_map, ← h]
  cases s.ftype <;> simp [perHertz, Function.comp_def]

theorem points_snd (s : Spec) (hd : s.data.length = s.args.length) :
    (densityPoints s).map Prod.snd = 0 :: (innerDens s).map (fun v => |v|) ++ [0] := by
  have h := (zip_inner s.args s.data hd).2
  have hpi : |Real.pi| = Real.pi := abs_of_pos Real.pi_pos
  unfold densityPoints innerDens
  rw [List.map_append, List.map_cons, List.map_map, ← h]
  cases s.ftype <;> simp [perHertz, Function.comp_def, abs_mul, hpi]

theorem simDens_getD (s : Spec) (hd : s.data.length = s.args.length) (hl : 0 < lastOf s.args) (h k : ℕ) (hh : 1 ≤ h)
    (hk : k < h - 1) : (simDens s h).getD k 0 = pointDens s (((k + 1 : ℕ) : ℝ) * simStep s (2 * h)) / 2 := by
  unfold simDens pointDens
  rw [List.getD_eq_getElem?_getD]
  simp only [List.getElem?_map, List.getElem?_range hk, Option.map_some, Option.getD_some]
  rw [points_fst s hd, points_snd s hd, simStep_eq s h hh hl, ← npInterp_half]
  congr 1
  simp [Function.comp_def]

theorem pointDens_nonneg (s : Spec) (t : ℝ) : 0 ≤ pointDens s t := by
  refine npInterp_nonneg _ _ _ fun f hf => ?_
  unfold densityPoints at hf
  simp only [List.map_append, List.map_cons, List.map_map, List.mem_append, List.mem_cons, List.mem_map] at hf
  have := perHertz_pos s.ftype
  rcases hf with (rfl | ⟨p, _, rfl⟩) | rfl | hf
  · exact le_rfl
  · exact mul_nonneg (abs_nonneg _) this.le
  · exact le_rfl
  · simp at hf

theorem simDens_length (s : Spec) (h : ℕ) : (simDens s h).length = h - 1 := by simp [simDens]

/-- The spectrum is symmetric and zero at its ends. -/
theorem twoSided_getD (s : Spec) (h : ℕ) (hh : 1 ≤ h) :
    (twoSided s h).getD 0 0 = 0 ∧ (twoSided s h).getD h 0 = 0 ∧
    (∀ k < h - 1, (twoSided s h).getD (k + 1) 0 = (simDens s h).getD k 0) ∧
    (∀ k < h - 1, (twoSided s h).getD (2 * h - (k + 1)) 0 = (simDens s h).getD k 0) := by
  have hl := simDens_length s h
  obtain ⟨m, rfl⟩ : ∃ m, h = m + 1 := ⟨h - 1, by omega⟩
  rw [Nat.add_sub_cancel] at hl ⊢
  generalize hx : simDens s (m + 1) = x at hl ⊢
  have e : twoSided s (m + 1) = 0 :: (x ++ 0 :: x.reverse) := by unfold twoSided; rw [hx]; rfl
  rw [e]
  refine ⟨by simp, ?_, fun k hk => ?_, fun k hk => ?_⟩
  · rw [List.getD_cons_succ, List.getD_append_right _ _ _ _ (by omega), hl]; simp
  · rw [List.getD_cons_succ, List.getD_append _ _ _ _ (by omega)]
  · rw [show 2 * (m + 1) - (k + 1) = (m + (m - 1 - k) + 1) + 1 by omega, List.getD_cons_succ,
      List.getD_append_right _ _ _ _ (by omega), hl, show m + (m - 1 - k) + 1 - m = (m - 1 - k) + 1 by omega, List.getD_cons_succ,
      List.getD_eq_getElem?_getD, List.getElem?_reverse (by omega), hl, show m - 1 - (m - 1 - k) = k by omega,
      ← List.getD_eq_getElem?_getD]

section
variable {V : Type} [AddCommGroup V] [Module ℝ V]

/-- Sum over positive and negative frequencies. -/
theorem sum_sym (h : ℕ) (hh : 1 ≤ h) (f : ℕ → V) (h0 : f 0 = 0) (h1 : f h = 0) :
    ∑ k ∈ range (2 * h), f k = ∑ k ∈ range (h - 1), (f (k + 1) + f (2 * h - (k + 1))) := by
  obtain ⟨m, rfl⟩ : ∃ m, h = m + 1 := ⟨h - 1, by omega⟩
  rw [show 2 * (m + 1) = (m + 2) + m by omega, sum_range_add, sum_range_succ, h1, add_zero, sum_range_succ', h0, add_zero,
    Nat.add_sub_cancel, sum_add_distrib]
  congr 1
  rw [← sum_range_reflect]
  refine sum_congr rfl fun k hk => ?_
  have := mem_range.1 hk
  congr 1
  omega

/-- Each simulated value is a sum of waves with random amplitudes. -/
theorem simValue_eq (s : Spec) (h : ℕ) (hh : 1 ≤ h) (a b : ℕ → V) (j : ℕ) :
    simValue s h a b j = ∑ k ∈ range (h - 1),
      ((Real.sqrt (2 * (simDens s h).getD k 0 * simStep s (2 * h)) * Real.cos (2 * Real.pi * (k + 1 : ℕ) * j / (2 * h : ℕ))) • a (k + 1) +
       (-(Real.sqrt (2 * (simDens s h).getD k 0 * simStep s (2 * h)) * Real.sin (2 * Real.pi * (k + 1 : ℕ) * j / (2 * h : ℕ)))) • b k) := by
  obtain ⟨t0, t1, t2, t3⟩ := twoSided_getD s h hh
  unfold simValue
  rw [sum_sym h hh _ (by simp only [t0]; simp) (by simp only [t1]; simp)]
  refine sum_congr rfl fun k hk => ?_
  have hk' := mem_range.1 hk
  rw [t2 k hk', t3 k hk', cos_reflect (2 * h) (by omega) (k + 1) j (by omega), sin_reflect (2 * h) (by omega) (k + 1) j (by omega)]
  have e1 : edge h (k + 1) = 1 := if_neg (by omega)
  have e2 : edge h (2 * h - (k + 1)) = 1 := if_neg (by omega)
  have e3 : 2 * h - (2 * h - (k + 1)) = k + 1 := by omega
  have e4 : imagPart h b (k + 1) = b k := by
    unfold imagPart
    rw [if_neg (by omega), Nat.add_sub_cancel]
  have e5 : Real.sqrt (2 * (simDens s h).getD k 0 * simStep s (2 * h)) =
      2 * Real.sqrt ((simDens s h).getD k 0 * simStep s (2 * h) / 2) := by
    rw [show 2 * (simDens s h).getD k 0 * simStep s (2 * h) = 2 ^ 2 * ((simDens s h).getD k 0 * simStep s (2 * h) / 2) by ring,
      Real.sqrt_mul (by norm_num), Real.sqrt_sq (by norm_num)]
  unfold ampRe ampIm
  rw [e1, e2, if_pos (by omega : k + 1 ≤ h), if_neg (by omega : ¬ 2 * h - (k + 1) ≤ h), if_pos (by omega : k + 1 ≤ h),
    if_neg (by omega : ¬ 2 * h - (k + 1) ≤ h), e3, e4, e5]
  module

theorem simulate_ok (r : ℝ → Spec → Spec) (s : Spec) (ns cases : ℕ) (hns : 1 ≤ ns) (method : List Char)
    (hm : ¬ method <:+: "exact".toList) (a b : ℕ → ℕ → V) :
    simulate r s (some ns) cases none method false a b =
      .ok { times := (List.range (ns + ns % 2)).map fun k : ℕ => (k : ℝ) * samplingPeriod s
            rows := (List.range (ns + ns % 2)).map fun j => (List.range cases).map fun c =>
              simValue s ((ns + ns % 2) / 2) (fun k => a k c) (fun k => b k c) j } := by
  unfold simulate
  simp only [Option.getD_some, if_neg hm]
  rw [if_neg (by omega), if_neg (by decide)]

theorem at_rows {V : Type} (n cases : ℕ) (f : ℕ → ℕ → V) (t : List ℝ) (i c : ℕ) (x : V)
    (h : (SimOut.mk t ((List.range n).map fun j => (List.range cases).map fun c => f c j)).at i c = some x) :
    i < n ∧ c < cases ∧ x = f c i := by
  unfold SimOut.at at h
  by_cases hi : i < n
  · simp only [List.getElem?_map, List.getElem?_range hi, Option.map_some, Option.bind_some] at h
    by_cases hc : c < cases
    · rw [List.getElem?_range hc] at h
      exact ⟨hi, hc, (Option.some.inj h).symm⟩
    · rw [List.getElem?_eq_none (by simpa using hc)] at h
      exact absurd h (by simp)
  · rw [List.getElem?_eq_none (by simpa using hi)] at h
    exact absurd h (by simp)

end

theorem Rising.last_pos {s : Spec} (g : Rising s) : 0 < lastOf s.args := by
  obtain ⟨h2, _, h0, hs⟩ := g
  match hx : s.args, h2 with
  | x0 :: x1 :: l, _ =>
    rw [hx] at hs h0
    have h := (List.pairwise_cons.1 hs).1
    unfold lastOf
    rw [List.getLastD_eq_getLast?, List.getLast?_eq_some_getLast (by simp), Option.getD_some]
    refine lt_of_le_of_lt (h0 x0 (by simp)) (h _ ?_)
    rw [List.getLast_cons (by simp)]
    exact List.getLast_mem _

theorem inner_mem (x : List ℝ) (v : ℝ) (h : v ∈ inner x) : v ∈ x := List.mem_of_mem_dropLast (List.mem_of_mem_drop h)

theorem Rising.points {s : Spec} (g : Rising s) : ((densityPoints s).map Prod.fst).Pairwise (· < ·) := by
  rw [points_fst s g.data]
  have hc := perHertz_pos s.ftype
  have e : innerFreq s = (inner s.args).map (· / perHertz s.ftype) := by
    unfold innerFreq
    cases s.ftype <;> simp [perHertz]
  have e2 : 0 :: innerFreq s ++ [lastOf s.args / perHertz s.ftype] =
      (0 :: (inner s.args ++ [lastOf s.args])).map (· / perHertz s.ftype) := by
    rw [e]; simp
  rw [e2, List.pairwise_map]
  refine List.Pairwise.imp (fun {a b} (h : a < b) => div_lt_div_of_pos_right h hc) ?_
  obtain ⟨h2, _, h0, hs⟩ := g
  match hx : s.args, h2 with
  | x0 :: x1 :: l, _ =>
    rw [hx] at hs h0
    have e3 : inner (x0 :: x1 :: l) ++ [lastOf (x0 :: x1 :: l)] = x1 :: l := by
      unfold inner lastOf
      rw [List.getLastD_eq_getLast?, List.getLast?_eq_some_getLast (by simp), Option.getD_some, List.getLast_cons (by simp)]
      simp only [List.dropLast_cons_cons, List.drop_succ_cons, List.drop_zero]
      exact List.dropLast_append_getLast _
    rw [e3, List.pairwise_cons]
    have h := List.pairwise_cons.1 hs
    exact ⟨fun v hv => lt_of_le_of_lt (h0 x0 (by simp)) (h.1 v hv), h.2⟩

/-! ### Properties -/

/-- Random phase simulation: the columns are uncorrelated, and the covariance of two values in a column is the sum of the density times
the cosine over the multiples of the frequency step.  The number of points is made even, and the times are multiples of the sampling
period. -/
theorem C190_covariance {V : Type} [NormedAddCommGroup V] [InnerProductSpace ℝ V] {a b : ℕ → ℕ → V} (hw : White a b)
    (r : ℝ → Spec → Spec) (s : Spec) (g : Rising s) (ns cases : ℕ) (hns : 1 ≤ ns) (method : List Char)
    (hm : ¬ method <:+: "exact".toList) :
    ∃ out S N, simulate r s (some ns) cases none method false a b = .ok out ∧ LinearThrough S (densityPoints s) ∧
      N = ns + ns % 2 ∧ out.rows.length = N ∧ (∀ row ∈ out.rows, row.length = cases) ∧
      out.times = (List.range N).map (fun k : ℕ => (k : ℝ) * samplingPeriod s) ∧
      ∀ i j c d x y, out.at i c = some x → out.at j d = some y →
        ⟪x, y⟫ = if c = d then
          ∑ k ∈ range (N / 2 - 1), S ((k + 1) * (1 / (N * samplingPeriod s))) * (1 / (N * samplingPeriod s)) *
            Real.cos (2 * Real.pi * ((k + 1) * (1 / (N * samplingPeriod s))) * (i * samplingPeriod s - j * samplingPeriod s))
        else 0 := by
  have hl := g.last_pos
  have hT : 0 < samplingPeriod s := by
    unfold samplingPeriod
    refine div_pos ?_ hl
    cases s.ftype <;> simp [wmdt, Real.pi_pos]
  obtain ⟨h, hN, hh⟩ : ∃ h, ns + ns % 2 = 2 * h ∧ 1 ≤ h := ⟨(ns + ns % 2) / 2, by omega, by omega⟩
  refine ⟨_, pointDens s, ns + ns % 2, simulate_ok r s ns cases hns method hm a b, npInterp_linear _ g.points, rfl, by simp, ?_, rfl, ?_⟩
  · intro row hr
    simp only [List.mem_map] at hr
    obtain ⟨j, _, rfl⟩ := hr
    simp
  · intro i j c d x y hx hy
    rw [hN] at hx hy ⊢
    rw [show 2 * h / 2 = h by omega] at hx hy ⊢
    obtain ⟨hi, _, rfl⟩ := at_rows (2 * h) cases (fun c j => simValue s h (fun k => a k c) (fun k => b k c) j) _ i c x hx
    obtain ⟨hj, _, rfl⟩ := at_rows (2 * h) cases (fun c j => simValue s h (fun k => a k c) (fun k => b k c) j) _ j d y hy
    have hw' : White (fun k c => a (k + 1) c) b := by
      refine ⟨fun k c l d => ?_, hw.bb, fun k c l d => hw.ab _ _ _ _⟩
      rw [hw.aa]
      simp
    rw [simValue_eq s h hh, simValue_eq s h hh]
    rw [inner_comb hw' (h - 1)]
    by_cases hcd : c = d
    · rw [if_pos hcd, if_pos hcd]
      refine sum_congr rfl fun k hk => ?_
      rw [simDens_getD s g.data hl h k hh (mem_range.1 hk)]
      have hstep : simStep s (2 * h) = 1 / (((2 * h : ℕ) : ℝ) * samplingPeriod s) := rfl
      have h0 : (h : ℝ) ≠ 0 := by exact_mod_cast (by omega : h ≠ 0)
      have hpos : 0 ≤ simStep s (2 * h) := by rw [hstep]; positivity
      have harg : 2 * Real.pi * (((k : ℝ) + 1) * (1 / (((2 * h : ℕ) : ℝ) * samplingPeriod s))) * (i * samplingPeriod s - j * samplingPeriod s) =
          2 * Real.pi * (k + 1 : ℕ) * i / (2 * h : ℕ) - 2 * Real.pi * (k + 1 : ℕ) * j / (2 * h : ℕ) := by
        push_cast
        field_simp
      rw [harg, ← hstep, Real.cos_sub, Nat.cast_add, Nat.cast_one]
      have hd := pointDens_nonneg s (((k : ℝ) + 1) * simStep s (2 * h))
      generalize pointDens s (((k : ℝ) + 1) * simStep s (2 * h)) = D at hd ⊢
      generalize simStep s (2 * h) = e at hpos ⊢
      have hsq : Real.sqrt (2 * (D / 2) * e) * Real.sqrt (2 * (D / 2) * e) = D * e := by
        rw [Real.mul_self_sqrt (by positivity)]; ring
      generalize Real.sqrt (2 * (D / 2) * e) = q at hsq ⊢
      linear_combination (Real.cos (2 * Real.pi * ((k : ℝ) + 1) * i / (2 * h : ℕ)) * Real.cos (2 * Real.pi * ((k : ℝ) + 1) * j / (2 * h : ℕ)) +
        Real.sin (2 * Real.pi * ((k : ℝ) + 1) * i / (2 * h : ℕ)) * Real.sin (2 * Real.pi * ((k : ℝ) + 1) * j / (2 * h : ℕ))) * hsq
    · rw [if_neg hcd, if_neg hcd]

example : Rising { args := [0, 1 / 2, 1], data := [0, 3, 1], ftype := .w } ∧ ¬ "random".toList <:+: "exact".toList := by
  refine ⟨⟨by simp, rfl, fun v hv => ?_, ?_⟩, by decide⟩
  · simp at hv
    rcases hv with rfl | rfl | rfl <;> norm_num
  · norm_num

/-- With twice as many points as frequency steps the covariances are those of the covariance function of the spectrum, by the trapezoidal
rule, except for the contributions of the first and the last frequency, which are left out. -/
theorem C190_grid {V : Type} [NormedAddCommGroup V] [InnerProductSpace ℝ V] {a b : ℕ → ℕ → V} (hw : White a b)
    (r : ℝ → Spec → Spec) (s : Spec) (n : ℕ) (w : ℝ) (g : OnGrid s n w) (hp : ∀ v ∈ s.data, 0 ≤ v) (cases : ℕ) (method : List Char)
    (hm : ¬ method <:+: "exact".toList) :
    ∃ out, simulate r s (some (2 * (n - 1))) cases none method false a b = .ok out ∧
      ∀ i j c d x y, out.at i c = some x → out.at j d = some y →
        ⟪x, y⟫ = if c = d then
          covAt s n w (i * samplingPeriod s - j * samplingPeriod s) - w / 2 * (s.data.getD 0 0 + s.data.getD (n - 1) 0 *
            Real.cos (toAngular s.ftype * ((n - 1 : ℕ) * w) * (i * samplingPeriod s - j * samplingPeriod s)))
        else 0 := by
  have h2 := g.two
  have hw0 := g.pos
  have hr : Rising s := by
    refine ⟨by rw [g.length]; exact h2, by rw [g.length, g.data], fun v hv => ?_, ?_⟩
    · rw [g.args] at hv
      simp only [List.mem_map] at hv
      obtain ⟨k, _, rfl⟩ := hv
      positivity
    · rw [g.args, List.pairwise_map]
      refine List.Pairwise.imp (fun {p q} hpq => ?_) List.pairwise_lt_range
      have : (p : ℝ) < q := by exact_mod_cast hpq
      exact mul_lt_mul_of_pos_right this hw0
  obtain ⟨out, S, N, ho, hS, hN, _, _, _, hcov⟩ := C190_covariance hw r s hr (2 * (n - 1)) cases (by omega) method hm
  refine ⟨out, ho, fun i j c d x y hx hy => ?_⟩
  rw [hcov i j c d x y hx hy]
  have hN' : N = 2 * (n - 1) := by omega
  have hc := perHertz_pos s.ftype
  have hstep : 1 / ((N : ℝ) * samplingPeriod s) = w / perHertz s.ftype := by
    have h0 : ((n - 1 : ℕ) : ℝ) ≠ 0 := by exact_mod_cast (by omega : n - 1 ≠ 0)
    unfold samplingPeriod
    rw [g.last, hN', Nat.cast_mul]
    generalize ((n - 1 : ℕ) : ℝ) = m at h0 ⊢
    have hpi := Real.pi_ne_zero
    have := hw0.ne'
    cases s.ftype <;> simp only [wmdt, perHertz] <;> push_cast <;> field_simp
  by_cases hcd : c = d
  · rw [if_pos hcd, if_pos hcd]
    have hval : ∀ k < n - 2, S ((k + 1) * (w / perHertz s.ftype)) = s.data.getD (k + 1) 0 * perHertz s.ftype := by
      intro k hk
      have hd := g.data
      have hz : (List.zip s.args s.data)[k + 1]? = some ((k + 1 : ℕ) * w, s.data.getD (k + 1) 0) := by
        rw [List.getElem?_zip_eq_some]
        refine ⟨?_, ?_⟩
        · rw [g.args, List.getElem?_map, List.getElem?_range (by omega)]; rfl
        · rw [List.getElem?_eq_getElem (by omega), List.getD_eq_getElem _ _ (by omega)]
      have hzl : (List.zip s.args s.data).length = n := by rw [List.length_zip, g.length, g.data]; simp
      have hpt : (densityPoints s)[k + 1]? = some ((k + 1 : ℕ) * w / perHertz s.ftype, s.data.getD (k + 1) 0 * perHertz s.ftype) := by
        unfold densityPoints
        rw [List.getElem?_append_left (by simp [hzl]; omega), List.getElem?_cons_succ, List.getElem?_map, List.getElem?_drop,
          List.getElem?_dropLast, if_pos (by omega), show 1 + k = k + 1 by omega, hz]
        have : 0 ≤ s.data.getD (k + 1) 0 := by
          rw [List.getD_eq_getElem _ _ (by omega)]
          exact hp _ (List.getElem_mem _)
        simp only [Option.map_some, abs_of_nonneg this]
      obtain ⟨q, hq⟩ : ∃ q, (densityPoints s)[k + 2]? = some q := by
        refine ⟨_, List.getElem?_eq_getElem ?_⟩
        unfold densityPoints
        simp [hzl]
        omega
      have hlt : (k + 1 : ℕ) * w / perHertz s.ftype < q.1 := by
        have h1 : ((densityPoints s).map Prod.fst)[k + 1]? = some ((k + 1 : ℕ) * w / perHertz s.ftype) := by
          rw [List.getElem?_map, hpt]; rfl
        have h2 : ((densityPoints s).map Prod.fst)[k + 2]? = some q.1 := by rw [List.getElem?_map, hq]; rfl
        obtain ⟨l1, e1⟩ := List.getElem?_eq_some_iff.1 h1
        obtain ⟨l2, e2⟩ := List.getElem?_eq_some_iff.1 h2
        have := List.pairwise_iff_getElem.1 hr.points (k + 1) (k + 2) l1 l2 (by omega)
        rwa [e1, e2] at this
      have := hS (k + 1) _ q hpt hq ((k + 1) * (w / perHertz s.ftype)) (by push_cast; rw [mul_div_assoc]) (by
        have := hlt.le
        push_cast at this
        rwa [mul_div_assoc] at this)
      rw [this]
      push_cast
      rw [mul_div_assoc, sub_self]
      simp
    rw [show N / 2 - 1 = n - 2 by omega]
    have hang : 2 * Real.pi / perHertz s.ftype = toAngular s.ftype := by
      have := Real.pi_ne_zero
      cases s.ftype <;> simp [perHertz, toAngular]
    rw [sum_congr rfl fun k hk => by
      rw [hstep, hval k (mem_range.1 hk),
        show 2 * Real.pi * (((k : ℝ) + 1) * (w / perHertz s.ftype)) * (i * samplingPeriod s - j * samplingPeriod s) =
          2 * Real.pi / perHertz s.ftype * ((k + 1 : ℕ) * w) * (i * samplingPeriod s - j * samplingPeriod s) by push_cast; ring, hang,
        show s.data.getD (k + 1) 0 * perHertz s.ftype * (w / perHertz s.ftype) = w * s.data.getD (k + 1) 0 by field_simp, mul_assoc]]
    rw [← mul_sum]
    unfold covAt
    generalize (i : ℝ) * samplingPeriod s - j * samplingPeriod s = t
    rw [trapz_eq w n h2]
    obtain ⟨m, rfl⟩ : ∃ m, n = m + 2 := ⟨n - 2, by omega⟩
    rw [show m + 2 - 2 = m by omega, show m + 2 - 1 = m + 1 by omega, sum_range_succ, sum_range_succ']
    simp only [Nat.cast_zero, zero_mul, mul_zero, Real.cos_zero, mul_one]
    ring
  · rw [if_neg hcd, if_neg hcd]

example : OnGrid { args := [0, 1, 2], data := [0, 3, 1], ftype := .w } 3 1 :=
  ⟨by norm_num, by norm_num, by simp [List.range_succ], rfl⟩

/-- Every series simulated with random phases has the mean zero, whatever the random numbers. -/
theorem C190_mean {V : Type} [AddCommGroup V] [Module ℝ V] (a b : ℕ → ℕ → V) (r : ℝ → Spec → Spec) (s : Spec) (ns cases : ℕ)
    (hns : 1 ≤ ns) (method : List Char) (hm : ¬ method <:+: "exact".toList) (out : SimOut V)
    (ho : simulate r s (some ns) cases none method false a b = .ok out) (c : ℕ) (x : ℕ → V)
    (hx : ∀ j < out.rows.length, out.at j c = some (x j)) :
    ∑ j ∈ range out.rows.length, x j = 0 := by
  rw [simulate_ok r s ns cases hns method hm a b] at ho
  have ho := (Except.ok.inj ho).symm
  subst ho
  obtain ⟨h, hN, hh⟩ : ∃ h, ns + ns % 2 = 2 * h ∧ 1 ≤ h := ⟨(ns + ns % 2) / 2, by omega, by omega⟩
  simp only [hN, List.length_map, List.length_range, show 2 * h / 2 = h by omega] at hx ⊢
  have e : ∀ j ∈ range (2 * h), x j = simValue s h (fun k => a k c) (fun k => b k c) j := by
    intro j hj
    exact (at_rows (2 * h) cases (fun c j => simValue s h (fun k => a k c) (fun k => b k c) j) _ j c (x j) (hx j (mem_range.1 hj))).2.2
  rw [sum_congr rfl e]
  simp only [simValue_eq s h hh]
  rw [sum_comm]
  refine sum_eq_zero fun k hk => ?_
  have hk' := mem_range.1 hk
  rw [sum_add_distrib, ← sum_smul, ← sum_smul, ← mul_sum, sum_neg_distrib, ← mul_sum]
  have h1 := sum_cos (2 * h) (by omega) ((k + 1 : ℕ) : ℤ)
  have h2 := sum_sin (2 * h) (by omega) ((k + 1 : ℕ) : ℤ)
  rw [if_neg (by
    intro hd
    have := Int.le_of_dvd (by omega) hd
    omega)] at h1
  simp only [Int.cast_natCast] at h1 h2
  rw [h1, h2]
  simp

/-- A number of points that is odd is not kept: one more point is simulated. -/
theorem C190_odd_refuted {V : Type} [AddCommGroup V] [Module ℝ V] (a b : ℕ → ℕ → V) (r : ℝ → Spec → Spec) (s : Spec) (ns cases : ℕ)
    (hns : ns % 2 = 1) (method : List Char) (hm : ¬ method <:+: "exact".toList) :
    ∃ out, simulate r s (some ns) cases none method false a b = .ok out ∧ out.rows.length = ns + 1 := by
  refine ⟨_, simulate_ok r s ns cases (by omega) method hm a b, ?_⟩
  simp [hns]

/-- The derivative cannot be simulated with random phases: the call always raises an error. -/
theorem C190_derivative_refuted {V : Type} [AddCommGroup V] [Module ℝ V] (a b : ℕ → ℕ → V) (r : ℝ → Spec → Spec) (s : Spec)
    (ns : Option ℕ) (cases : ℕ) (dt : Option ℝ) (method : List Char) (hm : ¬ method <:+: "exact".toList) :
    ∃ e, simulate r s ns cases dt method true a b = .error e := by
  unfold simulate
  simp only [if_neg hm, if_true]
  generalize ns.getD _ + _ = m
  by_cases h : m = 0
  · exact ⟨_, if_pos h⟩
  · exact ⟨_, if_neg h⟩

/-- The first and the last value of the spectrum have no effect on the simulation with random phases. -/
theorem C190_ends_refuted {V : Type} [AddCommGroup V] [Module ℝ V] (a b : ℕ → ℕ → V) (r : ℝ → Spec → Spec) (args mid : List ℝ)
    (t : FreqType) (p q p' q' : ℝ) (ns : Option ℕ) (cases : ℕ) (derivative : Bool) (method : List Char)
    (hm : ¬ method <:+: "exact".toList) :
    simulate r { args := args, data := p :: (mid ++ [q]), ftype := t } ns cases none method derivative a b =
      simulate r { args := args, data := p' :: (mid ++ [q']), ftype := t } ns cases none method derivative a b := by
  have e : ∀ p q : ℝ, inner (p :: (mid ++ [q])) = mid := by
    intro p q
    unfold inner
    rw [← List.cons_append, List.dropLast_concat]
    rfl
  have e2 : ∀ h, simDens { args := args, data := p :: (mid ++ [q]), ftype := t } h =
      simDens { args := args, data := p' :: (mid ++ [q']), ftype := t } h := by
    intro h
    unfold simDens innerDens
    simp only [e]
    rfl
  have e3 : ∀ h, twoSided { args := args, data := p :: (mid ++ [q]), ftype := t } h =
      twoSided { args := args, data := p' :: (mid ++ [q']), ftype := t } h := by
    intro h
    unfold twoSided
    rw [e2]
  unfold simulate
  simp only [if_neg hm]
  unfold simValue
  simp only [e3]
  rfl

/-- The method `exact` simulates from the covariance function of the spectrum, unchanged. -/
theorem C191_exact {V : Type} [AddCommGroup V] [Module ℝ V] (a b : ℕ → ℕ → V) (r : ℝ → Spec → Spec) (s : Spec) (n : ℕ) (w : ℝ)
    (g : OnGrid s n w) (ns cases : ℕ) (derivative : Bool) :
    ∃ R, specToCov s 0 none none = .ok R ∧
      simulate r s (some ns) cases none "exact".toList derivative a b = Cov.sim R (some ns) cases none derivative a b := by
  have hok := g.ok 0 none none
  refine ⟨_, hok, ?_⟩
  unfold simulate
  rw [if_pos (List.infix_refl _)]
  simp only [hok, Option.getD_some]
  congr 1
  unfold cutAcf
  simp only []
  have h2 := g.two
  have hl := g.length
  have hT : 0 < samplingPeriod s := by
    unfold samplingPeriod
    rw [g.last]
    have h0 : (0 : ℝ) < (n - 1 : ℕ) := by exact_mod_cast (by omega : 0 < n - 1)
    refine div_pos ?_ (mul_pos h0 g.pos)
    cases s.ftype <;> simp [wmdt, Real.pi_pos]
  congr 1
  apply List.ext_getElem (by simp)
  intro k hk1 hk2
  simp only [List.length_map, List.length_range] at hk1
  have hkn : k < n := by
    simp [covValues, ntOf, rateOf] at hk2
    omega
  rw [List.getElem_map, List.getElem_range, if_neg, List.getD_eq_getElem _ _ hk2]
  simp only [List.any_eq_true, List.mem_range, decide_eq_true_eq, not_exists, not_and, not_lt]
  intro i hi
  rw [List.getD_eq_getElem?_getD, List.getElem?_map, List.getElem?_range (by
    simp [ntOf, rateOf]; omega)]
  simp only [Option.map_some, Option.getD_some, rateOf, one_mul, hl]
  have hle := le_pow2 (2 * n - 2) (by omega)
  have hpos := pow2_pos (2 * n - 2)
  have hpos' : (0 : ℝ) < pow2 (2 * n - 2) := by exact_mod_cast hpos
  rw [div_le_iff₀ hpos']
  have h3 : ((2 * n - 2 : ℕ) : ℝ) ≤ pow2 (2 * n - 2) := by exact_mod_cast hle
  have h4 : (i : ℝ) ≤ n := by exact_mod_cast (by omega : i ≤ n)
  have h5 : (i : ℝ) * samplingPeriod s ≤ n * samplingPeriod s := mul_le_mul_of_nonneg_right h4 hT.le
  exact mul_le_mul h5 h3 (by positivity) (by positivity)

/-- Every part of the word `exact`, also the empty string, selects the exact method; all other texts select random phases. -/
theorem C191_method {V : Type} [AddCommGroup V] [Module ℝ V] (a b : ℕ → ℕ → V) (r : ℝ → Spec → Spec) (s : Spec) (ns : Option ℕ)
    (cases : ℕ) (dt : Option ℝ) (derivative : Bool) (method : List Char) :
    (method <:+: "exact".toList → simulate r s ns cases dt method derivative a b =
      simulate r s ns cases dt "exact".toList derivative a b) ∧
    (¬ method <:+: "exact".toList → simulate r s ns cases dt method derivative a b =
      simulate r s ns cases dt "random".toList derivative a b) := by
  constructor
  · intro h
    unfold simulate
    simp only [if_pos h, if_pos (List.infix_refl _)]
  · intro h
    unfold simulate
    simp only [if_neg h, if_neg (by decide : ¬ "random".toList <:+: "exact".toList)]

example : "".toList <:+: "exact".toList ∧ "x".toList <:+: "exact".toList ∧ ¬ "Exact".toList <:+: "exact".toList := by decide

/-- The covariances of the exact simulation are those of the spectrum, at multiples of the sampling interval of the covariance function,
if the last covariance is not zero and the density of the covariances is positive and nowhere below 1e-5 of its maximum.  (If the last
covariance is zero they are not, see C180.) -/
theorem C191_covariance_partial {V : Type} [NormedAddCommGroup V] [InnerProductSpace ℝ V] {a b : ℕ → ℕ → V} (hw : White a b)
    (r : ℝ → Spec → Spec) (s : Spec) (n : ℕ) (w : ℝ) (g : OnGrid s n w) (hp : ∀ v ∈ s.data, 0 ≤ v) (d : ℝ)
    (hd : d = samplingPeriod s * (2 * n - 2 : ℕ) / pow2 (2 * n - 2))
    (hlast : 1 / 2 ^ 52 < |covAt s n w ((n - 1 : ℕ) * d)|) (hf : Flat (densityOf (fun j => if j < n then covAt s n w (j * d) else 0) n))
    (ns cases : ℕ) (hns : 1 ≤ ns) :
    ∃ out, simulate r s (some ns) cases none "exact".toList false a b = .ok out ∧
      out.times = (List.range ns).map (fun k : ℕ => (k : ℝ) * d) ∧ out.rows.length = ns ∧ (∀ row ∈ out.rows, row.length = cases) ∧
      ∀ i j c e x y, out.at i c = some x → out.at (i + j) e = some y →
        ⟪x, y⟫ = if c = e then (if j < n then covAt s n w (j * d) else 0) else 0 := by
  have h2 := g.two
  have hl := g.length
  obtain ⟨R, hR, hsim⟩ := C191_exact a b r s n w g ns cases false
  obtain ⟨R', hR', hlen, hlen2, hval⟩ := C176_covariance s n w g 0 none none
  obtain ⟨R'', hR'', h0, hmax⟩ := C176_energy s n w g 0 none none
  have e1 : R = R' := Except.ok.inj (hR.symm.trans hR')
  have e2 : R'' = R' := Except.ok.inj (hR''.symm.trans hR')
  subst e1; subst e2
  have hargs : R''.args = (List.range n).map fun j : ℕ => (j : ℝ) * d := by
    have := Except.ok.inj (hR.symm.trans (g.ok 0 none none))
    rw [this]
    simp only [ntOf, rateOf, one_mul]
    rw [show n - 1 + 1 = n by omega]
    refine List.map_congr_left fun k _ => ?_
    rw [hd]
    ring
  have hn : R''.data.length = n := by rw [hlen, hargs]; simp
  have hget : ∀ j, R''.data.getD j 0 = if j < n then covAt s n w (j * d) else 0 := by
    intro j
    rw [List.getD_eq_getElem?_getD]
    by_cases hj : j < n
    · rw [if_pos hj, hval j (j * d) (by rw [hargs, List.getElem?_map, List.getElem?_range hj]; rfl)]
      rfl
    · rw [if_neg hj, List.getElem?_eq_none (by omega)]
      rfl
  have hT : 0 < samplingPeriod s := by
    unfold samplingPeriod
    rw [g.last]
    have h0 : (0 : ℝ) < (n - 1 : ℕ) := by exact_mod_cast (by omega : 0 < n - 1)
    refine div_pos ?_ (mul_pos h0 g.pos)
    cases s.ftype <;> simp [wmdt, Real.pi_pos]
  have hd0 : 0 < d := by
    have h1 : (0 : ℝ) < (2 * n - 2 : ℕ) := by exact_mod_cast (by omega : 0 < 2 * n - 2)
    have h3 : (0 : ℝ) < pow2 (2 * n - 2) := by exact_mod_cast pow2_pos _
    rw [hd]
    positivity
  have gl : OnLags R'' n d := ⟨h2, hd0, hargs, hn⟩
  have hp' : ∀ j < n, 0 ≤ s.data.getD j 0 := by
    intro j hj
    have := g.data
    rw [List.getD_eq_getElem _ _ (by omega)]
    exact hp _ (List.getElem_mem _)
  have hmax' : ∀ v ∈ R''.data, v ≤ R''.data.getD 0 0 := by
    intro v hv
    rw [List.getD_eq_getElem?_getD, h0, Option.getD_some]
    exact (le_abs_self v).trans (hmax hp' v hv)
  have hfun : (fun j => R''.data.getD j 0) = fun j : ℕ => if j < n then covAt s n w (j * d) else 0 := funext hget
  obtain ⟨out, ho, ht, hrow, hcol, hcov⟩ := C180_exact_partial hw R'' n d gl hmax'
    (by rw [hget, if_pos (by omega)]; exact hlast) (by rw [hfun]; exact hf) ns cases hns none
  refine ⟨out, by rw [hsim]; exact ho, ht, hrow, hcol, fun i j c e x y hx hy => ?_⟩
  rw [hcov i j c e x y hx hy, hget]

/-- A spectrum with such covariances: two frequencies, the covariances are 5 / 2 and 1 / 2. -/
example : ∃ s : Spec, OnGrid s 2 1 ∧ (∀ v ∈ s.data, 0 ≤ v) ∧
    samplingPeriod s * (2 * 2 - 2 : ℕ) / pow2 (2 * 2 - 2) = Real.pi ∧
    covAt s 2 1 ((0 : ℕ) * Real.pi) = 5 / 2 ∧ covAt s 2 1 ((2 - 1 : ℕ) * Real.pi) = 1 / 2 ∧
    Flat (densityOf (fun j => if j < 2 then covAt s 2 1 (j * Real.pi) else 0) 2) := by
  have h0 : covAt { args := [0, 1], data := [3, 2], ftype := .w } 2 1 ((0 : ℕ) * Real.pi) = 5 / 2 := by
    simp [covAt, trapz]; norm_num
  have h1 : covAt { args := [0, 1], data := [3, 2], ftype := .w } 2 1 ((2 - 1 : ℕ) * Real.pi) = 1 / 2 := by
    simp [covAt, trapz, toAngular]; norm_num
  refine ⟨{ args := [0, 1], data := [3, 2], ftype := .w }, ⟨by norm_num, by norm_num, by simp [List.range_succ], rfl⟩, ?_, ?_, h0, h1, ?_⟩
  · intro v hv
    simp at hv
    rcases hv with rfl | rfl <;> norm_num
  · have : pow2 (2 * 2 - 2) = 2 := pow2_pow 1
    rw [this]
    simp [samplingPeriod, wmdt, lastOf]
  · have h : ∀ v, densityOf (fun j => if j < 2 then covAt { args := [0, 1], data := [3, 2], ftype := .w } 2 1 (j * Real.pi) else 0) 2 v =
        5 / 2 + Real.cos v := by
      intro v
      have h1' := h1
      simp only [show (2 - 1 : ℕ) = 1 by rfl] at h1'
      simp only [densityOf, show (2 - 1 : ℕ) = 1 by rfl, sum_range_one]
      rw [if_pos (by norm_num), if_pos (by norm_num), h0, zero_add, h1']
      simp
    refine ⟨fun v => ?_, fun v u => ?_⟩
    · rw [h]; linarith [Real.neg_one_le_cos v]
    · rw [h, h]; linarith [Real.neg_one_le_cos u, Real.cos_le_one v]

end

end Wafo.SpecD

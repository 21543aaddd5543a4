import Verif.Plot.Model
import Mathlib.Tactic.Linarith
import Mathlib.Tactic.FieldSimp
import Mathlib.Tactic.LinearCombination

/-!
Properties of the plot containers: C84, C85, C86 and C112.
-/

set_option linter.unusedSectionVars false

namespace Wafo.Plot

/-! ### Flags -/

/-- The eight scale names by the axes that are logarithmic. -/
def scaleName (x y z : Bool) : String :=
  match x, y, z with
  | false, false, false => "linear"
  | true, false, false => "xlog"
  | false, true, false => "ylog"
  | true, true, false => "xylog"
  | false, false, true => "zlog"
  | true, false, true => "xzlog"
  | false, true, true => "yzlog"
  | true, true, true => "xyzlog"

/-- The names say which axes are logarithmic. -/
theorem scaleName_chars (x y z : Bool) :
    ('x' ∈ (scaleName x y z).toList ↔ x = true) ∧ ('y' ∈ (scaleName x y z).toList ↔ y = true) ∧ ('z' ∈ (scaleName x y z).toList ↔ z = true) := by
  cases x <;> cases y <;> cases z <;> decide

/-- **C84 (scales).**  For every non-negative flag with `id = flag // 100` the axes named are: for `id < 8` those whose bit is set
in `id`, otherwise those whose decimal digit (units: x, tens: y, hundreds: z) is not zero. -/
theorem C84_plotscale (flag : ℤ) (h : 0 ≤ flag) :
    (flag < 800 → plotscale flag = .ok (scaleName (decide (flag / 100 % 2 = 1)) (decide (flag / 100 / 2 % 2 = 1)) (decide (flag / 100 / 4 % 2 = 1)))) ∧
    (800 ≤ flag → plotscale flag = .ok (scaleName (decide (flag / 100 % 10 ≠ 0)) (decide (flag / 1000 % 10 ≠ 0)) (decide (flag / 10000 % 10 ≠ 0)))) := by
  constructor
  · intro h8
    simp only [plotscale]
    have h1 : 0 ≤ flag / 100 := by omega
    have h2 : flag / 100 ≤ 7 := by omega
    rw [if_neg (by omega)]
    generalize flag / 100 = k at h1 h2 ⊢
    have : k = 0 ∨ k = 1 ∨ k = 2 ∨ k = 3 ∨ k = 4 ∨ k = 5 ∨ k = 6 ∨ k = 7 := by omega
    rcases this with rfl | rfl | rfl | rfl | rfl | rfl | rfl | rfl <;> decide
  · intro h8
    simp only [plotscale]
    rw [if_pos (by omega)]
    have e1 : flag / 100 / 10 = flag / 1000 := by omega
    have e2 : flag / 100 / 100 = flag / 10000 := by omega
    rw [e1, e2]
    have n1 : (flag / 100 % 10 > 0) ↔ flag / 100 % 10 ≠ 0 := by omega
    have n2 : (flag / 1000 % 10 > 0) ↔ flag / 1000 % 10 ≠ 0 := by omega
    have n3 : (flag / 10000 % 10 > 0) ↔ flag / 10000 % 10 ≠ 0 := by omega
    by_cases b1 : flag / 100 % 10 ≠ 0 <;> by_cases b2 : flag / 1000 % 10 ≠ 0 <;> by_cases b3 : flag / 10000 % 10 ≠ 0 <;>
      simp [n1, n2, n3, b1, b2, b3, scaleName, pyIndex]

/-- **C84 (negative flags).**  Flags from -800 to -1 silently select a scale from the end of the table; smaller ones raise. -/
theorem C84_negative (flag : ℤ) (h : flag < 0) : plotscale flag = .error .indexError ↔ flag < -800 := by
  simp only [plotscale]
  rw [if_neg (by omega)]
  unfold pyIndex
  rw [if_neg (by omega)]
  by_cases h8 : flag < -800
  · rw [if_neg (by simp; omega)]
    simp [h8]
  · rw [if_pos (by simp; omega)]
    simp only [h8, iff_false]
    have : ∃ k : ℕ, k < 8 ∧ (([("linear" : String), "xlog", "ylog", "xylog", "zlog", "xzlog", "yzlog", "xyzlog"].length : ℤ) + flag / 100).toNat = k :=
      ⟨_, by simp; omega, rfl⟩
    obtain ⟨k, hk, e⟩ := this
    rw [e]
    have : k = 0 ∨ k = 1 ∨ k = 2 ∨ k = 3 ∨ k = 4 ∨ k = 5 ∨ k = 6 ∨ k = 7 := by omega
    rcases this with rfl | rfl | rfl | rfl | rfl | rfl | rfl | rfl <;> simp

/-- **C85 (transform names).**  The name of a transform is translated back to its flag exactly for the digits 0 to 4 and 6. -/
theorem C85_round_trip_partial (flag : ℤ) :
    ((∃ s, transformId flag = .ok s ∧ plotflag2 s = .ok (flag / 10 % 10 * 10)) ↔ flag / 10 % 10 ≤ 4 ∨ flag / 10 % 10 = 6) := by
  unfold transformId
  have h1 : 0 ≤ flag / 10 % 10 := by omega
  have h2 : flag / 10 % 10 ≤ 9 := by omega
  generalize flag / 10 % 10 = k at h1 h2 ⊢
  have : k = 0 ∨ k = 1 ∨ k = 2 ∨ k = 3 ∨ k = 4 ∨ k = 5 ∨ k = 6 ∨ k = 7 ∨ k = 8 ∨ k = 9 := by omega
  rcases this with rfl | rfl | rfl | rfl | rfl | rfl | rfl | rfl | rfl | rfl
  · exact ⟨fun _ => by omega, fun _ => ⟨"f", by decide, by decide⟩⟩
  · exact ⟨fun _ => by omega, fun _ => ⟨"1-f", by decide, by decide⟩⟩
  · exact ⟨fun _ => by omega, fun _ => ⟨"cumtrapz(f)", by decide, by decide⟩⟩
  · exact ⟨fun _ => by omega, fun _ => ⟨"1-cumtrapz(f)", by decide, by decide⟩⟩
  · exact ⟨fun _ => by omega, fun _ => ⟨"log(f)", by decide, by decide⟩⟩
  · refine ⟨?_, fun h => by omega⟩
    rintro ⟨s, hs, hp⟩
    have : s = "log(1-f)" ++ "log(cumtrapz(f))" := by
      simp only [pyIndex] at hs
      simpa using hs.symm
    rw [this] at hp
    exact absurd hp (by decide)
  · exact ⟨fun _ => by omega, fun _ => ⟨"log(cumtrapz(f))", by decide, by decide⟩⟩
  · refine ⟨?_, fun h => by omega⟩
    rintro ⟨s, hs, hp⟩
    have : s = "log10(f)" := by
      simp only [pyIndex] at hs
      simpa using hs.symm
    rw [this] at hp
    exact absurd hp (by decide)
  · refine ⟨?_, fun h => by omega⟩
    rintro ⟨s, hs, -⟩
    simp [pyIndex] at hs
  · refine ⟨?_, fun h => by omega⟩
    rintro ⟨s, hs, -⟩
    simp [pyIndex] at hs

/-- **C85 (refuted).**  Digits 5 and 7 give a name that is not in the other table (KeyError), digits 8 and 9 raise IndexError. -/
theorem C85_refuted (flag : ℤ) :
    ((flag / 10 % 10 = 5 ∨ flag / 10 % 10 = 7) → ∃ s, transformId flag = .ok s ∧ plotflag2 s = .error .keyError) ∧
    (8 ≤ flag / 10 % 10 → transformId flag = .error .indexError) := by
  unfold transformId
  have h2 : flag / 10 % 10 ≤ 9 := by omega
  generalize flag / 10 % 10 = k at h2 ⊢
  constructor
  · rintro (rfl | rfl)
    · exact ⟨"log(1-f)" ++ "log(cumtrapz(f))", by decide, by decide⟩
    · exact ⟨"log10(f)", by decide, by decide⟩
  · intro h8
    have : k = 8 ∨ k = 9 := by omega
    rcases this with rfl | rfl <;> decide

/-! ### The distribution function -/

variable {α : Type*} [Field α] [LinearOrder α] [IsStrictOrderedRing α]

theorem cumtrapz_length : ∀ (acc : α) (d x : List α), d.length = x.length → (cumtrapzFrom acc d x).length = d.length - 1
  | _, [], x, _ => by cases x <;> simp [cumtrapzFrom]
  | _, [_], x, _ => by cases x <;> simp [cumtrapzFrom]
  | acc, y0 :: y1 :: ys, [], h => by simp at h
  | acc, y0 :: y1 :: ys, [_], h => by simp at h
  | acc, y0 :: y1 :: ys, x0 :: x1 :: xs, h => by
    have := cumtrapz_length (acc + (x1 - x0) * (y0 + y1) / 2) (y1 :: ys) (x1 :: xs) (by simpa using h)
    simp only [cumtrapzFrom, List.length_cons] at this ⊢
    omega

theorem cumtrapz_last : ∀ (acc : α) (d x : List α), (acc :: cumtrapzFrom acc d x).getLast? = some (acc + trapz d x)
  | acc, [], x => by cases x <;> simp [cumtrapzFrom, trapz]
  | acc, [_], x => by cases x <;> simp [cumtrapzFrom, trapz]
  | acc, y0 :: y1 :: ys, [] => by simp [cumtrapzFrom, trapz]
  | acc, y0 :: y1 :: ys, [_] => by simp [cumtrapzFrom, trapz]
  | acc, y0 :: y1 :: ys, x0 :: x1 :: xs => by
    have := cumtrapz_last (acc + (x1 - x0) * (y0 + y1) / 2) (y1 :: ys) (x1 :: xs)
    simp only [cumtrapzFrom, List.getLast?_cons_cons, trapz]
    rw [this]
    congr 1
    ring

theorem cumtrapz_mono : ∀ (acc : α) (d x : List α), (∀ v ∈ d, 0 ≤ v) → x.Pairwise (· < ·) → (acc :: cumtrapzFrom acc d x).Pairwise (· ≤ ·)
  | acc, [], x, _, _ => by cases x <;> simp [cumtrapzFrom]
  | acc, [_], x, _, _ => by cases x <;> simp [cumtrapzFrom]
  | acc, y0 :: y1 :: ys, [], _, _ => by simp [cumtrapzFrom]
  | acc, y0 :: y1 :: ys, [_], _, _ => by simp [cumtrapzFrom]
  | acc, y0 :: y1 :: ys, x0 :: x1 :: xs, hd, hx => by
    have ih := cumtrapz_mono (acc + (x1 - x0) * (y0 + y1) / 2) (y1 :: ys) (x1 :: xs) (fun v hv => hd v (List.mem_cons_of_mem _ hv))
      (List.pairwise_cons.1 hx).2
    have hx01 : x0 < x1 := (List.pairwise_cons.1 hx).1 x1 (by simp)
    have hstep : acc ≤ acc + (x1 - x0) * (y0 + y1) / 2 := by
      have h0 := hd y0 (by simp)
      have h1 := hd y1 (by simp)
      have : 0 ≤ (x1 - x0) * (y0 + y1) / 2 := div_nonneg (mul_nonneg (by linarith) (by linarith)) (by norm_num)
      linarith
    simp only [cumtrapzFrom]
    refine List.pairwise_cons.2 ⟨fun v hv => ?_, ih⟩
    rcases List.mem_cons.1 hv with rfl | hv
    · exact hstep
    · exact hstep.trans ((List.pairwise_cons.1 ih).1 v hv)

/-- **C86.**  `to_cdf` starts at 0, has as many values as data, ends at the trapezoidal integral, and is non-decreasing for
non-negative data on increasing abscissae, which are kept. -/
theorem C86_to_cdf (data args : List α) (hl : data.length = args.length) (hne : args ≠ []) :
    ∃ cdf, toCdf data args = .ok (cdf, args) ∧ cdf.length = data.length ∧ cdf.head? = some 0 ∧ cdf.getLast? = some (trapz data args) ∧
      ((∀ v ∈ data, 0 ≤ v) → args.Pairwise (· < ·) → cdf.Pairwise (· ≤ ·)) := by
  have hlen : args.length ≠ 0 := by simpa using hne
  refine ⟨0 :: cumtrapzFrom 0 data args, ?_, ?_, rfl, ?_, cumtrapz_mono 0 data args⟩
  · unfold toCdf
    rw [if_neg (by simpa using hl), if_neg hlen]
  · rw [List.length_cons, cumtrapz_length 0 data args hl]; omega
  · rw [cumtrapz_last, zero_add]

/-! ### Integrals -/

/-- The integral of the broken line from its first abscissa to `t`. -/
def area : List α → List α → α → α
  | y0 :: y1 :: ys, x0 :: x1 :: xs, t =>
    if t ≤ x1 then (t - x0) * (y0 + (y0 + (y1 - y0) / (x1 - x0) * (t - x0))) / 2
    else (x1 - x0) * (y0 + y1) / 2 + area (y1 :: ys) (x1 :: xs) t
  | _, _, _ => 0

theorem area_le (y0 y1 p0 p1 t : α) (ys xs : List α) (h : t ≤ p1) :
    area (y0 :: y1 :: ys) (p0 :: p1 :: xs) t = (t - p0) * (y0 + (y0 + (y1 - y0) / (p1 - p0) * (t - p0))) / 2 := by
  rw [area, if_pos h]

theorem area_gt (y0 y1 p0 p1 t : α) (ys xs : List α) (h : p1 < t) :
    area (y0 :: y1 :: ys) (p0 :: p1 :: xs) t = (p1 - p0) * (y0 + y1) / 2 + area (y1 :: ys) (p1 :: xs) t := by
  rw [area, if_neg (not_le.2 h)]

/-- The points strictly between the limits. -/
def inner (data args : List α) (a b : α) : List (α × α) := (List.zip data args).filter (fun p => decide (a < p.2) && decide (p.2 < b))

theorem allSome_map (l : List α) : allSome (l.map some) = some l := by
  induction l with
  | nil => rfl
  | cons a l ih => simp [allSome, ih]

/-- The trapezoidal sum for given limits. -/
def quad (fa fb : α) (data args : List α) (a b : α) : α :=
  trapz (fa :: (inner data args a b).map (fun p => p.1) ++ [fb]) (a :: (inner data args a b).map (fun p => p.2) ++ [b])

theorem integrate_quad (data args : List α) (x0 x1 a b fa fb : α) (h0 : args.head? = some x0) (h1 : args.getLast? = some x1)
    (ha : evalPoint data args a = some fa) (hb : evalPoint data args b = some fb) :
    integrate data args (some a) (some b) = .ok (some (quad fa fb data args a b)) := by
  unfold integrate getFiXi
  rw [h0, h1]
  simp only [Option.getD_some, ha, hb]
  have : some fa :: List.map (fun p : α × α => some p.1) (List.filter (fun p => decide (a < p.2) && decide (p.2 < b)) (data.zip args)) ++ [some fb] =
      (fa :: (inner data args a b).map (fun p => p.1) ++ [fb]).map some := by
    simp [inner, List.map_map, Function.comp_def]
  rw [this, allSome_map]
  rfl

theorem area_first (d x : List α) (x0 : α) (hx : x.head? = some x0) (hp : x.Pairwise (· < ·)) : area d x x0 = 0 := by
  match d, x with
  | y0 :: y1 :: ys, a :: b :: xs =>
    simp only [List.head?_cons, Option.some.injEq] at hx
    subst hx
    have : a < b := (List.pairwise_cons.1 hp).1 b (by simp)
    simp only [area]
    rw [if_pos this.le]
    ring
  | [], x => cases x <;> simp [area]
  | [_], x => cases x <;> simp [area]
  | _ :: _ :: _, [] => simp [area]
  | _ :: _ :: _, [_] => simp [area]

theorem eval_first (y0 y1 x0 x1 : α) (ys xs : List α) (hx : x0 < x1) : evalPoint (y0 :: y1 :: ys) (x0 :: x1 :: xs) x0 = some y0 := by
  simp only [evalPoint, lt_irrefl, if_false, if_pos hx.le, sub_self, mul_zero, add_zero]

theorem inner_cons (y0 x0 a b : α) (ys xs : List α) :
    inner (y0 :: ys) (x0 :: xs) a b = if a < x0 ∧ x0 < b then (y0, x0) :: inner ys xs a b else inner ys xs a b := by
  unfold inner
  rw [List.zip_cons_cons, List.filter_cons]
  simp

theorem inner_above (d x : List α) (a b : α) (h : ∀ v ∈ x, b ≤ v) : inner d x a b = [] := by
  unfold inner
  rw [List.filter_eq_nil_iff]
  intro p hp
  have := h p.2 (List.of_mem_zip hp).2
  simp only [Bool.and_eq_true, decide_eq_true_eq, not_and, not_lt]
  exact fun _ => this

theorem inner_lower (d x : List α) (a a' b : α) (h : ∀ v ∈ x, a < v) (h' : ∀ v ∈ x, a' < v) : inner d x a b = inner d x a' b := by
  unfold inner
  apply List.filter_congr
  intro p hp
  have h1 := h p.2 (List.of_mem_zip hp).2
  have h2 := h' p.2 (List.of_mem_zip hp).2
  simp [h1, h2]

/-- The trapezoidal sum is the difference of areas. -/
theorem quad_area : ∀ (d x : List α), d.length = x.length → x.Pairwise (· < ·) → 2 ≤ x.length →
    ∀ (a b x0 xl : α), x.head? = some x0 → x.getLast? = some xl → x0 ≤ a → a ≤ b → b ≤ xl →
    ∃ fa fb, evalPoint d x a = some fa ∧ evalPoint d x b = some fb ∧ quad fa fb d x a b = area d x b - area d x a
  | [], x, hl, _, h2, _, _, _, _, _, _, _, _, _ => by simp at hl; omega
  | [_], x, hl, _, h2, _, _, _, _, _, _, _, _, _ => by simp at hl; omega
  | y0 :: y1 :: ys, [], hl, _, h2, _, _, _, _, _, _, _, _, _ => by simp at hl
  | y0 :: y1 :: ys, [_], hl, _, h2, _, _, _, _, _, _, _, _, _ => by simp at hl
  | y0 :: y1 :: ys, p0 :: p1 :: xs, hl, hp, _, a, b, x0, xl, h0, h1, ha, hab, hb => by
    simp only [List.head?_cons, Option.some.injEq] at h0
    subst h0
    have hp01 : p0 < p1 := (List.pairwise_cons.1 hp).1 p1 (by simp)
    have hp' := (List.pairwise_cons.1 hp).2
    have hgt : ∀ v ∈ xs, p1 < v := (List.pairwise_cons.1 hp').1
    have hne : p1 - p0 ≠ 0 := by linarith
    have hna : ¬ a < p0 := not_lt.2 ha
    have hnb : ¬ b < p0 := not_lt.2 (ha.trans hab)
    by_cases hb1 : b ≤ p1
    · have ha1 : a ≤ p1 := hab.trans hb1
      refine ⟨_, _, by simp only [evalPoint]; rw [if_neg hna, if_pos ha1], by simp only [evalPoint]; rw [if_neg hnb, if_pos hb1], ?_⟩
      have hin : inner (y0 :: y1 :: ys) (p0 :: p1 :: xs) a b = [] := by
        rw [inner_cons, if_neg (by rintro ⟨h, -⟩; exact hna h), inner_cons, if_neg (by rintro ⟨-, h⟩; linarith)]
        exact inner_above _ _ _ _ (fun v hv => hb1.trans (hgt v hv).le)
      unfold quad
      rw [hin]
      simp only [List.map_nil, List.cons_append, List.nil_append, trapz, area, if_pos hb1, if_pos ha1]
      ring
    · push Not at hb1
      cases xs with
      | nil => simp only [List.getLast?_cons_cons, List.getLast?_singleton, Option.some.injEq] at h1; linarith
      | cons p2 xs =>
        have hl' : (y1 :: ys).length = (p1 :: p2 :: xs).length := by simpa using hl
        cases ys with
        | nil => simp at hl
        | cons y2 ys =>
        have h1' : (p1 :: p2 :: xs).getLast? = some xl := by rw [List.getLast?_cons_cons] at h1; exact h1
        by_cases ha1 : a < p1
        · obtain ⟨fa, fb, e1, e2, e3⟩ := quad_area (y1 :: y2 :: ys) (p1 :: p2 :: xs) hl' hp' (by simp) p1 b p1 xl rfl h1' le_rfl hb1.le hb
          have hp12 : p1 < p2 := hgt p2 (by simp)
          rw [eval_first y1 y2 p1 p2 ys xs hp12, Option.some.injEq] at e1
          subst e1
          refine ⟨_, fb, by simp only [evalPoint]; rw [if_neg hna, if_pos ha1.le], by rw [evalPoint, if_neg hnb, if_neg (not_le.2 hb1)]; exact e2, ?_⟩
          have hin : inner (y0 :: y1 :: y2 :: ys) (p0 :: p1 :: p2 :: xs) a b = (y1, p1) :: inner (y1 :: y2 :: ys) (p1 :: p2 :: xs) p1 b := by
            rw [inner_cons, if_neg (by rintro ⟨h, -⟩; exact hna h), inner_cons, if_pos ⟨ha1, hb1⟩, inner_cons y1 p1 p1 b,
              if_neg (by rintro ⟨h, -⟩; exact lt_irrefl _ h), inner_lower _ _ a p1 b (fun v hv => ha1.trans (hgt v hv)) hgt]
          have hr := area_first (y1 :: y2 :: ys) (p1 :: p2 :: xs) p1 rfl hp'
          rw [hr, sub_zero] at e3
          unfold quad at e3 ⊢
          rw [hin]
          simp only [List.map_cons, List.cons_append, trapz] at e3 ⊢
          rw [e3]
          rw [area_gt y0 y1 p0 p1 b _ _ hb1, area_le y0 y1 p0 p1 a _ _ ha1.le]
          field_simp
          ring
        · push Not at ha1
          obtain ⟨fa, fb, e1, e2, e3⟩ := quad_area (y1 :: y2 :: ys) (p1 :: p2 :: xs) hl' hp' (by simp) a b p1 xl rfl h1' ha1 hab hb
          have hp12 : p1 < p2 := hgt p2 (by simp)
          have hea : evalPoint (y0 :: y1 :: y2 :: ys) (p0 :: p1 :: p2 :: xs) a = some fa := by
            rcases eq_or_lt_of_le ha1 with rfl | h
            · rw [eval_first y1 y2 _ p2 ys xs hp12, Option.some.injEq] at e1
              subst e1
              simp only [evalPoint]
              rw [if_neg hna, if_pos le_rfl]
              congr 1
              field_simp
              ring
            · rw [evalPoint, if_neg hna, if_neg (not_le.2 h)]; exact e1
          have haa : area (y0 :: y1 :: y2 :: ys) (p0 :: p1 :: p2 :: xs) a = (p1 - p0) * (y0 + y1) / 2 + area (y1 :: y2 :: ys) (p1 :: p2 :: xs) a := by
            rcases eq_or_lt_of_le ha1 with rfl | h
            · rw [area_first (y1 :: y2 :: ys) (p1 :: p2 :: xs) _ rfl hp', area, if_pos le_rfl]
              field_simp
              ring
            · rw [area, if_neg (not_le.2 h)]
          refine ⟨fa, fb, hea, by rw [evalPoint, if_neg hnb, if_neg (not_le.2 hb1)]; exact e2, ?_⟩
          have hin : inner (y0 :: y1 :: y2 :: ys) (p0 :: p1 :: p2 :: xs) a b = inner (y1 :: y2 :: ys) (p1 :: p2 :: xs) a b := by
            rw [inner_cons, if_neg (by rintro ⟨h, -⟩; exact hna h)]
          unfold quad at e3 ⊢
          rw [hin, e3, haa, area_gt y0 y1 p0 p1 b _ _ hb1]
          ring

/-- The cumulative sums are the areas up to the data points. -/
theorem cumtrapz_area : ∀ (d x : List α), d.length = x.length → x.Pairwise (· < ·) → ∀ (acc : α) (i : ℕ) (v : α), x[i]? = some v →
    (acc :: cumtrapzFrom acc d x)[i]? = some (acc + area d x v)
  | [], x, hl, _, acc, i, v, hv => by
    have : x = [] := List.length_eq_zero_iff.1 (by simpa using hl.symm)
    subst this
    simp at hv
  | [_], [], hl, _, acc, i, v, hv => by simp at hl
  | [_], [p], hl, _, acc, i, v, hv => by
    cases i with
    | zero => simp [area]
    | succ i => simp at hv
  | [_], _ :: _ :: _, hl, _, acc, i, v, hv => by simp at hl
  | y0 :: y1 :: ys, [], hl, _, acc, i, v, hv => by simp at hl
  | y0 :: y1 :: ys, [_], hl, _, acc, i, v, hv => by simp at hl
  | y0 :: y1 :: ys, p0 :: p1 :: xs, hl, hp, acc, i, v, hv => by
    have hp01 : p0 < p1 := (List.pairwise_cons.1 hp).1 p1 (by simp)
    have hp' := (List.pairwise_cons.1 hp).2
    have hne : p1 - p0 ≠ 0 := by linarith
    cases i with
    | zero =>
      simp only [List.getElem?_cons_zero, Option.some.injEq] at hv
      subst hv
      rw [area_first _ _ p0 rfl hp, add_zero]
      rfl
    | succ i =>
      simp only [List.getElem?_cons_succ] at hv
      have ih := cumtrapz_area (y1 :: ys) (p1 :: xs) (by simpa using hl) hp' (acc + (p1 - p0) * (y0 + y1) / 2) i v hv
      simp only [cumtrapzFrom, List.getElem?_cons_succ]
      rw [ih]
      congr 1
      have hle : p1 ≤ v := by
        cases i with
        | zero => simp only [List.getElem?_cons_zero, Option.some.injEq] at hv; exact hv.le
        | succ i => exact ((List.pairwise_cons.1 hp').1 v (List.mem_of_getElem? (by simpa using hv))).le
      rcases eq_or_lt_of_le hle with rfl | h
      · rw [area_first (y1 :: ys) (p1 :: xs) _ rfl hp', area, if_pos le_rfl]
        field_simp
        ring
      · rw [area, if_neg (not_le.2 h)]
        ring

/-- **C112 (additive).**  Integrals over neighbouring intervals within the data add up. -/
theorem C112_additive (data args : List α) (hl : data.length = args.length) (hp : args.Pairwise (· < ·)) (h2 : 2 ≤ args.length)
    (x0 xl : α) (h0 : args.head? = some x0) (h1 : args.getLast? = some xl) (a b c : α) (ha : x0 ≤ a) (hab : a ≤ b) (hbc : b ≤ c) (hc : c ≤ xl) :
    ∃ I J, integrate data args (some a) (some b) = .ok (some I) ∧ integrate data args (some b) (some c) = .ok (some J) ∧
      integrate data args (some a) (some c) = .ok (some (I + J)) := by
  obtain ⟨fa, fb, e1, e2, e3⟩ := quad_area data args hl hp h2 a b x0 xl h0 h1 ha hab (hbc.trans hc)
  obtain ⟨fb', fc, f1, f2, f3⟩ := quad_area data args hl hp h2 b c x0 xl h0 h1 (ha.trans hab) hbc hc
  obtain ⟨fa', fc', g1, g2, g3⟩ := quad_area data args hl hp h2 a c x0 xl h0 h1 ha (hab.trans hbc) hc
  refine ⟨_, _, integrate_quad data args x0 xl a b fa fb h0 h1 e1 e2, integrate_quad data args x0 xl b c fb' fc h0 h1 f1 f2, ?_⟩
  rw [integrate_quad data args x0 xl a c fa' fc' h0 h1 g1 g2, e3, f3, g3]
  congr 2
  ring

/-- **C112 (data points).**  Between two data points the integral is the difference of the values of `to_cdf`. -/
theorem C112_cdf (data args : List α) (hl : data.length = args.length) (hp : args.Pairwise (· < ·)) (h2 : 2 ≤ args.length)
    (i j : ℕ) (hij : i ≤ j) (a b : α) (hi : args[i]? = some a) (hj : args[j]? = some b) :
    ∃ cdf u v, toCdf data args = .ok (cdf, args) ∧ cdf[i]? = some u ∧ cdf[j]? = some v ∧
      integrate data args (some a) (some b) = .ok (some (v - u)) := by
  have hne : args ≠ [] := by rintro rfl; simp at h2
  obtain ⟨x0, h0⟩ : ∃ x0, args.head? = some x0 := by cases args with
    | nil => simp at h2
    | cons p l => exact ⟨p, rfl⟩
  obtain ⟨xl, h1⟩ : ∃ xl, args.getLast? = some xl := ⟨_, List.getLast?_eq_some_getLast hne⟩
  have hle : ∀ (i j : ℕ) a b, i ≤ j → args[i]? = some a → args[j]? = some b → a ≤ b := by
    intro i j a b hij hi hj
    rcases eq_or_lt_of_le hij with rfl | h
    · rw [hi] at hj; exact (Option.some.inj hj).le
    · obtain ⟨hi', rfl⟩ := List.getElem?_eq_some_iff.1 hi
      obtain ⟨hj', rfl⟩ := List.getElem?_eq_some_iff.1 hj
      exact (List.pairwise_iff_getElem.1 hp i j hi' hj' h).le
  have ha : x0 ≤ a := hle 0 i x0 a (Nat.zero_le _) (by rw [← List.head?_eq_getElem?]; exact h0) hi
  have hb : b ≤ xl := by
    have hjl := (List.getElem?_eq_some_iff.1 hj).1
    exact hle j (args.length - 1) b xl (by omega) hj (by rw [← List.getLast?_eq_getElem?]; exact h1)
  obtain ⟨fa, fb, e1, e2, e3⟩ := quad_area data args hl hp h2 a b x0 xl h0 h1 ha (hle i j a b hij hi hj) hb
  refine ⟨0 :: cumtrapzFrom 0 data args, _, _, ?_, cumtrapz_area data args hl hp 0 i a hi, cumtrapz_area data args hl hp 0 j b hj, ?_⟩
  · unfold toCdf
    rw [if_neg (by simpa using hl), if_neg (by simpa using hne)]
  · rw [integrate_quad data args x0 xl a b fa fb h0 h1 e1 e2, e3]
    congr 2
    ring

/-- **C112 (default limits).**  Without limits the trapezoidal integral of all data is returned. -/
theorem C112_default (data args : List α) (hl : data.length = args.length) (hp : args.Pairwise (· < ·)) (h2 : 2 ≤ args.length) :
    integrate data args none none = .ok (some (trapz data args)) := by
  have hne : args ≠ [] := by rintro rfl; simp at h2
  obtain ⟨x0, h0⟩ : ∃ x0, args.head? = some x0 := by cases args with
    | nil => simp at h2
    | cons p l => exact ⟨p, rfl⟩
  obtain ⟨xl, h1⟩ : ∃ xl, args.getLast? = some xl := ⟨_, List.getLast?_eq_some_getLast hne⟩
  have e : integrate data args none none = integrate data args (some x0) (some xl) := by
    unfold integrate getFiXi
    rw [h0, h1]
    simp
  obtain ⟨cdf, u, v, c1, c2, c3, c4⟩ := C112_cdf data args hl hp h2 0 (args.length - 1) (Nat.zero_le _) x0 xl
    (by rw [← List.head?_eq_getElem?]; exact h0) (by rw [← List.getLast?_eq_getElem?]; exact h1)
  obtain ⟨cdf', d1, d2, d3, d4, -⟩ := C86_to_cdf data args hl hne
  rw [c1] at d1
  simp only [Except.ok.injEq, Prod.mk.injEq, and_true] at d1
  subst d1
  rw [e, c4]
  have hu : u = 0 := by
    rw [List.head?_eq_getElem?, c2] at d3
    exact Option.some.inj d3
  have hv : v = trapz data args := by
    rw [List.getLast?_eq_getElem?, d2, hl, c3] at d4
    exact Option.some.inj d4
  rw [hu, hv, sub_zero]

/-- **C112 (refuted: reversed limits).**  With the limits exchanged the interior data are ignored: here the integral of the hat
function is 1 from 0 to 2, but 0 from 2 to 0. -/
theorem C112_reversed_refuted : integrate [0, 1, 0] [0, 1, (2 : ℚ)] (some 0) (some 2) = .ok (some 1) ∧
    integrate [0, 1, 0] [0, 1, (2 : ℚ)] (some 2) (some 0) = .ok (some 0) := by decide +kernel

/-- **C112 (outside).**  A limit outside the abscissae gives nan. -/
theorem C112_outside (data args : List α) (x0 : α) (h0 : args.head? = some x0) (a b : α) (ha : a < x0) :
    integrate data args (some a) (some b) = .ok none := by
  have he : evalPoint data args a = none := by
    match data, args with
    | y0 :: y1 :: ys, p :: q :: xs =>
      simp only [List.head?_cons, Option.some.injEq] at h0
      subst h0
      simp only [evalPoint]
      rw [if_pos ha]
    | [], x => cases x <;> simp [evalPoint]
    | [_], x => cases x <;> simp [evalPoint]
    | _ :: _ :: _, [] => simp [evalPoint]
    | _ :: _ :: _, [_] => simp [evalPoint]
  have hne : args ≠ [] := by rintro rfl; simp at h0
  unfold integrate getFiXi
  rw [h0, List.getLast?_eq_some_getLast hne]
  simp only [Option.getD_some, he]
  rfl

/-- Concrete cases. -/
example : toCdf [1, 2, 0] [0, 1, (3 : ℚ)] = .ok ([0, 3 / 2, 7 / 2], [0, 1, 3]) ∧
    integrate [1, 2, 0] [0, 1, (3 : ℚ)] (some (1 / 2)) (some 2) = .ok (some (19 / 8)) ∧ plotscale 1100 = .ok "xylog" := by decide +kernel

/-- **C84 (plot types).**  The last decimal digit chooses the type of the plot, also for negative flags (where it is counted downwards from ten); the digits
6 to 9 raise IndexError. -/
theorem C84_plottype (tens digit : ℤ) (h0 : 0 ≤ digit) (h1 : digit ≤ 9) :
    plottype1d (10 * tens + digit) = match ["", "plot", "step", "stem", "errorbar", "bar"][digit.toNat]? with
      | some name => .ok name
      | none => .error .indexError := by
  unfold plottype1d
  have e : (10 * tens + digit) % 10 = digit := by omega
  rw [e]
  have : digit = 0 ∨ digit = 1 ∨ digit = 2 ∨ digit = 3 ∨ digit = 4 ∨ digit = 5 ∨ digit = 6 ∨ digit = 7 ∨ digit = 8 ∨ digit = 9 := by omega
  clear h0 h1 e
  rcases this with rfl | rfl | rfl | rfl | rfl | rfl | rfl | rfl | rfl | rfl <;> decide

example : plottype1d 12 = .ok "step" := by decide

end Wafo.Plot

import Verif.Slopes.Lemmas
import Mathlib.Data.Rat.Floor
import Mathlib.Algebra.Order.Field.Rat
import Mathlib.Analysis.SpecialFunctions.Sqrt
import Mathlib.Tactic.NormNum

set_option linter.unusedSectionVars false

/-! Monotonicity of the Hermite interpolants built from `slopes` (C70, C71). -/

namespace Wafo.Slopes

/-- **C70 (names).**  Every documented name selects its method; upper and lower case do not matter, nor does anything after the third letter; a name
that starts otherwise raises KeyError. -/
theorem C70_names :
    methodNamed "Catmull-Rom" = .ok .catmullRom ∧ methodNamed "Cardinal" = .ok .cardinal ∧ methodNamed "parabola" = .ok .parabola ∧
    methodNamed "secant" = .ok .secant ∧ methodNamed "akima" = .ok .akima ∧ methodNamed "pchip" = .ok .pchip ∧
    methodNamed "stineman" = .ok .stineman ∧ methodNamed "steffen" = .ok .steffen ∧ methodNamed "fritsch-carlson" = .ok .fritsch ∧
    (∀ a b : String, (a.toList.map Char.toLower).take 3 = (b.toList.map Char.toLower).take 3 → methodNamed a = methodNamed b) ∧
    ∀ a : String, methodNamed a = .error .keyError ↔
      (a.toList.map Char.toLower).take 3 ∉ ["cat", "car", "par", "sec", "aki", "pch", "sti", "ste", "fri"].map String.toList := by
  refine ⟨by decide, by decide, by decide, by decide, by decide, by decide, by decide, by decide, by decide, fun a b h => by rw [methodNamed, h, methodNamed], fun a => ?_⟩
  unfold methodNamed
  generalize (a.toList.map Char.toLower).take 3 = l
  have key : ∀ s : String, String.ofList l = s ↔ l = s.toList := by
    intro s
    constructor
    · rintro rfl
      rw [String.toList_ofList]
    · rintro rfl
      rw [String.ofList_toList]
  unfold methodOf
  simp only [key]
  split_ifs <;> simp_all

section general
variable {α : Type*} [Field α] [LinearOrder α] [IsStrictOrderedRing α]

/-- Secant of interval `i`. -/
def sec (x y : List α) (i : ℕ) : α := (y.getD (i + 1) 0 - y.getD i 0) / (x.getD (i + 1) 0 - x.getD i 0)

def width (x : List α) (i : ℕ) : α := x.getD (i + 1) 0 - x.getD i 0

theorem width_pos (x : List α) (hx : x.Pairwise (· < ·)) (i : ℕ) (hi : i + 1 < x.length) : 0 < width x i := by
  unfold width
  rw [List.getD_eq_getElem _ _ hi, List.getD_eq_getElem _ _ (by omega)]
  exact sub_pos.2 (List.pairwise_iff_getElem.1 hx _ _ _ _ (by omega))

theorem slopes0_ok (eps garb : α) (rt : α → α) (x y : List α) (meth : Method) (tension : α) (mono : Bool)
    (hx : x.Pairwise (· < ·)) (hy : y.length = x.length) (hn : 2 ≤ x.length)
    (h3 : meth = .steffen → 3 ≤ x.length) :
    slopes0 eps garb rt x y meth tension mono = .ok ((List.range x.length).map
      (if mono then fixMonotone rt x.length (sec x y) (rawSlopes eps garb tension x.length (fun k => x.getD k 0)
          (fun k => y.getD k 0) (width x) (sec x y) meth)
        else rawSlopes eps garb tension x.length (fun k => x.getD k 0) (fun k => y.getD k 0) (width x) (sec x y) meth)) := by
  have c1 : ¬ ((List.range (x.length - 1)).any (fun i => decide (x.getD (i + 1) 0 - x.getD i 0 ≤ 0)) = true) := by
    rw [List.any_eq_true]
    rintro ⟨i, hi, h⟩
    rw [List.mem_range] at hi
    have := width_pos x hx i (by omega)
    rw [decide_eq_true_eq] at h
    exact absurd h (not_le.2 this)
  have c3 : ¬ (x.length < 2 ∨ (meth = .steffen ∧ x.length < 3)) := by
    rintro (h | ⟨h, h'⟩)
    · omega
    · have := h3 h; omega
  unfold slopes0
  simp only
  rw [if_neg c1, if_neg (not_not.2 hy), if_neg c3]
  rfl

theorem getD_map_range (n k : ℕ) (f : ℕ → α) (hk : k < n) : ((List.range n).map f).getD k 0 = f k := by
  rw [List.getD_eq_getElem _ _ (by simpa using hk)]; simp

end general

/-- **C70**  For strictly increasing abscissae and any data, `slopes(x, y, 'pchip')` succeeds, and the cubic Hermite
interpolant with these slopes is monotone on each interval in the direction of the data; it is monotone as a whole
whenever the data are. -/
theorem C70_pchip (eps garb : ℝ) (rt : ℝ → ℝ) (x y : List ℝ) (tension : ℝ) (hx : x.Pairwise (· < ·))
    (hy : y.length = x.length) (hn : 2 ≤ x.length) :
    ∃ d, slopes eps garb rt x y .pchip tension false false = .ok d ∧ d.length = x.length ∧
      ∀ f, IsHermite x y d f →
        (∀ i, i + 1 < x.length →
          (y.getD i 0 ≤ y.getD (i + 1) 0 → MonotoneOn f (Set.Icc (x.getD i 0) (x.getD (i + 1) 0))) ∧
          (y.getD (i + 1) 0 ≤ y.getD i 0 → AntitoneOn f (Set.Icc (x.getD i 0) (x.getD (i + 1) 0)))) ∧
        (y.Pairwise (· ≤ ·) → MonotoneOn f (Set.Icc (x.getD 0 0) (x.getD (x.length - 1) 0))) ∧
        (y.Pairwise (· ≥ ·) → AntitoneOn f (Set.Icc (x.getD 0 0) (x.getD (x.length - 1) 0))) := by
  refine ⟨_, slopes0_ok eps garb rt x y .pchip tension false hx hy hn (by simp), by simp, ?_⟩
  intro f hf
  have := hermite_monotone x y _ hx f hf (by
    intro i hi
    rw [getD_map_range _ _ _ (by omega), getD_map_range _ _ _ hi]
    exact pchip_within x.length (width x) (sec x y) hn (fun i hi => width_pos x hx i hi) i hi)
  refine ⟨this.1, fun h => this.2.1 fun i hi => ?_, fun h => this.2.2 fun i hi => ?_⟩
  · rw [List.getD_eq_getElem _ _ (by omega), List.getD_eq_getElem _ _ (by omega)]
    exact List.pairwise_iff_getElem.1 h _ _ _ _ (by omega)
  · rw [List.getD_eq_getElem _ _ (by omega), List.getD_eq_getElem _ _ (by omega)]
    exact List.pairwise_iff_getElem.1 h _ _ _ _ (by omega)

example : slopes (0 : ℚ) 0 id [0, 1, 2, 4] [0, 1, 3, 3] .pchip 0 false false = .ok [1 / 2, 4 / 3, 0, 0] := by
  decide +kernel

/-! ### C71: the monotonicity fix -/

section fix
variable {α : Type*} [Field α] [LinearOrder α] [IsStrictOrderedRing α]

/-- The loop, unrolled: the entry `k` is set last by index `k` if that is in the list, else by `k - 1`. -/
theorem fixLoop_eq (rt : α → α) (m yp : ℕ → α) (F : ℕ → Bool) (N k : ℕ) :
    fixLoop rt m yp ((List.range N).filter F) k =
      if k < N ∧ F k = true then 3 / rt (dist m yp k) * (yp k / m k) * m k
      else if 0 < k ∧ k ≤ N ∧ F (k - 1) = true then
        3 / rt (dist m yp (k - 1)) * (yp k / m (k - 1)) * m (k - 1)
      else yp k := by
  induction N with
  | zero => simp [fixLoop]; intro h1 h2; omega
  | succ N ih =>
    rw [List.range_succ, List.filter_append]
    by_cases hF : F N = true
    · have : [N].filter F = [N] := by simp [hF]
      rw [this]
      unfold fixLoop at ih ⊢
      rw [List.foldl_append]
      simp only [List.foldl_cons, List.foldl_nil]
      by_cases h1 : k = N + 1
      · subst h1
        rw [if_pos rfl, if_neg (by simp), if_pos (by simp [hF])]; simp
      · rw [if_neg h1]
        by_cases h2 : k = N
        · subst h2; rw [if_pos rfl, if_pos ⟨by omega, hF⟩]
        · rw [if_neg h2, ih]
          have e1 : (k < N ∧ F k = true) ↔ (k < N + 1 ∧ F k = true) := by
            constructor <;> rintro ⟨a, b⟩ <;> exact ⟨by omega, b⟩
          have e2 : (0 < k ∧ k ≤ N ∧ F (k - 1) = true) ↔ (0 < k ∧ k ≤ N + 1 ∧ F (k - 1) = true) := by
            constructor <;> rintro ⟨a, b, c⟩ <;> exact ⟨a, by omega, c⟩
          simp only [e1, e2]
    · have : [N].filter F = [] := by simp [hF]
      rw [this, List.append_nil, ih]
      have e1 : (k < N ∧ F k = true) ↔ (k < N + 1 ∧ F k = true) := by
        constructor
        · rintro ⟨a, b⟩; exact ⟨by omega, b⟩
        · rintro ⟨a, b⟩
          refine ⟨?_, b⟩
          rcases Nat.lt_or_ge k N with h | h
          · exact h
          · obtain rfl : k = N := by omega
            exact absurd b hF
      have e2 : (0 < k ∧ k ≤ N ∧ F (k - 1) = true) ↔ (0 < k ∧ k ≤ N + 1 ∧ F (k - 1) = true) := by
        constructor
        · rintro ⟨a, b, c⟩; exact ⟨a, by omega, c⟩
        · rintro ⟨a, b, c⟩
          refine ⟨a, ?_, c⟩
          rcases Nat.lt_or_ge N k with h | h
          · obtain rfl : k = N + 1 := by omega
            simp at c; exact absurd c hF
          · exact h
      simp only [e1, e2]

end fix

/-- The interval `i` is adjusted by the loop: the position vector of the slopes (after flattening) leaves the circle. -/
def Flagged (n : ℕ) (m yp : ℕ → ℝ) (i : ℕ) : Prop := i + 1 < n ∧ 9 < dist m (flatten n m yp) i

/-- A slope with the direction of the secant. -/
def SameDir (m d : ℝ) : Prop := 0 ≤ m * d

theorem within_of_ratio (m d : ℝ) (hm : m ≠ 0) (h0 : 0 ≤ d / m) (h3 : d / m ≤ 3) : Within m d := by
  rcases lt_or_gt_of_ne hm with h | h
  · right
    rw [div_le_iff_of_neg h] at h3
    exact ⟨h3, by rw [le_div_iff_of_neg h] at h0; simpa using h0⟩
  · left
    rw [div_le_iff₀ h] at h3
    rw [le_div_iff₀ h] at h0
    exact ⟨by simpa using h0, h3⟩

/-- After the fix the slopes at both ends of interval `i` are within the limits of its secant, if the raw slopes have
the direction of the secants next to them, and, in case the loop adjusts both `i` and `i + 1`, the raw slope between
them was within the limits. -/
theorem fix_within (n : ℕ) (m yp : ℕ → ℝ) (i : ℕ) (hi : i + 1 < n)
    (hdir : ∀ j, j + 1 < n → SameDir (m j) (yp j) ∧ SameDir (m j) (yp (j + 1)))
    (hadj : Flagged n m yp i → Flagged n m yp (i + 1) → Within (m i) (yp (i + 1))) :
    Within (m i) (fixMonotone Real.sqrt n m yp i) ∧ Within (m i) (fixMonotone Real.sqrt n m yp (i + 1)) := by
  set y1 := flatten n m yp with hy1
  have hF : ∀ k, (fun i => decide (dist m y1 i > 9)) k = true ↔ 9 < dist m y1 k := by intro k; simp
  have hdir1 : ∀ j, j + 1 < n → 0 ≤ y1 j / m j ∧ 0 ≤ y1 (j + 1) / m j := by
    intro j hj
    obtain ⟨a, b⟩ := hdir j hj
    have aux : ∀ d : ℝ, 0 ≤ m j * d → 0 ≤ d / m j := by
      intro d hd
      have : d / m j = (m j * d) / (m j) ^ 2 := by
        by_cases h : m j = 0
        · simp [h]
        · field_simp
      rw [this]; exact div_nonneg hd (sq_nonneg _)
    constructor
    · simp only [hy1, flatten]; split_ifs
      · simp
      · exact aux _ a
    · simp only [hy1, flatten]; split_ifs
      · simp
      · exact aux _ b
  -- the factor of an adjusted interval
  have htau : ∀ j, 9 < dist m y1 j → 0 ≤ 3 / Real.sqrt (dist m y1 j) ∧ 3 / Real.sqrt (dist m y1 j) ≤ 1 := by
    intro j hj
    have h3 : 3 ≤ Real.sqrt (dist m y1 j) := by
      rw [show (3 : ℝ) = Real.sqrt 9 by rw [show (9 : ℝ) = 3 ^ 2 by norm_num]; simp]
      exact Real.sqrt_le_sqrt hj.le
    exact ⟨by positivity, by rw [div_le_one (by linarith)]; exact h3⟩
  have hcirc : ∀ j, 9 < dist m y1 j → 0 ≤ y1 j / m j → 0 ≤ y1 (j + 1) / m j →
      3 / Real.sqrt (dist m y1 j) * (y1 j / m j) ≤ 3 ∧ 3 / Real.sqrt (dist m y1 j) * (y1 (j + 1) / m j) ≤ 3 := by
    intro j hj ha hb
    have hpos : 0 < Real.sqrt (dist m y1 j) := Real.sqrt_pos.2 (by linarith)
    have key : ∀ v : ℝ, 0 ≤ v → v ^ 2 ≤ dist m y1 j → 3 / Real.sqrt (dist m y1 j) * v ≤ 3 := by
      intro v hv hv2
      rw [div_mul_eq_mul_div, div_le_iff₀ hpos]
      have := Real.le_sqrt_of_sq_le hv2
      linarith
    refine ⟨key _ ha ?_, key _ hb ?_⟩
    · simp only [dist]; nlinarith [sq_nonneg (y1 (j + 1) / m j)]
    · simp only [dist]; nlinarith [sq_nonneg (y1 j / m j)]
  by_cases hm0 : m i = 0
  · -- flat interval
    have z0 : y1 i = 0 := by simp only [hy1, flatten]; rw [if_pos (.inl ⟨hi, hm0⟩)]
    have z1 : y1 (i + 1) = 0 := by simp only [hy1, flatten]; rw [if_pos (.inr ⟨by omega, by simpa using hm0⟩)]
    have w : ∀ k, y1 k = 0 → fixMonotone Real.sqrt n m yp k = 0 := by
      intro k hk
      simp only [fixMonotone, ← hy1]
      rw [fixLoop_eq]
      simp [hk]
    rw [w i z0, w (i + 1) z1, hm0]
    exact ⟨.inl ⟨le_rfl, by simp⟩, .inl ⟨le_rfl, by simp⟩⟩
  obtain ⟨ha, hb⟩ := hdir1 i hi
  -- unadjusted ratios are at most 3
  have hsmall : ¬ 9 < dist m y1 i → y1 i / m i ≤ 3 ∧ y1 (i + 1) / m i ≤ 3 := by
    intro h
    rw [not_lt] at h
    simp only [dist] at h
    constructor
    · nlinarith [sq_nonneg (y1 (i + 1) / m i)]
    · nlinarith [sq_nonneg (y1 i / m i)]
  constructor
  · simp only [fixMonotone, ← hy1]
    rw [fixLoop_eq]
    split_ifs with c1 c2
    · have c := (hF i).1 c1.2
      have := (hcirc i c ha hb).1
      refine within_of_ratio _ _ hm0 ?_ ?_
      · rw [mul_div_cancel_right₀ _ hm0]; exact mul_nonneg (htau i c).1 ha
      · rw [mul_div_cancel_right₀ _ hm0]; exact this
    · have c := (hF (i - 1)).1 c2.2.2
      have hno : ¬ 9 < dist m y1 i := fun h => c1 ⟨by omega, (hF i).2 h⟩
      obtain ⟨t0, t1⟩ := htau (i - 1) c
      have hmp : m (i - 1) ≠ 0 := by
        intro h
        have z0 : y1 (i - 1) = 0 := by simp only [hy1, flatten]; rw [if_pos (.inl ⟨by omega, h⟩)]
        simp only [dist, h, div_zero] at c; norm_num at c
      have e : 3 / Real.sqrt (dist m y1 (i - 1)) * (y1 i / m (i - 1)) * m (i - 1) =
          3 / Real.sqrt (dist m y1 (i - 1)) * y1 i := by field_simp
      rw [e]
      refine within_of_ratio _ _ hm0 ?_ ?_
      · rw [mul_div_assoc]; exact mul_nonneg t0 ha
      · rw [mul_div_assoc]
        calc _ ≤ 1 * (y1 i / m i) := mul_le_mul_of_nonneg_right t1 ha
          _ ≤ 3 := by rw [one_mul]; exact (hsmall hno).1
    · have hno : ¬ 9 < dist m y1 i := fun h => c1 ⟨by omega, (hF i).2 h⟩
      exact within_of_ratio _ _ hm0 ha (hsmall hno).1
  · simp only [fixMonotone, ← hy1]
    rw [fixLoop_eq]
    split_ifs with c1 c2
    · -- the next interval is adjusted
      have c := (hF (i + 1)).1 c1.2
      have hb3 : y1 (i + 1) / m i ≤ 3 := by
        by_cases h : 9 < dist m y1 i
        · have := hadj ⟨hi, h⟩ ⟨by omega, c⟩
          simp only [hy1, flatten]
          split_ifs
          · simp
          · rcases this with ⟨g1, g2⟩ | ⟨g1, g2⟩
            · rcases lt_or_gt_of_ne hm0 with hneg | hpos
              · rw [div_le_iff_of_neg hneg]; linarith
              · rw [div_le_iff₀ hpos]; exact g2
            · rcases lt_or_gt_of_ne hm0 with hneg | hpos
              · rw [div_le_iff_of_neg hneg]; exact g1
              · rw [div_le_iff₀ hpos]; linarith
        · exact (hsmall h).2
      obtain ⟨t0, t1⟩ := htau (i + 1) c
      have hmp : m (i + 1) ≠ 0 := by
        intro h
        simp only [dist, h, div_zero] at c; norm_num at c
      have e : 3 / Real.sqrt (dist m y1 (i + 1)) * (y1 (i + 1) / m (i + 1)) * m (i + 1) =
          3 / Real.sqrt (dist m y1 (i + 1)) * y1 (i + 1) := by field_simp
      rw [e]
      refine within_of_ratio _ _ hm0 ?_ ?_
      · rw [mul_div_assoc]; exact mul_nonneg t0 hb
      · rw [mul_div_assoc]
        calc _ ≤ 1 * (y1 (i + 1) / m i) := mul_le_mul_of_nonneg_right t1 hb
          _ ≤ 3 := by rw [one_mul]; exact hb3
    · simp only [Nat.add_sub_cancel] at c2 ⊢
      have c := (hF i).1 c2.2.2
      have := (hcirc i c ha hb).2
      refine within_of_ratio _ _ hm0 ?_ ?_
      · rw [mul_div_cancel_right₀ _ hm0]; exact mul_nonneg (htau i c).1 hb
      · rw [mul_div_cancel_right₀ _ hm0]; exact this
    · have hno : ¬ 9 < dist m y1 i := by
        intro h
        exact c2 ⟨by omega, by omega, by simpa using (hF i).2 h⟩
      exact within_of_ratio _ _ hm0 hb (hsmall hno).2

end Wafo.Slopes

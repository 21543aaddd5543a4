import Verif.Tran.General
import Verif.Tran.DataModel

/-!
Properties C307 and C308 of `TrData`.
-/

set_option linter.unusedSectionVars false

namespace Wafo.Tran

variable {α : Type} [Field α] [LinearOrder α] [IsStrictOrderedRing α] [FloorRing α]

/-- At least two increasing abscissae from `a` to `b` with as many ordinates, and not more than `tranproc` keeps. -/
structure Table (nmax : List α → ℕ) (x f : List α) (a b : α) : Prop where
  sorted : x.Pairwise (· < ·)
  two : 2 ≤ x.length
  len : f.length = x.length
  first : x[0]? = some a
  last : x.getLast? = some b
  kept : x.length ≤ nmax x

theorem resampled_mono (x f : List α) (hx : x.Pairwise (· < ·)) (h2 : 2 ≤ x.length) (hf : f.Pairwise (· ≤ ·)) (a b : α)
    (hab : a ≤ b) : (resampled (fun x f v => LevelX.npInterp v x f) x f a b).Pairwise (· ≤ ·) := by
  unfold resampled
  rw [List.pairwise_map]
  refine List.pairwise_lt_range.imp ?_
  intro i j hij
  apply npInterp_mono x f hx hf
  have h1 : (i : α) ≤ j := by exact_mod_cast hij.le
  have h3 : (0 : α) ≤ (b - a) / ((x.length : α) - 1) := by
    apply div_nonneg (by linarith)
    have : (2 : α) ≤ x.length := by exact_mod_cast h2
    linarith
  nlinarith [mul_le_mul_of_nonneg_right h1 h3]

theorem table_le {nmax : List α → ℕ} {x f : List α} {a b : α} (T : Table nmax x f a b) : a < b := by
  have hb := T.last
  rw [List.getLast?_eq_getElem?] at hb
  obtain ⟨i1, e1⟩ := List.getElem?_eq_some_iff.1 T.first
  obtain ⟨i2, e2⟩ := List.getElem?_eq_some_iff.1 hb
  rw [← e1, ← e2]
  have := T.two
  exact List.pairwise_iff_getElem.1 T.sorted _ _ _ _ (by omega)

/-- Between the end points `tranproc` is increasing for increasing ordinates and stays between these. -/
theorem tranproc_mono (eps : α) (nmax : List α → ℕ) (x f x0 : List α) (a b lo hi : α) (T : Table nmax x f a b)
    (hf : f.Pairwise (· ≤ ·)) (hlo : ∀ v ∈ f, lo ≤ v ∧ v ≤ hi) (hx0 : x0 ≠ []) (hin : ∀ v ∈ x0, a ≤ v ∧ v ≤ b) :
    ∃ y, tranproc0 eps (fun x f v => LevelX.npInterp v x f) nmax x f x0 = .ok y ∧ y.length = x0.length ∧
      (∀ w ∈ y, lo ≤ w ∧ w ≤ hi) ∧
      ∀ (i j : ℕ) v v' w w', x0[i]? = some v → x0[j]? = some v' → y[i]? = some w → y[j]? = some w' → v ≤ v' → w ≤ w' := by
  obtain ⟨F, y, hF, h1, h2, h3⟩ := C50_general_partial eps (fun x f v => LevelX.npInterp v x f) nmax x f x0 T.sorted T.two T.len hx0 a b
    T.first T.last hin T.kept
  have hab := table_le T
  have hn : (0 : α) ≤ (x.length : α) - 1 := by
    have : (2 : α) ≤ x.length := by exact_mod_cast T.two
    linarith
  have hFm : F.Pairwise (· ≤ ·) := by
    rcases hF with rfl | rfl
    · exact hf
    · exact resampled_mono x f T.sorted T.two hf a b hab.le
  have hxn : x ≠ [] := by rintro rfl; have := T.two; simp at this
  have hfn : f ≠ [] := by rintro rfl; have := T.two; have := T.len; simp at this; omega
  have hFb : ∀ v ∈ F, lo ≤ v ∧ v ≤ hi := by
    rcases hF with rfl | rfl
    · exact hlo
    · intro v hv
      obtain ⟨k, -, rfl⟩ := List.mem_map.1 hv
      exact npInterp_bounds lo hi x f T.sorted hxn hfn hlo _
  refine ⟨y, h1, h2, ?_, ?_⟩
  · intro w hw
    obtain ⟨i, hi', hwi⟩ := List.getElem_of_mem hw
    exact polygon_bounds F lo hi hFb _ w (h3 i _ w (List.getElem?_eq_getElem (by omega)) (by
      rw [List.getElem?_eq_getElem hi', hwi]))
  · intro i j v v' w w' hv hv' hw hw' hvv
    refine polygon_mono F hFm _ _ w w' (h3 i v w hv hw) (h3 j v' w' hv' hw') ?_
    apply div_le_div_of_nonneg_right _ (by linarith)
    exact mul_le_mul_of_nonneg_left (by linarith) hn

/-- **C307**  A transformation given by increasing tables is increasing in both directions, and maps the range of the one
table into that of the other.  Partial: only between the end points of the tables. -/
theorem C307_monotone_partial (eps : α) (nmax : List α → ℕ) (g : TrData α) (xa xb ya yb : α)
    (T : Table nmax g.args g.data xa xb) (T' : Table nmax g.data g.args ya yb) :
    (∀ xs, xs ≠ [] → (∀ v ∈ xs, xa ≤ v ∧ v ≤ xb) → ∃ y, g.dat2gauss eps nmax xs = .ok y ∧ y.length = xs.length ∧
      (∀ w ∈ y, ya ≤ w ∧ w ≤ yb) ∧ ∀ (i j : ℕ) v v' w w', xs[i]? = some v → xs[j]? = some v' → y[i]? = some w →
        y[j]? = some w' → v ≤ v' → w ≤ w') ∧
    (∀ ys, ys ≠ [] → (∀ v ∈ ys, ya ≤ v ∧ v ≤ yb) → ∃ x, g.gauss2dat eps nmax ys = .ok x ∧ x.length = ys.length ∧
      (∀ w ∈ x, xa ≤ w ∧ w ≤ xb) ∧ ∀ (i j : ℕ) v v' w w', ys[i]? = some v → ys[j]? = some v' → x[i]? = some w →
        x[j]? = some w' → v ≤ v' → w ≤ w') := by
  have bounds : ∀ (x f : List α) (a b : α), Table nmax x f a b → ∀ v ∈ x, a ≤ v ∧ v ≤ b := by
    intro x f a b T v hv
    obtain ⟨i, hi, rfl⟩ := List.getElem_of_mem hv
    have hb := T.last
    rw [List.getLast?_eq_getElem?] at hb
    obtain ⟨i1, e1⟩ := List.getElem?_eq_some_iff.1 T.first
    obtain ⟨i2, e2⟩ := List.getElem?_eq_some_iff.1 hb
    rw [← e1, ← e2]
    constructor
    · rcases Nat.eq_zero_or_pos i with rfl | h
      · exact le_rfl
      · exact (List.pairwise_iff_getElem.1 T.sorted _ _ _ _ h).le
    · rcases Nat.lt_or_ge i (x.length - 1) with h | h
      · exact (List.pairwise_iff_getElem.1 T.sorted _ _ _ _ h).le
      · have : i = x.length - 1 := by omega
        subst this; exact le_rfl
  exact ⟨fun xs h1 h2 => tranproc_mono eps nmax g.args g.data xs xa xb ya yb T (T'.sorted.imp le_of_lt)
      (bounds _ _ _ _ T') h1 h2,
    fun ys h1 h2 => tranproc_mono eps nmax g.data g.args ys ya yb xa xb T' (T.sorted.imp le_of_lt)
      (bounds _ _ _ _ T) h1 h2⟩

/-- Tables meeting the hypotheses. -/
example : Table (fun _ => 1000) [(0 : ℚ), 1, 3] [-1, 0, 2] 0 3 ∧ Table (fun _ => 1000) [(-1 : ℚ), 0, 2] [0, 1, 3] (-1) 2 := by
  constructor <;> constructor <;> decide +kernel

/-- **C307**  (refuted)  The table itself is not reproduced when its abscissae are not equidistant: with `args = 0, 1, 3` and
`data = 0, 1, 2` the value at 1 is 5/6, and going back gives another number than 1. -/
theorem C307_table_refuted : ∃ g : TrData ℚ, g.args = [0, 1, 3] ∧ g.data = [0, 1, 2] ∧
    g.dat2gauss 0 (fun _ => 1000) [1] = .ok [5 / 6] ∧ g.gauss2dat 0 (fun _ => 1000) [5 / 6] = .ok [5 / 6] :=
  ⟨⟨[0, 1, 2], [0, 1, 3], 0, 1, 0, 1⟩, rfl, rfl, by decide +kernel, by decide +kernel⟩

/-- **C307**  (refuted)  Above the table the transformation need not be increasing: for the identity on 0, 1, 2 the value at 3
is 2 when 3 is evaluated alone, and evaluating 2 together with 3 changes the value at 2. -/
theorem C307_outside_refuted : ∃ g : TrData ℚ, g.args = [0, 1, 2] ∧ g.data = [0, 1, 2] ∧
    g.dat2gauss 0 (fun _ => 1000) [3] = .ok [2] ∧ g.dat2gauss 0 (fun _ => 1000) [2] = .ok [2] ∧
    g.dat2gauss 0 (fun _ => 1000) [2, 3] = .ok [4 / 3, 2] :=
  ⟨⟨[0, 1, 2], [0, 1, 2], 0, 1, 0, 1⟩, rfl, rfl, by decide +kernel, by decide +kernel, by decide +kernel⟩

/-! ### The linear transformation -/

/-- The table of `y = a + k h`, `x = mean + sigma y`. -/
def lineY (a h : α) (N : ℕ) : List α := (List.range (N + 1)).map fun k : ℕ => a + (k : α) * h

theorem linear_value (eps : α) (heps : 0 ≤ eps) (nmax : List α → ℕ) (a h s c : α) (hh : 0 < h) (N : ℕ) (hN : 1 ≤ N) (x0 : List α)
    (hx0 : x0 ≠ []) (hin : ∀ v ∈ x0, a ≤ v ∧ v ≤ a + N * h) (hmax : N + 1 ≤ nmax (lineY a h N)) :
    tranproc0 eps (fun x f v => LevelX.npInterp v x f) nmax (lineY a h N) ((lineY a h N).map fun y => c + s * y) x0 =
      .ok (x0.map fun v => c + s * v) := by
  obtain ⟨y, h1, h2, h3⟩ := C50_value_partial eps heps (fun x f v => LevelX.npInterp v x f) nmax a h hh N hN
    ((lineY a h N).map fun y => c + s * y) x0 (by simp [lineY]) hx0 hin hmax
  have h1' : tranproc0 eps (fun x f v => LevelX.npInterp v x f) nmax (lineY a h N) ((lineY a h N).map fun y => c + s * y) x0 = .ok y := h1
  rw [h1']
  congr 1
  apply List.ext_getElem (by simp [h2])
  intro i hi hi'
  rw [List.getElem_map]
  rw [List.length_map] at hi'
  obtain ⟨k, p, q, hp, hq, -, -, hw⟩ := h3 i x0[i] y[i] (List.getElem?_eq_getElem hi') (List.getElem?_eq_getElem hi)
  rw [hw]
  have get : ∀ (j : ℕ) p, ((lineY a h N).map fun y => c + s * y)[j]? = some p → p = c + s * (a + j * h) := by
    intro j p hp
    obtain ⟨i1, e1⟩ := List.getElem?_eq_some_iff.1 hp
    rw [← e1]
    simp [lineY]
  rw [get k p hp, get (k + 1) q hq]
  push_cast
  field_simp
  ring

theorem trapz_zero (x y : List α) (h : ∀ v ∈ y, v = 0) : trapz y x = 0 := by
  unfold trapz
  apply List.sum_eq_zero
  intro v hv
  obtain ⟨⟨p, q⟩, hp, rfl⟩ := List.mem_map.1 hv
  have h1 := List.of_mem_zip hp
  have h2 := h p.2 (List.of_mem_zip (show (p.1, p.2) ∈ _ from h1.1)).2
  have h3 := h q.2 (List.of_mem_zip (show (q.1, q.2) ∈ _ from List.mem_of_mem_tail h1.2)).2
  simp only [h2, h3, add_zero, mul_zero, zero_div]

/-- **C308**  For the linear transformation `x = mean + sigma y` on an equidistant table that contains `ymean` and
`ymean ± ysigma`, `TrData` finds `mean + sigma ymean` and `sigma ysigma`, transforms exactly both ways inside the table, and its
distance to the Gaussian model is 0. -/
theorem C308_linear (eps : α) (heps : 0 ≤ eps) (nmax : List α → ℕ) (a h mean sigma ymean ysigma : α) (hh : 0 < h)
    (hs : 0 < sigma) (hy : 0 < ysigma) (N : ℕ) (hN : 1 ≤ N) (hlo : a ≤ ymean - ysigma) (hhi : ymean + ysigma ≤ a + N * h)
    (hmax : N + 1 ≤ nmax (lineY a h N)) (hmax' : N + 1 ≤ nmax ((lineY a h N).map fun y => mean + sigma * y)) :
    ∃ g, TrData.init eps nmax (lineY a h N) ((lineY a h N).map fun y => mean + sigma * y) ymean ysigma none none = .ok g ∧
      g.mean = mean + sigma * ymean ∧ g.sigma = sigma * ysigma ∧
      ∀ ys, ys ≠ [] → (∀ v ∈ ys, a ≤ v ∧ v ≤ a + N * h) →
        g.gauss2dat eps nmax ys = .ok (ys.map fun y => mean + sigma * y) ∧
        g.dat2gauss eps nmax (ys.map fun y => mean + sigma * y) = .ok ys ∧
        g.dist2gauss eps nmax (ys.map fun y => mean + sigma * y) = .ok 0 := by
  have one : ∀ v, a ≤ v → v ≤ a + N * h →
      tran1 eps nmax (lineY a h N) ((lineY a h N).map fun y => mean + sigma * y) v = .ok (mean + sigma * v) := by
    intro v h1 h2
    unfold tran1
    rw [linear_value eps heps nmax a h sigma mean hh N hN [v] (by simp) (by simpa using ⟨h1, h2⟩) hmax]
    rfl
  have e0 := one ymean (by linarith) (by linarith)
  have e1 := one (ymean + ysigma) (by linarith) hhi
  have e2 := one (ymean - ysigma) hlo (by linarith)
  have hargs : (lineY a h N).map (fun y => mean + sigma * y) = lineY (mean + sigma * a) (sigma * h) N := by
    unfold lineY
    rw [List.map_map]
    apply List.map_congr_left
    intro k _
    simp only [Function.comp]
    ring
  have hdata : lineY a h N = (lineY (mean + sigma * a) (sigma * h) N).map fun x => -mean / sigma + (1 / sigma) * x := by
    rw [← hargs, List.map_map]
    symm
    conv_rhs => rw [← List.map_id (lineY a h N)]
    apply List.map_congr_left
    intro k _
    simp only [Function.comp, id]
    field_simp
    ring
  refine ⟨⟨lineY a h N, (lineY a h N).map fun y => mean + sigma * y, ymean, ysigma, mean + sigma * ymean, sigma * ysigma⟩, ?_, rfl, rfl, ?_⟩
  · unfold TrData.init
    simp only [e0, e1, e2]
    congr 2
    ring
  · intro ys hne hin
    have hback : tranproc0 eps (fun x f v => LevelX.npInterp v x f) nmax ((lineY a h N).map fun y => mean + sigma * y)
        (lineY a h N) (ys.map fun y => mean + sigma * y) = .ok ys := by
      rw [hargs]
      conv_lhs => rw [hdata]
      rw [linear_value eps heps nmax (mean + sigma * a) (sigma * h) (1 / sigma) (-mean / sigma) (by positivity) N hN
        (ys.map fun y => mean + sigma * y) (by simpa using hne) ?_ (by rw [← hargs]; exact hmax'), List.map_map]
      · congr 1
        conv_rhs => rw [← List.map_id ys]
        apply List.map_congr_left
        intro k _
        simp only [Function.comp, id]
        field_simp
        ring
      · intro v hv
        obtain ⟨y, hy', rfl⟩ := List.mem_map.1 hv
        have := hin y hy'
        constructor
        · nlinarith
        · nlinarith
    refine ⟨?_, hback, ?_⟩
    · exact linear_value eps heps nmax a h sigma mean hh N hN ys hne hin hmax
    · unfold TrData.dist2gauss TrData.dat2gauss
      rw [hback]
      dsimp only
      rw [trapz_zero]
      intro v hv
      rw [List.map_map, List.zipWith_map] at hv
      obtain ⟨i, hi, rfl⟩ := List.getElem_of_mem hv
      rw [List.getElem_zipWith]
      simp only [Function.comp]
      have : (mean + sigma * ys[i]'(by simpa using hi) - (mean + sigma * ymean)) / (sigma * ysigma) =
          (ys[i]'(by simpa using hi) - ymean) / ysigma := by
        field_simp
        ring
      rw [this]
      ring

/-- The hypotheses for the table of the docstring with 11 points: `u = -5, …, 5`, `x = 5 u + 1`. -/
example : (-5 : ℚ) ≤ 0 - 1 ∧ (0 : ℚ) + 1 ≤ -5 + (10 : ℕ) * 1 ∧ lineY (-5 : ℚ) 1 2 = [-5, -4, -3] := by
  refine ⟨by norm_num, by norm_num, by decide +kernel⟩

end Wafo.Tran

import Verif.Dct.Model
import Verif.Cheb.FitProps
import Mathlib.LinearAlgebra.Matrix.NonsingularInverse

/-!
Lemmas: the loop of `_raw_dctn` transforms axis after axis.
-/

set_option linter.unusedSectionVars false

namespace Wafo.Dct

open Finset

/-- Apply the transform with matrix `K n i j` along every axis whose entry in `lens` is a length: the separable transform, one axis
at a time from the front. -/
def sep (K : ℕ → ℕ → ℕ → ℝ) : List (Option ℕ) → List ℕ → (List ℕ → ℝ) → List ℕ → ℝ
  | some n :: ns, m :: ms, g, i :: is =>
    ∑ j ∈ range n, K n i j * (if j < m then sep K ns ms (fun js => g (j :: js)) is else 0)
  | none :: ns, _ :: ms, g, i :: is => sep K ns ms (fun js => g (i :: js)) is
  | _, _, g, is => g is

/-- The transform `f` is multiplication by the matrix `K`. -/
def IsMatrix (f : Transform) (K : ℕ → ℕ → ℕ → ℝ) : Prop := ∀ n v i, 0 < n → f n v i = ∑ j ∈ range n, K n i j * v j

variable {K : ℕ → ℕ → ℕ → ℝ}

theorem sep_snoc_some (n m i : ℕ) : ∀ (ns : List (Option ℕ)) (ms : List ℕ) (g : List ℕ → ℝ) (is : List ℕ),
    ns.length = ms.length → is.length = ms.length →
    sep K (ns ++ [some n]) (ms ++ [m]) g (is ++ [i])
      = ∑ j ∈ range n, K n i j * (if j < m then sep K ns ms (fun js => g (js ++ [j])) is else 0)
  | [], [], g, [], _, _ => by simp [sep]
  | none :: ns, m' :: ms, g, i' :: is, h, h' => by
    simp only [List.cons_append, sep]
    rw [sep_snoc_some n m i ns ms _ is (by simpa using h) (by simpa using h')]
  | some n' :: ns, m' :: ms, g, i' :: is, h, h' => by
    simp only [List.cons_append, sep]
    have e : ∀ j, sep K (ns ++ [some n]) (ms ++ [m]) (fun js => g (j :: js)) (is ++ [i]) = _ :=
      fun j => sep_snoc_some n m i ns ms _ is (by simpa using h) (by simpa using h')
    simp only [e]
    have l : ∀ j, K n' i' j * (if j < m' then ∑ j_1 ∈ range n, K n i j_1 * (if j_1 < m then sep K ns ms (fun js => g (j :: (js ++ [j_1]))) is else 0) else 0)
        = ∑ j_1 ∈ range n, K n i j_1 * (if j_1 < m then K n' i' j * (if j < m' then sep K ns ms (fun js => g (j :: (js ++ [j_1]))) is else 0) else 0) := by
      intro j
      split_ifs with hj
      · rw [mul_sum]; refine sum_congr rfl fun j1 _ => ?_; split_ifs <;> ring
      · simp
    rw [sum_congr rfl (fun j _ => l j), sum_comm]
    refine sum_congr rfl fun j1 _ => ?_
    rw [← mul_sum]
    congr 1
    split_ifs with h1
    · rfl
    · simp

theorem sep_snoc_none (m i : ℕ) : ∀ (ns : List (Option ℕ)) (ms : List ℕ) (g : List ℕ → ℝ) (is : List ℕ),
    ns.length = ms.length → is.length = ms.length →
    sep K (ns ++ [none]) (ms ++ [m]) g (is ++ [i]) = sep K ns ms (fun js => g (js ++ [i])) is
  | [], [], g, [], _, _ => by simp [sep]
  | none :: ns, m' :: ms, g, i' :: is, h, h' => by
    simp only [List.cons_append, sep]
    rw [sep_snoc_none m i ns ms _ is (by simpa using h) (by simpa using h')]
  | some n' :: ns, m' :: ms, g, i' :: is, h, h' => by
    simp only [List.cons_append, sep]
    have e : ∀ j, sep K (ns ++ [none]) (ms ++ [m]) (fun js => g (j :: js)) (is ++ [i]) = _ :=
      fun j => sep_snoc_none m i ns ms _ is (by simpa using h) (by simpa using h')
    simp only [e]

/-- Shape after the transform. -/
def newShape : List (Option ℕ) → List ℕ → List ℕ
  | o :: ns, m :: ms => o.getD m :: newShape ns ms
  | _, _ => []

theorem newShape_length : ∀ (ns : List (Option ℕ)) (ms : List ℕ), ns.length = ms.length → (newShape ns ms).length = ms.length
  | [], [], _ => rfl
  | o :: ns, m :: ms, h => by simp [newShape, newShape_length ns ms (by simpa using h)]

theorem newShape_snoc (o : Option ℕ) (m : ℕ) : ∀ (ns : List (Option ℕ)) (ms : List ℕ), ns.length = ms.length →
    newShape (ns ++ [o]) (ms ++ [m]) = newShape ns ms ++ [o.getD m]
  | [], [], _ => rfl
  | o' :: ns, m' :: ms, h => by simp [newShape, newShape_snoc o m ns ms (by simpa using h)]

theorem shift_one (y : Arr) (m : ℕ) (s : List ℕ) (h : y.shape = m :: s) (idx : List ℕ) (c : ℕ)
    (hi : idx.length = s.length) :
    (shiftdim y (some 1)).get (idx ++ [c]) = y.get (c :: idx) := by
  simp only [shiftdim, h]
  rw [if_pos (by norm_num)]
  show y.get _ = y.get _
  refine congrArg y.get ?_
  simp only [List.length_cons]
  rcases Nat.eq_zero_or_pos s.length with h0 | h0
  · have : idx = [] := List.length_eq_zero_iff.1 (hi.trans h0)
    subst this; simp
  · have h1 : (Int.toNat 1) % (s.length + 1) = 1 := Nat.mod_eq_of_lt (by simp; omega)
    rw [h1, Nat.add_sub_cancel, ← hi, List.rotate_append_length_eq]
    rfl

theorem shift_shape (y : Arr) (m : ℕ) (s : List ℕ) (h : y.shape = m :: s) : (shiftdim y (some 1)).shape = s ++ [m] := by
  simp only [shiftdim, h]
  rw [if_pos (by norm_num)]
  simp

/-- Invariant of the loop: the axes in `done` are transformed and moved to the end. -/
theorem loop_inv {f : Transform} (hf : IsMatrix f K) (lens : ℕ → Option ℕ) (x : Arr) :
    ∀ (t : ℕ) (rest done : List ℕ) (y : Arr), x.shape = done ++ rest → done.length = t →
      (∀ d n, lens d = some n → 0 < n) →
      y.shape = rest ++ newShape ((List.range t).map lens) done →
      (∀ a b, a.length = rest.length → b.length = t →
        y.get (a ++ b) = sep K ((List.range t).map lens) done (fun js => x.get (js ++ a)) b) →
      ∃ z, loop f lens (List.range' t rest.length) y = .ok z ∧
        z.shape = newShape ((List.range x.shape.length).map lens) x.shape ∧
        ∀ b, b.length = x.shape.length → z.get b = sep K ((List.range x.shape.length).map lens) x.shape x.get b := by
  intro t rest
  induction rest generalizing t with
  | nil =>
    intro done y hx ht hpos hs hg
    simp only [List.append_nil] at hx
    refine ⟨y, by simp [loop], ?_, ?_⟩
    · rw [hs, hx, ht]; simp
    · intro b hb
      have := hg [] b rfl (by rw [hb, hx, ht])
      simp only [List.append_nil, List.nil_append] at this
      rw [this, hx, ht]
  | cons m rest ih =>
    intro done y hx ht hpos hs hg
    have hx' : x.shape = (done ++ [m]) ++ rest := by rw [hx]; simp
    have hl : ((List.range t).map lens).length = done.length := by simp [ht]
    have hsh : (shiftdim y (some 1)).shape = rest ++ newShape ((List.range t).map lens) done ++ [m] :=
      shift_shape y m _ (by rw [hs]; rfl)
    have hget : ∀ a b c, a.length = rest.length → b.length = t →
        (shiftdim y (some 1)).get (a ++ b ++ [c])
          = sep K ((List.range t).map lens) done (fun js => x.get (js ++ c :: a)) b := by
      intro a b c ha hb
      rw [shift_one y m (rest ++ newShape ((List.range t).map lens) done) (by rw [hs]; rfl) (a ++ b) c
        (by simp [ha, hb, newShape_length _ _ hl, ht])]
      exact hg (c :: a) b (by simp [ha]) hb
    rw [show (m :: rest).length = rest.length + 1 from rfl, List.range'_succ, loop]
    rcases ho : lens t with _ | n
    · simp only
      refine ih (t + 1) (done ++ [m]) _ hx' (by simp [ht]) hpos ?_ ?_
      · rw [hsh, List.range_succ, List.map_append, List.map_singleton, ho, newShape_snoc _ _ _ _ hl]
        simp
      · intro a b ha hb
        obtain ⟨b', c, rfl⟩ : ∃ b' c, b = b' ++ [c] := by
          rcases List.eq_nil_or_concat b with h | ⟨b', c, h⟩
          · subst h; simp at hb
          · exact ⟨b', c, by simpa using h⟩
        have hb' : b'.length = t := by simpa using hb
        rw [← List.append_assoc, hget a b' c ha hb', List.range_succ, List.map_append, List.map_singleton, ho,
          sep_snoc_none _ _ _ _ _ _ hl (by rw [hb', ht])]
        simp
    · simp only
      have hn := hpos t n ho
      rw [alongLast, if_neg hn.ne']
      simp only
      refine ih (t + 1) (done ++ [m]) _ hx' (by simp [ht]) hpos ?_ ?_
      · rw [hsh, List.range_succ, List.map_append, List.map_singleton, ho, newShape_snoc _ _ _ _ hl]
        simp
      · intro a b ha hb
        obtain ⟨b', c, rfl⟩ : ∃ b' c, b = b' ++ [c] := by
          rcases List.eq_nil_or_concat b with h | ⟨b', c, h⟩
          · subst h; simp at hb
          · exact ⟨b', c, by simpa using h⟩
        have hb' : b'.length = t := by simpa using hb
        rw [List.range_succ, List.map_append, List.map_singleton, ho, sep_snoc_some _ _ _ _ _ _ _ hl (by rw [hb', ht])]
        simp only
        rw [hf _ _ _ hn, hsh]
        have e1 : (a ++ (b' ++ [c])).dropLast = a ++ b' := by rw [← List.append_assoc, List.dropLast_concat]
        have e2 : (a ++ (b' ++ [c])).getLastD 0 = c := by
          rw [← List.append_assoc, List.getLastD_concat]
        have e3 : (rest ++ newShape (List.map lens (List.range t)) done ++ [m]).getLastD 0 = m := List.getLastD_concat ..
        rw [e1, e2, e3]
        refine sum_congr rfl fun j _ => ?_
        rw [hget a b' j ha hb']
        simp

/-! ### Inverse and norm -/

theorem sep_zero : ∀ (ns : List (Option ℕ)) (ms : List ℕ) (is : List ℕ), sep K ns ms (fun _ => 0) is = 0
  | some n :: ns, m :: ms, i :: is => by simp [sep, sep_zero ns ms is]
  | none :: ns, m :: ms, i :: is => by simp [sep, sep_zero ns ms is]
  | [], _, _ => by simp [sep]
  | some _ :: _, [], _ => by simp [sep]
  | none :: _, [], _ => by simp [sep]
  | some _ :: _, _ :: _, [] => by simp [sep]
  | none :: _, _ :: _, [] => by simp [sep]

theorem sep_linear (s : Finset ℕ) (c : ℕ → ℝ) : ∀ (ns : List (Option ℕ)) (ms : List ℕ) (h : ℕ → List ℕ → ℝ) (is : List ℕ),
    sep K ns ms (fun js => ∑ j ∈ s, c j * h j js) is = ∑ j ∈ s, c j * sep K ns ms (h j) is
  | some n :: ns, m :: ms, h, i :: is => by
    simp only [sep]
    have e : ∀ k, sep K ns ms (fun js => ∑ j ∈ s, c j * h j (k :: js)) is = _ :=
      fun k => sep_linear s c ns ms (fun j js => h j (k :: js)) is
    simp only [e]
    have l : ∀ k, K n i k * (if k < m then ∑ j ∈ s, c j * sep K ns ms (fun js => h j (k :: js)) is else 0)
        = ∑ j ∈ s, c j * (K n i k * (if k < m then sep K ns ms (fun js => h j (k :: js)) is else 0)) := by
      intro k
      split_ifs
      · rw [mul_sum]; exact sum_congr rfl fun j _ => by ring
      · simp
    rw [sum_congr rfl (fun k _ => l k), sum_comm]
    exact sum_congr rfl fun j _ => by rw [mul_sum]
  | none :: ns, m :: ms, h, i :: is => by
    simp only [sep]
    exact sep_linear s c ns ms (fun j js => h j (i :: js)) is
  | [], _, _, _ => by simp [sep]
  | some _ :: _, [], _, _ => by simp [sep]
  | none :: _, [], _, _ => by simp [sep]
  | some _ :: _, _ :: _, _, [] => by simp [sep]
  | none :: _, _ :: _, _, [] => by simp [sep]

/-- Every axis keeps its length. -/
def Keeps : List (Option ℕ) → List ℕ → Prop
  | o :: ns, m :: ms => (o = none ∨ o = some m) ∧ Keeps ns ms
  | [], [] => True
  | _, _ => False

theorem newShape_keeps : ∀ (ns : List (Option ℕ)) (ms : List ℕ), Keeps ns ms → newShape ns ms = ms
  | [], [], _ => rfl
  | o :: ns, m :: ms, h => by
    simp only [newShape, newShape_keeps ns ms h.2]
    rcases h.1 with h | h <;> simp [h]

theorem sep_inverse (K' : ℕ → ℕ → ℕ → ℝ)
    (hK : ∀ n i j, i < n → j < n → ∑ k ∈ range n, K' n i k * K n k j = if i = j then 1 else 0) :
    ∀ (ns : List (Option ℕ)) (ms : List ℕ) (g : List ℕ → ℝ) (is : List ℕ), Keeps ns ms → InRange is ms →
      sep K' ns ms (fun js => sep K ns ms g js) is = g is
  | [], [], g, is, _, h => by simp [sep]
  | none :: ns, m :: ms, g, i :: is, h, hr => by
    simp only [sep]
    exact sep_inverse K' hK ns ms (fun js => g (i :: js)) is h.2 hr.2
  | some n :: ns, m :: ms, g, i :: is, h, hr => by
    obtain rfl : n = m := by rcases h.1 with h | h <;> simp_all
    simp only [sep]
    have e : ∀ k ∈ range n, K' n i k * (if k < n then sep K' ns ms (fun js => ∑ j ∈ range n,
          K n k j * (if j < n then sep K ns ms (fun js' => g (j :: js')) js else 0)) is else 0)
        = ∑ j ∈ range n, K' n i k * K n k j * g (j :: is) := by
      intro k hk
      rw [if_pos (mem_range.1 hk)]
      rw [sep_linear (range n) (K n k) ns ms (fun j js => if j < n then sep K ns ms (fun js' => g (j :: js')) js else 0) is,
        mul_sum]
      refine sum_congr rfl fun j hj => ?_
      simp only [if_pos (mem_range.1 hj)]
      rw [sep_inverse K' hK ns ms (fun js => g (j :: js)) is h.2 hr.2]
      ring
    rw [sum_congr rfl e, sum_comm]
    have e2 : ∀ j ∈ range n, ∑ k ∈ range n, K' n i k * K n k j * g (j :: is) = (if i = j then 1 else 0) * g (j :: is) := by
      intro j hj
      rw [← sum_mul, hK n i j hr.1 (mem_range.1 hj)]
    rw [sum_congr rfl e2]
    simp [hr.1]

/-- Sum of the values of `g` over all indices of an array with this shape. -/
def total : List ℕ → (List ℕ → ℝ) → ℝ
  | [], g => g []
  | m :: ms, g => ∑ i ∈ range m, total ms (fun js => g (i :: js))

theorem total_sum (s : Finset ℕ) : ∀ (ms : List ℕ) (h : ℕ → List ℕ → ℝ),
    total ms (fun js => ∑ j ∈ s, h j js) = ∑ j ∈ s, total ms (h j)
  | [], h => rfl
  | m :: ms, h => by
    simp only [total]
    rw [sum_comm]
    exact sum_congr rfl fun i _ => total_sum s ms (fun j js => h j (i :: js))

theorem sep_norm (hK : ∀ n i j, i < n → j < n → ∑ k ∈ range n, K n k i * K n k j = if i = j then 1 else 0) :
    ∀ (ns : List (Option ℕ)) (ms : List ℕ) (g : List ℕ → ℝ), Keeps ns ms →
      total ms (fun js => sep K ns ms g js ^ 2) = total ms (fun js => g js ^ 2)
  | [], [], g, _ => by simp [total, sep]
  | none :: ns, m :: ms, g, h => by
    simp only [total, sep]
    exact sum_congr rfl fun i _ => sep_norm hK ns ms (fun js => g (i :: js)) h.2
  | some n :: ns, m :: ms, g, h => by
    obtain rfl : n = m := by rcases h.1 with h | h <;> simp_all
    simp only [total, sep]
    rw [← total_sum (range n) ms (fun i js => (∑ j ∈ range n, K n i j * (if j < n then sep K ns ms (fun js' => g (j :: js')) js else 0)) ^ 2)]
    have e : ∀ js, ∑ i ∈ range n, (∑ j ∈ range n, K n i j * (if j < n then sep K ns ms (fun js' => g (j :: js')) js else 0)) ^ 2
        = ∑ j ∈ range n, sep K ns ms (fun js' => g (j :: js')) js ^ 2 := by
      intro js
      set h' : ℕ → ℝ := fun j => sep K ns ms (fun js' => g (j :: js')) js
      have e1 : ∀ i, (∑ j ∈ range n, K n i j * (if j < n then h' j else 0)) ^ 2
          = ∑ j ∈ range n, ∑ k ∈ range n, (h' j * h' k) * (K n i j * K n i k) := by
        intro i
        rw [sq, sum_mul_sum]
        refine sum_congr rfl fun j hj => sum_congr rfl fun k hk => ?_
        rw [if_pos (mem_range.1 hj), if_pos (mem_range.1 hk)]; ring
      rw [sum_congr rfl (fun i _ => e1 i), sum_comm]
      refine sum_congr rfl fun j hj => ?_
      rw [sum_comm]
      have e2 : ∀ k ∈ range n, ∑ i ∈ range n, (h' j * h' k) * (K n i j * K n i k) = (h' j * h' k) * (if j = k then 1 else 0) := by
        intro k hk
        rw [← mul_sum, hK n j k (mem_range.1 hj) (mem_range.1 hk)]
      rw [sum_congr rfl e2]
      simp only [mul_ite, mul_one, mul_zero, sum_ite_eq]
      rw [if_pos hj, sq]
    rw [show (fun js => ∑ i ∈ range n, (∑ j ∈ range n, K n i j * (if j < n then sep K ns ms (fun js' => g (j :: js')) js else 0)) ^ 2)
      = (fun js => ∑ j ∈ range n, sep K ns ms (fun js' => g (j :: js')) js ^ 2) from funext e]
    rw [total_sum (range n) ms (fun j js => sep K ns ms (fun js' => g (j :: js')) js ^ 2)]
    exact sum_congr rfl fun j _ => sep_norm hK ns ms (fun js => g (j :: js)) h.2

/-! ### The cosine matrices -/

/-- Matrix of the orthonormal DCT-II. -/
noncomputable def cosMat (n k j : ℕ) : ℝ := orthoFactor n k * (2 * Real.cos (Real.pi * k * (2 * j + 1) / (2 * n)))

theorem dct1_matrix : IsMatrix dct1 cosMat := by
  intro n v i _
  simp only [dct1, cosMat, mul_sum]
  exact sum_congr rfl fun j _ => by ring

theorem orthoFactor_zero (n : ℕ) (hn : 0 < n) : orthoFactor n 0 * 2 = 1 / Real.sqrt n := by
  rw [orthoFactor, if_pos rfl]
  have hn' : (0 : ℝ) < n := by exact_mod_cast hn
  rw [show (1 : ℝ) / (4 * n) = (1 / 2) ^ 2 * (1 / n) by ring, Real.sqrt_mul (by positivity), Real.sqrt_sq (by norm_num),
    Real.sqrt_div zero_le_one, Real.sqrt_one]
  ring

theorem orthoFactor_pos (n k : ℕ) (hk : k ≠ 0) : orthoFactor n k * 2 = Real.sqrt (2 / n) := by
  rw [orthoFactor, if_neg hk, show (1 : ℝ) / (2 * n) = (1 / 2) ^ 2 * (2 / n) by ring, Real.sqrt_mul (by positivity),
    Real.sqrt_sq (by norm_num)]
  ring

theorem idct1_matrix : IsMatrix idct1 (fun n i j => cosMat n j i) := by
  intro n v i hn
  rw [range_eq_Ico, sum_eq_sum_Ico_succ_bot hn]
  simp only [idct1, cosMat]
  congr 1
  · rw [← mul_assoc, orthoFactor_zero n hn]; simp; ring
  · rw [mul_sum]
    refine sum_congr rfl fun j hj => ?_
    have ho := orthoFactor_pos n j (by have := (mem_Ico.1 hj).1; omega)
    rw [show Real.pi * (i + 1 / 2) * j / n = Real.pi * j * (2 * i + 1) / (2 * n) by
      by_cases h : (n : ℝ) = 0
      · simp [h]
      · field_simp]
    linear_combination -(v j * Real.cos (Real.pi * j * (2 * i + 1) / (2 * n))) * ho

theorem cosMat_orth (n i j : ℕ) (hi : i < n) (hj : j < n) :
    ∑ k ∈ range n, cosMat n k i * cosMat n k j = if i = j then 1 else 0 := by
  have hn : 0 < n := by omega
  have hn' : (0 : ℝ) < n := by exact_mod_cast hn
  have h := Wafo.Cheb.cos_orth n i j hi hj
  rw [range_eq_Ico, sum_eq_sum_Ico_succ_bot hn] at h ⊢
  have e0 : cosMat n 0 i * cosMat n 0 j = 1 / n := by
    simp only [cosMat]
    simp only [Nat.cast_zero, mul_zero, zero_mul, zero_div, Real.cos_zero, mul_one]
    rw [orthoFactor_zero n hn, div_mul_div_comm, Real.mul_self_sqrt hn'.le, one_mul]
  have e1 : ∀ k ∈ Ico (0 + 1) n, cosMat n k i * cosMat n k j
      = 2 / n * (Real.cos ((k : ℝ) * (Real.pi * ((i : ℝ) + 1 / 2) / n)) * Real.cos ((k : ℝ) * (Real.pi * ((j : ℝ) + 1 / 2) / n))) := by
    intro k hk
    simp only [cosMat]
    have ho := orthoFactor_pos n k (by have := (mem_Ico.1 hk).1; omega)
    have hs : Real.sqrt (2 / n) * Real.sqrt (2 / n) = 2 / n := Real.mul_self_sqrt (by positivity)
    have a : ∀ l : ℕ, Real.pi * k * (2 * l + 1) / (2 * n) = (k : ℝ) * (Real.pi * ((l : ℝ) + 1 / 2) / n) := fun l => by
      field_simp
    rw [a, a]
    rw [← hs, ← ho]
    ring
  rw [e0, sum_congr rfl e1, ← mul_sum]
  simp only [Nat.cast_zero, zero_mul, Real.cos_zero, mul_one] at h
  set S := ∑ k ∈ Ico (0 + 1) n,
    Real.cos ((k : ℝ) * (Real.pi * ((i : ℝ) + 1 / 2) / n)) * Real.cos ((k : ℝ) * (Real.pi * ((j : ℝ) + 1 / 2) / n))
  by_cases hij : i = j
  · rw [if_pos hij] at h ⊢
    field_simp
    linarith
  · rw [if_neg hij] at h ⊢
    field_simp
    linarith

/-- The matrix is square, so it is orthogonal on the other side as well. -/
theorem cosMat_orth' (n i j : ℕ) (hi : i < n) (hj : j < n) :
    ∑ k ∈ range n, cosMat n i k * cosMat n j k = if i = j then 1 else 0 := by
  let A : Matrix (Fin n) (Fin n) ℝ := Matrix.of fun a b => cosMat n a b
  have h1 : A.transpose * A = 1 := by
    ext a b
    rw [Matrix.mul_apply, Matrix.one_apply]
    have := cosMat_orth n a b a.2 b.2
    rw [Finset.sum_range] at this
    simpa [A, Fin.ext_iff] using this
  have h2 : A * A.transpose = 1 := mul_eq_one_comm.1 h1
  have h3 := congrFun (congrFun h2 ⟨i, hi⟩) ⟨j, hj⟩
  rw [Matrix.mul_apply, Matrix.one_apply] at h3
  rw [Finset.sum_range]
  simpa [A, Fin.ext_iff] using h3

end Wafo.Dct

import Verif.Grid.Lemmas1

set_option linter.unusedSectionVars false

/-! Helper lemmas for linear binning in several dimensions. -/

namespace Wafo.Grid

open Finset

variable {α : Type*} [Field α] [LinearOrder α] [IsStrictOrderedRing α] [FloorRing α]

theorem digit (m n : ℕ) (f : Fin n → Fin m) (i : Fin n) :
    (finFunctionFinEquiv f : ℕ) / m ^ (i : ℕ) % m = f i := by
  have h := congrFun (finFunctionFinEquiv.left_inv f) i
  exact congrArg Fin.val h

theorem bits_eq (d ir : ℕ) (j : Fin d) : bits d ir j = ir / 2 ^ (j : ℕ) % 2 := by
  simp [bits, Nat.shiftRight_eq_div_pow]

theorem bits_compl (d ir : ℕ) (hir : ir < 2 ^ d) (j : Fin d) :
    1 - bits d ir j = bits d (2 ^ d - 1 - ir) j := by
  have h1 := Nat.testBit_two_pow_sub_succ hir j
  simp only [j.isLt, decide_true, Bool.true_and] at h1
  rw [Nat.testBit_eq_decide_div_mod_eq, Nat.testBit_eq_decide_div_mod_eq] at h1
  rw [bits_eq, bits_eq, show 2 ^ d - 1 - ir = 2 ^ d - (ir + 1) by omega]
  have := Nat.mod_two_eq_zero_or_one (ir / 2 ^ (j : ℕ))
  have := Nat.mod_two_eq_zero_or_one ((2 ^ d - (ir + 1)) / 2 ^ (j : ℕ))
  by_cases hx : ir / 2 ^ (j : ℕ) % 2 = 1
  · have h2 : (2 ^ d - (ir + 1)) / 2 ^ (j : ℕ) % 2 ≠ 1 := by simpa [hx] using h1
    omega
  · have h2 : (2 ^ d - (ir + 1)) / 2 ^ (j : ℕ) % 2 = 1 := by simpa [hx] using h1
    omega

theorem sum_flatMap' {β : Type*} (l : List β) (f : β → List α) :
    (l.flatMap f).sum = (l.map (fun b => (f b).sum)).sum := by
  induction l with
  | nil => simp
  | cons b l ih => simp [ih]

/-- The loops visit every corner offset exactly once. -/
theorem corners_sum (d : ℕ) (hd : 1 ≤ d) (g : (Fin d → ℕ) → α) :
    ((corners d).map g).sum = ∑ s : Fin d → Fin 2, g (fun j => (s j : ℕ)) := by
  have e1 : ((corners d).map g).sum
      = ∑ ir ∈ range (2 ^ (d - 1)), (g (bits d ir) + g (bits d (2 ^ d - 1 - ir))) := by
    rw [← range_sum]
    unfold corners
    rw [List.map_flatMap, sum_flatMap']
    congr 1
    apply List.map_congr_left
    intro ir hir
    have hlt : ir < 2 ^ d := lt_of_lt_of_le (List.mem_range.1 hir) (Nat.pow_le_pow_right (by omega) (by omega))
    have : (fun j => 1 - bits d ir j) = bits d (2 ^ d - 1 - ir) := by
      funext j; exact bits_compl d ir hlt j
    simp [this]
  have e2 : ∑ s : Fin d → Fin 2, g (fun j => (s j : ℕ)) = ∑ r ∈ range (2 ^ d), g (bits d r) := by
    rw [← Fin.sum_univ_eq_sum_range (fun r => g (bits d r)) (2 ^ d),
      ← Equiv.sum_comp finFunctionFinEquiv]
    apply Finset.sum_congr rfl
    intro s _
    congr 1
    funext j
    rw [bits_eq, digit]
  have hp : 2 ^ d = 2 ^ (d - 1) + 2 ^ (d - 1) := by
    obtain ⟨m, rfl⟩ : ∃ m, d = m + 1 := ⟨d - 1, by omega⟩
    simp only [Nat.add_sub_cancel, pow_succ]; ring
  rw [e1, e2, Finset.sum_add_distrib, hp, Finset.sum_range_add]
  congr 1
  rw [← Finset.sum_range_reflect]
  apply Finset.sum_congr rfl
  intro i hi
  have := Finset.mem_range.1 hi
  congr 2
  omega

theorem flatten_get {β : Type*} (inc : ℕ) (L : List (List β)) (h : ∀ r ∈ L, r.length = inc) (i k : ℕ) (hk : k < inc) (r : List β) (hr : L[i]? = some r) : L.flatten[inc * i + k]? = r[k]? := by
  induction L generalizing i with
  | nil => simp at hr
  | cons q L ih =>
    have hq := h q (by simp)
    rw [List.flatten_cons]
    cases i with
    | zero =>
      simp at hr; subst hr
      rw [List.getElem?_append_left (by omega)]; simp
    | succ i =>
      simp at hr
      rw [List.getElem?_append_right (by rw [hq, Nat.mul_succ]; omega),
        show inc * (i + 1) + k - q.length = inc * i + k by rw [hq, Nat.mul_succ]; omega]
      exact ih (fun r hr => h r (by simp [hr])) i hr

theorem x1_get {d : ℕ} (inc : ℕ) (x : Fin d → List α) (h : ∀ j, (x j).length = inc) (j : Fin d) (k : ℕ)
    (hk : k < inc) : ((List.finRange d).flatMap x)[inc * (j : ℕ) + k]? = (x j)[k]? := by
  rw [List.flatMap]
  apply flatten_get inc _ _ _ _ hk
  · simp
  · intro r hr
    obtain ⟨j, -, rfl⟩ := List.mem_map.1 hr
    exact h j

theorem cornerProd_ok {d : ℕ} (inc : ℕ) (x1 : List α) (b : Fin d → ℤ) (o : Fin d → ℕ) (dat v : Fin d → α)
    (h : ∀ j : Fin d, pyGet x1 (b j + ((1 - o j : ℕ) : ℤ) + (inc : ℤ) * (j : ℕ)) = .ok (v j)) :
    cornerProd inc x1 b o dat = .ok (∏ j, (v j - dat j)) := by
  have key : ∀ (l : List (Fin d)) (acc : α), l.foldlM (fun acc j =>
      match pyGet x1 (b j + ((1 - o j : ℕ) : ℤ) + (inc : ℤ) * (j : ℕ)) with
      | .ok v => (.ok (acc * (v - dat j)) : Except PyErr α)
      | .error e => .error e) acc = .ok (acc * (l.map (fun j => v j - dat j)).prod) := by
    intro l
    induction l with
    | nil => intro acc; simp; rfl
    | cons j l ih =>
      intro acc
      rw [List.foldlM_cons, h j]
      have := ih (acc * (v j - dat j))
      simp only [List.map_cons, List.prod_cons, ← mul_assoc]
      exact this
  unfold cornerProd
  exact (key _ 1).trans (by rw [one_mul, Fin.prod_univ_def])

/-- Weight of one corner of a datum. -/
def cw (a h dat : α) (o : ℕ) : α := |a + ((cell a h dat + (1 - o) : ℕ) : α) * h - dat|

theorem cw_sum (a h dat : α) (hh : 0 < h) (n : ℕ) (hn : 2 ≤ n) (h1 : a ≤ dat)
    (h2 : dat < a + ((n - 1 : ℕ) : α) * h) : ∑ s : Fin 2, cw a h dat s = h := by
  obtain ⟨-, -, h3, h4⟩ := cell_spec a h dat hh n hn h1 h2
  simp only [Fin.sum_univ_two, cw, Fin.val_zero, Fin.val_one, Nat.sub_zero, Nat.sub_self, Nat.add_zero]
  rw [abs_of_pos (by linarith), abs_of_nonpos (by linarith)]
  push_cast; ring

theorem cw_moment (a h dat : α) (hh : 0 < h) (n : ℕ) (hn : 2 ≤ n) (h1 : a ≤ dat)
    (h2 : dat < a + ((n - 1 : ℕ) : α) * h) :
    ∑ s : Fin 2, cw a h dat s * (a + ((cell a h dat + (s : ℕ) : ℕ) : α) * h) = h * dat := by
  obtain ⟨-, -, h3, h4⟩ := cell_spec a h dat hh n hn h1 h2
  simp only [Fin.sum_univ_two, cw, Fin.val_zero, Fin.val_one, Nat.sub_zero, Nat.sub_self, Nat.add_zero]
  rw [abs_of_pos (by linarith), abs_of_nonpos (by linarith)]
  push_cast; ring

/-- Linear index of a corner. -/
def lidx {d : ℕ} (inc : ℕ) (a h dat : Fin d → α) (o : Fin d → ℕ) : ℕ :=
  ∑ j, (cell (a j) (h j) (dat j) + o j) * inc ^ (j : ℕ)

section
variable {d : ℕ} (inc : ℕ) (hn : 2 ≤ inc) (a h : Fin d → α) (hh : ∀ j, 0 < h j) (dat : Fin d → α)
  (hin : ∀ j, a j ≤ dat j ∧ dat j < a j + ((inc - 1 : ℕ) : α) * h j) (o : Fin d → ℕ) (ho : ∀ j, o j ≤ 1)
include hn hh hin ho

theorem lidx_fin : ∃ f : Fin d → Fin inc, (∀ j, (f j : ℕ) = cell (a j) (h j) (dat j) + o j) ∧
    lidx inc a h dat o = (finFunctionFinEquiv f : ℕ) := by
  have hc : ∀ j, cell (a j) (h j) (dat j) + o j < inc := fun j => by
    have := (cell_spec (a j) (h j) (dat j) (hh j) inc hn (hin j).1 (hin j).2).2.1
    have := ho j
    omega
  exact ⟨fun j => ⟨_, hc j⟩, fun j => rfl, rfl⟩

theorem lidx_lt : lidx inc a h dat o < inc ^ d := by
  obtain ⟨f, -, e⟩ := lidx_fin inc hn a h hh dat hin o ho
  rw [e]; exact (finFunctionFinEquiv f).isLt

theorem lidx_digit (k : Fin d) :
    lidx inc a h dat o / inc ^ (k : ℕ) % inc = cell (a k) (h k) (dat k) + o k := by
  obtain ⟨f, hf, e⟩ := lidx_fin inc hn a h hh dat hin o ho
  rw [e, digit, hf]

theorem contribNd_ok (y : α) :
    contribNd inc ((List.finRange d).flatMap (fun j => ugrid (a j) (h j) inc))
      (fun j => ⌊(dat j - a j) / h j⌋) o dat y
      = .ok (lidx inc a h dat o, (∏ j, cw (a j) (h j) (dat j) (o j)) * y) := by
  have hcell := fun j => cell_spec (a j) (h j) (dat j) (hh j) inc hn (hin j).1 (hin j).2
  have hp := cornerProd_ok inc ((List.finRange d).flatMap (fun j => ugrid (a j) (h j) inc))
    (fun j => ⌊(dat j - a j) / h j⌋) o dat
    (fun j => a j + ((cell (a j) (h j) (dat j) + (1 - o j) : ℕ) : α) * h j) (by
      intro j
      have hc := hcell j
      have hk : cell (a j) (h j) (dat j) + (1 - o j) < inc := by have := hc.2.1; omega
      rw [hc.1]
      have e : ((cell (a j) (h j) (dat j) : ℕ) : ℤ) + ((1 - o j : ℕ) : ℤ) + (inc : ℤ) * ((j : ℕ) : ℤ)
          = ((inc * (j : ℕ) + (cell (a j) (h j) (dat j) + (1 - o j)) : ℕ) : ℤ) := by push_cast; ring
      rw [e]
      apply pyGet_nat
      rw [x1_get inc _ (fun j => ugrid_length _ _ _) j _ hk]
      exact ugrid_get _ _ _ _ hk)
  have hl : linIdx inc (fun j => ⌊(dat j - a j) / h j⌋) o = (lidx inc a h dat o : ℤ) := by
    unfold linIdx lidx
    push_cast
    apply Finset.sum_congr rfl
    intro j _
    rw [(hcell j).1]
  unfold contribNd
  rw [hp]
  simp only [hl]
  have hlt : (lidx inc a h dat o : ℤ) < (inc : ℤ) ^ d := by
    exact_mod_cast lidx_lt inc hn a h hh dat hin o ho
  rw [if_pos ⟨by positivity, hlt⟩]
  simp only [Int.toNat_natCast, Finset.abs_prod, cw]

end

theorem corners_le (d : ℕ) (o : Fin d → ℕ) (ho : o ∈ corners d) (j : Fin d) : o j ≤ 1 := by
  simp only [corners, List.mem_flatMap, List.mem_cons, List.not_mem_nil, or_false] at ho
  obtain ⟨ir, -, rfl | rfl⟩ := ho
  · rw [bits_eq]; omega
  · show 1 - _ ≤ 1; omega

section
variable {d : ℕ} (hd : 1 ≤ d) (inc : ℕ) (hn : 2 ≤ inc) (a h : Fin d → α) (hh : ∀ j, 0 < h j) (dat : Fin d → α)
  (hin : ∀ j, a j ≤ dat j ∧ dat j < a j + ((inc - 1 : ℕ) : α) * h j)
include hd hn hh hin

theorem corner_mass : ((corners d).map (fun o => ∏ j, cw (a j) (h j) (dat j) (o j))).sum = ∏ j, h j := by
  rw [corners_sum d hd (fun o => ∏ j, cw (a j) (h j) (dat j) (o j))]
  have := Finset.prod_univ_sum (fun _ : Fin d => (Finset.univ : Finset (Fin 2)))
    (fun j (s : Fin 2) => cw (a j) (h j) (dat j) s)
  rw [Fintype.piFinset_univ] at this
  rw [← this]
  exact Finset.prod_congr rfl (fun j _ => cw_sum _ _ _ (hh j) inc hn (hin j).1 (hin j).2)

theorem corner_moment (k : Fin d) : ((corners d).map (fun o => (∏ j, cw (a j) (h j) (dat j) (o j))
    * (a k + ((cell (a k) (h k) (dat k) + o k : ℕ) : α) * h k))).sum = (∏ j, h j) * dat k := by
  rw [corners_sum d hd (fun o => (∏ j, cw (a j) (h j) (dat j) (o j))
    * (a k + ((cell (a k) (h k) (dat k) + o k : ℕ) : α) * h k))]
  have e : ∀ s : Fin d → Fin 2, (∏ j, cw (a j) (h j) (dat j) (s j))
      * (a k + ((cell (a k) (h k) (dat k) + (s k : ℕ) : ℕ) : α) * h k)
      = ∏ j, (cw (a j) (h j) (dat j) (s j) *
        if j = k then (a j + ((cell (a j) (h j) (dat j) + (s j : ℕ) : ℕ) : α) * h j) else 1) := by
    intro s
    rw [Finset.prod_mul_distrib]
    congr 1
    simp
  simp only [e]
  have := Finset.prod_univ_sum (fun _ : Fin d => (Finset.univ : Finset (Fin 2)))
    (fun j (s : Fin 2) => cw (a j) (h j) (dat j) s *
        if j = k then (a j + ((cell (a j) (h j) (dat j) + (s : ℕ) : ℕ) : α) * h j) else 1)
  rw [Fintype.piFinset_univ] at this
  rw [← this]
  have e2 : ∀ j : Fin d, ∑ s : Fin 2, cw (a j) (h j) (dat j) s *
        (if j = k then (a j + ((cell (a j) (h j) (dat j) + (s : ℕ) : ℕ) : α) * h j) else 1)
      = h j * (if j = k then dat j else 1) := by
    intro j
    by_cases hj : j = k
    · simp only [if_pos hj]
      exact cw_moment _ _ _ (hh j) inc hn (hin j).1 (hin j).2
    · simp only [if_neg hj, mul_one]
      exact cw_sum _ _ _ (hh j) inc hn (hin j).1 (hin j).2
  simp only [e2]
  rw [Finset.prod_mul_distrib]
  simp

end

end Wafo.Grid

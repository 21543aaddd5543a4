import Verif.Logit.Model
import Verif.Logit.Spec
import Mathlib.Analysis.Calculus.Deriv.MeanValue
import Mathlib.Analysis.SpecialFunctions.Log.Deriv
import Mathlib.Analysis.SpecialFunctions.ExpDeriv
import Mathlib.Data.List.Range
import Mathlib.Tactic.FieldSimp
import Mathlib.Tactic.Positivity

set_option linter.unusedSectionVars false

/-! Helper lemmas for the logistic regression. -/

namespace Wafo.Logit

open Finset

variable {n q : ℕ} [NeZero n] (y : Fin n → ℤ) (x : Fin n → Fin q → ℝ)

/-! ### Columns of `z` and `z1` -/

theorem sorted_get (l : List ℤ) (hl : l.Pairwise (· < ·)) (j : ℕ) (v : ℤ) :
    l[j]? = some v ↔ v ∈ l ∧ (l.filter fun u => decide (u < v)).length = j := by
  induction l generalizing j with
  | nil => simp
  | cons a l ih =>
    rw [List.pairwise_cons] at hl
    cases j with
    | zero =>
      simp only [List.getElem?_cons_zero, Option.some.injEq]
      constructor
      · rintro rfl
        refine ⟨by simp, ?_⟩
        rw [List.length_eq_zero_iff, List.filter_eq_nil_iff]
        intro u hu
        rcases List.mem_cons.1 hu with rfl | hu
        · simp
        · have := hl.1 u hu; simp; omega
      · rintro ⟨h1, h2⟩
        rw [List.length_eq_zero_iff, List.filter_eq_nil_iff] at h2
        rcases List.mem_cons.1 h1 with rfl | h1
        · rfl
        · have := h2 a (by simp)
          have := hl.1 v h1
          simp at *; omega
    | succ j =>
      rw [List.getElem?_cons_succ, ih hl.2]
      constructor
      · rintro ⟨h1, h2⟩
        have := hl.1 v h1
        refine ⟨by simp [h1], ?_⟩
        rw [List.filter_cons_of_pos (by simpa using this), List.length_cons, h2]
      · rintro ⟨h1, h2⟩
        by_cases hav : a < v
        · rw [List.filter_cons_of_pos (by simpa using hav), List.length_cons] at h2
          refine ⟨?_, by omega⟩
          rcases List.mem_cons.1 h1 with rfl | h1
          · omega
          · exact h1
        · rw [List.filter_cons_of_neg (by simpa using hav)] at h2
          rcases List.mem_cons.1 h1 with rfl | h1
          · have : (l.filter fun u => decide (u < v)) = [] := by
              rw [List.filter_eq_nil_iff]
              intro u hu
              have := hl.1 u hu; simp; omega
            rw [this] at h2; simp at h2
          · exact absurd (hl.1 v h1) hav

theorem arange_sorted (a b : ℤ) : (arange a b).Pairwise (· < ·) := by
  unfold arange
  rw [List.pairwise_map]
  exact List.pairwise_lt_range.imp (fun h => by omega)

theorem mem_arange (a b v : ℤ) : v ∈ arange a b ↔ a ≤ v ∧ v < b := by
  simp only [arange, List.mem_map, List.mem_range]
  constructor
  · rintro ⟨i, h, rfl⟩; omega
  · rintro ⟨h1, h2⟩; exact ⟨(v - a).toNat, by omega, by omega⟩

theorem ymin_le (i : Fin n) : ymin y ≤ y i := Finset.inf'_le _ (mem_univ _)
theorem le_ymax (i : Fin n) : y i ≤ ymax y := Finset.le_sup' _ (mem_univ _)

theorem exists_ymax : ∃ i, y i = ymax y := by
  obtain ⟨i, -, h⟩ := Finset.exists_mem_eq_sup' (s := univ) ⟨(0 : Fin n), mem_univ _⟩ y
  exact ⟨i, h.symm⟩

theorem exists_ymin : ∃ i, y i = ymin y := by
  obtain ⟨i, -, h⟩ := Finset.exists_mem_eq_inf' (s := univ) ⟨(0 : Fin n), mem_univ _⟩ y
  exact ⟨i, h.symm⟩

theorem cols_sorted : (cols y).Pairwise (· < ·) := (arange_sorted _ _).filter _
theorem cols1_sorted : (cols1 y).Pairwise (· < ·) := (arange_sorted _ _).filter _

theorem mem_cols (v : ℤ) : v ∈ cols y ↔ v < ymax y ∧ ∃ i, y i = v := by
  simp only [cols, List.mem_filter, mem_arange, decide_eq_true_eq]
  constructor
  · rintro ⟨⟨-, h⟩, h2⟩; exact ⟨h, h2⟩
  · rintro ⟨h, i, rfl⟩; exact ⟨⟨ymin_le y i, h⟩, i, rfl⟩

theorem mem_cols1 (v : ℤ) : v ∈ cols1 y ↔ ymin y < v ∧ ∃ i, y i = v := by
  simp only [cols1, List.mem_filter, mem_arange, decide_eq_true_eq]
  constructor
  · rintro ⟨⟨h, -⟩, h2⟩; exact ⟨by omega, h2⟩
  · rintro ⟨h, i, rfl⟩; have := le_ymax y i; exact ⟨⟨by omega, by omega⟩, i, rfl⟩

theorem length_eq_card (l : List ℤ) (hl : l.Pairwise (· < ·)) (P : ℤ → Prop) [DecidablePred P] (s : Finset ℤ)
    (h : ∀ v, (v ∈ l ∧ P v) ↔ v ∈ s) : (l.filter fun u => decide (P u)).length = s.card := by
  have hn : (l.filter fun u => decide (P u)).Nodup := (hl.imp (fun h => h.ne)).filter _
  rw [← List.toFinset_card_of_nodup hn]
  congr 1
  ext v
  simp [← h]

theorem cols_get (i : Fin n) (j : ℕ) : (cols y)[j]? = some (y i) ↔ y i < ymax y ∧ cat y i = j := by
  rw [sorted_get _ (cols_sorted y), mem_cols, length_eq_card _ (cols_sorted y) (fun u => u < y i)
    ((univ.image y).filter fun v => v < y i)]
  · constructor
    · rintro ⟨⟨h, -⟩, h2⟩; exact ⟨h, h2⟩
    · rintro ⟨h, h2⟩; exact ⟨⟨h, i, rfl⟩, h2⟩
  · intro v
    rw [mem_cols]
    simp only [mem_filter, mem_image, mem_univ, true_and]
    have := le_ymax y i
    constructor
    · rintro ⟨⟨-, h⟩, h2⟩; exact ⟨h, h2⟩
    · rintro ⟨h, h2⟩; exact ⟨⟨by omega, h⟩, h2⟩

theorem cat_pos (i : Fin n) (h : ymin y < y i) :
    ((univ.image y).filter fun v => ymin y < v ∧ v < y i).card + 1 = cat y i := by
  unfold cat
  obtain ⟨k, hk⟩ := exists_ymin y
  have : ((univ.image y).filter fun v => v < y i) =
      insert (ymin y) ((univ.image y).filter fun v => ymin y < v ∧ v < y i) := by
    ext v
    simp only [mem_filter, mem_image, mem_univ, true_and, mem_insert]
    constructor
    · rintro ⟨⟨l, rfl⟩, h2⟩
      have := ymin_le y l
      by_cases e : y l = ymin y
      · exact Or.inl e
      · exact Or.inr ⟨⟨l, rfl⟩, by omega, h2⟩
    · rintro (rfl | ⟨h1, h2⟩)
      · exact ⟨⟨k, hk⟩, h⟩
      · exact ⟨h1, h2.2⟩
  rw [this, card_insert_of_notMem (by simp)]

theorem cols1_get (i : Fin n) (j : ℕ) : (cols1 y)[j]? = some (y i) ↔ ymin y < y i ∧ cat y i = j + 1 := by
  rw [sorted_get _ (cols1_sorted y), mem_cols1, length_eq_card _ (cols1_sorted y) (fun u => u < y i)
    ((univ.image y).filter fun v => ymin y < v ∧ v < y i)]
  · constructor
    · rintro ⟨⟨h, -⟩, h2⟩; exact ⟨h, by rw [← h2]; exact (cat_pos y i h).symm⟩
    · rintro ⟨h, h2⟩; exact ⟨⟨h, i, rfl⟩, by have := cat_pos y i h; omega⟩
  · intro v
    rw [mem_cols1]
    simp only [mem_filter, mem_image, mem_univ, true_and]
    constructor
    · rintro ⟨⟨h0, h⟩, h2⟩; exact ⟨h, h0, h2⟩
    · rintro ⟨h, h0, h2⟩; exact ⟨⟨h0, h⟩, h2⟩

theorem cat_zero (i : Fin n) (h : ¬ ymin y < y i) : cat y i = 0 := by
  unfold cat
  rw [card_eq_zero, filter_eq_empty_iff]
  intro v hv
  obtain ⟨k, -, rfl⟩ := mem_image.1 hv
  have := ymin_le y k
  omega

theorem nz_eq : nz y = ((univ.image y).filter fun v => v < ymax y).card := by
  have := length_eq_card (cols y) (cols_sorted y) (fun _ => True) ((univ.image y).filter fun v => v < ymax y) (by
    intro v
    rw [mem_cols]
    simp only [mem_filter, mem_image, mem_univ, true_and]
    tauto)
  simpa [nz] using this

theorem cat_last (i : Fin n) (h : y i = ymax y) : cat y i = nz y := by rw [nz_eq, cat, h]

theorem cat_lt (i : Fin n) (h : y i < ymax y) : cat y i < nz y := by
  rw [nz_eq, cat]
  apply card_lt_card
  refine ⟨?_, ?_⟩
  · intro v hv
    simp only [mem_filter] at hv ⊢
    exact ⟨hv.1, by omega⟩
  · intro hsub
    have := hsub (show y i ∈ _ by simp only [mem_filter, mem_image, mem_univ, true_and]; exact ⟨⟨i, rfl⟩, h⟩)
    simp only [mem_filter] at this
    omega

theorem nz_card : nz y + 1 = (univ.image y).card := by
  rw [nz_eq]
  obtain ⟨i, hi⟩ := exists_ymax y
  have : univ.image y = insert (ymax y) ((univ.image y).filter fun v => v < ymax y) := by
    ext v
    simp only [mem_insert, mem_filter]
    constructor
    · intro hv
      obtain ⟨k, -, rfl⟩ := mem_image.1 hv
      have := le_ymax y k
      by_cases e : y k = ymax y
      · exact Or.inl e
      · exact Or.inr ⟨hv, by omega⟩
    · rintro (rfl | h)
      · exact mem_image.2 ⟨i, mem_univ _, hi⟩
      · exact h.1
  conv_rhs => rw [this]
  rw [card_insert_of_notMem (by simp)]

/-- Both matrices have the same number of columns. -/
theorem cols1_length : (cols1 y).length = nz y := by
  have := length_eq_card (cols1 y) (cols1_sorted y) (fun _ => True) ((univ.image y).filter fun v => ymin y < v) (by
    intro v
    rw [mem_cols1]
    simp only [mem_filter, mem_image, mem_univ, true_and]
    tauto)
  have h2 : ((univ.image y).filter fun v => ymin y < v).card + 1 = (univ.image y).card := by
    obtain ⟨i, hi⟩ := exists_ymin y
    have : univ.image y = insert (ymin y) ((univ.image y).filter fun v => ymin y < v) := by
      ext v
      simp only [mem_insert, mem_filter]
      constructor
      · intro hv
        obtain ⟨k, -, rfl⟩ := mem_image.1 hv
        have := ymin_le y k
        by_cases e : y k = ymin y
        · exact Or.inl e
        · exact Or.inr ⟨hv, by omega⟩
      · rintro (rfl | h)
        · exact mem_image.2 ⟨i, mem_univ _, hi⟩
        · exact h.1
    conv_rhs => rw [this]
    rw [card_insert_of_notMem (by simp)]
  have h3 := nz_card y
  simp at this
  omega

theorem z_eq (i : Fin n) (j : Fin (nz y)) : z y i j = if cat y i = j then 1 else 0 := by
  unfold z
  congr 1
  rw [eq_iff_iff, Fin.getElem?_fin, cols_get]
  constructor
  · exact fun h => h.2
  · intro h
    refine ⟨?_, h⟩
    by_contra hlt
    have := cat_last y i (le_antisymm (le_ymax y i) (by omega))
    have := j.2
    omega

theorem z1_eq (i : Fin n) (j : Fin (nz y)) : z1 y i j = if cat y i = j + 1 then 1 else 0 := by
  unfold z1
  congr 1
  rw [eq_iff_iff, Fin.getElem?_fin, cols1_get]
  constructor
  · exact fun h => h.2
  · intro h
    refine ⟨?_, h⟩
    by_contra hlt
    have := cat_zero y i hlt
    omega

/-! ### The logistic function -/

theorem logitinv_eq (t : ℝ) : logitinv t = 1 / (1 + Real.exp (-t)) := by rw [logitinv, add_comm]

theorem logitinv_pos (t : ℝ) : 0 < logitinv t := by unfold logitinv; positivity

theorem logitinv_lt_one (t : ℝ) : logitinv t < 1 := by
  unfold logitinv
  rw [div_lt_one (by positivity)]
  have := Real.exp_pos (-t)
  linarith

theorem logitinv_strictMono : StrictMono logitinv := by
  intro s t h
  unfold logitinv
  apply one_div_lt_one_div_of_lt (by positivity)
  have := Real.exp_lt_exp.2 (neg_lt_neg h)
  linarith

theorem logitinv_deriv (t : ℝ) : HasDerivAt logitinv (logitinv t * (1 - logitinv t)) t := by
  have h1 : HasDerivAt (fun t => Real.exp (-t) + 1) (Real.exp (-t) * -1) t :=
    ((hasDerivAt_neg t).exp).add_const 1
  have hne : Real.exp (-t) + 1 ≠ 0 := by positivity
  have h2 := h1.inv hne
  have e : logitinv = (fun t => Real.exp (-t) + 1)⁻¹ := by
    funext u; simp [logitinv]
  rw [e]
  refine h2.congr_deriv ?_
  simp only [Pi.inv_apply]
  field_simp
  ring

theorem logitinv_log {c : ℝ} (h0 : 0 < c) (h1 : c < 1) : logitinv (Real.log (c / (1 - c))) = c := by
  have h2 : 0 < 1 - c := by linarith
  unfold logitinv
  rw [Real.exp_neg, Real.exp_log (by positivity)]
  field_simp
  ring

theorem g_eq (b : Par y q) (i : Fin n) :
    g y x b i = if y i = ymax y then 1 else logitinv (∑ j, zx y x i j * b j) := by
  unfold g
  split
  · exact max_eq_left (logitinv_lt_one _).le
  · exact max_eq_right (logitinv_pos _).le

theorem g1_eq (b : Par y q) (i : Fin n) :
    g1 y x b i = if ymin y < y i then logitinv (∑ j, z1x y x i j * b j) else 0 := by
  unfold g1
  split
  · exact min_eq_right (logitinv_lt_one _).le
  · exact min_eq_left (logitinv_pos _).le

end Wafo.Logit

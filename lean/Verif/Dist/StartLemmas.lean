import Verif.Dist.StartModel
import Verif.Dist.LogProps
import Verif.Dist.GevProps

/-!
# Location and scale, sample moments
-/

set_option linter.unusedSectionVars false

namespace Wafo.Dist

open MeasureTheory Set Filter Topology Real

/-- The support of `loc + scale * X`. -/
def lsSet (I : Set ℝ) (loc scale : ℝ) : Set ℝ := {x | (x - loc) / scale ∈ I}

/-- The density of `loc + scale * X`, which is the density of the distribution with location and scale. -/
noncomputable def lsPdf (f : ℝ → ℝ) (loc scale x : ℝ) : ℝ := f ((x - loc) / scale) / scale

/-- Expected values under location and scale. -/
theorem hasInt_ls {I : Set ℝ} (hI : MeasurableSet I) {f k : ℝ → ℝ} {loc scale v : ℝ} (hs : 0 < scale) :
    HasInt (lsSet I loc scale) (fun x => k x * lsPdf f loc scale x) v ↔
      HasInt I (fun y => k (loc + scale * y) * f y) v := by
  have hd : ∀ y ∈ I, HasDerivWithinAt (fun y : ℝ => loc + scale * y) scale I y := fun y _ => by
    simpa using (((hasDerivAt_id y).const_mul scale).const_add loc).hasDerivWithinAt
  have hinj : InjOn (fun y : ℝ => loc + scale * y) I := fun a _ b _ h => by
    simpa [hs.ne'] using h
  have him : (fun y : ℝ => loc + scale * y) '' I = lsSet I loc scale := by
    ext x
    constructor
    · rintro ⟨y, hy, rfl⟩
      show (loc + scale * y - loc) / scale ∈ I
      rwa [add_sub_cancel_left, mul_div_cancel_left₀ _ hs.ne']
    · intro hx
      refine ⟨(x - loc) / scale, hx, ?_⟩
      show loc + scale * ((x - loc) / scale) = x
      field_simp
      ring
  have h1 := integral_image_eq_integral_abs_deriv_smul hI hd hinj (fun x => k x * lsPdf f loc scale x)
  have h2 := integrableOn_image_iff_integrableOn_abs_deriv_smul hI hd hinj
    (fun x => k x * lsPdf f loc scale x)
  rw [him] at h1 h2
  have e : ∀ y ∈ I, |scale| • (k (loc + scale * y) * lsPdf f loc scale (loc + scale * y)) =
      k (loc + scale * y) * f y := by
    intro y _
    rw [abs_of_pos hs, smul_eq_mul, lsPdf, add_sub_cancel_left, mul_div_cancel_left₀ _ hs.ne']
    field_simp
  unfold HasInt
  rw [h1, h2, integrableOn_congr_fun e hI, setIntegral_congr_fun hI e]

theorem ls_mean {I : Set ℝ} (hI : MeasurableSet I) {f : ℝ → ℝ} {loc scale m : ℝ} (hs : 0 < scale)
    (h0 : HasMoment I f 0 1) (h1 : HasMoment I f 1 m) :
    HasMoment (lsSet I loc scale) (lsPdf f loc scale) 1 (loc + scale * m) := by
  refine (hasInt_ls hI hs (k := fun x => x ^ 1)).2 ?_
  have a0 : HasInt I (fun x => x ^ 0 * f x) 1 := h0
  have a1 : HasInt I (fun x => x ^ 1 * f x) m := h1
  exact ((a0.const_mul loc).add (a1.const_mul scale)).congr hI (fun y _ => by ring) (by ring)

theorem ls_var {I : Set ℝ} (hI : MeasurableSet I) {f : ℝ → ℝ} {loc scale v : ℝ} (hs : 0 < scale)
    (h0 : HasMoment I f 0 1) (hv : HasVar I f v) :
    HasVar (lsSet I loc scale) (lsPdf f loc scale) (scale ^ 2 * v) := by
  obtain ⟨m, h1, hi, hvar, hpos⟩ := hv
  have h2 : HasInt I (fun x => (x - m) ^ 2 * f x) v := ⟨hi, hvar⟩
  have h3 : HasInt (lsSet I loc scale) (fun x => (x - (loc + scale * m)) ^ 2 * lsPdf f loc scale x)
      (scale ^ 2 * v) := (hasInt_ls hI hs (k := fun x => (x - (loc + scale * m)) ^ 2)).2
    ((h2.const_mul (scale ^ 2)).congr hI (fun y _ => by ring) rfl)
  exact ⟨_, ls_mean hI hs h0 h1, h3.1, h3.2, by positivity⟩

namespace Start

theorem foldl_min_le (l : List ℝ) : ∀ a, l.foldl min a ≤ a ∧ (∀ x ∈ l, l.foldl min a ≤ x) ∧
    (l.foldl min a = a ∨ l.foldl min a ∈ l) := by
  induction l with
  | nil => intro a; simp
  | cons b l ih =>
    intro a
    obtain ⟨h1, h2, h3⟩ := ih (min a b)
    rw [List.foldl_cons]
    refine ⟨h1.trans (min_le_left _ _), ?_, ?_⟩
    · intro x hx
      rcases List.mem_cons.1 hx with rfl | hx
      · exact h1.trans (min_le_right _ _)
      · exact h2 x hx
    · rcases h3 with h3 | h3
      · rcases min_choice a b with h | h
        · exact Or.inl (h3.trans h)
        · exact Or.inr (by rw [h3, h]; simp)
      · exact Or.inr (List.mem_cons_of_mem _ h3)

theorem npMin_ok {d : List ℝ} {m : ℝ} (h : npMin d = .ok m) : m ∈ d ∧ ∀ x ∈ d, m ≤ x := by
  rcases d with _ | ⟨a, l⟩
  · cases h
  · obtain rfl := Except.ok.inj h
    obtain ⟨h1, h2, h3⟩ := foldl_min_le l a
    refine ⟨?_, fun x hx => ?_⟩
    · rcases h3 with h3 | h3
      · rw [h3]; simp
      · exact List.mem_cons_of_mem _ h3
    · rcases List.mem_cons.1 hx with rfl | hx
      · exact h1
      · exact h2 x hx

theorem foldl_max_le (l : List ℝ) : ∀ a, a ≤ l.foldl max a ∧ (∀ x ∈ l, x ≤ l.foldl max a) ∧
    (l.foldl max a = a ∨ l.foldl max a ∈ l) := by
  induction l with
  | nil => intro a; simp
  | cons b l ih =>
    intro a
    obtain ⟨h1, h2, h3⟩ := ih (max a b)
    rw [List.foldl_cons]
    refine ⟨(le_max_left _ _).trans h1, ?_, ?_⟩
    · intro x hx
      rcases List.mem_cons.1 hx with rfl | hx
      · exact (le_max_right _ _).trans h1
      · exact h2 x hx
    · rcases h3 with h3 | h3
      · rcases max_choice a b with h | h
        · exact Or.inl (h3.trans h)
        · exact Or.inr (by rw [h3, h]; simp)
      · exact Or.inr (List.mem_cons_of_mem _ h3)

theorem npMax_ok {d : List ℝ} {m : ℝ} (h : npMax d = .ok m) : m ∈ d ∧ ∀ x ∈ d, x ≤ m := by
  rcases d with _ | ⟨a, l⟩
  · cases h
  · obtain rfl := Except.ok.inj h
    obtain ⟨h1, h2, h3⟩ := foldl_max_le l a
    refine ⟨?_, fun x hx => ?_⟩
    · rcases h3 with h3 | h3
      · rw [h3]; simp
      · exact List.mem_cons_of_mem _ h3
    · rcases List.mem_cons.1 hx with rfl | hx
      · exact h1
      · exact h2 x hx

theorem sum_map_sub (d : List ℝ) (a : ℝ) : (d.map fun x => x - a).sum = d.sum - d.length * a := by
  induction d with
  | nil => simp
  | cons b d ih => simp only [List.map_cons, List.sum_cons, ih, List.length_cons]; push_cast; ring

theorem mean_sub {d : List ℝ} (hd : d ≠ []) (a : ℝ) : mean (d.map fun x => x - a) = mean d - a := by
  have : (d.length : ℝ) ≠ 0 := by
    have := List.length_pos_iff.2 hd
    exact_mod_cast this.ne'
  rw [mean, mean, sum_map_sub, List.length_map, sub_div, mul_div_cancel_left₀ _ this]

theorem var_sub {d : List ℝ} (hd : d ≠ []) (a : ℝ) : var (d.map fun x => x - a) = var d := by
  rw [var, var, mean_sub hd, List.map_map]
  congr 1
  refine List.map_congr_left fun x _ => ?_
  simp only [Function.comp]
  ring

theorem var_nonneg (d : List ℝ) : 0 ≤ var d := by
  refine div_nonneg (List.sum_nonneg ?_) (by positivity)
  intro x hx
  obtain ⟨y, _, rfl⟩ := List.mem_map.1 hx
  positivity

theorem std_sq (d : List ℝ) : std d ^ 2 = var d := sq_sqrt (var_nonneg d)

theorem sum_pos_of_mem {d : List ℝ} (h : ∀ x ∈ d, 0 < x) (hd : d ≠ []) : 0 < d.sum := by
  induction d with
  | nil => exact absurd rfl hd
  | cons a l ih =>
    rw [List.sum_cons]
    have ha := h a (by simp)
    by_cases hl : l = []
    · simp [hl, ha]
    · have := ih (fun x hx => h x (List.mem_cons_of_mem _ hx)) hl
      linarith

theorem mean_pos {d : List ℝ} (h : ∀ x ∈ d, 0 < x) (hd : d ≠ []) : 0 < mean d :=
  div_pos (sum_pos_of_mem h hd) (by exact_mod_cast List.length_pos_iff.2 hd)

end Start

end Wafo.Dist

import Verif.Geometry.Model
import Mathlib.Data.Rat.Floor
import Mathlib.Tactic.FieldSimp
import Mathlib.Tactic.FinCases
import Mathlib.Tactic.NormNum
import Mathlib.LinearAlgebra.Matrix.Determinant.Basic

/-!
Properties C43-C47 and C90.
-/

set_option linter.unusedSectionVars false

namespace Wafo.Geometry

/-! ## C43 -/

section
variable {α ι : Type*} [Field α] [LinearOrder α] [IsStrictOrderedRing α]

/-- **C43.**  For `num >= 2`: `num` points, the first is `start`, the last is `stop`, all consecutive
differences equal `(stop - start)/(num - 1)`, and every point divides the segment in a ratio in [0, 1]. -/
theorem C43_spaceline (start stop : ι → α) (num : ℕ) (h : 2 ≤ num) :
    (spaceline start stop num).length = num ∧
    (spaceline start stop num)[0]? = some start ∧
    (spaceline start stop num)[num - 1]? = some stop ∧
    (∀ (k : ℕ) p q, (spaceline start stop num)[k]? = some p → (spaceline start stop num)[k + 1]? = some q →
      ∀ i, (q i - p i) * (num - 1) = stop i - start i) ∧
    (∀ (k : ℕ) p, (spaceline start stop num)[k]? = some p →
      ∃ t : α, 0 ≤ t ∧ t ≤ 1 ∧ ∀ i, p i = (1 - t) * start i + t * stop i) := by
  have hz : (1 : ℤ) < (num : ℤ) := by exact_mod_cast h
  have hden : (0 : α) < (num : α) - 1 := by
    have : (2 : α) ≤ num := by exact_mod_cast h
    linarith
  have hsp : spaceline start stop (num : ℤ) = (List.range num).map
      (fun (n : ℕ) i => start i + (n : α) * ((stop i - start i) / ((num : α) - 1))) := by
    unfold spaceline
    rw [if_pos hz]
    simp
  rw [hsp]
  have hget : ∀ (k : ℕ) p, ((List.range num).map
      (fun (n : ℕ) i => start i + (n : α) * ((stop i - start i) / ((num : α) - 1))))[k]? = some p →
      k < num ∧ p = fun i => start i + (k : α) * ((stop i - start i) / ((num : α) - 1)) := by
    intro k p hp
    rw [List.getElem?_map] at hp
    by_cases hk : k < num
    · rw [List.getElem?_range hk] at hp
      simp only [Option.map_some, Option.some.injEq] at hp
      exact ⟨hk, hp.symm⟩
    · rw [List.getElem?_eq_none (by simpa using hk)] at hp
      simp at hp
  refine ⟨by simp, ?_, ?_, ?_, ?_⟩
  · rw [List.getElem?_map, List.getElem?_range (by omega)]
    simp
  · rw [List.getElem?_map, List.getElem?_range (by omega)]
    simp only [Option.map_some, Option.some.injEq]
    funext i
    rw [Nat.cast_sub (by omega)]
    field_simp
    simp
    ring
  · intro k p q hp hq i
    rw [(hget k p hp).2, (hget (k + 1) q hq).2]
    push_cast
    field_simp
    ring
  · intro k p hp
    obtain ⟨hk, rfl⟩ := hget k p hp
    refine ⟨(k : α) / ((num : α) - 1), by positivity, ?_, ?_⟩
    · rw [div_le_one hden]
      have : ((k + 1 : ℕ) : α) ≤ num := by exact_mod_cast hk
      push_cast at this
      linarith
    · intro i
      field_simp
      ring

/-- Otherwise the midpoint alone is returned. -/
theorem C43_midpoint (start stop : ι → α) (num : ℤ) (h : num ≤ 1) :
    ∃ m, spaceline start stop num = [m] ∧ ∀ i, m i = (start i + stop i) / 2 := by
  refine ⟨_, by unfold spaceline; rw [if_neg (by omega)], ?_⟩
  intro i
  dsimp only
  ring

example : (spaceline (fun _ : Fin 1 => (2 : ℚ)) (fun _ => 3) 5).map (fun p => p 0)
    = [2, 9 / 4, 5 / 2, 11 / 4, 3] := by decide +kernel
end

/-! ## C44 -/

/-- Rotation about the vertical axis, the transverse axis and the longitudinal axis by an angle in radians. -/
noncomputable def rz (a : ℝ) : Matrix (Fin 3) (Fin 3) ℝ :=
  !![Real.cos a, -Real.sin a, 0; Real.sin a, Real.cos a, 0; 0, 0, 1]
/-- See `rz`. -/
noncomputable def ry (a : ℝ) : Matrix (Fin 3) (Fin 3) ℝ :=
  !![Real.cos a, 0, Real.sin a; 0, 1, 0; -Real.sin a, 0, Real.cos a]
/-- See `rz`. -/
noncomputable def rx (a : ℝ) : Matrix (Fin 3) (Fin 3) ℝ :=
  !![1, 0, 0; 0, Real.cos a, -Real.sin a; 0, Real.sin a, Real.cos a]

/-- **C44.**  The matrix is: first roll about x, then pitch about y, then heading about z. -/
theorem C44_factors (h p r : ℝ) : rotationMatrix h p r = rz (rad h) * ry (rad p) * rx (rad r) := by
  unfold rotationMatrix
  split
  · ext i j
    fin_cases i <;> fin_cases j <;>
      simp [rz, ry, rx, Matrix.mul_apply, Fin.sum_univ_three] <;> ring
  · rename_i hne
    push Not at hne
    obtain ⟨rfl, rfl, rfl⟩ := hne
    ext i j
    fin_cases i <;> fin_cases j <;>
      simp [rz, ry, rx, rad, Matrix.mul_apply, Fin.sum_univ_three]

theorem rz_orth (a : ℝ) : rz a * (rz a).transpose = 1 := by
  have := Real.sin_sq_add_cos_sq a
  ext i j
  fin_cases i <;> fin_cases j <;>
    simp [rz, Matrix.mul_apply, Fin.sum_univ_three] <;> linarith

theorem ry_orth (a : ℝ) : ry a * (ry a).transpose = 1 := by
  have := Real.sin_sq_add_cos_sq a
  ext i j
  fin_cases i <;> fin_cases j <;>
    simp [ry, Matrix.mul_apply, Fin.sum_univ_three] <;> linarith

theorem rx_orth (a : ℝ) : rx a * (rx a).transpose = 1 := by
  have := Real.sin_sq_add_cos_sq a
  ext i j
  fin_cases i <;> fin_cases j <;>
    simp [rx, Matrix.mul_apply, Fin.sum_univ_three] <;> linarith

/-- **C44.**  `rotation_matrix` is orthogonal for all angles. -/
theorem C44_orthogonal (h p r : ℝ) :
    rotationMatrix h p r * (rotationMatrix h p r).transpose = 1 ∧
    (rotationMatrix h p r).transpose * rotationMatrix h p r = 1 := by
  have key : rotationMatrix h p r * (rotationMatrix h p r).transpose = 1 := by
    rw [C44_factors, Matrix.transpose_mul, Matrix.transpose_mul]
    calc _ = rz (rad h) * (ry (rad p) * (rx (rad r) * (rx (rad r)).transpose) * (ry (rad p)).transpose)
          * (rz (rad h)).transpose := by simp only [Matrix.mul_assoc]
      _ = 1 := by rw [rx_orth, Matrix.mul_one, ry_orth, Matrix.mul_one, rz_orth]
  exact ⟨key, mul_eq_one_comm.1 key⟩

/-- **C44.**  It is a proper rotation: determinant one. -/
theorem C44_proper (h p r : ℝ) : (rotationMatrix h p r).det = 1 := by
  have h1 := Real.sin_sq_add_cos_sq (rad h)
  have h2 := Real.sin_sq_add_cos_sq (rad p)
  have h3 := Real.sin_sq_add_cos_sq (rad r)
  rw [C44_factors, Matrix.det_mul, Matrix.det_mul]
  have e1 : (rz (rad h)).det = 1 := by
    rw [Matrix.det_fin_three]; simp [rz]; linarith
  have e2 : (ry (rad p)).det = 1 := by
    rw [Matrix.det_fin_three]; simp [ry]; linarith
  have e3 : (rx (rad r)).det = 1 := by
    rw [Matrix.det_fin_three]; simp [rx]; linarith
  rw [e1, e2, e3]; norm_num

/-- **C44.**  `rotate` preserves the squared length of every vector (and hence, being linear, distances). -/
theorem C44_rotate_length (x y z h p r : ℝ) :
    (rotate x y z h p r).1 ^ 2 + (rotate x y z h p r).2.1 ^ 2 + (rotate x y z h p r).2.2 ^ 2
      = x ^ 2 + y ^ 2 + z ^ 2 := by
  have key := (C44_orthogonal h p r).2
  set q := rotationMatrix h p r with hq
  have e : ∀ i j, q 0 i * q 0 j + q 1 i * q 1 j + q 2 i * q 2 j = if i = j then 1 else 0 := by
    intro i j
    have := congrFun (congrFun key i) j
    rw [Matrix.mul_apply, Fin.sum_univ_three, Matrix.one_apply] at this
    exact this
  have e00 := e 0 0
  have e11 := e 1 1
  have e22 := e 2 2
  have e01 := e 0 1
  have e02 := e 0 2
  have e12 := e 1 2
  rw [if_pos rfl] at e00 e11 e22
  rw [if_neg (by decide)] at e01 e02 e12
  unfold rotate
  dsimp only
  rw [← hq]
  linear_combination x ^ 2 * e00 + y ^ 2 * e11 + z ^ 2 * e22 + 2 * x * y * e01 + 2 * x * z * e02
    + 2 * y * z * e12

/-- **C44.**  Distances between points are preserved by `rotate`. -/
theorem C44_rotate_distance (x y z x' y' z' h p r : ℝ) :
    ((rotate x y z h p r).1 - (rotate x' y' z' h p r).1) ^ 2
      + ((rotate x y z h p r).2.1 - (rotate x' y' z' h p r).2.1) ^ 2
      + ((rotate x y z h p r).2.2 - (rotate x' y' z' h p r).2.2) ^ 2
      = (x - x') ^ 2 + (y - y') ^ 2 + (z - z') ^ 2 := by
  rw [← C44_rotate_length (x - x') (y - y') (z - z') h p r]
  unfold rotate
  ring

/-- **C44.**  No rotation for zero angles. -/
theorem C44_rotate_zero (x y z : ℝ) : rotate x y z 0 0 0 = (x, y, z) := by
  simp [rotate, rotationMatrix]

/-- **C44.**  Rotations about the vertical axis compose by adding the headings. -/
theorem C44_heading_add (x y z h h' : ℝ) :
    rotate (rotate x y z h' 0 0).1 (rotate x y z h' 0 0).2.1 (rotate x y z h' 0 0).2.2 h 0 0
      = rotate x y z (h + h') 0 0 := by
  have hr : rad (h + h') = rad h + rad h' := by unfold rad; ring
  unfold rotate
  simp only [C44_factors, hr]
  simp [rz, ry, rx, rad, Matrix.mul_apply, Fin.sum_univ_three, Real.cos_add, Real.sin_add]
  refine ⟨?_, ?_⟩ <;> ring

/-- **C44.**  Rotations about the transverse axis compose by adding the pitches. -/
theorem C44_pitch_add (x y z h h' : ℝ) :
    rotate (rotate x y z 0 h' 0).1 (rotate x y z 0 h' 0).2.1 (rotate x y z 0 h' 0).2.2 0 h 0
      = rotate x y z 0 (h + h') 0 := by
  have hr : rad (h + h') = rad h + rad h' := by unfold rad; ring
  unfold rotate
  simp only [C44_factors, hr]
  simp [rz, ry, rx, rad, Matrix.mul_apply, Fin.sum_univ_three, Real.cos_add, Real.sin_add]
  refine ⟨?_, ?_⟩ <;> ring

/-- **C44.**  Rotations about the longitudinal axis compose by adding the rolls. -/
theorem C44_roll_add (x y z h h' : ℝ) :
    rotate (rotate x y z 0 0 h').1 (rotate x y z 0 0 h').2.1 (rotate x y z 0 0 h').2.2 0 0 h
      = rotate x y z 0 0 (h + h') := by
  have hr : rad (h + h') = rad h + rad h' := by unfold rad; ring
  unfold rotate
  simp only [C44_factors, hr]
  simp [rz, ry, rx, rad, Matrix.mul_apply, Fin.sum_univ_three, Real.cos_add, Real.sin_add]
  refine ⟨?_, ?_⟩ <;> ring

/-- **C44.**  The plane rotation preserves distances, is the identity for angle zero, composes by adding
angles, and agrees with `rotate` about the vertical axis. -/
theorem C44_rotate2d (x y x' y' a b : ℝ) :
    ((rotate2d x y a).1 - (rotate2d x' y' a).1) ^ 2 + ((rotate2d x y a).2 - (rotate2d x' y' a).2) ^ 2
      = (x - x') ^ 2 + (y - y') ^ 2 ∧
    rotate2d x y 0 = (x, y) ∧
    rotate2d (rotate2d x y b).1 (rotate2d x y b).2 a = rotate2d x y (a + b) ∧
    (∀ z, rotate x y z a 0 0 = ((rotate2d x y a).1, (rotate2d x y a).2, z)) := by
  refine ⟨?_, ?_, ?_, ?_⟩
  · have := Real.sin_sq_add_cos_sq (a * Real.pi / 180)
    unfold rotate2d
    dsimp only
    linear_combination ((x - x') ^ 2 + (y - y') ^ 2) * this
  · simp [rotate2d]
  · have hr : (a + b) * Real.pi / 180 = a * Real.pi / 180 + b * Real.pi / 180 := by ring
    simp only [rotate2d, hr, Real.cos_add, Real.sin_add, Prod.mk.injEq]
    constructor <;> ring
  · intro z
    have hr : a * Real.pi / 180 = rad a := by unfold rad; ring
    unfold rotate
    simp only [C44_factors, rotate2d, hr]
    simp [rz, ry, rx, rad, Matrix.mul_apply, Fin.sum_univ_three]
    constructor <;> ring

/-- A quarter turn takes (1, 0) to (0, 1): the rotation is counter-clockwise. -/
example : rotate2d 1 0 90 = (0, 1) := by
  have : (90 : ℝ) * Real.pi / 180 = Real.pi / 2 := by ring
  simp [rotate2d, this]

/-! ## C45 -/

theorem arctan2_eq_arg (x y : ℝ) : arctan2 y x = Complex.arg ⟨x, y⟩ := by
  unfold arctan2 Complex.arg
  simp [Complex.norm_def, Complex.normSq_apply]

theorem hypot_eq_norm (x y : ℝ) : hypot x y = ‖(⟨x, y⟩ : ℂ)‖ := by
  unfold hypot
  rw [Complex.norm_def, Complex.normSq_apply]
  congr 1
  ring

/-- **C45.**  Going to polar coordinates and back gives the point, for all points. -/
theorem C45_cart_polar_cart (x y : ℝ) :
    polar2cart (cart2polar x y).1 (cart2polar x y).2 = (x, y) := by
  unfold polar2cart cart2polar
  dsimp only
  rw [arctan2_eq_arg, hypot_eq_norm, Complex.norm_mul_cos_arg, Complex.norm_mul_sin_arg]

/-- **C45.**  Going to Cartesian coordinates and back gives angle and radius, for positive radius and angles
in (-pi, pi]. -/
theorem C45_polar_cart_polar (theta rho : ℝ) (hr : 0 < rho) (h1 : -Real.pi < theta) (h2 : theta ≤ Real.pi) :
    cart2polar (polar2cart theta rho).1 (polar2cart theta rho).2 = (theta, rho) := by
  have hz : (⟨rho * Real.cos theta, rho * Real.sin theta⟩ : ℂ)
      = (rho : ℂ) * (Complex.cos theta + Complex.sin theta * Complex.I) := by
    apply Complex.ext
    · simp [← Complex.ofReal_cos, ← Complex.ofReal_sin]
    · simp [← Complex.ofReal_cos, ← Complex.ofReal_sin]
  unfold polar2cart cart2polar
  dsimp only
  rw [arctan2_eq_arg, hz, Complex.arg_mul_cos_add_sin_mul_I hr ⟨h1, h2⟩]
  congr 1
  unfold hypot
  have : (rho * Real.cos theta) ^ 2 + (rho * Real.sin theta) ^ 2 = rho ^ 2 := by
    have := Real.sin_sq_add_cos_sq theta
    linear_combination rho ^ 2 * this
  rw [this, Real.sqrt_sq hr.le]

/-- **C45.**  The angle returned is always in (-pi, pi] and the radius non-negative. -/
theorem C45_range (x y : ℝ) : -Real.pi < (cart2polar x y).1 ∧ (cart2polar x y).1 ≤ Real.pi ∧
    0 ≤ (cart2polar x y).2 := by
  unfold cart2polar
  dsimp only
  rw [arctan2_eq_arg]
  exact ⟨Complex.neg_pi_lt_arg _, Complex.arg_le_pi _, Real.sqrt_nonneg _⟩

example : (0 : ℝ) < 2 ∧ -Real.pi < Real.pi ∧ Real.pi ≤ Real.pi :=
  ⟨by norm_num, by linarith [Real.pi_pos], le_rfl⟩

/-! ## C46 -/

/-- Value of subscripts, last dimension first. -/
def valRev : List ℕ → List ℕ → ℕ
  | d :: ds, s :: ss => s + d * valRev ds ss
  | _, _ => 0

/-- The subscripts are inside the array. -/
def Inside (shape subs : List ℕ) : Prop := List.Forall₂ (fun s d => s < d) subs shape

theorem inside_reverse {shape subs : List ℕ} (h : Inside shape subs) : Inside shape.reverse subs.reverse :=
  List.rel_reverse h

theorem valRev_append (ds ss : List ℕ) (d s : ℕ) (h : ds.length = ss.length) :
    valRev (ds ++ [d]) (ss ++ [s]) = valRev ds ss + ds.prod * s := by
  induction ds generalizing ss with
  | nil =>
    cases ss with
    | nil => simp [valRev]
    | cons => simp at h
  | cons a ds ih =>
    cases ss with
    | nil => simp at h
    | cons b ss =>
      simp only [List.cons_append, valRev, List.prod_cons]
      rw [ih ss (by simpa using h)]
      ring

theorem go_eq (shape subs : List ℕ) (h : Inside shape subs) (acc : ℕ) :
    ravelC.go shape subs acc = .ok (acc * shape.prod + valRev shape.reverse subs.reverse) := by
  induction h generalizing acc with
  | nil => simp [ravelC.go, valRev]
  | @cons s d ss ds hs h ih =>
    rw [show ravelC.go (d :: ds) (s :: ss) acc = (if s < d then ravelC.go ds ss (acc * d + s)
      else .error .valueError) from rfl, if_pos hs, ih]
    rw [List.reverse_cons, List.reverse_cons, valRev_append]
    · rw [List.prod_cons, List.prod_reverse]
      congr 1
      ring
    · simp [h.length_eq]

theorem go_ok (shape subs : List ℕ) (acc v : ℕ) (h : ravelC.go shape subs acc = .ok v) :
    Inside shape subs := by
  induction shape generalizing subs acc with
  | nil =>
    cases subs with
    | nil => exact .nil
    | cons => simp [ravelC.go] at h
  | cons d ds ih =>
    cases subs with
    | nil => simp [ravelC.go] at h
    | cons s ss =>
      rw [show ravelC.go (d :: ds) (s :: ss) acc = (if s < d then ravelC.go ds ss (acc * d + s)
        else .error .valueError) from rfl] at h
      split at h
      · rename_i hs
        exact .cons hs (ih _ _ h)
      · cases h

theorem valRev_lt (ds ss : List ℕ) (h : Inside ds ss) : valRev ds ss < ds.prod := by
  induction h with
  | nil => simp [valRev]
  | @cons s d ss ds hs h ih =>
    simp only [valRev, List.prod_cons]
    nlinarith

theorem unravelRev_valRev (ds ss : List ℕ) (h : Inside ds ss) : unravelRev ds (valRev ds ss) = ss := by
  induction h with
  | nil => rfl
  | @cons s d ss ds hs h ih =>
    have hd : 0 < d := by omega
    simp only [valRev, unravelRev]
    rw [Nat.add_mul_mod_self_left, Nat.mod_eq_of_lt hs, Nat.add_mul_div_left _ _ hd,
      Nat.div_eq_of_lt hs, zero_add, ih]

theorem valRev_unravelRev (ds : List ℕ) (i : ℕ) (h : i < ds.prod) :
    Inside ds (unravelRev ds i) ∧ valRev ds (unravelRev ds i) = i := by
  induction ds generalizing i with
  | nil => simp at h; subst h; exact ⟨.nil, rfl⟩
  | cons d ds ih =>
    rw [List.prod_cons] at h
    have hd : 0 < d := by
      rcases Nat.eq_zero_or_pos d with h0 | h0
      · subst h0; simp at h
      · exact h0
    obtain ⟨h1, h2⟩ := ih (i / d) (Nat.div_lt_of_lt_mul h)
    refine ⟨.cons (Nat.mod_lt _ hd) h1, ?_⟩
    simp only [unravelRev, valRev]
    rw [h2, Nat.mod_add_div]

theorem ravelC_inside (shape subs : List ℕ) (h : Inside shape subs) :
    ∃ i, ravelC shape subs = .ok i ∧ i < shape.prod ∧ unravelC shape i = .ok subs := by
  have hi := valRev_lt _ _ (inside_reverse h)
  rw [List.prod_reverse] at hi
  refine ⟨valRev shape.reverse subs.reverse, ?_, hi, ?_⟩
  · unfold ravelC; rw [go_eq _ _ h]; simp
  · unfold unravelC
    rw [if_pos hi, unravelRev_valRev _ _ (inside_reverse h), List.reverse_reverse]

theorem unravelC_lt (shape : List ℕ) (i : ℕ) (h : i < shape.prod) :
    ∃ subs, unravelC shape i = .ok subs ∧ Inside shape subs ∧ ravelC shape subs = .ok i := by
  obtain ⟨h1, h2⟩ := valRev_unravelRev shape.reverse i (by rwa [List.prod_reverse])
  have h3 : Inside shape (unravelRev shape.reverse i).reverse := by
    have := inside_reverse h1
    rwa [List.reverse_reverse] at this
  refine ⟨_, by unfold unravelC; rw [if_pos h], h3, ?_⟩
  unfold ravelC
  rw [go_eq _ _ h3, List.reverse_reverse, h2]
  simp

/-- **C46.**  Subscripts inside the array have a linear index inside the array, and `index2sub` gives the
subscripts back, for every shape and both orders. -/
theorem C46_sub_index_sub (shape subs : List ℕ) (fortran : Bool) (h : Inside shape subs) :
    ∃ i, sub2index shape subs fortran = .ok i ∧ i < shape.prod ∧
      index2sub shape i fortran = .ok subs := by
  cases fortran with
  | false => exact ravelC_inside shape subs h
  | true =>
    obtain ⟨i, h1, h2, h3⟩ := ravelC_inside _ _ (inside_reverse h)
    rw [List.prod_reverse] at h2
    refine ⟨i, h1, h2, ?_⟩
    unfold index2sub unravelF
    simp only [if_true]
    rw [h3]
    simp [Except.map]

/-- **C46.**  A linear index inside the array has subscripts inside the array, and `sub2index` gives the index
back. -/
theorem C46_index_sub_index (shape : List ℕ) (i : ℕ) (fortran : Bool) (h : i < shape.prod) :
    ∃ subs, index2sub shape i fortran = .ok subs ∧ Inside shape subs ∧
      sub2index shape subs fortran = .ok i := by
  cases fortran with
  | false => exact unravelC_lt shape i h
  | true =>
    obtain ⟨s, h1, h2, h3⟩ := unravelC_lt shape.reverse i (by rwa [List.prod_reverse])
    refine ⟨s.reverse, ?_, ?_, ?_⟩
    · unfold index2sub unravelF
      simp only [if_true]
      rw [h1]
      simp [Except.map]
    · have := inside_reverse h2
      rwa [List.reverse_reverse] at this
    · unfold sub2index ravelF
      simp only [if_true]
      rw [List.reverse_reverse]
      exact h3

/-- **C46.**  Anything outside the array raises a ValueError. -/
theorem C46_outside (shape subs : List ℕ) (i : ℕ) (fortran : Bool) :
    (¬ Inside shape subs → sub2index shape subs fortran = .error .valueError) ∧
    (shape.prod ≤ i → index2sub shape i fortran = .error .valueError) := by
  have hgo : ∀ (shape subs : List ℕ) acc e, ravelC.go shape subs acc = .error e → e = .valueError := by
    intro shape
    induction shape with
    | nil => intro subs acc e h; cases subs <;> simp [ravelC.go] at h; exact h.symm
    | cons d ds ih =>
      intro subs acc e h
      cases subs with
      | nil => simp [ravelC.go] at h; exact h.symm
      | cons s ss =>
        rw [show ravelC.go (d :: ds) (s :: ss) acc = (if s < d then ravelC.go ds ss (acc * d + s)
          else .error .valueError) from rfl] at h
        split at h
        · exact ih _ _ _ h
        · cases h; rfl
  have hC : ∀ shape subs : List ℕ, ¬ Inside shape subs → ravelC shape subs = .error .valueError := by
    intro shape subs h
    cases hr : ravelC shape subs with
    | ok v => exact absurd (go_ok _ _ _ _ hr) h
    | error e => rw [hgo _ _ _ _ hr]
  constructor
  · intro h
    cases fortran with
    | false => exact hC _ _ h
    | true =>
      apply hC
      intro hi
      have := inside_reverse hi
      rw [List.reverse_reverse, List.reverse_reverse] at this
      exact h this
  · intro h
    cases fortran with
    | false => simp [index2sub, unravelC, Nat.not_lt.2 h]
    | true => simp [index2sub, unravelF, unravelC, Nat.not_lt.2 h, Except.map]

/-- The docstring's example, both orders. -/
example : sub2index [3, 3, 4] [1, 2, 3] false = .ok 23 ∧ index2sub [3, 3, 4] 23 false = .ok [1, 2, 3] ∧
    sub2index [3, 3, 4] [1, 2, 3] true = .ok 34 ∧ Inside [3, 3, 4] [1, 2, 3] := by
  refine ⟨by decide, by decide, by decide, ?_⟩
  unfold Inside
  decide

/-! ## C47 -/

section
variable {α : Type*} [Field α] [LinearOrder α] [IsStrictOrderedRing α] [FloorSemiring α]

theorem nextpow2Of_spec (x : α) (hx : 0 < x) :
    x ≤ (2 : α) ^ nextpow2Of x ∧ ∀ n : ℤ, x ≤ (2 : α) ^ n → nextpow2Of x ≤ n := by
  have h2 : (1 : ℕ) < 2 := by norm_num
  have hlo : (2 : α) ^ Int.log 2 x ≤ x := by exact_mod_cast Int.zpow_log_le_self h2 hx
  have hhi : x < (2 : α) ^ (Int.log 2 x + 1) := by exact_mod_cast Int.lt_zpow_succ_log_self h2 x
  have hp : (0 : α) < (2 : α) ^ Int.log 2 x := by positivity
  have hs : (2 : α) ^ (Int.log 2 x + 1) = 2 * (2 : α) ^ Int.log 2 x := by
    rw [zpow_add₀ (by norm_num)]; ring
  unfold nextpow2Of frexp
  dsimp only
  rw [if_neg hx.ne']
  dsimp only
  split
  · rename_i hf
    rw [hs] at hf
    have hxe : x = (2 : α) ^ Int.log 2 x := by
      have h0 : (2 * (2 : α) ^ Int.log 2 x) ≠ 0 := by positivity
      rw [div_eq_iff h0] at hf
      linarith
    rw [add_sub_cancel_right]
    refine ⟨hxe.le, ?_⟩
    intro n hn
    rw [hxe] at hn
    have := (zpow_le_zpow_iff_right₀ (by norm_num : (1 : α) < 2)).1 hn
    exact this
  · rename_i hf
    refine ⟨hhi.le, ?_⟩
    intro n hn
    have hne : x ≠ (2 : α) ^ Int.log 2 x := by
      intro he
      apply hf
      rw [hs, ← he, div_eq_iff (by positivity)]
      ring
    have : (2 : α) ^ Int.log 2 x < (2 : α) ^ n := lt_of_lt_of_le (lt_of_le_of_ne hlo (Ne.symm hne)) hn
    have := (zpow_lt_zpow_iff_right₀ (by norm_num : (1 : α) < 2)).1 this
    omega

/-- **C47.**  For every scalar other than zero the result is the least integer `n` with `2**n >= |x|`. -/
theorem C47_nextpow2 (x : α) (hx : x ≠ 0) :
    |x| ≤ (2 : α) ^ nextpow2 x ∧ ∀ n : ℤ, |x| ≤ (2 : α) ^ n → nextpow2 x ≤ n :=
  nextpow2Of_spec |x| (abs_pos.2 hx)

/-- **C47.**  For `|x| > 1/2` the result is not negative. -/
theorem C47_nonneg (x : α) (hx : 1 / 2 < |x|) : 0 ≤ nextpow2 x := by
  have h0 : x ≠ 0 := by intro h; rw [h, abs_zero] at hx; linarith
  have := (C47_nextpow2 x h0).1
  by_contra hneg
  have hle : nextpow2 x ≤ -1 := by omega
  have := zpow_le_zpow_right₀ (by norm_num : (1 : α) ≤ 2) hle
  norm_num at this
  linarith

/-- For zero the result is zero; for a sequence of at least two elements the length is used. -/
theorem C47_zero_and_sequence : nextpow2 (0 : α) = 0 ∧
    ∀ x : List α, 2 ≤ x.length → (x.length : α) ≤ (2 : α) ^ nextpow2Seq x ∧
      ∀ n : ℤ, (x.length : α) ≤ (2 : α) ^ n → nextpow2Seq x ≤ n := by
  constructor
  · simp [nextpow2, nextpow2Of, frexp]
  · intro x hx
    exact nextpow2Of_spec _ (by exact_mod_cast (by omega : 0 < x.length))

example : nextpow2 (10 : ℚ) = 4 ∧ nextpow2 (-8 : ℚ) = 3 ∧ nextpow2Seq [(0 : ℚ), 1, 2, 3, 4] = 3 := by
  decide +kernel
end

/-! ## C90 -/

/-- **C90.**  The acceleration lies between the values at the equator and at the poles. -/
theorem C90_bounds (phi : ℝ) : gravity 0 ≤ gravity phi ∧ gravity phi ≤ gravity 90 := by
  have h0 : gravity 0 = 9.78049 := by simp [gravity]
  have h90 : gravity 90 = 9.78049 * (1 + 0.0052884) := by
    have e : (90 : ℝ) * Real.pi / 180 = Real.pi / 2 := by ring
    have e2 : 2 * (Real.pi / 2) = Real.pi := by ring
    simp [gravity, e, e2]
  have hs : ∀ t : ℝ, Real.sin (2 * t) ^ 2 = 4 * Real.sin t ^ 2 * (1 - Real.sin t ^ 2) := by
    intro t
    rw [Real.sin_two_mul, mul_pow, mul_pow, Real.cos_sq']
    ring
  have hv : gravity phi = 9.78049 * (1 + 0.0052884 * Real.sin (phi * Real.pi / 180) ^ 2
      - 0.0000059 * (4 * Real.sin (phi * Real.pi / 180) ^ 2
        * (1 - Real.sin (phi * Real.pi / 180) ^ 2))) := by
    rw [← hs]; rfl
  have hu0 : 0 ≤ Real.sin (phi * Real.pi / 180) ^ 2 := sq_nonneg _
  have hu1 : Real.sin (phi * Real.pi / 180) ^ 2 ≤ 1 := Real.sin_sq_le_one _
  rw [h0, h90, hv]
  generalize Real.sin (phi * Real.pi / 180) ^ 2 = u at hu0 hu1
  constructor <;> norm_num <;> nlinarith [mul_nonneg hu0 (sub_nonneg.2 hu1)]

/-- **C90.**  Even in the latitude and periodic with period 180 degrees. -/
theorem C90_symmetry (phi : ℝ) : gravity (-phi) = gravity phi ∧ gravity (phi + 180) = gravity phi := by
  constructor
  · unfold gravity
    have e1 : -phi * Real.pi / 180 = -(phi * Real.pi / 180) := by ring
    have e2 : 2 * (-(phi * Real.pi / 180)) = -(2 * (phi * Real.pi / 180)) := by ring
    simp only [e1, e2, Real.sin_neg, neg_sq]
  · unfold gravity
    have e1 : (phi + 180) * Real.pi / 180 = phi * Real.pi / 180 + Real.pi := by ring
    have e2 : 2 * (phi * Real.pi / 180 + Real.pi) = 2 * (phi * Real.pi / 180) + 2 * Real.pi := by ring
    simp only [e1, e2, Real.sin_add_pi, Real.sin_add_two_pi, neg_sq]

/-- **C90.**  In particular gravity always lies between 9.78 and 9.84 m/s². -/
theorem C90_values (phi : ℝ) : 9.78 < gravity phi ∧ gravity phi < 9.84 := by
  obtain ⟨h1, h2⟩ := C90_bounds phi
  have h0 : gravity 0 = 9.78049 := by simp [gravity]
  have h90 : gravity 90 = 9.78049 * (1 + 0.0052884) := by
    have e : (90 : ℝ) * Real.pi / 180 = Real.pi / 2 := by ring
    have e2 : 2 * (Real.pi / 2) = Real.pi := by ring
    simp [gravity, e, e2]
  rw [h0] at h1
  rw [h90] at h2
  norm_num at h1 h2 ⊢
  constructor <;> linarith

/-- Gravity at 45 degrees is strictly between the two. -/
example : gravity 0 < gravity 90 := by
  have h0 : gravity 0 = 9.78049 := by simp [gravity]
  have h90 : gravity 90 = 9.78049 * (1 + 0.0052884) := by
    have e : (90 : ℝ) * Real.pi / 180 = Real.pi / 2 := by ring
    have e2 : 2 * (Real.pi / 2) = Real.pi := by ring
    simp [gravity, e, e2]
  rw [h0, h90]; norm_num

end Wafo.Geometry

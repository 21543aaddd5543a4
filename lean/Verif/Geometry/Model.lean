import Verif.Basic
import Mathlib.Analysis.SpecialFunctions.Trigonometric.Basic
import Mathlib.Analysis.SpecialFunctions.Complex.Arg
import Mathlib.LinearAlgebra.Matrix.Notation
import Mathlib.Data.Int.Log

/-!
Model of the small geometric and index helpers of `/repo/src/wafo/misc.py`:
`rotation_matrix`, `rotate`, `rotate_2d`, `spaceline`, `index2sub`, `sub2index`, `nextpow2`, `polar2cart`,
`cart2polar` and `gravity`.  Floats are real numbers (or an ordered field).
-/

namespace Wafo.Geometry

/-- `deg2rad = np.pi / 180`, misc.py L371. -/
noncomputable def rad (d : ℝ) : ℝ := d * (Real.pi / 180)

/-- `rotation_matrix(heading, pitch, roll)`, misc.py L338-385: the identity if all angles are zero, otherwise
the nine entries stored row by row. -/
noncomputable def rotationMatrix (heading pitch roll : ℝ) : Matrix (Fin 3) (Fin 3) ℝ :=
  if heading ≠ 0 ∨ pitch ≠ 0 ∨ roll ≠ 0 then
    let h := rad heading
    let p := rad pitch
    let r := rad roll
    !![Real.cos h * Real.cos p,
        Real.cos h * Real.sin p * Real.sin r - Real.sin h * Real.cos r,
        Real.cos h * Real.sin p * Real.cos r + Real.sin h * Real.sin r;
       Real.sin h * Real.cos p,
        Real.sin h * Real.sin p * Real.sin r + Real.cos h * Real.cos r,
        Real.sin h * Real.sin p * Real.cos r - Real.cos h * Real.sin r;
       -Real.sin p,
        Real.cos p * Real.sin r,
        Real.cos p * Real.cos r]
  else !![1, 0, 0; 0, 1, 0; 0, 0, 1]

/-- `rotate(x, y, z, heading, pitch, roll)`, misc.py L388-411. -/
noncomputable def rotate (x y z heading pitch roll : ℝ) : ℝ × ℝ × ℝ :=
  let q := rotationMatrix heading pitch roll
  (x * q 0 0 + y * q 0 1 + z * q 0 2,
   x * q 1 0 + y * q 1 1 + z * q 1 2,
   x * q 2 0 + y * q 2 1 + z * q 2 2)

/-- `rotate_2d(x, y, angle_deg)`, misc.py L414-431. -/
noncomputable def rotate2d (x y angle : ℝ) : ℝ × ℝ :=
  let a := angle * Real.pi / 180
  (Real.cos a * x - Real.sin a * y, Real.sin a * x + Real.cos a * y)

/-- `spaceline(start_point, stop_point, num)`, misc.py L449-501, for points with coordinates indexed by `ι`
(`num` after `int(num)`). -/
def spaceline {α ι : Type*} [Field α] (start stop : ι → α) (num : ℤ) : List (ι → α) :=
  if num > 1 then
    let delta := fun i => (stop i - start i) / ((num - 1 : ℤ) : α)
    (List.range num.toNat).map (fun (n : ℕ) i => start i + (n : α) * delta i)
  else
    let delta := fun i => (stop i - start i) / 2
    [fun i => start i + delta i]

/-- `np.ravel_multi_index(subs, shape)` in C order: Horner scheme, ValueError for a subscript outside its
dimension or a wrong number of subscripts. -/
def ravelC (shape subs : List ℕ) : Except PyErr ℕ :=
  go shape subs 0
where
  /-- Horner scheme with accumulator. -/
  go : List ℕ → List ℕ → ℕ → Except PyErr ℕ
    | [], [], acc => .ok acc
    | d :: ds, s :: ss, acc => if s < d then go ds ss (acc * d + s) else .error .valueError
    | _, _, _ => .error .valueError

/-- Subscripts of a linear index, last dimension first. -/
def unravelRev : List ℕ → ℕ → List ℕ
  | [], _ => []
  | d :: ds, i => i % d :: unravelRev ds (i / d)

/-- `np.unravel_index(index, shape)` in C order, ValueError for an index outside the array. -/
def unravelC (shape : List ℕ) (index : ℕ) : Except PyErr (List ℕ) :=
  if index < shape.prod then .ok (unravelRev shape.reverse index).reverse else .error .valueError

/-- `np.ravel_multi_index(subs, shape, order='F')`. -/
def ravelF (shape subs : List ℕ) : Except PyErr ℕ := ravelC shape.reverse subs.reverse

/-- `np.unravel_index(index, shape, order='F')`. -/
def unravelF (shape : List ℕ) (index : ℕ) : Except PyErr (List ℕ) :=
  (unravelC shape.reverse index).map List.reverse

/-- `sub2index(shape, *subscripts, order)`, misc.py L620-657; `order` is 'F' if `fortran`. -/
def sub2index (shape subs : List ℕ) (fortran : Bool) : Except PyErr ℕ :=
  if fortran then ravelF shape subs else ravelC shape subs

/-- `index2sub(shape, index, order)`, misc.py L581-617. -/
def index2sub (shape : List ℕ) (index : ℕ) (fortran : Bool) : Except PyErr (List ℕ) :=
  if fortran then unravelF shape index else unravelC shape index

section
variable {α : Type*} [Field α] [LinearOrder α] [FloorSemiring α]

/-- `np.frexp(x)` for `x >= 0`: mantissa in [1/2, 1) and exponent, `(0, 0)` for zero. -/
def frexp (x : α) : α × ℤ :=
  if x = 0 then (0, 0) else (x / (2 : α) ^ (Int.log 2 x + 1), Int.log 2 x + 1)

/-- `if f == 0.5: n = n - 1`, misc.py L2188-2190. -/
def nextpow2Of (x : α) : ℤ :=
  let fn := frexp x
  if fn.1 = 1 / 2 then fn.2 - 1 else fn.2

/-- `nextpow2(x)` for a scalar, misc.py L2170-2190: `t` is `True`, which is not greater than one. -/
def nextpow2 (x : α) : ℤ := nextpow2Of |x|

/-- `nextpow2(x)` for a sequence with more than one element, misc.py L2183-2185: its length is used. -/
def nextpow2Seq (x : List α) : ℤ := nextpow2Of (x.length : α)
end

/-- `polar2cart(theta, rho)`, misc.py L2317-2340 (without the unchanged third coordinate). -/
noncomputable def polar2cart (theta rho : ℝ) : ℝ × ℝ := (rho * Real.cos theta, rho * Real.sin theta)

/-- `arctan2(y, x)`: the angle in (-pi, pi] of the point (x, y), 0 at the origin.  Signed zeros are not
modelled. -/
noncomputable def arctan2 (y x : ℝ) : ℝ :=
  if 0 ≤ x then Real.arcsin (y / Real.sqrt (x * x + y * y))
  else if 0 ≤ y then Real.arcsin (-y / Real.sqrt (x * x + y * y)) + Real.pi
  else Real.arcsin (-y / Real.sqrt (x * x + y * y)) - Real.pi

/-- `np.hypot(x, y)`. -/
noncomputable def hypot (x y : ℝ) : ℝ := Real.sqrt (x ^ 2 + y ^ 2)

/-- `cart2polar(x, y)`, misc.py L2346-2371. -/
noncomputable def cart2polar (x y : ℝ) : ℝ × ℝ := (arctan2 y x, hypot x y)

/-- `gravity(phi)`, misc.py L2122-2167. -/
noncomputable def gravity (phi : ℝ) : ℝ :=
  let phir := phi * Real.pi / 180
  9.78049 * (1 + 0.0052884 * Real.sin phir ^ 2 - 0.0000059 * Real.sin (2 * phir) ^ 2)

end Wafo.Geometry

import Verif.PP.Model
import Mathlib.Data.Real.Basic
import Mathlib.LinearAlgebra.Matrix.NonsingularInverse
import Mathlib.Algebra.BigOperators.Fin

/-!
# Model of `SmoothSpline`

`interpolate.py:466-675`, for one data set (`nd = 1`).  Inside the function the data are functions of the index; only
indices below the lengths checked before are used.  `sparse.linalg.spsolve` is the inverse, with an error for a singular
matrix (where scipy warns and returns nan).
-/

noncomputable section

namespace Wafo.Spline

open Wafo Matrix

variable (x y v : ℕ → ℝ) (p : ℝ) (m : ℕ)

/-- `dx = np.diff(x)`, interpolate.py:574 -/
def dx (i : ℕ) : ℝ := x (i + 1) - x i
/-- `dx1 = 1. / dx`, interpolate.py:584 -/
def dx1 (i : ℕ) : ℝ := 1 / dx x i
/-- `dydx = np.diff(y) / dx`, interpolate.py:637 -/
def dydx (i : ℕ) : ℝ := (y (i + 1) - y i) / dx x i

/-- `sparse.spdiags(data, offsets, …)`: the entry in row `i` and column `j` of the diagonal with offset `j - i` is
`data[j]`. -/
def spdiags (data : List ((ℕ → ℝ) × ℤ)) (i j : ℕ) : ℝ :=
  (data.map fun d => if (j : ℤ) - i = d.2 then d.1 j else 0).sum

/-- `_compute_r`, interpolate.py:655-658 -/
def R : ℕ → ℕ → ℝ :=
  spdiags [(fun j => dx x (j + 1), -1), (fun j => 2 * (dx x j + dx x (j + 1)), 0), (fun j => dx x j, 1)]

/-- `Q` in `_compute_qdq`, interpolate.py:648-650 -/
def Q : ℕ → ℕ → ℝ :=
  spdiags [(fun j => dx1 x j, 0), (fun j => -(dx1 x j + dx1 x (j + 1)), -1), (fun j => dx1 x (j + 1), -2)]

/-- `QDQ = Q.T * D * Q`, interpolate.py:651, for `n = m + 2` points -/
def QDQ (i j : ℕ) : ℝ := ∑ k ∈ Finset.range (m + 2), Q x k i * v k * Q x k j

/-- `_estimate_p`, interpolate.py:661-663 -/
def estimateP : ℝ :=
  let p := 1 / (1 + (∑ i ∈ Finset.range m, QDQ x v m i i) / (100 * (∑ i ∈ Finset.range m, R x i i) ^ 2))
  max 0 (min p 1)

/-- The choice of `p` in `_init_poly_coefs`, interpolate.py:587-588 -/
def chooseP (p : Option ℝ) : ℝ :=
  open Classical in
  match p with
  | none => estimateP x v m
  | some p => if p < 0 ∨ 1 < p then estimateP x v m else p

/-- `_compute_qq`, interpolate.py:666-668 -/
def QQ : Matrix (Fin m) (Fin m) ℝ := fun i j => 6 * (1 - p) * QDQ x v m i j + p * R x i j

/-- `_compute_u`, interpolate.py:670-675 -/
def computeU : Except PyErr (Fin m → ℝ) :=
  open Classical in
  let A := QQ x v p m + (QQ x v p m)ᵀ
  let ddydx : Fin m → ℝ := fun j => dydx x y (j + 1) - dydx x y j
  if A.det = 0 then .error .valueError
  else .ok (2 • (A⁻¹ *ᵥ ddydx))

variable (u : Fin m → ℝ)

/-- `vstack([zrs, u, zrs])` -/
def pad (i : ℕ) : ℝ := if h : 1 ≤ i ∧ i ≤ m then u ⟨i - 1, by omega⟩ else 0

/-- `vstack([zrs, diff(vstack([zrs, u, zrs]), axis=0) * dx1, zrs])`, interpolate.py:601-602 -/
def third (i : ℕ) : ℝ := if 1 ≤ i ∧ i ≤ m + 1 then (pad m u i - pad m u (i - 1)) * dx1 x (i - 1) else 0

/-- `Qu`, interpolate.py:601-602 -/
def Qu (i : ℕ) : ℝ := v i * (third x m u (i + 1) - third x m u i)

/-- `ai`, interpolate.py:599-605 -/
def ai (i : ℕ) : ℝ :=
  open Classical in if p < 1 then y i - 6 * (1 - p) * Qu x v m u i else y i

/-- `ci = np.vstack([zrs, 3 * p * u])` with the zero appended in line 615, interpolate.py:614 -/
def ci (i : ℕ) : ℝ := if h : 1 ≤ i ∧ i ≤ m then 3 * p * u ⟨i - 1, by omega⟩ else 0

/-- `di`, interpolate.py:615 -/
def di (i : ℕ) : ℝ := (ci p m u (i + 1) - ci p m u i) * dx1 x i / 3

/-- `bi`, interpolate.py:616 -/
def bi (i : ℕ) : ℝ :=
  (ai x y v p m u (i + 1) - ai x y v p m u i) * dx1 x i - (ci p m u i + di x p m u i * dx x i) * dx x i

/-- `coefs`, interpolate.py:617-624, as the list of columns -/
def columns : List (List ℝ) :=
  (List.range (m + 1)).map fun i => [di x p m u i, ci p m u i, bi x y v p m u i, ai x y v p m u i]

/-- `_spacing`, interpolate.py:571-581: points and values, sorted if necessary. -/
def spacing (xs ys : List ℝ) : Except PyErr (List ℝ × List ℝ) :=
  open Classical in
  let x := fun i => xs.getD i 0
  let n := xs.length
  if ∃ i, i + 1 < n ∧ dx x i < 0 then
    let ind := (List.range n).mergeSort fun i j => x i ≤ x j
    if ∃ i ∈ ind, ys.length ≤ i then .error .indexError
    else .ok (ind.map x, ind.map fun i => ys.getD i 0)
  else .ok (xs, ys)

/-- `_compute_coefs`, interpolate.py:626-644 with `_check` (562-568) and `_init_poly_coefs` (583-593).  `vs` is `var` as
the caller passed it: one number or one for each point. -/
def computeCoefs (xs ys : List ℝ) (p : Option ℝ) (vs : List ℝ) : Except PyErr (List (List ℝ) × List ℝ) :=
  open Classical in
  match spacing xs ys with
  | .error e => .error e
  | .ok s =>
    let x := fun i => s.1.getD i 0
    let y := fun i => s.2.getD i 0
    let n := s.1.length
    if n < 2 then .error .valueError
    else if ∃ i, i + 1 < n ∧ dx x i ≤ 0 then .error .valueError
    else if n ≠ s.2.length then .error .valueError
    else if n = 2 then .error .indexError  -- `y[0, :]` of an array with one dimension
    else if vs.length ≠ 1 ∧ vs.length ≠ n then .error .valueError
    else
      let v := fun i => if vs.length = 1 then vs.getD 0 0 else vs.getD i 0
      let m := n - 2
      let p := chooseP x v m p
      match computeU x y v p m with
      | .error e => .error e
      | .ok u => .ok (columns x y v p m u, s.1)

/-- `SmoothSpline(xx, yy, p, lin_extrap, var)`, interpolate.py:555-559 -/
def smoothSpline (xs ys : List ℝ) (p : Option ℝ) (linExtrap : Bool) (vs : List ℝ) : Except PyErr (PP.PPform ℝ) := do
  let c ← computeCoefs xs ys p vs
  let pp ← PP.make 4 c.1 c.2 0
  if linExtrap then PP.linearExtrapolate id pp else .ok pp

end Wafo.Spline

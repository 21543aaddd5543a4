import Verif.Basic
import Mathlib.LinearAlgebra.Matrix.NonsingularInverse
import Mathlib.LinearAlgebra.Matrix.DotProduct
import Mathlib.Algebra.BigOperators.Fin

/-!
Model of `savitzky_golay`, `_get_turnpoint` and `savitzky_golay_piecewise` of `/repo/src/wafo/interpolate.py` L20-173.

`np.linalg.pinv(b)` is computed by numpy from a singular value decomposition; for a matrix with linearly independent columns
(the only case here) the pseudo inverse is `(bᵀ b)⁻¹ bᵀ`, which is the model.
-/

namespace Wafo.Savgol

open Matrix

variable {α : Type*} [Field α] [LinearOrder α]

/-- `b`, L98-99: row for `k = -half .. half`, columns are the powers `k ** i`. -/
def design (α : Type*) [Field α] (half order : ℕ) : Matrix (Fin (2 * half + 1)) (Fin (order + 1)) α :=
  fun k i => ((k : ℕ) - (half : α)) ^ (i : ℕ)

/-- `np.linalg.pinv(b)`, L100. -/
noncomputable def pinv (α : Type*) [Field α] (half order : ℕ) : Matrix (Fin (order + 1)) (Fin (2 * half + 1)) α :=
  ((design α half order)ᵀ * design α half order)⁻¹ * (design α half order)ᵀ

/-- Row number `deriv` of an array with `rows` rows: negative numbers count from the end, others raise IndexError. -/
def rowIndex (rows : ℕ) (deriv : ℤ) : Except PyErr (Fin rows) :=
  let j : ℤ := if deriv < 0 then deriv + rows else deriv
  if h : j.toNat < rows then (if 0 ≤ j then .ok ⟨j.toNat, h⟩ else .error .indexError) else .error .indexError

/-- `m = np.linalg.pinv(b).A[deriv]`, L100. -/
noncomputable def kernel (α : Type*) [Field α] (half order : ℕ) (deriv : ℤ) : Except PyErr (List α) :=
  match rowIndex (order + 1) deriv with
  | .ok i => .ok (List.ofFn (fun k => pinv α half order i k))
  | .error e => .error e

/-- The padded signal, L103-105.  `y[0]` of an empty signal raises IndexError. -/
def padded (half : ℕ) (y : List α) : Except PyErr (List α) :=
  match y.head?, y.getLast? with
  | some y0, some yl =>
    let first := ((y.take (half + 1)).drop 1).reverse.map (fun v => y0 - |v - y0|)
    let last := ((y.take (y.length - 1)).drop (y.length - 1 - half)).reverse.map (fun v => yl + |v - yl|)
    .ok (first ++ y ++ last)
  | _, _ => .error .indexError

/-- One entry of `np.convolve(a, v, mode='valid')` for `len(v) <= len(a)`. -/
def convAt (a v : List α) (i : ℕ) : α :=
  ∑ k ∈ Finset.range v.length, v.getD k 0 * a.getD (i + (v.length - 1 - k)) 0

/-- `np.convolve(m, y, mode='valid')` for non-empty arguments: the longer one comes first. -/
def convolveValid (m y : List α) : List α :=
  if m.length < y.length then (List.range (y.length - m.length + 1)).map (convAt y m)
  else (List.range (m.length - y.length + 1)).map (convAt m y)

/-- The filter for a given kernel `m`, L103-106. -/
def filterWith (half : ℕ) (m y : List α) : Except PyErr (List α) :=
  match padded half y with
  | .ok p => .ok (convolveValid m p)
  | .error e => .error e

/-- `_check_window_size`, L20-24. -/
def checkWindow (w minSize : ℕ) : Except PyErr Unit :=
  if w % 2 ≠ 1 ∨ w < 1 then .error .typeError
  else if w < minSize then .error .typeError
  else .ok ()

/-- `savitzky_golay(y, window_size, order, deriv)`, L27-106, for integer arguments. -/
noncomputable def savitzkyGolay (y : List α) (window order deriv : ℤ) : Except PyErr (List α) :=
  let w := window.natAbs
  let o := order.natAbs
  match checkWindow w (o + 2) with
  | .error e => .error e
  | .ok _ =>
    let half := (w - 1) / 2
    match kernel α half o deriv with
    | .error e => .error e
    | .ok m => filterWith half m y

/-! ### Piecewise smoothing -/

/-- The loop of `_get_turnpoint`, L119-123: first index at which the sequence moves against its initial direction, 0 if none.
`prev` is `xvals[i - 1]`. -/
def turnGo (up : Bool) (prev : α) (i : ℕ) : List α → ℕ
  | [] => 0
  | x :: l => if (if up then x < prev else x > prev) then i else turnGo up x (i + 1) l

/-- `_get_turnpoint(xvals)`, L109-125. -/
def getTurn (x : List α) : Except PyErr ℕ :=
  match x with
  | a :: b :: l => .ok (turnGo (decide (a < b)) a 1 (b :: l))
  | _ => .error .indexError

/-- `savitzky_golay_piecewise(xvals, data, kernel, order)`, L128-173, with `smooth` for
`savitzky_golay(., kernel, order)`. -/
def piecewise (smooth : List α → Except PyErr (List α)) (x data : List α) : Except PyErr (List α) :=
  match _hx : getTurn x with
  | .error e => .error e
  | .ok t =>
    if _ht : t = 0 then smooth data
    else
      match smooth (data.take t) with
      | .error e => .error e
      | .ok first =>
        match piecewise smooth (x.drop t) (data.drop t) with
        | .error e => .error e
        | .ok rest => .ok (first ++ rest)
termination_by x.length
decreasing_by
  have : 0 < x.length := by
    rcases x with _ | ⟨a, l⟩
    · simp [getTurn] at _hx
    · simp
  simp only [List.length_drop]
  omega

end Wafo.Savgol

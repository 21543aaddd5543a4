import Mathlib.Algebra.BigOperators.Group.Finset.Basic
import Mathlib.Analysis.SpecialFunctions.Trigonometric.Basic
import Verif.Basic

/-!
Model of `/repo/src/wafo/dctpack.py` and of `idct` of `/repo/src/wafo/polynomial.py`.

An array is its shape and a function from index lists to values; only indices inside the shape are part of the array.  The one
dimensional transforms of scipy are given by their definition (type 2 and its inverse, `norm='ortho'`, the default of dctpack).
-/

namespace Wafo.Dct

open Finset

/-- A numpy array of real numbers. -/
structure Arr where
  shape : List ℕ
  get : List ℕ → ℝ

/-- `idx` is an index of an array with this shape. -/
def InRange : List ℕ → List ℕ → Prop
  | [], [] => True
  | i :: is, m :: ms => i < m ∧ InRange is ms
  | _, _ => False

/-- Two arrays with the same shape and the same entries. -/
def Arr.Same (a b : Arr) : Prop := a.shape = b.shape ∧ ∀ idx, InRange idx a.shape → a.get idx = b.get idx

/-- `num_leading_ones`, L305-312: the position of the first entry that is not one; 0 if there is none. -/
def numLeadingOnes (l : List ℕ) : ℕ :=
  match l.findIdx? (fun v => decide (v ≠ 1)) with
  | some i => i
  | none => 0

/-- `no_leading_ones`, L315-318. -/
def noLeadingOnes (l : List ℕ) : List ℕ := l.drop (numLeadingOnes l)

/-- `shiftdim(x, n)`, L372-376.  `None`: `x.reshape(no_leading_ones(x.shape))`, which drops leading axes of length one;
`n >= 0`: `x.transpose(np.roll(range(x.ndim), -n))`; `n < 0`: `|n|` axes of length one are put in front. -/
def shiftdim (x : Arr) : Option ℤ → Arr
  | none => ⟨noLeadingOnes x.shape, fun idx => x.get (List.replicate (numLeadingOnes x.shape) 0 ++ idx)⟩
  | some n =>
    if 0 ≤ n then
      ⟨x.shape.rotate n.toNat, fun idx => x.get (idx.rotate (x.shape.length - n.toNat % x.shape.length))⟩
    else ⟨List.replicate n.natAbs 1 ++ x.shape, fun idx => x.get (idx.drop n.natAbs)⟩

/-- A one dimensional transform `fun(y, type, n, norm=norm)`: length, values (padded with zeros), output index. -/
abbrev Transform := ℕ → (ℕ → ℝ) → ℕ → ℝ

/-- Normalisation of the orthonormal transform: `f = sqrt(1/(4*N)) if k = 0, sqrt(1/(2*N)) otherwise`, L68-69. -/
noncomputable def orthoFactor (n k : ℕ) : ℝ := if k = 0 then Real.sqrt (1 / (4 * n)) else Real.sqrt (1 / (2 * n))

/-- `dct(x, type=2, n, norm='ortho')`, L10-112: `y[k] = f*2*sum x[j]*cos(pi*k*(2j+1)/(2*N))`. -/
noncomputable def dct1 : Transform := fun n v k =>
  orthoFactor n k * (2 * ∑ j ∈ range n, v j * Real.cos (Real.pi * k * (2 * j + 1) / (2 * n)))

/-- `idct(x, type=2, n, norm='ortho')`, L119-156: the orthonormal DCT-III,
`y[k] = x[0]/sqrt(N) + sqrt(2/N)*sum_{j>0} x[j]*cos(pi*(k+0.5)*j/N)`. -/
noncomputable def idct1 : Transform := fun n v k =>
  v 0 / Real.sqrt n + Real.sqrt (2 / n) * ∑ j ∈ Ico 1 n, v j * Real.cos (Real.pi * (k + 1 / 2) * j / n)

/-- `fun(y, type, n, norm=norm)` along the last axis, L197: truncated or padded with zeros to length `n`.  A transform of length 0
is rejected by scipy. -/
def alongLast (f : Transform) (n : ℕ) (y : Arr) : Except PyErr Arr :=
  if n = 0 then .error .valueError
  else .ok ⟨y.shape.dropLast ++ [n], fun idx =>
    f n (fun j => if j < y.shape.getLastD 0 then y.get (idx.dropLast ++ [j]) else 0) (idx.getLastD 0)⟩

/-- `np.take(y.shape, axes)`, L168. -/
def takeShape (shape : List ℕ) (axes : List ℤ) : Except PyErr (List ℕ) :=
  axes.mapM fun a =>
    let j : ℤ := if a < 0 then a + shape.length else a
    if 0 ≤ j then
      match shape[j.toNat]? with
      | some v => .ok v
      | none => .error .indexError
    else .error .indexError

/-- `_get_shape` and `_get_axes`, L163-179. -/
def getShapeAxes (yshape : List ℕ) (shape : Option (List ℕ)) (axes : Option (List ℤ)) :
    Except PyErr (List ℕ × List ℤ) :=
  let s : Except PyErr (List ℕ) := match shape, axes with
    | some s, _ => .ok s
    | none, none => .ok yshape
    | none, some a => takeShape yshape a
  match s with
  | .error e => .error e
  | .ok s =>
    let a := axes.getD ((List.range yshape.length).map fun i : ℕ => (i : ℤ))
    if a.length ≠ s.length then .error .valueError else .ok (s, a)

/-- Length of the transform along axis `dim`, L193-195: `shape[axes.index(dim)]` if `dim in axes`. -/
def axisLen (shape : List ℕ) (axes : List ℤ) (dim : ℕ) : Option ℕ :=
  match axes.findIdx? (fun a => decide (a = (dim : ℤ))) with
  | some i => some (shape.getD i 0)
  | none => none

/-- The loop of `_raw_dctn`, L191-197, for the listed axes. -/
def loop (f : Transform) (lens : ℕ → Option ℕ) : List ℕ → Arr → Except PyErr Arr
  | [], y => .ok y
  | dim :: l, y =>
    let y := shiftdim y (some 1)
    match lens dim with
    | none => loop f lens l y
    | some n =>
      match alongLast f n y with
      | .ok y => loop f lens l y
      | .error e => .error e

/-- `_raw_dctn(y, type, shape, axes, norm, fun)`, L182-199.  A vector becomes a column first and is flattened at the end; in all
other cases the shape after the loop is already the one asked for by `reshape`. -/
def rawDctn (f : Transform) (y : Arr) (shape : Option (List ℕ)) (axes : Option (List ℤ)) : Except PyErr Arr :=
  match getShapeAxes y.shape shape axes with
  | .error e => .error e
  | .ok (s, a) =>
    let lens := axisLen s a
    match y.shape with
    | [m] =>
      match loop f lens [0] ⟨[m, 1], fun idx => y.get (idx.take 1)⟩ with
      | .error e => .error e
      | .ok z => .ok ⟨[(lens 0).getD m], fun idx => z.get (0 :: idx)⟩
    | _ => loop f lens (List.range y.shape.length) y

/-- `np.atleast_1d(x)`, L275, L288: a number becomes a vector of length one. -/
def atleast1d (x : Arr) : Arr := if x.shape = [] then ⟨[1], fun _ => x.get []⟩ else x

/-- `dctn(x, shape=shape, axes=axes)`, L202-276. -/
noncomputable def dctn (x : Arr) (shape : Option (List ℕ)) (axes : Option (List ℤ)) : Except PyErr Arr :=
  rawDctn dct1 (atleast1d x) shape axes

/-- `idctn(x, shape=shape, axes=axes)`, L285-296. -/
noncomputable def idctn (x : Arr) (shape : Option (List ℕ)) (axes : Option (List ℤ)) : Except PyErr Arr :=
  rawDctn idct1 (atleast1d x) shape axes

/-- scipy's `dct(x)` without normalisation, as imported by polynomial.py L27. -/
noncomputable def dctRaw : Transform := fun n v k =>
  2 * ∑ j ∈ range n, v j * Real.cos (Real.pi * k * (2 * j + 1) / (2 * n))

/-- scipy's `idct(x, n=n, norm=None)`: the DCT-III without normalisation. -/
noncomputable def idctRaw : Transform := fun n v k =>
  v 0 + 2 * ∑ j ∈ Ico 1 n, v j * Real.cos (Real.pi * (k + 1 / 2) * j / n)

/-- `idct(x, n)` of polynomial.py L1445-1471: `_idct(x, n=n, norm=None) * 0.5 / len(x)`. -/
noncomputable def polyIdct (x : List ℝ) (n : Option ℕ) : Except PyErr (List ℝ) :=
  let m := n.getD x.length
  if m = 0 then .error .valueError
  else .ok ((List.range m).map fun k => idctRaw m (fun j => x.getD j 0) k * (1 / 2) / x.length)

/-- `dct(x)` of polynomial.py (scipy's). -/
noncomputable def polyDct (x : List ℝ) : Except PyErr (List ℝ) :=
  if x.length = 0 then .error .valueError
  else .ok ((List.range x.length).map fun k => dctRaw x.length (fun j => x.getD j 0) k)

end Wafo.Dct

import Verif.Turning.Model

/-!
Model of `findpeaks` (misc.py L1139-1231).  `tpf row` is `findtp(row, min_h)`, where `none` is Python's `None`; `argsort` is numpy's `argsort`, of which only
the defining property is used.
-/

namespace Wafo.Peaks

section
variable {α : Type*} [Field α] [LinearOrder α]

/-- Maxima of one row, misc.py L1197-1201: `len(None)` is a TypeError; without turning points the position of the first maximum is used. -/
def rowPeaks (tpf : List α → Except PyErr (Option (List ℕ))) (x : List α) : Except PyErr (List ℕ) :=
  match tpf x with
  | .error e => .error e
  | .ok none => .error .typeError
  | .ok (some []) =>
    match Turning.argExtreme false x with
    | none => .error .valueError
    | some i => .ok [i]
  | .ok (some l) => .ok (everyOther (l.drop 1))

/-- The selection of the highest peaks, misc.py L1217-1229; `flat` is `data1` in one dimension and `dmax` its maximum.  Indices are valid when this is
used, the value for others does not matter. -/
def select (argsort : List α → List ℕ) (flat : List α) (dmax : α) (n : ℕ) (minp : α) (ind : List ℕ) : List ℕ :=
  if ind.length = 0 then []
  else
    let peaks := ind.map fun i => flat.getD i 0
    let ind2 := (argsort peaks).reverse
    let nmax := min n ind.length
    let sel := (ind2.take nmax).map fun j => ind.getD j 0
    if 0 < minp then sel.filter fun i => minp * dmax < flat.getD i 0 else sel

/-- `data1.max()`, misc.py L1184; a ValueError without data. -/
def maxOf (x : List α) : Except PyErr α :=
  match x with
  | [] => .error .valueError
  | a :: l => .ok (l.foldl max a)

/-- `findpeaks(data, n, min_h, min_p)` for a vector, misc.py L1183-1231. -/
def findpeaks1 (tpf : List α → Except PyErr (Option (List ℕ))) (argsort : List α → List ℕ) (x : List α) (n : ℕ) (minp : α) :
    Except PyErr (List ℕ) :=
  match maxOf x with
  | .error e => .error e
  | .ok dmax =>
    match rowPeaks tpf x with
    | .error e => .error e
    | .ok ind => .ok (select argsort x dmax n minp ind)

/-- `data1[i, j] > data1[i1, j]`, misc.py L1205-1210: is the value at column `j` of row `i` larger than in row `i'`? -/
def above (d : List (List α)) (i i' j : ℕ) : Bool := decide (((d.getD i' []).getD j 0) < ((d.getD i []).getD j 0))

/-- The peaks of row `iy` that are larger than the values in the rows before and after, misc.py L1203-1213, as linear indices.  The row after the first
does not exist for a matrix with one row. -/
def matrixRow (tpf : List α → Except PyErr (Option (List ℕ))) (d : List (List α)) (mcols iy : ℕ) : Except PyErr (List ℕ) :=
  match rowPeaks tpf (d.getD iy []) with
  | .error e => .error e
  | .ok ind =>
    if iy = 0 then
      if d.length = 1 then .error .indexError
      else .ok ((ind.filter fun j => above d iy (iy + 1) j).map fun j => j + iy * mcols)
    else if iy = d.length - 1 then .ok ((ind.filter fun j => above d iy (iy - 1) j).map fun j => j + iy * mcols)
    else .ok ((ind.filter fun j => above d iy (iy - 1) j && above d iy (iy + 1) j).map fun j => j + iy * mcols)

/-- `findpeaks` for a matrix `d` with rows of equal length, misc.py L1183-1231. -/
def findpeaks2 (tpf : List α → Except PyErr (Option (List ℕ))) (argsort : List α → List ℕ) (d : List (List α)) (n : ℕ) (minp : α) :
    Except PyErr (List ℕ) :=
  match maxOf d.flatten with
  | .error e => .error e
  | .ok dmax =>
    match (List.range d.length).mapM (matrixRow tpf d (d.getD 0 []).length) with
    | .error e => .error e
    | .ok rows => .ok (select argsort d.flatten dmax n minp rows.flatten)

end

end Wafo.Peaks

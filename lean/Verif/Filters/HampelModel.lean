import Verif.Basic
import Mathlib.Data.List.Sort
import Mathlib.Algebra.Order.Field.Basic
import Mathlib.Algebra.Order.Group.Abs

/-!
# `HampelFilter`: model of the filter

Source: `/repo/src/wafo/sg_filter/_core.py:1053-1217`.

Numbers are elements of a linear ordered field.  NaN is `none`: `np.median` of an empty array is NaN.
For the adaptive filter the search of the window size (`_core.py:1151-1163`) is modelled; the
smoothing of its results with `exp` weights (`smgauss`, `_core.py:1136-1141`, `1165-1169`) is not.
-/

namespace Wafo.Hampel

variable {α : Type*} [Field α] [LinearOrder α]

/-- `np.median`: the mean of the two middle values of the sorted data, NaN for no data. -/
def npMedian (l : List α) : Option α :=
  let s := l.insertionSort (· ≤ ·)
  match s[(l.length - 1) / 2]?, s[l.length / 2]? with
  | some a, some b => some ((a + b) / 2)
  | _, _ => none

/-- `Y[mask]` in `localwindow` (`_core.py:1129`, `1130`), with `xi = X[i]`. -/
def window (X Y : List α) (DX xi : α) : List α :=
  ((X.zip Y).filter fun p => decide (xi - DX ≤ p.1) && decide (p.1 ≤ xi + DX)).map Prod.snd

/-- `localwindow` (`_core.py:1128-1133`): the median and the scaled median absolute deviation. -/
def localWindow (X Y : List α) (DX xi : α) : Option (α × α) :=
  let w := window X Y DX xi
  (npMedian w).bind fun y0 =>
    (npMedian (w.map fun y => |y - y0|)).map fun mad => (y0, 14826 / 10000 * mad)

/-- `np.diff`. -/
def diff : List α → List α
  | a :: b :: l => (b - a) :: diff (b :: l)
  | _ => []

/-- `dx = 3 * np.median(np.diff(X)) if self.dx is None else self.dx` (`_core.py:1200`). -/
def effDx (dx : Option α) (X : List α) : Option α :=
  match dx with
  | none => (npMedian (diff X)).map fun m => 3 * m
  | some d => some d

/-- The values of `__call__` with `fulloutput=True` that are used here. -/
structure Result (α : Type*) where
  YY : List α
  outliers : List Bool
  Y0 : List (Option α)
  S0 : List (Option α)

/-- The mask of one value: comparisons with NaN are false (`_core.py:1209`). -/
def isOutlier (T y : α) : Option (α × α) → Bool
  | some (y0, s0) => decide (T * s0 < |y - y0|)
  | none => false

/-- One value of `YY` (`_core.py:1204`, `1210`). -/
def replaced (T y : α) (w : Option (α × α)) : α :=
  match w with
  | some (y0, _) => if isOutlier T y w then y0 else y
  | none => y

/-- Output of `__call__` from the local parameters of each value (`_core.py:1204-1217`). -/
def output (T : α) (Y : List α) (params : List (Option (α × α))) : Result α where
  YY := (Y.zip params).map fun p => replaced T p.1 p.2
  outliers := (Y.zip params).map fun p => isOutlier T p.1 p.2
  Y0 := params.map (Option.map Prod.fst)
  S0 := params.map (Option.map Prod.snd)

/-- `_fixed` (`_core.py:1178-1183`), for series of the same length. -/
def fixedParams (X Y : List α) (dx : α) : List (Option (α × α)) :=
  X.map fun xi => localWindow X Y dx xi

/-- `__call__` (`_core.py:1194-1217`) with `adaptive=None`: `x` is the argument or the indices
(lines 1196-1197).  A step that is not positive, or NaN, fails in `_check` (`_core.py:1123-1125`).
With one or no abscissa the parameters are NaN (`_core.py:1186-1187`).  Lengths that
differ raise `IndexError` in the first window. -/
def call (dx : Option α) (T : α) (Y : List α) (x : Option (List α)) : Except PyErr (Result α) :=
  let X := x.getD ((List.range Y.length).map fun i : ℕ => (i : α))
  match effDx dx X with
  | none => .error .valueError
  | some d =>
    if 0 < d then
      if X.length ≤ 1 then .ok (output T Y (Y.map fun _ => none))
      else if Y = [] then .ok (output T Y [])
      else if X.length = Y.length then .ok (output T Y (fixedParams X Y d))
      else .error .indexError
    else .error .valueError

/-! ## The search for the window of the adaptive filter -/

/-- `S0Rel > self.adaptive` for two successive scales (`_core.py:1154`, `1157-1158`); `0/0` and NaN
compare as false. -/
def goesOn (adaptive : α) : Option α → Option α → Bool
  | some a, some b => if a + b = 0 then false else decide (adaptive < |(a - b) / (a + b) / 2|)
  | _, _ => false

/-- The `while` loop (`_core.py:1152-1159`) after the first pass, from index `j` on: `a` is the scale
of the window before and the list holds the scales for the windows `DXTmp[j], DXTmp[j+1], ...`.
Reading `DXTmp[j]` past the end raises `IndexError`.  The result is `j` after the loop. -/
def searchFrom (adaptive : α) (a : Option α) (j : ℕ) : List (Option α) → Except PyErr ℕ
  | [] => .error .indexError
  | s :: rest => if goesOn adaptive a s then searchFrom adaptive s (j + 1) rest else .ok (j + 1)

/-- The whole loop: in the first pass `S0Rel` is infinite (`_core.py:1152-1159`). -/
def search (adaptive : α) : List (Option α) → Except PyErr ℕ
  | [] => .error .indexError
  | s :: rest => searchFrom adaptive s 1 rest

/-- The scales for the windows with half widths `dx, 2 dx, ..., n dx` (`_core.py:1148`, `1155`). -/
def scales (X Y : List α) (dx xi : α) : List (Option α) :=
  (List.range Y.length).map fun j : ℕ =>
    (localWindow X Y (((j : α) + 1) * dx) xi).map Prod.snd

/-- The number of the window chosen for the value at `xi`: `j - 2` after the loop
(`_core.py:1151-1163`). -/
def chosen (adaptive : α) (X Y : List α) (dx xi : α) : Except PyErr ℕ :=
  (search adaptive (scales X Y dx xi)).bind fun j => .ok (j - 2)

end Wafo.Hampel

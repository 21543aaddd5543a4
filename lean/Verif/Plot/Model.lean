import Verif.Basic
import Mathlib.Algebra.Order.Field.Basic
import Mathlib.Data.Rat.Floor
import Mathlib.Algebra.Order.Field.Rat

/-!
Model of parts of `/repo/src/wafo/containers.py`: the plot flags, the cumulative integral and the integral of one-dimensional
`PlotData`.  Strings are Lean strings; floats are elements of an ordered field; `none` is nan.
-/

set_option linter.unusedSectionVars false

namespace Wafo.Plot

/-- Python indexing of a list: negative indices count from the end, others outside raise IndexError. -/
def pyIndex {β : Type} (l : List β) (i : ℤ) : Except PyErr β :=
  if 0 ≤ i then
    match l[i.toNat]? with
    | some v => .ok v
    | none => .error .indexError
  else if 0 ≤ (l.length : ℤ) + i then
    match l[((l.length : ℤ) + i).toNat]? with
    | some v => .ok v
    | none => .error .indexError
  else .error .indexError

/-- `plotscale(plotflag)`, L434-497. -/
def plotscale (plotflag : ℤ) : Except PyErr String :=
  let scaleId := plotflag / 100
  let scaleId := if scaleId > 7 then
      (if scaleId / 10 % 10 > 0 then 1 else 0) * 2 + (if scaleId % 10 > 0 then 1 else 0) + (if scaleId / 100 % 10 > 0 then 1 else 0) * 4
    else scaleId
  pyIndex ["linear", "xlog", "ylog", "xylog", "zlog", "xzlog", "yzlog", "xyzlog"] scaleId

/-- `plotflag2plottype_1d(plotflag)`, L500-502. -/
def plottype1d (plotflag : ℤ) : Except PyErr String := pyIndex ["", "plot", "step", "stem", "errorbar", "bar"] (plotflag % 10)

/-- `plotflag2transform_id(plotflag)`, L505-511.  A comma is missing in the source, so that two neighbouring strings are joined. -/
def transformId (plotflag : ℤ) : Except PyErr String :=
  pyIndex ["f", "1-f", "cumtrapz(f)", "1-cumtrapz(f)", "log(f)", "log(1-f)" ++ "log(cumtrapz(f))", "log(cumtrapz(f))", "log10(f)"]
    (plotflag / 10 % 10)

/-- `transform_id2plotflag2(transform_id)`, L514-519. -/
def plotflag2 (s : String) : Except PyErr ℤ :=
  match [("", (0 : ℤ)), ("None", 0), ("f", 0), ("1-f", 1), ("cumtrapz(f)", 2), ("1-cumtrapz(f)", 3), ("log(f)", 4), ("log(1-f)", 5),
      ("log(cumtrapz(f))", 6), ("log(1-cumtrapz(f))", 7), ("10log10(f)", 8)].lookup s with
  | some v => .ok (v * 10)
  | none => .error .keyError

variable {α : Type*} [Field α] [LinearOrder α] [IsStrictOrderedRing α]

/-- `cumtrapz(y, x)` of scipy: cumulative trapezoidal sums, one value less than data; data and abscissae have the same length. -/
def cumtrapzFrom (acc : α) : List α → List α → List α
  | y0 :: y1 :: ys, x0 :: x1 :: xs =>
    let s := acc + (x1 - x0) * (y0 + y1) / 2
    s :: cumtrapzFrom s (y1 :: ys) (x1 :: xs)
  | _, _ => []

/-- `trapz(y, x)`. -/
def trapz : List α → List α → α
  | y0 :: y1 :: ys, x0 :: x1 :: xs => (x1 - x0) * (y0 + y1) / 2 + trapz (y1 :: ys) (x1 :: xs)
  | _, _ => 0

/-- `PlotData.to_cdf()`, L159-163, for one-dimensional data: the new data and abscissae.  (Empty data raise ValueError in
`cumtrapz` of recent versions of scipy.) -/
def toCdf (data args : List α) : Except PyErr (List α × List α) :=
  if data.length ≠ args.length then .error .valueError
  else if args.length = 0 then .error .valueError
  else .ok (0 :: cumtrapzFrom 0 data args, args)

/-- `eval_points(a)`, L94-157, for one-dimensional data and `method='linear'`: linear interpolation between the neighbouring
points, nan outside. -/
def evalPoint : List α → List α → α → Option α
  | y0 :: y1 :: ys, x0 :: x1 :: xs, a =>
    if a < x0 then none
    else if a ≤ x1 then some (y0 + (y1 - y0) / (x1 - x0) * (a - x0))
    else evalPoint (y1 :: ys) (x1 :: xs) a
  | _, _, _ => none

/-- `_get_fi_xi(a, b)`, L165-182, for one-dimensional data. -/
def getFiXi (data args : List α) (a b : Option α) : Except PyErr (List (Option α) × List α) :=
  match args.head?, args.getLast? with
  | some x0, some x1 =>
    let a := a.getD x0
    let b := b.getD x1
    let inner := (List.zip data args).filter (fun p => decide (a < p.2) && decide (p.2 < b))
    .ok (evalPoint data args a :: inner.map (fun p => some p.1) ++ [evalPoint data args b], a :: inner.map (fun p => p.2) ++ [b])
  | _, _ => .error .indexError

/-- All values, or nan if one of them is nan. -/
def allSome : List (Option α) → Option (List α)
  | [] => some []
  | none :: _ => none
  | some v :: l => (allSome l).map (fun r => v :: r)

/-- `PlotData.integrate(a, b)`, L184-210, with `method='trapz'`. -/
def integrate (data args : List α) (a b : Option α) : Except PyErr (Option α) :=
  match getFiXi data args a b with
  | .error e => .error e
  | .ok r => .ok ((allSome r.1).map (fun f => trapz f r.2))

end Wafo.Plot

import Verif.Slopes.Model

/-! Model of `stineman_interp` and `StinemanInterp`, /repo/src/wafo/interpolate.py L998-1193, one evaluation point at a
time (every numpy operation in the function acts elementwise on `xi`). -/

namespace Wafo.Stine

open Wafo.Slopes

variable {α : Type*} [Field α] [LinearOrder α] [IsStrictOrderedRing α]

/-- A division; `none` stands for the nan or infinity numpy returns when the divisor is zero. -/
def div? (a b : α) : Option α := if b = 0 then none else some (a / b)

/-- `np.searchsorted(x[1:-1], xi)`, L1071: the number of interior abscissae smaller than `xi` (for sorted `x`, which is
assumed by the function, this is what the bisection returns). -/
def segment (x : List α) (xi : α) : ℕ := (x.tail.dropLast).countP (fun b => decide (b < xi))

/-- L1066-1098 for a point in a given segment with end points `(x0, y0)`, `(x1, y1)` and end slopes `p0`, `p1`.
`np.where(dy1dy2, ., np.inf)` only matters for `dy1dy2 = 0`, where `np.choose` selects the constant 0. -/
def piece (x0 x1 y0 y1 p0 p1 xi : α) : Option α :=
  (div? (y1 - y0) (x1 - x0)).bind fun s =>
    let yo := y0 + s * (xi - x0)
    let dy1 := (p0 - s) * (xi - x0)
    let dy2 := (p1 - s) * (xi - x1)
    let p := dy1 * dy2
    if p < 0 then (div? (2 * xi - x0 - x1) ((dy1 - dy2) * (x1 - x0))).map fun q => yo + p * q
    else if p = 0 then some yo
    else (div? 1 (dy1 + dy2)).map fun q => yo + p * q

/-- `stineman_interp(xi, x, y, yp)`, L998-1099: ValueError if the shapes of `x` and `y` differ (L1051), IndexError from
`take` when there is no segment or `yp` is too short. -/
def interp (x y yp : List α) (xi : α) : Except PyErr (Option α) :=
  if x.length ≠ y.length then .error .valueError
  else
    let i := segment x xi
    match x[i]?, x[i + 1]?, y[i]?, y[i + 1]?, yp[i]?, yp[i + 1]? with
    | some x0, some x1, some y0, some y1, some p0, some p1 => .ok (piece x0 x1 y0 y1 p0 p1 xi)
    | _, _, _, _, _, _ => .error .indexError

/-- `StinemanInterp(x, y, method=..., monotone=..., scale=...)(xi)`, L1184-1193; with the defaults this is also
`stineman_interp(xi, x, y)`, L1053-1054. -/
def interpDefault (eps garb : α) (rt : α → α) (x y : List α) (meth : Method) (monotone scale : Bool) (xi : α) :
    Except PyErr (Option α) :=
  match slopes eps garb rt x y meth 0 monotone scale with
  | .error e => .error e
  | .ok yp => interp x y yp xi

end Wafo.Stine

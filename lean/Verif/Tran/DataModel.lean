import Verif.Tran.Model
import Verif.LevelX.Model

/-!
# Model of `TrData`

`transform/core.py:134-207` without plotting, for one-dimensional data.  `np.interp` is `LevelX.npInterp`.
-/

namespace Wafo.Tran

variable {α : Type} [Field α] [LinearOrder α] [FloorRing α]

/-- A `TrData` object: the arrays and the numbers set by `__init__`. -/
structure TrData (α : Type) where
  data : List α
  args : List α
  ymean : α
  ysigma : α
  mean : α
  sigma : α

/-- `tranproc(x, f, [x0])[0]` without derivatives, for one value. -/
def tran1 (eps : α) (nmax : List α → ℕ) (x f : List α) (x0 : α) : Except PyErr α :=
  match tranproc0 eps (fun x f v => LevelX.npInterp v x f) nmax x f [x0] with
  | .error e => .error e
  | .ok [y] => .ok y
  | .ok _ => .error .indexError

/-- `_gauss2dat`, transform/core.py L203-204 -/
def TrData.gauss2dat (eps : α) (nmax : List α → ℕ) (g : TrData α) (y : List α) : Except PyErr (List α) :=
  tranproc0 eps (fun x f v => LevelX.npInterp v x f) nmax g.data g.args y

/-- `_dat2gauss`, transform/core.py L206-207 -/
def TrData.dat2gauss (eps : α) (nmax : List α → ℕ) (g : TrData α) (x : List α) : Except PyErr (List α) :=
  tranproc0 eps (fun x f v => LevelX.npInterp v x f) nmax g.args g.data x

/-- `__init__`, transform/core.py L177-198: `mean` and `sigma` are computed unless given. -/
def TrData.init (eps : α) (nmax : List α → ℕ) (data args : List α) (ymean ysigma : α) (mean sigma : Option α) :
    Except PyErr (TrData α) :=
  match (match mean with
    | some v => .ok v
    | none => tran1 eps nmax data args ymean : Except PyErr α) with
  | .error e => .error e
  | .ok m =>
    match sigma with
    | some s => .ok ⟨data, args, ymean, ysigma, m, s⟩
    | none =>
      match tran1 eps nmax data args (ymean + ysigma), tran1 eps nmax data args (ymean - ysigma) with
      | .ok p, .ok q => .ok ⟨data, args, ymean, ysigma, m, (p - q) / 2⟩
      | .error e, _ => .error e
      | _, .error e => .error e

/-- `np.trapz(y, x)` -/
def trapz (y x : List α) : α :=
  ((x.zip y).zip (x.zip y).tail |>.map fun p => (p.2.1 - p.1.1) * (p.1.2 + p.2.2) / 2).sum

/-- `dist2gauss(x)` for given points, transform/core.py L79-83 -/
def TrData.dist2gauss (eps : α) (nmax : List α → ℕ) (g : TrData α) (x : List α) : Except PyErr α :=
  match g.dat2gauss eps nmax x with
  | .error e => .error e
  | .ok y =>
    let xn := x.map fun v => (v - g.mean) / g.sigma
    let yn := y.map fun v => (v - g.ymean) / g.ysigma
    .ok (trapz (List.zipWith (fun a b => (a - b) ^ 2) xn yn) xn)

end Wafo.Tran

import Verif.Cov.SpecModel
import Verif.Quad.Model
import Verif.SpecD.Model

/-!
Model of `SpecData1D.resample` and `tocov_matrix` in spectrum/core.py.  The interpolation (`stineman_interp` or `scipy.interpolate.interp1d`)
and `discretize` of the cubic interpolant are parameters.  The frequencies are not negative and the wanted sampling interval is positive, so
that no division by zero occurs, except for the frequency zero alone.
-/

namespace Wafo.SpecD
open Cov

noncomputable section

/-- The routines that are parameters: `interp w s x` is the value of the interpolant of `(w, s)` at `x`, and `disc w s b` are the points
that `discretize(interp1d(w, s, kind='cubic'), 0, b)` returns. -/
structure Tools where
  interp : List ℝ → List ℝ → ℝ → Except PyErr ℝ
  disc : List ℝ → List ℝ → ℝ → List ℝ

/-- The exponent `nextpow2(m)` of a natural number, misc.py L2170-2190. -/
def expOf (m : ℕ) : ℕ := (Geometry.nextpow2 (m : ℚ)).toNat

/-- The loop that finds the number of points, spectrum/core.py L3474-3476; `nfft` is `2 ** k` and `n1` is `n - 1`. -/
def grow (dTold dt : ℝ) (n1 Nmax k : ℕ) : ℕ :=
  if dt < dTold * n1 / 2 ^ k ∧ 2 ^ k < Nmax - 1 then grow dTold dt n1 Nmax (k + 1) else k
termination_by Nmax - 2 ^ k
decreasing_by
  have : 2 ^ k < 2 ^ (k + 1) := Nat.pow_lt_pow_right (by norm_num) (by omega)
  omega

/-- `min(diff(w))` for at least two values. -/
def minDiff : List ℝ → Except PyErr ℝ
  | [] => .error .valueError
  | d :: ds => .ok (ds.foldr min d)

/-- Zeros above the old largest frequency, spectrum/core.py L3490-3499. -/
def padUp (w s : List ℝ) (wnNew dw : ℝ) : List ℝ × List ℝ :=
  if 0 < wnNew - lastOf w then
    if dw < wnNew - lastOf w then (w ++ [lastOf w + dw, wnNew], s ++ [0, 0]) else (w ++ [wnNew], s ++ [0])
  else (w, s)

/-- Zeros below the smallest frequency, spectrum/core.py L3501-3510. -/
def padDown (w s : List ℝ) (dw : ℝ) : List ℝ × List ℝ :=
  if 0 < w.headD 0 then
    if dw < w.headD 0 then (0 :: (w.headD 0 - dw) :: w, 0 :: 0 :: s) else (0 :: w, 0 :: s)
  else (w, s)

/-- `np.linspace(0, b, n)`. -/
def linspace0 (b : ℝ) (n : ℕ) : List ℝ := (List.range n).map fun k : ℕ => (k : ℝ) * (b / (n - 1 : ℕ))

/-- `x` at every point of a list. -/
def mapOk (f : ℝ → Except PyErr ℝ) : List ℝ → Except PyErr (List ℝ)
  | [] => .ok []
  | x :: l =>
    match f x, mapOk f l with
    | .ok v, .ok vs => .ok (v :: vs)
    | .error e, _ => .error e
    | _, .error e => .error e

/-- The new grid and the values on it, spectrum/core.py L3485-3531: `interp1d` needs four points for a cubic spline. -/
def regrid (T : Tools) (s : Spec) (wnNew : ℝ) (k : ℕ) : Except PyErr Spec :=
  match minDiff (diffs s.args) with
  | .error e => .error e
  | .ok dw =>
    let up := padUp s.args s.data wnNew dw
    let p := padDown up.1 up.2 dw
    if p.1.length < 4 then .error .valueError
    else
      match minDiff (diffs (T.disc p.1 p.2 wnNew)) with
      | .error e => .error e
      | .ok dwMin =>
        let nfft := max (2 ^ k + 1) (pow2 ⌈wnNew / dwMin⌉₊ + 1)
        let args := linspace0 wnNew nfft
        match mapOk (T.interp p.1 p.2) args with
        | .error e => .error e
        | .ok v => .ok { s with args := args, data := v.map (max 0) }

/-- `resample(dt, Nmin, Nmax, method)`, spectrum/core.py L3420-3531: the spectrum after the call. -/
def resample (T : Tools) (s : Spec) (dt : Option ℝ) (Nmin Nmax : ℕ) : Except PyErr Spec :=
  let n := s.args.length
  if n = 0 then .error .indexError
  else
    let dTold := wmdt s.ftype / lastOf s.args
    let dt := dt.getD dTold
    let k := grow dTold dt (n - 1) Nmax (expOf (max (n - 1) (Nmin - 1)))
    let wnNew := wmdt s.ftype / dt
    if 0 < wnNew - lastOf s.args then regrid T s wnNew k
    else
      match s.args[1]? with
      | none => .error .indexError
      | some w1 =>
        if 0 < w1 ∨ 2 ^ k + 1 ≠ n ∨ dt ≠ dTold ∨ (diffs s.args).any (fun d => decide (1 / 10 ^ 8 < |d|)) = true then regrid T s wnNew k
        else .ok s

/-- `_get_default_dt_and_rate`, spectrum/core.py L740-745. -/
def defaultRate (s : Spec) (dt : Option ℝ) : ℝ × ℕ :=
  match dt with
  | none => (samplingPeriod s, 1)
  | some d => (d, (max (Quad.npRound (samplingPeriod s / d)) 1).toNat)

/-- A column of the matrix, spectrum/core.py L829-834: the assignment of another number of values raises a ValueError, except for one
value, which is repeated. -/
def column (nt : ℕ) (r : List ℝ) : Except PyErr (List ℝ) :=
  let c := r.take (nt + 1)
  if c.length = nt + 1 then .ok c
  else match c with
    | [v] => .ok (List.replicate (nt + 1) v)
    | _ => .error .valueError

/-- All columns. -/
def columns (nt : ℕ) : List (List ℝ) → Except PyErr (List (List ℝ))
  | [] => .ok []
  | r :: rs =>
    match column nt r, columns nt rs with
    | .ok c, .ok cs => .ok (c :: cs)
    | .error e, _ => .error e
    | _, .error e => .error e

/-- `tocov_matrix(nr, nt, dt)`, spectrum/core.py L778-842: the columns of the matrix. -/
def covMatrix (T : Tools) (s : Spec) (nr : ℕ) (nt : Option ℕ) (dt : Option ℝ) : Except PyErr (List (List ℝ)) :=
  let d := (defaultRate s dt).1
  let rate := (defaultRate s dt).2
  match checkDt s d with
  | .error e => .error e
  | .ok _ =>
    let n := ntOf nt rate s.args.length
    match resample T s (some d) 0 (2 ^ 13 + 1) with
    | .error e => .error e
    | .ok s' =>
      match specToCov s' nr (some n) (some 1) with
      | .error e => .error e
      | .ok R =>
        match columns n (R.data :: R.derivs) with
        | .error e => .error e
        | .ok cols =>
          match checkCov (cols.headD []) n with
          | .error e => .error e
          | .ok _ => .ok cols

end

end Wafo.SpecD

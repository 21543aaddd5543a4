import Verif.Est.ProfileModel
import Mathlib.Data.Matrix.Mul
import Mathlib.Analysis.SpecialFunctions.Log.Base
import Mathlib.Analysis.SpecialFunctions.Pow.Real

/-!
# Model of `FitDistribution` of `/repo/src/wafo/stats/estimation.py` and of the fit functions of
`/repo/src/wafo/stats/_distn_infrastructure.py`

The optimisers, `pinv` and the distribution functions are parameters.
-/

namespace Wafo.Est

open Matrix

/-! ### Fixed parameters -/

/-- The keyword arguments of a fit, with the forms `f0`, `fa` and `fix_a` of fixing a shape parameter
told apart (in the code they are strings; names of shape parameters that look like numbers, `loc` or
`scale` are not modelled). -/
inductive Key where
  | num (j : ℕ)
  | shape (s : String)
  | fix (s : String)
  | loc
  | scale
  | other (s : String)
deriving DecidableEq

section fixed
variable {α : Type}

/-- Keyword arguments: a dictionary; a value may be `None`. -/
abbrev Kwds (α : Type) := List (Key × Option α)

/-- `kwds.pop(name)` for every name that occurs: the popped values and the remaining dictionary
(`_get_fixed_fit_value`, `/repo/src/wafo/stats/_distn_infrastructure.py` L199). -/
def popAll : List Key → Kwds α → List (Option α) × Kwds α
  | [], kw => ([], kw)
  | k :: ks, kw =>
    match kw.lookup k with
    | none => popAll ks kw
    | some v =>
      let r := popAll ks (kw.filter fun p => p.1 ≠ k)
      (v :: r.1, r.2)

/-- `/repo/src/wafo/stats/_distn_infrastructure.py` L191-205: `_get_fixed_fit_value`. -/
def getFixedFitValue (kw : Kwds α) (names : List Key) : Except PyErr (Option α × Kwds α) :=
  match popAll names kw with
  | ([], kw') => .ok (none, kw')
  | ([v], kw') => .ok (v, kw')
  | (_, _) => .error .valueError

/-- `/repo/src/wafo/stats/_distn_infrastructure.py` L208-220: `_convert_fshapes2num`, from shape
number `j` on. -/
def convertShapes : ℕ → List String → Kwds α → Except PyErr (Kwds α)
  | _, [], kw => .ok kw
  | j, s :: ss, kw =>
    match getFixedFitValue kw [.num j, .shape s, .fix s] with
    | .error e => .error e
    | .ok (none, kw') => convertShapes (j + 1) ss kw'
    | .ok (some v, kw') => convertShapes (j + 1) ss ((.num j, some v) :: kw')

/-- The key of parameter `n` out of `len` (`/repo/src/wafo/stats/_distn_infrastructure.py` L227). -/
def keyOf (len n : ℕ) : Key := if n + 2 = len then .loc else if n + 1 = len then .scale else .num n

/-- The loop of `/repo/src/wafo/stats/_distn_infrastructure.py` L229-234, from parameter `n` on; returns
`x0`, `args` and `fixedn`. -/
def unpackLoop (len : ℕ) (kw : Kwds α) : ℕ → List α → List α × List (Option α) × List ℕ
  | _, [] => ([], [], [])
  | n, a :: as =>
    let r := unpackLoop len kw (n + 1) as
    match kw.lookup (keyOf len n) with
    | some v => (r.1, v :: r.2.1, n :: r.2.2)
    | none => (a :: r.1, some a :: r.2.1, r.2.2)

/-- `/repo/src/wafo/stats/_distn_infrastructure.py` L223-235: `_unpack_args_kwds`, for at least two
arguments (location and scale). -/
def unpackArgs (shapes : List String) (args : List α) (kw : Kwds α) :
    Except PyErr (List α × List (Option α) × List ℕ) :=
  match convertShapes 0 shapes kw with
  | .error e => .error e
  | .ok kw' => .ok (unpackLoop args.length kw' 0 args)

/-- `/repo/src/wafo/stats/_distn_infrastructure.py` L257-266: `restore`, from parameter `n` on. -/
def restore (fixedn : List ℕ) : ℕ → List (Option α) → List α → Except PyErr (List (Option α))
  | _, [], _ => .ok []
  | n, a :: as, theta =>
    if n ∈ fixedn then
      match restore fixedn (n + 1) as theta with
      | .error e => .error e
      | .ok r => .ok (a :: r)
    else
      match theta with
      | [] => .error .indexError
      | t :: ts =>
        match restore fixedn (n + 1) as ts with
        | .error e => .error e
        | .ok r => .ok (some t :: r)

/-- `/repo/src/wafo/stats/_distn_infrastructure.py` L238-272: `_reduce_func2` after the choice of the
method; the starting values and the reduced function. -/
def reduceFunc {β : Type} (fitfun : List (Option α) → Except PyErr β) (shapes : List String)
    (args : List α) (kw : Kwds α) : Except PyErr (List α × (List α → Except PyErr β)) :=
  match unpackArgs shapes args kw with
  | .error e => .error e
  | .ok (x0, full, fixedn) =>
    if fixedn.length = 0 then .ok (x0, fun theta => fitfun (theta.map some))
    else if fixedn.length = full.length then .error .valueError
    else .ok (x0, fun theta =>
      match restore fixedn 0 full theta with
      | .error e => .error e
      | .ok r => fitfun r)

/-- `/repo/src/wafo/stats/estimation.py` L1156-1166: `_get_fixed_par`; `nan` is `none`. -/
def getFixedPar (par : List α) (fixedn : List ℕ) : Option (List (Option α)) :=
  if fixedn.length = 0 then none
  else some (par.mapIdx fun i p => if i ∈ fixedn then some p else none)

/-- `/repo/src/wafo/stats/estimation.py` L1403-1411: `_ci_profile`; a failing profile gives a row of
`nan` (here `none`). -/
def ciProfile {β γ : Type} (profile : β → Except PyErr γ) (params : List β) : List (Option γ) :=
  params.map fun p => (profile p).toOption

end fixed

/-! ### Hessian and covariance -/

section hessian
variable {α : Type} [Field α] {n : ℕ}

/-- The inner loop of `/repo/src/wafo/stats/estimation.py` L1244-1260, with the parameter vector `s`
the loop changes in place. -/
def offLoop (f : (Fin n → α) → α) (θ : Fin n → α) (δ : α) (i : Fin n) :
    List (Fin n) → (Fin n → α) → List (Fin n × α)
  | [], _ => []
  | j :: js, s =>
    let s1 := Function.update (Function.update s i (θ i + δ)) j (θ j + δ)
    let s2 := Function.update s1 j (θ j - δ)
    let s3 := Function.update s2 i (θ i - δ)
    let s4 := Function.update s3 j (θ j + δ)
    (j, ((f s1 + f s3) - (f s4 + f s2)) / (4 * δ ^ 2)) :: offLoop f θ δ i js (Function.update s4 j (θ j))

/-- The off-diagonal entry `(i, j)` with `i < j`. -/
def offEntry (f : (Fin n → α) → α) (θ : Fin n → α) (δ : α) (i j : Fin n) : α :=
  ((offLoop f θ δ i ((List.finRange n).filter fun k => i < k)
    (Function.update (Function.update θ i (θ i + δ)) i (θ i - δ))).lookup j).getD 0

/-- `/repo/src/wafo/stats/estimation.py` L1215-1261: `_hessian` with the step `δ`. -/
def hessian (f : (Fin n → α) → α) (θ : Fin n → α) (δ : α) : Matrix (Fin n) (Fin n) α := fun i j =>
  -(if i = j then
      (f (Function.update θ i (θ i + δ)) - 2 * f θ + f (Function.update θ i (θ i - δ))) / δ ^ 2
    else if i < j then offEntry f θ δ i j else offEntry f θ δ j i)

/-- `/repo/src/wafo/stats/estimation.py` L1293-1305: `_invert_hessian`; `pinv` is a parameter acting on
the matrix of the free parameters, which are those `i` with `free i`. -/
def invertHessian (pinv : ∀ {m : ℕ}, Matrix (Fin m) (Fin m) α → Matrix (Fin m) (Fin m) α)
    (H : Matrix (Fin n) (Fin n) α) (free : Fin n → Bool) : Matrix (Fin n) (Fin n) α :=
  let l := (List.finRange n).filter free
  let pcov := -(pinv (Matrix.of fun a b : Fin l.length => H l[a] l[b]))
  fun i j =>
    if h : (l.idxOf i < l.length) ∧ (l.idxOf j < l.length) then pcov ⟨l.idxOf i, h.1⟩ ⟨l.idxOf j, h.2⟩
    else 0

end hessian

/-! ### Histogram -/

section histogram
variable {α : Type} [Field α]

/-- `/repo/src/wafo/stats/estimation.py` L1529-1536: `_staircase`. -/
def staircase (x y : List α) : List α × List α :=
  (((x.flatMap fun a => [a, a, a]).drop 1).dropLast, (y.flatMap fun b => [0, b, b]) ++ [0])

end histogram

/-- The step of `/repo/src/wafo/stats/estimation.py` L1512-1522, from the range `xmax - xmin > 0` and the
number `n` of bins. -/
noncomputable def gridStep (range : ℝ) (n : ℕ) : ℝ :=
  let delta := range / n * 2
  let exponent : ℤ := ⌊Real.log delta / Real.log 10⌋
  let mantissa : ℤ := ⌊delta / (10 : ℝ) ^ exponent⌋
  let m : ℤ := if mantissa > 5 then 5 else if mantissa > 2 then 2 else mantissa
  (m : ℝ) * (10 : ℝ) ^ exponent

/-- `np.arange(a, b, step)` with a positive step. -/
noncomputable def arange (a b step : ℝ) : List ℝ :=
  (List.range ⌈(b - a) / step⌉₊).map fun k : ℕ => a + k * step

/-- `/repo/src/wafo/stats/estimation.py` L1511-1526: `_get_grid` for data between `xmin` and `xmax`; with
equal data `log(0)` is infinite, the step is `nan` and `np.arange` fails. -/
noncomputable def getGrid (xmin xmax : ℝ) (num : ℕ) (odd : Bool) : Except PyErr (List ℝ) :=
  let n : ℕ := ⌈4 * Real.sqrt (Real.sqrt num)⌉₊
  if xmax - xmin = 0 then .error .valueError
  else
    let d := gridStep (xmax - xmin) n
    let o : ℝ := if odd then 1 else 0
    .ok (arange ((⌊xmin / d⌋ - 1) * d - o * d / 2) ((⌈xmax / d⌉ + 1) * d + o * d / 2) d)

/-! ### Moran's statistic -/

/-- `np.diff`. -/
def diffs : List ℝ → List ℝ
  | a :: b :: l => (b - a) :: diffs (b :: l)
  | _ => []

/-- `np.log`: `-inf` and `nan` are `none`. -/
noncomputable def logF (x : ℝ) : Option ℝ := if 0 < x then some (Real.log x) else none

/-- `/repo/src/wafo/stats/_distn_infrastructure.py` L72-84: `_resolve_ties`: where two neighbouring
observations are equal, the term *after* the first is the logarithm of the density. -/
noncomputable def resolveTies (pdf : ℝ → ℝ) (scale : ℝ) (x : List ℝ) (terms : List (Option ℝ)) :
    List (Option ℝ) :=
  terms.mapIdx fun k t =>
    match k with
    | 0 => t
    | i + 1 =>
      match x[i]?, x[i + 1]? with
      | some a, some b =>
        if b - a = 0 then
          match logF (pdf a), logF scale with
          | some u, some v => some (u - v)
          | _, _ => none
        else t
      | _, _ => t

/-- `/repo/src/wafo/stats/_distn_infrastructure.py` L87-97: `_log_dprb`, with `xmin` for `_XMIN`. -/
noncomputable def logDprb (cdf sf pdf : ℝ → ℝ) (xmin scale : ℝ) (lower : Bool) (x : List ℝ) :
    List (Option ℝ) :=
  let dprb := if lower then diffs (0 :: (x.map cdf ++ [1])) else (diffs (1 :: (x.map sf ++ [0]))).map (-·)
  resolveTies pdf scale x (dprb.map fun d => logF (d + xmin))

/-- `/repo/src/wafo/stats/_distn_infrastructure.py` L100-114: `_nlogps_and_penalty`, with `pen` for
`100.0 * np.log(_XMAX)`. -/
noncomputable def nlogps (cdf sf pdf : ℝ → ℝ) (supp : ℝ → Bool) (xmin pen scale : ℝ) (x : List ℝ) : ℝ :=
  let good := x.filter supp
  let terms := logDprb cdf sf pdf xmin scale true good
  let bad := (x.length - good.length) + (terms.filter Option.isNone).length
  if 0 < bad then -(terms.filterMap id).sum + pen * bad else -(terms.filterMap id).sum

/-- `/repo/src/wafo/stats/_distn_infrastructure.py` L117-146 with L149-156: `_penalized_nlogps`; `none` is
`inf`. -/
noncomputable def penalizedNlogps (argcheck : Bool) (cdf sf pdf : ℝ → ℝ) (supp : ℝ → Bool) (xmin pen : ℝ)
    (loc scale : ℝ) (x : List ℝ) : Option ℝ :=
  if argcheck = false ∨ scale ≤ 0 then none
  else some (nlogps cdf sf pdf supp xmin pen scale (x.map fun a => (a - loc) / scale))

end Wafo.Est

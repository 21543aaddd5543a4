import Verif.Cross.Model
import Verif.Discretize.Model
import Mathlib.Data.List.Sort
import Mathlib.Data.List.Dedup

/-!
# Model of the profile classes of `/repo/src/wafo/stats/estimation.py`

The numerical optimisation inside a profile (`_profile_optimum`, L343-351) is a parameter: call
number `c` at the point `p` returns an arbitrary value, `none` for `nan`.  Infinite profile values
(`_prettify_profile`, L390-401) are not modelled.
-/

namespace Wafo.Est

open Wafo.Cross Wafo.Discretize

/-- `np.flatnonzero`. -/
def flatnonzero (l : List Bool) : List ℕ := (List.range l.length).filter fun i => l[i]? = some true

section indexes
variable {α : Type}

/-- `/repo/src/wafo/stats/estimation.py` L276-283: `_default_i_fixed`; the fixed parameters are `None`
or a list with `nan` (here `none`) for the free ones.  The `TypeError` of `np.isnan(None)` is caught,
the `IndexError` of `[][-1]` is not. -/
def defaultIFixed (parFix : Option (List (Option α))) : Except PyErr ℕ :=
  match parFix with
  | none => .ok 0
  | some l =>
    match (flatnonzero (l.map Option.isNone)).getLast? with
    | some i => .ok i
    | none => .error .indexError

/-- `/repo/src/wafo/stats/estimation.py` L285-291: `_get_not_fixed_mask`. -/
def notFixedMask (parFix : Option (List (Option α))) (numPar : ℕ) : List Bool :=
  match parFix with
  | none => List.replicate numPar true
  | some l => l.map Option.isNone

/-- `/repo/src/wafo/stats/estimation.py` L293-307: `_set_indexes` with `_check_i_fixed`, returning
`i_fixed`, `i_notfixed` and `i_free`. -/
def setIndexes (parFix : Option (List (Option α))) (numPar : ℕ) (i : Option ℤ) :
    Except PyErr (ℤ × List ℕ × List ℕ) := do
  let k : ℤ ← match i with
    | some k => .ok k
    | none => (do let d ← defaultIFixed parFix; return (d : ℤ))
  let mask := notFixedMask parFix numPar
  let notfixed := flatnonzero mask
  if k ∈ notfixed.map (fun j : ℕ => (j : ℤ)) then
    .ok (k, notfixed, flatnonzero (mask.set k.toNat false))
  else .error .indexError

end indexes

variable {α : Type} [Field α] [LinearOrder α]

/-- `/repo/src/wafo/stats/estimation.py` L454-469: `_update_p_opt`, with the crossing level `level`
and `alpha_range` `range`; returns the new limit, the new step and the flag. -/
def updateP (range level popt delta : α) (prof : Option α) (p : α) (j : ℕ) : α × α × Bool :=
  match prof with
  | none => (popt, delta * (33 / 100), false)
  | some m =>
    if m < level - range * 5 * ((j : α) + 1) then (p, delta * (33 / 100), false)
    else if m < level then (p, delta, true)
    else (if m < level + range then p else popt, delta * (167 / 100), false)

/-- The loop of `/repo/src/wafo/stats/estimation.py` L480-485, with `k` iterations left.  `P j p` is
the profile at the `j`-th call and the crossing level after the call, which the call may raise
(`_correct_profile_max`, L325-341). -/
def searchLoop (P : ℕ → α → Option α × α) (range pOpt sign : α) : ℕ → ℕ → α → α → α × Bool × ℕ
  | 0, j, popt, _ => (popt, false, j)
  | k + 1, j, popt, delta =>
    let p := pOpt + sign * delta
    let r := P (j + 1) p
    let u := updateP range r.2 popt delta r.1 p (j + 1)
    if u.2.2 then (u.1, true, j + 1) else searchLoop P range pOpt sign k (j + 1) u.1 u.2.1

/-- `/repo/src/wafo/stats/estimation.py` L471-492: `_search_p_min_max`; returns the limit, whether the
search converged, and the number of iterations. -/
def searchP (P : ℕ → α → Option α × α) (range p0 pOpt sign : α) : α × Bool × ℕ :=
  searchLoop P range pOpt sign 51 0 p0 (max (sign * (p0 - pOpt) / 40) (1 / 100) * 10)

/-- `/repo/src/wafo/stats/estimation.py` L434-444: `_adaptive_pvec`; `np.unique` sorts and drops
repeated values. -/
def adaptivePvec (n : ℕ) (pOpt pmin pmax : α) : List α :=
  let a := pOpt - (pOpt - pmin) / 5
  let b := pOpt + (pmax - pOpt) / 5
  let nd4 := n / 4
  (linspace pmin a (nd4 + 1) ++ [pOpt] ++ linspace a b (n - 2 * nd4) ++
    linspace b pmax (nd4 + 1)).dedup.insertionSort (· ≤ ·)

/-- A comparison of floats, false when a side is `nan`. -/
def below (m level : Option α) : Bool :=
  match m, level with
  | some a, some b => decide (a < b)
  | _, _ => false

/-- The inner loop of `/repo/src/wafo/stats/estimation.py` L376-380: profile values outwards until one
is below the level; `c` counts the calls. -/
def scanSide (P : ℕ → α → Option α) (level : Option α) : ℕ → List α → List (α × Option α)
  | _, [] => []
  | c, p :: ps =>
    let m := P c p
    (p, m) :: if below m level then [] else scanSide P level (c + 1) ps

/-- `(pvec >= p_opt).argmax()` of `/repo/src/wafo/stats/estimation.py` L367: the first index with
`p_opt ≤ p`, zero if there is none. -/
def startIndex (pvec : List α) (pOpt : α) : ℕ :=
  if pvec.any fun p => decide (pOpt ≤ p) then pvec.findIdx fun p => decide (pOpt ≤ p) else 0

/-- `/repo/src/wafo/stats/estimation.py` L356-383 with the selection of L387-389: `_get_profile`; the
points and values of the profile.  `range` is `alpha_range`. -/
def getProfile (P : ℕ → α → Option α) (range : α) (pvec : List α) (pOpt : α) :
    Except PyErr (List (α × α)) :=
  let start := startIndex pvec pOpt
  match pvec[start]? with
  | none => .error .valueError
  | some ps =>
    let m0 := P 0 ps
    let level := m0.map fun m => m - range
    let left := scanSide P level 1 (pvec.take start).reverse
    let right := scanSide P level (1 + left.length) (pvec.drop (start + 1))
    .ok ((left.reverse ++ [(ps, m0)] ++ right).filterMap fun q => q.2.map fun v => (q.1, v))

/-- `/repo/src/wafo/stats/estimation.py` L507-539: `get_bounds` with `_check_bounds`; `level` is
`profile_max - 0.5*chi2isf(alpha, 1)`; with three or more crossings the first and the last are taken
(`ind[[0, -1]]`). -/
def getBounds (args data : List α) (pmin pmax level : α) : Except PyErr (α × α) := do
  let ind : List ℕ ← findcross data level none
  match ind with
  | [] => .ok (pmin, pmax)
  | [i] =>
    let c ← ecross1 args data level i
    match data[i]?, data[i + 1]? with
    | some f0, some f1 => if f0 < f1 then .ok (c, pmax) else .ok (pmin, c)
    | _, _ => .error .indexError
  | i :: rest =>
    let lo ← ecross1 args data level i
    let hi ← ecross1 args data level (rest.getLastD i)
    .ok (lo, hi)

end Wafo.Est

import Verif.Basic
import Mathlib.Data.List.Sort
import Mathlib.Algebra.Order.Floor.Ring
import Mathlib.Analysis.SpecialFunctions.Log.Basic

/-!
Model of `trangood`, `tranproc` and `good_bins` of `/repo/src/wafo/misc.py`.

`np.interp(xi, x, f)` is a parameter `interp x f xi` of `trangood`: the theorems hold whatever it returns, and
the concrete witnesses do not use it.
-/

namespace Wafo.Tran

variable {α : Type*} [Field α] [LinearOrder α] [FloorRing α]

/-- `np.diff(x)`. -/
def diff : List α → List α
  | a :: b :: l => (b - a) :: diff (b :: l)
  | _ => []

/-- Sorted pairs: `i = xo.argsort(); xo, fo = xo[i], fo[i]`, misc.py L2436-2437. -/
def sortPairs (x f : List α) : List (α × α) := (x.zip f).insertionSort (fun p q => p.1 ≤ q.1)

/-- `np.arange(start, stop, step)` for `step > 0`: `ceil((stop - start)/step)` values. -/
def arange (start stop step : α) : List α :=
  (List.range (⌈(stop - start) / step⌉).toNat).map (fun k : ℕ => start + (k : α) * step)

/-- `l[-k]` for `k >= 1`. -/
def fromEnd (l : List α) (k : ℕ) : Except PyErr α :=
  if k ≤ l.length then
    match l[l.length - k]? with
    | some v => .ok v
    | none => .error .indexError
  else .error .indexError

/-- Resampling to `n` points, misc.py L2455-2464.  `(dx + 2.) - 2.` is the identity in exact arithmetic. -/
def resample (interp : List α → List α → α → α) (g : List (α × α)) (x0 xn : α) (n : ℕ) :
    Except PyErr (List (α × α)) :=
  let dx := (xn - x0) / ((n : α) - 1)
  if dx = 0 then .error .zeroDivision
  else
    let xi := arange x0 (xn + dx / 2) dx
    .ok (xi.map (fun v => (v, interp (g.map Prod.fst) (g.map Prod.snd) v)))

/-- Lower extrapolation, misc.py L2470-2474: `x1 = dx * np.arange(floor((min_x - xo[0])/dx), -2)`. -/
def extendLow (dx minx : α) (g : List (α × α)) : Except PyErr (List (α × α)) :=
  match g with
  | (xa, fa) :: (xb, fb) :: _ =>
    if minx < xa then
      let m := ⌊(minx - xa) / dx⌋
      let x1 := (List.range (-2 - m).toNat).map (fun k : ℕ => dx * ((m + k : ℤ) : α))
      .ok (x1.map (fun v => (v + xa, fa + v * (fb - fa) / (xb - xa))) ++ g)
    else .ok g
  | _ => .error .indexError

/-- Upper extrapolation, misc.py L2476-2480.  The function values are taken from the end of the *argument* `f`. -/
def extendHigh (dx maxx : α) (f : List α) (g : List (α × α)) : Except PyErr (List (α × α)) :=
  match fromEnd (g.map Prod.fst) 1 with
  | .error e => .error e
  | .ok xl =>
    if xl < maxx then
      match fromEnd (g.map Prod.fst) 2, fromEnd f 1, fromEnd f 2 with
      | .ok xk, .ok fl, .ok fk =>
        let m := ⌈(maxx - xl) / dx⌉
        let x1 := (List.range m.toNat).map (fun k : ℕ => dx * ((k + 1 : ℕ) : α))
        .ok (g ++ x1.map (fun v => (v + xl, fl + v * (fl - fk) / (xl - xk))))
      | _, _, _ => .error .indexError
    else .ok g

/-- `nf < min_n or max_n < nf or any(abs(ddx) > 10*_EPS*L)`, misc.py L2454, with `max_n = none` for infinity. -/
def mustResample (eps : α) (xo : List α) (minn : ℕ) (maxn : Option ℕ) (L : α) : Bool :=
  decide (xo.length < minn) || (match maxn with | some m => decide (m < xo.length) | none => false)
    || (diff (diff xo)).any (fun d => decide (10 * eps * L < |d|))

/-- `trangood(x, f, min_n, min_x, max_x, max_n)`, misc.py L2397-2482 for one-dimensional input. -/
def trangood (eps : α) (interp : List α → List α → α → α) (x f : List α) (minn : Option ℕ)
    (minx maxx : Option α) (maxn : Option ℕ) : Except PyErr (List (α × α)) :=
  if f.length < x.length then .error .indexError
  else
    let g := sortPairs x f
    let xo := g.map Prod.fst
    if (diff xo).all (fun d => decide (0 < d)) then
      match xo.head?, xo.getLast? with
      | some x0, some xn =>
        let maxx := maxx.getD xn
        let minx := minx.getD x0
        let minn := max (minn.getD xo.length) 2
        let maxn := maxn.map (fun m => max m 2)
        let L := xn - x0
        let g1 := if mustResample eps xo minn maxn L then
            resample interp g x0 xn (match maxn with | some m => min minn m | none => minn)
          else .ok g
        match g1 with
        | .error e => .error e
        | .ok g1 =>
          match g1 with
          | (xa, _) :: (xb, _) :: _ =>
            let dx := xb - xa
            match extendLow dx minx g1 with
            | .error e => .error e
            | .ok g2 => extendHigh dx maxx f g2
          | _ => .error .indexError
      | _, _ => .error .indexError
    else .error .valueError

/-! ### `tranproc` -/

/-- `l[i]` with Python's negative indices. -/
def pyGet (l : List α) (i : ℤ) : Except PyErr α :=
  let j : ℤ := if i < 0 then i + l.length else i
  if 0 ≤ j then
    match l[j.toNat]? with
    | some v => .ok v
    | none => .error .indexError
  else .error .indexError

/-- Interpolated value at one point, misc.py L2595-2602: `n` is the length of the *argument* `f`. -/
def valueAt (n : ℕ) (g : List (α × α)) (x0 : α) : Except PyErr α :=
  match fromEnd (g.map Prod.fst) 1, pyGet (g.map Prod.fst) 0 with
  | .ok xl, .ok xa =>
    let xu := ((n : α) - 1) * (x0 - xa) / (xl - xa)
    let fi0 : ℤ := ⌊xu⌋
    let fi : ℤ := if fi0 = (n : ℤ) - 1 then fi0 - 1 else fi0
    let u := xu - (fi : α)
    match pyGet (g.map Prod.snd) fi, pyGet (g.map Prod.snd) (fi + 1) with
    | .ok a, .ok b => .ok (a + (b - a) * u)
    | _, _ => .error .indexError
  | _, _ => .error .indexError

/-- `tranproc(x, f, x0)` without derivatives, misc.py L2587-2617.  `x0` is the whole vector (its extremes are
handed to `trangood`); the result is the list of values.  `nmax` is `ceil(ptp(x) * 10**7)`. -/
def tranproc0 (eps : α) (interp : List α → List α → α → α) (nmax : List α → ℕ) (x f x0 : List α) :
    Except PyErr (List α) :=
  match x0 with
  | [] => .error .valueError
  | v :: vs =>
    match trangood eps interp x f none (some (vs.foldl min v)) (some (vs.foldl max v)) (some (nmax x)) with
    | .error e => .error e
    | .ok g => (v :: vs).mapM (valueAt f.length g)

/-- One round of `_diff`, misc.py L2557-2559: midpoints and difference quotients. -/
def diffRound (h : α) (g : List (α × α)) : List (α × α) :=
  List.zipWith (fun p q => ((p.1 + q.1) / 2, (q.2 - p.2) / h)) g g.tail

/-- `_diff(xo, fo, x0, k)`, misc.py L2551-2561: the `k` numerical derivatives of `f` at the points `x0`. -/
def diffs (eps : α) (interp : List α → List α → α → α) (nmax : List α → ℕ) (h : α) (x0 : List α) :
    ℕ → List (α × α) → Except PyErr (List (List α))
  | 0, _ => .ok []
  | k + 1, g =>
    let g' := diffRound h g
    match tranproc0 eps interp nmax (g'.map Prod.fst) (g'.map Prod.snd) x0, diffs eps interp nmax h x0 k g' with
    | .ok d, .ok ds => .ok (d :: ds)
    | .error e, _ => .error e
    | _, .error e => .error e

/-- `_der_1`, misc.py L2563-2565, one point: `f1` is the derivative of `f`, `x1` of `x`. -/
def der1 (f1 x1 : α) : α := f1 * x1
/-- `_der_2`, misc.py L2567-2569. -/
def der2 (f1 f2 x1 x2 : α) : α := f2 * x1 ^ 2 + f1 * x2
/-- `_der_3`, misc.py L2571-2576. -/
def der3 (f1 f2 f3 x1 x2 x3 : α) : α := f3 * x1 ^ 3 + f1 * x3 + 3 * f2 * x1 * x2
/-- `_der_4`, misc.py L2578-2585. -/
def der4 (f1 f2 f3 f4 x1 x2 _x3 x4 : α) : α :=
  f4 * x1 ^ 4 + f1 * x4 + 6 * f3 * x1 ^ 2 * x2 + f2 * (3 * x2 ^ 2 + 4 * x1 * x2)

/-! ### `good_bins`, misc.py L2621-2680 -/

/-- `_default_bins`, misc.py L2658-2661. -/
noncomputable def defaultBins (num : Option ℤ) (len : ℕ) : ℤ :=
  num.getD ⌈4 * Real.sqrt (Real.sqrt (len : ℝ))⌉

/-- `_default_step`, misc.py L2663-2669 (for `mn < mx`). -/
noncomputable def defaultStep (mn mx : ℝ) (num : ℤ) : ℝ :=
  let d := (mx - mn) / num * 2
  let e := ⌊Real.log d / Real.log 10⌋
  let m : ℤ := max 0 (min ⌊d / (10 : ℝ) ^ e⌋ 5)
  let m : ℤ := if 2 < m ∧ m < 5 then 2 else m
  (m : ℝ) * (10 : ℝ) ^ e

/-- `good_bins` once range and number of bins are known, misc.py L2676-2680. -/
noncomputable def binLimits (mn mx : ℝ) (num : ℤ) (odd loose : Bool) : List ℝ :=
  let d := defaultStep mn mx num
  let lo : ℝ := ((⌊mn / d⌋ : ℝ) - (if loose then 1 else 0)) * d - (if odd then 1 else 0) * d / 2
  let hi : ℝ := ((⌈mx / d⌉ : ℝ) + (if loose then 1 else 0)) * d + (if odd then 1 else 0) * d / 2
  arange lo (hi + d / 2) d

/-- `good_bins(data, range, num_bins, odd, loose)`. -/
noncomputable def goodBins (data : List ℝ) (range : Option (ℝ × ℝ)) (num : Option ℤ) (odd loose : Bool) :
    List ℝ :=
  let r := range.getD (data.foldl min (data.headD 0), data.foldl max (data.headD 0))
  binLimits r.1 r.2 (defaultBins num data.length) odd loose

end Wafo.Tran

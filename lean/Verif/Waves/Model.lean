import Mathlib.Data.List.Sort
import Verif.Turning.Model

/-!
Model of the wave parameters of a time series: `TimeSeries.__init__`, `sampling_period`, `wave_parameters`,
`wave_height_steepness` and `wave_periods` (`/repo/src/wafo/objects.py` L1323-1354 and L1745-2132).

Numbers are elements of a linearly ordered field.  `findcross`, `ecross` and `findtc` are those of `Verif.Cross.Model` and
`Verif.Turning.Model`.  `stine`, the function used when `rate > 1`, and `tp`, the function `findtp` (used for the minima and
maxima only), are arbitrary parameters.  Division by zero, where numpy returns infinities or NaN, is excluded by the
theorems. The `print` calls and warnings have no effect on the results.
-/

namespace Wafo.Waves
open Wafo.Cross Wafo.Turning

/-- What can be raised: a Python exception of the shared vocabulary, or an `UnboundLocalError`. -/
inductive Err where
  | py (e : PyErr)
  | unboundLocal
deriving DecidableEq, Repr

section
variable {α : Type} [Field α] [LinearOrder α]

/-- The attribute `args`: absent, a vector or a Python `range(0, n)`. -/
inductive Args (α : Type) where
  | absent
  | vec (t : List α)
  | range (n : ℕ)
deriving DecidableEq, Repr

/-- `TimeSeries.__init__`, objects.py L1323-1332, as far as `args` is concerned:
`if not any(self.args): n = len(self.data); self.args = range(0, n)`.  `any(None)` is a `TypeError`. -/
def initArgs (data : List α) : Args α → Except PyErr (Args α)
  | .absent => .error .typeError
  | .vec t => .ok (if t.any (fun a => decide (a ≠ 0)) then .vec t else .range data.length)
  | .range n => .ok (if n ≤ 1 then .range data.length else .range n)

/-- The numbers in `args`, for the places where a `range` serves as well. -/
def Args.values : Args α → Except PyErr (List α)
  | .absent => .error .typeError
  | .vec t => .ok t
  | .range n => .ok ((List.range n).map fun k : ℕ => (k : α))

/-- `sampling_period()`, objects.py L1334-1354. -/
def samplingPeriod (a : Args α) : Except PyErr α :=
  match a.values with
  | .error e => .error e
  | .ok t =>
    match t[0]?, t[1]?, t.getLast? with
    | some t0, some _, some tn => .ok ((tn - t0) / (t.length - 1 : ℕ))
    | _, _, _ => .error .indexError

/-- `np.linspace(a, b, n)`. -/
def linspace (a b : α) (n : ℕ) : List α :=
  (List.range n).map fun k : ℕ => if n ≤ 1 then a else a + (k : α) * ((b - a) / ((n - 1 : ℕ) : α))

/-- `_interpolate(rate)`, objects.py L2009-2018, for an integer rate. -/
def interpolate (stine : List α → List α → List α → Except PyErr (List α)) (data : List α) (a : Args α) (rate : ℕ) :
    Except PyErr (List α × Args α) :=
  if 1 < rate then
    match a.values with
    | .error e => .error e
    | .ok t =>
      match t.head?, t.getLast? with
      | some t0, some tn =>
        let ti := linspace t0 tn (data.length * rate)
        match stine ti t data with
        | .error e => .error e
        | .ok x => .ok (x, .vec ti)
      | _, _ => .error .indexError
  else .ok (data, a)

/-- Fancy indexing `l[ind]`. -/
def takeIdx (l : List α) (ind : List ℕ) : Except PyErr (List α) :=
  ind.mapM fun i => match l[i]? with | some a => .ok a | none => .error .indexError

/-- Fancy indexing `ti[ind]` of `args`; a `range` object does not support it. -/
def takeArgs (a : Args α) (ind : List ℕ) : Except PyErr (List α) :=
  match a with
  | .vec t => takeIdx t ind
  | _ => .error .typeError

/-- `ecross(ti, x, ind, v)` for a vector of indices, misc.py L990. -/
def ecross (a : Args α) (x : List α) (ind : List ℕ) (v : α) : Except PyErr (List α) :=
  match a with
  | .vec t => ind.mapM (ecross1 t x v)
  | _ => .error .typeError

/-- Elementwise numpy arithmetic of two vectors, with broadcasting of vectors of length one. -/
def arith {β γ δ : Type} (f : β → γ → δ) (a : List β) (b : List γ) : Except PyErr (List δ) :=
  if a.length = b.length then .ok (List.zipWith f a b)
  else match a, b with
    | [p], b => .ok (b.map (f p))
    | a, [q] => .ok (a.map fun p => f p q)
    | _, _ => .error .valueError

/-- `T[(T == 0)] = dT`. -/
def noZero (dT : α) (T : List α) : List α := T.map fun a => if a = 0 then dT else a

/-- The dictionary returned by `wave_parameters`. -/
structure Params (α : Type) where
  Ac : List α
  At : List α
  Hu : List α
  Hd : List α
  Tu : List α
  Td : List α
  Tcf : List α
  Tcb : List α
deriving DecidableEq, Repr

/-- `wave_parameters(rate)`, objects.py L1801-1820. -/
def waveParameters (stine : List α → List α → List α → Except PyErr (List α)) (data : List α) (a : Args α) (rate : ℕ) :
    Except PyErr (Params α) := do
  let dt ← samplingPeriod a
  let dT := dt / ((max rate 1 : ℕ) : α)
  let (xi, ti) ← interpolate stine data a rate
  let (tcInd, zInd) ← findtc xi 0 (some "tw")
  let tcA ← takeIdx xi tcInd
  let tcT ← takeArgs ti tcInd
  let Ac := everyOther (tcA.drop 1)
  let At := (everyOther tcA).map fun v => -v
  let Hu ← arith (· + ·) Ac (At.drop 1)
  let Hd ← arith (· + ·) Ac At.dropLast
  let tu ← ecross ti xi (everyOther (zInd.drop 1)) 0
  let td ← ecross ti xi (everyOther zInd) 0
  let Tcf ← arith (· - ·) (everyOther (tcT.drop 1)) tu.dropLast
  let Tcb ← arith (· - ·) (td.drop 1) (everyOther (tcT.drop 1))
  .ok ⟨Ac, At, Hu, Hd, diff tu, diff td, noZero dT Tcf, noZero dT Tcb⟩

/-- The argument `kind` of `wave_height_steepness`. -/
inductive Kind where
  | name (s : String)
  | num (i : ℤ)
deriving DecidableEq, Repr

/-- The dictionary of names, objects.py L1907-1908; `none` is a string that is not in it. -/
def defnr : Kind → Option ℤ
  | .num i => some i
  | .name s =>
    if s = "maxVcfVcb" then some 0 else if s = "Vcf" then some 1 else if s = "Vcb" then some (-1)
    else if s = "Scf" then some 2 else if s = "Scb" then some (-2) else if s = "StHd" then some 3
    else if s = "StHu" then some (-3) else none

/-- A step of `wave_height_steepness` that raises exceptions of the shared vocabulary. -/
def lift {β : Type} : Except PyErr β → Except Err β
  | .ok b => .ok b
  | .error e => .error (.py e)

/-- `wave_height_steepness(kind, rate, g)`, objects.py L1893-1955; `pi` is the number pi and `g` the acceleration of
gravity, given or from `gravity()`.  Comparing an unknown name with 0 is a `TypeError`, an unknown number leaves `S` and `H`
undefined. -/
def steepness (stine : List α → List α → List α → Except PyErr (List α)) (pi : α) (data : List α) (a : Args α) (kind : Kind)
    (rate : ℕ) (g : α) : Except Err (List α × List α) := do
  let dt ← lift (samplingPeriod a)
  let dT := dt / ((max rate 1 : ℕ) : α)
  let (xi, ti) ← lift (interpolate stine data a rate)
  let (tcInd, zInd) ← lift (findtc xi 0 (some "tw"))
  let tcA ← lift (takeIdx xi tcInd)
  let tcT ← lift (takeArgs ti tcInd)
  let Ac := everyOther (tcA.drop 1)
  let At := (everyOther tcA).map fun v => -v
  match defnr kind with
  | none => .error (.py .typeError)
  | some d =>
    let Tcf ← if 0 ≤ d ∧ d ≤ 2 then do
        let tu ← lift (ecross ti xi (everyOther (zInd.dropLast.drop 1)) 0)
        let T ← lift (arith (· - ·) (everyOther (tcT.drop 1)) tu)
        .ok (noZero dT T)
      else .ok []
    let Tcb ← if -2 ≤ d ∧ d ≤ 0 then do
        let td ← lift (ecross ti xi (everyOther (zInd.drop 2)) 0)
        let T ← lift (arith (· - ·) td (everyOther (tcT.drop 1)))
        .ok (noZero dT T)
      else .ok []
    if d = 0 then do
      let Hu ← lift (arith (· + ·) Ac (At.drop 1))
      let Hd ← lift (arith (· + ·) Ac At.dropLast)
      let lt ← lift (arith (fun p q => decide (p < q)) Tcf Tcb)
      let T ← lift (arith (fun p q => if p < q then p else q) Tcf Tcb)
      let S ← lift (arith (· / ·) Ac T)
      let HH ← lift (arith Prod.mk Hd Hu)
      let H ← lift (arith (fun (b : Bool) (h : α × α) => if b then h.1 else h.2) lt HH)
      .ok (S, H)
    else if d = 1 then do
      let H ← lift (arith (· + ·) Ac At.dropLast)
      let S ← lift (arith (· / ·) Ac Tcf)
      .ok (S, H)
    else if d = -1 then do
      let H ← lift (arith (· + ·) Ac (At.drop 1))
      let S ← lift (arith (· / ·) Ac Tcb)
      .ok (S, H)
    else if d = 2 then do
      let H ← lift (arith (· + ·) Ac At.dropLast)
      let td ← lift (ecross ti xi (everyOther zInd) 0)
      let S1 ← lift (arith (fun p q => 2 * pi * p / q) Ac (diff td))
      let S2 ← lift (arith (· / ·) S1 Tcf)
      .ok (S2.map (· / g), H)
    else if d = -2 then do
      let H ← lift (arith (· + ·) Ac (At.drop 1))
      let tu ← lift (ecross ti xi (everyOther (zInd.drop 1)) 0)
      let S1 ← lift (arith (fun p q => 2 * pi * p / q) Ac (diff tu))
      let S2 ← lift (arith (· / ·) S1 Tcb)
      .ok (S2.map (· / g), H)
    else if d = 3 then do
      let H ← lift (arith (· + ·) Ac At.dropLast)
      let td ← lift (ecross ti xi (everyOther zInd) 0)
      let S ← lift (arith (fun p q => 2 * pi * p / q ^ 2) H (diff td))
      .ok (S.map (· / g), H)
    else if d = -3 then do
      let H ← lift (arith (· + ·) Ac (At.drop 1))
      let tu ← lift (ecross ti xi (everyOther (zInd.drop 1)) 0)
      let S ← lift (arith (fun p q => 2 * pi * p / q ^ 2) H (diff tu))
      .ok (S.map (· / g), H)
    else .error .unboundLocal

/-- `_default_index(x, vh, wdef, pdef)`, objects.py L1957-1971.  `tp` is `findtp`, whose result may be `None`. -/
def defaultIndex (tp : List α → α → Option String → Except PyErr (Option (List ℕ))) (x : List α) (vh : α)
    (wdef : Option String) (pdef : String) : Except PyErr (Option (List ℕ)) :=
  if pdef ∈ ["m2m", "m2M", "M2m", "M2M"] then tp x vh wdef
  else if pdef ∈ ["u2u", "u2d", "d2u", "d2d"] then (findcross x vh wdef).map some
  else if pdef ∈ ["t2t", "t2c", "c2t", "c2c"] then (findtc x vh wdef).map fun r => some r.1
  else if pdef ∈ ["d2t", "t2u", "u2c", "c2d", "all"] then
    (findtc x vh wdef).map fun r => some ((r.1 ++ r.2).insertionSort (· ≤ ·))
  else .error .valueError

/-- `_get_start_index(pdef, down_crossing_or_max)`, objects.py L1973-1997, for one of the seventeen documented `pdef` (for these the
substring tests `pdef in ('u2c')` are equalities). -/
def startIndex (pdef : String) (down : Bool) : Except PyErr ℕ :=
  if down then
    if pdef ∈ ["d2t", "M2m", "c2t", "d2u", "M2M", "c2c", "d2d", "all"] then .ok 1
    else if pdef ∈ ["t2u", "m2M", "t2c", "u2d", "m2m", "t2t", "u2u"] then .ok 2
    else if pdef = "u2c" then .ok 3
    else if pdef = "c2d" then .ok 4
    else .error .valueError
  else if pdef ∈ ["all", "u2c", "m2M", "t2c", "u2d", "m2m", "t2t", "u2u"] then .ok 0
  else if pdef ∈ ["c2d", "M2m", "c2t", "d2u", "M2M", "c2c", "d2d"] then .ok 1
  else if pdef = "d2t" then .ok 2
  else if pdef = "t2u" then .ok 3
  else .error .valueError

/-- `_get_step(pdef)`, objects.py L1999-2007. -/
def stepOf (pdef : String) : ℕ :=
  if pdef ∈ ["d2t", "t2u", "u2c", "c2d"] then 4 else if pdef = "all" then 1 else 2

/-- `dist`, objects.py L2106-2110. -/
def distOf (pdef : String) : ℕ := if pdef ∈ ["m2m", "t2t", "u2u", "M2M", "c2c", "d2d"] then 2 else 1

/-- The slice `l[a:b:step]` for non-negative `a` and `b` and a positive step: with `m = min b (len(l))` the
`ceil((m - a) / step)` entries `l[a], l[a + step], ...`. -/
def sliceStep (l : List ℕ) (a b step : ℕ) : List ℕ :=
  (List.range ((min b l.length - a + step - 1) / step)).filterMap fun k => l[a + step * k]?

/-- The seventeen documented `pdef`. -/
def pdefs : List String :=
  ["m2m", "m2M", "M2m", "M2M", "u2u", "u2d", "d2u", "d2d", "t2t", "t2c", "c2t", "c2c", "d2t", "t2u", "u2c", "c2d", "all"]

/-- The times or values at one end of the periods, objects.py L2114-2122: `ecross(ti, x, ind, vh)` when the letter is `u` or
`d`, else `x[ind]`. -/
def ends (ti : Args α) (x : List α) (letter : Option Char) (ind : List ℕ) (vh : α) : Except PyErr (List α) :=
  match letter with
  | none => .error .indexError
  | some c => if c = 'u' ∨ c = 'd' then ecross ti x ind vh else takeIdx x ind

/-- The periods once the indices are known, objects.py L2101-2125; `none` is Python's `None`.  The upper bound `nn - dist` of the first
slice is negative only when `dist = 2` and `nn < 2`, and then reading `index[1]` has failed already. -/
def periodsAt (x : List α) (ti : Args α) (vh : α) (pdef : String) (index : Option (List ℕ)) : Except PyErr (List α × List ℕ) :=
  match index with
  | none => .error .typeError
  | some [] => .error .indexError
  | some [_] => .error .indexError
  | some (i0 :: i1 :: r) =>
    match x[i0]?, x[i1]? with
    | some a, some b => do
      let start ← startIndex pdef (decide (a > b))
      let ix := i0 :: i1 :: r
      let nn := ix.length
      let t0 ← ends ti x pdef.toList[0]? (sliceStep ix start (nn - distOf pdef) (stepOf pdef)) vh
      let t1 ← ends ti x pdef.toList[2]? (sliceStep ix (start + distOf pdef) nn (stepOf pdef)) vh
      let T ← arith (· - ·) t1 t0
      .ok (T, ix)
    | _, _ => .error .indexError

/-- `wave_periods(vh, pdef, wdef, index)` on the interpolated data, objects.py L2087-2125, for a level `vh` that is given (the
default is 0 for minima and maxima and the mean of `x` otherwise) and one of the documented `pdef`. -/
def wavePeriods (tp : List α → α → Option String → Except PyErr (Option (List ℕ))) (x : List α) (ti : Args α) (vh : α)
    (pdef : String) (wdef : Option String) (index : Option (List ℕ)) : Except PyErr (List α × List ℕ) :=
  match index with
  | some ix => periodsAt x ti vh pdef (some ix)
  | none =>
    match defaultIndex tp x vh wdef pdef with
    | .error e => .error e
    | .ok ix => periodsAt x ti vh pdef ix

end

end Wafo.Waves

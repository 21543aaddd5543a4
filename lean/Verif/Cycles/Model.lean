import Verif.Basic
import Mathlib.Data.List.Sort
import Mathlib.Algebra.Order.Floor.Ring
import Mathlib.Algebra.Order.Ring.Int

/-!
Model of `TurningPoints.cycle_pairs` and of the counting methods of `CyclePairs`,
`/repo/src/wafo/objects.py` L676-1236.
-/

namespace Wafo.Cycles

/-! ### `TurningPoints.cycle_pairs`, L1175-1236 -/

section
variable {α : Type*} [LinearOrder α]

/-- `data[start:-1:2]`. -/
def sliceM1 (start : ℕ) (data : List α) : List α := everyOther (data.dropLast.drop start)

/-- `data[start::2]`. -/
def sliceTo (start : ℕ) (data : List α) : List α := everyOther (data.drop start)

/-- `cycle_pairs(h=0, kind)`, L1212-1231: the arrays `(m, M)` of minima and maxima.  The rainflow
filtering for `h > 0` (L1208-1210) is modelled separately in `RfcFilter` / `RfcCount`. -/
def cyclePairs (min2max : Bool) (data : List α) : Except PyErr (List α × List α) :=
  match data with
  | d0 :: d1 :: _ =>
    let im := if d0 > d1 then 1 else 0
    let iM := if d0 > d1 then 0 else 1
    if min2max then .ok (sliceM1 im data, sliceTo (im + 1) data)
    else .ok (sliceTo (iM + 1) data, sliceM1 iM data)
  | _ => .error .indexError
end

/-! ### `CyclePairs.level_crossings`, L723-826 -/

section
variable {α : Type*} [Field α] [LinearOrder α]

/-- The `kind` argument: one of the integers or one of the documented names. -/
inductive Kind where
  | num (k : ℤ)
  | u | uM | umM | um
  | other
deriving DecidableEq, Repr

/-- `dict(u=0, uM=1, umM=2, um=3).get(kind, kind)` and the membership test, L774-777. -/
def defnr : Kind → Except PyErr ℕ
  | .num 1 => .ok 1
  | .num 2 => .ok 2
  | .num 3 => .ok 3
  | .num 4 => .ok 4
  | .num _ => .error .valueError
  | .u => .error .valueError     -- 0 is not in [1, 2, 3, 4]
  | .uM => .ok 1
  | .umM => .ok 2
  | .um => .ok 3
  | .other => .error .valueError

/-- `get_minima_and_maxima`, L723-732.  A cycle is the pair (args, data). -/
def minimaMaxima (cyc : List (α × α)) : List (α × α) :=
  let up := cyc.filter (fun c => decide (c.1 ≤ c.2))
  if up.isEmpty then (cyc.filter (fun c => decide (c.1 ≥ c.2))).map (fun c => (c.2, c.1)) else up

/-- One column of the array `extremes`: level, step of the count, number of maxima, of minima. -/
structure Ev (α : Type*) where
  lev : α
  d1 : ℤ
  d2 : ℤ
  d3 : ℤ
deriving DecidableEq, Repr

/-- `np.hstack((maxima, minima))`, L782-785. -/
def events (mm : List (α × α)) : List (Ev α) :=
  mm.map (fun c => ⟨c.2, -1, 1, 0⟩) ++ mm.map (fun c => ⟨c.1, 1, 0, 1⟩)

/-- `extremes[0].argsort()`, L786-787: sorting by level.  numpy's default sort is not stable; the
order among equal levels has no influence because they are merged by addition. -/
def sortEv (l : List (Ev α)) : List (Ev α) := l.insertionSort (fun a b => a.lev ≤ b.lev)

/-- The merging loop L789-798, `cur` being column `ii` of `extr`. -/
def mergeGo (cur : Ev α) : List (Ev α) → List (Ev α)
  | [] => [cur]
  | e :: l =>
    if e.lev = cur.lev then
      mergeGo ⟨cur.lev, cur.d1 + e.d1, cur.d2 + e.d2, cur.d3 + e.d3⟩ l
    else cur :: mergeGo e l

/-- numpy `argmax`: the first position of the largest value. -/
def argmax (l : List α) : ℕ := l.findIdx (fun x => l.all (fun y => decide (y ≤ x)))

/-- numpy `cumsum`. -/
def cumsum : ℤ → List ℤ → List ℤ
  | _, [] => []
  | s, a :: l => (s + a) :: cumsum (s + a) l

/-- The four count definitions, L803-821, on columns `0:nx`. -/
def counts (d : ℕ) (ex : List (Ev α)) : List ℤ :=
  let cs := cumsum 0 (ex.map Ev.d1)
  match d with
  | 1 => List.zipWith (fun c e => c - e.d3) cs ex
  | 2 => List.zipWith (fun c e => c + e.d2 - e.d3) cs ex
  | 3 => List.zipWith (fun c e => c + e.d2) cs ex
  | _ => -- dcount[nx - 1] = dcount[nx - 2]; for nx = 1 index -1 is the same element
    cs.set (cs.length - 1) (cs.getD (cs.length - 2) (cs.getD 0 0))

/-- `level_crossings(kind)`, L734-826 (with `intensity=False`): levels and counts.  The array `extr` is
allocated with one column per extreme and zero filled; the columns behind the merged ones stay
zero. -/
def levelCrossings (kind : Kind) (cyc : List (α × α)) : Except PyErr (List α × List ℤ) :=
  match defnr kind with
  | .error e => .error e
  | .ok d =>
    match sortEv (events (minimaMaxima cyc)) with
    | [] => .error .indexError
    | e :: l =>
      let merged := mergeGo e l
      let extr := merged ++ List.replicate ((e :: l).length - merged.length) ⟨0, 0, 0, 0⟩
      let nx := argmax (extr.map Ev.lev) + 1
      .ok ((extr.take nx).map Ev.lev, counts d (extr.take nx))

end

/-! ### `CyclePairs.cycle_matrix`, L932-1080 -/

section
variable {α : Type*} [Field α] [LinearOrder α] [FloorRing α]

/-- `np.round`: round half to even. -/
def roundEven (x : α) : ℤ :=
  if x - ⌊x⌋ < 1 / 2 then ⌊x⌋
  else if 1 / 2 < x - ⌊x⌋ then ⌊x⌋ + 1
  else if ⌊x⌋ % 2 = 0 then ⌊x⌋ else ⌊x⌋ + 1

/-- `np.clip(x, lo, hi)`, which is `minimum(maximum(x, lo), hi)`. -/
def clip (x lo hi : ℤ) : ℤ := min (max x lo) hi

/-- Discretization of one (ordered) cycle, L1058-1076; `none` is the ValueError for an undefined
`ddef`.  Preconditions of the Python code that are not modelled: `n >= 2` and `a < b` (otherwise the
step is zero or undefined). -/
def discretize1 (a b : α) (n : ℤ) (ddef : ℤ) (c : α × α) : Option (ℤ × ℤ) :=
  let delta := (b - a) / ((n : α) - 1)
  let p1 := (c.1 - a) / delta + 1
  let p2 := (c.2 - a) / delta + 1
  if ddef = 0 then some (clip (roundEven p1) 0 (n - 1), clip (roundEven p2) 0 (n - 1))
  else if ddef = 1 then some (clip ⌊p1⌋ 0 (n - 2), clip ⌈p2⌉ 1 (n - 1))
  else if ddef = -1 then some (clip ⌈p1⌉ 1 (n - 1), clip ⌊p2⌋ 0 (n - 2))
  else none

/-- `np.any(ix)` for the index array `ix = np.flatnonzero(cp1 > cp2)`, L1055-1056: true when some index
other than 0 occurs. -/
def anyIx (cyc : List (α × α)) : Bool := (cyc.drop 1).any (fun c => decide (c.1 > c.2))

/-- `_discretize_cycle_pairs`, L1018-1080. -/
def discretize (a b : α) (n ddef : ℤ) (cyc : List (α × α)) : Except PyErr (List (ℤ × ℤ)) :=
  let swapped := anyIx cyc
  let go (c : α × α) : Option (ℤ × ℤ) :=
    if swapped = true ∧ c.1 > c.2 then (discretize1 a b n ddef (c.2, c.1)).map (fun p => (p.2, p.1))
    else discretize1 a b n ddef c
  if ddef = 0 ∨ ddef = 1 ∨ ddef = -1 then .ok (cyc.filterMap go) else .error .valueError

/-- `F[i, j]` of `_dcp2cmat`, L994-1016: one is added per cycle.  Negative or too large indices do
not occur for clipped values (theorem C28). -/
def cmat (dcp : List (ℤ × ℤ)) (i j : ℤ) : ℕ := dcp.countP (fun p => decide (p = (i, j)))

end

end Wafo.Cycles

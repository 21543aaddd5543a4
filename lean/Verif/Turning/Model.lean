import Verif.Cross.Model

/-!
Model of the turning-point routines `findtp` and `findtc`
(`/repo/src/wafo/misc.py` L1399-1604).
-/

namespace Wafo.Turning
open Wafo.Cross

section
variable {α : Type*} [Field α] [LinearOrder α]

/-- `findtp(x, h, kind)` up to and including the end points, i.e. without rainflow filter and without
wave trimming, `misc.py` L1464-1489.  Result `none` is Python's `None` (fewer than two extrema).
`np.r_[0, ind, n-1]` prepends 0 and appends `n-1`. -/
def findtpBase (x : List α) (astm : Bool) : Except PyErr (Option (List ℕ)) :=
  match findextrema x with
  | .error e => .error e
  | .ok (i0 :: i1 :: r) =>
    let ind := i0 :: i1 :: r
    let n := x.length
    if astm then
      .ok (some (if i0 ≠ 0 then 0 :: (ind ++ [n - 1]) else ind ++ [n - 1]))
    else
      match x[i0]?, x[i1]? with
      | some a, some b =>
        .ok (some (if a > b then 0 :: (ind ++ [n - 1]) else ind ++ [n - 1]))
      | _, _ => .error .indexError
  | .ok _ => .ok none

/-- Trimming to whole waves, `misc.py` L1495-1506, for `kind = 'mw'` (`wantMax = false`) and
`kind = 'Mw'` (`wantMax = true`): drop the first turning point if it is of the wrong type, then make
the number of turning points odd. -/
def trimWave (x : List α) (ind : List ℕ) (wantMax : Bool) : Except PyErr (List ℕ) :=
  match ind with
  | i0 :: i1 :: r =>
    match x[i0]?, x[i1]? with
    | some a, some b =>
      let firstIsMax : Bool := decide (a > b)
      let ind1 := if firstIsMax ^^ wantMax then i1 :: r else i0 :: i1 :: r
      .ok (if ind1.length % 2 ≠ 1 then ind1.dropLast else ind1)
    | _, _ => .error .indexError
  | _ => .error .indexError

/-- `findtp(x, h, kind)` for `h <= 0` (no rainflow filter), `misc.py` L1399-1506.
`hneg` says whether `h < 0`. -/
def findtp (x : List α) (hneg : Bool) (kind : Option String) :
    Except PyErr (Option (List ℕ)) :=
  if hneg then .ok (some (List.range x.length))
  else
    match findtpBase x (decide (kind = some "astm")) with
    | .error e => .error e
    | .ok none => .ok none
    | .ok (some ind) =>
      if kind = some "mw" then
        match trimWave x ind false with
        | .error e => .error e
        | .ok m => .ok (some m)
      else if kind = some "Mw" then
        match trimWave x ind true with
        | .error e => .error e
        | .ok m => .ok (some m)
      else .ok (some ind)

/-- Scan of `np.argmin` / `np.argmax`: `best` is the position and `bv` the value of the best element
so far, `i` the position of the head of the list. -/
def argGo (btr : α → α → Bool) (best : ℕ) (bv : α) (i : ℕ) : List α → ℕ
  | [] => best
  | a :: l => if btr a bv then argGo btr i a (i + 1) l else argGo btr best bv (i + 1) l

/-- The comparison of `argmin` (`isMin = true`) and `argmax`. -/
def better (isMin : Bool) (p q : α) : Bool := if isMin then decide (p < q) else decide (q < p)

/-- `np.argmin` (`isMin = true`) / `np.argmax`: the first position of the least / greatest element;
`ValueError` (here `none`) on an empty array. -/
def argExtreme (isMin : Bool) : List α → Option ℕ
  | [] => none
  | a :: l => some (argGo (better isMin) 0 a 1 l)

/-- The slice `x[a+1 : b+1]`. -/
def tcSlice (x : List α) (a b : ℕ) : List α := (x.drop (a + 1)).take (b - a)

/-- Entry `j` of the result of `findtc`, `misc.py` L1573-1604.  `n_tc` pairs are filled by the loop
(`f1` at even and `f2` at odd positions), the last one by the `if` after the loop; an entry that is
filled by neither keeps the value 0. -/
def tcEntry (x : List α) (c : List ℕ) (firstDown : Bool) (kind : Option String) (j : ℕ) :
    Except PyErr ℕ :=
  let nc := c.length
  let isEven := (nc + 1) % 2
  let ntc := (nc - 1 - isEven) / 2
  match c[j]?, c[j + 1]? with
  | some a, some b =>
    let fill (isMin : Bool) : Except PyErr ℕ :=
      match argExtreme isMin (tcSlice x a b) with
      | none => .error .valueError
      | some k => .ok (a + k + 1)
    if j < 2 * ntc then fill (if j % 2 = 0 then firstDown else !firstDown)
    else if 2 * ntc + 1 < nc ∧ (kind = none ∨ kind = some "tw" ∨ kind = some "cw") ∧ j = nc - 2 then
      fill firstDown
    else .ok (a + 0 + 1)
  | _, _ => .error .indexError

/-- `findtc(x, v, kind)`, `misc.py` L1508-1604, for an explicit level `v` (the default is the mean).
Returns the indices of troughs and crests and the crossings. -/
def findtc (x : List α) (v : α) (kind : Option String) : Except PyErr (List ℕ × List ℕ) :=
  match findcross x v kind with
  | .error e => .error e
  | .ok c =>
    if c.length ≤ 2 then .ok ([], [])
    else
      match c with
      | [] => .ok ([], [])
      | c0 :: r =>
        match x[c0]?, x[c0 + 1]? with
        | some a, some b =>
          match (List.range ((c0 :: r).length - 1)).mapM
              (tcEntry x (c0 :: r) (decide (a > b)) kind) with
          | .error e => .error e
          | .ok tc => .ok (tc, c0 :: r)
        | _, _ => .error .indexError

end

end Wafo.Turning

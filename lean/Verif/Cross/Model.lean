import Verif.Basic

/-!
Model of the level-crossing routines
(`/repo/src/wafo/_misc_numba.py`, `/repo/src/wafo/misc.py`).
-/

namespace Wafo.Cross

/-- Main loop of `_findcross`, `_misc_numba.py` L60-68:
`for i in range(start, n - 1): if (dcross == -1 and y[i] <= v and v < y[i+1]) or
(dcross == 1 and v <= y[i] and y[i+1] < v): ind[ix] = i; ix += 1; dcross = -dcross`.
The level `v` is the constant 0.  `i` is the index of the head of the list. -/
def scan (i : ℕ) (d : ℤ) : List ℤ → List ℕ
  | [] => []
  | [_] => []
  | a :: b :: l =>
    if (d = -1 ∧ a ≤ 0 ∧ 0 < b) ∨ (d = 1 ∧ 0 ≤ a ∧ b < 0) then
      i :: scan (i + 1) (-d) (b :: l)
    else
      scan (i + 1) d (b :: l)

/-- The search for the first sample off the level, `_misc_numba.py` L47-58 (branch `y[0] == v`):
`for i in range(1, n): start = i; if y[i] < v: ind[ix] = i-1; dcross = -1; break; elif y[i] > v: ...`
followed by the main loop from `start`.  `i` is the index of the head of the list.
When the list runs out `dcross` is still 0 and the main loop is empty (`range(n-1, n-1)`). -/
def zeroScan (i : ℕ) : List ℤ → List ℕ
  | [] => []
  | a :: l =>
    if a < 0 then (i - 1) :: scan i (-1) (a :: l)
    else if 0 < a then (i - 1) :: scan i 1 (a :: l)
    else zeroScan (i + 1) l

/-- `_findcross(ind, y)` of `_misc_numba.py` L35-70 and `findcross(xn)` L73-77 (the same algorithm
as `findcross` in `source/c_library/c_functions.c`).
Reading `y[0]` of an empty array is an out-of-bounds read of compiled code.
The result buffer `ind` has `len(y)` entries; that no write exceeds it is a theorem. -/
def findcross0 : List ℤ → Except PyErr (List ℕ)
  | [] => .error .oobRead
  | y0 :: ys =>
    if y0 < 0 then .ok (scan 0 (-1) (y0 :: ys))
    else if 0 < y0 then .ok (scan 0 1 (y0 :: ys))
    else .ok (zeroScan 1 ys)

section
variable {α : Type*} [Field α] [LinearOrder α]

/-- `np.int8(np.sign(x - v))` for one sample, `misc.py` L1064.  NaN is not modelled. -/
def sgn (v a : α) : ℤ := if a - v < 0 then -1 else if 0 < a - v then 1 else 0

/-- `xn` of `misc.findcross`, L1064. -/
def signs (x : List α) (v : α) : List ℤ := x.map (sgn v)

/-- Selection of crossings by kind, `misc.py` L1070-1096, applied to a non-empty `ind = i0 :: rest`.
Python reads `xn[ind[0] + 1]` and `xn[ind[0]]`; a failing read is an `IndexError`. -/
def selectKind (xn : List ℤ) (i0 : ℕ) (rest : List ℕ) (kind : Option String) :
    Except PyErr (List ℕ) :=
  let ind := i0 :: rest
  if kind = none ∨ kind = some "du" ∨ kind = some "all" then .ok ind
  else if kind = some "d" then
    match xn[i0 + 1]? with
    | none => .error .indexError
    | some b => .ok (everyOther (ind.drop (if b > 0 then 1 else 0)))
  else if kind = some "u" then
    match xn[i0 + 1]? with
    | none => .error .indexError
    | some b => .ok (everyOther (ind.drop (if b < 0 then 1 else 0)))
  else if kind = some "dw" ∨ kind = some "uw" ∨ kind = some "tw" ∨ kind = some "cw" then
    match xn[i0]?, xn[i0 + 1]? with
    | some a, some b =>
      let firstDown : Bool := decide (a > b)
      let wantDown : Bool := decide (kind = some "dw" ∨ kind = some "tw")
      let ind1 := if firstDown ^^ wantDown then ind.drop 1 else ind
      let isOdd : Bool := decide (ind1.length % 2 = 1)
      let wantOdd : Bool := decide (kind = some "dw" ∨ kind = some "uw")
      .ok (if isOdd ^^ wantOdd then ind1.dropLast else ind1)
    | _, _ => .error .indexError
  else .error .valueError

/-- `misc.findcross(x, v, kind)`, `misc.py` L1003-1097.  The warning issued when there is no
crossing has no effect on the result.  `_findcross` (L994-1000) dispatches to the numba or the C
version, which are the same algorithm. -/
def findcross (x : List α) (v : α) (kind : Option String) : Except PyErr (List ℕ) :=
  let xn := signs x v
  match findcross0 xn with
  | .error e => .error e
  | .ok [] => .ok []
  | .ok (i0 :: rest) => selectKind xn i0 rest kind

/-- `np.diff`. -/
def diff : List α → List α
  | [] => []
  | [_] => []
  | a :: b :: l => (b - a) :: diff (b :: l)

/-- `misc.findextrema(x)`, `misc.py` L1100-1135: `findcross(diff(x), 0.0) + 1`. -/
def findextrema (x : List α) : Except PyErr (List ℕ) :=
  match findcross (diff x) 0 none with
  | .error e => .error e
  | .ok ind => .ok (ind.map (· + 1))

/-- `misc.ecross(t, f, ind, v)` for one index, `misc.py` L939-991:
`t[ind] + (v - f[ind]) * (t[ind+1] - t[ind]) / (f[ind+1] - f[ind])`.
A zero denominator is an error here (numpy would return inf or nan with a warning). -/
def ecross1 (t f : List α) (v : α) (i : ℕ) : Except PyErr α :=
  match t[i]?, t[i + 1]?, f[i]?, f[i + 1]? with
  | some t0, some t1, some f0, some f1 =>
    if f1 - f0 = 0 then .error .zeroDivision
    else .ok (t0 + (v - f0) * (t1 - t0) / (f1 - f0))
  | _, _, _, _ => .error .indexError

end

end Wafo.Cross

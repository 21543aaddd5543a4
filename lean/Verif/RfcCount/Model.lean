import Verif.Basic
import Mathlib.Data.List.Sort

/-!
Model of the rainflow counting routine `_findrfc` (method 2), `/repo/src/wafo/_misc_numba.py`
L158-226 (the C routine `findrfc` in `c_functions.c` is the same loop), and of its caller
`misc.findrfc`, `/repo/src/wafo/misc.py` L1265-1344.
-/

namespace Wafo.RfcCount

variable {α : Type} [Field α] [LinearOrder α]

/-- The inner `while` loop going back, L175-181.  `back y M j (xminus, Tmi)` is the state after the
loop, `j` being the index plus one: the loop inspects `j - 1`, `j - 2`, ... down to 0. -/
def back (y : ℕ → α) (M : α) : ℕ → α × ℕ → α × ℕ
  | 0, acc => acc
  | j + 1, acc =>
    if y (2 * j + 1) ≤ M then
      back y M j (if y (2 * j) < acc.1 then (y (2 * j), 2 * j) else acc)
    else acc

/-- The inner `while` loop going forward, L190-197, with `fuel = nc - j`.  The Boolean tells whether
the loop was left by `break`. -/
def fwd (y : ℕ → α) (M : α) : ℕ → ℕ → α × ℕ → Bool × α × ℕ
  | 0, _, acc => (false, acc)
  | fuel + 1, j, acc =>
    if M ≤ y (2 * j + 1) then (true, acc)
    else fwd y M fuel (j + 1) (if y (2 * j + 2) ≤ acc.1 then (y (2 * j + 2), 2 * j + 2) else acc)

/-- One pass of the outer loop, L168-223: what is appended to `ind` for the maximum at `2 i + 1`. -/
def emit (y : ℕ → α) (nc : ℕ) (h : α) (i : ℕ) : List ℕ :=
  let M := y (2 * i + 1)
  let xplus := y (2 * i + 2)
  let (xminus, Tmi) := back y M i (y (2 * i), 2 * i)
  if xplus ≤ xminus then
    (if h ≤ M - xminus then [Tmi, 2 * i + 1] else [])
  else
    match fwd y M (nc - (i + 1)) (i + 1) (xplus, 2 * i + 2) with
    | (false, _, _) => if h ≤ M - xminus then [Tmi, 2 * i + 1] else []
    | (true, xplus', Tpl) =>
      if xplus' ≤ xminus then (if h ≤ M - xminus then [Tmi, 2 * i + 1] else [])
      else if h ≤ M - xplus' then [2 * i + 1, Tpl] else []

/-- `_findrfc(ind, y, h)`: the contents `ind[:ix]` of the result buffer.  `y k` for `k < n` is the
array, for `k ≥ n` it is whatever lies behind it in memory: the compiled code does not check
indices. -/
def findrfc2 (y : ℕ → α) (n : ℕ) (h : α) : List ℕ :=
  (List.range (n / 2)).flatMap (emit y (n / 2) h)

/-- Array read with bounds check. -/
def rd (y : List α) (k : ℕ) : Except PyErr α :=
  match y[k]? with
  | some a => .ok a
  | none => .error .oobRead

/-- `back` with checked reads, in the order of the source: `y[2 j + 1]`, then `y[2 j]`. -/
def backC (y : List α) (M : α) : ℕ → α × ℕ → Except PyErr (α × ℕ)
  | 0, acc => .ok acc
  | j + 1, acc => do
    let a ← rd y (2 * j + 1)
    if a ≤ M then
      let b ← rd y (2 * j)
      backC y M j (if b < acc.1 then (b, 2 * j) else acc)
    else .ok acc

/-- `fwd` with checked reads. -/
def fwdC (y : List α) (M : α) : ℕ → ℕ → α × ℕ → Except PyErr (Bool × α × ℕ)
  | 0, _, acc => .ok (false, acc)
  | fuel + 1, j, acc => do
    let a ← rd y (2 * j + 1)
    if M ≤ a then .ok (true, acc)
    else
      let b ← rd y (2 * j + 2)
      fwdC y M fuel (j + 1) (if b ≤ acc.1 then (b, 2 * j + 2) else acc)

/-- `emit` with checked reads: `y[2 i]` and `y[2 i + 2]` are read first (L171-172). -/
def emitC (y : List α) (nc : ℕ) (h : α) (i : ℕ) : Except PyErr (List ℕ) := do
  let x0 ← rd y (2 * i)
  let xplus ← rd y (2 * i + 2)
  let M ← rd y (2 * i + 1)
  let (xminus, Tmi) ← backC y M i (x0, 2 * i)
  if xplus ≤ xminus then
    .ok (if h ≤ M - xminus then [Tmi, 2 * i + 1] else [])
  else
    match ← fwdC y M (nc - (i + 1)) (i + 1) (xplus, 2 * i + 2) with
    | (false, _, _) => .ok (if h ≤ M - xminus then [Tmi, 2 * i + 1] else [])
    | (true, xplus', Tpl) =>
      .ok (if xplus' ≤ xminus then (if h ≤ M - xminus then [Tmi, 2 * i + 1] else [])
        else if h ≤ M - xplus' then [2 * i + 1, Tpl] else [])

/-- The outer loop with checked reads. -/
def emitAllC (y : List α) (nc : ℕ) (h : α) : List ℕ → Except PyErr (List ℕ)
  | [] => .ok []
  | i :: l => do
    let a ← emitC y nc h i
    let b ← emitAllC y nc h l
    .ok (a ++ b)

/-- `_findrfc` with every array read checked: this is what the Python source does when it is run
without compilation; a failing check is the `IndexError` there and a stray memory access in the
compiled code. -/
def findrfc2C (y : List α) (h : α) : Except PyErr (List ℕ) :=
  emitAllC y (y.length / 2) h (List.range (y.length / 2))

/-- Memory as seen through the pointer to the array `y`, followed by `oob`. -/
def memory (y : List α) (oob : ℕ → α) (k : ℕ) : α := y.getD k (oob (k - y.length))

/-- `misc.findrfc(tp, h, method)` for method `'clib'` / 2, L1319-1344.  A leading maximum is dropped;
the "not a sequence of turning points" test reads three values of a numpy array and raises
IndexError when there are only two. -/
def findrfc (y : List α) (oob : ℕ → α) (h : α) : Except PyErr (List ℕ) :=
  match y with
  | a :: b :: _ =>
    let ts := if a > b then 1 else 0
    let y := y.drop ts
    if y.length / 2 < 1 then .ok []
    else
      match y with
      | [a, b] =>
        -- `y[0] > y[1] and y[1] > y[2] or y[0] < y[1] and y[1] < y[2]`
        if a > b ∨ a < b then .error .indexError
        else .ok (((findrfc2 (memory y oob) y.length h).insertionSort (· ≤ ·)).map (· + ts))
      | a :: b :: c :: _ =>
        if (a > b ∧ b > c) ∨ (a < b ∧ b < c) then .ok []
        else .ok (((findrfc2 (memory y oob) y.length h).insertionSort (· ≤ ·)).map (· + ts))
      | _ => .ok []
  | _ => .error .indexError

end Wafo.RfcCount

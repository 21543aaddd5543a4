import Verif.Basic

/-!
Model of the ASTM rainflow counting `_findrfc3_astm`, `_findrfc5_astm` and `findrfc_astm`,
`/repo/src/wafo/_misc_numba.py` L474-624 (called by `misc.findrfc_astm` L1234).
-/

namespace Wafo.Astm

variable {α : Type*} [Field α] [LinearOrder α]

/-- A row `[ampl, mean, count]` of the result. -/
structure Row3 (α : Type*) where
  ampl : α
  mean : α
  cnt : α
deriving DecidableEq, Repr

/-- A row `[ampl, mean, count, begin time, period]` of the result. -/
structure Row5 (α : Type*) where
  ampl : α
  mean : α
  cnt : α
  atime : α
  period : α
deriving DecidableEq, Repr

/-- L497-498 and `if (ampl > 0)` L503, L509: the row written for `a[j-2] = x`, `a[j-1] = y`. -/
def row3 (x y cnt : α) : List (Row3 α) :=
  if 0 < |(y - x) / 2| then [⟨|(y - x) / 2|, (y + x) / 2, cnt⟩] else []

/-- The inner `while` loop L496-512.  The stack `a[0..j]` is kept with its top first: `c` is `a[j]`,
the list is what lies below it.  Returned: the stack, the rows written, and by how much `c_nr1`
grows. -/
def reduce3 (c : α) : List α → List α × List (Row3 α) × ℕ
  | b :: a :: rest =>
    if |b - a| ≤ |c - b| then
      match rest with
      | [] => ([c, b], row3 a b (1 / 2), 0)
      | p :: r =>
        let (st, rows, k) := reduce3 c (p :: r)
        (st, row3 a b 1 ++ rows, (if 0 < |(b - a) / 2| then 1 else 0) + k)
    else (c :: b :: a :: rest, [], 0)
  | l => (c :: l, [], 0)

/-- The outer loop L493-512: state is the stack, the rows written so far, and `c_nr1 - 1`. -/
def loop3 : List α → List α → List (Row3 α) → ℕ → List α × List (Row3 α) × ℕ
  | [], st, rows, k => (st, rows, k)
  | x :: l, st, rows, k =>
    let (st', rows', k') := reduce3 x st
    loop3 l st' (rows ++ rows') (k + k')

/-- The closing loop L515-521 over what is left on the stack, bottom first. -/
def close3 : List α → List (Row3 α)
  | c :: b :: r =>
    close3 (b :: r) ++ (if 0 < |b - c| / 2 then [⟨|b - c| / 2, (b + c) / 2, 1 / 2⟩] else [])
  | _ => []

/-- All rows written into the output array. -/
def rows3 (y : List α) : List (Row3 α) :=
  let (st, rows, _) := loop3 y [] [] 0
  rows ++ close3 st

/-- The returned counter `c_nr1`. -/
def cnr3 (y : List α) : ℕ := 1 + (loop3 y [] [] 0).2.2

/-- `findrfc_astm(tp)` L607-624: the zero initialised output array of `n` rows, cut to `n - c_nr1`
rows.  (For `n = 0` Python's `[:-1]` of the empty array is empty, as is the truncated difference
here.) -/
def findrfc3 (y : List α) : List (Row3 α) :=
  (rows3 y ++ List.replicate (y.length - (rows3 y).length) (⟨0, 0, 0⟩ : Row3 α)).take (y.length - cnr3 y)

/-- As `row3`, with times, L544-559. -/
def row5 (x y : α × α) (cnt : α) : List (Row5 α) :=
  if 0 < |(y.1 - x.1) / 2| then
    [⟨|(y.1 - x.1) / 2|, (y.1 + x.1) / 2, cnt, x.2, (y.2 - x.2) * 2⟩] else []

/-- The inner `while` loop L546-567 over pairs (value, time). -/
def reduce5 (c : α × α) : List (α × α) → List (α × α) × List (Row5 α) × ℕ
  | b :: a :: rest =>
    if |b.1 - a.1| ≤ |c.1 - b.1| then
      match rest with
      | [] => ([c, b], row5 a b (1 / 2), 0)
      | p :: r =>
        let (st, rows, k) := reduce5 c (p :: r)
        (st, row5 a b 1 ++ rows, (if 0 < |(b.1 - a.1) / 2| then 1 else 0) + k)
    else (c :: b :: a :: rest, [], 0)
  | l => (c :: l, [], 0)

/-- The outer loop L542-567. -/
def loop5 : List (α × α) → List (α × α) → List (Row5 α) → ℕ →
    List (α × α) × List (Row5 α) × ℕ
  | [], st, rows, k => (st, rows, k)
  | x :: l, st, rows, k =>
    let (st', rows', k') := reduce5 x st
    loop5 l st' (rows ++ rows') (k + k')

/-- The closing loop L570-580. -/
def close5 : List (α × α) → List (Row5 α)
  | c :: b :: r =>
    close5 (b :: r) ++
      (if 0 < |b.1 - c.1| / 2 then
        [⟨|b.1 - c.1| / 2, (b.1 + c.1) / 2, 1 / 2, b.2, (c.2 - b.2) * 2⟩] else [])
  | _ => []

/-- All rows written, with times. -/
def rows5 (y : List (α × α)) : List (Row5 α) :=
  let (st, rows, _) := loop5 y [] [] 0
  rows ++ close5 st

/-- `findrfc_astm(tp, t)`; compiled code reads beyond a time vector that is too short. -/
def findrfc5 (y t : List α) : Except PyErr (List (Row5 α)) :=
  if t.length < y.length then .error .oobRead
  else
    let z := y.zip t
    .ok ((rows5 z ++ List.replicate (y.length - (rows5 z).length) (⟨0, 0, 0, 0, 0⟩ : Row5 α)).take
      (y.length - (1 + (loop5 z [] [] 0).2.2)))

end Wafo.Astm

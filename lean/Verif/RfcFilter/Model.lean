import Verif.Basic

/-!
Model of the rainflow filter `local_findrfc` (methods 0 and 1),
`/repo/src/wafo/_misc_numba.py` L80-156, `findrfc` L229-251 and `misc.rfcfilter` L1347-1396.
-/

namespace Wafo.RfcFilter

section
variable {α : Type*} [Field α] [LinearOrder α]

/-- `cmp1`, L92 and L145-156: `<=` for method 0 (`strict = false`), `<` for method 1. -/
def cmp1 (strict : Bool) (a b : α) : Bool := if strict then decide (a < b) else decide (a ≤ b)

/-- `cmp2`, L92 and L145-156: `<` for method 0 (`strict = false`), `<=` for method 1. -/
def cmp2 (strict : Bool) (a b : α) : Bool := if strict then decide (a ≤ b) else decide (a < b)

/-- State of the loop: `t0, y0, z0` and the part `t[0..j]` of the result buffer that has been
filled, most recent entry first (`t[0] = 0` comes from `np.zeros`). -/
structure St (α : Type*) where
  t0 : ℕ
  y0 : α
  z0 : ℤ
  out : List ℕ
deriving DecidableEq, Repr

/-- The direction `z1`, L104-118: `none` is the `raise ValueError`. -/
def newDir (strict : Bool) (h y0 : α) (z0 : ℤ) (yi : α) : Option ℤ :=
  let fpi := y0 + h
  let fmi := y0 - h
  if z0 = 0 then
    if cmp1 strict yi fmi then some (-1)
    else if cmp1 strict fpi yi then some 1
    else some 0
  else
    if (z0 = 1 ∧ cmp1 strict yi fmi) ∨ (z0 = -1 ∧ cmp2 strict yi fpi) then some (-1)
    else if (z0 = 1 ∧ cmp2 strict fmi yi) ∨ (z0 = -1 ∧ cmp1 strict fpi yi) then some 1
    else none

/-- The new `t1, y1`, L111 and L121-126. -/
def newExtreme (t0 : ℕ) (y0 : α) (z0 z1 : ℤ) (ti : ℕ) (yi : α) : ℕ × α :=
  if z0 = 0 then
    if z1 = 0 then (t0, y0) else (ti, yi)
  else if z1 ≠ z0 then (ti, yi)
  else if z1 = -1 then (if y0 < yi then (t0, y0) else (ti, yi))
  else if z1 = 1 then (if y0 > yi then (t0, y0) else (ti, yi))
  else (t0, y0)

/-- One pass of the loop body, L98-134, for sample `yi` at index `ti`; `n` is the size of the result
buffer.  `t[j] = t0` with `j` beyond the buffer is an out-of-bounds write. -/
def step (strict : Bool) (h : α) (n : ℕ) (s : St α) (ti : ℕ) (yi : α) : Except PyErr (St α) :=
  match newDir strict h s.y0 s.z0 yi with
  | none => .error .valueError
  | some z1 =>
    let (t1, y1) := newExtreme s.t0 s.y0 s.z0 z1 ti yi
    if (s.z0 - z1).natAbs = 2 then
      if s.out.length < n then .ok ⟨t1, y1, z1, s.t0 :: s.out⟩ else .error .oobWrite
    else .ok ⟨t1, y1, z1, s.out⟩

/-- The loop `for ti in range(1, n)`, L97-134. -/
def loop (strict : Bool) (h : α) (n : ℕ) (s : St α) (ti : ℕ) : List α → Except PyErr (St α)
  | [] => .ok s
  | yi :: l =>
    match step strict h n s ti yi with
    | .error e => .error e
    | .ok s' => loop strict h n s' (ti + 1) l

/-- The last turning point, L137-139: `if cmp2(h, abs(y0 - y[t[j]])): j += 1; t[j] = t0`. -/
def finish (strict : Bool) (h : α) (y : List α) (s : St α) : Except PyErr (List ℕ) :=
  match s.out with
  | [] => .error .indexError
  | e :: _ =>
    match y[e]? with
    | none => .error .oobRead
    | some ye =>
      if cmp2 strict h |s.y0 - ye| then
        if s.out.length < y.length then .ok (s.t0 :: s.out).reverse else .error .oobWrite
      else .ok s.out.reverse

/-- `findrfc(y, h, method)` of `_misc_numba.py` L229-251 for method 0 (`strict = false`) and method 1
(`strict = true`): the indices of the rainflow filtered signal.  An empty signal makes the compiled
code read `y[0]` outside the array. -/
def rfc (strict : Bool) (h : α) (y : List α) : Except PyErr (List ℕ) :=
  match y with
  | [] => .error .oobRead
  | y0 :: ys =>
    match loop strict h (y0 :: ys).length ⟨0, y0, 0, [0]⟩ 1 ys with
    | .error e => .error e
    | .ok s => finish strict h (y0 :: ys) s

/-- numpy fancy indexing `y[ix]` with non-negative indices: IndexError outside the array. -/
def takeIdx {β : Type*} (y : List β) : List ℕ → Except PyErr (List β)
  | [] => .ok []
  | i :: ix =>
    match y[i]? with
    | none => .error .indexError
    | some a =>
      match takeIdx y ix with
      | .error e => .error e
      | .ok l => .ok (a :: l)

/-- `misc.rfcfilter(x, h, method)`, `/repo/src/wafo/misc.py` L1394-1396, methods 0 and 1. -/
def rfcfilter (strict : Bool) (h : α) (y : List α) : Except PyErr (List α) :=
  match rfc strict h y with
  | .error e => .error e
  | .ok ix => takeIdx y ix

end

end Wafo.RfcFilter

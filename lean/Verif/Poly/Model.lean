import Verif.Basic

/-!
Model of the polynomial helpers of `/repo/src/wafo/polynomial.py`.  A polynomial is the list of its
coefficients from the highest power down to the constant.  The variants for `poly1d` objects and for matrices
of column vectors (which treat every column the same way) are not modelled.
-/

namespace Wafo.Poly

variable {α : Type*} [Field α]

/-- `np.polyval(p, t)`: Horner's scheme. -/
def peval (p : List α) (t : α) : α := p.foldl (fun acc c => acc * t + c) 0

/-- One integration step of `_polyintnd`, polynomial.py L111-119: coefficient `i` is divided by `len(p) - i`, then
the constant is appended. -/
def int1 (p : List α) (k0 : α) : List α :=
  List.zipWith (fun c (i : ℕ) => c / ((p.length - i : ℕ) : α)) p (List.range p.length) ++ [k0]

/-- The recursion of `polyint`, L146-153 with L121: `polyint(y, m - 1, k=k[1:])`. -/
def polyintRec : ℕ → List α → List α → Except PyErr (List α)
  | 0, p, _ => .ok p
  | _ + 1, _, [] => .error .indexError
  | m + 1, p, k0 :: k => polyintRec m (int1 p k0) k

/-- The integration constants of `_init`, L134-142: `k=None` means zeros, a single constant is repeated when `m > 1`. -/
def intConsts (m : ℕ) : Option (List α) → List α
  | none => List.replicate m 0
  | some [c] => if 1 < m then List.replicate m c else [c]
  | some l => l

/-- `polyint(p, m, k)`, L43-153: ValueError for `m < 0` and for too few constants. -/
def polyint (p : List α) (m : ℤ) (k : Option (List α)) : Except PyErr (List α) :=
  if m < 0 then .error .valueError
  else
    let k0 := intConsts m.toNat k
    if (k0.length : ℤ) < m then .error .valueError
    else polyintRec m.toNat p k0

/-- One differentiation step of `_polydernd`, L206-211: `arange(n, 0, -1) * p[:-1]` with `n = len(p) - 1`. -/
def der1 (p : List α) : List α :=
  List.zipWith (fun c (i : ℕ) => ((p.length - 1 - i : ℕ) : α) * c) p.dropLast (List.range (p.length - 1))

/-- The recursion of `polyder`, L212 and L227-232. -/
def polyderRec : ℕ → List α → List α
  | 0, p => p
  | m + 1, p => polyderRec m (der1 p)

/-- `polyder(p, m)`, L156-232: ValueError for `m < 0`. -/
def polyder (p : List α) (m : ℤ) : Except PyErr (List α) :=
  if m < 0 then .error .valueError else .ok (polyderRec m.toNat p)

/-- Inner loop of `_relocate_with_horner`, L532-533: `for i in range(1, ii): r[i] = r[i] - x*r[i-1]`, in place.
`store` is the conversion of a value that is assigned into the array: the identity for a floating point array,
truncation towards zero when `p` was given as integers. -/
def relocPass (store : α → α) (x : α) (ii : ℕ) (r : List α) : List α :=
  (List.range' 1 (ii - 1)).foldl (fun r i => r.set i (store (r.getD i 0 - x * r.getD (i - 1) 0))) r

/-- The outer loop L531: `for ii in range(n, 1, -1)`. -/
def relocLoop (store : α → α) (x : α) : ℕ → List α → List α
  | 0, r => r
  | n + 1, r => if 1 < n + 1 then relocLoop store x n (relocPass store x (n + 1) r) else r

/-- `polyreloc(p, x, y)`, L480-542; `r[-1] = r[-1] + y` raises IndexError on an empty list. -/
def polyreloc (store : α → α) (p : List α) (x y : α) : Except PyErr (List α) :=
  match p with
  | [] => .error .indexError
  | _ =>
    let r := relocLoop store x p.length p
    .ok (r.set (r.length - 1) (store (r.getD (r.length - 1) 0 + y)))

/-- `polyrescl(p, x, y)`, L545-595: coefficient `i` is multiplied by `y * x**(i + 1 - n)`.  (`x = 0` gives infinities
in floating point; the theorems exclude it.) -/
def polyrescl (p : List α) (x y : α) : List α :=
  List.zipWith (fun c (i : ℕ) => y * c * x ^ ((i : ℤ) + 1 - p.length)) p (List.range p.length)

/-- `polytrim(p)`, L598-637: `r[np.logical_or.accumulate(r != 0)]`. -/
def polytrim [DecidableEq α] (p : List α) : List α :=
  let rec go : Bool → List α → List α
    | _, [] => []
    | seen, c :: l =>
      let b := seen || (c != 0)
      if b then c :: go b l else go b l
  go false p

/-- `polyishift(px, a, b)`, L857-900; `b = a` divides by zero. -/
def polyishift [DecidableEq α] (px : List α) (a b : α) : Except PyErr (List α) :=
  if a = -1 ∧ b = 1 then .ok px
  else if b - a = 0 then .error .zeroDivision
  else polyreloc id (polyrescl px (2 / (b - a)) 1) (-(a + b) / (b - a)) 0

/-- `polyshift(py, a, b)`, L814-854. -/
def polyshift [DecidableEq α] (py : List α) (a b : α) : Except PyErr (List α) :=
  if a = -1 ∧ b = 1 then .ok py
  else if b - a = 0 then .error .zeroDivision
  else polyishift py (-(2 + b + a) / (b - a)) ((2 - b - a) / (b - a))

/-- `map_from_interval(x, a, b)`, L903-905. -/
def mapFromInterval (x a b : α) : α := (x - (b + a) / 2) * (2 / (b - a))

/-- `map_to_interval(x, a, b)`, L908-910. -/
def mapToInterval (x a b : α) : α := (x * (b - a) + (b + a)) / 2

end Wafo.Poly

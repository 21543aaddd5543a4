import Verif.Basic
import Mathlib.Algebra.Order.Floor.Ring
import Mathlib.Algebra.BigOperators.Fin

/-!
Model of `gridcount` of `/repo/src/wafo/kdetools/gridding.py` (linear binning) for one and for several
dimensions.
-/

namespace Wafo.Grid

variable {α : Type*} [Field α] [LinearOrder α] [FloorRing α]

/-- `np.bincount(idx, w, n)` for non-negative `idx < n`, gridding.py L102: entry `k` sums the weights whose
index is `k`.  (An index `>= n` would enlarge the result; the callers below report it as an error.) -/
def bincount (n : ℕ) (iw : List (ℕ × α)) : List α :=
  (List.range n).map (fun k => ((iw.filter (fun p => p.1 = k)).map Prod.snd).sum)

/-- `x[i]` with Python's negative indices. -/
def pyGet (l : List α) (i : ℤ) : Except PyErr α :=
  let j : ℤ := if i < 0 then i + l.length else i
  if 0 ≤ j then
    match l[j.toNat]? with
    | some v => .ok v
    | none => .error .indexError
  else .error .indexError

/-- `y = np.atleast_1d(y).ravel()` broadcast against the data: one weight for all or one per datum. -/
def broadcast (n : ℕ) (y : List α) : Except PyErr (List α) :=
  match y with
  | [v] => .ok (List.replicate n v)
  | _ => if y.length = n then .ok y else .error .valueError

/-- Contribution of one datum, gridding.py L261-265: the two grid points next to it with their weights. -/
def contrib (x : List α) (xlo dx : α) (d y : α) : Except PyErr ((ℕ × α) × (ℕ × α)) :=
  let b : ℤ := ⌊(d - xlo) / dx⌋
  match pyGet x (b + 1), pyGet x b with
  | .ok xr, .ok xl =>
    if 0 ≤ b then .ok ((b.toNat, (xr - d) * y), (b.toNat + 1, (d - xl) * y)) else .error .valueError
  | _, _ => .error .indexError

/-- `gridcount(data, X, y)` in one dimension, gridding.py L334-359 with `_gridcount_1d` L261-265.
Empty data and grids with fewer than two points raise ValueError (`dx = 0` is not modelled further). -/
def gridcount1 (data x y : List α) : Except PyErr (List α) :=
  match x with
  | xlo :: x1 :: _ =>
    let xup := x.getLastD 0
    if data = [] then .error .valueError
    else if data.any (fun d => decide (d < xlo) || decide (xup < d)) then .error .valueError
    else
      let dx := x1 - xlo
      if dx = 0 then .error .zeroDivision
      else
        match broadcast data.length y with
        | .error e => .error e
        | .ok ys =>
          match (data.zip ys).mapM (fun p => contrib x xlo dx p.1 p.2) with
          | .error e => .error e
          | .ok cs =>
            .ok (List.zipWith (fun a b => (a + b) / dx) (bincount x.length (cs.map Prod.fst))
              (bincount x.length (cs.map Prod.snd)))
  | _ => .error .valueError

/-! ### Several dimensions, `_gridcount_nd` L225-258 -/

/-- `bitget(ir, np.arange(d))`, gridding.py L18-27. -/
def bits (d ir : ℕ) : Fin d → ℕ := fun j => (ir >>> (j : ℕ)) % 2

/-- The pairs of corner offsets in the order of the loops L235-240: `bt0[one]` for the two values of `ix`;
the offset used for the weight is `1 - bt0[one]`. -/
def corners (d : ℕ) : List (Fin d → ℕ) :=
  (List.range (2 ^ (d - 1))).flatMap (fun ir => [bits d ir, fun j => 1 - bits d ir j])

/-- Linear index `b1` into `c` (first dimension fastest), L243 with `fact1 = inc**j`. -/
def linIdx {d : ℕ} (inc : ℕ) (b : Fin d → ℤ) (o : Fin d → ℕ) : ℤ := ∑ j, (b j + o j) * (inc : ℤ) ^ (j : ℕ)

/-- `prod(x1[b2] - data)` for one datum and one corner, L244-246: `x1` is the flattened grid and
`b2 = binx + (1 - offset) + inc*j`; an index may run into the next row. -/
def cornerProd {d : ℕ} (inc : ℕ) (x1 : List α) (b : Fin d → ℤ) (o : Fin d → ℕ) (dat : Fin d → α) :
    Except PyErr α :=
  (List.finRange d).foldlM (fun acc j =>
    match pyGet x1 (b j + ((1 - o j : ℕ) : ℤ) + (inc : ℤ) * (j : ℕ)) with
    | .ok v => .ok (acc * (v - dat j))
    | .error e => .error e) 1

/-- One datum and one corner: linear index and weight; an index outside the result is an error. -/
def contribNd {d : ℕ} (inc : ℕ) (x1 : List α) (b : Fin d → ℤ) (o : Fin d → ℕ) (dat : Fin d → α) (y : α) :
    Except PyErr (ℕ × α) :=
  match cornerProd inc x1 b o dat with
  | .error e => .error e
  | .ok p =>
    let i := linIdx inc b o
    if 0 ≤ i ∧ i < (inc : ℤ) ^ d then .ok (i.toNat, |p| * y) else .error .valueError

/-- `gridcount(data, X, y)` for `d >= 2` dimensions: `x j` is the grid in dimension `j`.  The result is the flat
array before it is reshaped and its first two axes are swapped (L251-257, no arithmetic involved). -/
def gridcountNd {d : ℕ} (inc : ℕ) (data : List (Fin d → α)) (x : Fin d → List α) (y : List α) :
    Except PyErr (List α) :=
  if data = [] ∨ inc < 2 ∨ ∃ j, (x j).length ≠ inc then .error .valueError
  else if data.any (fun dat => decide (∃ j, dat j < (x j).headD 0 ∨ (x j).getLastD 0 < dat j)) then
    .error .valueError
  else
    let dx : Fin d → α := fun j => (x j).getD 1 0 - (x j).getD 0 0
    if ∃ j, dx j = 0 then .error .zeroDivision
    else
      let x1 := (List.finRange d).flatMap x
      match broadcast data.length y with
      | .error e => .error e
      | .ok ys =>
        match (corners d).mapM (fun o => (data.zip ys).mapM (fun p =>
            contribNd inc x1 (fun j => ⌊(p.1 j - (x j).headD 0) / dx j⌋) o p.1 p.2)) with
        | .error e => .error e
        | .ok cs => .ok ((bincount (inc ^ d) cs.flatten).map (fun v => v / ∏ j, dx j))

end Wafo.Grid

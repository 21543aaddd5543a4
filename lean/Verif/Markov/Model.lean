import Verif.Basic
import Mathlib.Algebra.BigOperators.Group.Finset.Basic
import Mathlib.Algebra.BigOperators.Intervals
import Mathlib.Order.Interval.Finset.Nat

/-!
Model of the counting distribution functions of `/repo/src/wafo/markov.py` L4-66, L163-286.

A matrix of shape `(n, n)` is a function `ℕ → ℕ → α` together with `n`; only entries with both indices
below `n` are meaningful.
-/

namespace Wafo.Markov

open Finset

variable {α : Type*} [AddCommGroup α]

/-- `np.cumsum(A, axis=0)`. -/
def csum0 (A : ℕ → ℕ → α) (i j : ℕ) : α := ∑ a ∈ range (i + 1), A a j

/-- `np.cumsum(A, axis=1)`. -/
def csum1 (A : ℕ → ℕ → α) (i j : ℕ) : α := ∑ b ∈ range (j + 1), A i b

/-- `np.fliplr(A)` for a matrix with `w` columns. -/
def fliplr (w : ℕ) (A : ℕ → ℕ → α) (i j : ℕ) : α := A i (w - 1 - j)

/-- The `kind` arguments that the functions implement. -/
inductive Kind where
  | vec   -- kind = 1
  | loop  -- kind = 11
deriving DecidableEq

/-- `_raise_kind_error` L156-160: other kinds raise NotImplementedError or ValueError; both are an
error value here. -/
def readKind (k : ℤ) : Except PyErr Kind :=
  if k = 1 then .ok .vec else if k = 11 then .ok .loop else .error .valueError

/-- `cmat2nt(cmat, kind)`, L226-286, for a kind that is implemented. -/
def cmat2ntK (n : ℕ) (cmat : ℕ → ℕ → α) : Kind → ℕ → ℕ → α
  | .vec => fun i j =>
      -- nt[1:n, :n - 1] = flip(csum(flip(csum(cmat[:-1, 1:], axis=0)), axis=1)); cmat[:-1, 1:] has
      -- n - 1 columns
      let sub : ℕ → ℕ → α := fun a b => cmat a (b + 1)
      if 1 ≤ i ∧ i < n ∧ j < n - 1 then
        fliplr (n - 1) (csum1 (fliplr (n - 1) (csum0 sub))) (i - 1) j
      else 0
  | .loop => fun i j =>
      if 1 ≤ i ∧ i < n ∧ j < n - 1 then ∑ a ∈ range i, ∑ b ∈ Ico (j + 1) n, cmat a b else 0

/-- `cmat2nt(cmat, kind)`. -/
def cmat2nt (n : ℕ) (cmat : ℕ → ℕ → α) (kind : ℤ) : Except PyErr (ℕ → ℕ → α) :=
  (readKind kind).map (cmat2ntK n cmat)

/-- `nt2cmat(nt, kind)`, L163-223, for a kind that is implemented. -/
def nt2cmatK (n : ℕ) (nt : ℕ → ℕ → α) : Kind → ℕ → ℕ → α
  | .vec => fun i j =>
      -- c[i, j] for I = 0..n-2 and J = 1..n-1, then a zero row below and a zero column to the left
      let c : ℕ → ℕ → α := fun p q =>
        let J := q + 1
        nt (p + 1) (J - 1) - nt p (J - 1) - nt (p + 1) J + nt p J
      let c2 : ℕ → ℕ → α := fun p q => if p < n - 1 then c p q else 0
      if j = 0 then 0 else c2 i (j - 1)
  | .loop => fun i j =>
      if i < n - 1 ∧ 1 ≤ j ∧ j < n then
        nt (i + 1) (j - 1) - nt i (j - 1) - nt (i + 1) j + nt i j
      else 0

/-- `nt2cmat(nt, kind)`. -/
def nt2cmat (n : ℕ) (nt : ℕ → ℕ → α) (kind : ℤ) : Except PyErr (ℕ → ℕ → α) :=
  (readKind kind).map (nt2cmatK n nt)

/-- `nt2fr(nt, kind)`, L4-37.  The first term of `fr_raw` is the vector `nt[:n - 1, :][:, n - 1]` (the last
column); numpy broadcasting of a vector of length `n - 1` against `(n - 1, n - 1)` matrices uses the
column index. -/
def nt2fr (n : ℕ) (nt : ℕ → ℕ → α) (kind : ℤ) : ℕ → ℕ → α :=
  let lastCol : ℕ → α := fun p => nt p (n - 1)
  let fr_raw : ℕ → ℕ → α := fun p q =>
    lastCol q + nt (p + 1) (q + 1) - nt p (q + 1) - nt (p + 1) q
  if kind = 0 then fun i j => if i < n - 1 ∧ j < n - 1 then fr_raw i j else 0
  else fun i j => if 1 ≤ i ∧ i < n ∧ 1 ≤ j ∧ j < n then fr_raw (i - 1) (j - 1) else 0

/-- A numpy array of one or two dimensions (only the shape matters for `fr2nt`). -/
inductive Nd (α : Type*) where
  | vec (len : ℕ) (f : ℕ → α)
  | mat (n m : ℕ) (f : ℕ → ℕ → α)

/-- `np.cumsum(A)` without an axis: the running sum of the flattened array, of dimension one. -/
def cumsumFlat : Nd α → Nd α
  | .vec len f => .vec len (fun i => ∑ a ∈ range (i + 1), f a)
  | .mat n m f => .vec (n * m) (fun i => ∑ a ∈ range (i + 1), f (a / m) (a % m))

/-- `A[:k, :]`: too many indices for a one dimensional array. -/
def rowsTo (k : ℕ) : Nd α → Except PyErr (Nd α)
  | .vec _ _ => .error .indexError
  | .mat n m f => .ok (.mat (min k n) m f)

/-- `A[:, k:]`. -/
def colsFrom (k : ℕ) : Nd α → Except PyErr (Nd α)
  | .vec _ _ => .error .indexError
  | .mat n m f => .ok (.mat n (m - k) (fun i j => f i (j + k)))

/-- `fr2nt(fr)`, L40-66.  The assignment `m2[1:, 1:] = ...` raises ValueError when shapes do not fit. -/
def fr2nt (n m : ℕ) (fr : ℕ → ℕ → α) : Except PyErr (Nd α) :=
  if n < 3 then .error .valueError
  else if n ≠ m then .error .valueError
  else
    let m1 := cumsumFlat (.mat n m (fun i j => csum1 fr i j - fr i j))
    match rowsTo (n - 2) m1 with
    | .error e => .error e
    | .ok r =>
      match colsFrom 1 r with
      | .error e => .error e
      | .ok (.mat n' m' f) =>
        if n' = n - 1 ∧ m' = n - 1 then
          .ok (.mat n n (fun i j => if 1 ≤ i ∧ 1 ≤ j ∧ i + j ≤ n - 1 then f (i - 1) (j - 1) else 0))
        else .error .valueError
      | .ok (.vec _ _) => .error .valueError

end Wafo.Markov

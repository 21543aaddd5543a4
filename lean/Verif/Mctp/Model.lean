import Verif.Basic
import Mathlib.Data.Real.Basic
import Mathlib.Data.Fin.Rev
import Mathlib.LinearAlgebra.Matrix.NonsingularInverse

/-!
# Model of the rainflow matrix of a Markov chain of turning points

`mctp2rfc` and `_raw_iter` of markov.py:102-122, 449-579.  Floats are real numbers; a square matrix of `N` levels is a
function of two indices, read at indices below `N`.  `np.linalg.solve` raises for a singular matrix
(`LinAlgError`, a `ValueError`) and otherwise gives the solution.  For the blocks with one level the code divides
by a number; where it is zero the code goes on with infinite or undefined values, the model stops with
`zeroDivision`.
-/

noncomputable section

namespace Wafo.Mctp

open Wafo Matrix

abbrev Mat := ℕ → ℕ → ℝ

/-- `f_max = np.sum(f_mM, axis=1)`, markov.py:496 -/
def fmax (N : ℕ) (f : Mat) (r : ℕ) : ℝ := ∑ c ∈ Finset.range N, f r c
/-- `f_min = np.sum(f_mM, axis=0)`, markov.py:497 -/
def fmin (N : ℕ) (f : Mat) (c : ℕ) : ℝ := ∑ r ∈ Finset.range N, f r c

/-- `R[r, c] = x` -/
def put (R : Mat) (r c : ℕ) (x : ℝ) : Mat := fun r' c' => if r' = r ∧ c' = c then x else R r' c'

/-- A row divided by its norm, if that is not zero; markov.py:480-487, 521-526 -/
def quot (norm x : ℝ) : ℝ := if norm ≠ 0 then x / norm else x

/-- `np.linalg.solve(rh, e)` -/
def solve {n : ℕ} (rh : Matrix (Fin n) (Fin n) ℝ) (e : Fin n → ℝ) : Except PyErr (Fin n → ℝ) :=
  open Classical in if rh.det = 0 then .error .valueError else .ok (rh⁻¹ *ᵥ e)

/-- The value `fx`, markov.py:517-543, for the block `AA` of `f_mM`, `AA1` of `f_Mm`; the dimension `nA` is `n + 1`.
`max(np.abs(e)) > t` is written as the existence of an entry with this property. -/
def excess {n : ℕ} (AA AA1 : Matrix (Fin (n + 1)) (Fin (n + 1)) ℝ) (MA mA : Fin (n + 1) → ℝ) : Except PyErr ℝ :=
  open Classical in
  let NN := fun r => MA r - ∑ c, AA r c
  let e := fun j : Fin (n + 1) => quot (mA j.rev) (mA j.rev - ∑ r, AA r j.rev)
  let B : Matrix (Fin (n + 1)) (Fin (n + 1)) ℝ := fun j c => quot (mA j.rev) (AA c j.rev)
  if (∃ j, |e j| > 1e-6) ∧ (∃ j, |NN j| > 1e-6 * max (MA 0) (mA 0)) then
    let A : Matrix (Fin (n + 1)) (Fin (n + 1)) ℝ := fun j c => quot (MA j) (AA1 j c.rev)
    if n = 0 then
      if 1 - B 0 0 * A 0 0 = 0 then .error .zeroDivision
      else .ok (NN 0 * (A 0 0 / (1 - B 0 0 * A 0 0) * e 0))
    else do
      let x ← solve (1 - B * A) e
      .ok (NN ⬝ᵥ (A *ᵥ x))
  else .ok 0

/-- The entry `f_rfc[N - 1 - k, k - i]`, markov.py:503-549, with `i = n + 1`. -/
def cell (N : ℕ) (f g R : Mat) (k n : ℕ) : Except PyErr ℝ :=
  open Classical in
  let i := n + 1
  let AA : Matrix (Fin (n + 1)) (Fin (n + 1)) ℝ := fun r c => f (N - 1 - k + r) (k - i + c)
  let AA1 : Matrix (Fin (n + 1)) (Fin (n + 1)) ℝ := fun r c => g (N - 1 - k + r) (k - i + c)
  let RAA : Matrix (Fin (n + 1)) (Fin (n + 1)) ℝ := fun r c => R (N - 1 - k + r) (k - i + c)
  let MA := fun r : Fin (n + 1) => fmax N f (N - 1 - k + r)
  let mA := fun c : Fin (n + 1) => fmin N f (k - i + c)
  let SA := ∑ r, ∑ c, AA r c
  let SRA := ∑ r, ∑ c, RAA r c
  let DRFC := SA - SRA
  let NT := min (mA 0 - ∑ r, RAA r 0) (MA 0 - ∑ c, RAA 0 c)
  let NT := max NT 0
  if NT > 1e-6 * max (MA 0) (mA 0) then do
    let fx ← excess AA AA1 MA mA
    .ok (fx + DRFC)
  else .ok 0

/-- The inner loop `for i in range(1, k)`, markov.py:502-550: the first `t` of its turns. -/
def inner (N : ℕ) (f g : Mat) (k : ℕ) : ℕ → Mat → Except PyErr Mat
  | 0, R => .ok R
  | t + 1, R => do
    let R ← inner N f g k t R
    let x ← cell N f g R k t
    .ok (put R (N - 1 - k) (k - (t + 1)) x)

/-- The outer loop `for k in range(2, N - 1)`, markov.py:501-556: the first `t` of its turns, `k = t + 2`. -/
def outer (N : ℕ) (f g : Mat) : ℕ → Mat → Except PyErr Mat
  | 0, R => .ok R
  | t + 1, R => do
    let R ← outer N f g t R
    let k := t + 2
    let R ← inner N f g k (k - 1) R
    let m0 := max 0 (fmin N f 0 - ∑ r ∈ Finset.Ico (N - k + 1) N, R r 0)
    let M0 := max 0 (fmax N f (N - 1 - k) - ∑ c ∈ Finset.Ico 1 k, R (N - 1 - k) c)
    .ok (put R (N - 1 - k) 0 (min m0 M0))

/-- The last loop `for k in range(1, N)`, markov.py:558-562: the first `t` of its turns, `k = t + 1`. -/
def last (N : ℕ) (f : Mat) : ℕ → Mat → Mat
  | 0, R => R
  | t + 1, R =>
    let R := last N f t R
    let k := t + 1
    let M0 := max 0 (fmax N f 0 - ∑ c ∈ Finset.Ico (N - k) N, R 0 c)
    let m0 := max 0 (fmin N f (N - 1 - k) - ∑ r ∈ Finset.Ico 1 (k + 1), R r (N - 1 - k))
    put R 0 (N - 1 - k) (min m0 M0)

/-- `mctp2rfc(fmM, fMm)` for square matrices with `N` levels, markov.py:449-579; for `N = 1` the index `N - 2` is
`-1`, which is the only index. -/
def mctp2rfc (N : ℕ) (fmM fMm : Mat) : Except PyErr Mat :=
  if N = 0 then .error .indexError
  else do
    let R : Mat := fun _ _ => 0
    let R := put R (N - 2) 0 (fmax N fmM (N - 2))
    let R := put R 0 (N - 2) (fmin N fmM (N - 2))
    let R ← outer N fmM fMm (N - 3) R
    .ok (last N fmM (N - 1) R)

/-- `np.fliplr` of a matrix with `N` columns -/
def fliplr (N : ℕ) (f : Mat) : Mat := fun r c => f r (N - 1 - c)

open Classical in
/-- The loop of `_raw_iter`, markov.py:108-117; `frfc0` is the flipped matrix. -/
def rawLoop (N : ℕ) (fun2rfc : Mat → Except PyErr Mat) (frfc0 : Mat) (epsilon : ℝ) :
    ℕ → Mat → Except PyErr Mat
  | 0, fmM => .ok fmM
  | k + 1, fmM_old =>
    match fun2rfc fmM_old with
    | .error e => .error e
    | .ok frfc =>
      let fmM : Mat := fun r c => fmM_old r c + (frfc0 r c - frfc r c)
      let fmM : Mat := fun r c => max 0 (fmM r c)
      if ¬ (∑ r ∈ Finset.range N, ∑ c ∈ Finset.range N, |fmM_old r c - fmM r c|) > epsilon then .ok fmM
      else rawLoop N fun2rfc frfc0 epsilon k fmM

/-- `_raw_iter`, markov.py:102-122; `iter_` (line 99) passes `mctp2rfc`. -/
def rawIter (N : ℕ) (fun2rfc : Mat → Except PyErr Mat) (frfc : Mat) (fmM_0 : Option Mat) (k : ℕ)
    (epsilon : ℝ) : Except PyErr (Mat × Mat) := do
  let fmM_0 := fmM_0.getD frfc
  let frfc0 := fliplr N frfc
  let fmM ← rawLoop N fun2rfc frfc0 epsilon k (fliplr N fmM_0)
  let F := fliplr N fmM
  let frfc ← fun2rfc fmM
  .ok (F, fliplr N frfc)

end Wafo.Mctp

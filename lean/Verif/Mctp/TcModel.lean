import Verif.Mctp.Model
import Mathlib.Analysis.SpecialFunctions.Exp
import Mathlib.Data.Int.Basic
import Mathlib.Data.Matrix.Mul

/-!
# Model of `mctp2tc`, `mc2rfc`, `iter_mc` and `mktestmat`

`markov.py`.  Of `mctp2tc` the control flow, the slices and the shapes of the matrix products are modelled; the vectors
`tempp` and `tempm`, which come from linear solvers, are parameters, and so is the counting distribution `cmat2nt(F)` with
which the loop starts.  The last step `nt2cmat(F)` is left out.
-/

noncomputable section

namespace Wafo.Mctp

open Wafo Matrix

/-- The indices of a Python slice `start:stop:step` of an axis with `len` entries. -/
def sliceIdx (len : ℤ) (start stop : Option ℤ) (step : ℤ) : List ℤ :=
  let lo : ℤ := if step < 0 then -1 else 0
  let hi : ℤ := if step < 0 then len - 1 else len
  let norm := fun x : ℤ => if x < 0 then max (x + len) lo else min x hi
  let a := (start.map norm).getD (if step < 0 then len - 1 else 0)
  let b := (stop.map norm).getD (if step < 0 then -1 else len)
  let count : ℤ := if step < 0 then (if b < a then (a - b - 1) / (-step) + 1 else 0)
    else if a < b then (b - a - 1) / step + 1 else 0
  (List.range count.toNat).map fun i : ℕ => a + step * (i : ℤ)

/-- `np.dot` of two vectors -/
def dotV (a b : List ℝ) : Except PyErr ℝ :=
  if a.length = b.length then .ok (List.zipWith (· * ·) a b).sum else .error .valueError

/-- `np.dot(v, f[rows][:, cols])` -/
def vecMat (f : Mat) (v : List ℝ) (rows cols : List ℤ) : Except PyErr (List ℝ) :=
  if v.length = rows.length then
    .ok (cols.map fun c => (List.zipWith (fun x r => x * f r.toNat c.toNat) v rows).sum)
  else .error .valueError

/-- `_normalize_rows`, markov.py:332-338: it writes into its argument. -/
def normalizeRows (n : ℕ) (f : Mat) : Mat := fun r c =>
  open Classical in
  if ∑ c' ∈ Finset.range n, f r c' ≠ 0 then f r c / ∑ c' ∈ Finset.range n, f r c' else f r c

/-- The arguments and the solver results of `mctp2tc`. -/
structure Tc where
  n : ℕ
  ntc : ℕ
  fmM : Mat
  /-- `_make_tempp(P, Ph, i, ntc)`, markov.py:340-360 -/
  tempp : ℕ → Except PyErr (List ℝ)
  /-- `_make_tempm(P, Ph, j, ntc, n)`, markov.py:362-381 -/
  tempm : ℕ → Except PyErr (List ℝ)

variable (s : Tc)

/-- The rows `i:ntc - 1` -/
def Tc.rows (i : ℕ) : List ℤ := sliceIdx s.n (some i) (some (s.ntc - 1)) 1

/-- `b`, markov.py:407-409 -/
def Tc.termB (i j : ℕ) : Except PyErr ℝ := do
  let p ← s.tempp i
  let v ← vecMat s.fmM p (s.rows i) (sliceIdx s.n (some (s.n - j - 2)) none (-1))
  dotV v (List.replicate (s.n - j - 1) 1)

/-- `c`, markov.py:412-415 -/
def Tc.termC (i j : ℕ) : Except PyErr ℝ := do
  let m ← s.tempm j
  let v ← vecMat s.fmM (List.replicate i 1) (sliceIdx s.n none (some i) 1)
    (sliceIdx s.n (some (s.n - s.ntc - 1)) (some (s.n - j - 2)) (-1))
  dotV v m

/-- `a`, markov.py:418-420 -/
def Tc.termA (i j : ℕ) : Except PyErr ℝ := do
  let p ← s.tempp i
  let m ← s.tempm j
  let v ← vecMat s.fmM p (s.rows i) (sliceIdx s.n (some (s.n - s.ntc - 1)) (some (-1)) (s.n - j + 1))
  dotV v m

/-- The body of the loops, markov.py:406-434. -/
def Tc.step (F : Mat) (ij : ℕ × ℕ) : Except PyErr Mat := do
  let i := ij.1
  let j := ij.2
  let b ← if i < s.ntc - 1 then s.termB i j else .ok 0
  let c ← if j > s.ntc - 1 then s.termC i j else .ok 0
  let a ← if j > s.ntc - 1 ∧ i < s.ntc - 1 then s.termA i j else .ok 0
  let F := if j > s.ntc - 1 ∧ i < s.ntc - 1 then put F i (s.n - j - 1) (F i (s.n - j - 1) + a + b + c) else F
  let F := if j = s.ntc - 1 ∧ i < s.ntc - 1 then
      (List.range s.ntc).foldl (fun F k => put F i (s.n - k - 1) (F i (s.n - s.ntc)))
        (put F i (s.n - s.ntc) (F i (s.n - s.ntc) + b))
    else F
  let F := if j > s.ntc - 1 ∧ i = s.ntc - 1 then
      (List.range' (s.ntc - 1) (s.n - (s.ntc - 1))).foldl
        (fun F k => put F k (s.n - j - 1) (F (s.ntc - 1) (s.n - j - 1)))
        (put F i (s.n - j - 1) (F i (s.n - j - 1) + c))
    else F
  .ok F

/-- The pairs `(i, j)` of the loops, markov.py:404-405. -/
def Tc.pairs : List (ℕ × ℕ) :=
  (List.range' 1 (s.ntc - 1)).flatMap fun i => (List.range' (s.ntc - 1) (s.n - s.ntc)).map fun j => (i, j)

/-- The loops, markov.py:404-436. -/
def Tc.loop (F : Mat) : Except PyErr Mat := s.pairs.foldlM s.step F

/-- `mctp2tc(f_Mm, utc, param, f_mM)`, markov.py:289-446, for a square matrix `f_Mm` with `n` rows: the counting
distribution, and the matrix the caller passed as `f_Mm` after the call.  `levels` is `np.linspace(*param)`. -/
def mctp2tc (n : ℕ) (fMm : Mat) (utc : ℝ) (levels : List ℝ) (fmM : Option Mat)
    (solver : ℕ → Mat → Mat → Tc) (F0 : Tc → Mat) : Mat × Except PyErr Mat :=
  open Classical in
  let f := fmM.getD fMm
  let ntc := (levels.filter fun u => utc ≤ u).length
  if ntc > n - 1 then (fMm, .error .indexError)
  else if ¬ (1 < ntc ∧ ntc < levels.length) then (fMm, .error .valueError)
  else
    let fMm := normalizeRows n fMm
    let s := { solver ntc fMm f with n := n, ntc := ntc, fmM := f }
    (fMm, s.loop (F0 s))

/-- A numpy array with at most two dimensions. -/
inductive Arr where
  | scalar (x : ℝ)
  | vec (x : List ℝ)
  | mat (x : List (List ℝ))

/-- `np.fliplr`: needs two dimensions. -/
def npFliplr : Arr → Except PyErr Arr
  | .mat x => .ok (.mat (x.map List.reverse))
  | _ => .error .valueError

/-- Python's `sum` of the rows of a matrix: `0 + row + row + …` -/
def pySum (x : List (List ℝ)) : Arr :=
  match x with
  | [] => .scalar 0
  | a :: l => .vec (l.foldl (fun s r => List.zipWith (· + ·) s r) a)

/-- `mc2rfc(f_xy)`, markov.py:582-725, up to line 611; what follows is the parameter `rest`. -/
def mc2rfc (rest : List (List ℝ) → Arr → Except PyErr (List (List ℝ))) (f : List (List ℝ)) :
    Except PyErr (List (List ℝ)) := do
  let Sminus ← npFliplr (pySum f)
  rest f Sminus

/-- `_raw_iter`, markov.py:102-122, on arrays: the loop is the parameter `loop`, which may or may not call `fun2rfc`. -/
def iterMc (rest : List (List ℝ) → Arr → Except PyErr (List (List ℝ)))
    (loop : List (List ℝ) → Except PyErr (List (List ℝ))) (frfc : List (List ℝ)) :
    Except PyErr (List (List ℝ) × List (List ℝ)) := do
  let fmM ← loop frfc
  let r ← mc2rfc rest fmM
  .ok (fmM.map List.reverse, r.map List.reverse)

/-- The matrix `S` of `mktestmat`, markov.py:801-802. -/
def testS (s lam : ℝ) : Matrix (Fin 2) (Fin 2) ℝ :=
  (1 / 2 * s ^ 2) • !![lam ^ 2 + 1, lam ^ 2 - 1; lam ^ 2 - 1, lam ^ 2 + 1]

/-- `mktestmat`, markov.py:728-810, for an integer `numsubzero`: the entries of `F` and `Fh`.  `pinv` is
`np.linalg.pinv`. -/
def mktestmat (n : ℕ) (u : ℕ → ℝ) (x0 : Fin 2 → ℝ) (s lam : ℝ) (numsubzero : ℤ)
    (pinv : Matrix (Fin 2) (Fin 2) ℝ → Matrix (Fin 2) (Fin 2) ℝ) : Mat × Mat :=
  let Sm1 := pinv (testS s lam)
  let F : Mat := fun i j =>
    if (i : ℤ) < min (n - 1 - numsubzero) n ∧ max (i + numsubzero) 0 ≤ (j : ℤ) ∧ j < n then
      let dx := ![u i, u j] - x0
      Real.exp (-1 / 2 * ((dx ᵥ* Sm1) ⬝ᵥ dx))
    else 0
  (F, fun i j => F j i)

end Wafo.Mctp

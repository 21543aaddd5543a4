import Verif.Cheb.Fit
import Mathlib.Data.Fintype.Basic
import Mathlib.Algebra.BigOperators.Fin

/-!
Model of `padefit` and `padefitlsq` of `/repo/src/wafo/polynomial.py` over the real numbers.

`scipy.interpolate.pade` and `numpy.linalg.svd` are parameters.  Not modelled: the plots for `trace=True`, and that
`poly1d` leaves out leading zeros of the coefficients returned.
-/

namespace Wafo.Pade

open Wafo.Poly Finset

/-- `LinAlgError` is raised by `svd` for a matrix that is not finite; `unbound` is `UnboundLocalError`. -/
inductive Err where
  | valueError
  | linAlgError
  | unbound
deriving DecidableEq

/-- The argument `c` of `padefit`: a sequence or a `poly1d` object, whose `len` is the order. -/
inductive Coefs where
  | seq (l : List ℝ)
  | poly (l : List ℝ)

/-- `np.asarray(c)` -/
def Coefs.array : Coefs → List ℝ
  | .seq l => l
  | .poly l => l

/-- `len(c)` -/
def Coefs.len : Coefs → ℕ
  | .seq l => l.length
  | .poly l => l.length - 1

/-- `padefit`, L1895-1898; `pade an m` is `scipy.interpolate.pade`.  `len(c) - 1` is -1 for an empty sequence. -/
def padefit {β : Type*} (pade : List ℝ → ℤ → β) (c : Coefs) (m : Option ℤ) : β :=
  match m with
  | none | some 0 => pade c.array.reverse (((c.len : ℤ) - 1) / 2)
  | some m => pade c.array.reverse m

/-- `_points` and `map_to_interval` in `_init`, L1973-1981 and L1990. -/
noncomputable def nodes (npt : ℕ) (endPoints : Bool) (a b : ℝ) : List ℝ :=
  (if endPoints then Cheb.chebextr (npt - 1)
   else match Cheb.chebroot npt 1 with
    | .ok r => r
    | .error _ => []).map fun t => mapToInterval t a b

/-- A value of `np.abs(ee)`: division by zero gives `inf`, or `nan` when the numerator is zero too. -/
inductive Dev where
  | fin (r : ℝ)
  | inf
  | nan

/-- `d > e` for floats -/
def Dev.gt : Dev → Dev → Prop
  | .fin r, .fin s => s < r
  | .inf, .fin _ => True
  | _, _ => False

open Classical in
/-- Python's `max` of a sequence, which replaces the maximum so far by elements that exceed it. -/
noncomputable def pymax : Dev → List Dev → Dev
  | d, [] => d
  | d, e :: l => pymax (if e.gt d then e else d) l

variable {n : ℕ} (m k : ℕ)

/-- The matrix `u`, L2027-2037. -/
def design (x wt bb : Fin n → ℝ) (i : Fin n) (j : Fin (m + k + 1)) : ℝ :=
  if (j : ℕ) ≤ m then wt i * x i ^ (j : ℕ) else -bb i * x i ^ (j - m : ℕ)

/-- What `np.linalg.svd(u, full_matrices=False)` returns. -/
structure Svd (n c : ℕ) where
  u1 : Fin n → Fin c → ℝ
  w : Fin c → ℝ
  v : Fin c → Fin c → ℝ

open Classical in
/-- `cof`, L2040. -/
noncomputable def solve {c : ℕ} (s : Svd n c) (bb : Fin n → ℝ) (j : Fin c) : ℝ :=
  ∑ l, (if s.w l = 0 then 0 else (∑ i, bb i * s.u1 i l) / s.w l) * s.v l j

/-- `cof[m::-1]` -/
def numer (cof : Fin (m + k + 1) → ℝ) : List ℝ := (List.ofFn fun j : Fin (m + 1) => cof ⟨j, by omega⟩).reverse

/-- `cof[ncof:m:-1].tolist() + [1, ]` -/
def denom (cof : Fin (m + k + 1) → ℝ) : List ℝ :=
  (List.ofFn fun j : Fin k => cof ⟨m + 1 + j, by omega⟩).reverse ++ [1]

/-- The weights, deviations and their mean (`none` when one is not finite), the smallest maximal deviation and the
coefficients saved with it. -/
structure State (n : ℕ) where
  cur : Option ((Fin n → ℝ) × (Fin n → ℝ) × ℝ)
  small : ℝ
  best : Option (List ℝ × List ℝ)

open Classical in
/-- `np.abs(ee)` at one point, L2043-2046. -/
noncomputable def deviation (num den f : ℝ) : Dev :=
  if den = 0 then if num = 0 then .nan else .inf else .fin |num / den - f|

/-- `bb`, L2028, for the weights, deviations and mean deviation `cur`. -/
noncomputable def rhs (fs : Fin n → ℝ) (cur : (Fin n → ℝ) × (Fin n → ℝ) × ℝ) (i : Fin n) : ℝ :=
  cur.1 i * (fs i + |cur.2.2| * SignType.sign (cur.2.1 i))

/-- The coefficients found in one pass, L2027-2040 and L2053-2054. -/
noncomputable def coefs (svd : (Fin n → Fin (m + k + 1) → ℝ) → Svd n (m + k + 1)) (x fs : Fin n → ℝ)
    (cur : (Fin n → ℝ) × (Fin n → ℝ) × ℝ) : List ℝ × List ℝ :=
  let bb := rhs fs cur
  let cof := solve (svd (design m k x cur.1 bb)) bb
  (numer m k cof, denom m k cof)

/-- `devmax`, L2047; `max` of an empty array raises ValueError. -/
noncomputable def devmax (x fs : Fin n → ℝ) (c : List ℝ × List ℝ) : Except Err Dev :=
  match List.ofFn fun i => deviation (peval c.1 (x i)) (peval c.2 (x i)) (fs i) with
  | [] => .error .valueError
  | d :: l => .ok (pymax d l)

open Classical in
/-- Weights, deviations and mean deviation for the next pass, L2043-2048. -/
noncomputable def next (x fs : Fin n → ℝ) (c : List ℝ × List ℝ) : Option ((Fin n → ℝ) × (Fin n → ℝ) × ℝ) :=
  let ee := fun i => peval c.1 (x i) / peval c.2 (x i) - fs i
  if ∃ i, peval c.2 (x i) = 0 then none else some (fun i => |ee i|, ee, (∑ i, |ee i|) / n)

open Classical in
/-- One pass of the loop, L2025-2055. -/
noncomputable def step (svd : (Fin n → Fin (m + k + 1) → ℝ) → Svd n (m + k + 1)) (x fs : Fin n → ℝ) (s : State n) :
    Except Err (State n) :=
  match s.cur with
  | none => .error .linAlgError
  | some cur =>
    let c := coefs m k svd x fs cur
    match devmax x fs c with
    | .error e => .error e
    | .ok (.fin r) => if r ≤ s.small then .ok ⟨next x fs c, r, some c⟩ else .ok ⟨next x fs c, s.small, s.best⟩
    | .ok _ => .ok ⟨next x fs c, s.small, s.best⟩

/-- `n` passes of the loop. -/
noncomputable def loop (svd : (Fin n → Fin (m + k + 1) → ℝ) → Svd n (m + k + 1)) (x fs : Fin n → ℝ) :
    ℕ → State n → Except Err (State n)
  | 0, s => .ok s
  | t + 1, s => match step m k svd x fs s with
    | .error e => .error e
    | .ok s => loop svd x fs t s

/-- `padefitlsq` from L2011, for `x` and `fs` of the right length; the coefficients are from the highest degree down. -/
noncomputable def fitPoints (svd : (Fin n → Fin (m + k + 1) → ℝ) → Svd n (m + k + 1)) (x fs : Fin n → ℝ) :
    Except Err (List ℝ × List ℝ) :=
  match loop m k svd x fs 5 ⟨some (fun _ => 1, fun _ => 1, 0), 10 ^ 30, none⟩ with
  | .error e => .error e
  | .ok s => match s.best with
    | none => .error .unbound
    | some b => .ok b

/-- An array of length `n` or 1 broadcast against one of length `n`. -/
def spread (l : List ℝ) (i : Fin n) : ℝ := if l.length = 1 then l.getD 0 0 else l.getD i 0

/-- `padefitlsq(fs, m, k, x=x)` for arrays, L1988-2056: they are combined with arrays of length `npt`, L2028 and L2032. -/
noncomputable def fitArrays
    (svd : (Fin (8 * (m + k + 1)) → Fin (m + k + 1) → ℝ) → Svd (8 * (m + k + 1)) (m + k + 1)) (xs fs : List ℝ) :
    Except Err (List ℝ × List ℝ) :=
  let npt := 8 * (m + k + 1)
  if (fs.length ≠ npt ∧ fs.length ≠ 1) ∨ (xs.length ≠ npt ∧ xs.length ≠ 1) then .error .valueError
  else fitPoints m k svd (spread xs) (spread fs)

/-- `padefitlsq(fun, m, k, a, b, end_points=..)` for a callable. -/
noncomputable def fitFun
    (svd : (Fin (8 * (m + k + 1)) → Fin (m + k + 1) → ℝ) → Svd (8 * (m + k + 1)) (m + k + 1)) (f : ℝ → ℝ) (a b : ℝ)
    (endPoints : Bool) : Except Err (List ℝ × List ℝ) :=
  let xs := nodes (8 * (m + k + 1)) endPoints a b
  fitArrays m k svd xs (xs.map f)

end Wafo.Pade

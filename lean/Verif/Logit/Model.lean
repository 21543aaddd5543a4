import Verif.Basic
import Mathlib.Analysis.SpecialFunctions.Log.Basic
import Mathlib.Data.Fintype.Sum
import Mathlib.Data.Finset.Max
import Mathlib.Algebra.BigOperators.Fin

/-!
Model of the class `RegLogit`, ordinal logistic regression, of `/repo/src/wafo/stats/core.py` L756-1347.

Observations are indexed by `Fin n`, covariates by `Fin q`.  `y` is the column of categories after `np.round`, given as
integers (for an array of floats `ones((1, yrange))`, L946, raises TypeError in numpy 1.12 and later).  Not modelled:
the printing in `summary`, `compare` and `anode`.
-/

namespace Wafo.Logit

open Finset

variable {n q : ℕ}

/-- `_logit`, L756-757. -/
noncomputable def logit (p : ℝ) : ℝ := Real.log p - Real.log (1 + -p)

/-- `_logitinv`, L760-761. -/
noncomputable def logitinv (x : ℝ) : ℝ := 1 / (Real.exp (-x) + 1)

/-- `y.min()`, L943. -/
def ymin [NeZero n] (y : Fin n → ℤ) : ℤ := univ.inf' ⟨0, mem_univ _⟩ y

/-- `y.max()`, L944. -/
def ymax [NeZero n] (y : Fin n → ℤ) : ℤ := univ.sup' ⟨0, mem_univ _⟩ y

/-- `np.arange(a, b)` -/
def arange (a b : ℤ) : List ℤ := (List.range (b - a).toNat).map fun i : ℕ => a + i

/-- The categories of the columns of `z`, L946 and L949: of `np.arange(ymin, ymax)` those with an observation. -/
def cols [NeZero n] (y : Fin n → ℤ) : List ℤ :=
  (arange (ymin y) (ymax y)).filter fun v => decide (∃ i, y i = v)

/-- The categories of the columns of `z1`, L947-948 and L950: of `np.arange(ymin + 1, ymax + 1)` those with an
observation. -/
def cols1 [NeZero n] (y : Fin n → ℤ) : List ℤ :=
  (arange (ymin y + 1) (ymax y + 1)).filter fun v => decide (∃ i, y i = v)

/-- `nz`, the number of columns of `z`, L951. -/
def nz [NeZero n] (y : Fin n → ℤ) : ℕ := (cols y).length

variable [NeZero n] (y : Fin n → ℤ) (x : Fin n → Fin q → ℝ)

/-- The parameter vector `hstack((theta, beta))`, L965. -/
abbrev Par (y : Fin n → ℤ) (q : ℕ) := Fin (nz y) ⊕ Fin q → ℝ

/-- One row of `z`, L946. -/
def z (i : Fin n) (j : Fin (nz y)) : ℝ := if (cols y)[j]? = some (y i) then 1 else 0

/-- One row of `z1`, L947-948. -/
def z1 (i : Fin n) (j : Fin (nz y)) : ℝ := if (cols1 y)[j]? = some (y i) then 1 else 0

/-- `zx = np.hstack((z, x))`, L1314 -/
def zx (i : Fin n) : Fin (nz y) ⊕ Fin q → ℝ := Sum.elim (z y i) (x i)

/-- `z1x = np.hstack((z1, x))`, L1315 -/
def z1x (i : Fin n) : Fin (nz y) ⊕ Fin q → ℝ := Sum.elim (z1 y i) (x i)

/-- `g`, L1316 and L1318 -/
noncomputable def g (b : Par y q) (i : Fin n) : ℝ :=
  max (if y i = ymax y then 1 else 0) (logitinv (∑ j, zx y x i j * b j))

/-- `g1`, L1317 and L1319 -/
noncomputable def g1 (b : Par y q) (i : Fin n) : ℝ :=
  min (if ymin y < y i then 1 else 0) (logitinv (∑ j, z1x y x i j * b j))

/-- `p = g - g1`, L1321 -/
noncomputable def p (b : Par y q) (i : Fin n) : ℝ := g y x b i - g1 y x b i

/-- `dev`, L1322, for positive `p`. -/
noncomputable def dev (b : Par y q) : ℝ := -2 * ∑ i, Real.log (p y x b i)

open Classical in
/-- `dev` with the case that the logarithm is a NaN. -/
noncomputable def devOpt (b : Par y q) : Option ℝ := if ∀ i, 0 < p y x b i then some (dev y x b) else none

/-- `v`, L1332 -/
noncomputable def v (b : Par y q) (i : Fin n) : ℝ := g y x b i * (1 - g y x b i) / p y x b i

/-- `v1`, L1333 -/
noncomputable def v1 (b : Par y q) (i : Fin n) : ℝ := g1 y x b i * (1 - g1 y x b i) / p y x b i

/-- `dlogp`, L1334: `hstack((v * z - v1 * z1, (v - v1) * x))` -/
noncomputable def dlogp (b : Par y q) (i : Fin n) : Fin (nz y) ⊕ Fin q → ℝ :=
  Sum.elim (fun j => v y x b i * z y i j - v1 y x b i * z1 y i j) (fun k => (v y x b i - v1 y x b i) * x i k)

/-- `dl`, L1335 -/
noncomputable def dl (b : Par y q) (j : Fin (nz y) ⊕ Fin q) : ℝ := ∑ i, dlogp y x b i j

/-- `w`, L1338 -/
noncomputable def w (b : Par y q) (i : Fin n) : ℝ := v y x b i * (1 - 2 * g y x b i)

/-- `w1`, L1339 -/
noncomputable def w1 (b : Par y q) (i : Fin n) : ℝ := v1 y x b i * (1 - 2 * g1 y x b i)

/-- `d2l`, L1340-1341 -/
noncomputable def d2l (b : Par y q) (j k : Fin (nz y) ⊕ Fin q) : ℝ :=
  (∑ i, zx y x i j * (w y x b i * zx y x i k)) - (∑ i, z1x y x i j * (w1 y x b i * z1x y x i k))
    - ∑ i, dlogp y x b i j * dlogp y x b i k

/-- `theta00`, L955-956: logits of the cumulative relative frequencies. -/
noncomputable def theta00 (j : Fin (nz y)) : ℝ :=
  let gam := (∑ k ∈ univ.filter (fun k : Fin (nz y) => k ≤ j), ∑ i, z y i k) / n
  Real.log (gam / (1 - gam))

/-- The start values when none are given, L957-965. -/
noncomputable def start : Par y q := Sum.elim (theta00 y) (fun _ => 0)

/-- `(c - c') / d < 0` in numpy: False for a NaN, as `0 / 0` or when `c` or `c'` is one; `c / 0` is infinite (the sign of a
floating point zero is ignored). -/
def quotNeg (c c' : Option ℝ) (d : ℝ) : Prop :=
  match c, c' with
  | some c, some c' => if d = 0 then c - c' < 0 else (c - c') / d < 0
  | _, _ => False

/-- `(c - c') / d > 0` likewise. -/
def quotPos (c c' : Option ℝ) (d : ℝ) : Prop :=
  match c, c' with
  | some c, some c' => if d = 0 then 0 < c - c' else 0 < (c - c') / d
  | _, _ => False

/-- The parameter vector, `epsilon` and whether the loop has ended. -/
structure State (y : Fin n → ℤ) (q : ℕ) where
  tb : Par y q
  eps : ℝ
  stop : Bool

open Classical in
/-- One pass of the loop L978-1009; `lstsq A b` is `np.linalg.lstsq(A, b)[0]`.  In the inner loop `np.eye(d2l.shape)` is
called with a tuple, which raises TypeError, unless `epsilon` is too large already. -/
noncomputable def step (lstsq : ((Fin (nz y) ⊕ Fin q) → (Fin (nz y) ⊕ Fin q) → ℝ) → Par y q → Par y q) (tol : ℝ)
    (s : State y q) : Except PyErr (State y q) :=
  let tb := fun j => s.tb j - lstsq (d2l y x s.tb) (dl y x s.tb) j
  let den := ∑ j, dl y x tb j * (tb j - s.tb j)
  let stop : Bool := decide (|(∑ j, dl y x tb j * lstsq (d2l y x tb) (dl y x tb) j) / (nz y + q : ℕ)| ≤ tol)
  if quotNeg (devOpt y x tb) (devOpt y x s.tb) den then .ok ⟨tb, s.eps / 2, stop⟩
  else if quotPos (devOpt y x tb) (devOpt y x s.tb) den then
    if 1e15 < s.eps * 10 then .error .valueError else .error .typeError
  else .ok ⟨tb, s.eps, stop⟩

/-- The loop L978-1011 with `fuel = maxiter + 1` passes; the result is the parameter vector and the number of the pass
in which the loop was left (`none` when it ran out). -/
noncomputable def loop (lstsq : ((Fin (nz y) ⊕ Fin q) → (Fin (nz y) ⊕ Fin q) → ℝ) → Par y q → Par y q) (tol : ℝ) :
    ℕ → ℕ → State y q → Except PyErr (Par y q × Option ℕ)
  | 0, _, s => .ok (s.tb, none)
  | fuel + 1, i, s =>
    match step y x lstsq tol s with
    | .error e => .error e
    | .ok s' => if s'.stop then .ok (s'.tb, some i) else loop lstsq tol fuel (i + 1) s'

/-- `fit` without start values, L937-1011; `eps0` stands for `np.std(d2l) / 1000`, L970. -/
noncomputable def fit (lstsq : ((Fin (nz y) ⊕ Fin q) → (Fin (nz y) ⊕ Fin q) → ℝ) → Par y q → Par y q) (tol eps0 : ℝ)
    (maxiter : ℕ) : Except PyErr (Par y q × Option ℕ) :=
  loop y x lstsq tol (maxiter + 1) 0 ⟨start y, eps0, false⟩

/-- `fit` with start values, L957-1011.  When they differ from the default ones, `tb0 = np.vstack((theta00, beta00))`, L972,
raises ValueError unless `nz = q`, and `np.dot(zx, tb0)` in `loglike`, L1316, unless moreover `nz + q = 2`. -/
noncomputable def fitFrom (lstsq : ((Fin (nz y) ⊕ Fin q) → (Fin (nz y) ⊕ Fin q) → ℝ) → Par y q → Par y q) (tol eps0 : ℝ)
    (maxiter : ℕ) (theta0 : Option (Fin (nz y) → ℝ)) (beta0 : Option (Fin q → ℝ)) : Except PyErr (Par y q × Option ℕ) :=
  open Classical in
  let t := theta0.getD (theta00 y)
  let b := beta0.getD fun _ => 0
  if ((∃ k, b k ≠ 0) ∨ ∃ j, theta00 y j ≠ t j) ∧ (nz y ≠ q ∨ nz y + q ≠ 2) then .error .valueError
  else loop y x lstsq tol (maxiter + 1) 0 ⟨Sum.elim t b, eps0, false⟩

/-- `eta` of `fit`, L1021-1024: `((X * beta) * ones((1, nz))) + (y * 0 + 1) * theta`, all products elementwise with
broadcasting of the shapes `(n, q)`, `(q,)`, `(1, nz)`.  Other shapes raise ValueError, either here or, for `nz = 1`, in
`np.dot(gammai, np.arange(1, nz + 2))`, L1029. -/
def etaFit {m : ℕ} (x : Fin n → Fin q → ℝ) (beta : Fin q → ℝ) (theta : Fin m → ℝ) : Except PyErr (Fin n → Fin m → ℝ) :=
  if q = 0 then .ok fun _ j => theta j
  else if h1 : q = 1 then .ok fun i j => x i ⟨0, by omega⟩ * beta ⟨0, by omega⟩ + theta j
  else if h2 : q = m then .ok fun i j => x i ⟨j, by omega⟩ * beta ⟨j, by omega⟩ + theta j
  else .error .valueError

/-- `eta` of `predict`, L1261-1264. -/
def etaPredict {m k : ℕ} (x : Fin k → Fin q → ℝ) (beta : Fin q → ℝ) (theta : Fin m → ℝ) (i : Fin k) (j : Fin m) : ℝ :=
  (∑ l, x i l * beta l) + theta j

/-- `np.hstack((zeros, _logitinv(eta), one))`, entry `j`, L1026-1027, L1266-1267. -/
noncomputable def stack {m : ℕ} (eta : Fin m → ℝ) (j : ℕ) : ℝ :=
  if j = 0 then 0 else if h : j - 1 < m then logitinv (eta ⟨j - 1, h⟩) else 1

/-- `np.diff(.., n=1, axis=1)` of it: the probabilities of the `m + 1` categories. -/
noncomputable def probs {m : ℕ} (eta : Fin m → ℝ) (j : Fin (m + 1)) : ℝ := stack eta (j + 1) - stack eta j

/-- `mulo` and `muup` with the half widths `ecrit`, and the interval limits of L1293-1299. -/
noncomputable def predictLo {m : ℕ} (eta ecrit : Fin m → ℝ) (j : Fin (m + 1)) : ℝ :=
  min (probs (fun k => eta k - ecrit k) j) (probs (fun k => eta k + ecrit k) j)

/-- The upper limit: for the inner categories also `muup[:, i] - mulo[:, i - 1]`, L1301-1303. -/
noncomputable def predictUp {m : ℕ} (eta ecrit : Fin m → ℝ) (j : Fin (m + 1)) : ℝ :=
  let u := max (probs (fun k => eta k - ecrit k) j) (probs (fun k => eta k + ecrit k) j)
  if h : 1 ≤ (j : ℕ) ∧ (j : ℕ) < m then
    max u (logitinv (eta ⟨j, h.2⟩ + ecrit ⟨j, h.2⟩) - logitinv (eta ⟨j - 1, by omega⟩ - ecrit ⟨j - 1, by omega⟩))
  else u

/-- `vareta[:, i]` without the lower bound `eps`, L1271-1286: `u = hstack((one, Xnew))`, `ib` the indices of `theta_i` and
of all `beta`, `R` a square root of the covariance matrix; `((u @ R[ib][:, ib]) ** 2).sum()`. -/
def vareta {m : ℕ} (R : Fin m ⊕ Fin q → Fin m ⊕ Fin q → ℝ) (xn : Fin q → ℝ) (i : Fin m) : ℝ :=
  let ib : Unit ⊕ Fin q → Fin m ⊕ Fin q := Sum.elim (fun _ => Sum.inl i) Sum.inr
  let u : Unit ⊕ Fin q → ℝ := Sum.elim (fun _ => 1) xn
  ∑ c, (∑ r, u r * R (ib r) (ib c)) ^ 2

/-- `check_xy`, L896-904, the covariates kept: `ix = np.flatnonzero(s > tol)` are positions in the list of singular
values and are used as column numbers. -/
noncomputable def keptColumns (s : List ℝ) (tol : ℝ) (ncol : ℕ) : List ℕ :=
  let ix := (List.range s.length).filter fun i => decide (tol < s.getD i 0)
  if ix = [] then List.range ncol else ix

end Wafo.Logit

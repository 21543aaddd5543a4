import Mathlib.Analysis.SpecialFunctions.Trigonometric.Inverse
import Mathlib.Analysis.SpecialFunctions.Pow.Real
import Verif.Basic
import Verif.Poly.Model
import Verif.Quad.Model

/-!
Model of padua.py: Padua points, the interpolation at these points, its evaluation, cubature and error estimate.  Arrays are lists, and
matrices are lists of rows.
-/

namespace Wafo.Padua
open Poly

noncomputable section

/-- The rectangle `[a, b] x [c, d]`. -/
structure Domain where
  a : ℝ
  b : ℝ
  c : ℝ
  d : ℝ

/-- `_find_m(n)`, padua.py L291-297: `r_[1:(n+1)*(n+2):2]` has `(n+1)*(n+2)/2` elements; for even `n` the offset is the matrix with
`n/2 + 1` equal rows `[0, 1] * (n/2) + [0]`, read columnwise. -/
def findM (n : ℕ) : List ℕ :=
  (List.range ((n + 1) * (n + 2) / 2)).map fun p =>
    if n % 2 = 0 then 1 + 2 * p - p / (n / 2 + 1) % 2 else 1 + 2 * p

/-- `np.linspace(0, np.pi, m)[i]` for `m >= 2`. -/
def angle (m i : ℕ) : ℝ := i * Real.pi / (m - 1 : ℕ)

/-- `zn`, padua.py L321, 323. -/
def zn (n : ℕ) (dom : Domain) (j : ℕ) : ℝ :=
  mapToInterval (Real.cos (if n = 0 then Real.pi else angle (n + 1) j)) dom.a dom.b

/-- `zn1`, padua.py L322, 324. -/
def zn1 (n : ℕ) (dom : Domain) (k : ℕ) : ℝ := mapToInterval (Real.cos (angle (n + 2) k)) dom.c dom.d

/-- `padua_points(n, domain)`, padua.py L300-329: the grid has `n + 2` rows and `n + 1` columns and is read columnwise. -/
def points (n : ℕ) (dom : Domain) : List (ℝ × ℝ) :=
  (findM n).map fun i => (zn n dom (i / (n + 2)), zn1 n dom (i % (n + 2)))

/-- `A[ix] = v` for an array of zeros. -/
def scatter (ix : List ℕ) (v : List ℝ) : ℕ → ℝ :=
  (List.zip ix v).foldl (fun g p => fun i => if i = p.1 then p.2 else g i) fun _ => 0

/-- The real part of the discrete Fourier transform of length `m` of the real array `x` with `l` elements, padded with zeros. -/
def realFft (m l : ℕ) (x : ℕ → ℝ) (p : ℕ) : ℝ :=
  (∑ j ∈ Finset.range l, (x j : ℂ) * Complex.exp (-2 * Real.pi * Complex.I * (j * p) / m)).re

/-- `Gf`, padua.py L397-405: row `j` and column `k`. -/
def weighted (n : ℕ) (v : List ℝ) (j k : ℕ) : ℝ :=
  let g := scatter (findM n) (v.map fun y => y * 2 / (n * (n + 1))) (j * (n + 2) + k)
  let g := if k = 0 then g / 2 else g
  let g := if k = n + 1 then g / 2 else g
  let g := if j = 0 then g / 2 else g
  if j = n then g / 2 else g

/-- The coefficient in row `p` and column `q`, padua.py L406-413. -/
def coef (n : ℕ) (v : List ℝ) (p q : ℕ) : ℝ :=
  let c := 2 * realFft (2 * (n + 1)) (n + 2) (fun k => realFft (2 * n) (n + 1) (fun j => weighted n v j k) p) q
  let c := if p = 0 then c / Real.sqrt 2 else c
  let c := if q = 0 then c / Real.sqrt 2 else c
  let c := if p ≤ n - q then c else 0
  if p = n then c / 2 else c

/-- `error_estimate(C0f)`, padua.py L332-342: for a matrix with `n` columns, `np.diag` of the reversed rows. -/
def errorEstimate (C : List (List ℝ)) (n : ℕ) : ℝ :=
  let rev : ℕ → ℕ → ℝ := fun p q => (C.getD p []).reverse.getD q 0
  let diag : ℕ → ℝ := fun s => ∑ i ∈ Finset.range (min (C.length - s) n), |rev (i + s) i|
  let e := diag 0
  let e := if 1 ≤ n then e + diag 1 else e
  let e := if 1 ≤ n ∧ 2 ≤ n then e + diag 2 else e
  2 * e

/-- The degree from the number of points, padua.py L393: `int(round(x) / 2)`. -/
def degree (N : ℕ) : ℕ := ((Quad.npRound (-3 + Real.sqrt (1 + 8 * N))).toNat) / 2

/-- `padua_fit(Pad, fun)`, padua.py L345-415: for one point the values are a vector, and `C0f.shape[1]` in `error_estimate` raises an
IndexError. -/
def fit (pad : List (ℝ × ℝ)) (f : ℝ → ℝ → ℝ) : Except PyErr (List (List ℝ) × ℝ) :=
  let n := degree pad.length
  let v := pad.map fun P => f P.1 P.2
  if 0 < n then
    let C := (List.range (n + 1)).map fun p => (List.range (n + 1)).map fun q => coef n v p q
    .ok (C, errorEstimate C (n + 1))
  else .error .indexError

/-- `transform`, padua.py L507-511. -/
def trans (p : ℕ) (x a b : ℝ) : ℝ :=
  if p = 0 then 1 else Real.cos (p * Real.arccos (min (max (mapFromInterval x a b) (-1)) 1)) * Real.sqrt 2

/-- `padua_val(X, Y, coefficients, domain)` at one point, padua.py L513-526; `n` is the number of columns. -/
def val (C : List (List ℝ)) (dom : Domain) (x y : ℝ) : ℝ :=
  let n := (C.headD []).length
  ∑ q ∈ Finset.range n, (∑ p ∈ Finset.range n, trans p x dom.a dom.b * (C.getD p []).getD q 0) * trans q y dom.c dom.d

/-- `padua_val(X, Y, coefficients, domain, use_meshgrid=True)`, padua.py L522-523: a row for each element of `Y`. -/
def valMesh (C : List (List ℝ)) (dom : Domain) (X Y : List ℝ) : List (List ℝ) :=
  let n := (C.headD []).length
  Y.map fun y => X.map fun x =>
    ∑ p ∈ Finset.range n, trans p x dom.a dom.b * ∑ q ∈ Finset.range n, (C.getD p []).getD q 0 * trans q y dom.c dom.d

/-- `_compute_moments(n)`, padua.py L462-466. -/
def moment (i : ℕ) : ℝ := if i = 0 then 2 else 2 * Real.sqrt 2 / (1 - (2 * i : ℝ) ^ 2)

/-- `padua_cubature(coefficients, domain)`, padua.py L469-480. -/
def cubature (C : List (List ℝ)) (dom : Domain) : ℝ :=
  let n := (C.headD []).length
  let m := (n + 1) / 2
  (dom.b - dom.a) * (dom.d - dom.c) *
    (∑ p ∈ Finset.range m, ∑ q ∈ Finset.range m, (C.getD (2 * p) []).getD (2 * q) 0 * (moment q * moment p)) / 4

end

end Wafo.Padua

import Verif.Cov.Sim

/-!
Model of `CovData1D.simcond` in covariance/core.py, without the random sample that it draws from the conditional distribution: the
conditional mean, standard deviation and covariance, and what the call leaves behind in the caller's array and in the object.

Rows and columns of the matrices are labelled with the sample numbers that they belong to.  `solve` stands for `lstsq` and `spsolve`.
-/

namespace Wafo.Cov
open Finset

noncomputable section

/-- `sigma` in `_get_lag_where_acf_is_almost_zero`, covariance/core.py L472-473. -/
def condSigma (acf : List ℝ) : ℕ → ℝ
  | 0 => 0
  | k + 1 => Real.sqrt ((acf.getD 0 0 ^ 2 + 2 * ∑ i ∈ range k, acf.getD (i + 1) 0 ^ 2) / acf.length)

/-- `_get_lag_where_acf_is_almost_zero`, covariance/core.py L468-478. -/
def lagZero (acf : List ℝ) : ℕ :=
  match (List.range acf.length).reverse.find? (fun k => decide (1 / 10 * condSigma acf k < |acf.getD k 0|)) with
  | none => acf.length
  | some k => min (k + 3) acf.length

/-- `toeplitz(hstack((acf, zeros)))`, covariance/core.py L594. -/
def toep (acf : List ℝ) (i j : ℕ) : ℝ := acf.getD (max i j - min i j) 0

/-- The value of an observed sample. -/
def valueAt (x : List (Option ℝ)) (i : ℕ) : ℝ := (x.getD i none).getD 0

/-- A matrix solver: rows, matrix, columns, right hand side. -/
abbrev Solver := Finset ℕ → (ℕ → ℕ → ℝ) → List ℕ → (ℕ → ℕ → ℝ) → ℕ → ℕ → ℝ

/-- Conditional mean, standard deviation and covariance, for the unknown samples in order. -/
structure CondOut where
  mu : List ℝ
  std : List ℝ
  cov : List (List ℝ)

/-- The conditional distribution, covariance/core.py L599-613 and L636-653. -/
def condCore (solve : Solver) (acf : List ℝ) (x : List (Option ℝ)) (known : Finset ℕ) (unknown : List ℕ) : Except PyErr CondOut :=
  let z := solve known (fun i j => toep acf i j + toep acf j i) unknown (fun i u => 2 * toep acf i u)
  let sigma := fun u v => toep acf u v - ∑ i ∈ known, z i u * toep acf i v
  if unknown.any (fun u => decide (sigma u u < 0)) then .error .valueError
  else .ok { mu := unknown.map fun u => ∑ i ∈ known, z i u * valueAt x i
             std := unknown.map fun u => Real.sqrt (sigma u u)
             cov := unknown.map fun u => unknown.map fun v => sigma u v }

/-- `x[i_unknown] = nan`, covariance/core.py L578-579: `x` is the array of the caller. -/
def markNan (x : List (Option ℝ)) : Option (List ℕ) → Except PyErr (List (Option ℝ))
  | none => .ok x
  | some l => if l.any (fun i => decide (x.length ≤ i)) then .error .indexError
    else .ok ((List.range x.length).map fun i => if i ∈ l then none else x.getD i none)

/-- `acf[0] = acf[0] * 1.00001`, covariance/core.py L596: `acf` is a part of the array of the object. -/
def inflate : List ℝ → List ℝ
  | [] => []
  | a :: l => a * (1 + 1 / 10 ^ 5) :: l

/-- The start of the method. -/
inductive CondMethod
  | exact
  | approx
  | other
  deriving DecidableEq

/-- The result, the caller's array and the data of the object after the call. -/
structure CondCall where
  out : CondOut
  x : List (Option ℝ)
  data : List ℝ

/-- `CovData1D.simcond(x, method, i_unknown)`, covariance/core.py L518-681.  The approximate method fails with a TypeError at L674 after
the first window, unless this window contains the last sample. -/
def simcond (solve : Solver) (data : List ℝ) (x0 : List (Option ℝ)) (method : CondMethod) (iUnknown : Option (List ℕ)) :
    Except PyErr CondCall :=
  open Classical in
  if ¬ validAcf data then .error .valueError
  else
    let acf := data.take (lagZero data)
    match markNan x0 iUnknown with
    | .error e => .error e
    | .ok x =>
      let missing := fun i => (x.getD i none).isNone
      let unknown := (List.range x.length).filter fun i => missing i
      let numX := x.length
      let numAcf := acf.length
      if unknown.length = 0 then .ok ⟨⟨[], [], []⟩, x, data⟩
      else if unknown.length = numX then
        .ok ⟨⟨unknown.map fun _ => 0, unknown.map fun _ => Real.sqrt (acf.getD 0 0), []⟩, x, data⟩
      else
        match method with
        | .exact =>
          if numX < numAcf then .error .valueError
          else
            let dense := decide ((3 / 10 : ℝ) * numX < numAcf)
            let r := if dense then acf else inflate acf
            match condCore solve r x ((range numX).filter fun i => missing i = false) unknown with
            | .error e => .error e
            | .ok o => .ok ⟨o, x, if dense then data else inflate data⟩
        | .approx =>
          let numSig := min (2 * numAcf) numX
          if numSig < numAcf then .error .valueError
          else
            let start := min (unknown.headD 0 - numSig / 4) (numX - numSig)
            let inside := fun i => decide (start ≤ i ∧ i < start + numSig)
            match condCore solve acf x ((range numX).filter fun i => missing i = false ∧ inside i = true)
                (unknown.filter fun i => inside i) with
            | .error e => .error e
            | .ok o => if start + numSig = numX then .ok ⟨o, x, data⟩ else .error .typeError
        | .other => .ok ⟨⟨unknown.map fun _ => 0, unknown.map fun _ => 0, []⟩, x, data⟩

end

end Wafo.Cov

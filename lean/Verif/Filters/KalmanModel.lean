import Verif.Basic
import Mathlib.LinearAlgebra.Matrix.NonsingularInverse
import Mathlib.Data.Real.Basic

/-!
# `Kalman`: model of the discrete Kalman filter

Source: `/repo/src/wafo/sg_filter/_core.py:781-1052`.

Floats are real numbers.  Arrays with known sizes are Mathlib matrices: `n` states, `m` observed
quantities, `p` controls.  `np.linalg.inv` of a singular matrix raises `LinAlgError`; it is
recorded as `PyErr.valueError`, from which `LinAlgError` derives.

The observation error `R` is stored as given (line 917) and is not passed through `atleast_2d`, so a
number stays a number and is added to *every* entry of a matrix by numpy's broadcasting.  Both forms
are kept (`RArg`).

Not modelled: rounding; the mixing of one and two dimensional state vectors; observation
matrices that are not square when the state is to be found from the first observation (the docstring
asks for "the same number of observable variables as state variables").
-/

namespace Wafo.Kalman

open Matrix

/-- The argument `R` of `Kalman.__init__` (`_core.py:916-917`): a number or a matrix. -/
inductive RArg (m : ℕ) where
  | scalar (r : ℝ)
  | mat (R : Matrix (Fin m) (Fin m) ℝ)

/-- `S + self.R` (`_core.py:1024`): numpy broadcasts a number over all the entries. -/
def RArg.addTo {m : ℕ} (S : Matrix (Fin m) (Fin m) ℝ) : RArg m → Matrix (Fin m) (Fin m) ℝ
  | .scalar r => fun i j => S i j + r
  | .mat R => S + R

/-- `np.dot(np.dot(HI, self.R), HI.T)` (`_core.py:981`): `np.dot` with a number multiplies. -/
def RArg.between {n : ℕ} (HI : Matrix (Fin n) (Fin n) ℝ) : RArg n → Matrix (Fin n) (Fin n) ℝ
  | .scalar r => (r • HI) * HIᵀ
  | .mat R => HI * R * HIᵀ

/-- `np.linalg.inv`, which raises `LinAlgError` for a singular matrix. -/
noncomputable def npInv {m : ℕ} (M : Matrix (Fin m) (Fin m) ℝ) :
    Except PyErr (Matrix (Fin m) (Fin m) ℝ) :=
  open Classical in
  if IsUnit M.det then .ok M⁻¹ else .error .valueError

/-- `_predict_state` (`_core.py:1013-1014`). -/
noncomputable def predictState {n p : ℕ} (A : Matrix (Fin n) (Fin n) ℝ) (B : Matrix (Fin n) (Fin p) ℝ)
    (x : Fin n → ℝ) (u : Fin p → ℝ) : Fin n → ℝ :=
  A *ᵥ x + B *ᵥ u

/-- `_predict_covariance` (`_core.py:1016-1018`). -/
noncomputable def predictCov {n : ℕ} (A Q P : Matrix (Fin n) (Fin n) ℝ) : Matrix (Fin n) (Fin n) ℝ :=
  A * P * Aᵀ + Q

/-- `_compute_gain` (`_core.py:1020-1026`). -/
noncomputable def gain {m n : ℕ} (H : Matrix (Fin m) (Fin n) ℝ) (R : RArg m)
    (P : Matrix (Fin n) (Fin n) ℝ) : Except PyErr (Matrix (Fin n) (Fin m) ℝ) :=
  let PHT := P * Hᵀ
  (npInv (R.addTo (H * PHT))).bind fun Si => .ok (PHT * Si)

/-- `_update_state_from_observation` (`_core.py:1028-1030`). -/
noncomputable def updateState {m n : ℕ} (H : Matrix (Fin m) (Fin n) ℝ) (x : Fin n → ℝ)
    (z : Fin m → ℝ) (K : Matrix (Fin n) (Fin m) ℝ) : Fin n → ℝ :=
  x + K *ᵥ (z - H *ᵥ x)

/-- `_update_covariance` (`_core.py:1032-1034`). -/
noncomputable def updateCov {m n : ℕ} (H : Matrix (Fin m) (Fin n) ℝ) (P : Matrix (Fin n) (Fin n) ℝ)
    (K : Matrix (Fin n) (Fin m) ℝ) : Matrix (Fin n) (Fin n) ℝ :=
  P - K * (H * P)

/-- The fields of the object which describe the system (`_core.py:917-923`). -/
structure Sys (m n p : ℕ) where
  A : Matrix (Fin n) (Fin n) ℝ
  B : Matrix (Fin n) (Fin p) ℝ
  Q : Matrix (Fin n) (Fin n) ℝ
  H : Matrix (Fin m) (Fin n) ℝ
  R : RArg m

/-- `_filter_main` (`_core.py:1036-1047`), on the state estimate and its covariance. -/
noncomputable def step {m n p : ℕ} (s : Sys m n p) (xP : (Fin n → ℝ) × Matrix (Fin n) (Fin n) ℝ)
    (zu : (Fin m → ℝ) × (Fin p → ℝ)) :
    Except PyErr ((Fin n → ℝ) × Matrix (Fin n) (Fin n) ℝ) :=
  let P := predictCov s.A s.Q xP.2
  let x := predictState s.A s.B xP.1 zu.2
  (gain s.H s.R P).bind fun K => .ok (updateState s.H x zu.1 K, updateCov s.H P K)

/-- The calls of `_filter_main` for a list of observations and controls, one after the other. -/
noncomputable def run {m n p : ℕ} (s : Sys m n p) :
    (Fin n → ℝ) × Matrix (Fin n) (Fin n) ℝ → List ((Fin m → ℝ) × (Fin p → ℝ)) →
    Except PyErr ((Fin n → ℝ) × Matrix (Fin n) (Fin n) ℝ)
  | xP, [] => .ok xP
  | xP, zu :: rest => (step s xP zu).bind fun xP' => run s xP' rest

/-! ## The object, with as many observed quantities as states -/

/-- The attributes of a `Kalman` object (`_core.py:917-927`); `first` says that `self._filter` is
`_filter_first`. -/
structure Obj (n p : ℕ) where
  R : RArg n
  x : Option (Fin n → ℝ)
  P : Option (Matrix (Fin n) (Fin n) ℝ)
  A : Option (Matrix (Fin n) (Fin n) ℝ)
  B : Matrix (Fin n) (Fin p) ℝ
  Q : Option (Matrix (Fin n) (Fin n) ℝ)
  H : Option (Matrix (Fin n) (Fin n) ℝ)
  first : Bool

/-- `reset` (`_core.py:926-927`). -/
def Obj.reset {n p : ℕ} (o : Obj n p) : Obj n p := { o with first := true }

/-- `__init__` (`_core.py:916-924`). -/
def Obj.new {n p : ℕ} (R : RArg n) (x : Option (Fin n → ℝ)) (P A : Option (Matrix (Fin n) (Fin n) ℝ))
    (B : Matrix (Fin n) (Fin p) ℝ) (Q H : Option (Matrix (Fin n) (Fin n) ℝ)) : Obj n p :=
  ({ R := R, x := x, P := P, A := A, B := B, Q := Q, H := H, first := false } : Obj n p).reset

/-- `try: HI = inv(H) except Exception: HI = eye(n)` (`_core.py:987-990`). -/
noncomputable def invOrEye {n : ℕ} (H : Matrix (Fin n) (Fin n) ℝ) : Matrix (Fin n) (Fin n) ℝ :=
  match npInv H with
  | .ok I => I
  | .error _ => 1

/-- `_init_first` (`_core.py:983-992`): defaults for `A`, `Q`, `H` and `P`, and the matrix `HI`. -/
noncomputable def Obj.initFirst {n p : ℕ} (o : Obj n p) : Matrix (Fin n) (Fin n) ℝ × Obj n p :=
  let A := o.A.getD 1
  let Q := o.Q.getD 0
  let H := o.H.getD 1
  let HI := invOrEye H
  let P := o.P.getD (o.R.between HI)
  (HI, { o with A := some A, Q := some Q, H := some H, P := some P })

/-- `_filter_main` (`_core.py:1036-1047`) on the object; attributes that are still `None` make
`np.dot` raise `TypeError`. -/
noncomputable def Obj.filterMain {n p : ℕ} (o : Obj n p) (z : Fin n → ℝ) (u : Fin p → ℝ) :
    Except PyErr ((Fin n → ℝ) × Obj n p) :=
  match o.x, o.P, o.A, o.Q, o.H with
  | some x, some P, some A, some Q, some H =>
    (step { A := A, B := o.B, Q := Q, H := H, R := o.R } (x, P) (z, u)).bind fun xP =>
      .ok (xP.1, { o with x := some xP.1, P := some xP.2 })
  | _, _, _, _, _ => .error .typeError

/-- `_filter_first` (`_core.py:1001-1011`) with `_first_state` (`_core.py:994-999`). -/
noncomputable def Obj.filterFirst {n p : ℕ} (o : Obj n p) (z : Fin n → ℝ) (u : Fin p → ℝ) :
    Except PyErr ((Fin n → ℝ) × Obj n p) :=
  let o : Obj n p := { o with first := false }
  match o.x with
  | none =>
    let r := o.initFirst
    let x := r.1 *ᵥ z
    .ok (x, { r.2 with x := some x })
  | some _ => o.initFirst.2.filterMain z u

/-- `__call__` (`_core.py:1049-1050`). -/
noncomputable def Obj.call {n p : ℕ} (o : Obj n p) (z : Fin n → ℝ) (u : Fin p → ℝ) :
    Except PyErr ((Fin n → ℝ) × Obj n p) :=
  if o.first then o.filterFirst z u else o.filterMain z u

/-- The object after the calls for a list of observations. -/
noncomputable def Obj.calls {n p : ℕ} :
    Obj n p → List ((Fin n → ℝ) × (Fin p → ℝ)) → Except PyErr (List (Fin n → ℝ) × Obj n p)
  | o, [] => .ok ([], o)
  | o, zu :: rest => (o.call zu.1 zu.2).bind fun r =>
      (Obj.calls r.2 rest).bind fun r' => .ok (r.1 :: r'.1, r'.2)

end Wafo.Kalman

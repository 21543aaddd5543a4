import Mathlib.Analysis.Real.Sqrt
import Mathlib.Analysis.SpecialFunctions.Trigonometric.Basic
import Verif.Cov.SpecModel

/-!
Model of moments, frequency types, normalization, bandwidths and characteristics of `SpecData1D` in spectrum/core.py.  Simpson's rule of
scipy is a parameter `I y x`, and so is `numpy.interp` in the quality parameter `Rs`.  NaN is `none` in the covariance matrix; elsewhere
roots of negative numbers and divisions by zero, which give NaN or infinity in numpy, are excluded by the hypotheses of the theorems.
-/

namespace Wafo.SpecD
open Cov

noncomputable section

/-- An integration rule: values, then points. -/
abbrev Quad := List ℝ → List ℝ → ℝ

/-- `f` and `S` in `moment`, spectrum/core.py L3349-3357. -/
def angArgs (s : Spec) : List ℝ := if s.ftype = .f then s.args.map (fun v => 2 * Real.pi * v) else s.args

def angData (s : Spec) : List ℝ := if s.ftype = .f then s.data.map (fun v => v / (2 * Real.pi)) else s.data

/-- The loop over the orders, spectrum/core.py L3364-3366. -/
def momLoop (I : Quad) (f df : List ℝ) : ℕ → List ℝ → List ℝ
  | 0, _ => []
  | k + 1, S1 => I (List.zipWith (· * ·) S1 df) f :: momLoop I f df k (List.zipWith (· * ·) S1 df)

/-- `step`, spectrum/core.py L3362. -/
def stepOf (even : Bool) : ℕ := if even then 2 else 1

/-- The moments that `SpecData1D.moment(nr, even, j)` returns, spectrum/core.py L3349-3368. -/
def moment (I : Quad) (s : Spec) (nr : ℕ) (even : Bool) (j : ℕ) : List ℝ :=
  let f := angArgs s
  let S1 := (angData s).map fun v => |v| ^ (j + 1)
  let df := f.map fun v => v ^ stepOf even
  I S1 f :: momLoop I f df (nr / stepOf even) S1

/-- The names of the moments, spectrum/core.py L3351-3367. -/
def momentText (s : Spec) (nr : ℕ) (even : Bool) (j : ℕ) : List String :=
  (List.range (nr / stepOf even + 1)).map fun k =>
    "m" ++ toString j ++ String.ofList (List.replicate (k * stepOf even) (if s.ftype = .k then 'x' else 't'))

/-- The setter of `freqtype`, spectrum/core.py L724-738. -/
def setFreq (s : Spec) (t : FreqType) : Spec :=
  if s.ftype = t then s
  else if t = .w ∧ s.ftype = .f then
    { args := s.args.map (fun v => v * (2 * Real.pi)), data := s.data.map (fun v => v / (2 * Real.pi)), ftype := .w }
  else if t = .f ∧ s.ftype = .w then
    { args := s.args.map (fun v => v / (2 * Real.pi)), data := s.data.map (fun v => v * (2 * Real.pi)), ftype := .f }
  else s

/-- The spectrum after `normalize(gravity)`, spectrum/core.py L3573-3594. -/
def normalize (I : Quad) (s : Spec) : Spec :=
  let m := moment I s 4 true 0
  let m0 := m.getD 0 0
  let m2 := m.getD 1 0
  let A := Real.sqrt m0 / Real.sqrt m2
  let B := Real.sqrt m2 / (Real.sqrt m0 * m0)
  match s.ftype with
  | .f => { s with args := s.args.map (fun v => v * A / 2 / Real.pi), data := s.data.map (fun v => v * B * 2 * Real.pi) }
  | .w => { s with args := s.args.map (fun v => v * A), data := s.data.map (fun v => v * B) }
  | .k => s

/-- The normalized gravity that `normalize` adds to a spectrum in angular frequency, spectrum/core.py L3589-3591. -/
def normGravity (I : Quad) (s : Spec) (gravity : ℝ) : ℝ :=
  let m := moment I s 4 true 0
  gravity * Real.sqrt (m.getD 0 0 * (m.getD 2 0 / gravity ^ 2)) / m.getD 1 0

/-- An argument `factors` of `bandwidth`: a number, a name or a list of both. -/
inductive Factor
  | num (k : ℤ)
  | name (s : String)

inductive Factors
  | one (k : ℤ)
  | text (s : String)
  | list (l : List Factor)

/-- `fact_dict` and the conversion to integers, spectrum/core.py L3631-3633: text that is no integer raises a ValueError.  (Underscores and
blanks around the digits, which Python accepts, are not modelled.) -/
def factIndex : Factor → Except PyErr ℤ
  | .num k => .ok k
  | .name "alpha" => .ok 0
  | .name "eps2" => .ok 1
  | .name "eps4" => .ok 3
  | .name "qp" => .ok 3
  | .name "Qp" => .ok 3
  | .name s => match s.toInt? with
    | some k => .ok k
    | none => .error .valueError

/-- Indexing of an array with `n` elements by an integer. -/
def pyIndex {α : Type} (x : List α) (k : ℤ) : Except PyErr α :=
  let i := if k < 0 then k + x.length else k
  match (if 0 ≤ i then x[i.toNat]? else none) with
  | some v => .ok v
  | none => .error .indexError

/-- The four values of `bandwidth`, spectrum/core.py L3636-3642. -/
def bandwidths (I : Quad) (s : Spec) : List ℝ :=
  let m := moment I s 4 false 0
  let m := fun i => m.getD i 0
  [m 2 / Real.sqrt (m 0 * m 4), Real.sqrt (m 0 * m 2 / m 1 ^ 2 - 1), Real.sqrt (1 - m 2 ^ 2 / m 0 / m 4),
    2 / m 0 ^ 2 * I (List.zipWith (fun f S => f * S ^ 2) s.args s.data) s.args]

/-- `SpecData1D.bandwidth(factors)`, spectrum/core.py L3599-3644: `list(factors)` of a number raises a TypeError. -/
def bandwidth (I : Quad) (s : Spec) : Factors → Except PyErr (List ℝ)
  | .one _ => .error .typeError
  | .text t => do
    let k ← factIndex (.name t)
    return [← pyIndex (bandwidths I s) k]
  | .list l => do
    let ks ← l.mapM factIndex
    ks.mapM (pyIndex (bandwidths I s))

/-- `str.capitalize` for ASCII letters. -/
def capitalize (s : List Char) : List Char :=
  match s with
  | [] => []
  | c :: l => c.toUpper :: l.map Char.toLower

/-- The names of the characteristics, spectrum/core.py L3742-3745. -/
def charNames : List (List Char) :=
  ["Hm0".toList, "Tm01".toList, "Tm02".toList, "Tm24".toList, "Tm_10".toList, "Tp".toList, "Ss".toList, "Sp".toList, "Ka".toList,
    "Rs".toList, "Tp1".toList, "Alpha".toList, "Eps2".toList, "Eps4".toList, "Qp".toList]

/-- An element of `fact` in `characteristic`. -/
inductive CharFactor
  | num (k : ℤ)
  | name (s : List Char)

/-- `nfact`, spectrum/core.py L3750-3758: unknown names become 15. -/
def charIndex : CharFactor → ℤ
  | .num k => k
  | .name s => (charNames.idxOf (capitalize s) : ℕ)

/-- The moments in powers of hertz with `m_1` at the end, spectrum/core.py L3768-3776. -/
def hzMoment (I : Quad) (s : Spec) : ℕ → ℝ
  | 5 => I (((List.zip s.args s.data).filter fun p => decide (0 < p.1)).map fun p => p.2 / p.1)
      ((s.args.filter fun v => decide (0 < v))) * 2 * Real.pi
  | i => (moment I s 4 false 0).getD i 0 / (2 * Real.pi) ^ i

/-- `argmax`: the first index of the largest value. -/
def argmaxR (x : List ℝ) : ℕ := ((List.range x.length).find? fun k => decide (∀ v ∈ x, v ≤ x.getD k 0)).getD 0

/-- The fifteen characteristics, spectrum/core.py L3783-3820; `interp x f S` stands for `numpy.interp`. -/
def characteristics (I : Quad) (interp : ℝ → List ℝ → List ℝ → ℝ) (s : Spec) (g : ℝ) : List ℝ :=
  let m := hzMoment I s
  let f := s.args
  let S1 := s.data
  let Hm0 := 4 * Real.sqrt (m 0)
  let Tm01 := m 0 / m 1
  let Tm02 := Real.sqrt (m 0 / m 2)
  let Tm24 := Real.sqrt (m 2 / m 4)
  let Tm_10 := m 5 / m 0
  let Tm12 := m 1 / m 2
  let ind := argmaxR S1
  let maxS := S1.getD ind 0
  let Tp := 2 * Real.pi / f.getD ind 0
  let Ss := 2 * Real.pi * Hm0 / g / Tm02 ^ 2
  let Sp := 2 * Real.pi * Hm0 / g / Tp ^ 2
  let Ka := Real.sqrt (I (List.zipWith (fun v S => S * Real.cos (v * Tm02)) f S1) f ^ 2 +
    I (List.zipWith (fun v S => S * Real.sin (v * Tm02)) f S1) f ^ 2) / m 0
  let Rs := (interp (146 / 10000 * 2 * Real.pi) f S1 + interp (195 / 10000 * 2 * Real.pi) f S1 +
    interp (244 / 10000 * 2 * Real.pi) f S1) / 3 / maxS
  let Tp2 := 2 * Real.pi * I (S1.map (· ^ 4)) f / I (List.zipWith (fun v S => v * S ^ 4) f S1) f
  let alpha1 := Tm24 / Tm02
  let eps2 := Real.sqrt (Tm01 / Tm12 - 1)
  let eps4 := Real.sqrt (1 - alpha1 ^ 2)
  let Qp := 2 / m 0 ^ 2 * I (List.zipWith (fun v S => v * S ^ 2) f S1) f
  [Hm0, Tm01, Tm02, Tm24, Tm_10, Tp, Ss, Sp, Ka, Rs, Tp2, alpha1, eps2, eps4, Qp]

/-- The covariances of the moments, spectrum/core.py L3829-3831. -/
def hzCov (I : Quad) (s : Spec) (T : ℝ) (i : ℕ) : ℝ :=
  (moment I s 8 false 1).getD i 0 / T / ((2 * Real.pi) ^ i / (2 * Real.pi))

/-- The variances, spectrum/core.py L3836-3871: `m` moments, `c` their covariances, `c10` and `c11` those with `m_1`. -/
def variances (m c : ℕ → ℝ) (c10 c11 g eps2 eps4 : ℝ) : List (Option ℝ) :=
  [some (4 * c 0 / m 0),
   some (c 0 / m 1 ^ 2 - 2 * m 0 * c 1 / m 1 ^ 3 + m 0 ^ 2 * c 2 / m 1 ^ 4),
   some (1 / 4 * (c 0 / (m 0 * m 2) - 2 * c 2 / m 2 ^ 2 + m 0 * c 4 / m 2 ^ 3)),
   some (1 / 4 * (c 4 / (m 2 * m 4) - 2 * c 6 / m 4 ^ 2 + m 2 * c 8 / m 4 ^ 3)),
   some (c11 / m 0 ^ 2 + (m 5 / m 0 ^ 2) ^ 2 * c 0 - 2 * m 5 / m 0 ^ 3 * c10),
   none,
   some ((8 * Real.pi / g) ^ 2 * (m 2 ^ 2 / (4 * m 0 ^ 3) * c 0 + c 4 / m 0 - m 2 / m 0 ^ 2 * c 2)),
   none, none, none, none,
   some (m 2 ^ 2 * c 0 / (4 * m 0 ^ 3 * m 4) + c 4 / (m 0 * m 4) + c 8 * m 2 ^ 2 / (4 * m 0 * m 4 ^ 3) -
     m 2 * c 2 / (m 0 ^ 2 * m 4) + m 2 ^ 2 * c 4 / (2 * m 0 ^ 2 * m 4 ^ 2) - m 2 * c 6 / m 0 / m 4 ^ 2),
   some ((m 2 ^ 2 * c 0 / 4 + (m 0 * m 2 / m 1) ^ 2 * c 2 + m 0 ^ 2 * c 4 / 4 - m 2 ^ 2 * m 0 * c 1 / m 1 +
     m 0 * m 2 * c 2 / 2 - m 0 ^ 2 * m 2 / m 1 * c 3) / eps2 ^ 2 / m 1 ^ 4),
   some ((m 2 ^ 2 * c 0 / (4 * m 0 ^ 2) + c 4 + m 2 ^ 2 * c 8 / (4 * m 4 ^ 2) - m 2 * c 2 / m 0 +
     m 2 ^ 2 * c 4 / (2 * m 0 * m 4) - m 2 * c 6 / m 4) * m 2 ^ 2 / (m 0 * m 4 * eps4) ^ 2),
   none]

/-- `S0`, spectrum/core.py L3875-3878. -/
def cross (m c : ℕ → ℝ) : Fin 3 → ℝ
  | 0 => 2 / (Real.sqrt (m 0) * m 1) * (c 0 - m 0 * c 1 / m 1)
  | 1 => 1 / Real.sqrt (m 2) * (c 0 / m 0 - c 2 / m 2)
  | 2 => 1 / (2 * m 1) * Real.sqrt (m 0 / m 2) * (c 0 / m 0 - c 2 / m 2 - c 1 / m 1 + m 0 * c 3 / (m 1 * m 2))

/-- The upper triangle of `R1`, spectrum/core.py L3880-3886. -/
def upper (R : List (Option ℝ)) (S0 : Fin 3 → ℝ) (i j : ℕ) : Option ℝ :=
  if i = 0 ∧ j = 2 then some (S0 0)
  else if i = 0 ∧ j = 3 then some (S0 1)
  else if i = 1 ∧ j = 2 then some (S0 2)
  else if i = j then R.getD i none
  else none

/-- `R1` with its lower triangle, spectrum/core.py L3888-3889. -/
def charMatrix (R : List (Option ℝ)) (S0 : Fin 3 → ℝ) (i j : ℕ) : Option ℝ :=
  if j < i ∧ j < 2 then upper R S0 j i else upper R S0 i j

/-- The whole covariance matrix, spectrum/core.py L3777-3889. -/
def charCov (I : Quad) (s : Spec) (T g : ℝ) (i j : ℕ) : Option ℝ :=
  let m := hzMoment I s
  let c := hzCov I s T
  let pos := (List.zip s.args s.data).filter fun p => decide (0 < p.1)
  let f := s.args.filter fun v => decide (0 < v)
  let c10 := I (pos.map fun p => p.2 ^ 2 / p.1) f * (2 * Real.pi) ^ 2 / T
  let c11 := I (pos.map fun p => p.2 ^ 2 / p.1 ^ 2) f * (2 * Real.pi) ^ 3 / T
  let eps2 := Real.sqrt (m 0 / m 1 / (m 1 / m 2) - 1)
  let eps4 := Real.sqrt (1 - (Real.sqrt (m 2 / m 4) / Real.sqrt (m 0 / m 2)) ^ 2)
  charMatrix (variances m c c10 c11 g eps2 eps4) (cross m c) i j

/-- Values, covariances and names. -/
structure CharOut where
  ch : List ℝ
  cov : List (List (Option ℝ))
  names : List (List Char)

/-- `SpecData1D.characteristic(fact, T, g)`, spectrum/core.py L3646-3895. -/
def characteristic (I : Quad) (interp : ℝ → List ℝ → List ℝ → ℝ) (s : Spec) (fact : List CharFactor) (T g : ℝ) :
    Except PyErr CharOut :=
  let n := fact.map charIndex
  if n.any (fun k => decide (14 < k ∨ k < 0)) then .error .valueError
  else
    let n := n.map Int.toNat
    .ok { ch := n.map fun k => (characteristics I interp s g).getD k 0
          cov := n.map fun i => n.map fun j => charCov I s T g i j
          names := n.map fun k => charNames.getD k [] }

/-- `_check_dt`, spectrum/core.py L747-757: the message is formatted with `'too small.' % dt`, which raises a TypeError; `min` of no
differences raises a ValueError. -/
def checkDt (s : Spec) (dt : ℝ) : Except PyErr Unit :=
  match diffs s.args with
  | [] => .error .valueError
  | d :: ds =>
  let check := 12 / 10 * ds.foldr min d / 2 / Real.pi
  let check := if s.ftype = .f then check * (2 * Real.pi) else check
  if check < 1 / 2 ^ 16 / dt then .error .typeError else .ok ()

/-- `_check_cov_matrix`, spectrum/core.py L759-771, for the first column `r` of the matrix, which has `nt + 1` elements: the
warnings are formatted in the same way.  With `nt = 0` the matrix has no second row and an IndexError is raised. -/
def checkCov (r : List ℝ) (nt : ℕ) : Except PyErr Unit :=
  let bad := fun k => decide (r.getD 0 0 - r.getD k 0 * (r.getD k 0 / r.getD 0 0) < 1 / 10000)
  if 5 ≤ nt + 1 ∧ bad 4 = true then .error .typeError
  else if nt = 0 then .error .indexError
  else if bad 1 = true then .error .typeError
  else .ok ()

end

end Wafo.SpecD

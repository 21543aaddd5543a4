import Mathlib.Data.List.Sort
import Verif.Spread.Model
import Verif.SpecD.Model

/-!
Model of `moment` and `rotate` of `SpecData2D` in spectrum/core.py.  Simpson's rule of scipy is a parameter `I y x`.  The rotation of the
grid of a wave number spectrum, which calls `scipy.interpolate.interp2d`, is not modelled.
-/

namespace Wafo.SpecD

noncomputable section

/-- The exceptions raised here. -/
inductive Err2
  | value
  | index
  | type
  | attribute
  | unbound

/-- The attributes of `SpecData2D` used here.  `args` is a list or, if made by `tospecdata2d`, a tuple of two arrays; `data` has one row
for each angle. -/
structure Spec2 where
  args0 : List ℝ
  args1 : List ℝ
  isList : Bool
  data : List (List ℝ)
  phi : ℝ
  type : List Char

/-- `simps(S * c, x=theta, axis=0)` in column `j`, where `c` is a column of values for the angles. -/
def turnInt (I : Quad) (S : List (List ℝ)) (theta : List ℝ) (c : ℝ → ℝ) (j : ℕ) : ℝ :=
  I (List.zipWith (fun (row : List ℝ) t => row.getD j 0 * c t) S theta) theta

/-- `simps(vals, x=w)` for values `f kx ky w j`, spectrum/core.py L4215-4216 and L4296. -/
def freqInt (I : Quad) (s : Spec2) (gx gy : ℝ) (f : ℝ → ℝ → ℝ → ℕ → ℝ) : ℝ :=
  I ((List.range s.args0.length).map fun j => f (s.args0.getD j 0 ^ 2 / gx) (s.args0.getD j 0 ^ 2 / gy) (s.args0.getD j 0) j) s.args0

/-- The letters of `vari`, spectrum/core.py L4187-4198: only their presence matters below, not their order. -/
def variOf (nr : ℕ) : Option (List Char) → Except Err2 (List Char)
  | none => if nr ≤ 1 then .ok ['x'] else .ok ['x', 't']
  | some v => if v = [] then .error .index else .ok (v.map Char.toLower)

/-- `SpecData2D.moment(nr, vari)`, spectrum/core.py L4183-4297, as pairs of names and values; `gx` and `gy` are the first and the last
value of the gravity.  The method `tospecdata` returns None, so that a wave number spectrum raises an AttributeError. -/
def moment2 (I : Quad) (s : Spec2) (gx gy : ℝ) (nr : ℕ) (vari : Option (List Char)) : Except Err2 (List (String × ℝ)) :=
  if s.type ∉ ["dir".toList, "encdir".toList, "k2d".toList] then .error .value
  else
    match variOf nr vari with
    | .error e => .error e
    | .ok v =>
      if s.type = "k2d".toList then .error .attribute
      else
        let theta := s.args1.map (· - s.phi)
        let T := turnInt I s.data theta
        let ct := Real.cos
        let st := Real.sin
        let Sw := T fun _ => 1
        let Sc := T fun t => ct t
        let Ss := T fun t => st t
        let Sc2 := T fun t => ct t ^ 2
        let Ss2 := T fun t => st t ^ 2
        let Scs := T fun t => ct t * st t
        let Sc3 := T fun t => ct t ^ 3
        let Sc4 := T fun t => ct t ^ 4
        let Ss3 := T fun t => st t ^ 3
        let Ss4 := T fun t => st t ^ 4
        let Sc2s := T fun t => ct t ^ 2 * st t
        let Sc3s := T fun t => ct t ^ 3 * st t
        let Scs2 := T fun t => ct t * st t ^ 2
        let Scs3 := T fun t => ct t * st t ^ 3
        let Sc2s2 := T fun t => ct t ^ 2 * st t ^ 2
        let vals := freqInt I s gx gy
        let x := decide ('x' ∈ v)
        let y := decide ('y' ∈ v)
        let t := decide ('t' ∈ v)
        let only := fun (b : Bool) (l : List (String × ℝ)) => if b then l else []
        let m0 := ("m0", vals fun _ _ _ j => Sw j)
        let m1 := only x [("mx", vals fun kx _ _ j => kx * Sc j)] ++ only y [("my", vals fun _ ky _ j => ky * Ss j)] ++
          only t [("mt", vals fun _ _ w j => w * Sw j)]
        let m2 := only x [("mxx", vals fun kx _ _ j => kx ^ 2 * Sc2 j)] ++ only y [("myy", vals fun _ ky _ j => ky ^ 2 * Ss2 j)] ++
          only t [("mtt", vals fun _ _ w j => w ^ 2 * Sw j)] ++ only (x && y) [("mxy", vals fun kx ky _ j => kx * ky * Scs j)] ++
          only (x && t) [("mxt", vals fun kx _ w j => kx * w * Sc j)] ++ only (y && t) [("myt", vals fun _ ky w j => ky * w * Sc j)]
        let m4 := only x [("mxxxx", vals fun kx _ _ j => kx ^ 4 * Sc4 j)] ++ only y [("myyyy", vals fun _ ky _ j => ky ^ 4 * Ss4 j)] ++
          only t [("mtttt", vals fun _ _ w j => w ^ 4 * Sw j)] ++
          only (x && y) [("mxxxy", vals fun kx ky _ j => kx ^ 3 * ky * Sc3s j),
            ("mxxyy", vals fun kx ky _ j => kx ^ 2 * ky ^ 2 * Sc2s2 j), ("mxyyy", vals fun kx ky _ j => kx * ky ^ 3 * Scs3 j)] ++
          only (x && t) [("mxxxt", vals fun kx _ w j => kx ^ 3 * w * Sc3 j),
            ("mxxtt", vals fun kx _ w j => kx ^ 2 * w ^ 2 * Sc2 j), ("mxttt", vals fun kx _ w j => kx * w ^ 3 * Sc j)] ++
          only (y && t) [("myyyt", vals fun _ ky w j => ky ^ 3 * w * Ss3 j),
            ("myytt", vals fun _ ky w j => ky ^ 2 * w ^ 2 * Ss2 j), ("myttt", vals fun _ ky w j => ky * w ^ 3 * Ss j)] ++
          only (x && y && t) [("mxxyt", vals fun kx ky w j => kx ^ 2 * ky * w * Sc2s j),
            ("mxyyt", vals fun kx ky w j => kx * ky ^ 2 * w * Scs2 j), ("mxytt", vals fun kx ky w j => kx * ky * w ^ 2 * Scs j)]
        if 1 < nr ∧ y = true ∧ t = true ∧ x = false then .error .unbound
        else .ok (m0 :: only (decide (0 < nr)) m1 ++ only (decide (1 < nr)) m2 ++ only (decide (3 < nr)) m4)

/-- `SpecData2D.rotate(phi, rotateGrid)`, spectrum/core.py L4061-4122: the object after the call, and the exception if one is raised.
The angles are taken from `args[0]`, and a tuple cannot be changed, L4069.  If the grid is closed, a row that does not exist is written,
L4089, or an attribute `theta` is used that does not exist, L4096.  (The rotation of the grid of wave number spectra, `gridK`, is a
parameter.) -/
def rotate (gridK : Spec2 → Spec2 × Option Err2) (s : Spec2) (phi : ℝ) (rotateGrid : Bool) : Spec2 × Option Err2 :=
  let s := { s with phi := Spread.wrapAngle (s.phi + phi) }
  let stype := (s.type.map Char.toLower).drop (s.type.length - 3)
  if stype = "dir".toList then
    match s.args0 with
    | [] => (s, some .index)
    | t0 :: l =>
      if s.isList = false then (s, some .type)
      else
        let phi0 := t0 + Real.pi
        let s := { s with args0 := s.args0.map (· - phi0), phi := Spread.wrapAngle (s.phi + phi0) }
        if rotateGrid = true ∧ s.phi ≠ 0 then
          let theta := t0 :: l
          let last := theta.getLastD 0
          let turned := if Spread.pmod (t0 - last) (2 * Real.pi) = 0 then theta.dropLast.map (fun t => Spread.wrapAngle (t - s.phi)) ++ [last]
            else theta.map fun t => Spread.wrapAngle (t - s.phi)
          let sorted := (List.zip turned s.data).insertionSort fun p q => p.1 ≤ q.1
          let s := { s with args0 := sorted.map Prod.fst, data := sorted.map Prod.snd, phi := 0 }
          if Spread.pmod (t0 - last) (2 * Real.pi) = 0 then
            (s, some (if s.args0.headD 0 = -Real.pi then .index else .attribute))
          else (s, none)
        else (s, none)
  else if stype = "k2d".toList then
    if rotateGrid = true ∧ s.phi ≠ 0 then gridK s else (s, none)
  else (s, some .value)

end

end Wafo.SpecD

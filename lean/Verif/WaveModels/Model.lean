import Mathlib.Analysis.SpecialFunctions.Exp
import Mathlib.Analysis.SpecialFunctions.Sqrt
import Mathlib.Analysis.Real.Pi.Bounds

/-!
# `lh83pdf` and `cav76pdf`: joint densities of half periods and amplitudes

Source: `/repo/src/wafo/wavemodels.py:16-228`.  Floats are real numbers, NaN is `none`.  One entry of the table is modelled:
column `j` with the period `t`, and a row whose amplitude is mapped to `y` by `g.dat2gauss`, with derivative `d`.  The default
grids and the contour levels are not modelled.
-/

namespace Wafo.WaveModels

/-- `eps2` (`wavemodels.py:90-93`): the root of a negative number is NaN, which is real for `np.isreal`, so that the check in
lines 95-96 never fires. -/
noncomputable def eps2 (m0 m1 m2 : ℝ) : Option ℝ :=
  open Classical in
  let L0 := m0
  let L1 := m1 / (2 * Real.pi)
  let L2 := m2 / (2 * Real.pi) ^ 2
  let v := L2 * L0 / L1 ^ 2 - 1
  if v < 0 then none else some (Real.sqrt v)

/-- `const` (`wavemodels.py:98`). -/
noncomputable def lhConst (e : ℝ) : ℝ := 4 / Real.sqrt Real.pi / e / (1 + 1 / Real.sqrt (1 + e ^ 2))

/-- `tmp` (`wavemodels.py:112-121`) for one period and one amplitude. -/
noncomputable def lhValue (m0 m1 e t y d : ℝ) : ℝ :=
  let L0 := m0
  let L1 := m1 / (2 * Real.pi)
  let T := 2 * (t / (L0 / L1))
  let H := y / Real.sqrt 2
  lhConst e * |d| * (H / T) ^ 2 * Real.exp (-H ^ 2 * (1 + ((1 - 1 / T) / e) ^ 2)) / (L0 / L1 * Real.sqrt 2 / 2)

/-- `f_th` of `lh83pdf` (`wavemodels.py:87-122`): the first column is 0 whatever its period is.  With `eps2 = 0` the factor `const` is
infinite and the exponential is 0 or NaN, so that the product is NaN. -/
noncomputable def lh83 (m0 m1 m2 : ℝ) (j : ℕ) (t y d : ℝ) : Option ℝ :=
  open Classical in
  if j = 0 then some 0
  else (eps2 m0 m1 m2).bind fun e => if e = 0 then none else some (lhValue m0 m1 e t y d)

/-- `alfa` (`wavemodels.py:197`). -/
noncomputable def alfa (m0 m2 m4 : ℝ) : ℝ := m2 / Real.sqrt (m0 * m4)

/-- `f_th` of `cav76pdf` (`wavemodels.py:193-223`) for `alfa < 1`: the first column is 0 whatever its period is. -/
noncomputable def cav76 (m0 m2 m4 : ℝ) (j : ℕ) (t y d : ℝ) : ℝ :=
  if j = 0 then 0
  else
    let a := alfa m0 m2 m4
    let pos := 2 / (1 + a)
    let cons := 2 * Real.pi ^ 4 * pos / Real.sqrt (2 * Real.pi) / m4 / Real.sqrt (1 - a ^ 2)
    let H := Real.sqrt m0 * y
    cons * |d| * (H ^ 2 / t ^ 5) *
      Real.exp (-(1 / 2) * (H / t ^ 2) ^ 2 *
        ((t ^ 2 - Real.pi ^ 2 * m2 / m4) ^ 2 / (m0 * (1 - a ^ 2)) + Real.pi ^ 4 / m4))

/-- The default transformation (`wavemodels.py:17-20`) at the amplitude `h`: value and derivative.
Simplified: the interpolation in the table of `TrData`, which is linear, is the linear function itself. -/
noncomputable def gaussOf (m0 h : ℝ) : ℝ × ℝ := (h / Real.sqrt m0, 1 / Real.sqrt m0)

end Wafo.WaveModels

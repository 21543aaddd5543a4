import Mathlib.Analysis.SpecialFunctions.Trigonometric.Basic
import Mathlib.Analysis.Complex.Trigonometric
import Verif.Basic

/-!
Model of wave_theory/core.py: transfer functions of linear wave theory.  A number that is not finite (inf or nan) is `none`.
-/

namespace Wafo.Theory

noncomputable section

/-- `np.sign` of an integer, as a real number. -/
def sg (s : ℤ) : ℝ := (Int.sign s : ℤ)

/-- `hyperbolic_ratio(a, b, sa, sb)`, wave_theory/core.py L58-76. -/
def hypRatio (a b : ℝ) (sa sb : ℤ) : Option ℝ :=
  let sr := if sg sa * a < 0 then sg sa else 1
  let sr := if sg sb * b < 0 then sg sb * sr else sr
  let num := if sg sa < 0 then Real.exp (-2 * |a|) - 1 else 1 + Real.exp (-2 * |a|)
  let den := if sg sb < 0 then Real.exp (-2 * |b|) - 1 else 1 + Real.exp (-2 * |b|)
  if num = den then some (sr * Real.exp (|a| - |b|) * 1)
  else if den = 0 then none
  else some (sr * Real.exp (|a| - |b|) * (num * (1 / den)))

/-- `sensorid_table`, wave_theory/core.py L122-124. -/
def idTable : List (String × ℕ) :=
  [("n", 0), ("n_t", 1), ("n_tt", 2), ("n_x", 3), ("n_y", 4), ("n_xx", 5), ("n_yy", 6), ("n_xy", 7), ("p", 8), ("u", 9), ("v", 10), ("w", 11),
    ("u_t", 12), ("v_t", 13), ("w_t", 14), ("x_p", 15), ("y_p", 16), ("z_p", 17)]

/-- `name.lower()`. -/
def lower (s : String) : String := String.ofList (s.toList.map Char.toLower)

/-- `sensor_typeid(*sensortypes)` for strings, wave_theory/core.py L125-126; `none` is nan. -/
def sensorTypeid (names : List String) : List (Option ℕ) := names.map fun s => idTable.lookup (lower s)

/-- `valid_names` without the final nan, wave_theory/core.py L171-173. -/
def validNames : List String :=
  ["n", "n_t", "n_tt", "n_x", "n_y", "n_xx", "n_yy", "n_xy", "p", "u", "v", "w", "u_t", "v_t", "w_t", "x_p", "y_p", "z_p"]

/-- `sensor_type(ids)` for an array of integers, wave_theory/core.py L174-179; `none` is nan. -/
def sensorType (ids : List ℤ) : List (Option String) :=
  let n : ℤ := validNames.length
  ids.map fun i =>
    let i := if i < 0 ∨ n < i then n else i
    validNames[i.toNat]?

/-- `sensor_type` for an array that contains nan: it is an array of floats, and these cannot be used as indices of a tuple,
wave_theory/core.py L174-179. -/
def sensorTypeNan (ids : List (Option ℤ)) : Except PyErr (List (Option String)) :=
  if ids.all (·.isSome) then .ok (sensorType (ids.map fun i => i.getD 0))
  else .error .typeError

/-- The members of `TransferFunction`, wave_theory/core.py L274-283; `none` for `h` is `inf`. -/
structure Conf where
  x : ℝ
  y : ℝ
  z : ℝ
  h : Option ℝ
  g : ℝ
  rho : ℝ
  bet : ℝ
  igam : ℕ
  thetax : ℝ
  thetay : ℝ

/-- The methods in `_tran_dict`, wave_theory/core.py L284-296. -/
inductive Sensor where
  | n | n_t | n_tt | n_x | n_y | n_xx | n_yy | n_xy | p | u | v | w | u_t | v_t | w_t | x_p | y_p | z_p
deriving DecidableEq

/-- `_tran_dict`, wave_theory/core.py L284-296. -/
def tranDict : List (String × Sensor) :=
  [("n", .n), ("n_t", .n_t), ("n_tt", .n_tt), ("n_x", .n_x), ("n_y", .n_y), ("n_xx", .n_xx), ("n_yy", .n_yy), ("n_xy", .n_xy),
    ("P", .p), ("p", .p), ("U", .u), ("u", .u), ("V", .v), ("v", .v), ("W", .w), ("w", .w), ("U_t", .u_t), ("u_t", .u_t), ("V_t", .v_t), ("v_t", .v_t),
    ("W_t", .w_t), ("w_t", .w_t), ("X_p", .x_p), ("x_p", .x_p), ("Y_p", .y_p), ("y_p", .y_p), ("Z_p", .z_p), ("z_p", .z_p)]

/-- `cthx` in `_get_ee_cthxy`, wave_theory/core.py L361-365. -/
def cthx (c : Conf) (th : ℝ) : ℝ := c.bet * Real.cos (th - c.thetax * Real.pi / 180 + Real.pi / 2)

/-- `cthy` in `_get_ee_cthxy`, wave_theory/core.py L361-367. -/
def cthy (c : Conf) (th : ℝ) : ℝ := c.bet * Real.sin (th - c.thetay * Real.pi / 180)

/-- `ee` in `_get_ee_cthxy`, wave_theory/core.py L370-372. -/
def ee (c : Conf) (th k : ℝ) : ℂ := Complex.exp (Complex.I * ((c.x * cthx c th + c.y * cthy c th : ℝ) : ℂ) * k)

/-- `_get_zk(kw)` for depth `h`, wave_theory/core.py L375-386. -/
def zk (c : Conf) (h k : ℝ) : ℝ := if c.igam = 1 then k * (h + c.z) else if c.igam = 2 then k * (h - c.z) else k * c.z

/-- `hyperbolic_ratio(zk, hk, sa, sb)` in the methods.  For infinite depth `hk` is infinite, or nan for `k = 0`.  If `zk` is infinite too,
`exp(ak - bk)` is nan; otherwise it is zero, `den` is 1 or -1 and the ratio is zero. -/
def ratio (c : Conf) (k : ℝ) (sa sb : ℤ) : Option ℝ :=
  match c.h with
  | some h => hypRatio (zk c h k) (k * h) sa sb
  | none => if c.igam = 1 ∨ c.igam = 2 ∨ k = 0 then none else some 0

/-- The methods `_n`, ..., `_z_p`, wave_theory/core.py L389-514: `Hw` and `Gwt` for one frequency `w` with wave number `k` and one
direction. -/
def response (c : Conf) (s : Sensor) (w k th : ℝ) : Option ℝ × ℂ :=
  let e := ee c th k
  let cx : ℂ := (cthx c th : ℂ)
  let cy : ℂ := (cthy c th : ℂ)
  let times : ℝ → Option ℝ → Option ℝ := fun a r => r.map (a * ·)
  match s with
  | .n => (some 1, e)
  | .n_t => (some w, -Complex.I * e)
  | .n_tt => (some (w ^ 2), -e)
  | .n_x => (some k, Complex.I * cx * e)
  | .n_y => (some k, Complex.I * cy * e)
  | .n_xx => (some (k ^ 2), -(cx ^ 2) * e)
  | .n_yy => (some (k ^ 2), -cy ^ 2 * e)
  | .n_xy => (some (k ^ 2), -cx * cy * e)
  | .p => (times (c.rho * c.g) (ratio c k 1 1), e)
  | .u => (times w (ratio c k 1 (-1)), cx * e)
  | .v => (times w (ratio c k 1 (-1)), cy * e)
  | .w => (times w (ratio c k (-1) (-1)), -Complex.I * e)
  | .u_t => (times (w ^ 2) (ratio c k 1 (-1)), -Complex.I * cx * e)
  | .v_t => (times (w ^ 2) (ratio c k 1 (-1)), -Complex.I * cy * e)
  | .w_t => (times (w ^ 2) (ratio c k (-1) (-1)), -e)
  | .x_p => (ratio c k 1 (-1), Complex.I * cx * e)
  | .y_p => (ratio c k 1 (-1), Complex.I * cy * e)
  | .z_p => (ratio c k (-1) (-1), e)

/-- `TransferFunction.tran(w, theta, kw)`, wave_theory/core.py L329-354, for frequencies with their wave numbers.  `Hw` is an array with
one dimension, hence `Hw[:, k0]` is an IndexError if one of its elements is negative. -/
def tran (c : Conf) (name : String) (wk : List (ℝ × ℝ)) (th : List ℝ) : Except PyErr (List ℝ × List (List ℂ)) :=
  match tranDict.lookup name with
  | none => .error .keyError
  | some s =>
    let hw := wk.map fun p => ((response c s p.1 p.2 0).1).getD 0
    if hw.any (· < 0) then .error .indexError
    else
      let gwt := th.map fun t => wk.map fun p => (response c s p.1 p.2 t).2
      .ok (hw, if c.igam = 2 then gwt.map fun r => r.map fun v => -v else gwt)

/-- `tran(w, theta)` without wave numbers, wave_theory/core.py L325-327: `w2k w h g` is the wave number for depth `h` and gravity `g`; the
call `w2k(w, 0, self.h)` uses the default 9.81 for `g` (dispersion_relation.py L98) and not `self.g`. -/
def tranDefault (w2k : ℝ → Option ℝ → ℝ → ℝ) (c : Conf) (name : String) (w th : List ℝ) : Except PyErr (List ℝ × List (List ℂ)) :=
  tran c name (w.map fun v => (v, w2k v c.h 9.81)) th

/-- The member `sensortype`, wave_theory/core.py L275-276: a string is kept, for integers it is the tuple that `sensor_type` returns. -/
inductive SensorArg where
  | name (s : String)
  | ids (i : List ℤ)

/-- `TransferFunction(sensortype=a).tran(w, theta, kw)`: a tuple is no key of `_tran_dict`, wave_theory/core.py L335. -/
def tranArg (c : Conf) (a : SensorArg) (wk : List (ℝ × ℝ)) (th : List ℝ) : Except PyErr (List ℝ × List (List ℂ)) :=
  match a with
  | .name s => tran c s wk th
  | .ids _ => .error .keyError

/-- `wave_pressure(z, Hm0, h, g, rho)` at one point, wave_theory/core.py L560-584: `gam` is `jonswap_peakfact` and `kw` is
`w2k(w, 0, h)[0]`. -/
def wavePressure (gam : ℝ → ℝ → ℝ) (kw : ℝ → ℝ → ℝ) (z hm0 h g rho : ℝ) : Option ℝ :=
  let tp := 4 * Real.sqrt hm0
  let gm := gam hm0 tp
  let tm02 := tp / (1.30301 - 0.01698 * gm + 0.12102 / gm)
  let w := 2 * Real.pi / tm02
  let k := kw w h
  (hypRatio (k * h + k * z) (k * h) 1 1).map (rho * g * hm0 / 2 * ·)

end

end Wafo.Theory

import Verif.Basic
import Mathlib.Analysis.SpecialFunctions.Pow.Real

/-!
Model of `getshipchar`, `/repo/src/wafo/misc.py` L1907-2012.

Floats are real numbers, `np.round` is an arbitrary function `rnd`; a Python dictionary is a list of key-value pairs in insertion
order.  The value of the property is assumed non-negative (a negative number to a fractional power is nan).
-/

namespace Wafo.Ship

/-- `valid_props[name[:2]]`, L1912-1915 (with the misspelled `max_deadweigth`). -/
def validProp (name : String) : Except PyErr String :=
  let p := name.toList.take 2
  if p = ['l', 'e'] then .ok "length"
  else if p = ['b', 'e'] then .ok "beam"
  else if p = ['d', 'r'] then .ok "draught"
  else if p = ['m', 'a'] then .ok "max_deadweigth"
  else if p = ['s', 'e'] then .ok "service_speed"
  else if p = ['p', 'r'] then .ok "propeller_diameter"
  else .error .keyError

/-- `prop2max_dw.get(prop, lambda x: x)(value)`, L1916-1924. -/
noncomputable def toDeadweight (prop : String) (x : ℝ) : ℝ :=
  if prop = "length" then (x / 3.45) ^ (2.5 : ℝ)
  else if prop = "beam" then (x / 1.78) ^ (1 / 0.27 : ℝ)
  else if prop = "draught" then (x / 0.8) ^ (1 / 0.24 : ℝ)
  else if prop = "service_speed" then (x / 1.14) ^ (1 / 0.21 : ℝ)
  else if prop = "propeller_diameter" then ((x / 0.12) ^ (4 / 3 : ℝ) / 3.45) ^ (2.5 : ℝ)
  else x

/-- `_get_max_deadweight(**ship_property)`, L1907-1925. -/
noncomputable def getMaxDeadweight (props : List (String × ℝ)) : Except PyErr (ℝ × String) :=
  match props with
  | [(name, value)] =>
    match validProp name with
    | .error e => .error e
    | .ok prop => .ok (toDeadweight prop value, prop)
  | _ => .error .valueError

/-- `d[key] = value`. -/
def setKey (d : List (String × ℝ)) (key : String) (value : ℝ) : List (String × ℝ) :=
  if (d.map Prod.fst).contains key then d.map (fun p => if p.1 = key then (p.1, value) else p) else d ++ [(key, value)]

/-- The dictionary built from the dead weight, L1976-2009. -/
noncomputable def characteristics (rnd : ℝ → ℝ) (dw : ℝ) : List (String × ℝ) :=
  let length := rnd (3.45 * dw ^ (0.40 : ℝ))
  let lengthErr := length ^ (0.13 : ℝ)
  let beam := rnd (1.78 * dw ^ (0.27 : ℝ) * 10) / 10
  let draught := rnd (0.80 * dw ^ (0.24 : ℝ) * 10) / 10
  let speed := rnd (1.14 * dw ^ (0.21 : ℝ) * 10) / 10
  let pDiam := 0.12 * length ^ (3 / 4 : ℝ)
  let pDiamErr := 0.12 * lengthErr ^ (3 / 4 : ℝ)
  let dwr := rnd dw
  [("beam", beam), ("beamSTD", beam * 0.10), ("draught", draught), ("draughtSTD", draught * 0.22), ("length", length), ("lengthSTD", lengthErr),
    ("max_deadweight", dwr), ("max_deadweightSTD", 0.1 * dwr), ("propeller_diameter", pDiam), ("propeller_diameterSTD", pDiamErr),
    ("service_speed", speed), ("service_speedSTD", speed * 0.10)]

/-- `getshipchar(**ship_property)`, L1928-2012. -/
noncomputable def getshipchar (rnd : ℝ → ℝ) (props : List (String × ℝ)) : Except PyErr (List (String × ℝ)) :=
  match getMaxDeadweight props with
  | .error e => .error e
  | .ok r => .ok (setKey (characteristics rnd r.1) (r.2 ++ "STD") 0)

end Wafo.Ship

import Verif.Basic
import Mathlib.Algebra.Order.Field.Basic

/-! Model of `slopes` and its methods, /repo/src/wafo/interpolate.py L678-995, for one-dimensional `y`.

With `n` points, `h i = dx[i]` and `m i = dydx[i]` (`i < n - 1`), the slope arrays are functions of the index `k < n`.
Array reads outside `0 .. n - 1` do not occur for the sizes admitted by `rawSlopes` (the sizes for which numpy raises are
answered by an error there). -/

namespace Wafo.Slopes

variable {α : Type*} [Field α] [LinearOrder α] [IsStrictOrderedRing α]

/-- `np.sign`. -/
def sgn (a : α) : α := if 0 < a then 1 else if a < 0 then -1 else 0

/-- `_edge_case`, L678-691. -/
def edgeCase (h0 h1 m0 m1 : α) : α :=
  let d := ((2 * h0 + h1) * m0 - h0 * m1) / (h0 + h1)
  if sgn d ≠ sgn m0 then 0
  else if sgn m0 ≠ sgn m1 ∧ |d| > 3 * |m0| then 3 * m0
  else d

/-- Interior slope of `_pchip_slope`, L754-767, from the widths and secants left and right of the point. -/
def pchipInner (h0 h1 m0 m1 : α) : α :=
  if sgn m1 ≠ sgn m0 ∨ m1 = 0 ∨ m0 = 0 then 0
  else 1 / (((2 * h1 + h0) / m0 + (h1 + 2 * h0) / m1) / ((2 * h1 + h0) + (h1 + 2 * h0)))

/-- `_pchip_slope`, L726-778. -/
def pchip (n : ℕ) (h m : ℕ → α) (k : ℕ) : α :=
  if n = 2 then m 0
  else if k = 0 then edgeCase (h 0) (h 1) (m 0) (m 1)
  else if k = n - 1 then edgeCase (h (n - 2)) (h (n - 3)) (m (n - 2)) (m (n - 3))
  else pchipInner (h (k - 1)) (h k) (m (k - 1)) (m k)

/-- Zeros, then the interior slopes, then `yp[0] = 2*dydx[0] - yp[1]` and `yp[-1] = 2*dydx[-1] - yp[-2]`, in this
order (L782-785, L796-803). -/
def withEnds (n : ℕ) (m : ℕ → α) (inner : ℕ → α) (k : ℕ) : α :=
  let f0 : ℕ → α := fun k => if 0 < k ∧ k + 1 < n then inner k else 0
  let f1 : ℕ → α := fun k => if k = 0 then 2 * m 0 - f0 1 else f0 k
  if k = n - 1 then 2 * m (n - 2) - f1 (n - 2) else f1 k

/-- `_parabola_slope`, L781-786. -/
def parabola (n : ℕ) (h m : ℕ → α) : ℕ → α :=
  withEnds n m fun k => (m (k - 1) * h k + m k * h (k - 1)) / (h k + h (k - 1))

/-- Interior of `_stineman_slope`, L798-801. -/
def stinemanInner (h0 h1 m0 m1 : α) : α :=
  (h0 * m0 * h1 ^ 2 * (1 + m1 ^ 2) + h1 * m1 * h0 ^ 2 * (1 + m0 ^ 2)) /
    (h0 * h1 ^ 2 * (1 + m1 ^ 2) + h1 * h0 ^ 2 * (1 + m0 ^ 2))

/-- End correction of `_stineman_slope`, L805-816: `m0` is the end secant, `a1` the neighbouring slope, `a0` the value
`2*m0 - a1`. -/
def stinemanEnd (m0 a1 a0 : α) : α :=
  let d := m0 - a1
  if sgn m0 * d ≥ 0 then a0 else m0 + (|m0| * d) / (|m0| + |d|)

/-- `_stineman_slope`, L789-818. -/
def stineman (n : ℕ) (h m : ℕ → α) (k : ℕ) : α :=
  let a := withEnds n m fun k => stinemanInner (h (k - 1)) (h k) (m (k - 1)) (m k)
  if k = n - 1 then stinemanEnd (m (n - 2)) (a (n - 2)) (a (n - 1))
  else if k = 0 then stinemanEnd (m 0) (a 1) (a 0)
  else a k

/-- End slope of `_steffen_slope`, L837-845. -/
def steffenEnd (h0 h1 m0 m1 : α) : α :=
  let w := h0 / (h0 + h1)
  let p := m0 * (1 + w) - m1 * w
  (sgn p + sgn m0) * min |m0| (1 / 2 * p)

/-- `_steffen_slope`, L822-849 (`n >= 3`). -/
def steffen (n : ℕ) (h m : ℕ → α) (k : ℕ) : α :=
  if k = n - 1 then steffenEnd (h (n - 2)) (h (n - 3)) (m (n - 2)) (m (n - 3))
  else if k = 0 then steffenEnd (h 0) (h 1) (m 0) (m 1)
  else (sgn (m (k - 1)) + sgn (m k)) *
    min (min |m (k - 1)| |m k|) (1 / 2 * |m (k - 1) * h k + m k * h (k - 1)| / (h k + h (k - 1)))

/-- `_fritsch_carlson_slope`, L852-865. -/
def fritsch (n : ℕ) (h m : ℕ → α) (k : ℕ) : α :=
  let f1 : ℕ → α := fun k => if k = 0 then 2 * m 0 - pchip n h m 1 else pchip n h m k
  if k = n - 1 then 2 * m (n - 2) - f1 (n - 2) else f1 k

/-- `_secant_slope`, L868-875. -/
def secant (n : ℕ) (m : ℕ → α) (k : ℕ) : α :=
  if k = n - 1 then m (n - 2) else if k = 0 then m 0 else (m (k - 1) + m k) / 2

/-- `_catmull_rom_slope`, L878-889. -/
def catmullRom (n : ℕ) (x y m : ℕ → α) (k : ℕ) : α :=
  if k = n - 1 then m (n - 2) else if k = 0 then m 0 else (y (k + 1) - y (k - 1)) / (x (k + 1) - x (k - 1))

/-- The extended secants of `_akima_slope`, L699-709.  `garb` is the content of `m[3]` before it is assigned, which is
read when there are only two points. -/
def akimaM (n : ℕ) (m : ℕ → α) (garb : α) (j : ℕ) : α :=
  let m3 := if n = 2 then garb else m 1
  let m1 := 2 * m 0 - m3
  let mn1 := 2 * m (n - 2) - (if n = 2 then m1 else m (n - 3))
  if j = 0 then 2 * m1 - m 0
  else if j = 1 then m1
  else if j ≤ n then m (j - 2)
  else if j = n + 1 then mn1
  else 2 * mn1 - m (n - 2)

/-- `_akima_slope`, L694-723; `1e-9` is `eps`. -/
def akima (eps : α) (n : ℕ) (m : ℕ → α) (garb : α) (k : ℕ) : α :=
  let M := akimaM n m garb
  let f1 : ℕ → α := fun k => |M (k + 3) - M (k + 2)|
  let f2 : ℕ → α := fun k => |M (k + 1) - M k|
  let f12 : ℕ → α := fun k => f1 k + f2 k
  let big := ((List.range n).map f12).foldl max (f12 0)
  if f12 k > eps * big then (f1 k * M (k + 1) + f2 k * M (k + 2)) / f12 k else 1 / 2 * (M (k + 3) + M k)

inductive Method where
  | parabola | secant | cardinal | catmullRom | akima | pchip | stineman | steffen | fritsch
  deriving DecidableEq

/-- `slope_fun`, the dictionary look-up on `method.lower()[:3]`, L955-964 (KeyError for other names). -/
def methodOf (key : String) : Except PyErr Method :=
  if key = "par" then .ok .parabola
  else if key = "sec" then .ok .secant
  else if key = "car" then .ok .cardinal
  else if key = "cat" then .ok .catmullRom
  else if key = "aki" then .ok .akima
  else if key = "pch" then .ok .pchip
  else if key = "sti" then .ok .stineman
  else if key = "ste" then .ok .steffen
  else if key = "fri" then .ok .fritsch
  else .error .keyError

/-- The method chosen by `method.lower()[:3]`, L954-964. -/
def methodNamed (name : String) : Except PyErr Method := methodOf (String.ofList ((name.toList.map Char.toLower).take 3))

/-- The call `slope_fun(x, y, dx, dydx, tension)`, L965 (`_cardinal_slope` is L892-894). -/
def rawSlopes (eps garb tension : α) (n : ℕ) (x y h m : ℕ → α) : Method → ℕ → α
  | .parabola => parabola n h m
  | .secant => secant n m
  | .cardinal => fun k => (1 - tension) * catmullRom n x y m k
  | .catmullRom => catmullRom n x y m
  | .akima => akima eps n m garb
  | .pchip => pchip n h m
  | .stineman => stineman n h m
  | .steffen => steffen n h m
  | .fritsch => fritsch n h m

/-- First step of the monotonicity fix, L971-973. -/
def flatten (n : ℕ) (m yp : ℕ → α) (k : ℕ) : α :=
  if (k + 1 < n ∧ m k = 0) ∨ (0 < k ∧ m (k - 1) = 0) then 0 else yp k

/-- `dist`, L975-980 (`0/0` is nan in Python, which is never larger than 9; here it is 0). -/
def dist (m yp : ℕ → α) (i : ℕ) : α := (yp i / m i) ^ 2 + (yp (i + 1) / m i) ^ 2

/-- The loop L990-992.  `rt` is the square root. -/
def fixLoop (rt : α → α) (m yp : ℕ → α) (idx : List ℕ) : ℕ → α :=
  idx.foldl (fun f i => fun k =>
    let tau := 3 / rt (dist m yp i)
    if k = i + 1 then tau * (yp (i + 1) / m i) * m i
    else if k = i then tau * (yp i / m i) * m i
    else f k) yp

/-- The monotonicity fix, L967-992. -/
def fixMonotone (rt : α → α) (n : ℕ) (m yp : ℕ → α) : ℕ → α :=
  let yp1 := flatten n m yp
  fixLoop rt m yp1 ((List.range (n - 1)).filter fun i => dist m yp1 i > 9)

/-- `slopes` after scaling, L947-995: ValueError unless `x` is strictly increasing; with fewer than two points (three for
'steffen') an end slope does not exist and IndexError is raised.  (For 'akima' with one point numpy returns
uninitialised memory instead; `x` and `y` of different lengths are not modelled further than ValueError.) -/
def slopes0 (eps garb : α) (rt : α → α) (x y : List α) (meth : Method) (tension : α) (monotone : Bool) :
    Except PyErr (List α) :=
  let n := x.length
  let X : ℕ → α := fun k => x.getD k 0
  let Y : ℕ → α := fun k => y.getD k 0
  let h : ℕ → α := fun k => X (k + 1) - X k
  let m : ℕ → α := fun k => (Y (k + 1) - Y k) / h k
  if (List.range (n - 1)).any (fun i => decide (h i ≤ 0)) then .error .valueError
  else if y.length ≠ n then .error .valueError
  else if n < 2 ∨ (meth = .steffen ∧ n < 3) then .error .indexError
  else
    let yp := rawSlopes eps garb tension n X Y h m meth
    let yp' := if monotone then fixMonotone rt n m yp else yp
    .ok ((List.range n).map yp')

/-- `np.max(x) - np.min(x)`. -/
def spread (l : List α) : α :=
  match l with
  | [] => 0
  | a :: l => l.foldl max a - l.foldl min a

/-- `slopes`, L897-995. -/
def slopes (eps garb : α) (rt : α → α) (x y : List α) (meth : Method) (tension : α) (monotone scale : Bool) :
    Except PyErr (List α) :=
  if scale then
    if x = [] ∨ y = [] then .error .valueError
    else
      let sx := spread x
      let sy := if spread y ≤ 0 then 1 else spread y
      match slopes0 eps garb rt (x.map (· / sx)) (y.map (· / sy)) meth tension monotone with
      | .error e => .error e
      | .ok l => .ok (l.map fun v => v * sy / sx)
  else slopes0 eps garb rt x y meth tension monotone

end Wafo.Slopes

import Verif.Basic
import Mathlib.Analysis.SpecialFunctions.Complex.Arg
import Mathlib.Analysis.SpecialFunctions.Trigonometric.DerivHyp

/-!
Model of the dispersion relation, `/repo/src/wafo/wave_theory/dispersion_relation.py`.

Floats are real numbers; the water depth is a real number or infinite (`none`).  Broadcasting has already been done: the
arguments are lists of points.
-/

namespace Wafo.Disp

/-- Water depth; `none` is `inf`. -/
abbrev Depth := Option ℝ

/-- `arctan2(y, x)`. -/
noncomputable def arctan2 (y x : ℝ) : ℝ := Complex.arg ⟨x, y⟩

/-- `tanh(k * h)` for `k > 0`. -/
noncomputable def tanhDepth (k : ℝ) : Depth → ℝ
  | none => 1
  | some h => Real.tanh (k * h)

/-- What a call returns: the code returns one empty array for empty input, and a pair of arrays otherwise.  `undefined`: an
infinite number or nan has been produced, which this model does not follow. -/
inductive Ret where
  /-- `return zeros_like(..)` -/
  | single
  /-- two arrays, and whether a warning was issued -/
  | pair (a b : List ℝ) (warned : Bool)
  /-- division by zero in Newton's method -/
  | undefined

/-- One wave number vector with its depth, gravity and current. -/
structure KArg where
  /-- first wave number -/
  k1 : ℝ
  /-- second wave number -/
  k2 : ℝ
  /-- depth -/
  h : Depth
  /-- acceleration of gravity -/
  g : ℝ
  /-- current along the first axis -/
  u1 : ℝ
  /-- current along the second axis -/
  u2 : ℝ

/-- The frequency before negative values are removed, L75-83. -/
noncomputable def KArg.freq (a : KArg) : ℝ :=
  let k := Real.sqrt (a.k1 ^ 2 + a.k2 ^ 2)
  if 0 < k then a.k1 * a.u1 + a.k2 * a.u2 + Real.sqrt (a.g * k * tanhDepth k a.h) else 0

/-- `k2w(k1, k2, h, g, u1, u2)`, L27-95. -/
noncomputable def k2w (l : List KArg) : Ret :=
  if l.length = 0 then .single
  else .pair (l.map (fun a => if 0 ≤ a.freq then a.freq else 0)) (l.map (fun a => arctan2 a.k2 a.k1))
    (! l.all (fun a => decide (0 ≤ a.freq)))

/-- One frequency with its direction and depth. -/
structure WArg where
  /-- frequency -/
  w : ℝ
  /-- direction -/
  th : ℝ
  /-- depth -/
  h : Depth

/-- One point of Newton's iteration: the arrays `wi`, `hi`, `k`, `hn`. -/
structure Pt where
  /-- frequency -/
  w : ℝ
  /-- depth -/
  h : Depth
  /-- current wave number -/
  k : ℝ
  /-- last update -/
  hn : ℝ

/-- `np.sign`. -/
noncomputable def sgn (x : ℝ) : ℝ := if x < 0 then -1 else if x = 0 then 0 else 1

/-- Deep water wave number, L150. -/
noncomputable def deepK (g0 w : ℝ) : ℝ := 1 * sgn w * w ^ 2 / g0

/-- The denominator `tanh(kh) + kh / coshkh2`, L177-180: `coshkh2` is infinite from 350 on. -/
noncomputable def slope (kh : ℝ) : ℝ := Real.tanh kh + if |kh| < 350 then kh / Real.cosh kh ^ 2 else 0

/-- One Newton step for one point, L175-191; `none` when the denominator is zero. -/
noncomputable def newton (g : ℝ) (p : Pt) : Option Pt :=
  match p.h with
  | none => some p
  | some h =>
    if slope (p.k * h) = 0 then none
    else
      let hn := (p.k * Real.tanh (p.k * h) - p.w ^ 2 / g) / slope (p.k * h)
      let knew := p.k - hn
      if |knew| = 0 then some { p with k := p.k / 10, hn := p.k - p.k / 10 }
      else some { p with k := knew, hn := hn }

/-- Is the point iterated further, L195-196. -/
noncomputable def active (rtol atol : ℝ) (p : Pt) : Bool := decide (|p.hn| > rtol * |p.k|) && decide (|p.hn| > atol)

/-- The loop, L173-197: every point carries a flag telling whether its index is in `ix`; also returns the number of iterations. -/
noncomputable def loop (g rtol atol : ℝ) : ℕ → List (Pt × Bool) → Option (List (Pt × Bool) × ℕ)
  | 0, l => some (l, 0)
  | n + 1, l =>
    if l.any (fun x => x.2) then
      match l.mapM (fun x => if x.2 then newton g x.1 else some x.1) with
      | none => none
      | some l' => (loop g rtol atol n (l'.map (fun p => (p, active rtol atol p)))).map (fun r => (r.1, r.2 + 1))
    else some (l, 0)

/-- Depth above `10^25`, L151. -/
noncomputable def isDeep : Depth → Bool
  | none => true
  | some h => decide (10 ^ 25 < h)

/-- Depth below `10^25`, L166. -/
noncomputable def isFinite : Depth → Bool
  | none => false
  | some h => decide (h < 10 ^ 25)

/-- The starting point of the iteration, L150, L163-166. -/
noncomputable def start (g : ℝ) (a : WArg) : Pt × Bool :=
  (⟨a.w, a.h, deepK g a.w, 0⟩, (decide (a.w < 0) || decide (0 < a.w)) && isFinite a.h)

/-- `w2k(w, theta, h, g, count_limit, rtol, atol)`, L98-203, with `g` a non-empty list. -/
noncomputable def w2k (l : List WArg) (g : List ℝ) (countLimit : ℕ) (rtol atol : ℝ) : Except PyErr Ret :=
  if l.length = 0 then .ok .single
  else
    match g.head?, g.getLast? with
    | some g0, some g1 =>
      if l.all (fun a => isDeep a.h) then
        .ok (.pair (l.map (fun a => deepK g0 a.w * Real.cos a.th)) (l.map (fun a => deepK g0 a.w * Real.sin a.th * g0 / g1)) false)
      else if g.length ≠ 1 then .error .valueError
      else
        match loop g0 rtol atol countLimit (l.map (start g0)) with
        | none => .ok .undefined
        | some r => .ok (.pair (List.zipWith (fun p (a : WArg) => p.1.k * Real.cos a.th) r.1 l)
            (List.zipWith (fun p (a : WArg) => p.1.k * Real.sin a.th) r.1 l) (! decide (r.2 < countLimit)))
    | _, _ => .error .indexError

end Wafo.Disp

import Verif.Cov.SimProps
import Verif.LevelX.Model
import Verif.SpecD.Model

/-!
Model of `SpecData1D.sim` in spectrum/core.py without transformation (`tr=None`).

As in the model of `CovData1D.sim`, the random numbers are elements of a real vector space.  The function `resample`, called if a sampling
interval is given, is a parameter.  The last frequency is assumed to be positive: otherwise the sampling period is infinite.
-/

namespace Wafo.SpecD
open Cov Finset

noncomputable section

/-- `freq[1:-1]`. -/
def inner (x : List ℝ) : List ℝ := x.dropLast.drop 1

/-- The frequencies in hertz, or their counterpart for wave numbers, without the first and the last, spectrum/core.py L2641-2646. -/
def innerFreq (s : Spec) : List ℝ := if s.ftype = .f then inner s.args else (inner s.args).map (· / (2 * Real.pi))

/-- The densities at these frequencies, spectrum/core.py L2641-2646. -/
def innerDens (s : Spec) : List ℝ := if s.ftype = .f then inner s.data else (inner s.data).map (· * (2 * Real.pi))

/-- `d_f`, spectrum/core.py L2650. -/
def simStep (s : Spec) (ns : ℕ) : ℝ := 1 / (ns * samplingPeriod s)

/-- The interpolated values `s_i` for an even number `2 * h` of points, spectrum/core.py L2654-2660. -/
def simDens (s : Spec) (h : ℕ) : List ℝ :=
  let df := simStep s (2 * h)
  (List.range (h - 1)).map fun k : ℕ =>
    LevelX.npInterp (((k + 1 : ℕ) : ℝ) * df) (0 :: innerFreq s ++ [df * h]) (0 :: (innerDens s).map (fun v => |v| / 2) ++ [0])

/-- The spectrum for positive and negative frequencies, spectrum/core.py L2661. -/
def twoSided (s : Spec) (h : ℕ) : List ℝ := 0 :: simDens s h ++ 0 :: (simDens s h).reverse

section
variable {V : Type} [AddCommGroup V] [Module ℝ V]

/-- `z_i`, spectrum/core.py L2667-2668. -/
def imagPart (h : ℕ) (b : ℕ → V) (k : ℕ) : V := if k = 0 ∨ k = h then 0 else b (k - 1)

/-- The factors for the first and the middle amplitude, spectrum/core.py L2674-2675. -/
def edge (h k : ℕ) : ℝ := if k = 0 ∨ k = h then Real.sqrt 2 else 1

/-- The real part of the amplitudes before the scaling with the spectrum, spectrum/core.py L2670-2675. -/
def ampRe (h : ℕ) (a : ℕ → V) (k : ℕ) : V := edge h k • (if k ≤ h then a k else a (2 * h - k))

/-- Their imaginary part. -/
def ampIm (h : ℕ) (b : ℕ → V) (k : ℕ) : V := edge h k • (if k ≤ h then -imagPart h b k else imagPart h b (2 * h - k))

/-- The real part of the transform of the scaled amplitudes, spectrum/core.py L2679-2690. -/
def simValue (s : Spec) (h : ℕ) (a b : ℕ → V) (j : ℕ) : V :=
  ∑ k ∈ range (2 * h), Real.sqrt ((twoSided s h).getD k 0 * simStep s (2 * h) / 2) •
    (Real.cos (2 * Real.pi * k * j / (2 * h : ℕ)) • ampRe h a k + Real.sin (2 * Real.pi * k * j / (2 * h : ℕ)) • ampIm h b k)

/-- `acf.data[i[0]::] = 0.0` for the times above `T`, spectrum/core.py L2627-2632. -/
def cutAcf (R : Acf) (T : ℝ) : Acf :=
  { R with data := (List.range R.data.length).map fun k =>
      if (List.range (k + 1)).any (fun i => decide (T < R.args.getD i 0)) then 0 else R.data.getD k 0 }

/-- `SpecData1D.sim(ns, cases, dt, iseed, method, derivative)`, spectrum/core.py L2525-2714, with the random numbers `a` and `b`.
The method `'exact'` is chosen if `method` is a part of that word.  With an even number of points at least two the random phase method
cannot fail, except that `zeros(ns, cases + 1)`, L2694, raises a TypeError if derivatives are wanted; with no points `randn(-1, cases)`
raises a ValueError. -/
def simulate (resample : ℝ → Spec → Spec) (s : Spec) (ns : Option ℕ) (cases : ℕ) (dt : Option ℝ) (method : List Char)
    (derivative : Bool) (a b : ℕ → ℕ → V) : Except PyErr (SimOut V) :=
  let s := match dt with
    | none => s
    | some d => resample d s
  let nt := s.args.length
  let ns := ns.getD (nt - 1)
  if method <:+: "exact".toList then
    match specToCov s 0 none none with
    | .error e => .error e
    | .ok R => Cov.sim (cutAcf R (nt * samplingPeriod s)) (some ns) cases none derivative a b
  else
    let ns := ns + ns % 2
    if ns = 0 then .error .valueError
    else if derivative then .error .typeError
    else
      .ok { times := (List.range ns).map fun k : ℕ => (k : ℝ) * samplingPeriod s
            rows := (List.range ns).map fun j => (List.range cases).map fun c => simValue s (ns / 2) (fun k => a k c) (fun k => b k c) j }

end

end

end Wafo.SpecD

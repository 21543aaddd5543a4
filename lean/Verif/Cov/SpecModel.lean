import Verif.Cov.Fft

/-!
Model of `SpecData1D.tocovdata` and `SpecData1D.sampling_period` in spectrum/core.py and of `CovData1D.tospecdata` with the default
interpolation `method='fft'` in covariance/core.py.  The model covers spectra with at least two frequencies and a positive last
frequency; with one frequency, or with the last frequency zero, the code divides by zero.
-/

namespace Wafo.Cov
open Finset

noncomputable section

/-- `freqtype`, spectrum/core.py L711. -/
inductive FreqType
  | f
  | w
  | k
deriving DecidableEq

/-- The attributes of `SpecData1D` used here. -/
structure Spec where
  args : List ℝ
  data : List ℝ
  ftype : FreqType

/-- The attributes of `CovData1D` used here; `derivs` are the attributes `Rt`, `Rtt`, ... -/
structure Acf where
  args : List ℝ
  data : List ℝ
  derivs : List (List ℝ)
  lagtype : Char

/-- The last value of a nonempty array. -/
def lastOf (x : List ℝ) : ℝ := x.getLastD 0

/-- `wmdt`, spectrum/core.py L3411-3414. -/
def wmdt : FreqType → ℝ
  | .f => 1 / 2
  | .w => Real.pi
  | .k => Real.pi

/-- `sampling_period`, spectrum/core.py L3384-3418. -/
def samplingPeriod (s : Spec) : ℝ := wmdt s.ftype / lastOf s.args

/-- `lagtype`, spectrum/core.py L772-776. -/
def lagtypeOf : FreqType → Char
  | .f => 't'
  | .w => 't'
  | .k => 'x'

/-- `np.diff`. -/
def diffs (x : List ℝ) : List ℝ := List.zipWith (fun a b => b - a) x x.tail

/-- `rate`, spectrum/core.py L925-930. -/
def rateOf : Option ℕ → ℕ
  | none => 1
  | some r => if 16 < r then 16 else pow2 r

/-- `r_[a, zeros(m), tail[n-2:0:-1]]` for two arrays of length `n`. -/
def embed (m : ℕ) (a b : List ℂ) : List ℂ := a ++ List.replicate m 0 ++ ((b.take (b.length - 1)).drop 1).reverse

/-- The angular frequencies, spectrum/core.py L944-947. -/
def angular (s : Spec) : List ℝ :=
  match s.ftype with
  | .f => s.args.map (· * 2 * Real.pi)
  | .w => s.args
  | .k => s.args

/-- The periodogram and its products with the frequencies, spectrum/core.py L952-953 and L963-966. -/
def rper (s : Spec) (nfft : ℕ) : ℕ → List ℂ
  | 0 =>
    let specn := toC (s.data.map (· * lastOf s.args))
    embed (nfft + 2 - 2 * s.args.length) specn specn
  | i + 1 =>
    let w := toC (angular s)
    List.zipWith (fun w r => -Complex.I * w * r) (embed (nfft + 2 - 2 * s.args.length) w (w.map fun v => -v)) (rper s nfft i)

/-- The real part of the transform, spectrum/core.py L956 and L967. -/
def covValues (s : Spec) (nfft nt i : ℕ) : List ℝ :=
  (List.range (nt + 1)).map fun k => (fft nfft (rper s nfft i) k).re / (2 * s.args.length - 2 : ℕ)

/-- The number of lags, spectrum/core.py L932-935. -/
def ntOf (nt : Option ℕ) (rate nf : ℕ) : ℕ :=
  match nt with
  | none => rate * (nf - 1)
  | some n => min n (rate * (nf - 1))

/-- `SpecData1D.tocovdata(nr, nt, rate)`, spectrum/core.py L912-969. -/
def specToCov (s : Spec) (nr : ℕ) (nt rate : Option ℕ) : Except PyErr Acf :=
  match s.args with
  | [] => .error .indexError
  | f0 :: _ =>
    if 0 < f0 then .error .valueError
    else if (diffs (diffs s.args)).any (fun d => decide (1 / 10 ^ 8 < |d|)) then .error .valueError
    else
      let nf := s.args.length
      let r := rateOf rate
      let n := ntOf nt r nf
      let nfft := r * pow2 (2 * nf - 2)
      .ok { args := (List.range (n + 1)).map fun k : ℕ => (k : ℝ) * samplingPeriod s * (2 * nf - 2 : ℕ) / nfft
            data := covValues s nfft n 0
            derivs := (List.range nr).map fun i => covValues s nfft n (i + 1)
            lagtype := lagtypeOf s.ftype }

/-- `CovData1D.sampling_period`, covariance/core.py L275-292. -/
def covPeriod (a : Acf) : ℝ := (lastOf a.args - a.args.headD 0) / (a.args.length - 1 : ℕ)

/-- `rate` in covariance/core.py L235-238. -/
def covRate : Option ℕ → ℕ
  | none => 1
  | some r => pow2 r

/-- `acf[0] = acf[0] + nugget`, covariance/core.py L242: `acf` is the array of the object itself. -/
def addNugget (nugget : ℝ) : List ℝ → List ℝ
  | [] => []
  | a :: l => (a + nugget) :: l

/-- The length of the transform, covariance/core.py L246-249. -/
def covNfft (n rate : ℕ) (fast : Bool) : ℕ := (if fast then pow2 (2 * n - 2) else 2 * n - 2) * rate

/-- The clipped periodogram, covariance/core.py L252-254. -/
def covPer (acf : List ℝ) (nfft : ℕ) (k : ℕ) : ℝ :=
  max 0 (fft nfft (embed (nfft + 2 - 2 * acf.length) (toC acf) (toC acf)) k).re

/-- The largest value of the periodogram, covariance/core.py L255. -/
def covPerMax (acf : List ℝ) (nfft : ℕ) : ℝ := ((List.range nfft).map (covPer acf nfft)).foldr max 0

/-- The periodogram without its small values, covariance/core.py L256. -/
def covTrunc (acf : List ℝ) (nfft : ℕ) (trunc : ℝ) (k : ℕ) : ℝ :=
  if covPer acf nfft k < trunc * covPerMax acf nfft then 0 else covPer acf nfft k

/-- `CovData1D.tospecdata(rate, 'fft', nugget, trunc, fast)`, covariance/core.py L223-263: the values that the covariance function has
afterwards, and the spectrum. -/
def covToSpec (a : Acf) (rate : Option ℕ) (nugget trunc : ℝ) (fast : Bool) : Except PyErr (List ℝ × Spec) :=
  if a.args.length < 2 ∨ a.data = [] then .error .indexError
  else
    let dt := covPeriod a
    let acf := addNugget nugget a.data
    let nfft := covNfft acf.length (covRate rate) fast
    let nf := nfft / 2
    .ok (acf,
      { args := (List.range (nf + 1)).map fun k : ℕ => (k : ℝ) * (Real.pi / dt / nf)
        data := (List.range (nf + 1)).map fun k => |covTrunc acf nfft trunc k| * dt / Real.pi
        ftype := if a.lagtype = 't' then .w else .k })

end

end Wafo.Cov

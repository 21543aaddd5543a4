import Mathlib.Analysis.SpecialFunctions.Gamma.Basic
import Mathlib.Analysis.SpecialFunctions.Pow.Real
import Mathlib.Analysis.SpecialFunctions.Trigonometric.Basic
import Verif.Basic
import Verif.Poly.Model

/-!
# Model of `wafo/kdetools/kernels.py`

A point in `d` dimensions is a function `Fin d → ℝ`; the code handles the columns of a `d x n` array one by
one.  Not modelled here: `hisj`, `hmns`, rounding.
-/

namespace Wafo.Kde

open Real

/-- `sphere_volume(d, r)`, kernels.py L235-259. -/
noncomputable def sphereVolume (d : ℕ) (r : ℝ) : ℝ :=
  r ^ d * 2 * π ^ ((d : ℝ) / 2) / (d * Gamma ((d : ℝ) / 2))

/-- The kernel classes, kernels.py L319-459: `_KernelMulti(p)`, `_KernelProduct(p)`, `_KernelRectangular`,
`_KernelTriangular`, `_KernelGaussian`, `_KernelLaplace`, `_KernelLogistic`. -/
inductive Shape where
  | multi (p : ℕ)
  | prod (p : ℕ)
  | rect
  | tria
  | gaus
  | lapl
  | logi

/-- `_kernel(x)` of the classes for one column `x`: kernels.py L339-343 (multi), L366-369 (product),
L380-381 (rectangular), L393-395 (triangular), L403-406 (Gaussian), L439-441 (Laplace), L452-454
(logistic). -/
noncomputable def kernelRaw (r : ℝ) {d : ℕ} (x : Fin d → ℝ) : Shape → ℝ
  | .multi p => max (1 - (∑ i, x i ^ 2) / r ^ 2) 0 ^ p
  | .prod p => ∏ i, max (1 - (x i / r) ^ 2) 0 ^ p
  | .rect => open Classical in if ∀ i, |x i| ≤ r then 1 else 0
  | .tria => ∏ i, max (1 - |x i|) 0
  | .gaus => exp (-(1 / 2) * ∑ i, (x i / (r / 4)) ^ 2)
  | .lapl => exp (-∑ i, |x i|)
  | .logi => ∏ i, exp (x i) / (exp (x i) + 1) ^ 2

/-- `norm_factor(d, n)` of the classes: kernels.py L276-279 (base class, used by the triangular and the
logistic kernel: it compares `n`, which is `None` by default, with 0), L332-337, L359-364, L383-385,
L408-410, L443-444. -/
noncomputable def normFactor (r : ℝ) (d : ℕ) (n : Option ℕ) : Shape → Except PyErr ℝ
  | .multi p => .ok (2 ^ p * (p.factorial : ℝ) * sphereVolume d r
      / ∏ k ∈ Finset.range p, ((d : ℝ) + 2 + 2 * k))
  | .prod p => .ok ((2 ^ p * (p.factorial : ℝ) * sphereVolume 1 r
      / ∏ k ∈ Finset.range p, ((1 : ℝ) + 2 + 2 * k)) ^ d)
  | .rect => .ok ((2 * r) ^ d)
  | .gaus => .ok ((2 * π * (r / 4)) ^ ((d : ℝ) / 2))
  | .lapl => .ok (2 ^ d)
  | .tria | .logi =>
    if d = 0 then .error .valueError
    else match n with
      | none => .error .typeError
      | some n => if n = 0 then .error .valueError else .ok 1

/-- A kernel object: class, radius and `stats = (mu2, R, Rdd)`, `none` for `np.inf`. -/
structure Obj where
  shape : Shape
  r : ℝ
  mu2 : ℝ
  R : ℝ
  Rdd : Option ℝ

/-- `norm_kernel(x)`, kernels.py L285-287, for one column of an array with `n` columns. -/
noncomputable def normKernel (k : Obj) {d : ℕ} (n : ℕ) (x : Fin d → ℝ) : Except PyErr ℝ :=
  match normFactor k.r d (some n) k.shape with
  | .ok c => .ok (kernelRaw k.r x k.shape / c)
  | .error e => .error e

noncomputable section

/-- kernels.py L346, with `_stats_epan` L36. -/
def epan : Obj := ⟨.multi 1, 1, 1 / 5, 3 / 5, none⟩
/-- kernels.py L347, with `_stats_biwe` L37. -/
def biwe : Obj := ⟨.multi 2, 1, 1 / 7, 5 / 7, some (45 / 2)⟩
/-- kernels.py L348, with `_stats_triw` L38. -/
def triw : Obj := ⟨.multi 3, 1, 1 / 9, 350 / 429, none⟩
/-- kernels.py L372. -/
def p1ep : Obj := ⟨.prod 1, 1, 1 / 5, 3 / 5, none⟩
/-- kernels.py L373. -/
def p1bi : Obj := ⟨.prod 2, 1, 1 / 7, 5 / 7, some (45 / 2)⟩
/-- kernels.py L374-375. -/
def p1tr : Obj := ⟨.prod 3, 1, 1 / 9, 350 / 429, none⟩
/-- kernels.py L388, with `_stats_rect` L39. -/
def rect : Obj := ⟨.rect, 1, 1 / 3, 1 / 2, none⟩
/-- kernels.py L398, with `_stats_tria` L40. -/
def tria : Obj := ⟨.tria, 1, 1 / 6, 2 / 3, none⟩
/-- kernels.py L433, with `_stats_gaus` L43. -/
def gaus : Obj := ⟨.gaus, 4, 1, 1 / (2 * √π), some (3 / (8 * √π))⟩
/-- kernels.py L447, with `_stats_lapl` L41. -/
def lapl : Obj := ⟨.lapl, 7, 2, 1 / 4, none⟩
/-- kernels.py L457, with `_stats_logi` L42. -/
def logi : Obj := ⟨.logi, 7, π ^ 2 / 3, 1 / 6, some (1 / 42)⟩

/-- `_MKERNEL_DICT[name[:4]]`, kernels.py L459-470 and L558. -/
def lookup (name : String) : Except PyErr Obj :=
  match String.ofList (name.toList.take 4) with
  | "epan" => .ok epan
  | "biwe" => .ok biwe
  | "triw" => .ok triw
  | "p1ep" => .ok p1ep
  | "p1bi" => .ok p1bi
  | "p1tr" => .ok p1tr
  | "rect" => .ok rect
  | "tria" => .ok tria
  | "lapl" => .ok lapl
  | "logi" => .ok logi
  | "gaus" => .ok gaus
  | _ => .error .keyError

/-! ### Derivatives and functionals of the Gaussian kernel -/

/-- `np.polyadd(a, b)`: coefficient lists, highest power first, the shorter one padded in front. -/
def polyadd (a b : List ℝ) : List ℝ :=
  List.zipWith (· + ·) (List.replicate (b.length - a.length) 0 ++ a) (List.replicate (a.length - b.length) 0 ++ b)

/-- `np.polyadd(-np.r_[pn, 0], np.polyder(pn))`, kernels.py L419 and L420. -/
def nextPoly (p : List ℝ) : List ℝ :=
  polyadd ((p ++ [0]).map fun c => -c) (Poly.der1 p)

/-- The polynomials of `deriv4_6_8_10`, kernels.py L416-422: `pn` before the loop and after each of the
`m` passes. -/
def derivPolys : ℕ → List ℝ → List (List ℝ)
  | 0, p => [p]
  | m + 1, p => p :: derivPolys m (nextPoly (nextPoly p))

/-- `deriv4_6_8_10(t, numout)`, kernels.py L412-423. -/
def deriv4 (t : ℝ) (numout : ℕ) : List ℝ :=
  (derivPolys (numout - 1) [1, 0, -6, 0, 3]).map fun p => Poly.peval p t * (exp (-(1 / 2) * t ^ 2) / √(2 * π))

/-- `psi(r, sigma)`, kernels.py L425-430. -/
def psi (r : ℕ) (sigma : ℝ) : ℝ :=
  (-1) ^ (r / 2) * (∏ k ∈ Finset.Ico (r / 2 + 1) (r + 1), (k : ℝ)) / (√π * (2 * sigma) ^ (r + 1))

/-! ### Bandwidths -/

/-- `get_ste_constant(n)`, kernels.py L295-297. -/
def steConstant (k : Obj) (n : ℕ) : ℝ := k.R / (n * k.mu2 ^ 2)

/-- `get_amise_constant(n)`, kernels.py L299-302. -/
def amiseConstant (k : Obj) (n : ℕ) : ℝ := (8 * √π * k.R / (3 * k.mu2 ^ 2 * n)) ^ (1 / 5 : ℝ)

end

/-- `np.percentile(data, q)` with linear interpolation, for non-empty data: with `v = q / 100 * (n - 1)` the
value between the order statistics number `floor v` and the next. -/
noncomputable def percentile (data : List ℝ) (q : ℝ) : ℝ :=
  let s := data.mergeSort (fun a b => decide (a ≤ b))
  let v : ℝ := q / 100 * ((data.length : ℝ) - 1)
  let lo := s.getD ⌊v⌋₊ 0
  let hi := s.getD (min (⌊v⌋₊ + 1) (data.length - 1)) 0
  lo + (hi - lo) * (v - ⌊v⌋₊)

/-- `iqrange(data)`, kernels.py L199-232. -/
noncomputable def iqrange (data : List ℝ) : ℝ := |percentile data 75 - percentile data 25|

/-- `np.std(a, ddof=1)`. -/
noncomputable def std (data : List ℝ) : ℝ :=
  let m := data.sum / data.length
  √((data.map fun x => (x - m) ^ 2).sum / ((data.length : ℝ) - 1))

/-- `hns(data)` for one row of data, kernels.py L590-649. -/
noncomputable def hns (k : Obj) (data : List ℝ) : ℝ :=
  let iqr := iqrange data
  let s := std data
  let sigma := open Classical in if iqr > 0 then min s (iqr / 1.349) else s
  sigma * amiseConstant k data.length

/-- `hos(data)`, kernels.py L651-694. -/
noncomputable def hos (k : Obj) (data : List ℝ) : ℝ := hns k data / 0.93

/-- `_get_g`, kernels.py L761-763. -/
noncomputable def getG (kOrder mu2 psiOrder : ℝ) (n : ℕ) (order : ℕ) : ℝ :=
  (-2 * kOrder / (mu2 * psiOrder * n)) ^ (1 / ((order : ℝ) + 1))

end Wafo.Kde

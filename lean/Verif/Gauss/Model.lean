import Verif.Gauss.Spec
import Mathlib.Analysis.SpecialFunctions.Trigonometric.Inverse

/-!
# Model of the normal probabilities of `/repo/src/wafo/gaussian.py`

Floats are real numbers, `nan` is `none`; the literal `twopi = 6.283185307179586e0` (L818) is `2π`.
`scipy.special.ndtr` (`cdfnorm`, L4) is the standard normal distribution function `Phi`, and
`scipy.special.erfc` (L5) is `erfc`, both from the specification.  The Fortran extensions
(`mvnprdmod`, `rindmod`) and `scipy.stats.multivariate_normal` are not modelled.
-/

namespace Wafo.Gauss

/-- `/repo/src/wafo/gaussian.py` L400-455: `cdflomax`, for one evaluation point. -/
noncomputable def cdflomax (x alpha m0 : ℝ) : ℝ :=
  let c1 := 1 / √(1 - alpha ^ 2) * x / √m0
  let c2 := alpha * c1
  Phi c1 - alpha * Real.exp (-x ^ 2 / 2 / m0) * Phi c2

/-- `/repo/src/wafo/gaussian.py` L920-921: `fi`. -/
noncomputable def fi (x : ℝ) : ℝ := 0.5 * erfc (-x / √2)

/-- `/repo/src/wafo/gaussian.py` L730-732: weights and nodes, `n = 6` (`_W6`, `_X6`). -/
def tab6 : List (ℚ × ℚ) :=
  [(0.1713244923791705, -0.9324695142031522), (0.3607615730481384, -0.6612093864662647),
   (0.4679139345726904, -0.2386191860831970)]

/-- `/repo/src/wafo/gaussian.py` L734-739: weights and nodes, `n = 12` (`_W12`, `_X12`). -/
def tab12 : List (ℚ × ℚ) :=
  [(0.04717533638651177, -0.9815606342467191), (0.1069393259953183, -0.9041172563704750),
   (0.1600783285433464, -0.7699026741943050), (0.2031674267230659, -0.5873179542866171),
   (0.2334925365383547, -0.3678314989981802), (0.2491470458134029, -0.1252334085114692)]

/-- `/repo/src/wafo/gaussian.py` L741-750: weights and nodes, `n = 20` (`_W20`, `_X20`). -/
def tab20 : List (ℚ × ℚ) :=
  [(0.01761400713915212, -0.9931285991850949), (0.04060142980038694, -0.9639719272779138),
   (0.06267204833410906, -0.9122344282513259), (0.08327674157670475, -0.8391169718222188),
   (0.1019301198172404, -0.7463319064601508), (0.1181945319615184, -0.6360536807265150),
   (0.1316886384491766, -0.5108670019508271), (0.1420961093183821, -0.3737060887154196),
   (0.1491729864726037, -0.2277858511416451), (0.1527533871307259, -0.07652652113349733)]

/-- The double loop `for i in range(n): for sign in -1, 1: acc += W[i] * f(sign*X[i])` of
`/repo/src/wafo/gaussian.py` L829-833, L838-842, L847-851 and L890-902. -/
noncomputable def glSum (tab : List (ℚ × ℚ)) (f : ℝ → ℝ) : ℝ :=
  tab.foldl (fun acc p => (acc + p.1 * f (-1 * p.2)) + p.1 * f (1 * p.2)) 0

/-- The rule chosen for a correlation below 0.925 in magnitude
(`/repo/src/wafo/gaussian.py` L826, L835, L844). -/
noncomputable def tabOf (r : ℝ) : List (ℚ × ℚ) :=
  if r ≥ 0.75 then tab20 else if 0.3 ≤ r ∧ r < 0.75 then tab12 else tab6

/-- The summand `exp((sn*hk - hs)/(1 - sn*sn))` with `sn = sin(asr*(t + 1)/2)` of
`/repo/src/wafo/gaussian.py` L831-833 (also L840-842, L849-851), as a function of the node `t`. -/
noncomputable def midTerm (h k r t : ℝ) : ℝ :=
  let hs := (h ^ 2 + k ^ 2) / 2
  let sn := Real.sin (Real.arcsin r * (t + 1) / 2)
  Real.exp ((sn * (h * k) - hs) / (1 - sn * sn))

/-- `/repo/src/wafo/gaussian.py` L822-854: one element with `|r| < 0.925`. -/
noncomputable def mid (h k r : ℝ) : ℝ :=
  glSum (tabOf r) (midTerm h k r) * (Real.arcsin r / (2 * (2 * Real.pi))) + fi (-h) * fi (-k)

/-- The summand of `/repo/src/wafo/gaussian.py` L892-902, as a function of the node `t`; `a` is
the value before the halving of L889. -/
noncomputable def highTerm (h k r t : ℝ) : ℝ :=
  let hk := h * k
  let a2 := (1 - r) * (1 + r)
  let a := √a2 / 2
  let bs := |h - k| * |h - k|
  let c := (4 - hk) / 8
  let d := (12 - hk) / 16
  let xs := (a * (t + 1)) ^ 2
  let rs := √(1 - xs)
  let asr := -(bs / xs + hk) / 2
  if asr > -100 then
    a * (Real.exp asr * (Real.exp (-hk * (1 - rs) / (2 * (1 + rs))) / rs -
      (1 + c * xs * (1 + d * xs))))
  else 0

/-- `/repo/src/wafo/gaussian.py` L867-902: what has been accumulated in one element with
`0.925 <= |r| < 1` before L904; `k` has already changed sign when `r < 0`. -/
noncomputable def high (h k r : ℝ) : ℝ :=
  let hk := h * k
  let a2 := (1 - r) * (1 + r)
  let a := √a2
  let b := |h - k|
  let bs := b * b
  let c := (4 - hk) / 8
  let d := (12 - hk) / 16
  let asr := -(bs / a2 + hk) / 2
  let v1 := if asr > -100 then
    a * Real.exp asr * (1 - c * (bs - a2) * (1 - d * bs / 5) / 3 + c * d * a2 ^ 2 / 5) else 0
  let v2 := if hk < 100 then
    v1 - Real.exp (-hk / 2) * √(2 * Real.pi) * fi (-b / a) * b *
      (1 - c * bs * (1 - d * bs / 5) / 3) else v1
  v2 + glSum tab20 (highTerm h k r)

/-- `nonzero(cond)`: the positions at which the condition holds. -/
def nonzero (n : ℕ) (p : ℕ → Bool) : List ℕ := (List.range n).filter p

/-- `v[idx] = f(v[idx])` for an index array: the elements at the listed positions are replaced;
`nan` stays `nan`. -/
def updAt (idx : List ℕ) (f : ℕ → ℝ → ℝ) (v : ℕ → Option ℝ) : ℕ → Option ℝ :=
  fun i => if i ∈ idx then (v i).map (f i) else v i

open Classical in
/-- `/repo/src/wafo/gaussian.py` L811-917: `cdfnorm2d` for the arrays `b1`, `b2`, `r` of length `n`
(after broadcasting and `ravel`). -/
noncomputable def cdfnorm2d (n : ℕ) (b1 b2 r : ℕ → ℝ) : ℕ → Option ℝ :=
  let h := fun i => -b1 i
  let k := fun i => -b2 i
  let bvn : ℕ → Option ℝ := fun i => if |r i| > 1 then none else some 0
  let k0 := nonzero n (fun i => decide (|r i| < 0.925))
  let bvn := updAt k0 (fun i v => v + mid (h i) (k i) (r i)) bvn
  let k1 := nonzero n (fun i => decide (0.925 ≤ |r i| ∧ |r i| ≤ 1))
  let k := fun i => if i ∈ k1 ∧ r i < 0 then -k i else k i
  let k3 := nonzero k1.length (fun j => decide (|r (k1.getD j 0)| < 1))
  let k13 := k3.map (fun j => k1.getD j 0)
  let bvn := updAt k13 (fun i v => v + high (h i) (k i) (r i)) bvn
  let bvn := updAt k3 (fun _ v => -v / (2 * Real.pi)) bvn
  let k17 := k1.filter (fun i => decide (r i > 0))
  let bvn := updAt k17 (fun i v => v + fi (-max (h i) (k i))) bvn
  let k18 := k1.filter (fun i => decide (r i < 0))
  updAt k18 (fun i v => -v + max 0 (fi (-h i) - fi (-k i))) bvn

/-- `cdfnorm2d` of one point: scalar arguments. -/
noncomputable def cdf2 (b1 b2 r : ℝ) : Option ℝ :=
  cdfnorm2d 1 (fun _ => b1) (fun _ => b2) (fun _ => r) 0

/-- `/repo/src/wafo/gaussian.py` L994-995: `bvd`. -/
noncomputable def bvd (F : EReal → EReal → ℝ → ℝ) (lo up : EReal) (r : ℝ) : ℝ := F (-lo) (-up) r

/-- The code `2 - (upper > 37) - 2*(lower < -37)` of `/repo/src/wafo/gaussian.py` L964. -/
noncomputable def infin (lo up : EReal) : ℤ :=
  2 - (if up > 37 then 1 else 0) - 2 * (if lo < -37 then 1 else 0)

/-- `/repo/src/wafo/gaussian.py` L924-991: `prbnorm2d`; the limits may be infinite, and `F` is the
bivariate distribution function `cdfnorm2d` on extended limits. -/
noncomputable def prbnorm2d (F : EReal → EReal → ℝ → ℝ) (a b : EReal × EReal) (r : ℝ) : ℝ :=
  if (a.1 ≤ -37 ∧ 37 ≤ b.1) ∧ (a.2 ≤ -37 ∧ 37 ≤ b.2) then 1
  else if a.1 ≥ b.1 ∨ a.2 ≥ b.2 then 0
  else
    let i0 := infin a.1 b.1
    let i1 := infin a.2 b.2
    if i0 = 2 ∧ i1 = 2 then
      bvd F a.1 a.2 r - bvd F b.1 a.2 r - bvd F a.1 b.2 r + bvd F b.1 b.2 r
    else if i0 = 2 ∧ i1 = 1 then bvd F a.1 a.2 r - bvd F b.1 a.2 r
    else if i0 = 1 ∧ i1 = 2 then bvd F a.1 a.2 r - bvd F a.1 b.2 r
    else if i0 = 2 ∧ i1 = 0 then bvd F (-b.1) (-b.2) r - bvd F (-a.1) (-b.2) r
    else if i0 = 0 ∧ i1 = 2 then bvd F (-b.1) (-b.2) r - bvd F (-b.1) (-a.2) r
    else if i0 = 1 ∧ i1 = 0 then bvd F a.1 (-b.2) (-r)
    else if i0 = 0 ∧ i1 = 1 then bvd F (-b.1) a.2 (-r)
    else if i0 = 1 ∧ i1 = 1 then bvd F a.1 a.2 r
    else if i0 = 0 ∧ i1 = 0 then bvd F (-b.1) (-b.2) r
    else 1

end Wafo.Gauss

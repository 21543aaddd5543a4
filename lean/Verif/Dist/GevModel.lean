import Verif.Basic
import Verif.Dist.LogModel
import Verif.Dist.EntModel
import Verif.Dist.MomSpec

/-!
# Moments of the generalized extreme value distribution
-/

namespace Wafo.Dist

noncomputable section

open Real Finset
open scoped Classical

namespace GenExtreme

/-- stats/_continuous_distns.py:2758 -/
def g (c : ℝ) (n : ℕ) : ℝ := Gamma (n * c + 1)

/-- stats/_continuous_distns.py:2763 -/
def g2mg12 (c : ℝ) : ℝ := if |c| < 1e-7 then (c * π) ^ (2 : ℝ) / 6.0 else g c 2 - g c 1 ^ (2 : ℝ)

/-- stats/_continuous_distns.py:2764-2765; `gammaln(0)` is `inf` -/
def gam2k (c : ℝ) : Val :=
  if |c| < 1e-7 then .fin (π ^ (2 : ℝ) / 6.0)
  else if 2.0 * c + 1.0 = 0 then .inf
  else .fin (expm1 (gammaln (2.0 * c + 1.0) - 2 * gammaln (c + 1.0)) / c ^ (2 : ℝ))

/-- stats/_continuous_distns.py:2767, `-gamk`; `gammaln(0)` is `inf`, and then `c = -1` -/
def mgamk (c : ℝ) : Val :=
  if |c| < 1e-14 then .fin euler else if c + 1 = 0 then .inf else .fin (-(expm1 (gammaln (c + 1)) / c))

/-- stats/_continuous_distns.py:2769 -/
def mean (c : ℝ) : Val := if c < -1.0 then .nan else mgamk c

/-- stats/_continuous_distns.py:2770 -/
def var (c : ℝ) : Val :=
  if c < -0.5 then .nan
  else match gam2k c with
    | .fin x => .fin (g c 1 ^ (2 : ℝ) * x)
    | v => v

/-- stats/_continuous_distns.py:2776, the skewness away from zero; `gamma(0)` is `inf`; `d` is `g2mg12` -/
def sk1 (c d : ℝ) : Val :=
  if 3 * c + 1 = 0 then .inf
  else .fin (SignType.sign c * (-g c 3 + (g c 2 + 2 * d) * g c 1) / d ^ (1.5 : ℝ))

/-- stats/_continuous_distns.py:2778, the skewness at zero -/
def skZero : Val := .fin (12 * √6 * hzeta 3 1 / π ^ 3)

/-- stats/_continuous_distns.py:2773-2778, for one number `c` -/
def skew (c : ℝ) : Val :=
  if |c| ≤ (1e-14 : ℝ) ^ (0.29 : ℝ) then skZero
  else if -1 / 3 ≤ c then sk1 c (g2mg12 c)
  else .nan

/-- `np.place` in `_lazywhere`: the places with `-1/3 <= c` get the values one after the other, the others
the `fillvalue` -/
def place : List ℝ → List Val → List Val
  | [], _ => []
  | c :: cs, vs => if -1 / 3 ≤ c then vs.headD .nan :: place cs vs.tail else .nan :: place cs vs

/-- stats/_continuous_distns.py:2773-2778, for an array.  The parameter of the `lambda` is called `g2gm12`,
so that its `g2mg12` is the array for all `c`, not only for those with `-1/3 <= c`; numpy broadcasts
this array with the selected ones. -/
def skewArr (cs : List ℝ) : Except PyErr (List Val) :=
  let d := cs.map g2mg12
  let sel := cs.filter fun c => decide (-1 / 3 ≤ c)
  let vals : Except PyErr (List Val) :=
    if sel.length = d.length then .ok (List.zipWith sk1 sel d)
    else match sel, d with
      | [c], d => .ok (d.map (sk1 c))
      | sel, [x] => .ok (sel.map fun c => sk1 c x)
      | _, _ => .error .valueError
  match vals with
  | .error e => .error e
  | .ok vals => .ok (List.zipWith
      (fun c s => if |c| ≤ (1e-14 : ℝ) ^ (0.29 : ℝ) then skZero else s) cs (place cs vals))

/-- stats/_continuous_distns.py:2781-2786; `gamma(0)` is `inf` -/
def kurt (c : ℝ) : Val :=
  if |c| ≤ (1e-14 : ℝ) ^ (0.23 : ℝ) then .fin (12.0 / 5.0)
  else if -1 / 4 ≤ c then
    if 4 * c + 1 = 0 then .inf
    else .fin ((g c 4 + (-4 * g c 3 + 3 * (g c 2 + g2mg12 c) * g c 1) * g c 1) / g2mg12 c ^ 2 - 3.0)
  else .nan

/-- stats/_continuous_distns.py:2757-2787 -/
def stats (c : ℝ) : Val × Val × Val × Val := (mean c, var c, skew c, kurt c)

/-- stats/_continuous_distns.py:2807-2812; for `c = 0` and positive `n` the code multiplies
`1.0 / 0.0` with a sum which is zero -/
def munp (n : ℕ) (c : ℝ) : Val :=
  if c = 0 ∧ n ≠ 0 then .nan
  else if c * n > -1 then
    .fin (1.0 / c ^ n * ∑ k ∈ range (n + 1), (n.choose k : ℝ) * (-1) ^ k * Gamma (c * k + 1))
  else .inf

end GenExtreme

end

end Wafo.Dist

import Mathlib.Analysis.SpecialFunctions.Trigonometric.DerivHyp
import Verif.Basic

/-!
# Second order waves: `disufq` (`_misc_numba.py:251-471`) and `qtf` (`spectrum/core.py:66-248`)

`disufq` accumulates the sum and difference frequency contributions of all pairs of wave components into the
flat arrays `rvec`, `ivec` of `n * m` numbers; `qtf` returns the tables of the quadratic transfer functions.

Simplifications.  Floats are real numbers.  The input arrays `rA`, `iA`, `w`, `kw` are functions of the index (reads
past their end are not modelled); `nmin` is written as `n0 + 1` (the code starts the loop at `nmin - 1`).
The accumulated amounts do not depend on `rvec` and `ivec`, so the loops are modelled as the list of updates in
program order, which `run` then performs one after the other; an update with an index not below `n * m` is a write
outside the arrays (`oobWrite`; the compiled code does not check it).
The tables of `qtf` are modelled entry by entry, for frequencies that are not within `_EPS` of zero, and with the
additions of `_TINY = 2.2e-308` in the denominators left out (they are absorbed by rounding there).
-/

namespace Wafo.Disufq

/-- One update: `rvec[idx] += dr; ivec[idx] += di`. -/
structure Upd where
  idx : ℕ
  dr : ℝ
  di : ℝ

/-- The two output arrays. -/
structure Acc where
  r : ℕ → ℝ
  v : ℕ → ℝ

/-- `np.zeros(n * m)` twice (`_misc_numba.py:464-465`). -/
def Acc.zero : Acc := ⟨fun _ => 0, fun _ => 0⟩

/-- `rvec[idx] += dr; ivec[idx] += di` on arrays of `size` numbers. -/
def write (size : ℕ) (s : Acc) (u : Upd) : Except PyErr Acc :=
  if u.idx < size then
    .ok ⟨fun j => if j = u.idx then s.r j + u.dr else s.r j, fun j => if j = u.idx then s.v j + u.di else s.v j⟩
  else .error .oobWrite

/-- The updates one after the other. -/
def run (size : ℕ) : List Upd → Acc → Except PyErr Acc
  | [], s => .ok s
  | u :: us, s => match write size s u with
    | .error e => .error e
    | .ok s' => run size us s'

/-- The constant `kfact` (`_misc_numba.py:259, 368`). -/
def kfact : ℝ := 2

/-- `range(a, b)`. -/
def pyRange (a b : ℕ) : List ℕ := List.range' a (b - a)

/-- Sum frequency effects along the diagonal, deep water (`_misc_numba.py:370-391`). -/
def diagDeep (rA iA : ℕ → ℝ) (m ix : ℕ) (ep : ℝ) : List Upd :=
  (List.range m).map fun i =>
    let a := ix * m + i
    ⟨2 * (ix * m) + i, kfact * (rA a * rA a - iA a * iA a) * ep, kfact * 2 * (rA a * iA a) * ep⟩

/-- Sum frequency and mean effects along the diagonal, finite depth (`_misc_numba.py:281-300`). -/
def diagFinite (rA iA : ℕ → ℝ) (m ix : ℕ) (ep ed : ℝ) : List Upd :=
  (List.range m).flatMap fun i =>
    let a := ix * m + i
    [⟨2 * (ix * m) + i, kfact * (rA a * rA a - iA a * iA a) * ep, kfact * 2 * (rA a * iA a) * ep⟩,
      ⟨i, 2 * (rA a * rA a + iA a * iA a) * ed, 0⟩]

/-- Sum and difference frequency effects of a pair (`_misc_numba.py:323-357, 399-433`). -/
def pairUpd (rA iA : ℕ → ℝ) (m ix jy : ℕ) (ep ed : ℝ) : List Upd :=
  (List.range m).flatMap fun i =>
    let a := ix * m + i
    let b := jy * m + i
    [⟨(ix * m + jy * m) + i, kfact * 2 * (rA a * rA b - iA a * iA b) * ep,
        kfact * 2 * (rA a * iA b + iA a * rA b) * ep⟩,
      ⟨(jy * m - ix * m) + i, kfact * 2 * (rA a * rA b + iA a * iA b) * ed,
        kfact * 2 * (rA a * iA b - iA a * rA b) * ed⟩]

/-- `_deep_water_disufq` (`_misc_numba.py:363-433`). -/
def deepUpd (rA iA kw : ℕ → ℝ) (n0 nmax m : ℕ) : List Upd :=
  (pyRange n0 nmax).flatMap fun ix =>
    diagDeep rA iA m ix (kw ix) ++
      (pyRange (ix + 1) nmax).flatMap fun jy =>
        pairUpd rA iA m ix jy (0.5 * (kw jy + kw ix)) (-0.5 * (kw jy - kw ix))

/-- The wave group velocity (`_misc_numba.py:264-266`). -/
noncomputable def groupVel (g h w1 k1 : ℝ) : ℝ :=
  let tmp1 := Real.tanh (k1 * h)
  0.5 * g * (tmp1 + k1 * h * (1 - tmp1 * tmp1)) / w1

/-- `Edij` on the diagonal (`_misc_numba.py:263-273`). -/
noncomputable def difDiag (g h w1 k1 : ℝ) : ℝ :=
  let cg := groupVel g h w1 k1
  let tmp1 := 0.5 * g * (k1 / w1) * (k1 / w1)
  let tmp2 := 0.5 * w1 * w1 / g
  let tmp3 := g * k1 / (w1 * cg)
  let tmp4 := if k1 * h < 300 then k1 / Real.sinh (2 * k1 * h) else 0
  (tmp1 - tmp2 + tmp3) / (1 - g * h / (cg * cg)) - tmp4

/-- `Epij` on the diagonal (`_misc_numba.py:267-278`). -/
noncomputable def sumDiag (g h w1 k1 : ℝ) : ℝ :=
  let tmp1 := 0.5 * g * (k1 / w1) * (k1 / w1)
  let tmp2 := 0.5 * w1 * w1 / g
  3 * (tmp1 - tmp2) / (1 - tmp1 / k1 * Real.tanh (2 * k1 * h)) + 3 * tmp2 - tmp1

/-- `Epij` of a pair (`_misc_numba.py:307-313`). -/
noncomputable def sumOff (g h w1 w2 k1 k2 : ℝ) : ℝ :=
  let tmp1 := g * (k1 / w1) * (k2 / w2)
  let tmp2 := 0.5 / g * (w1 * w1 + w2 * w2 + w1 * w2)
  let tmp3 := 0.5 * g * (w1 * k2 * k2 + w2 * k1 * k1) / (w1 * w2 * (w1 + w2))
  let tmp4 := 1 - g * (k1 + k2) / (w1 + w2) / (w1 + w2) * Real.tanh ((k1 + k2) * h)
  (tmp1 - tmp2 + tmp3) / tmp4 + tmp2 - 0.5 * tmp1

/-- `Edij` of a pair (`_misc_numba.py:307, 315-320`). -/
noncomputable def difOff (g h w1 w2 k1 k2 : ℝ) : ℝ :=
  let tmp1 := g * (k1 / w1) * (k2 / w2)
  let tmp2 := 0.5 / g * (w1 * w1 + w2 * w2 - w1 * w2)
  let tmp3 := -0.5 * g * (w1 * k2 * k2 - w2 * k1 * k1) / (w1 * w2 * (w1 - w2))
  let tmp4 := 1 - g * (k1 - k2) / (w1 - w2) / (w1 - w2) * Real.tanh ((k1 - k2) * h)
  (tmp1 - tmp2 + tmp3) / tmp4 + tmp2 - 0.5 * tmp1

/-- `_finite_water_disufq` (`_misc_numba.py:254-357`). -/
noncomputable def finiteUpd (rA iA w kw : ℕ → ℝ) (h g : ℝ) (n0 nmax m : ℕ) : List Upd :=
  (pyRange n0 nmax).flatMap fun ix =>
    diagFinite rA iA m ix (sumDiag g h (w ix) (kw ix)) (difDiag g h (w ix) (kw ix)) ++
      (pyRange (ix + 1) nmax).flatMap fun jy =>
        pairUpd rA iA m ix jy (sumOff g h (w ix) (w jy) (kw ix) (kw jy))
          (difOff g h (w ix) (w jy) (kw ix) (kw jy))

/-- `disufq(rA, iA, w, kw, h, g, n0 + 1, nmax, m, n)` (`_misc_numba.py:436-471`). -/
noncomputable def disufq (rA iA w kw : ℕ → ℝ) (h g : ℝ) (n0 nmax m n : ℕ) : Except PyErr Acc :=
  if h > 10000 then run (n * m) (deepUpd rA iA kw n0 nmax m) Acc.zero
  else run (n * m) (finiteUpd rA iA w kw h g n0 nmax m) Acc.zero

/-! ## The quadratic transfer functions of `qtf` -/

/-- `h_s` for `h == inf` (`spectrum/core.py:173`). -/
noncomputable def qtfSumInf (k1 k2 : ℝ) : ℝ := 0.25 * (|k1| + |k2|)

/-- `h_d` for `h == inf` (`spectrum/core.py:174`). -/
noncomputable def qtfDifInf (k1 k2 : ℝ) : ℝ := -0.25 * abs (abs k1 - abs k2)

/-- `h_s`, method 'winterstein' (`spectrum/core.py:216-222`). -/
noncomputable def qtfSumW (g h w1 w2 k1 k2 : ℝ) : ℝ :=
  let tmp1 := 2 * g * (k1 * k2) / (w1 * w2)
  let tmp2 := (w1 ^ 2 + w2 ^ 2 + w1 * w2) / g
  0.25 * ((tmp1 - tmp2 + g * (w1 * k2 ^ 2 + w2 * k1 ^ 2) / (w1 * w2 * (w1 + w2))) /
    (1 - g * h * (k1 + k2) / (w1 + w2) ^ 2 * Real.tanh (k1 + k2)) + tmp2 - 0.5 * tmp1)

/-- `h_d` off the diagonal, method 'winterstein' (`spectrum/core.py:216, 224-229`). -/
noncomputable def qtfDifW (g h w1 w2 k1 k2 : ℝ) : ℝ :=
  let tmp1 := 2 * g * (k1 * k2) / (w1 * w2)
  let tmp3 := (w1 ^ 2 + w2 ^ 2 - w1 * w2) / g
  let numerator := tmp1 - tmp3 - g * (w1 * k2 ^ 2 - w2 * k1 ^ 2) / (w1 * w2 * (w1 - w2))
  0.25 * (numerator / (1 - g * h * |k1 - k2| / (w1 - w2) ^ 2 * Real.tanh |k1 - k2|) + tmp3 - 0.5 * tmp1)

/-- `h_s`, method 'langley' (`spectrum/core.py:194-203`). -/
noncomputable def qtfSumL (g h w1 w2 k1 k2 : ℝ) : ℝ :=
  let p1 := (-2 * (w1 + w2) * (k1 * k2 * g ^ 2 - (w1 * w2) ^ 2) + w1 * (w2 ^ 4 - g ^ 2 * k2 ^ 2) +
    w2 * (w1 ^ 4 - g * 2 * k1 ^ 2)) / (4 * (w1 * w2))
  let p2 := (w1 + w2) ^ 2 * Real.cosh ((k1 + k2) * h) - g * (k1 + k2) * Real.sinh ((k1 + k2) * h);
  (-p1) / p2 * (w1 + w2) * Real.cosh ((k1 + k2) * h) / g - (k1 * k2 * g ^ 2 - (w1 * w2) ^ 2) / (4 * g * (w1 * w2)) +
    (w1 ^ 2 + w2 ^ 2) / (4 * g)

/-- `h_d` off the diagonal, method 'langley' (`spectrum/core.py:205-213`). -/
noncomputable def qtfDifL (g h w1 w2 k1 k2 : ℝ) : ℝ :=
  let p3 := (-2 * (w1 - w2) * (k1 * k2 * g ^ 2 + (w1 * w2) ^ 2) - w1 * (w2 ^ 4 - g ^ 2 * k2 ^ 2) +
    w2 * (w1 ^ 4 - g ^ 2 * k1 ^ 2)) / (4 * (w1 * w2))
  let p4 := (w1 - w2) ^ 2 * Real.cosh (|k1 - k2| * h) - g * |k1 - k2| * Real.sinh (|k1 - k2| * h);
  (-p3) / p4 * (w1 - w2) * Real.cosh (|k1 - k2| * h) / g - (k1 * k2 * g ^ 2 + (w1 * w2) ^ 2) / (4 * g * (w1 * w2)) +
    (w1 ^ 2 + w2 ^ 2) / (4 * g)

/-- `h_dii`, the diagonal of `h_d` for both methods (`spectrum/core.py:239-243`). -/
noncomputable def qtfDiag (g h w k : ℝ) : ℝ :=
  let kh := k * h
  let cg := 0.5 * g * (Real.tanh kh + kh / Real.cosh kh ^ 2) / w
  let numerator2 := g * (k / w) ^ 2 - w ^ 2 / g + 2 * g * k / (w * cg)
  0.25 * (numerator2 / (1 - g * h / cg ^ 2) - 2 * k / Real.sinh (2 * kh))

end Wafo.Disufq

import Mathlib.LinearAlgebra.Matrix.NonsingularInverse
import Mathlib.Analysis.SpecialFunctions.Log.Basic
import Verif.Grid.Model
import Verif.Kde.Kernel

/-!
# Model of `wafo/kdetools/kdetools.py`

The classes `KDE`, `TKDE` (one dimension), `KRegression` and parts of `BKRegression`.  Floating point numbers are
real numbers.  A data set is a list of `n` points `Fin d → ℝ`, given as a function of the index.  Not modelled:
plot objects, `griddata` interpolation, the multidimensional grid functions, `prb_smoothed`.
-/

namespace Wafo.Kde

open Real Matrix

/-- The state of a `KDE` object: `kernel`, `dataset`, `_inv_hs`, the determinant in `_norm_factor`, `_lambda`. -/
structure KDE (d n : ℕ) where
  kernel : Obj
  data : Fin n → Fin d → ℝ
  invHs : Matrix (Fin d) (Fin d) ℝ
  deth : ℝ
  lam : Fin n → ℝ

/-- `_check_shape(points)`, kdetools.py L226-234, for an array with the given rows: an array with the wrong number
of rows is accepted when it is one row with `d` numbers, and is then one point. -/
def checkShape (d : ℕ) (rows : List (List ℝ)) : Except PyErr (List (List ℝ)) :=
  if rows.length = d then .ok rows
  else match rows with
    | [row] => if row.length = d then .ok (row.map fun v => [v]) else .error .valueError
    | _ => .error .valueError

/-- `_check_hs(h)` for a vector, kdetools.py L614-626.  `dflt i` is `get_smoothing(dataset[i])`.  A single number is
multiplied by `ones(d)`; a vector is reshaped to `d` numbers, which keeps its type: `store` is the conversion on
assignment (the identity for floats, truncation for integers). -/
noncomputable def checkHs (store : ℝ → ℝ) (d : ℕ) (dflt : Fin d → ℝ) (h : List ℝ) : Except PyErr (Fin d → ℝ) :=
  if h.length = 1 then
    .ok fun i => open Classical in if h.getD 0 0 ≤ 0 then dflt i else h.getD 0 0
  else if h.length = d then
    .ok fun i => open Classical in if h.getD i 0 ≤ 0 then store (dflt i) else h.getD i 0
  else .error .valueError

/-- `_invert_hs(h)` for a vector, kdetools.py L628-631: the inverse and the determinant. -/
noncomputable def invertVec {d : ℕ} (h : Fin d → ℝ) : Matrix (Fin d) (Fin d) ℝ × ℝ :=
  (diagonal fun i => 1 / h i, ∏ i, h i)

/-- `_invert_hs(h)` for a matrix, kdetools.py L632-637. -/
noncomputable def invertMat {d : ℕ} (h : Matrix (Fin d) (Fin d) ℝ) : Except PyErr (Matrix (Fin d) (Fin d) ℝ × ℝ) :=
  open Classical in if 0 < h.det then .ok (h⁻¹, h.det) else .error .valueError

/-- `_moment_fun(r)`, kdetools.py L750-753. -/
def momentFun (r : ℕ) {d : ℕ} (x : Fin d → ℝ) : ℝ := if r = 0 then 1 else ∑ i, x i ^ r

/-- `norm_factor`, kdetools.py L755-757, with `_norm_factor` from L650. -/
noncomputable def KDE.normFactor {d n : ℕ} (k : KDE d n) : Except PyErr ℝ :=
  match Kde.normFactor k.kernel.r d (some n) k.kernel.shape with
  | .ok c => .ok (k.deth * n * c)
  | .error e => .error e

/-- The loop of `_loop_over_data`, kdetools.py L768-771: all points are updated for each datum in turn. -/
noncomputable def KDE.dataLoop {d n : ℕ} (k : KDE d n) (y : Fin n → ℝ) (r : ℕ) (points : List (Fin d → ℝ)) : List ℝ :=
  (List.finRange n).foldl (fun result i => List.zipWith (· + ·) result (points.map fun p =>
      let dxi : Fin d → ℝ := p - k.data i
      momentFun r dxi * kernelRaw k.kernel.r (((1 / k.lam i) • k.invHs) *ᵥ dxi) k.kernel.shape * (y i / k.lam i ^ d)))
    (points.map fun _ => 0)

/-- The loop of `_loop_over_points`, kdetools.py L782-785. -/
noncomputable def KDE.pointLoop {d n : ℕ} (k : KDE d n) (y : Fin n → ℝ) (r : ℕ) (points : List (Fin d → ℝ)) : List ℝ :=
  points.map fun p => ((List.finRange n).map fun i =>
      let dxi : Fin d → ℝ := p - k.data i
      momentFun r dxi * kernelRaw k.kernel.r (k.invHs *ᵥ ((1 / k.lam i) • dxi)) k.kernel.shape * (y i / k.lam i ^ d)).sum

/-- `_eval_points(points, y=y, r=r)`, kdetools.py L807-816. -/
noncomputable def KDE.evalPoints {d n : ℕ} (k : KDE d n) (y : Fin n → ℝ) (r : ℕ) (points : List (Fin d → ℝ)) :
    Except PyErr (List ℝ) :=
  match k.normFactor with
  | .ok c => .ok ((if n ≤ points.length then k.dataLoop y r points else k.pointLoop y r points).map fun v => v / c)
  | .error e => .error e

/-- The setter of `alpha`, kdetools.py L672-680. -/
noncomputable def KDE.setAlpha {d n : ℕ} (k : KDE d n) (alpha : ℝ) : Except PyErr (KDE d n) :=
  let k1 := { k with lam := fun _ => 1 }
  open Classical in
  if 0 < alpha then
    match k1.evalPoints (fun _ => 1) 0 (List.ofFn k.data) with
    | .ok f =>
      let g := exp ((f.map log).sum / n)
      .ok { k1 with lam := fun i => (f.getD i 0 / g) ^ (-alpha) }
    | .error e => .error e
  else .ok k1

/-- Construction of a `KDE` with a vector of smoothing parameters, kdetools.py L607-612 with L643-651. -/
noncomputable def mkVec (store : ℝ → ℝ) (kernel : Obj) {d n : ℕ} (data : Fin n → Fin d → ℝ) (dflt : Fin d → ℝ)
    (h : List ℝ) (alpha : ℝ) : Except PyErr (KDE d n) :=
  match checkHs store d dflt h with
  | .ok hs => KDE.setAlpha ⟨kernel, data, (invertVec hs).1, (invertVec hs).2, fun _ => 1⟩ alpha
  | .error e => .error e

/-- Construction of a `KDE` with a smoothing matrix (`d > 1`). -/
noncomputable def mkMat (kernel : Obj) {d n : ℕ} (data : Fin n → Fin d → ℝ) (h : Matrix (Fin d) (Fin d) ℝ) (alpha : ℝ) :
    Except PyErr (KDE d n) :=
  match invertMat h with
  | .ok r => KDE.setAlpha ⟨kernel, data, r.1, r.2, fun _ => 1⟩ alpha
  | .error e => .error e

/-! ### TKDE, one dimension -/

/-- `_transform(points)`, kdetools.py L387-396, for the exponent `L2 = v`.  `copy.copy` keeps the type of the array
of points: `store` is the conversion on assignment. -/
noncomputable def transform (store : ℝ → ℝ) (v : ℝ) (x : ℝ) : ℝ :=
  open Classical in store (if v = 0 then log x else x ^ v)

/-- `_inverse_transform(tpoints)`, kdetools.py L398-408. -/
noncomputable def invTransform (v : ℝ) (t : ℝ) : ℝ := open Classical in if v = 0 then exp t else t ^ (1 / v)

/-- The factor in `_scale_pdf`, kdetools.py L414-416. -/
noncomputable def scaleFactor (v x : ℝ) : ℝ :=
  open Classical in
  let factor := if v = 0 then 1 else v * (SignType.sign v : ℝ)
  if v = 1 then 1 else x ^ (v - 1) * factor

/-- `_scale_pdf(pdf, points)`, kdetools.py L410-422: `np.diff(pdf).max()` raises ValueError for fewer than two
points. -/
noncomputable def scalePdf (v : ℝ) (pdf points : List ℝ) : Except PyErr (List ℝ) :=
  if pdf.length < 2 then .error .valueError else .ok (List.zipWith (fun f x => f * scaleFactor v x) pdf points)

/-- `TKDE._eval_points(points)`, kdetools.py L491-497, for `L2 = v`; `k` is `self.tkde`. -/
noncomputable def tkdeEval {n : ℕ} (store : ℝ → ℝ) (v : ℝ) (k : KDE 1 n) (points : List ℝ) : Except PyErr (List ℝ) :=
  match k.evalPoints (fun _ => 1) 0 (points.map fun x _ => transform store v x) with
  | .ok tf => scalePdf v tf points
  | .error e => .error e

/-- The data set of `self.tkde`, kdetools.py L359-362. -/
noncomputable def tkdeData {n : ℕ} (store : ℝ → ℝ) (v : ℝ) (data : Fin n → ℝ) : Fin n → Fin 1 → ℝ :=
  fun i _ => transform store v (data i)

/-! ### KRegression -/

/-- `clip(min=-_REALMAX, max=_REALMAX)`. -/
noncomputable def clipTo (big x : ℝ) : ℝ := max (-big) (min x big)

/-- `_eval_gridfun` with `self.tkde.eval_grid`, kdetools.py L913-931, for one point.  `tiny`, `big` stand for `_TINY`
and `_REALMAX`; `none` is the value of 0/0 and the missing result for other `p`. -/
noncomputable def kregEval {d n : ℕ} (tiny big : ℝ) (k : KDE d n) (y : Fin n → ℝ) (p : ℕ) (x : Fin d → ℝ) :
    Except PyErr (Option ℝ) :=
  match k.evalPoints (fun _ => 1) 0 [x], k.evalPoints y 0 [x], k.evalPoints (fun _ => 1) 1 [x],
      k.evalPoints (fun _ => 1) 2 [x], k.evalPoints y 1 [x] with
  | .ok [s0], .ok [t0], .ok [s1], .ok [s2], .ok [t1] =>
    open Classical in
    if p = 0 then .ok (some (clipTo big (t0 / (s0 + tiny))))
    else if p = 1 then
      if s2 * s0 - s1 ^ 2 = 0 then .ok none
      else .ok (some (clipTo big ((s2 * t0 - s1 * t1) / (s2 * s0 - s1 ^ 2))))
    else .ok none
  | .error e, _, _, _, _ => .error e
  | _, _, _, _, _ => .error .valueError

/-! ### BKRegression -/

/-- `_wilson_score(n, p, alpha)`, kdetools.py L1014-1032, with `z0 = -ndtri(alpha / 2)`. -/
noncomputable def wilson (z0 n p : ℝ) : ℝ × ℝ :=
  let nz02 := n / z0 ^ 2
  let xc := (p * nz02 + 0.5) / (1 + nz02)
  let halfwidth := √(nz02 * p * (1 - p) + 0.25) / (1 + nz02)
  (xc - min halfwidth 1, xc + min halfwidth 1)

/-- `_credible_interval(n, p, alpha)`, kdetools.py L1034-1054; `isf q a b` is `st.beta.isf`. -/
noncomputable def credible (isf : ℝ → ℝ → ℝ → ℝ) (a b n p alpha : ℝ) : ℝ × ℝ :=
  open Classical in
  (if p = 0 then 0 else isf (1 - alpha / 2) (n * p + a) (n * (1 - p) + b),
   if p = 1 then 1 else isf (alpha / 2) (n * p + a) (n * (1 - p) + b))

/-- The loop of `prb_search_best`, kdetools.py L1192-1203: `score hi` is `prb_smoothed(prb_e, hi).aicc`.  The result
is the vector of scores, the smoothing of the best curve and its score. -/
def searchBest {α : Type*} [Field α] [LinearOrder α] (score : α → α) (hsvec : List α) :
    Except PyErr (List α × α × α) :=
  match hsvec.getLast? with
  | none => .error .indexError
  | some hl =>
    let h0 := hl + 1 / 10
    let best := hsvec.foldl (fun (b : α × α) hi => if score hi ≤ b.2 then (hi, score hi) else b) (h0, score h0)
    .ok (hsvec.map score, best.1, best.2)

/-! ### Evaluation on a grid, one dimension -/

/-- The default grid ends, kdetools.py L108-113 and L122-127 with `sigma` L97-102. -/
noncomputable def sigmaKde (data : List ℝ) : ℝ := min (std data) (iqrange data / 1.34)

/-- `_kernel_weights`, kdetools.py L695-707, for `d = 1`: the unscaled kernel values, divided by the exact norm or,
when this differs from the discrete one by more than 5 %, by the discrete one. -/
noncomputable def kernelWeights (normFact dx : ℝ) (n : ℕ) (kw : List ℝ) : List ℝ :=
  let norm0 := kw.sum * dx * n
  open Classical in
  let norm := if |norm0 - normFact| > 0.05 * normFact then norm0 else normFact
  kw.map fun v => v / norm

/-- Circular convolution of the zero padded `c` with `kw`: the exact value of `ifft(fft(c, N) * fft(kw))`, kdetools.py
L733 and kernels.py L1055. -/
def circConv (c kw : List ℝ) : List ℝ :=
  (List.range kw.length).map fun i => ((List.range kw.length).map fun j =>
    c.getD j 0 * kw.getD ((i + kw.length - j) % kw.length) 0).sum

/-- `np.fft.ifftshift` of an array of even length. -/
def ifftshift (l : List ℝ) : List ℝ := l.drop (l.length / 2) ++ l.take (l.length / 2)

/-- `_eval_grid_fast`, kdetools.py L709-738, for `d = 1`, `r = 0`: `c` are the grid counts, `kern u` the kernel, `inc`
the number of grid points, `dx` their distance, `invh` the reciprocal of the smoothing parameter. -/
noncomputable def gridFast (kern : ℝ → ℝ) (normFact invh dx : ℝ) (n inc : ℕ) (c : List ℝ) : List ℝ :=
  let xn := (List.range (2 * inc)).map fun j : ℕ => ((j : ℝ) - inc) * dx
  let kw := ifftshift (kernelWeights normFact dx n (xn.map fun x => kern (invh * x)))
  ((circConv c kw).take inc).map fun z => open Classical in z * (if z > 0 then 1 else 0)

/-- `KRegression.eval_grid_fast` with `p = 0`, kdetools.py L905-907 and L921-925, one dimension, on a grid with the
first point `a` and the distance `dx`.  `none` is the value of 0/0. -/
noncomputable def kregFast (tiny big : ℝ) (kern : ℝ → ℝ) (normFact invh a dx : ℝ) (inc : ℕ) (data y : List ℝ) :
    Except PyErr (List ℝ) :=
  let x := (List.range inc).map fun j : ℕ => a + (j : ℝ) * dx
  match Grid.gridcount1 data x [1], Grid.gridcount1 data x y with
  | .ok c, .ok cy =>
    .ok (List.zipWith (fun t0 s0 => clipTo big (t0 / (s0 + tiny)))
      (gridFast kern normFact invh dx data.length inc cy) (gridFast kern normFact invh dx data.length inc c))
  | .error e, _ => .error e
  | _, .error e => .error e

/-- `TKDE._eval_grid_fast(*args, y=y, r=r)`, kdetools.py L447-460: `fast` is `self.tkde.eval_grid_fast`, where `none`
stands for the default `y = 1`; `post` is `_scale_pdf` followed by `_interpolate`.  With `L2` given the keywords are
not passed to `fast`. -/
def tkdeGridFast (L2 : Bool) (fast : Option (List ℝ) → ℕ → List ℝ) (post : List ℝ → List ℝ) (y : Option (List ℝ))
    (r : ℕ) : List ℝ :=
  if L2 then post (fast none 0) else fast y r

/-- `KRegression._eval_gridfun` for `p = 0` with `TKDE.eval_grid_fast`, kdetools.py L921-925. -/
noncomputable def kregGrid (tiny big : ℝ) (L2 : Bool) (fast : Option (List ℝ) → ℕ → List ℝ) (post : List ℝ → List ℝ)
    (y : List ℝ) : List ℝ :=
  List.zipWith (fun t0 s0 => clipTo big (t0 / (s0 + tiny))) (tkdeGridFast L2 fast post (some y) 0)
    (tkdeGridFast L2 fast post none 0)

/-- `BKRegression.get_grid`, kdetools.py L1004-1012: first point, last point and number of points. -/
noncomputable def getGrid (hs xmin xmax : ℝ) : ℝ × ℝ × ℕ :=
  (xmin - hs, xmax + hs, max (2 * ⌊(xmax - xmin) / hs⌋₊ + 3) 5)

/-- The empirical probabilities of `prb_empirical`, kdetools.py L1096-1107, on the grid `xi`; `y` are zeros and
ones. -/
noncomputable def prbEmpirical (tiny : ℝ) (x y xi : List ℝ) : Except PyErr (List ℝ) :=
  open Classical in
  match Grid.gridcount1 x xi [1],
      (if ∃ v ∈ y, v = 1 then Grid.gridcount1 (((x.zip y).filter fun p => p.2 = 1).map Prod.fst) xi [1]
       else .ok (xi.map fun _ => 0)) with
  | .ok c, .ok c0 => .ok (List.zipWith (fun s n => if n = 0 then 0 else s / (n + tiny)) c0 c)
  | .error e, _ => .error e
  | _, .error e => .error e

/-- `_estimate_psi`, kernels.py L1050-1056: `kd u` is the derivative of the kernel of the given order. -/
noncomputable def estimatePsi (kd : ℝ → ℝ) (order : ℕ) (c xn : List ℝ) (gi : ℝ) (n : ℕ) : ℝ :=
  let kw0 := xn.map fun x => kd (x / gi)
  let kw := kw0 ++ 0 :: (kw0.drop 1).reverse
  let z := circConv c kw
  (List.zipWith (· * ·) c (z.take xn.length)).sum / ((n : ℝ) ^ 2 * gi ^ (order + 1))

/-- The constants for the standard normal density in `hscv`, kernels.py L1128-1129. -/
noncomputable def hscvPsi8 : ℝ := 105 / (32 * √π)
/-- See `hscvPsi8`. -/
noncomputable def hscvPsi12 : ℝ := 3465 / (512 * √π)

end Wafo.Kde

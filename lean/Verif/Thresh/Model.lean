import Mathlib.Analysis.Real.Sqrt
import Verif.Stats.Model
import Verif.Waves.Model

/-!
Model of the threshold functions of stats/core.py: `edfcnd`, `reslife` and `dispersion_idx`, without their plot objects.  A mean or a quotient that is nan is
`none`; quantiles of Student's t and of the chi-square distribution are parameters.
-/

namespace Wafo.Thresh

section
variable {α : Type} [Field α] [LinearOrder α] [FloorRing α]

/-- `edfcnd(x, c, method)`, stats/core.py L124-128: probabilities and abscissae.  The minimum of an empty array is a ValueError. -/
def edfcnd (x : List α) (c : Option α) (method : ℤ) : Except PyErr (List α × List α) :=
  match c with
  | some c => .ok (Stats.edf (x.filter fun z => c ≤ z) true method).1
  | none =>
    match x with
    | [] => .error .valueError
    | a :: l =>
      let c : α := ((⌊min (l.foldl min a) 0⌋ : ℤ) : α)
      .ok (Stats.edf ((a :: l).filter fun z => c ≤ z) true method).1

/-- `_check_nmin`, `_check_umin_umax`, `_check_nu` and `linspace` in `reslife` and `dispersion_idx`, stats/core.py L136-154, L210-215 and L353-357: the default thresholds.
`sd[-nmin]` is an IndexError if there are fewer data; a negative number of points is a ValueError of `linspace`. -/
def thresholds (data : List α) (umin umax : Option α) (nu : Option ℤ) (nmin : ℕ) : Except PyErr (List α) :=
  let n := data.length
  let nmin := max nmin 1
  let sd := data.insertionSort (· ≤ ·)
  if n < nmin then .error .indexError
  else
    match sd[n - nmin]?, sd[0]? with
    | some sdmax, some sdmin =>
      let hi : α := match umax with | none => sdmax | some u => min u sdmax
      let lo : α := match umin with | none => sdmin | some u => max u sdmin
      let m : ℤ := match nu with | none => min ((n : ℤ) - nmin) 100 | some m => m
      if m < 0 then .error .valueError else .ok (Waves.linspace lo hi m.toNat)
    | _, _ => .error .indexError

/-- `dat[dat > tresh] - tresh`, stats/core.py L227. -/
def excesses (data : List α) (u : α) : List α := (data.filter fun d => u < d).map fun d => d - u

/-- Mean of a sample; `none` (nan) if it is empty. -/
def meanOf (l : List α) : Option α := if l = [] then none else some (l.sum / (l.length : α))

/-! ### Dispersion index -/

/-- `t1`: the number of the block of each time, stats/core.py L344-351.  Without times the positions are used. -/
def blocks (n : ℕ) (t : Option (List α)) (tb : α) : List ℤ :=
  match t with
  | none => (List.range n).map fun k : ℕ => ⌊(k : α) / tb⌋
  | some [] => []
  | some (a :: l) => (a :: l).map fun v => ⌊(v - l.foldl min a) / tb⌋

/-- `occ` for a threshold, stats/core.py L370-374: the number of data above `u` in each of the blocks `0, ..., m-1`. -/
def occ (data : List α) (t1 : List ℤ) (m : ℕ) (u : α) : List α :=
  (List.range m).map fun b : ℕ => (((data.zip t1).filter fun p => decide (p.2 = (b : ℤ)) && decide (u < p.1)).length : α)

/-- `di[ix]`: variance of the numbers divided by the mean number `lambda_`, stats/core.py L371-376; `none` if no datum is above the threshold. -/
def dispersion (data : List α) (t1 : List ℤ) (m : ℕ) (u : α) : Option α :=
  let lam : α := ((data.filter fun d => u < d).length : α) / (m : α)
  if lam = 0 then none
  else
    let o := occ data t1 m u
    let mu := o.sum / (m : α)
    some ((o.map fun v => (v - mu) ^ 2).sum / (m : α) / lam)

/-- `M`, stats/core.py L365-367. -/
def numBlocks (t1 : List ℤ) : Except PyErr ℕ :=
  match t1 with
  | [] => .error .valueError
  | a :: l => .ok (l.foldl max a - l.foldl min a + 1).toNat

/-- `(di_low < di) & (di < di_up)`, stats/core.py L334; comparisons with nan are false. -/
def between (lo hi d : Option α) : Bool :=
  match lo, hi, d with
  | some a, some b, some v => decide (a < v) && decide (v < b)
  | _, _, _ => false

/-- `_find_appropriate_threshold(u, di, di_low, di_up)`, stats/core.py L333-342: the chosen threshold and all that are accepted. -/
def appropriate (u : List α) (di : List (Option α)) (lo hi : Option α) : Option (α × List α) :=
  let k1 := (u.zip di).filter fun p => between lo hi p.2
  let ok := k1.map (·.1)
  let d := k1.map fun p => p.2.getD 0
  let mu := d.sum / (d.length : α)
  match k1 with
  | [] => none
  | p :: _ =>
    let k := ((d.map fun v => decide (mu < v)).findIdx? (· = true)).getD 0
    some (ok.getD k p.1, ok)

/-- `dispersion_idx(data, t, u, tb=tb)`, stats/core.py L344-383, with the thresholds given; `lo m` and `hi m` are the quantiles divided by `m - 1`,
`none` for `m = 1`. -/
def dispersionIdx (lo hi : ℕ → Option α) (data : List α) (t : Option (List α)) (tb : α) (u : List α) : Except PyErr (List (Option α) × Option (α × List α)) :=
  let t1 := blocks data.length t tb
  match numBlocks t1 with
  | .error e => .error e
  | .ok m =>
    if t1.length ≠ data.length then .error .indexError
    else
      let di := u.map fun v => dispersion data t1 m v
      .ok (di, appropriate u di (lo m) (hi m))

end

/-- `reslife` at one threshold, stats/core.py L223-237: mean, lower and upper limit and number of the excesses.  `za num` is `-_invt(alpha/2, num - 1)`; `std` is
the standard deviation with divisor `num`. -/
noncomputable def reslifeAt (za : ℕ → Option ℝ) (data : List ℝ) (u : ℝ) : Option ℝ × Option (ℝ × ℝ) × ℕ :=
  let e := excesses data u
  match meanOf e with
  | none => (none, none, e.length)
  | some m =>
    let s := Real.sqrt ((e.map fun v => (v - m) ^ 2).sum / (e.length : ℝ))
    match za e.length with
    | none => (some m, none, e.length)
    | some z => (some m, some (m - z * s / Real.sqrt (e.length : ℝ), m + z * s / Real.sqrt (e.length : ℝ)), e.length)

/-- `reslife(data, u, ...)`: the rows for all thresholds, stats/core.py L210-237.  Without thresholds `tmp.T` has no three
rows, which is a ValueError. -/
noncomputable def reslife (za : ℕ → Option ℝ) (data : List ℝ) (u : Option (List ℝ)) (umin umax : Option ℝ) (nu : Option ℤ) (nmin : ℕ) :
    Except PyErr (List (ℝ × (Option ℝ × Option (ℝ × ℝ) × ℕ))) :=
  let rows : List ℝ → Except PyErr (List (ℝ × (Option ℝ × Option (ℝ × ℝ) × ℕ))) := fun u =>
    if u = [] then .error .valueError else .ok (u.map fun v => (v, reslifeAt za data v))
  match u with
  | some u => rows u
  | none =>
    match thresholds data umin umax nu nmin with
    | .error e => .error e
    | .ok u => rows u

end Wafo.Thresh

import Verif.Cross.Model
import Verif.Tran.Model

/-!
Model of the peaks over threshold helpers, the empirical distribution function, the extremal index and the return period
conversions of `/repo/src/wafo/stats/core.py`.
-/

namespace Wafo.Stats

open Wafo.Cross

section
variable {α : Type*} [Field α] [LinearOrder α]

/-- An exceedance: its index into the data, its value and its time. -/
structure Exc (α : Type*) where
  /-- index into the data -/
  idx : ℕ
  /-- value -/
  val : α
  /-- time -/
  time : α
deriving DecidableEq, Repr

/-- `ix_e, = where(data > thresh)`, `di_e`, `ti_e`, L586-588.  `t[ix_e]` raises IndexError when `t` is too short. -/
def exceedances (data t : List α) (thresh : α) : Except PyErr (List (Exc α)) :=
  ((List.range data.length).filterMap (fun i =>
    match data[i]? with
    | some v => if thresh < v then some (i, v) else none
    | none => none)).mapM (fun p =>
      match t[p.1]? with
      | some s => .ok ⟨p.1, p.2, s⟩
      | none => .error .indexError)

/-- `is_too_small = (dt <= tmin)`, L592 and L601. -/
def tooSmall (tmin : α) (e : List (Exc α)) : List Bool :=
  (diff (e.map Exc.time)).map (fun d => decide (d ≤ tmin))

/-- `is_too_close`, L445-446: the neighbours of a small gap. -/
def tooClose : Bool → List Bool → List Bool
  | prev, [] => [prev]
  | prev, b :: l => (prev || b) :: tooClose b l

/-- The loop of `_find_ok_peaks`, L626-633, over the sorted peaks (position in the slice, time); `pool` holds the times of the
accepted peaks.  Result: positions of the accepted peaks. -/
def greedy (tmin : α) (pool : List α) : List (ℕ × α) → List ℕ
  | [] => []
  | (p, ti) :: l =>
    if pool.any (fun c => decide (c - tmin ≤ ti) && decide (ti ≤ c + tmin)) then greedy tmin pool l
    else p :: greedy tmin (pool ++ [ti]) l

/-- `_find_ok_peaks(y, t, t_min)`, L612-636, as a set of positions.  `desc` stands for `np.argsort(-y)`: it arranges the
peaks by falling value; numpy does not specify the order of equal values. -/
def okPeaks (desc : List (Exc α) → List (Exc α)) (tmin : α) (e : List (Exc α)) : List ℕ :=
  greedy tmin [] ((desc (e.mapIdx (fun p x => { x with idx := p }))).map (fun x => (x.idx, x.time)))

/-- One round of the loop L451-455: `is_too_close[start + i_ok] = 0` (the positions lie inside the slice, hence inside the
array). -/
def clear (desc : List (Exc α) → List (Exc α)) (tmin : α) (e : List (Exc α)) (flags : List Bool) (s : ℕ × ℕ) : List Bool :=
  (okPeaks desc tmin ((e.take s.2).drop s.1)).foldl (fun f o => f.set (s.1 + o) false) flags

/-- The slices `(start, stop)`, L448-451, from `iy`: `no = iy[:2] - 1` and `nc = iy[1::2]`. -/
def slices (iy : List ℕ) : List (ℕ × ℕ) := ((iy.take 2).map (· - 1)).zip (everyOther (iy.drop 1))

/-- `_remove_index_to_data_too_close_to_each_other`, L444-461. -/
def removeClose (desc : List (Exc α) → List (Exc α)) (tmin : α) (e : List (Exc α)) (small : List Bool) :
    Except PyErr (List ℕ) :=
  match findextrema ((0 : α) :: 0 :: (small.map (fun b => if b then 1 else 0) ++ [0])) with
  | .error err => .error err
  | .ok iy =>
    let flags := (slices iy).foldl (clear desc tmin e) (tooClose false small)
    .ok ((e.zip flags).filterMap (fun p => if p.2 then none else some p.1.idx))

/-- `findpot(data, t, thresh, tmin)`, L541-609, for given times and threshold.  `byTime` stands for `np.argsort(ti_e)`. -/
def findpot (byTime desc : List (Exc α) → List (Exc α)) (data t : List α) (thresh tmin : α) : Except PyErr (List ℕ) :=
  match exceedances data t thresh with
  | .error err => .error err
  | .ok e =>
    if e.length ≤ 1 then .ok (e.map Exc.idx)
    else
      let e' := if (diff (e.map Exc.time)).any (fun d => decide (d < 0)) then byTime e else e
      let small := tooSmall tmin e'
      if small.any id then removeClose desc tmin e' small else .ok (e'.map Exc.idx)

/-- `data[i]` for an index array. -/
def takeIdx {β : Type*} (l : List β) (ix : List ℕ) : Except PyErr (List β) :=
  ix.mapM (fun i => match l[i]? with
    | some v => .ok v
    | none => .error .indexError)

/-- `decluster(data, t, thresh, tmin)`, L401-441. -/
def decluster (byTime desc : List (Exc α) → List (Exc α)) (data t : List α) (thresh tmin : α) :
    Except PyErr (List α × List α) :=
  match findpot byTime desc data t thresh tmin with
  | .error err => .error err
  | .ok i =>
    match takeIdx data i, takeIdx t i with
    | .ok ev, .ok te => .ok (ev, te)
    | .error err, _ => .error err
    | _, .error err => .error err

end

/-! ### Empirical distribution function -/

section
variable {α : Type*} [Field α] [LinearOrder α] [FloorRing α]

/-- `edf(x, method)`, L62-98: probabilities, abscissae, and the argument as the caller sees it afterwards (`z.sort()` works in
place, and `atleast_1d` does not copy a one-dimensional array). -/
def edf (x : List α) (isArray : Bool) (method : ℤ) : (List α × List α) × List α :=
  let z := x.insertionSort (· ≤ ·)
  let n : α := (z.length : α)
  let p := if method = 1 then (Wafo.Tran.arange (1 / 2) n 1).map (· / n)
    else if method = 3 then (Wafo.Tran.arange 1 (n + 1) 1).map (· / n)
    else (Wafo.Tran.arange 1 (n + 1) 1).map (· / (n + 1))
  ((p, z), if isArray then z else x)

end

/-! ### Extremal index -/

section
variable {α : Type*} [Field α] [LinearOrder α] [FloorRing α]

/-- `mean`. -/
def mean (l : List α) : α := l.sum / (l.length : α)

/-- `extremal_idx(ti)`, L701-753.  `t.max()` of an empty array raises ValueError; a zero denominator (nan or infinity with a
warning in numpy) is an error value. -/
def extremalIdx (t : List α) : Except PyErr α :=
  match t with
  | [] => .error .valueError
  | a :: l =>
    let tmax := l.foldl max a
    if tmax ≤ 1 then .ok 0
    else if tmax ≤ 2 then
      let den := mean (t.map (fun v => v ^ 2))
      if den = 0 then .error .zeroDivision else .ok (min 1 (2 * mean t ^ 2 / den))
    else
      let den := mean (t.map (fun v => (v - 1) * (v - 2)))
      if den = 0 then .error .zeroDivision else .ok (min 1 (2 * mean (t.map (· - 1)) ^ 2 / den))

/-- `interexceedance_times(t)`, L678-698. -/
def interTimes (t : List α) : List α := diff (t.insertionSort (· ≤ ·))

/-- `declustering_time(t)`, L639-675; `none` is the empty array returned for fewer than two times. -/
def declusteringTime (t : List α) : Except PyErr (Option α) :=
  if t.length < 2 then .ok none
  else
    let ti := interTimes t
    match extremalIdx ti with
    | .error e => .error e
    | .ok ei =>
      if ei = 1 then
        match ti with
        | [] => .error .valueError
        | a :: l => .ok (some (l.foldl min a))
      else
        let i : ℤ := ⌊(t.length : α) * ei⌋
        let sti := ti.insertionSort (fun u v => v ≤ u)
        (Wafo.Tran.pyGet sti (min i ((t.length : ℤ) - 2))).map some

end

/-! ### Return periods -/

/-- A float. -/
inductive Flt (α : Type*) where
  | nan
  | inf
  | val (a : α)
deriving DecidableEq, Repr

section
variable {α : Type*} [Field α] [LinearOrder α]

/-- One element of `sf2returnperiod(q, numevents_per_unit)`, L533-538. -/
def sf2rp (q npu : α) : Flt α :=
  if npu < 0 ∨ q < 0 ∨ 1 ≤ q then .nan
  else if npu * q = 0 then .inf else .val (1 / (npu * q))

/-- One element of `returnperiod2sf(period, numevents_per_unit)`, L495-499: `inf * npu` is nan for `npu = 0`, and then masked
anyway. -/
def rp2sf (t : Flt α) (npu : α) : Flt α :=
  match t with
  | .nan => .nan
  | .inf => if npu ≤ 0 then .nan else .val 0
  | .val t => if npu ≤ 0 ∨ t * npu < 1 then .nan else .val (1 / (t * npu))

/-- A scalar or a one-dimensional float array. -/
inductive Arg (β : Type*) where
  | scalar (b : β)
  | vec (l : List β)

/-- `sf2returnperiod(q, npu)` for one rate: with a scalar `q` the product is a numpy scalar, which does not support the item
assignment `inv_period[nan_mask] = np.nan`. -/
def sf2returnperiod (q : Arg α) (npu : α) : Except PyErr (List (Flt α)) :=
  match q with
  | .scalar _ => .error .typeError
  | .vec l => .ok (l.map (fun v => sf2rp v npu))

/-- `returnperiod2sf(period, npu)` for one rate. -/
def returnperiod2sf (t : Arg (Flt α)) (npu : α) : Except PyErr (List (Flt α)) :=
  match t with
  | .scalar _ => .error .typeError
  | .vec l => .ok (l.map (fun v => rp2sf v npu))

end

end Wafo.Stats

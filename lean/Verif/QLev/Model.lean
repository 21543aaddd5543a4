import Verif.Tran.DataModel

/-!
# Model of `qlevels` and `qlevels2`

`kdetools/kernels.py:46-196`.  `qlevels` for a density with one argument, with or without abscissae.  `np.argsort` is modelled
by a stable sort (numpy's default sort need not be stable).  `qlevels2` for one row of data.
-/

namespace Wafo.QLev

variable {α : Type} [Field α] [LinearOrder α] [FloorRing α]

/-- `np.cumsum`, started at `s` -/
def cumsum (s : α) : List α → List α
  | [] => []
  | v :: l => (s + v) :: cumsum (s + v) l

/-- `_dx`, L95-97 -/
def cell (x : List α) : List α :=
  let dx := (Tran.diff x).map (· / 2)
  List.zipWith (· + ·) (0 :: dx) (dx ++ [0])

/-- `_init`, L99-108: the mass of each cell. -/
def masses (pdf : List α) (xi : Option (List α)) : Except PyErr (List α) :=
  match xi with
  | none => .ok pdf
  | some x => if (cell x).length = pdf.length then .ok (List.zipWith (· * ·) pdf (cell x)) else .error .valueError

/-- The pairs of height and mass by decreasing height, L124-126 and L130. -/
def byHeight (pdf mass : List α) : List (α × α) :=
  ((pdf.zip mass).insertionSort fun p q => p.1 ≤ q.1).reverse

/-- The entries kept by `np.where(np.diff(np.r_[cdf, 1]) > 0)`, L136. -/
def keep : List (α × α) → List (α × α)
  | [] => []
  | [p] => if p.1 < 1 then [p] else []
  | p :: q :: l => if p.1 < q.1 then p :: keep (q :: l) else keep (q :: l)

/-- `cdf` beside `sorted_pdf`, L129-133; `del` is `1.5e-8`. -/
def cdfTable (del : α) (s : List (α × α)) : List (α × α) :=
  let c := cumsum 0 (s.map Prod.snd)
  let n : α := s.length
  (c.map fun v => v / (c.getLast?.getD 0) * n / (n + del)).zip (s.map Prod.fst)

/-- `qlevels(pdf, p, xi)`, L115-143.  A total mass 0 gives nan in numpy and no usable table: modelled as an error. -/
def qlevels (del eps : α) (nmax : List α → ℕ) (pdf p : List α) (xi : Option (List α)) : Except PyErr (List α) :=
  if pdf.any (fun v => decide (v < 0)) then .error .valueError
  else if p.any (fun v => decide (v < 0) || decide (100 < v)) then .error .valueError
  else if pdf = [] then .ok []
  else
    match masses pdf xi with
    | .error e => .error e
    | .ok m =>
      if m.sum = 0 then .error .indexError
      else
        let t := keep (cdfTable del (byHeight pdf m))
        match Tran.tranproc0 eps (fun x f v => LevelX.npInterp v x f) nmax (t.map Prod.fst) (t.map Prod.snd)
            (p.map (· / 100)) with
        | .error e => .error e
        | .ok l => .ok (l.map fun v => if v < 0 then 0 else v)

/-- `np.percentile(data, q, interpolation=…)` for one row, with `h = q / 100 * (n - 1)`; `method` counts the entries of the list
in L194. -/
def percentile (method : ℕ) (data : List α) (q : α) : Except PyErr α :=
  if q < 0 ∨ 100 < q then .error .valueError
  else
    let s := data.insertionSort (· ≤ ·)
    let h := q / 100 * ((data.length : α) - 1)
    match s[⌊h⌋.toNat]?, s[⌈h⌉.toNat]? with
    | some a, some b =>
      .ok (if method = 1 then a + (b - a) * (h - ⌊h⌋) else if method = 2 then (a + b) / 2 else if method = 3 then a else b)
    | _, _ => .error .indexError

/-- `qlevels2(data, p, method)`, L192-196, for one percentage -/
def qlevels2 (data : List α) (p : α) (method : ℕ) : Except PyErr α :=
  if 0 < method ∧ method < 5 then percentile method data (100 - p) else .error .valueError

end Wafo.QLev

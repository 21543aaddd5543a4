import Verif.Basic

/-!
Model of the searching, selecting and option helpers of `/repo/src/wafo/misc.py`.
Arrays are flattened to lists; broadcasting is assumed to have been done; dtype conversions are not
modelled.
-/

namespace Wafo.Select

/-! ### `lfind`, L58-90 -/

section
variable {α : Type*} [DecidableEq α]

/-- `haystack.index(needle, start)`; `none` is the ValueError. -/
def indexFrom (hay : List α) (needle : α) (start : ℕ) : Option ℕ :=
  ((hay.drop start).findIdx? (fun x => decide (x = needle))).map (· + start)

/-- The loop test `i < maxiter`; `none` is the infinite limit. -/
def more (maxiter : Option ℤ) (i : ℤ) : Bool :=
  match maxiter with
  | none => true
  | some m => decide (i < m)

/-- The generator loop L82-90; `i` counts the iterations, `start = ix + 1`.  `maxiter = none` is the
infinite limit.  The first argument bounds the number of iterations (structural recursion); with
`len(haystack) + 1` it is never exhausted before the search fails. -/
def lfindGo (hay : List α) (needle : α) (maxiter : Option ℤ) : ℕ → ℤ → ℕ → List ℕ
  | 0, _, _ => []
  | fuel + 1, i, start =>
    if more maxiter i then
      match indexFrom hay needle start with
      | some ix => ix :: lfindGo hay needle maxiter fuel (i + 1) (ix + 1)
      | none => []
    else []

/-- `list(lfind(haystack, needle, maxiter))`. -/
def lfind (hay : List α) (needle : α) (maxiter : Option ℤ) : List ℕ :=
  lfindGo hay needle maxiter (hay.length + 1) 0 0
end

/-! ### Masked evaluation -/

section
variable {α β : Type*}

/-- `np.extract(cond, arr)`. -/
def extract : List Bool → List α → List α
  | c :: cs, a :: as => if c then a :: extract cs as else extract cs as
  | _, _ => []

/-- `np.place(out, mask, vals)`.  numpy starts over when `vals` is too short; that does not happen for the
element-wise functions considered here, and is an error value in the model. -/
def place : List β → List Bool → List β → Except PyErr (List β)
  | _ :: os, true :: ms, v :: vs => (place os ms vs).map (v :: ·)
  | _ :: _, true :: _, [] => .error .valueError
  | o :: os, false :: ms, vs => (place os ms vs).map (o :: ·)
  | os, _, _ => .ok os

/-- An entry of a function list: a callable (applied element by element) or a constant. -/
inductive Fn (α β : Type*) where
  | call (f : α → β)
  | const (c : β)

/-- Value of a function list entry at a point. -/
def Fn.app : Fn α β → α → β
  | .call f, x => f x
  | .const c, _ => c

/-- `np.putmask(out, mask, value)` for a scalar. -/
def putmask : List β → List Bool → β → List β
  | o :: os, m :: ms, v => (if m then v else o) :: putmask os ms v
  | os, _, _ => os

/-- The loop of `piecewise`, L248-256. -/
def piecewiseLoop (xs : List α) : List (List Bool × Fn α β) → List β → Except PyErr (List β)
  | [], out => .ok out
  | (cond, fn) :: rest, out =>
    if cond.any id then
      match fn with
      | .call f =>
        match place out cond ((extract cond xs).map f) with
        | .ok out' => piecewiseLoop xs rest out'
        | .error e => .error e
      | .const c => piecewiseLoop xs rest (putmask out cond c)
    else piecewiseLoop xs rest out

/-- `~np.logical_or.reduce(condlist, axis=0)`, L222-223, for a non-empty list of conditions. -/
def otherwise : List (List Bool) → List Bool
  | [] => []
  | c :: cs => (cs.foldl (List.zipWith (· || ·)) c).map (!·)

/-- `piecewise(condlist, funclist, xi, fillvalue)`, L125-258, for conditions of the same shape as the
points. -/
def piecewise (conds : List (List Bool)) (funcs : List (Fn α β)) (xs : List α) (fill : β) :
    Except PyErr (List β) :=
  if (conds.length : ℤ) = funcs.length - 1 ∨ conds.length = funcs.length then
    let conds' := if (conds.length : ℤ) = funcs.length - 1 then conds ++ [otherwise conds] else conds
    piecewiseLoop xs (conds'.zip funcs) (xs.map (fun _ => fill))
  else .error .valueError

/-- `lazywhere(cond, arrays, f, fillvalue, f2)`, L261-295.  `nan` is the value used for `np.nan`. -/
def lazywhere (nan : β) (cond : List Bool) (xs : List α) (f : α → β) (fillvalue : Option β)
    (f2 : Option (α → β)) : Except PyErr (List β) :=
  match fillvalue, f2 with
  | none, none => .error .valueError
  | some _, some _ => .error .valueError
  | some v, none => place (xs.map (fun _ => v)) cond ((extract cond xs).map f)
  | none, some g =>
    match place (xs.map (fun _ => nan)) cond ((extract cond xs).map f) with
    | .error e => .error e
    | .ok out => place out (cond.map (!·)) ((extract (cond.map (!·)) xs).map g)

/-- The loop of `lazyselect`, L298-336.  A missing choice is an IndexError. -/
def lazyselectLoop (xs : List α) : List (List Bool) → List (α → β) → List β → Except PyErr (List β)
  | [], _, out => .ok out
  | _ :: _, [], _ => .error .indexError
  | cond :: cs, f :: fs, out =>
    match place out cond ((extract cond xs).map f) with
    | .ok out' => lazyselectLoop xs cs fs out'
    | .error e => .error e

/-- `lazyselect(condlist, choicelist, arrays, default)`. -/
def lazyselect (conds : List (List Bool)) (choices : List (α → β)) (xs : List α) (default : β) :
    Except PyErr (List β) :=
  lazyselectLoop xs conds choices (xs.map (fun _ => default))

end

/-! ### Dictionaries -/

section
variable {κ υ : Type*} [DecidableEq κ]

/-- `d.get(k)` for a dictionary given as an association list. -/
def get? (d : List (κ × υ)) (k : κ) : Option υ := (d.find? (fun e => decide (e.1 = k))).map (·.2)

/-- `d[k] = v`: replace in place or append. -/
def put : List (κ × υ) → κ → υ → List (κ × υ)
  | [], k, v => [(k, v)]
  | (k', v') :: d, k, v => if k' = k then (k, v) :: d else (k', v') :: put d k v

/-- `d.update(e)`. -/
def update (d e : List (κ × υ)) : List (κ × υ) := e.foldl (fun acc kv => put acc kv.1 kv.2) d

/-- `sub_dict_select(somedict, somekeys)`, L748-768: the dictionary built from the pairs
`(k, somedict[k]) for k in somekeys if k in somedict`. -/
def subDictSelect (d : List (κ × υ)) (keys : List κ) : List (κ × υ) :=
  update [] (keys.filterMap (fun k => (get? d k).map (fun v => (k, v))))

/-- `parse_kwargs(options, **kwargs)`, L771-790.  Iterating over `options` yields its keys. -/
def parseKwargs (options kwargs : List (κ × υ)) : List (κ × υ) :=
  let newopts := subDictSelect kwargs (options.map Prod.fst)
  if 0 < newopts.length then update options newopts else options

end

end Wafo.Select

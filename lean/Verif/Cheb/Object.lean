import Verif.Cheb.Model

/-!
Model of the class `Cheb1d` of `/repo/src/wafo/polynomial.py` L1705-1838.

Arrays live in a heap, because the class keeps references to them: an object stores the location of its coefficient
array and how much of the front of it belongs to the object (`np.trim_zeros(.., 'b')` returns the slice `filt[0:last]`, a
view of its argument).  Not modelled: arrays with two or more dimensions, `__array__`, `__repr__`, `__iter__`.
-/

namespace Wafo.Cheb1d

open Wafo.Cheb

variable {α : Type*} [Field α] [DecidableEq α]

/-- The arrays of a program: locations below `next` are in use. -/
structure Heap (α : Type*) where
  next : ℕ
  arr : ℕ → List α

/-- A new array. -/
def Heap.alloc (h : Heap α) (l : List α) : Heap α × ℕ :=
  (⟨h.next + 1, fun p => if p = h.next then l else h.arr p⟩, h.next)

/-- Assignment to one element of an array. -/
def Heap.write (h : Heap α) (p i : ℕ) (v : α) : Heap α :=
  ⟨h.next, fun q => if q = p then (h.arr p).set i v else h.arr q⟩

/-- The instance dictionary: `coeffs` (location and length of the view), `order`, `a`, `b`, `kind`. -/
structure Obj (α : Type*) where
  loc : ℕ
  len : ℕ
  order : ℤ
  a : α
  b : α
  kind : ℕ

/-- What the attribute `coeffs` shows. -/
def Obj.coeffs (h : Heap α) (o : Obj α) : List α := (h.arr o.loc).take o.len

/-- The argument `ck`: another object, a list or scalar (copied by `np.atleast_1d`), or a one-dimensional array, which
`np.atleast_1d` returns unchanged. -/
inductive Arg (α : Type*) where
  | obj (o : Obj α)
  | list (l : List α)
  | array (p : ℕ)

/-- The length left by `np.trim_zeros(l, 'b')`. -/
def trimLen (l : List α) : ℕ := (l.reverse.dropWhile (fun c => decide (c = 0))).length

/-- `__init__`, L1712-1724: an object is copied key by key; otherwise trailing zeros are left out of the view. -/
def init (h : Heap α) (ck : Arg α) (a b : α) (kind : ℕ) : Heap α × Obj α :=
  match ck with
  | .obj o => (h, o)
  | .list l =>
    let r := h.alloc l
    (r.1, ⟨r.2, trimLen l, trimLen l - 1, a, b, kind⟩)
  | .array p => (h, ⟨p, trimLen (h.arr p), trimLen (h.arr p) - 1, a, b, kind⟩)

/-- `__call__`, L1726-1727, at one point. -/
def Obj.call (h : Heap α) (o : Obj α) (x : α) : Except PyErr α := chebval x (o.coeffs h) o.a o.b o.kind

/-- `__setattr__`, L1780-1781. -/
def setattr : Except PyErr Unit := .error .valueError

/-- `__len__`, L1740-1741; `len()` raises ValueError for a negative result. -/
def Obj.pyLen (o : Obj α) : Except PyErr ℕ := if o.order < 0 then .error .valueError else .ok o.order.toNat

/-- `__neg__`, L1746-1749: the assignment to `new.coeffs` is a call of `__setattr__`. -/
def neg (h : Heap α) (o : Obj α) : Except PyErr (Heap α × Obj α) :=
  let new := init h (.obj o) (-1) 1 1
  match setattr with
  | .error e => .error e
  | .ok () => .ok new

/-- `__add__` and `__radd__`, L1754-1761.  The sum `polyadd(..)` itself does not raise for one-dimensional arrays. -/
def add (h : Heap α) (o : Obj α) (other : Arg α) : Except PyErr (Heap α × Obj α) :=
  let r := init h other (-1) 1 1
  let new := init r.1 (.obj o) (-1) 1 1
  match setattr with
  | .error e => .error e
  | .ok () => .ok new

/-- `-other` in `__sub__`, L1764, for a number, array or object; a Python list has no unary minus (TypeError). -/
def negArg (h : Heap α) : Arg α → Except PyErr (Heap α × Arg α)
  | .obj o => match neg h o with
    | .error e => .error e
    | .ok r => .ok (r.1, .obj r.2)
  | .list [c] => .ok (h, .list [-c])
  | .list _ => .error .typeError
  | .array p => let r := h.alloc ((h.arr p).map Neg.neg); .ok (r.1, .array r.2)

/-- `__sub__`, L1763-1764. -/
def sub (h : Heap α) (o : Obj α) (other : Arg α) : Except PyErr (Heap α × Obj α) :=
  match negArg h other with
  | .error e => .error e
  | .ok r => add r.1 o r.2

/-- `__rsub__`, L1766-1769. -/
def rsub (h : Heap α) (o : Obj α) (other : Arg α) : Except PyErr (Heap α × Obj α) :=
  match sub h o other with
  | .error e => .error e
  | .ok r => match setattr with
    | .error e => .error e
    | .ok () => .ok r

/-- `integ`, L1810-1823. -/
def integ (h : Heap α) (o : Obj α) : Except PyErr (Heap α × Obj α) :=
  let new := init h (.obj o) (-1) 1 1
  match chebint (o.coeffs h) o.a o.b with
  | .error e => .error e
  | .ok _ => match setattr with
    | .error e => .error e
    | .ok () => .ok new

/-- `deriv`, L1825-1838. -/
def deriv (h : Heap α) (o : Obj α) : Except PyErr (Heap α × Obj α) :=
  let new := init h (.obj o) (-1) 1 1
  match chebder (o.coeffs h) o.a o.b with
  | .error e => .error e
  | .ok _ => match setattr with
    | .error e => .error e
    | .ok () => .ok new

/-- `np.all(l == m)` for one-dimensional arrays, in L1773: a single element is broadcast against the other array.  For
other shapes that do not fit `mismatch` tells what numpy does: False with a warning (`.ok ()`) or an exception. -/
def allEq (mismatch : Except PyErr Unit) (l m : List α) : Except PyErr Bool :=
  if l.length = m.length then .ok (decide (l = m))
  else match l, m with
    | [c], m => .ok (m.all fun d => decide (c = d))
    | l, [d] => .ok (l.all fun c => decide (c = d))
    | _, _ => match mismatch with
      | .error e => .error e
      | .ok () => .ok false

/-- `__eq__`, L1771-1774. -/
def eq (mismatch : Except PyErr Unit) (h : Heap α) (o : Obj α) (other : Arg α) : Except PyErr Bool :=
  let r := init h other (-1) 1 1
  match allEq mismatch (o.coeffs r.1) (r.2.coeffs r.1) with
  | .error e => .error e
  | .ok q => .ok (q && decide (o.a = r.2.a) && decide (o.b = r.2.b) && decide (o.kind = r.2.kind))

/-- `__getitem__`, L1789-1794. -/
def Obj.getItem (h : Heap α) (o : Obj α) (i : ℤ) : α :=
  if o.order < i then 0 else if i < 0 then 0 else (o.coeffs h).getD i.toNat 0

/-- `__setitem__`, L1796-1805, into an array of floats (an integer array would truncate the value). -/
def setItem (h : Heap α) (o : Obj α) (key : ℤ) (v : α) : Except PyErr (Heap α × Obj α) :=
  if key < 0 then .error .valueError
  else if o.order < key then
    let r := h.alloc (o.coeffs h ++ List.replicate (key - o.order).toNat 0)
    .ok (r.1.write r.2 key.toNat v,
      ⟨r.2, o.len + (key - o.order).toNat, key, o.a, o.b, o.kind⟩)
  else .ok (h.write o.loc key.toNat v, o)

end Wafo.Cheb1d

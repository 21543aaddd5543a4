import Mathlib.Algebra.Order.Field.Basic
import Mathlib.Tactic.Linarith
import Mathlib.Tactic.Ring

/-!
Shared vocabulary of the model: Python exceptions as values and numpy slicing helpers.
-/

namespace Wafo

/-- The Python exceptions that the modelled code can raise.
`oobWrite` / `oobRead` stand for a memory access of compiled (numba / C) code outside its buffer;
CPython would report an `IndexError`, the compiled code silently touches foreign memory. -/
inductive PyErr where
  | valueError
  | indexError
  | typeError
  | keyError
  | zeroDivision
  | oobRead
  | oobWrite
deriving DecidableEq, Repr

/-- numpy slice `l[::2]`. -/
def everyOther {α : Type*} : List α → List α
  | [] => []
  | [a] => [a]
  | a :: _ :: l => a :: everyOther l

end Wafo

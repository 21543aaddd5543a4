import Verif.Poly.Model
import Mathlib.Algebra.Order.Ring.Abs

/-!
Model of `poly2hstr` of `/repo/src/wafo/polynomial.py` L640-724 at the level of tokens, and the fragment of Python's
expression grammar in which the printed text is read.  The decimal formatting of a coefficient (`{:.20g}`) is not
modelled: a number token carries the absolute value.
-/

namespace Wafo.Poly

variable {α : Type*} [Field α] [LinearOrder α]

/-- Tokens of the printed text; `pow k` stands for `**k`. -/
inductive Tok (α : Type*) where
  | num (c : α)
  | var
  | plus
  | minus
  | star
  | pow (k : ℕ)
  | lpar
  | rpar
deriving DecidableEq, Repr

/-- `_append_coef(s, coef, expon, var)`, L671-699. -/
def appendCoef (s : List (Tok α)) (coef : α) (expon : ℕ) : List (Tok α) :=
  let isfirst : Bool := s.isEmpty
  let s1 := if isfirst then (if coef < 0 then [Tok.minus] else []) else
    s ++ [if coef < 0 then Tok.minus else Tok.plus]
  let needcoef : Bool := (decide (|coef| ≠ 1) || (decide (expon = 0) && isfirst)) || !isfirst
  let s2 := if needcoef then s1 ++ [Tok.num |coef|] else s1
  if expon ≠ 0 then
    let s3 := if needcoef then
        (if isfirst then s2 else Tok.lpar :: s2 ++ [Tok.rpar]) ++ [Tok.star]
      else s2
    s3 ++ [Tok.var]
  else s2

/-- The loop L705-719 over the remaining coefficients with the text `s` and the counter `ix`. -/
def hstrLoop (s : List (Tok α)) (ix : ℕ) : List α → List (Tok α)
  | [] => s
  | coef :: l =>
    if coef = 0 then hstrLoop s (ix + 1) l
    else
      let s1 := if 1 < ix then s ++ [Tok.pow ix] else s
      hstrLoop (appendCoef s1 coef l.length) 1 l

/-- `poly2hstr(p)`, L701-724. -/
def poly2hstr (p : List α) : List (Tok α) :=
  let s := hstrLoop [] 1 (polytrim p)
  if s = [] then [Tok.num 0] else s

/-! ### Python's grammar for these tokens -/

/-- Grammar levels: `sum: sum (+|-) term | term`, `term: term * factor | factor`, `factor: - factor | power`,
`power: atom ** k | atom`, `atom: number | variable | ( sum )`. -/
inductive Level where
  | sum | term | factor | power | atom

/-- `Reads lv ts f`: the tokens `ts` are an expression of level `lv` and its value for the variable equal to `x` is
`f x`. -/
inductive Reads : Level → List (Tok α) → (α → α) → Prop where
  | num (c : α) : Reads .atom [.num c] (fun _ => c)
  | var : Reads .atom [.var] (fun x => x)
  | par {ts f} : Reads .sum ts f → Reads .atom (.lpar :: ts ++ [.rpar]) f
  | pow {ts f} (k : ℕ) : Reads .atom ts f → Reads .power (ts ++ [.pow k]) (fun x => f x ^ k)
  | power {ts f} : Reads .atom ts f → Reads .power ts f
  | neg {ts f} : Reads .factor ts f → Reads .factor (.minus :: ts) (fun x => - f x)
  | factor {ts f} : Reads .power ts f → Reads .factor ts f
  | mul {ts us f g} : Reads .term ts f → Reads .factor us g → Reads .term (ts ++ .star :: us) (fun x => f x * g x)
  | term {ts f} : Reads .factor ts f → Reads .term ts f
  | add {ts us f g} : Reads .sum ts f → Reads .term us g → Reads .sum (ts ++ .plus :: us) (fun x => f x + g x)
  | sub {ts us f g} : Reads .sum ts f → Reads .term us g → Reads .sum (ts ++ .minus :: us) (fun x => f x - g x)
  | sum {ts f} : Reads .term ts f → Reads .sum ts f

end Wafo.Poly

import Verif.Model.Str
import Mathlib.Algebra.Field.Rat
import Mathlib.Algebra.Group.Basic
import Mathlib.Algebra.GroupWithZero.Basic
import Mathlib.Data.Nat.Digits.Defs

/-!
# A calculator

The ordinary rules of arithmetic: `^` binds most and to the right, then `*`, `\cdot` and `/` from left to right, then `+`; a minus sign
before a number negates the power; parentheses, and in TeX `\frac{ a }{ b }` and `a^{ b }`.  The calculator knows nothing about the
numbers that are printed.  Each function returns the value of what it has read and the rest of the text; the number bounds the
recursion.
-/

namespace Spec.Formula

abbrev Reader := List Char → Option (ℚ × List Char)

/-- digits -/
def numeral : Reader := fun s =>
  if s.takeWhile (· ∈ Py.digits) = [] then none
  else some ((Nat.ofDigitChars 10 (s.takeWhile (· ∈ Py.digits)) 0 : ℕ), s.dropWhile (· ∈ Py.digits))

/-- the power with an integer as exponent -/
def pow (v w : ℚ) : Option ℚ := if w.den = 1 then some (v ^ w.num) else none

/-- after a summand -/
def afterSummand (sum : Reader) : ℚ × List Char → Option (ℚ × List Char)
  | (v, ' ' :: '+' :: ' ' :: r) => (sum r).map fun p => (v + p.1, p.2)
  | (v, r) => some (v, r)

/-- after a base -/
def afterBase (sum power : Reader) : ℚ × List Char → Option (ℚ × List Char)
  | (v, '^' :: '{' :: ' ' :: r) =>
    match sum r with
    | some (w, ' ' :: '}' :: r) => (pow v w).map fun p => (p, r)
    | _ => none
  | (v, '^' :: r) =>
    match power r with
    | some (w, r) => (pow v w).map fun p => (p, r)
    | none => none
  | (v, r) => some (v, r)

/-- after the first part of `( a )` -/
def closing : ℚ × List Char → Option (ℚ × List Char)
  | (v, ')' :: r) => some (v, r)
  | _ => none

/-- after the numerator of `\frac{ a }{ b }` -/
def denominator (sum : Reader) : ℚ × List Char → Option (ℚ × List Char)
  | (v, ' ' :: '}' :: '{' :: ' ' :: r) =>
    match sum r with
    | some (w, ' ' :: '}' :: r) => if w = 0 then none else some (v / w, r)
    | _ => none
  | _ => none

mutual
def sum : Nat → Reader
  | 0, _ => none
  | f + 1, s => (product f s).bind (afterSummand (sum f))
def product : Nat → Reader
  | 0, _ => none
  | f + 1, s => (power f s).bind fun p => factors f p.1 p.2
/-- the factors after the first, whose product so far is `v` -/
def factors : Nat → ℚ → Reader
  | 0, _, _ => none
  | f + 1, v, ' ' :: '*' :: ' ' :: r => (power f r).bind fun p => factors f (v * p.1) p.2
  | f + 1, v, ' ' :: '\\' :: 'c' :: 'd' :: 'o' :: 't' :: ' ' :: r => (power f r).bind fun p => factors f (v * p.1) p.2
  | f + 1, v, '/' :: r => (power f r).bind fun p => if p.1 = 0 then none else factors f (v / p.1) p.2
  | _ + 1, v, r => some (v, r)
def power : Nat → Reader
  | 0, _ => none
  | f + 1, '-' :: r => (power f r).map fun p => (-p.1, p.2)
  | f + 1, s => (atom f s).bind (afterBase (sum f) (power f))
def atom : Nat → Reader
  | 0, _ => none
  | f + 1, '(' :: r => (sum f r).bind closing
  | f + 1, '\\' :: 'f' :: 'r' :: 'a' :: 'c' :: '{' :: ' ' :: r => (sum f r).bind (denominator (sum f))
  | _ + 1, s => numeral s
end

/-- The calculator reads the whole text and finds the value `v`. -/
def Calculates (s : List Char) (v : ℚ) : Prop := ∃ N, ∀ fuel ≥ N, sum fuel s = some (v, [])

end Spec.Formula

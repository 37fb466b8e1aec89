import Verif.Model.ExpInt
import Mathlib.Algebra.Field.Rat

/-!
# What an exponential integer means

The value as a rational number.  A well-formed number has a positive denominator, at least one term, a common base of at
least 2, no zero coefficient, and exponents that are themselves well-formed and natural numbers.
-/

namespace Spec
open Model.ExpInt

mutual
def Num.value : Num → ℚ
  | .int z => z
  | .exp ts c d => (termsValue ts + c) / d
/-- The value of a sum of terms. -/
def termsValue : List ETerm → ℚ
  | [] => 0
  | t :: ts => ETerm.value t + termsValue ts
/-- The value of `coef * base ^ exponent`; the exponent of a well-formed term is a natural number. -/
def ETerm.value : ETerm → ℚ
  | .mk b c e => c * (b : ℚ) ^ (Num.value e).num.toNat
end

mutual
def Num.WF : Num → Prop
  | .int _ => True
  | .exp ts _ d => ts ≠ [] ∧ 0 < d ∧ oneBase ts = true ∧ AllWF ts
def AllWF : List ETerm → Prop
  | [] => True
  | t :: ts => ETerm.WF t ∧ AllWF ts
def ETerm.WF : ETerm → Prop
  | .mk b c e => 2 ≤ b ∧ c ≠ 0 ∧ Num.WF e ∧ ∃ n : Nat, Num.value e = n
end

/-- A well-formed number whose value is the integer `z`. -/
def Denotes (a : Num) (z : Int) : Prop := Num.WF a ∧ Num.value a = z

/-- What is assumed about sorting by floating-point keys: it permutes. -/
structure FloatsOk (F : Floats) : Prop where
  order : ∀ ts, (F.order ts).Perm ts

/-! ### What remainders need

`exp_mod` replaces an exponent by a smaller one that is congruent, provided the exponent is not too small.  It asks
`k < k0`, a comparison by approximate logarithms. -/

mutual
/-- All exponents in a number, at any depth, satisfy `P`. -/
def Num.Exponents (P : Num → Prop) : Num → Prop
  | .int _ => True
  | .exp ts _ _ => AllExponents P ts
def AllExponents (P : Num → Prop) : List ETerm → Prop
  | [] => True
  | t :: ts => ETerm.Exponents P t ∧ AllExponents P ts
def ETerm.Exponents (P : Num → Prop) : ETerm → Prop
  | .mk _ _ e => P e ∧ Num.Exponents P e
end

/-- The fraction is in lowest terms: nothing divides the denominator, the constant and all coefficients. -/
def Lowest : Num → Prop
  | .int _ => True
  | .exp ts c d => ∀ g : Nat, (g : Int) ∣ d → (g : Int) ∣ c → (∀ t ∈ ts, (g : Int) ∣ t.coef) → g = 1

def Num.denom : Num → Int
  | .int _ => 1
  | .exp _ _ d => d

/-- When the comparison says that the number is not below `k0`, then it is not. -/
def ComparedRight (F : Floats) (K : Nat) (e : Num) : Prop :=
  ∀ (n k0 : Nat), Denotes e n → k0 ≤ K → F.lt e k0 = false → k0 ≤ n

/-- What remainders need to know about exponents: comparisons with numbers up to `K` are right, the fraction is in lowest terms
and its denominator is at most `B`. -/
def GoodExponent (F : Floats) (K B : Nat) (e : Num) : Prop := ComparedRight F K e ∧ Lowest e ∧ Num.denom e ≤ B

end Spec

import Verif.Spec.ExpInt
import Verif.Model.ExpCompare

/-!
# What comparisons of exponential integers mean

The code compares a sign and an approximation `(height, top)` of the size.  `Below` is the order of these pairs.
-/

namespace Spec
open Model.ExpInt

/-- Smaller in size: by height, then by the top. -/
def Smaller (a b : Tower) : Prop := a.1 < b.1 ∨ (a.1 = b.1 ∧ a.2 < b.2)

/-- Below, by sign and size: negative numbers of greater size are below those of smaller size. -/
def Below (a b : Int × Tower) : Prop :=
  a.1 < b.1 ∨ (a.1 = b.1 ∧ ((0 < a.1 ∧ Smaller a.2 b.2) ∨ (a.1 < 0 ∧ Smaller b.2 a.2)))

/-- The form in which the code keeps numbers: lowest terms, bases that `int_pow` does not take for powers, and coefficients that
the base does not divide. -/
def Normal (math : Model.Math.Floats) : Num → Prop
  | .int _ => True
  | .exp ts c d => Lowest (.exp ts c d) ∧ ∀ t ∈ ts, (∀ n k, Model.Math.intPow math t.base = .ok (n, k) → k ≤ 1) ∧
      ¬ t.base ∣ t.coef

mutual
/-- Numbers that are large if they have a term that is too large to be evaluated: positive coefficients, at every depth, and
neither constants nor denominators of the size of those terms.  No exponent is a formula for 0. -/
def Mild : Num → Prop
  | .int _ => True
  | .exp ts c d => AllMild ts ∧ 2 ^ 64 * d ≤ 2 ^ 1000 + c
def AllMild : List ETerm → Prop
  | [] => True
  | t :: ts => ETerm.Mild t ∧ AllMild ts
def ETerm.Mild : ETerm → Prop
  | .mk _ c e => 0 < c ∧ Mild e ∧ tryEval e ≠ some 0
end

end Spec

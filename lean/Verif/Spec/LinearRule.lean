import Verif.Spec.Expr
import Verif.Model.Prover

/-!
# What one application of a rule does to the exponents

A rule gives every block either a variable with a minimum and the exponent afterwards as an expression in the variables, or
nothing (the exponent is constant).
-/

namespace Spec
open Model.Prover (V)

/-- The rule applies to the exponents `cs` (each one with a variable is a number and at least the minimum) and makes them
`cs'`: the values of the result expressions when every variable stands for the exponent of its block. -/
def Applies (vars : List (Option (Nat × Int))) (result : List (Option V)) (cs cs' : List (Option Int)) : Prop :=
  cs.length = vars.length ∧ cs'.length = cs.length ∧ ∃ ρ : Nat → Int,
    (∀ (i : Nat) (x : Nat) (m : Int), vars[i]? = some (some (x, m)) → cs[i]? = some (some (ρ x)) ∧ m ≤ ρ x ∧
      ∃ v, result[i]? = some (some v) ∧ cs'[i]? = some (some (Val.value ρ v))) ∧
    (∀ i : Nat, vars[i]? = some none → cs'[i]? = cs[i]?)

/-- `k` applications in a row -/
def AppliesTimes (vars : List (Option (Nat × Int))) (result : List (Option V)) : Nat → List (Option Int) → List (Option Int) → Prop
  | 0, cs, cs' => cs' = cs
  | k + 1, cs, cs' => ∃ mid, Applies vars result cs mid ∧ AppliesTimes vars result k mid cs'

/-- no variable twice -/
def VarsDistinct (vars : List (Option (Nat × Int))) : Prop :=
  ∀ (i j x : Nat) (m n : Int), vars[i]? = some (some (x, m)) → vars[j]? = some (some (x, n)) → i = j

end Spec

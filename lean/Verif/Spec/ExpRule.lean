import Verif.Spec.LinearRule
import Verif.Model.ExpRule

/-!
# What one application of a rule with powers does to the exponents
-/

namespace Spec
open Model.Prover (V)
open Model.ExpRule (R PTerm)

/-- The exponent `r` of a result is the integer `y` when the variables are `ρ`: for `(a b^e + ... + c)/d` the exponents `e` are
not negative and `d y = a b^e + ... + c`. -/
def HasValue (ρ : Nat → Int) : R → Int → Prop
  | .inf, _ => False
  | .val v, y => y = Val.value ρ v
  | .exp _ terms const denom, y =>
    (∀ t ∈ terms, ∃ e, t.exp = some e ∧ 0 ≤ Val.value ρ e) ∧
    denom * y = (terms.map (fun t => t.coef * t.base ^ ((t.exp.map (Val.value ρ)).getD 0).toNat)).sum + const

/-- The rule applies to the exponents `cs` (each one with a variable is a number and at least the minimum) and makes them
`cs'`: the values of the results when every variable stands for the exponent of its block. -/
def AppliesE (vars : List (Option (Nat × Int))) (result : List R) (cs cs' : List (Option Int)) : Prop :=
  cs.length = vars.length ∧ cs'.length = cs.length ∧ ∃ ρ : Nat → Int,
    (∀ (i : Nat) (x : Nat) (m : Int), vars[i]? = some (some (x, m)) → cs[i]? = some (some (ρ x)) ∧ m ≤ ρ x ∧
      ∃ r y, result[i]? = some r ∧ HasValue ρ r y ∧ cs'[i]? = some (some y)) ∧
    (∀ i : Nat, vars[i]? = some none → cs'[i]? = cs[i]?)

/-- `k` applications in a row -/
def AppliesTimesE (vars : List (Option (Nat × Int))) (result : List R) : Nat → List (Option Int) → List (Option Int) → Prop
  | 0, cs, cs' => cs' = cs
  | k + 1, cs, cs' => ∃ mid, AppliesE vars result cs mid ∧ AppliesTimesE vars result k mid cs'

/-- The minima are met: every exponent with a variable is a number and at least the minimum. -/
def MeetsMinima (vars : List (Option (Nat × Int))) (cs : List (Option Int)) : Prop :=
  ∀ (i x : Nat) (m : Int), vars[i]? = some (some (x, m)) → ∃ c, cs[i]? = some (some c) ∧ m ≤ c

/-- Wherever the variables are at least the minima, all results of changing blocks are integers. -/
def AllIntegers (vars : List (Option (Nat × Int))) (result : List R) : Prop :=
  ∀ ρ : Nat → Int, (∀ (i x : Nat) (m : Int), vars[i]? = some (some (x, m)) → m ≤ ρ x) →
    ∀ (i x : Nat) (m : Int), vars[i]? = some (some (x, m)) → ∀ r, result[i]? = some r → ∃ y, HasValue ρ r y

/-- `n` steps of any deterministic system; `none`: it has stopped -/
def stepsOf {C : Type} (step : C → Option C) : Nat → C → Option C
  | 0, c => some c
  | n + 1, c => (step c).bind (stepsOf step n)

end Spec

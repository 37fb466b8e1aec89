import Verif.Model.ExpSym
import Verif.Spec.ExpInt
import Verif.Spec.Expr
import Mathlib.Algebra.Field.Rat

/-!
# What a symbolic exponential integer means

Its value at an assignment of integers to the variables, as a rational number (the exponent may be negative there), and what it
means that a number is the least of these values.
-/

namespace Spec
open Model Model.ExpSym Model.ExpInt Model.Expr

/-- The value of `coef * base ^ exponent`. -/
def STerm.value (ρ : Nat → Int) (t : STerm) : ℚ := t.coef * (t.base : ℚ) ^ Expr.value ρ t.exponent

def SNum.value (ρ : Nat → Int) : SNum → ℚ
  | .num x => Num.value x
  | .sym ts c d _ => ((ts.map (STerm.value ρ)).sum + c) / d

/-- The value of the result of a division (of the quotient, not of the rounded number). -/
def QNum.value (ρ : Nat → Int) : QNum → ℚ
  | .num x => SNum.value ρ x
  | .float p q => p / q

/-- `m` is the least value of `f` at natural numbers, attained where all variables are zero. -/
def Least (m : ℚ) (f : (Nat → Int) → ℚ) : Prop := m = f (fun _ => 0) ∧ ∀ ρ, (∀ v, 0 ≤ ρ v) → m ≤ f ρ

/-- A well-formed symbolic term: base at least 2, coefficient not zero, an exponent in normal form with a variable in it, and the
stored minimum is the minimum; it is missing only if the coefficient is negative. -/
structure STerm.WF (t : STerm) : Prop where
  base : 2 ≤ t.base
  coef : t.coef ≠ 0
  normal : Expr.Normal t.exponent
  vars : t.exponent.terms ≠ []
  least : ∀ m, t.min = some m → (∃ z : Int, Denotes m z) ∧ Least (Num.value m) (fun ρ => STerm.value ρ t)
  none : t.min = none → t.coef < 0

/-- A number is well-formed if it is an integer in a well-formed representation.  A symbolic one has terms, a common base, a
positive denominator, and its minimum is right; it is missing only if there is a negative coefficient. -/
def SNum.WF : SNum → Prop
  | .num x => ∃ z : Int, Denotes x z
  | .sym ts c d m => ts ≠ [] ∧ 0 < d ∧ (∀ t ∈ ts, STerm.WF t) ∧ (∀ t ∈ ts, ∀ t' ∈ ts, t.base = t'.base) ∧
      (∀ x, m = some x → Num.WF x ∧ Least (Num.value x) (fun ρ => SNum.value ρ (.sym ts c d m))) ∧
      (m = none → ∃ t ∈ ts, t.coef < 0)

/-- The result `r` of an operation is well-formed and has the value `f ρ` at every assignment `ρ`. -/
def SDenotes (r : SNum) (f : (Nat → Int) → ℚ) : Prop := SNum.WF r ∧ ∀ ρ, SNum.value ρ r = f ρ

/-- At `ρ` all exponents are natural numbers. -/
def NatExponents (ρ : Nat → Int) : SNum → Prop
  | .num _ => True
  | .sym ts _ _ _ => ∀ t ∈ ts, 0 ≤ Expr.value ρ t.exponent

/-- The assignment that replacing variables according to `σ` and then evaluating at `ρ` amounts to. -/
def after (σ : Nat → Option (Val Int)) (ρ : Nat → Int) : Nat → Int := fun v =>
  match σ v with
  | some y => Val.value ρ y
  | none => ρ v

/-- The numbers that a program can make: integers, powers with an expression as exponent, sums, products, differences, symbolic
quotients, and what substituting expressions in normal form gives if it is symbolic. -/
inductive SymBuilt (F : Floats) (fuel : Nat) : SNum → Prop
  | int (z : Int) : SymBuilt F fuel (.num (.int z))
  | exp {b : Int} {e : Val Int} {r : SNum} : Val.Normal e → expIntS F fuel b e = .ok r → SymBuilt F fuel r
  | add {a b r : SNum} : SymBuilt F fuel a → SymBuilt F fuel b → addSN F fuel a b = .ok r → SymBuilt F fuel r
  | mul {a b r : SNum} : SymBuilt F fuel a → SymBuilt F fuel b → mulSN F fuel a b = .ok r → SymBuilt F fuel r
  | sub {a b r : SNum} : SymBuilt F fuel a → SymBuilt F fuel b → subS F fuel a b = .ok r → SymBuilt F fuel r
  | div {a : SNum} {z : Int} {ts c d m} : SymBuilt F fuel a → ExpSym.divS F fuel a z = .ok (.num (.sym ts c d m)) →
      SymBuilt F fuel (.sym ts c d m)
  | subst {a : SNum} {σ : Nat → Option (Val Int)} {ts c d m} : SymBuilt F fuel a → (∀ v y, σ v = some y → Val.Normal y) →
      substExpr F fuel σ a = .ok (.num (.sym ts c d m)) → SymBuilt F fuel (.sym ts c d m)

end Spec

import Verif.Model.Expr

/-!
# What an algebraic expression means

The value of an expression at an assignment of its variables, written down without reference to the operations.
-/

namespace Spec
open Model.Expr

variable {K : Type} [CommRing K]

/-- `x^3 y` at `ρ` is `ρ x ^ 3 * ρ y`. -/
def monomial (ρ : Nat → K) (vs : List VarPow) : K := (vs.map (fun vp => ρ vp.var ^ vp.pow)).prod

def Term.value (ρ : Nat → K) (t : Term K) : K := t.coef * monomial ρ t.vars

def Expr.value (ρ : Nat → K) (e : Expr K) : K := (e.terms.map (Term.value ρ)).sum + e.const

def Val.value (ρ : Nat → K) : Val K → K
  | .num k => k
  | .expr e => Expr.value ρ e

/-- The expressions the code builds: factors in the order of the variables with positive powers, at least one factor per
term, no term twice, no coefficient zero. -/
structure VarsNormal (vs : List VarPow) : Prop where
  ne : vs ≠ []
  sorted : vs.Pairwise (fun a b => a.var < b.var)
  pos : ∀ v ∈ vs, 0 < v.pow

structure Expr.Normal (e : Expr K) : Prop where
  vars : ∀ t ∈ e.terms, VarsNormal t.vars
  sorted : e.terms.Pairwise (fun a b => compareTerms a.vars b.vars < 0)
  coef : ∀ t ∈ e.terms, t.coef ≠ 0

def Val.Normal : Val K → Prop
  | .num _ => True
  | .expr e => Expr.Normal e

end Spec

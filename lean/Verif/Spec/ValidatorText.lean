import Verif.Spec.Validator

/-!
# Specification: what can be printed so that it can be read, and what a written count means
-/

namespace Spec.ValidatorText
open Model.Validator (VarSum CountExpr Count Block HalfTape TM Trans)

/-- printed as it is read: symbols are one digit, the state `Z` is not a running state -/
def TransOk : Trans → Prop
  | .undef => True
  | .to a _ none => a ≤ 9
  | .to a _ (some q) => a ≤ 9 ∧ q ≤ 24

/-- as the code keeps it: variables in order, coefficients not zero, all numbers in range; the variables have names -/
structure SumOk (s : VarSum) : Prop where
  sorted : s.vars.Pairwise fun p q => p.1 < q.1
  coefs : ∀ p ∈ s.vars, 0 < p.2 ∧ p.2 < 2 ^ 64
  named : ∀ p ∈ s.vars, p.1 < 26
  const : s.const < 2 ^ 64

/-- counts that can be read back: sums and infinity -/
def CountOk : Count → Prop
  | .fin (.sum s) => SumOk s
  | .fin (.iter ..) => False
  | .inf => True

structure BlockOk (b : Block) : Prop where
  nonempty : b.symbols ≠ []
  digits : ∀ a ∈ b.symbols, a ≤ 9
  rep : CountOk b.rep

def HalfOk (t : HalfTape) : Prop := ∀ b ∈ t, BlockOk b

structure ConfigOk (c : Model.Validator.Config) : Prop where
  left : HalfOk c.left
  right : HalfOk c.right
  state : ∀ k, c.state = some k → k ≤ 24

/-- a term of a count as written: `13`, `x` or `12x` -/
inductive Term where
  | const (digits : List Char)
  | var (coef : List Char) (letter : Char)

def Term.text : Term → List Char
  | .const ds => ds
  | .var ds c => ds ++ [c]

/-- a number is written with at least one digit; a coefficient may be missing -/
def Term.Written : Term → Prop
  | .const ds => ds ≠ [] ∧ ∀ c ∈ ds, c ∈ "0123456789".toList
  | .var ds c => (∀ c ∈ ds, c ∈ "0123456789".toList) ∧ c ∈ "abcdefghijklmnopqrstuvwxyz".toList

def decimal (ds : List Char) : Nat := ds.foldl (fun n c => 10 * n + (c.toNat - '0'.toNat)) 0

/-- the number in a term; a missing coefficient is 1 -/
def Term.number : Term → Nat
  | .const ds => decimal ds
  | .var ds _ => if ds = [] then 1 else decimal ds

/-- the number of the variable with a letter: `n` is the first -/
def letterVar (c : Char) : Nat := "nabcdefghijklmopqrstuvwxyz".toList.idxOf c

def Term.value (v : Nat → Nat) : Term → Nat
  | .const ds => decimal ds
  | .var ds c => (Term.var ds c).number * v (letterVar c)

end Spec.ValidatorText

import Verif.Model.ExprText

/-!
# Sums as one writes them
-/

namespace Spec
open Model.Expr Model.ExprText

/-- the expression as it is read -/
def asRead (e : Expr Int) : RExpr := ⟨e.terms.map fun t => ⟨t.vars.map fun v => ((v.var : Int), (v.pow : Int)), t.coef⟩, e.const⟩

/-- the same expression with `int`s as its numbers -/
def ofInts (e : Expr Int) : Expr Scalar := ⟨e.terms.map fun t => ⟨t.vars, .int t.coef⟩, .int e.const⟩

/-- A summand without its sign: a number, or a product of powers with a factor that is written or (if it is 1) not. -/
inductive Summand
  | const (n : Nat)
  | plain (v : VarPow) (vs : List VarPow)
  | times (n : Nat) (v : VarPow) (vs : List VarPow)

def Summand.isConst : Summand → Prop
  | .const _ => True
  | _ => False

/-- how it is written -/
def Summand.text : Summand → List Char
  | .const n => Nat.toDigits 10 n
  | .plain v vs => Py.join ' ' ((v :: vs).map reprVP)
  | .times n v vs => Nat.toDigits 10 n ++ ' ' :: Py.join ' ' ((v :: vs).map reprVP)

/-- spaces -/
def blank (n : Nat) : List Char := List.replicate n ' '

/-- A difference: a first summand, with a sign if `neg`, and summands that are subtracted, with a second minus sign if the flag is
set (as in `x - -3`).  Around the minus signs are `pre + 1` and `post + 1` spaces. -/
structure Diff where
  neg : Bool
  head : Summand
  subs : List (Nat × Nat × Bool × Summand)

def subText : Nat × Nat × Bool × Summand → List Char
  | (pre, post, neg, s) => blank (pre + 1) ++ '-' :: (blank (post + 1) ++ ((if neg then ['-'] else []) ++ s.text))

def Diff.text (d : Diff) : List Char := (if d.neg then ['-'] else []) ++ d.head.text ++ d.subs.flatMap subText

/-- the summands of a difference with their signs -/
def Diff.signed (d : Diff) : List (Int × Summand) :=
  ((if d.neg then -1 else 1), d.head) :: d.subs.map fun s => ((if s.2.2.1 then 1 else -1), s.2.2.2)

/-- the same if all minus signs were not there -/
def Diff.unsigned (d : Diff) : List (Int × Summand) := (1, d.head) :: d.subs.map fun s => (1, s.2.2.2)

/-- the number of minus signs -/
def Diff.signs (d : Diff) : Nat := (if d.neg then 1 else 0) + (d.subs.map fun s => if s.2.2.1 then 2 else 1).sum

/-- Sums: differences with plus signs between them (and any spaces around these). -/
def sumText : List (Nat × Nat × Diff) → Diff → List Char
  | [], last => last.text
  | (pre, post, d) :: ds, last => d.text ++ blank pre ++ '+' :: (blank post ++ sumText ds last)

/-- the terms of a list of signed summands that are not numbers -/
def termsOf : List (Int × Summand) → List RTerm
  | [] => []
  | (_, .const _) :: l => termsOf l
  | (σ, .plain v vs) :: l => ⟨(v :: vs).map fun v => ((v.var : Int), (v.pow : Int)), σ⟩ :: termsOf l
  | (σ, .times n v vs) :: l => ⟨(v :: vs).map fun v => ((v.var : Int), (v.pow : Int)), σ * n⟩ :: termsOf l

/-- the sum of the numbers -/
def constOf : List (Int × Summand) → Int
  | [] => 0
  | (σ, .const n) :: l => σ * n + constOf l
  | (_, .plain _ _) :: l => constOf l
  | (_, .times _ _ _) :: l => constOf l

/-- what the sum means -/
def meaning (l : List (Int × Summand)) : RExpr := ⟨termsOf l, constOf l⟩

/-- a number may only be the last summand -/
def ConstLast (l : List (Int × Summand)) : Prop := ∀ p ∈ l.dropLast, ¬ p.2.isConst

end Spec

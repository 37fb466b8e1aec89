import Verif.Model.Expr
import Verif.Model.Str
import Mathlib.Data.Nat.Digits.Defs
import Mathlib.Data.Rat.Defs

/-!
# Model of the text of expressions: `Code/Algebraic_Expression.py`

`repr` and `*_from_string` (78-83, 89-95, 104-108, 120-131, 139-146, 152-168, 177-184, 311-339).  Texts are lists of characters.
Simplified: `int(s)` reads ASCII digits with a sign, between spaces (Python also allows underscores and the digits of other
scripts).
-/

namespace Model.ExprText
open Model.Expr

/-- the exceptions that the functions raise -/
inductive Exn
  | value
  | index
deriving DecidableEq, Repr

/-- A number in an expression: an `int` or a `Fraction` (which stays one if it gets integral). -/
inductive Scalar
  | int (z : Int)
  | frac (q : Rat)
deriving DecidableEq, Repr

/-- the value, for `==` -/
def Scalar.val : Scalar → Rat
  | .int z => z
  | .frac q => q

/-! ### Printing -/

/-- `repr` of an `int` -/
def reprInt (z : Int) : List Char := if z < 0 then '-' :: Nat.toDigits 10 z.natAbs else Nat.toDigits 10 z.natAbs

/-- `repr` of a number -/
def reprScalar : Scalar → List Char
  | .int z => reprInt z
  | .frac q => "Fraction(".toList ++ reprInt q.num ++ ", ".toList ++ Nat.toDigits 10 q.den ++ [')']

/-- `Variable.__repr__` (78-83) -/
def reprVar (id : Nat) : List Char :=
  if id ≤ 25 then [Char.ofNat (id + 'a'.toNat)] else "<x".toList ++ Nat.toDigits 10 id ++ ['>']

/-- `Var_Power.__repr__` (104-108) -/
def reprVP (v : VarPow) : List Char := if v.pow = 1 then reprVar v.var else reprVar v.var ++ '^' :: Nat.toDigits 10 v.pow

/-- `Term.__repr__` (139-146) -/
def reprTerm (t : Term Scalar) : List Char :=
  let r := Py.join ' ' (t.vars.map reprVP)
  if t.coef.val = 1 then r
  else if t.coef.val = -1 then '-' :: r
  else reprScalar t.coef ++ ' ' :: r

/-- `" + ".join(parts)` -/
def joinPlus : List (List Char) → List Char
  | [] => []
  | [r] => r
  | r :: rs => r ++ " + ".toList ++ joinPlus rs

/-- `Expression.__repr__` (177-184) -/
def reprExpr (e : Expr Scalar) : List Char :=
  if e.terms.length = 0 then reprScalar e.const
  else
    let r := joinPlus (e.terms.map reprTerm)
    if e.const.val = 0 then '(' :: r ++ [')'] else '(' :: r ++ " + ".toList ++ reprScalar e.const ++ [')']

/-! ### Reading -/

/-- what is read: the ids and powers may be any integers -/
structure RTerm where
  vars : List (Int × Int)
  coef : Int
deriving DecidableEq, Repr

structure RExpr where
  terms : List RTerm
  const : Int
deriving DecidableEq, Repr

/-- digits -/
def natOf (ds : List Char) : Option Nat :=
  if ds ≠ [] ∧ ds.all (· ∈ Py.digits) = true then some (Nat.ofDigitChars 10 ds 0) else none

/-- `int(s)`; `none` is a `ValueError` -/
def intOf (s : List Char) : Option Int :=
  match Py.strip s with
  | '-' :: ds => (natOf ds).map fun n => -(n : Int)
  | '+' :: ds => (natOf ds).map fun n => (n : Int)
  | ds => (natOf ds).map fun n => (n : Int)

def intE (s : List Char) : Except Exn Int :=
  match intOf s with
  | some z => .ok z
  | none => .error .value

/-- `[f(x) for x in xs]` -/
def mapX {α β : Type} (f : α → Except Exn β) : List α → Except Exn (List β)
  | [] => .ok []
  | x :: xs =>
    match f x with
    | .error e => .error e
    | .ok y =>
      match mapX f xs with
      | .error e => .error e
      | .ok ys => .ok (y :: ys)

/-- `Variable_from_string` (89-95) -/
def varOf : List Char → Except Exn Int
  | [] => .error .index
  | ['<'] => .error .index
  | '<' :: 'x' :: r => intE r.dropLast
  | [c] => if 'a'.toNat ≤ c.toNat ∧ c.toNat ≤ 'z'.toNat then .ok ((c.toNat : Int) - 'a'.toNat) else .error .value
  | _ => .error .value

/-- `Var_Power_from_string` (120-131) -/
def vpOf (s : List Char) : Except Exn (Int × Int) :=
  match Py.split '^' s with
  | [] => .error .index
  | [v, p] =>
    match varOf v with
    | .error e => .error e
    | .ok id =>
      match intE p with
      | .error e => .error e
      | .ok p => .ok (id, p)
  | v :: _ =>
    match varOf v with
    | .error e => .error e
    | .ok id => .ok (id, 1)

/-- the sign before a term without a number (159-163) -/
def signWord : List Char → Int × List Char
  | '-' :: w => (-1, w)
  | w => (1, w)

/-- `Term_from_string` (152-168) -/
def termOf (s : List Char) : Except Exn RTerm :=
  match Py.words s with
  | [] => .error .index
  | w :: ws =>
    let p : Int × List (List Char) :=
      match intOf w with
      | some c => (c, ws)
      | none => ((signWord w).1, (signWord w).2 :: ws)
    match mapX vpOf p.2 with
    | .error e => .error e
    | .ok vs => .ok ⟨vs, p.1⟩

/-- `last_terms` (318-325): the last summand, cut at the minus signs -/
def lastTerms (s : List Char) : List (List Char) :=
  let l := (Py.split '-' s).map Py.strip
  let l := match l with
    | [a, b] => [a, '-' :: b]
    | l => l
  match l with
  | [] :: l => l
  | l => l

/-- `Expression_from_string` (311-339) -/
def exprOf (s : List Char) : Except Exn RExpr :=
  match s with
  | [] => .error .index
  | c :: r =>
    let s := if c = '(' then r.dropLast else s
    let terms := (Py.split '+' s).map Py.strip
    let terms := terms.dropLast ++ lastTerms (terms.getLastD [])
    match terms.getLast? with
    | none => .error .index
    | some t =>
      let p : Int × List (List Char) :=
        match intOf t with
        | some c => (c, terms.dropLast)
        | none => (0, terms)
      match mapX termOf p.2 with
      | .error e => .error e
      | .ok ts => .ok ⟨ts, p.1⟩

end Model.ExprText

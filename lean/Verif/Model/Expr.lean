import Verif.Model.Math
import Mathlib.Algebra.Ring.Defs
import Mathlib.Algebra.Order.Ring.Defs
import Mathlib.Algebra.Field.Defs

/-!
# Model of `Code/Algebraic_Expression.py`

Scalars are the elements of a commutative ring `K` (the code uses `int` and `Fraction`; both embed in the rationals, and
`simp_frac` does not change a value).  Expressions whose scalars are themselves `ExpInt`s or expressions are not modelled.
Printing and parsing (lines 78-83, 89-95, 104-108, 120-131, 139-146, 152-168, 177-184, 311-339) are in `ExprText`.
-/

namespace Model.Expr

/-- `Var_Power` (98-102); a variable is its id. -/
structure VarPow where
  var : Nat
  pow : Nat
deriving DecidableEq, Repr

/-- `Term` (133-137). -/
structure Term (K : Type) where
  vars : List VarPow
  coef : K
deriving DecidableEq, Repr

/-- `Expression` (170-175). -/
structure Expr (K : Type) where
  terms : List (Term K)
  const : K
deriving DecidableEq, Repr

/-- A Python value: a scalar or an expression. -/
inductive Val (K : Type) where
  | num (k : K)
  | expr (e : Expr K)
deriving DecidableEq, Repr

/-- The loop over the pairs of factors (374-387). -/
def compareVars : List (VarPow × VarPow) → Int
  | [] => 0
  | (a, b) :: rest =>
    if a.var < b.var then -1
    else if a.var > b.var then 1
    else if a.pow < b.pow then -1
    else if a.pow > b.pow then 1
    else compareVars rest

/-- `compare_terms` (364-390), on the factors of the two terms. -/
def compareTerms (vars1 vars2 : List VarPow) : Int :=
  if vars1.length < vars2.length then -1
  else if vars1.length > vars2.length then 1
  else compareVars (vars1.zip vars2)

section ring
variable {K : Type} [CommRing K] [DecidableEq K]

/-- The loop of `term_sum` (345-358) while the first list is at the term `t1` (with `rest1` after it); `more` goes on with
`rest1`. -/
def mergeTerm (t1 : Term K) (rest1 : List (Term K)) (more : List (Term K) → List (Term K)) : List (Term K) → List (Term K)
  | [] => t1 :: rest1
  | t2 :: rest2 =>
    let c := compareTerms t1.vars t2.vars
    if c = 0 then
      if t1.coef + t2.coef ≠ 0 then ⟨t1.vars, t1.coef + t2.coef⟩ :: more rest2 else more rest2
    else if c < 0 then t1 :: more (t2 :: rest2)
    else t2 :: mergeTerm t1 rest1 more rest2

/-- `term_sum` (341-362). -/
def termSum : List (Term K) → List (Term K) → List (Term K)
  | [], ys => ys
  | x :: xs, ys => mergeTerm x xs (termSum xs) ys

/-- As `mergeTerm`, for `vars_prod` (407-418). -/
def mergeVar (v1 : VarPow) (rest1 : List VarPow) (more : List VarPow → List VarPow) : List VarPow → List VarPow
  | [] => v1 :: rest1
  | v2 :: rest2 =>
    if v1.var < v2.var then v1 :: more (v2 :: rest2)
    else if v1.var > v2.var then v2 :: mergeVar v1 rest1 more rest2
    else ⟨v1.var, v1.pow + v2.pow⟩ :: more rest2

/-- `vars_prod` (404-421). -/
def varsProd : List VarPow → List VarPow → List VarPow
  | [], ys => ys
  | x :: xs, ys => mergeVar x xs (varsProd xs) ys

/-- `__add__` of two expressions (186-188). -/
def addE (a b : Expr K) : Expr K := ⟨termSum a.terms b.terms, a.const + b.const⟩

/-- `__add__` of a scalar (189-190). -/
def addS (a : Expr K) (k : K) : Expr K := ⟨a.terms, a.const + k⟩

/-- `__mul__` by a scalar (196-200). -/
def mulS (a : Expr K) (k : K) : Expr K :=
  if k = 0 then ⟨[], 0⟩ else ⟨a.terms.map (fun t => ⟨t.vars, t.coef * k⟩), a.const * k⟩

/-- `expr_prod` (392-402). -/
def mulE (e1 e2 : Expr K) : Expr K :=
  addE
    (e1.terms.foldl (fun acc t1 =>
      addE (e2.terms.foldl (fun acc t2 => addE acc ⟨[⟨varsProd t1.vars t2.vars, t1.coef * t2.coef⟩], 0⟩) acc)
        (mulS ⟨[t1], 0⟩ e2.const)) ⟨[], 0⟩)
    (mulS e2 e1.const)

/-- `x + y` (186-190, 216-218). -/
def Val.add : Val K → Val K → Val K
  | .num a, .num b => .num (a + b)
  | .num a, .expr e => .expr (addS e a)
  | .expr e, .num b => .expr (addS e b)
  | .expr e, .expr f => .expr (addE e f)

/-- `x * y` (193-200, 219-221). -/
def Val.mul : Val K → Val K → Val K
  | .num a, .num b => .num (a * b)
  | .num a, .expr e => .expr (mulS e a)
  | .expr e, .num b => .expr (mulS e b)
  | .expr e, .expr f => .expr (mulE e f)

/-- `-x` (210-212). -/
def Val.neg : Val K → Val K
  | .num a => .num (-a)
  | .expr e => .expr (mulS e (-1))

/-- `x - y` (213-215, 222-224). -/
def Val.sub : Val K → Val K → Val K
  | .num a, .num b => .num (a - b)
  | .num a, .expr e => .expr (addS (mulS e (-1)) a)
  | .expr e, y => Val.add (.expr e) (Val.neg y)

/-- `for _ in range(power): prod *= self` (205-208). -/
def powLoop (e : Expr K) : Nat → Val K → Val K
  | 0, prod => prod
  | n + 1, prod => powLoop e n (Val.mul prod (.expr e))

/-- `x ** n` (202-208). -/
def Val.pow : Val K → Nat → Val K
  | .num a, n => .num (a ^ n)
  | .expr e, n => powLoop e n (.num 1)

/-- `VariableToExpression` (427-432). -/
def varE (v : Nat) : Expr K := ⟨[⟨[⟨v, 1⟩], 1⟩], 0⟩

/-- `Var_Power.substitute` (110-118). -/
def VarPow.subst (subs : Nat → Option (Val K)) (vp : VarPow) : Val K :=
  match subs vp.var with
  | some x => if vp.pow = 1 then x else Val.pow x vp.pow
  | none => Val.pow (.expr (varE vp.var)) vp.pow

/-- `Term.substitute` (148-150): `reduce` raises `TypeError` on an empty list. -/
def Term.subst (subs : Nat → Option (Val K)) (t : Term K) : Except Err (Val K) :=
  match t.vars.map (VarPow.subst subs) with
  | [] => .error .type
  | x :: xs => .ok (Val.mul (xs.foldl Val.mul x) (.num t.coef))

/-- `sum([...])` from left to right (246). -/
def substSum (subs : Nat → Option (Val K)) : List (Term K) → Val K → Except Err (Val K)
  | [], acc => .ok acc
  | t :: ts, acc =>
    match t.subst subs with
    | .error e => .error e
    | .ok x => substSum subs ts (Val.add acc x)

/-- `Expression.substitute` (244-247). -/
def Expr.subst (subs : Nat → Option (Val K)) (e : Expr K) : Except Err (Val K) :=
  match substSum subs e.terms (.num 0) with
  | .error e => .error e
  | .ok v => .ok (Val.add v (.num e.const))

/-- `is_const` (175 and Common.py:11-16). -/
def Val.isConst : Val K → Bool
  | .num _ => true
  | .expr e => e.terms.isEmpty

/-- `substitute` (60-64); `as_const` (35-40) of a constant. -/
def Val.subst (subs : Nat → Option (Val K)) : Val K → Except Err (Val K)
  | .num k => .ok (.num k)
  | .expr e => if e.terms.isEmpty then .ok (.num e.const) else e.subst subs

/-- The test of the difference in `__eq__` (262-268): the constant and every coefficient are zero. -/
def Val.vanishes : Val K → Bool
  | .num k => k = 0
  | .expr d => d.const = 0 && d.terms.all (fun t => t.coef = 0)

/-- `Expression.__eq__` (257-268); the comparison with infinity (258-259) is not modelled. -/
def Val.eq : Val K → Val K → Bool
  | .num a, .num b => a = b
  | .num a, .expr e => (Val.sub (.expr e) (.num a)).vanishes
  | .expr e, y => (Val.sub (.expr e) y).vanishes

/-- `is_var_plus_const` (273-276). -/
def Expr.isVarPlusConst (e : Expr K) : Bool :=
  match e.terms with
  | [t] => t.coef = 1 && (match t.vars with | [vp] => vp.pow = 1 | _ => false)
  | _ => false

/-- `variable_restricted` (284-289). -/
def Expr.variableRestricted (e : Expr K) : Except Err Nat :=
  match e.terms with
  | [t] =>
    match t.vars with
    | [vp] => if t.coef = 1 ∧ vp.pow = 1 then .ok vp.var else .error .badOperation
    | _ => .error .badOperation
  | _ => .error .badOperation

end ring

section field
variable {K : Type} [Field K] [DecidableEq K]

/-- `__truediv__` and `__floordiv__` by a scalar (226-237). -/
def divS (a : Expr K) (k : K) : Except Err (Expr K) :=
  if k = 1 then .ok a
  else if k = 0 then .error .zeroDivision
  else .ok ⟨a.terms.map (fun t => ⟨t.vars, t.coef / k⟩), a.const / k⟩

end field

section ordered
variable {K : Type} [CommRing K] [LinearOrder K]

/-- `Expression.min_val` (250-255); `none` is `-math.inf`. -/
def Expr.minVal (e : Expr K) : Option K := if e.terms.any (fun t => t.coef < 0) then none else some e.const

/-- `min_val` (42-46). -/
def Val.minVal : Val K → Option K
  | .num k => some k
  | .expr e => if e.terms.isEmpty then some e.const else e.minVal

/-- `always_ge` (48-49). -/
def alwaysGe (a b : Val K) : Bool :=
  match (Val.sub a b).minVal with
  | none => false
  | some m => m ≥ 0

/-- `always_gt` (51-52). -/
def alwaysGt (a b : Val K) : Bool :=
  match (Val.sub a b).minVal with
  | none => false
  | some m => m > 0

end ordered

end Model.Expr

import Verif.Model.LinearRule

/-!
# Model of exponential rules (`Code/Macro/Proof_System.py`, `Exponential_Rule`)

When all applications of a linear rule inside a proof are made at once, the exponents after a rule may contain powers whose
exponent is a variable (`ExpInt`).  A rule in which every exponent becomes either linear or one such power of itself is an
`Exponential_Rule`.  Here the exponents on the tape the rule is applied to are plain integers (huge ones, `ExpInt` without
variables, are modelled by their value).  Printing, statistics, numbers of steps and states last seen are left out.
-/

namespace Model.ExpRule
open Model.Expr Model.RuleFunc Model.Prover
open Model.Recursive (strictlyLinear)
open Model.Linear (Func mkFunc)

variable {σ : Type}

/-- `ExpTerm` with variables (Exp_Int.py:127-146): `coef base^exp`; `exp` is `none` if the exponent is again an `ExpInt` with
variables (its form is not needed). -/
structure PTerm where
  base : Int
  coef : Int
  exp : Option V
deriving DecidableEq

/-- An exponent on the result tape of a rule: infinity, a number or an algebraic expression with plain coefficients, or an
`ExpInt` (Exp_Int.py:250-345) `(terms + const)/denom`, where `vars` is what `variables` returns (343-345).  Expressions that
have `ExpInt`s as coefficients or constants are not modelled. -/
inductive R where
  | inf
  | val (v : V)
  | exp (vars : List Nat) (terms : List PTerm) (const denom : Int)
deriving DecidableEq

/-- `variables` (Algebraic_Expression.py:54-58) -/
def R.variables : R → List Nat
  | .inf => []
  | .val v => v.variables
  | .exp vars _ _ _ => vars

/-- The functions an `Exponential_Rule` may contain (`func_list`); the minimum of a `Pow_Func` is computed when it is made. -/
inductive EFunc where
  | lin (f : Func)
  | pow (f : Pow) (min : Int)

/-- `func.min` -/
def EFunc.min : EFunc → Int
  | .lin f => f.min
  | .pow _ m => m

/-- `func.is_decreasing` (Rule_Func.py:27, 52, 70, 112) -/
def EFunc.isDecreasing : EFunc → Bool
  | .lin f => f.isDecreasing
  | .pow _ _ => false

/-- The floating point computations in `Pow_Func.compute_min` (Rule_Func.py:126, 132): for every function the value of
`x_bound` at a minimum, a rational number; and how long the loop is followed. -/
structure Floats where
  xBound : Pow → Int → ℚ
  fuel : Nat

/-- `Pow_Func.__init__` (Rule_Func.py:100-115).  A loop of `compute_min` that has not ended is `raise`, too. -/
def mkPow (F : Floats) (min : Int) (f : Pow) : Out EFunc :=
  if 1 < f.base ∧ 0 < f.coefBase ∧ 0 < f.coefExp then
    match f.computeMin (F.xBound f) F.fuel min with
    | some m => .ok (.pow f m)
    | none => .raise
  else .raise

/-- The body of the loop 247-290 for a block with a variable `x`. -/
def genFunc (F : Floats) (x : Nat) (m : Int) (r : R) : Out EFunc :=
  if r.variables ≠ [x] then .fail
  else match r with
    | .inf => .raise
    | .exp _ [t] const denom =>
      match t.exp with
      | none => .fail
      | some e =>
        match strictlyLinear e with
        | none => .fail
        | some (y, u, v) => if y ≠ x then .raise else mkPow F m ⟨t.base, t.coef, const, denom, u, v⟩
    | .exp _ _ _ _ => .fail
    | .val v =>
      match strictlyLinear v with
      | none => .fail
      | some (y, coef, const) =>
        if y ≠ x then .raise
        else match mkFunc m coef const with
          | .error _ => .raise
          | .ok f => .ok (.lin f)

/-- The loop 243-290 of `Exponential_Rule.try_gen`. -/
def genFuncs (F : Floats) : List (Option (Nat × Int)) → List R → Out (List (Option (Nat × EFunc)))
  | none :: vs, _ :: rs =>
    match genFuncs F vs rs with
    | .ok l => .ok (none :: l)
    | .fail => .fail
    | .raise => .raise
  | some (x, m) :: vs, r :: rs =>
    match genFunc F x m r with
    | .raise => .raise
    | .fail => .fail
    | .ok f =>
      match genFuncs F vs rs with
      | .ok l => .ok (some (x, f) :: l)
      | .fail => .fail
      | .raise => .raise
  | [], [] => .ok []
  | _, _ => .raise

/-- `Exponential_Rule` (200-236): `var_list` and `min_list` are those of the functions; `result` is that of the general rule it
contains (219-220). -/
structure ERule where
  funcs : List (Option (Nat × EFunc))
  result : List R
  states : List Nat

/-- `self.infinite` (224-236) -/
def ERule.infinite (r : ERule) : Bool :=
  !r.funcs.any (fun f => match f with | some (_, f) => f.isDecreasing | none => false)

/-- `var_list` with `min_list` (214-217) -/
def ERule.vars (r : ERule) : List (Option (Nat × Int)) := r.funcs.map (Option.map (fun p => (p.1, p.2.min)))

/-- `Exponential_Rule.try_gen` (238-292), with the assertion on the variables made by the general rule (339-342). -/
def tryGen (F : Floats) (vars : List (Option (Nat × Int))) (result : List R) (states : List Nat) : Out ERule :=
  match genFuncs F vars result with
  | .ok l =>
    if result.all (fun r => r.variables.all (fun x => l.any (fun f => match f with | some (y, _) => y = x | none => false)))
    then .ok ⟨l, result, states⟩ else .raise
  | .fail => .fail
  | .raise => .raise

/-! ## Applying the rule -/

/-- `config_fits_min` (1431-1440) with the assignment; an infinite exponent where the rule has a variable is not modelled. -/
def fits : List (Option (Nat × Int)) → List (Option Int) → List (Nat × Int) → Out (List (Nat × Int))
  | some (x, m) :: vs, c :: cs, a =>
    match c with
    | none => .raise
    | some c => if c - m ≥ 0 then fits vs cs (Py.dset a x c) else .fail
  | none :: vs, _ :: cs, a => fits vs cs a
  | _, _, a => .ok a

/-- What `substitute` gives: an exponent, something that is not an integer and is not followed any further (`odd`), or an
exception. -/
inductive Ev (α : Type) where
  | ok (a : α)
  | odd
  | raise
deriving DecidableEq, Repr

/-- An expression at numbers (Algebraic_Expression.py:244-247). -/
def evalV (a : List (Nat × Int)) (v : V) : Ev Int :=
  match v.subst (fun x => (Py.dget a x).map .num) with
  | .ok (.num k) => .ok k
  | _ => .raise

/-- `substitute(val, assignment)` (Algebraic_Expression.py:60-64, Exp_Int.py:197-202, 346-351).  For `ExpInt`s with more than one
term, or with an `ExpInt` as exponent, which these rules do not have, it is not modelled.  If the exponent is 0, `exp_int`
returns the `int` 1 (Exp_Int.py:24-25), and the division by the denominator makes a `float` of it: `odd`.  Likewise if the
exponent is negative or the quotient is no integer, where the `ExpInt` made is not an integer. -/
def evalR (a : List (Nat × Int)) : R → Ev (Option Int)
  | .inf => .ok none
  | .val v =>
    match evalV a v with
    | .ok k => .ok (some k)
    | .odd => .odd
    | .raise => .raise
  | .exp _ [t] const denom =>
    match t.exp with
    | none => .odd
    | some e =>
      match evalV a e with
      | .ok n =>
        if n ≤ 0 then .odd
        else
          let numer := t.coef * t.base ^ n.toNat + const
          if denom = 0 then .raise
          else if numer % denom = 0 then .ok (some (numer / denom)) else .odd
      | .odd => .odd
      | .raise => .raise
  | .exp _ _ _ _ => .odd

/-- `next_list` (1380) -/
def nextList (a : List (Nat × Int)) : List R → Ev (List (Option Int))
  | [] => .ok []
  | r :: rs =>
    match evalR a r with
    | .raise => .raise
    | .odd =>
      match nextList a rs with
      | .raise => .raise
      | _ => .odd
    | .ok c =>
      match nextList a rs with
      | .ok cs => .ok (c :: cs)
      | .odd => .odd
      | .raise => .raise

/-- how the loop of `apply_general_rule` ends -/
inductive Loop where
  | inf
  | stop (cur : List (Option Int)) (success : Bool)
  | odd
  | raise
deriving DecidableEq, Repr

/-- The loop 1369-1395; the first argument is `max_num_reps - num_reps`. -/
def genLoop (vars : List (Option (Nat × Int))) (result : List R) : Nat → List (Option Int) → Bool → Loop
  | n, cur, success =>
    match fits vars cur [] with
    | .raise => .raise
    | .fail => .stop cur success
    | .ok a =>
      match n with
      | 0 => .stop cur success
      | n + 1 =>
        match nextList a result with
        | .raise => .raise
        | .odd => .odd
        | .ok next => if next = cur then .inf else genLoop vars result n next true

/-- `ProverResult` (478-484); `odd`: an exponent of the tape is no integer any more. -/
inductive ERes (σ : Type) where
  | apply (tape : ChainTape σ Int)
  | inf (states : List Nat)
  | odd
deriving DecidableEq, Repr

/-- 1399-1406 -/
def putAll (tape : ChainTape σ Int) (cs : List (Option Int)) : ChainTape σ Int :=
  { tape with
    left := (Linear.putNums tape.left (cs.take tape.left.length)).filter (fun b => b.num ≠ some 0)
    right := (Linear.putNums tape.right (cs.drop tape.left.length)).filter (fun b => b.num ≠ some 0) }

/-- `apply_exponential_rule` (1307-1331) with `apply_general_rule` (1336-1429).  The general rule is not `infinite` itself
(346-353): a decreasing function of the rule is `x ↦ x - c`, which is not always at least `x`. -/
def applyExp (maxReps : Nat) (r : ERule) (tape : ChainTape σ Int) : Out (ERes σ) :=
  let cur := (tape.left ++ tape.right).map (·.num)
  if cur.length ≠ r.funcs.length then .raise
  else
    match fits r.vars cur [] with
    | .raise => .raise
    | .fail => .fail
    | .ok _ =>
      if r.infinite then .ok (.inf r.states)
      else if maxReps = 0 then .raise
      else match genLoop r.vars r.result maxReps cur false with
        | .raise => .raise
        | .odd => .ok .odd
        | .inf => .ok (.inf r.states)
        | .stop _ false => .fail
        | .stop cs true => .ok (.apply (putAll tape cs))

end Model.ExpRule

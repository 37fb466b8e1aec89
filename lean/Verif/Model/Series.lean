import Verif.Model.Expr
import Mathlib.Data.Rat.Floor

/-!
# Model of `series_sum` (Code/Macro/Proof_System.py:1442-1483)

Scalars are rationals (`int` or `Fraction`).  `N` and `expr` are scalars or expressions.
-/

namespace Model.Series
open Model.Expr

/-- The loop of `factor_var` (1446-1450): the power of `k` and the other factors. -/
def factorLoop (k : Nat) : List VarPow → Nat → List VarPow → Nat × List VarPow
  | [], kPow, rest => (kPow, rest)
  | vp :: vps, kPow, rest =>
    if vp.var = k then factorLoop k vps vp.pow rest else factorLoop k vps kPow (rest ++ [vp])

/-- `factor_var` (1442-1457). -/
def factorVar (t : Term ℚ) (k : Nat) : Nat × Val ℚ :=
  let (kPow, rest) := factorLoop k t.vars 0 []
  if rest ≠ [] then (kPow, .expr ⟨[⟨rest, t.coef⟩], 0⟩) else (kPow, .num t.coef)

/-- `x // n` for a positive integer `n`: rounded down for a scalar, the exact quotient for an expression
(Algebraic_Expression.py:237). -/
def floorDiv (x : Val ℚ) (n : Nat) : Except Err (Val ℚ) :=
  match x with
  | .num a => .ok (.num (Rat.floor (a / n)))
  | .expr e =>
    match divS e n with
    | .ok q => .ok (.expr q)
    | .error e => .error e

/-- What one term adds to the total (1468-1482). -/
def termSeries (t : Term ℚ) (k : Nat) (N : Val ℚ) : Except Err (Val ℚ) :=
  let (kPow, rest) := factorVar t k
  let N1 := N.sub (.num 1)
  if kPow = 0 then .ok (rest.mul N)
  else if kPow = 1 then floorDiv ((rest.mul N).mul N1) 2
  else if kPow = 2 then floorDiv (((rest.mul N).mul N1).mul (((Val.num 2).mul N).sub (.num 1))) 6
  else if kPow = 3 then
    match floorDiv ((rest.mul N).mul N1) 2 with
    | .ok x => .ok (x.pow 2)
    | .error e => .error e
  else .error .notImplemented

/-- The loop of `series_sum` over the terms (1467-1483). -/
def seriesLoop (k : Nat) (N : Val ℚ) : List (Term ℚ) → Val ℚ → Except Err (Val ℚ)
  | [], total => .ok total
  | t :: ts, total =>
    match termSeries t k N with
    | .error e => .error e
    | .ok x => seriesLoop k N ts (total.add x)

/-- `series_sum` (1459-1483). -/
def seriesSum (e : Val ℚ) (k : Nat) (N : Val ℚ) : Except Err (Val ℚ) :=
  match e with
  | .num c => .ok ((Val.num c).mul N)
  | .expr e => seriesLoop k N e.terms ((Val.num e.const).mul N)

end Model.Series

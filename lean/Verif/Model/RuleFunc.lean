import Verif.Model.Math
import Mathlib.Data.Rat.Floor

/-!
# Model of `Code/Macro/Rule_Func.py`

Run lengths and repetition counts are integers; huge ones (`ExpInt`) are modelled by their value, symbolic ones (expressions)
are not modelled.  `VariableToExpression` and printing are left out.
-/

namespace Model.RuleFunc

/-- `ceil_div` (11-12): `((a-1) // b) + 1`. -/
def ceilDiv (a b : Int) : Except Err Int := if b = 0 then .error .zeroDivision else .ok ((a - 1).fdiv b + 1)

/-- `Subtract_Func` (20-28). -/
structure Subtract where
  min : Int
  const : Int
deriving Repr

/-- `Subtract_Func.__init__` (22-28). -/
def Subtract.new (min const : Int) : Except Err Subtract := if const > 0 then .ok ⟨min, const⟩ else .error .assertion

/-- `Subtract_Func.max_reps` (34-39). -/
def Subtract.maxReps (f : Subtract) (start : Int) : Int × Int :=
  let minAfter := f.min - f.const
  let numReps := (start - minAfter).fdiv f.const
  let r := (start - minAfter).fmod f.const
  (numReps, r + minAfter)

/-- `Subtract_Func.apply_rep` (41-42). -/
def Subtract.applyRep (f : Subtract) (start numReps : Int) : Int := start - numReps * f.const

/-- `Add_Func` (45-52). -/
structure Add where
  min : Int
  const : Int
deriving Repr

/-- `Add_Func.__init__` (47-52). -/
def Add.new (min const : Int) : Except Err Add := if const ≥ 0 then .ok ⟨min, const⟩ else .error .assertion

/-- `Add_Func.apply_rep` (58-59). -/
def Add.applyRep (f : Add) (start numReps : Int) : Int := start + numReps * f.const

/-- `Mult_Func` (62-71). -/
structure Mult where
  min : Int
  coef : Int
  const : Int
deriving DecidableEq, Repr

/-- `Mult_Func.compute_min` (77-84). -/
def Mult.computeMin (coef const min : Int) : Except Err Int :=
  if const ≥ 0 then .ok min
  else match ceilDiv (-const) (coef - 1) with
    | .error e => .error e
    | .ok noDecr => .ok (if noDecr > min then noDecr else min)

/-- `Mult_Func.__init__` (64-71). -/
def Mult.new (min coef const : Int) : Except Err Mult :=
  if coef > 0 then
    match Mult.computeMin coef const min with
    | .error e => .error e
    | .ok min => .ok ⟨min, coef, const⟩
  else .error .assertion

/-- `Mult_Func.apply_rep` (86-95).  `exp_int(coef, n)` is the plain number 1 if `n` is 0 and an `ExpInt` otherwise, and an
`ExpInt` times 0 is the plain number 0: in both cases the assertion of line 94 fails.  With `coef = 1` the normalisation of
`ExpTerm` does not end (Exp_Int.py:154-156).  Otherwise the result is the quotient, represented exactly. -/
def Mult.applyRep (f : Mult) (start : Int) (numReps : Nat) : Except Err Int :=
  let m := f.coef - 1
  if numReps = 0 then .error .assertion
  else if f.coef = 1 then .error .diverges
  else if start * m + f.const = 0 then .error .assertion
  else .ok (((start * m + f.const) * f.coef ^ numReps - f.const) / m)

/-- `Pow_Func` (98-115): `x -> (a b^{u x + v} + c)/d`. -/
structure Pow where
  base : Int
  coefBase : Int
  constBase : Int
  denom : Int
  coefExp : Int
  constExp : Int

/-- The loop of `Pow_Func.compute_min` (127-137).  `xBound` is the floating-point value of
`(math.log(dxc, base) - av) / coef_exp`, a rational (126, 132).  `none`: the loop has not ended within the fuel. -/
def Pow.computeMin (f : Pow) (xBound : Int → ℚ) : Nat → Int → Option Int
  | 0, _ => none
  | fuel + 1, min =>
    if f.denom * min - f.constBase ≤ 0 then some min
    else if xBound min < min then some min
    else f.computeMin xBound fuel (Rat.ceil (xBound min))

end Model.RuleFunc

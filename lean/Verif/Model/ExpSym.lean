import Verif.Model.ExpInt
import Verif.Model.Expr
import Mathlib.Algebra.Ring.Int.Defs
import Mathlib.Algebra.Order.Ring.Int

/-!
# Model of the symbolic part of `Code/Exp_Int.py`

`ExpInt`s whose exponents are algebraic expressions (`Code/Algebraic_Expression.py` with integer coefficients), such as
`(7 * 2^(x + 3) - 5) / 3`: building them (129-191, 254-293, 328-340), their least value (183-190, 330-336), their variables, their
sums, products and quotients with constants and with one another (397-463), and substituting for the variables (197-202,
346-351).

An `ExpInt` with both constant and symbolic terms cannot be built: line 330 asks a constant term for `min_value`, which it does
not have.  This `AttributeError`, and that of `try_eval` for a symbolic `ExpInt` (58), are `Err.type` here.  Expressions that
contain `ExpInt`s as coefficients or constants are not modelled (`Err.notImplemented`).  A negative least exponent, with which
the code would go on in floating point, is `Err.value`, as in `Model.ExpInt`.
-/

namespace Model.ExpSym
open Model.ExpInt Model.Expr

/-- `ExpTerm` with an expression as exponent (129-145), and its `min_value` (`none` is `-math.inf`). -/
structure STerm where
  base : Int
  coef : Int
  exponent : Expr Int
  min : Option Num

/-- A number (`Model.ExpInt`), or an `ExpInt` all of whose terms are symbolic, with its `min_value`. -/
inductive SNum where
  | num (x : Num)
  | sym (terms : List STerm) (const denom : Int) (min : Option Num)

/-- What Python's division can give: also the floating-point number nearest to `p / q`. -/
inductive QNum where
  | num (x : SNum)
  | float (p q : Int)

variable (F : Floats)

/-- `while self.coef % self.base == 0: self.coef //= self.base; self.exponent += 1` (153-155); the fuel is the absolute value
of the coefficient. -/
def pullOutS (base : Int) : Nat → Int → Expr Int → Int × Expr Int
  | 0, c, e => (c, e)
  | f + 1, c, e => if c.fmod base = 0 then pullOutS base f (c.fdiv base) (addS e 1) else (c, e)

/-- `ExpTerm.eval` for a symbolic exponent (183-190).  `exp_int(base, -math.inf)` fails its assertion (22). -/
def termMin (fuel : Nat) (base coef : Int) (e : Expr Int) : Except Err (Option Num) :=
  if coef < 0 then .ok none
  else
    match e.minVal with
    | none => .error .assertion
    | some m =>
      match expInt F fuel base (.int m) with
      | .error x => .error x
      | .ok p =>
        match mulN F fuel (.int coef) p with
        | .error x => .error x
        | .ok v => .ok (some v)

/-- `ExpTerm.__init__` (129-145) with `normalize` (147-155) for a symbolic exponent.  An expression without variables is
constant but not an integer: the assertion of line 164 fails. -/
def mkTermS (fuel : Nat) (base coef : Int) (e : Expr Int) : Except Err STerm :=
  if coef = 0 then .error .assertion else
  match Math.intPow F.math base with
  | .error x => .error x
  | .ok (n, k) =>
    let e := if k > 1 then mulS e k else e
    let base : Int := if k > 1 then n else base
    if base = 0 then .error .zeroDivision
    else if base = 1 then .error .diverges
    else
      let ce := pullOutS base coef.natAbs coef e
      if ce.2.terms.isEmpty then .error .assertion
      else
        match termMin F fuel base ce.1 ce.2 with
        | .error x => .error x
        | .ok m => .ok ⟨base, ce.1, ce.2, m⟩

/-- `sum(min_terms)` (334), from the left, or `-math.inf` if that is one of them (331-332). -/
def sumMin (fuel : Nat) : List STerm → Num → Except Err (Option Num)
  | [], acc => .ok (some acc)
  | t :: ts, acc =>
    match t.min with
    | none => .ok none
    | some m =>
      match addN F fuel acc m with
      | .error x => .error x
      | .ok acc => sumMin fuel ts acc

/-- `ExpInt.eval` for symbolic terms (328-336).  If the sum of the minima is an `int`, dividing gives a `float` and the assertion
of line 336 fails. -/
def intMin (fuel : Nat) (ts : List STerm) (c d : Int) : Except Err (Option Num) :=
  if ts.any (fun t => t.min.isNone) then .ok none
  else
    match sumMin F fuel ts (.int 0) with
    | .error x => .error x
    | .ok none => .ok none
    | .ok (some s) =>
      match addN F fuel s (.int c) with
      | .error x => .error x
      | .ok (.int _) => .error .assertion
      | .ok (.exp ts' c' d') =>
        match trueDiv F fuel ts' c' d' (.int d) with
        | .error x => .error x
        | .ok m => .ok (some m)

/-- All terms have the same base, and there is one (227, 277-278). -/
def oneBaseS : List STerm → Bool
  | [] => false
  | t :: ts => ts.all (fun t' => t'.base = t.base)

/-- The common divisor of `normalize` (281-288). -/
def commonDivS (ts : List STerm) (c d : Int) : Int :=
  let common := Math.gcd c d * d.sign
  if common ≠ 1 then ts.foldl (fun g t => Math.gcd g t.coef) common else common

/-- `div_int` (212-217) of every term. -/
def divTerms (fuel : Nat) (common : Int) (ts : List STerm) : Except Err (List STerm) :=
  if common ≠ 1 then
    mapE (fun t : STerm =>
      if t.coef.fmod common = 0 then mkTermS F fuel t.base (t.coef.fdiv common) t.exponent else .error .assertion) ts
  else .ok ts

/-- `ExpInt.__init__` (254-278) with `normalize` (280-293) for symbolic terms. -/
def mkIntS (fuel : Nat) (ts : List STerm) (c d : Int) : Except Err SNum :=
  if ts.isEmpty then .error .assertion else
  let common := commonDivS ts c d
  if common = 0 then .error .zeroDivision else
  match divTerms F fuel common ts with
  | .error x => .error x
  | .ok ts' =>
    if d.fdiv common > 0 then
      match intMin F fuel ts' (c.fdiv common) (d.fdiv common) with
      | .error x => .error x
      | .ok m => if oneBaseS ts' then .ok (.sym ts' (c.fdiv common) (d.fdiv common) m) else .error .assertion
    else .error .assertion

/-- `mul_int` (207-210) of every term. -/
def mulTerms (fuel : Nat) (z : Int) (ts : List STerm) : Except Err (List STerm) :=
  if z = 0 then .error .assertion
  else mapE (fun t : STerm => mkTermS F fuel t.base (t.coef * z) t.exponent) ts

/-- `exp_int` (19-28).  An expression equal to 0 counts as 0. -/
def expIntS (fuel : Nat) (base : Int) : Val Int → Except Err SNum
  | .num z =>
    match expInt F fuel base (.int z) with
    | .error x => .error x
    | .ok r => .ok (.num r)
  | .expr e =>
    if Val.eq (.expr e) (.num 0) then .ok (.num (.int 1))
    else
      match mkTermS F fuel base 1 e with
      | .error x => .error x
      | .ok t => mkIntS F fuel [t] 0 1

/-- `__add__` (397-421). -/
def addSN (fuel : Nat) : SNum → SNum → Except Err SNum
  | .num a, .num b =>
    match addN F fuel a b with
    | .error x => .error x
    | .ok r => .ok (.num r)
  | .sym ts c d _, .num (.int z) => mkIntS F fuel ts (c + z * d) d
  | .num (.int z), .sym ts c d _ => mkIntS F fuel ts (c + z * d) d
  | .sym _ _ _ _, .num (.exp _ _ _) => .error .type
  | .num (.exp _ _ _), .sym _ _ _ _ => .error .type
  | .sym ts1 c1 d1 _, .sym ts2 c2 d2 _ =>
    match Math.lcm d1 d2 with
    | .error x => .error x
    | .ok nd =>
      if d1 = 0 ∨ d2 = 0 then .error .zeroDivision else
      let ns := nd.fdiv d1
      let no := nd.fdiv d2
      match mulTerms F fuel ns ts1 with
      | .error x => .error x
      | .ok ts1' =>
        match mulTerms F fuel no ts2 with
        | .error x => .error x
        | .ok ts2' =>
          if oneBaseS (ts1' ++ ts2') then mkIntS F fuel (ts1' ++ ts2') (ns * c1 + no * c2) nd
          else .error .assertion

/-- The products of the terms with an `ExpInt` that is a constant (437-441): `mul_int` by its constant and `mul_term` by each of its
terms. -/
def prodS (fuel : Nat) (ts : List STerm) (ts2 : List ETerm) (c2 : Int) : Except Err (List STerm) :=
  match mapE (fun t1 : STerm =>
      match mapE (fun _ => mkTermS F fuel t1.base (t1.coef * c2) t1.exponent) (if c2 ≠ 0 then [()] else []) with
      | .error x => .error x
      | .ok xs =>
        match mapE (fun t2 : ETerm =>
            if t1.base = t2.base then
              match t2.exponent with
              | .int k => mkTermS F fuel t1.base (t1.coef * t2.coef) (addS t1.exponent k)
              | .exp _ _ _ => .error .notImplemented
            else .error .assertion) ts2 with
        | .error x => .error x
        | .ok ys => .ok (xs ++ ys)) ts with
  | .error x => .error x
  | .ok xss => .ok xss.flatten

/-- `__mul__` (423-456).  A symbolic second factor has no tower value (424, 58); if the first factor has a constant part, lines
442-444 add constant terms to symbolic ones. -/
def mulSN (fuel : Nat) : SNum → SNum → Except Err SNum
  | .num a, .num b =>
    match mulN F fuel a b with
    | .error x => .error x
    | .ok r => .ok (.num r)
  | .num (.int z), .sym ts c d _ => mulInt ts c d z
  | .num (.exp _ _ _), .sym _ _ _ _ => .error .type
  | .sym _ _ _ _, .sym _ _ _ _ => .error .type
  | .sym ts c d _, .num b =>
    match simplify b with
    | .int z => mulInt ts c d z
    | .exp ts2 c2 d2 =>
      if (ts.head?.map (·.base)) = some (headBase ts2) then
        match prodS F fuel ts ts2 c2 with
        | .error x => .error x
        | .ok ts' =>
          if c ≠ 0 then .error .type
          else if oneBaseS ts' then mkIntS F fuel ts' (c * c2) (d * d2)
          else .error .assertion
      else .error .expInt
where
  /-- the case of an `int` (426-432) -/
  mulInt (ts : List STerm) (c d z : Int) : Except Err SNum :=
    if z = 0 then .ok (.num (.int 0))
    else
      match mulTerms F fuel z ts with
      | .error x => .error x
      | .ok ts' => mkIntS F fuel ts' (c * z) d

/-- `__neg__` (498-499). -/
def negS (fuel : Nat) (a : SNum) : Except Err SNum := mulSN F fuel a (.num (.int (-1)))

/-- `__sub__` (500-501) for an `ExpInt` on the left. -/
def subS (fuel : Nat) (a b : SNum) : Except Err SNum :=
  match negS F fuel b with
  | .error x => .error x
  | .ok nb => addSN F fuel a nb

/-- `/` by an `int`: `__truediv__` (458-463) of an `ExpInt`, Python's own division of two `int`s. -/
def divS (fuel : Nat) (a : SNum) (z : Int) : Except Err QNum :=
  match a with
  | .num (.int p) => if z = 0 then .error .zeroDivision else .ok (.float p z)
  | .num (.exp ts c d) =>
    match trueDiv F fuel ts c d (.int z) with
    | .error x => .error x
    | .ok r => .ok (.num (.num r))
  | .sym ts c d _ =>
    if z = 0 then .error .expInt
    else
      match mkIntS F fuel ts c (d * z) with
      | .error x => .error x
      | .ok r => .ok (.num r)

/-! ### Substituting numbers -/

/-- `Var_Power.substitute` (Algebraic_Expression.py:111-118) for a number.  An `ExpInt` has no `**`. -/
def powNum (x : Num) (n : Nat) : Except Err Num :=
  if n = 1 then .ok x
  else
    match x with
    | .int z => .ok (.int (z ^ n))
    | .exp _ _ _ => .error .type

/-- `reduce(mul, ...)` (Algebraic_Expression.py:150) from the left. -/
def mulAll (fuel : Nat) : List Num → Num → Except Err Num
  | [], acc => .ok acc
  | x :: xs, acc =>
    match mulN F fuel acc x with
    | .error e => .error e
    | .ok acc => mulAll fuel xs acc

/-- `Term.substitute` (Algebraic_Expression.py:148-150): `reduce` raises `TypeError` on an empty list. -/
def monoNum (fuel : Nat) (σ : Nat → Num) (t : Term Int) : Except Err Num :=
  match mapE (fun vp : VarPow => powNum (σ vp.var) vp.pow) t.vars with
  | .error e => .error e
  | .ok [] => .error .type
  | .ok (x :: xs) =>
    match mulAll F fuel xs x with
    | .error e => .error e
    | .ok p => mulN F fuel p (.int t.coef)

/-- `sum([...])` (Algebraic_Expression.py:246) from the left. -/
def sumNum (fuel : Nat) (σ : Nat → Num) : List (Term Int) → Num → Except Err Num
  | [], acc => .ok acc
  | t :: ts, acc =>
    match monoNum F fuel σ t with
    | .error e => .error e
    | .ok x =>
      match addN F fuel acc x with
      | .error e => .error e
      | .ok acc => sumNum fuel σ ts acc

/-- `Expression.substitute` (Algebraic_Expression.py:244-247) of an expression with variables. -/
def exprNum (fuel : Nat) (σ : Nat → Num) (e : Expr Int) : Except Err Num :=
  match sumNum F fuel σ e.terms (.int 0) with
  | .error x => .error x
  | .ok s => addN F fuel s (.int e.const)

/-- `ExpTerm.substitute` (197-202). -/
def termNum (fuel : Nat) (σ : Nat → Num) (t : STerm) : Except Err Num :=
  match exprNum F fuel σ t.exponent with
  | .error x => .error x
  | .ok n =>
    match expInt F fuel t.base n with
    | .error x => .error x
    | .ok p => mulN F fuel (.int t.coef) p

/-- `sum(term.substitute(assignment) for term in self.terms)` (349) from the left. -/
def termsNum (fuel : Nat) (σ : Nat → Num) : List STerm → Num → Except Err Num
  | [], acc => .ok acc
  | t :: ts, acc =>
    match termNum F fuel σ t with
    | .error e => .error e
    | .ok x =>
      match addN F fuel acc x with
      | .error e => .error e
      | .ok acc => termsNum fuel σ ts acc

/-- `ExpInt.substitute` (346-351) of numbers for all variables.  A number is left as it is. -/
def substNum (fuel : Nat) (σ : Nat → Num) : SNum → Except Err QNum
  | .num x => .ok (.num (.num x))
  | .sym ts c d _ =>
    match termsNum F fuel σ ts (.int 0) with
    | .error e => .error e
    | .ok s =>
      match addN F fuel s (.int c) with
      | .error e => .error e
      | .ok n => divS F fuel (.num n) d

/-! ### Substituting expressions -/

/-- `ExpTerm.substitute` (197-202). -/
def termExpr (fuel : Nat) (σ : Nat → Option (Val Int)) (t : STerm) : Except Err SNum :=
  match Val.subst σ (.expr t.exponent) with
  | .error x => .error x
  | .ok n =>
    match expIntS F fuel t.base n with
    | .error x => .error x
    | .ok p => mulSN F fuel (.num (.int t.coef)) p

/-- `sum(...)` (349) from the left. -/
def termsExpr (fuel : Nat) (σ : Nat → Option (Val Int)) : List STerm → SNum → Except Err SNum
  | [], acc => .ok acc
  | t :: ts, acc =>
    match termExpr F fuel σ t with
    | .error e => .error e
    | .ok x =>
      match addSN F fuel acc x with
      | .error e => .error e
      | .ok acc => termsExpr fuel σ ts acc

/-- `ExpInt.substitute` (346-351) of integers and expressions for some of the variables. -/
def substExpr (fuel : Nat) (σ : Nat → Option (Val Int)) : SNum → Except Err QNum
  | .num x => .ok (.num (.num x))
  | .sym ts c d _ =>
    match termsExpr F fuel σ ts (.num (.int 0)) with
    | .error e => .error e
    | .ok s =>
      match addSN F fuel s (.num (.int c)) with
      | .error e => .error e
      | .ok n => divS F fuel n d

/-- `min_val` (342-343, Algebraic_Expression.py:42-46). -/
def SNum.minVal : SNum → Option Num
  | .num x => some x
  | .sym _ _ _ m => m

/-- `variables` (344-345, 191, 337-340): the variables of the exponents. -/
def SNum.variables : SNum → List Nat
  | .num _ => []
  | .sym ts _ _ _ => ts.flatMap (fun t => t.exponent.terms.flatMap (fun m => m.vars.map (·.var)))

end Model.ExpSym

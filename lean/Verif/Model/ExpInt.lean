import Verif.Model.Math
import Mathlib.Data.Rat.Defs

/-!
# Model of `Code/Exp_Int.py`

Constant `ExpInt`s: every exponent is an integer or again a constant `ExpInt`.  Exponents that are algebraic expressions (and
so `min_val`, `variables`, `substitute`, lines 183-202, 328-351) are in `ExpSym`.  Printing is in `ExpText`.

What depends on logarithms in floating point is a parameter (`Floats`): the order in which `normalize_terms` sorts, the
comparison of an `ExpInt` with an integer, and whether `eval` raises (the sign cannot be decided, too many layers).
`Model.ExpCompare` gives these, up to the logarithms.  The theorems say what they assume about them.

The functions call one another on exponents; the fuel bounds the depth of these calls (`Err.diverges` when used up).
-/

namespace Model.ExpInt

mutual
/-- A number: a Python `int` or an `ExpInt` `(sum of terms + const) / denom` (252-262). -/
inductive Num where
  | int (z : Int)
  | exp (terms : List ETerm) (const denom : Int)
/-- `ExpTerm` `coef * base ^ exponent` (127-138). -/
inductive ETerm where
  | mk (base coef : Int) (exponent : Num)
end

def ETerm.base : ETerm → Int | .mk b _ _ => b
def ETerm.coef : ETerm → Int | .mk _ c _ => c
def ETerm.exponent : ETerm → Num | .mk _ _ e => e

instance : Inhabited Num := ⟨.int 0⟩

structure Floats where
  /-- the floating-point functions of `int_pow` -/
  math : Math.Floats
  /-- `sorted(terms, key=lambda t: tower_value(t.exponent), reverse=True)` (236) -/
  order : List ETerm → List ETerm
  /-- the exception that `ExpInt.__init__` raises after normalisation, if any: too many layers (267-269), sign not decidable
  (312-313), small denominators (323) -/
  check : List ETerm → Int → Int → Option Err
  /-- `k < k0` for an `ExpInt` `k` (Math.py:69), by tower values (467-495, 504-507) -/
  lt : Num → Nat → Bool

mutual
/-- `struct_eq` (78-89). -/
def structEq : Num → Num → Bool
  | .int a, .int b => a = b
  | .exp ts c d, .exp ts' c' d' => c = c' && d = d' && structEqs ts ts'
  | _, _ => false
def structEqs : List ETerm → List ETerm → Bool
  | [], [] => true
  | t :: ts, t' :: ts' => structEqT t t' && structEqs ts ts'
  | _, _ => false
def structEqT : ETerm → ETerm → Bool
  | .mk b c e, .mk b' c' e' => b = b' && c = c' && structEq e e'
end

mutual
/-- `try_eval` (55-68).  An `ExpInt` has a small tower value (302-304) if all its terms have. -/
def tryEval : Num → Option Int
  | .int z => some z
  | .exp ts c d => (evalSum ts).map (fun s => (s + c).fdiv d)
/-- The sum of the values of the terms if all are small (298-302). -/
def evalSum : List ETerm → Option Int
  | [] => some 0
  | t :: ts =>
    match evalTerm t, evalSum ts with
    | some v, some s => some (v + s)
    | _, _ => none
/-- `ExpTerm.eval` (157-181): small if the exponent is below `EXP_THRESHOLD` (13). -/
def evalTerm : ETerm → Option Int
  | .mk b c e =>
    match tryEval e with
    | none => none
    | some k => if k = 0 then none else if k < 1000 then some (c * b ^ k.toNat) else none
end

/-- `try_eval(x)` if it is a number, else `x`: `try_simplify` (70-76). -/
def simplify (x : Num) : Num :=
  match tryEval x with
  | some z => .int z
  | none => x

/-- `while self.coef % self.base == 0: self.coef //= self.base; self.exponent += 1` (153-155); the fuel is the absolute value
of the coefficient. -/
def pullOut (incr : Num → Except Err Num) (base : Int) : Nat → Int → Num → Except Err (Int × Num)
  | 0, c, e => .ok (c, e)
  | f + 1, c, e =>
    if c.fmod base = 0 then
      match incr e with
      | .error x => .error x
      | .ok e => pullOut incr base f (c.fdiv base) e
    else .ok (c, e)

/-- Apply `f` to all elements, from left to right. -/
def mapE {α β : Type} (f : α → Except Err β) : List α → Except Err (List β)
  | [] => .ok []
  | x :: xs =>
    match f x with
    | .error e => .error e
    | .ok y =>
      match mapE f xs with
      | .error e => .error e
      | .ok ys => .ok (y :: ys)

/-- All terms have the same base, and there is one (227, 277-278). -/
def oneBase : List ETerm → Bool
  | [] => false
  | t :: ts => ts.all (fun t' => t'.base = t.base)

/-- The loop of `normalize_terms` (235-249): the pending exponent and coefficient, then the rest. -/
def mergeLoop (mk : Int → Int → Num → Except Err ETerm) (base : Int) : Num → Int → List ETerm → Except Err (List ETerm)
  | pe, pc, [] =>
    if pc ≠ 0 then
      match mk base pc pe with
      | .error e => .error e
      | .ok t => .ok [t]
    else .ok []
  | pe, pc, t :: ts =>
    if structEq t.exponent pe then mergeLoop mk base pe (pc + t.coef) ts
    else if pc ≠ 0 then
      match mk base pc pe with
      | .error e => .error e
      | .ok t' =>
        match mergeLoop mk base t.exponent t.coef ts with
        | .error e => .error e
        | .ok rest => .ok (t' :: rest)
    else mergeLoop mk base t.exponent t.coef ts

/-- The common divisor of `normalize` (281-288). -/
def commonDiv (ts : List ETerm) (c d : Int) : Int :=
  let common := Math.gcd c d * d.sign
  if common ≠ 1 then ts.foldl (fun g t => Math.gcd g t.coef) common else common

/-- Dividing by the common divisor (289-292) with `div_int` (212-217). -/
def divCommon (mk : Int → Int → Num → Except Err ETerm) (common : Int) (ts : List ETerm) (c d : Int) :
    Except Err (List ETerm × Int × Int) :=
  if common ≠ 1 then
    match mapE (fun t : ETerm =>
        if t.coef.fmod common = 0 then mk t.base (t.coef.fdiv common) t.exponent else .error .assertion) ts with
    | .error e => .error e
    | .ok ts' => .ok (ts', c.fdiv common, d.fdiv common)
  else .ok (ts, c, d)

/-- The products of two sums of terms, in the order of lines 437-444. -/
def prodTerms (mk : Int → Int → Num → Except Err ETerm) (add : Num → Num → Except Err Num) (ts1 : List ETerm) (c1 : Int)
    (ts2 : List ETerm) (c2 : Int) : Except Err (List ETerm) :=
  match mapE (fun t1 =>
      match mapE (fun _ => mk t1.base (t1.coef * c2) t1.exponent) (if c2 ≠ 0 then [()] else []) with
      | .error e => .error e
      | .ok xs =>
        match mapE (fun t2 =>
            if t1.base = t2.base then
              match add t1.exponent t2.exponent with
              | .error e => .error e
              | .ok e => mk t1.base (t1.coef * t2.coef) e
            else .error .assertion) ts2 with
        | .error e => .error e
        | .ok ys => .ok (xs ++ ys)) ts1 with
  | .error e => .error e
  | .ok xss =>
    if c1 ≠ 0 then
      match mapE (fun t2 => mk t2.base (t2.coef * c1) t2.exponent) ts2 with
      | .error e => .error e
      | .ok ys => .ok (xss.flatten ++ ys)
    else .ok xss.flatten

/-- `self.base` (277-279). -/
def headBase : List ETerm → Int
  | [] => 0
  | t :: _ => t.base

variable (F : Floats)

mutual

/-- `ExpTerm.__init__` (129-145) with `normalize` (147-155).  A base of 1 never leaves the loop.  An exponent that is the
number 0 fails the assertion of line 164.  With a negative exponent the code would go on in floating point; this is not
modelled (`Err.value`). -/
def mkTerm : Nat → Int → Int → Num → Except Err ETerm
  | 0, _, _, _ => .error .diverges
  | f + 1, base, coef, e =>
    if coef = 0 then .error .assertion else
    match Math.intPow F.math base with
    | .error x => .error x
    | .ok (n, k) =>
      match (if k > 1 then mulN f e (.int k) else .ok e) with
      | .error x => .error x
      | .ok e =>
        let base : Int := if k > 1 then n else base
        if base = 0 then .error .zeroDivision
        else if base = 1 then .error .diverges
        else
          match pullOut (fun e => addN f e (.int 1)) base coef.natAbs coef e with
          | .error x => .error x
          | .ok (c, e) =>
            match e with
            | .int 0 => .error .assertion
            | .int z => if z < 0 then .error .value else .ok (.mk base c e)
            | _ => .ok (.mk base c e)

/-- `ExpInt.__init__` (254-278) with `normalize` (280-293).  (The code tests the bases of the terms before dividing by the
common divisor; they are the same after.) -/
def mkInt : Nat → List ETerm → Int → Int → Except Err Num
  | 0, _, _, _ => .error .diverges
  | f + 1, ts, c, d =>
    if ts.isEmpty then .error .assertion else
    let common := commonDiv ts c d
    if common = 0 then .error .zeroDivision else
    match divCommon (mkTerm f) common ts c d with
    | .error e => .error e
    | .ok (ts', c', d') =>
      if d' > 0 then
        match F.check ts' c' d' with
        | some e => .error e
        | none => if oneBase ts' then .ok (.exp ts' c' d') else .error .assertion
      else .error .assertion

/-- `normalize_terms` (225-249). -/
def normalizeTerms : Nat → List ETerm → Except Err (List ETerm)
  | 0, _ => .error .diverges
  | f + 1, ts =>
    if oneBase ts then
      match F.order ts with
      | [] => .ok []
      | t :: rest => mergeLoop (mkTerm f) t.base t.exponent t.coef rest
    else .error .assertion

/-- `__add__` (397-421). -/
def addN : Nat → Num → Num → Except Err Num
  | 0, _, _ => .error .diverges
  | f + 1, a, b =>
    match a, b with
    | .int a, .int b => .ok (.int (a + b))
    | .exp ts c d, .int b => mkInt f ts (c + b * d) d
    | .int a, .exp ts c d => mkInt f ts (c + a * d) d
    | .exp ts1 c1 d1, .exp ts2 c2 d2 =>
      match Math.lcm d1 d2 with
      | .error e => .error e
      | .ok nd =>
        if d1 = 0 ∨ d2 = 0 then .error .zeroDivision else
        let ns := nd.fdiv d1
        let no := nd.fdiv d2
        match mapE (fun t : ETerm => mkTerm f t.base (t.coef * ns) t.exponent) ts1 with
        | .error e => .error e
        | .ok ts1' =>
          match mapE (fun t : ETerm => mkTerm f t.base (t.coef * no) t.exponent) ts2 with
          | .error e => .error e
          | .ok ts2' =>
            match normalizeTerms f (ts1' ++ ts2') with
            | .error e => .error e
            | .ok ts =>
              if ts.isEmpty then .ok (.int ((ns * c1 + no * c2).fdiv nd))
              else mkInt f ts (ns * c1 + no * c2) nd

/-- `__mul__` (423-456). -/
def mulN : Nat → Num → Num → Except Err Num
  | 0, _, _ => .error .diverges
  | f + 1, a, b =>
    match a, b with
    | .int a, .int b => .ok (.int (a * b))
    | .int a, .exp ts c d => mulExp f ts c d (.int a)
    | .exp ts c d, b => mulExp f ts c d b

/-- `__mul__` of an `ExpInt` and a number (423-456). -/
def mulExp : Nat → List ETerm → Int → Int → Num → Except Err Num
  | 0, _, _, _, _ => .error .diverges
  | f + 1, ts, c, d, other =>
    match simplify other with
    | .int z =>
      if z = 0 then .ok (.int 0) else
      match mapE (fun t : ETerm => mkTerm f t.base (t.coef * z) t.exponent) ts with
      | .error e => .error e
      | .ok ts' => mkInt f ts' (c * z) d
    | .exp ts2 c2 d2 =>
      if headBase ts = headBase ts2 then
        match prodTerms (mkTerm f) (addN f) ts c ts2 c2 with
        | .error e => .error e
        | .ok ts' =>
          match normalizeTerms f ts' with
          | .error e => .error e
          | .ok ts'' =>
            if ts''.isEmpty then
              (if d * d2 = 0 then .error .zeroDivision else .ok (.int ((c * c2).fdiv (d * d2))))
            else mkInt f ts'' (c * c2) (d * d2)
      else .error .expInt

end

/-- `exp_int` (19-28). -/
def expInt (fuel : Nat) (base : Int) (e : Num) : Except Err Num :=
  match e with
  | .int 0 => .ok (.int 1)
  | e =>
    match mkTerm F fuel base 1 e with
    | .error x => .error x
    | .ok t => mkInt F fuel [t] 0 1

/-- `__neg__` (498-499). -/
def neg (fuel : Nat) (a : Num) : Except Err Num := mulN F fuel a (.int (-1))

/-- `__sub__` and `__rsub__` (500-503). -/
def sub (fuel : Nat) (a b : Num) : Except Err Num :=
  match a, b with
  | .int a, .int b => .ok (.int (a - b))
  | .int a, b =>
    match neg F fuel b with
    | .error e => .error e
    | .ok nb => addN F fuel nb (.int a)
  | a, b =>
    match neg F fuel b with
    | .error e => .error e
    | .ok nb => addN F fuel a nb

/-- `__truediv__` (458-463) of an `ExpInt`. -/
def trueDiv (fuel : Nat) (ts : List ETerm) (c d : Int) (other : Num) : Except Err Num :=
  match tryEval other with
  | none => .error .expInt
  | some z => if z = 0 then .error .expInt else mkInt F fuel ts c (d * z)

mutual

/-- `exp_mod` (Math.py:63-74) with an exponent that may be an `ExpInt`. -/
def expModN : Nat → Int → Num → Int → Except Err Int
  | 0, _, _, _ => .error .diverges
  | f + 1, b, k, m =>
    match k with
    | .int k => if k < 0 then .error .value else Math.expMod b k.toNat m
    | .exp ts c d =>
      match Math.carmichael m with
      | .error e => .error e
      | .ok (kp, k0) =>
        if F.lt (.exp ts c d) k0 then .error .type
        else
          match addN F f (.exp ts c d) (.int (-(k0 : Int))) with
          | .error e => .error e
          | .ok (.int z) => .ok (Math.powMod b ((z.fmod kp) + k0).toNat m)
          | .ok (.exp ts' c' d') =>
            match modN f ts' c' d' (.int kp) with
            | .error e => .error e
            | .ok r => .ok (Math.powMod b (r + k0).toNat m)

/-- `__mod__` (364-381) with `ExpTerm.mod` (204-205). -/
def modN : Nat → List ETerm → Int → Int → Num → Except Err Int
  | 0, _, _, _, _ => .error .diverges
  | f + 1, ts, c, d, other =>
    match tryEval other with
    | none => .error .expInt
    | some o =>
      if o = 0 then .error .expInt
      else if o = 1 then .ok 0
      else
        let m := d * o
        match mapE (fun t : ETerm =>
            match expModN f t.base t.exponent m with
            | .error e => .error e
            | .ok r => .ok ((r * t.coef).fmod m)) ts with
        | .error e => .error e
        | .ok rs =>
          let rd := (rs.sum.fmod m + c).fmod m
          if d = 0 then .error .zeroDivision
          else if rd.fmod d ≠ 0 then .error .assertion
          else .ok ((rd.fdiv d).fmod o)

end

/-- `__divmod__` (384-390) of an `ExpInt`. -/
def divMod (fuel : Nat) (ts : List ETerm) (c d : Int) (other : Num) : Except Err (Num × Int) :=
  match modN F fuel ts c d other with
  | .error e => .error e
  | .ok r =>
    match addN F fuel (.exp ts c d) (.int (-r)) with
    | .error e => .error e
    | .ok (.int _) => .error .type
    | .ok (.exp ts' c' d') =>
      match trueDiv F fuel ts' c' d' other with
      | .error e => .error e
      | .ok q => .ok (q, r)

end Model.ExpInt

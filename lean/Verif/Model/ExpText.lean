import Verif.Model.ExpInt
import Verif.Model.ExprText

/-!
# Model of the formulas that `Code/Exp_Int.py` prints

`formula_str` (141-143, 268-273), which `str` and `repr` give (356-359), and `tex_formula` (34-48).  Constant numbers as in
`Model.ExpInt`.  Simplified: `str` of an integer always succeeds (`Common.py` limits it to 20000 digits).
-/

namespace Model.ExpText
open Model.ExpInt Model.ExprText

/-- one more summand before those of `rest`: `" + ".join` -/
def plus (s : List Char) (last : Bool) (rest : List Char) : List Char := if last then s else s ++ " + ".toList ++ rest

/-- `f"{const} + {s}"` if the constant is not 0 (269-270, 37-38) -/
def withConst (c : Int) (s : List Char) : List Char := if c ≠ 0 then reprInt c ++ " + ".toList ++ s else s

mutual
/-- `str(x)` (268-273, 356-359) -/
def strN : Num → List Char
  | .int z => reprInt z
  | .exp ts c d =>
    let s := withConst c (strTs ts)
    let s := if d ≠ 1 then '(' :: s ++ ")/".toList ++ reprInt d else s
    '(' :: s ++ [')']
/-- `" + ".join(term.formula_str for term in self.terms)` (268) -/
def strTs : List ETerm → List Char
  | [] => []
  | t :: ts => plus (strT t) ts.isEmpty (strTs ts)
/-- the formula of a term (141-143) -/
def strT : ETerm → List Char
  | .mk b c e =>
    let s := reprInt b ++ '^' :: strN e
    if c ≠ 1 then reprInt c ++ " * ".toList ++ s else s
end

mutual
/-- `tex_formula` (34-48) of a number -/
def texN : Num → List Char
  | .int z => reprInt z
  | .exp ts c d =>
    let s := withConst c (texTs ts)
    if d ≠ 1 then "\\frac{ ".toList ++ s ++ " }{ ".toList ++ reprInt d ++ " }".toList else s
def texTs : List ETerm → List Char
  | [] => []
  | t :: ts => plus (texT t) ts.isEmpty (texTs ts)
/-- of a term (42-46) -/
def texT : ETerm → List Char
  | .mk b c e =>
    let s := reprInt b ++ "^{ ".toList ++ texN e ++ " }".toList
    if c ≠ 1 then reprInt c ++ " \\cdot ".toList ++ s else s
end

end Model.ExpText

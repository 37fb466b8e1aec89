import Verif.Spec.ExpInt
import Verif.Model.ExpProto

/-!
# The normal form of exponential integers and what a stored message describes
-/

namespace Spec
open Model Model.ExpInt Model.ExpProto Model.Status

mutual
/-- Normal form, at every depth: a positive denominator, lowest terms, one base of at least 2 that is not a power (as far as
`int_pow` sees), coefficients that the base does not divide, exponents in normal form that are not numbers up to 0; and the
constructor's checks of sign and depth have passed. -/
def NF (F : Floats) : Num → Prop
  | .int _ => True
  | .exp ts c d => ts ≠ [] ∧ 0 < d ∧ oneBase ts = true ∧ Lowest (.exp ts c d) ∧ F.check ts c d = none ∧ AllNF F ts
def AllNF (F : Floats) : List ETerm → Prop
  | [] => True
  | t :: ts => TermNF F t ∧ AllNF F ts
def TermNF (F : Floats) : ETerm → Prop
  | .mk b c e => 2 ≤ b ∧ (∃ n k, Math.intPow F.math b = .ok (n, k) ∧ k ≤ 1) ∧ ¬ b ∣ c ∧ NF F e ∧ ∀ z, e = .int z → 0 < z
end

/-- The base that `int_pow` finds is not again a power. -/
def PowersOk (M : Math.Floats) : Prop :=
  ∀ b n k, Math.intPow M b = .ok (n, k) → 1 < k → ∃ n' k', Math.intPow M n = .ok (n', k') ∧ k' ≤ 1

/-- The numbers that a program can get from integers by the operations of `Exp_Int.py`. -/
inductive Built (F : Floats) : Num → Prop
  | int (z : Int) : Built F (.int z)
  | expInt {fuel b e r} : Built F e → expInt F fuel b e = .ok r → Built F r
  | add {fuel a b r} : Built F a → Built F b → addN F fuel a b = .ok r → Built F r
  | mul {fuel a b r} : Built F a → Built F b → mulN F fuel a b = .ok r → Built F r
  | neg {fuel a r} : Built F a → neg F fuel a = .ok r → Built F r
  | sub {fuel a b r} : Built F a → Built F b → sub F fuel a b = .ok r → Built F r
  | div {fuel ts c d b r} : Built F (.exp ts c d) → trueDiv F fuel ts c d b = .ok r → Built F r
  | floorDiv {fuel ts c d b q r} : Built F (.exp ts c d) → divMod F fuel ts c d b = .ok (q, r) → Built F q

/-- the field of a message that is not structured holds `x` -/
def FieldHolds (loads : List Nat → Option Num) (b : BigInt) : Num → Prop
  | .int z => getBigInt loads b = some (some (.int z))
  | .exp ts c d => getBigInt loads b = some (some (.exp (.exp ts c d)))

mutual
/-- A message describes a number: the parts of the number are in the fields that `io.proto` says, constants and coefficients in
the new field or, if that is not set, in the old one. -/
def Describes (loads : List Nat → Option Num) : BigMsg → Num → Prop
  | .absent, _ => False
  | .plain b, x => FieldHolds loads b x
  | .expInt e, x => DescribesExp loads e x
  | .expStr _, _ => False
def DescribesExp (loads : List Nat → Option Num) : ExpMsg → Num → Prop
  | .mk tms cm co dm, x => ∃ ts c d, x = .exp ts c d ∧ DescribesTerms loads tms ts ∧
      (cm = .absent ∧ co = c ∨ Describes loads cm (.int c)) ∧ (dm : Int) = d
def DescribesTerms (loads : List Nat → Option Num) : List TermMsg → List ETerm → Prop
  | [], ts => ts = []
  | tm :: tms, ts => ∃ t ts', ts = t :: ts' ∧ DescribesTerm loads tm t ∧ DescribesTerms loads tms ts'
def DescribesTerm (loads : List Nat → Option Num) : TermMsg → ETerm → Prop
  | .mk bm cm co em, t => ∃ b c e, t = .mk b c e ∧ (bm : Int) = b ∧ (cm = .absent ∧ co = c ∨ Describes loads cm (.int c)) ∧
      Describes loads em e
end

end Spec

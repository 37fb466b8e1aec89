import Verif.Model.ExpInt
import Verif.Model.Status

/-!
# Model of `Code/Halting_Lib.py` 102-131: `ExpInt` in protobuf messages

The messages `BigInt`, `ExpInt` and `ExpTerm` of `io.proto` 14-52.  A field of message type that is not set is `absent`.
Not modelled: the bytes of a message.
-/

namespace Model.ExpProto
open Model.Status Model.ExpInt

mutual
/-- `BigInt` (`io.proto` 35-52); `plain` stands for the fields of `Status.BigInt`, `expStr` for the deprecated field
`exp_int_str` -/
inductive BigMsg
  | absent
  | plain (b : BigInt)
  | expInt (e : ExpMsg)
  | expStr (s : List Char)
/-- `ExpInt` (25-32) -/
inductive ExpMsg
  | mk (terms : List TermMsg) (const : BigMsg) (constOld : Int) (denom : Nat)
/-- `ExpTerm` (14-22) -/
inductive TermMsg
  | mk (base : Nat) (coef : BigMsg) (coefOld : Int) (exponent : BigMsg)
end

/-- `isinstance(x, int)`; `None` and `ExpInt` are not -/
def asInt : Option Num → Except Err Int
  | some (.int z) => .ok z
  | _ => .error .assertion

/-- `isinstance(x, (int, ExpInt, Expression))` -/
def asNum : Option Num → Except Err Num
  | some x => .ok x
  | none => .error .assertion

/-- `if field.HasField("const"): get_big_int(field.const) else: field.const_old` (115-118, 124-127); `new` is the result of
`get_big_int` -/
def newOr (m : BigMsg) (old : Int) (new : Except Err (Option Num)) : Except Err (Option Num) :=
  match m with
  | .absent => .ok (some (.int old))
  | _ => new

section
variable (F : Floats) (fuel : Nat) (dumps : Num → List Nat) (loads : List Nat → Option Num)

/-- `get_big_int` (85-100) on the fields other than `exp_int` -/
def getPlain (b : BigInt) : Except Err (Option Num) :=
  match getBigInt loads b with
  | none => .error .value
  | some none => .ok none
  | some (some (.int v)) => .ok (some (.int v))
  | some (some (.exp x)) => .ok (some x)
  | some (some .other) => .error .type

mutual
/-- `get_big_int` (85-100) -/
def getBig : BigMsg → Except Err (Option Num)
  | .absent => .ok none
  | .plain b => getPlain loads b
  | .expInt e =>
    match parseExp e with
    | .error x => .error x
    | .ok v => .ok (some v)
  | .expStr _ => .ok none
/-- `parse_exp_int` (114-121) -/
def parseExp : ExpMsg → Except Err Num
  | .mk terms const constOld denom =>
    match newOr const constOld (getBig const) with
    | .error x => .error x
    | .ok c =>
      match parseTerms terms with
      | .error x => .error x
      | .ok ts =>
        match asInt c with
        | .error x => .error x
        | .ok c => mkInt F fuel ts c denom
/-- `[parse_exp_term(term) for term in field.terms]` (120) -/
def parseTerms : List TermMsg → Except Err (List ETerm)
  | [] => .ok []
  | m :: ms =>
    match parseTerm m with
    | .error x => .error x
    | .ok t =>
      match parseTerms ms with
      | .error x => .error x
      | .ok ts => .ok (t :: ts)
/-- `parse_exp_term` (123-130) with the assertions of `ExpTerm.__init__` -/
def parseTerm : TermMsg → Except Err ETerm
  | .mk base coef coefOld exponent =>
    match newOr coef coefOld (getBig coef) with
    | .error x => .error x
    | .ok c =>
      match getBig exponent with
      | .error x => .error x
      | .ok e =>
        match asInt c, asNum e with
        | .ok c, .ok e => mkTerm F fuel base c e
        | _, _ => .error .assertion
end

/-- `set_big_int` (69-83) -/
def setBig : Num → Except Err BigMsg
  | .int z =>
    match setBigInt dumps .unset (.int z) with
    | some b => .ok (.plain b)
    | none => .error .value
  | .exp ts c d =>
    match setBigInt dumps .unset (.exp (.exp ts c d)) with
    | some b => .ok (.plain b)
    | none => .error .value

/-- storing into a `uint64` field raises `ValueError` if the value is out of range -/
def setUint64 (v : Int) : Except Err Nat := if 0 ≤ v ∧ v < 2 ^ 64 then .ok v.toNat else .error .value

/-- `serialize_exp_term` (109-112) -/
def serializeTerm (t : ETerm) : Except Err TermMsg :=
  match setUint64 t.base with
  | .error x => .error x
  | .ok b =>
    match setBig dumps (.int t.coef) with
    | .error x => .error x
    | .ok c =>
      match setBig dumps t.exponent with
      | .error x => .error x
      | .ok e => .ok (.mk b c 0 e)

/-- `serialize_exp_int` (103-107) -/
def serializeExp (ts : List ETerm) (c d : Int) : Except Err ExpMsg :=
  match setBig dumps (.int c) with
  | .error x => .error x
  | .ok cm =>
    match setUint64 d with
    | .error x => .error x
    | .ok dm =>
      match mapE (serializeTerm dumps) ts with
      | .error x => .error x
      | .ok tms => .ok (.mk tms cm 0 dm)

end

end Model.ExpProto

import Verif.Model.Str
import Verif.Model.Dict

/-!
# Model of `Code/Halting_Lib.py` (68-201): big integers and statuses in protobuf messages

Messages are records.  An `ExpInt` object is a value of an arbitrary type `E`; `pickle.dumps` and `pickle.loads`
are parameters.  Not modelled: the printing functions (13-65), the structured `exp_int` field (103-131).
-/

namespace Model.Status

/-! ## Big integers -/

/-- the `oneof big_int` of `BigInt` in `io.proto` 35-52 (without the field `exp_int`) -/
inductive BigInt
  | unset
  | int (v : Int)
  | uintOld (v : Nat)
  | hexStr (s : List Char)
  | expPickle (b : List Nat)
  deriving DecidableEq, Repr

/-- what may be passed to `set_big_int`: an integer, an `ExpInt`, something else -/
inductive Val (E : Type)
  | int (v : Int)
  | exp (e : E)
  | other
  deriving DecidableEq, Repr

/-- a hexadecimal digit -/
def hexDigit (d : Nat) : Char :=
  (['0', '1', '2', '3', '4', '5', '6', '7', '8', '9', 'a', 'b', 'c', 'd', 'e', 'f'][d]?).getD '0'

/-- the hexadecimal digits of a number -/
def hexDigits (n : Nat) : List Char :=
  if n < 16 then [hexDigit n] else hexDigits (n / 16) ++ [hexDigit (n % 16)]
termination_by n
decreasing_by omega

/-- `hex(v)` -/
def hex (v : Int) : List Char := (if v < 0 then ['-'] else []) ++ ['0', 'x'] ++ hexDigits v.natAbs

/-- the value of a digit in base 16 -/
def hexVal (c : Char) : Option Nat :=
  let n := c.toNat
  if 48 ≤ n ∧ n ≤ 57 then some (n - 48)
  else if 97 ≤ n ∧ n ≤ 102 then some (n - 87)
  else if 65 ≤ n ∧ n ≤ 70 then some (n - 55)
  else none

/-- digits in base 16, at least one; the second argument is the value so far -/
def parseDigits : List Char → Nat → Option Nat
  | [], acc => some acc
  | c :: cs, acc =>
    match hexVal c with
    | none => none
    | some d => parseDigits cs (acc * 16 + d)

/-- an optional prefix `0x` or `0X` and digits -/
def parseHexNat : List Char → Option Nat
  | [] => none
  | '0' :: 'x' :: cs => if cs = [] then none else parseDigits cs 0
  | '0' :: 'X' :: cs => if cs = [] then none else parseDigits cs 0
  | cs => parseDigits cs 0

/-- `int(s, base=16)`: surrounding space, sign, prefix, digits.  Simplified: Python also allows single
underscores between digits, and digits outside ASCII. -/
def parseHex (s : List Char) : Option Int :=
  match Py.strip s with
  | '-' :: cs => (parseHexNat cs).map fun (n : Nat) => -(n : Int)
  | '+' :: cs => (parseHexNat cs).map fun (n : Nat) => (n : Int)
  | cs => (parseHexNat cs).map fun (n : Nat) => (n : Int)

/-- `_BIG_INT_MAX` (68) -/
def bigIntMax : Nat := 2 ^ 63 - 1

section
variable {E : Type} (dumps : E → List Nat) (loads : List Nat → Option E)

/-- `set_big_int` (69-83): the new contents of the field, whatever it held before (`field.Clear()`).  Storing
into the `sint64` field raises if the value is out of range. -/
def setBigInt (_old : BigInt) : Val E → Option BigInt
  | .int v =>
    if v.natAbs ≤ bigIntMax then
      if -2 ^ 63 ≤ v ∧ v < 2 ^ 63 then some (.int v) else none
    else some (.hexStr (hex v))
  | .exp e => some (.expPickle (dumps e))
  | .other => none

/-- `get_big_int` (85-100): the outer option is an exception; an unset field gives `None` -/
def getBigInt : BigInt → Option (Option (Val E))
  | .unset => some none
  | .int v => some (some (.int v))
  | .uintOld v => some (some (.int v))
  | .hexStr s => (parseHex s).map fun v => some (.int v)
  | .expPickle b => (loads b).map fun e => some (.exp e)

end

/-! ## Statuses -/

/-- `HaltStatus` in `io.proto` -/
structure HaltStatus where
  decided : Bool
  halting : Bool
  steps : BigInt
  score : BigInt
  fromState : Nat
  fromSymbol : Nat
  infReason : Nat
  deriving DecidableEq, Repr

/-- `QuasihaltStatus` in `io.proto` -/
structure QuasiStatus where
  decided : Bool
  quasihalting : Bool
  steps : BigInt
  state : Nat
  deriving DecidableEq, Repr

/-- `BBStatus` in `io.proto` 125-129 -/
structure BBStatus where
  halt : HaltStatus
  quasi : QuasiStatus
  deriving DecidableEq, Repr

/-- a new message: protobuf's default values -/
def BBStatus.empty : BBStatus :=
  { halt := { decided := false, halting := false, steps := .unset, score := .unset, fromState := 0, fromSymbol := 0
              infReason := 0 }
    quasi := { decided := false, quasihalting := false, steps := .unset, state := 0 } }

/-- `set_not_quasihalting` (161-164) -/
def setNotQuasihalting (s : BBStatus) : BBStatus :=
  { s with quasi := { s.quasi with decided := true, quasihalting := false } }

/-- `set_not_halting` (154-159) -/
def setNotHalting (s : BBStatus) (reason : Nat) : BBStatus :=
  { s with halt := { s.halt with decided := true, halting := false, infReason := reason } }

section
variable {E : Type} (dumps : E → List Nat)

/-- `set_halting` (134-152) -/
def setHalting (s : BBStatus) (steps : Val E) (score : Option (Val E)) (fromState fromSymbol : Option Nat) :
    Option BBStatus :=
  match setBigInt dumps s.halt.steps steps with
  | none => none
  | some st =>
    match (match score with
      | none => some s.halt.score
      | some v => setBigInt dumps s.halt.score v) with
    | none => none
    | some sc =>
      some (setNotQuasihalting { s with halt := { s.halt with
        decided := true, halting := true, steps := st, score := sc
        fromState := fromState.getD s.halt.fromState
        fromSymbol := fromSymbol.getD s.halt.fromSymbol } })

/-- the loop of `set_inf_recur` (182-188): (`q_state`, `q_last_seen`) -/
def recurLoop (ignore : List Nat) : List (Nat × Int) → Option Nat → Int → Option Nat × Int
  | [], q, l => (q, l)
  | (state, seen) :: rest, q, l =>
    if state ∉ ignore ∧ seen > l then recurLoop ignore rest (some state) seen
    else recurLoop ignore rest q l

/-- `set_inf_recur` (167-201) -/
def setInfRecur (s : BBStatus) (ignore : Option (List Nat)) (seen : Option (List (Nat × Int))) : Option BBStatus :=
  match seen, ignore with
  | some seen, some ignore =>
    match recurLoop ignore seen none (-1) with
    | (none, _) => some { s with quasi := { s.quasi with decided := true, quasihalting := false } }
    | (some q, l) =>
      match setBigInt dumps s.quasi.steps (.int (l + 1)) with
      | none => none
      | some st => some { s with quasi := { decided := true, quasihalting := true, steps := st, state := q } }
  | _, _ => some { s with quasi := { s.quasi with decided := false } }

/-- the status updates -/
inductive Update (E : Type)
  | halting (steps : Val E) (score : Option (Val E)) (fromState fromSymbol : Option Nat)
  | notHalting (reason : Nat)
  | notQuasihalting
  | infRecur (ignore : Option (List Nat)) (seen : Option (List (Nat × Int)))

/-- one update -/
def Update.apply (s : BBStatus) : Update E → Option BBStatus
  | .halting steps score q a => setHalting dumps s steps score q a
  | .notHalting r => some (setNotHalting s r)
  | .notQuasihalting => some (setNotQuasihalting s)
  | .infRecur i l => setInfRecur dumps s i l

/-- a sequence of updates -/
def applyAll (s : BBStatus) : List (Update E) → Option BBStatus
  | [] => some s
  | u :: us =>
    match u.apply dumps s with
    | none => none
    | some s' => applyAll s' us

end

end Model.Status

import Verif.Model.Enum
import Verif.Model.Status
import Verif.Model.WorkQueue

/-!
# Model of the enumerator, `Code/Enumerate.py` (50-211), and of `TM_Record` as far as it is used there

Parameters: `decide i e`, the status that simulating the machine `e` as the `i`-th one leaves in its record (it may
depend on time limits; exceptions are caught by `run` and leave some status, too), and `shuf i`, the order in which
`random.shuffle` puts the children of the `i`-th machine (`id` without `--randomize`).  Not modelled: printing, saving,
timing.
-/

namespace Model.IO
open Model.Status (BBStatus)

/-- `TM_Record` (135-153): the machine part of the message, the machine object, the status part of the message -/
structure Rec where
  proto : ProtoTM
  tme : TMEnum
  status : BBStatus
  deriving DecidableEq, Repr

/-- `TM_Record(tm_enum = e)` (137-151) -/
def newRec (e : TMEnum) : Option Rec :=
  (mkRecord e.tm).map fun pm => { proto := pm.1, tme := { e with tm := pm.2 }, status := .empty }

/-- A record read from a file whose status is then cleared (`Enumerate.py` 198-203); `tm_enum` (154-159) builds the
machine object (here at once). -/
def reload (r : Rec) : Option Rec :=
  (readTM r.proto).map fun m => { proto := r.proto, tme := { tm := m, allowNoHalt := r.proto.allowNoHalt }, status := .empty }

/-- `expand_undefined_transition` (154-162): the new records -/
def expand (r : Rec) : Option (List Rec) :=
  (r.tme.enumChildren r.status.halt.fromState r.status.halt.fromSymbol).bind (Py.mapO newRec)

/-- `standardize_halt_trans` (`TM_Record.py` 172-180) -/
def standardize (r : Rec) : Option Rec :=
  (r.tme.setHaltTrans r.status.halt.fromState r.status.halt.fromSymbol).bind fun e =>
    (packTM e.tm).map fun b => { r with tme := e, proto := { r.proto with ttable := .packed b } }

/-- the enumerator: work queue, records written so far, statistics (51-77) -/
structure EState (σ : Type) where
  stack : σ
  out : List Rec
  tmNum : Nat
  numHalt : Nat
  numInfQuasiUnknown : Nat
  numQuasihalt : Nat
  numInfinite : Nat
  numUnknown : Nat

def EState.init {σ : Type} (stack : σ) : EState σ :=
  { stack := stack, out := [], tmNum := 0, numHalt := 0, numInfQuasiUnknown := 0, numQuasihalt := 0, numInfinite := 0, numUnknown := 0 }

section
variable {σ : Type} (I : QueueImpl σ Rec) (shuf : Nat → List Rec → List Rec) (decide : Nat → TMEnum → BBStatus)

/-- `add_result` (168-193) and `expand_undefined_transition` (154-166) -/
def addResult (s : EState σ) (r : Rec) : Option (EState σ) :=
  let s := { s with tmNum := s.tmNum + 1 }
  if ¬ r.status.halt.decided then some { s with numUnknown := s.numUnknown + 1, out := s.out ++ [r] }
  else if r.status.halt.halting then
    match expand r with
    | none => none
    | some kids =>
      let stack := if kids = [] then s.stack else I.pushAll s.stack (shuf s.tmNum kids)
      match standardize r with
      | none => none
      | some r' => some { s with numHalt := s.numHalt + 1, stack := stack, out := s.out ++ [r'] }
  else if ¬ r.status.quasi.decided then
    some { s with numInfQuasiUnknown := s.numInfQuasiUnknown + 1, out := s.out ++ [r] }
  else if r.status.quasi.quasihalting then some { s with numQuasihalt := s.numQuasihalt + 1, out := s.out ++ [r] }
  else some { s with numInfinite := s.numInfinite + 1, out := s.out ++ [r] }

/-- how a loop ends: out of fuel, an exception, or normally -/
inductive Res (α : Type)
  | fuel
  | raised
  | ok (x : α)
  deriving Repr

/-- the first loop of `continue_enum` (84-109); `numEnum = 0` stands for no limit -/
def enumLoop (numEnum : Nat) : Nat → EState σ → Res (EState σ)
  | 0, _ => .fuel
  | fuel + 1, s =>
    if numEnum ≠ 0 ∧ s.tmNum ≥ numEnum then .ok s
    else
      match I.pop s.stack with
      | (none, st) => .ok { s with stack := st }
      | (some r, st) =>
        match addResult I shuf { s with stack := st } { r with status := decide s.tmNum r.tme } with
        | none => .raised
        | some s' => enumLoop numEnum fuel s'

/-- the second loop of `continue_enum` (112-117) -/
def drainLoop : Nat → EState σ → Res (EState σ)
  | 0, _ => .fuel
  | fuel + 1, s =>
    match I.pop s.stack with
    | (none, st) => .ok { s with stack := st }
    | (some r, st) =>
      match addResult I shuf { s with stack := st } r with
      | none => .raised
      | some s' => drainLoop fuel s'

/-- `continue_enum` (79-117) -/
def continueEnum (numEnum fuel : Nat) (s : EState σ) : Res (EState σ) :=
  match enumLoop I shuf decide numEnum fuel s with
  | .ok s' => if numEnum ≠ 0 then drainLoop I shuf fuel s' else .ok s'
  | r => r

/-- the loop of `main` (290-292) over the initial records -/
def enumMain (numEnum fuel : Nat) : List Rec → EState σ → Res (EState σ)
  | [], s => .ok s
  | r :: rs, s =>
    match continueEnum I shuf decide numEnum fuel { s with stack := I.push s.stack r } with
    | .ok s' => enumMain numEnum fuel rs s'
    | r => r

end

end Model.IO

import Verif.Spec.TM
import Verif.Model.Py

/-!
# Model of `Code/Direct_Simulator.py`
-/

namespace Model
open Spec (Dir Instr Table)

/-- `DirectTape` (Direct_Simulator.py:16-27).  The deque is a list. -/
structure DirectTape (α : Type) where
  initSymbol : α
  tape : List α
  index : Int
  position : Int
  deriving Repr, DecidableEq

namespace DirectTape
variable {α : Type}

/-- `__init__` (17-27) -/
def new (s : α) : DirectTape α := { initSymbol := s, tape := [s], index := 0, position := 0 }

/-- `_pos2index` (71-72) -/
def pos2index (t : DirectTape α) (pos : Int) : Int := pos - t.position + t.index
/-- `_index2pos` (73-74) -/
def index2pos (t : DirectTape α) (index : Int) : Int := index - t.index + t.position

/-- `pos_leftmost` (31-33) -/
def posLeftmost (t : DirectTape α) : Int := t.index2pos 0
/-- `pos_rightmost` (34-36) -/
def posRightmost (t : DirectTape α) : Int := t.index2pos (t.tape.length - 1)

/-- `read` (38-39); `none` = IndexError -/
def read (t : DirectTape α) : Option α := Py.get t.tape t.index

/-- `write` (41-42); `none` = IndexError -/
def write (t : DirectTape α) (s : α) : Option (DirectTape α) :=
  (Py.set t.tape t.index s).map (fun l => { t with tape := l })

/-- `_index_default` (75-79) -/
def indexDefault (t : DirectTape α) : Option Int → Int
  | none => t.index
  | some p => t.pos2index p

/-- `_expand_tape` (81-91); `none` = the assertion fails -/
def expandTape (t : DirectTape α) (newPos : Option Int) : Option (DirectTape α) :=
  let newIndex := t.indexDefault newPos
  let t' : DirectTape α :=
    if newIndex < 0 then
      { t with tape := List.replicate (-newIndex).toNat t.initSymbol ++ t.tape
               index := t.index + -newIndex }
    else if newIndex ≥ t.tape.length then
      { t with tape := t.tape ++ List.replicate (newIndex - t.tape.length + 1).toNat t.initSymbol }
    else t
  if 0 ≤ t'.indexDefault newPos ∧ t'.indexDefault newPos < t'.tape.length then some t' else none

/-- `move` (44-51) -/
def move (t : DirectTape α) (d : Dir) : Option (DirectTape α) :=
  match d with
  | .R => expandTape { t with position := t.position + 1, index := t.index + 1 } none
  | .L => expandTape { t with position := t.position - 1, index := t.index - 1 } none

/-- `read_pos` (53-58) -/
def readPos (t : DirectTape α) (pos : Int) : Option α :=
  let index := t.pos2index pos
  if 0 ≤ index ∧ index < t.tape.length then Py.get t.tape index else some t.initSymbol

/-- `write_pos` (60-62) -/
def writePos (t : DirectTape α) (s : α) (pos : Int) : Option (DirectTape α) :=
  (expandTape t (some pos)).bind fun t' =>
    (Py.set t'.tape (t'.pos2index pos) s).map fun l => { t' with tape := l }

/-- `copy` (64-69): values are immutable here, so a copy is the value itself. -/
def copy (t : DirectTape α) : DirectTape α := t

/-- `count_nonzero` (93-94) -/
def countNonzero [DecidableEq α] (t : DirectTape α) : Nat :=
  t.tape.countP (fun s => decide (s ≠ t.initSymbol))

end DirectTape

/-- `DirectSimulator` (97-109).  `state = none` models `HALT_STATE = -1`. -/
structure DirectSim where
  halted : Bool
  state : Option Nat
  tape : DirectTape Nat
  stepNum : Nat
  /-- `halt_score`, `halt_from_state`, `halt_from_symbol` (130-133); unset before halting -/
  haltInfo : Option (Nat × Nat × Nat)
  deriving Repr, DecidableEq

namespace DirectSim

/-- `__init__` with `initialize=True` (102-109) -/
def new : DirectSim :=
  { halted := false, state := some 0, tape := DirectTape.new 0, stepNum := 0, haltInfo := none }

/-- `step` (119-135).  `none` = Python raises.  The transition table is a total function: for a
well-formed machine `trans_table[state][symbol]` is always in range. -/
def step (M : Table) (s : DirectSim) : Option DirectSim :=
  if s.halted then some s
  else
    match s.state with
    | none => none  -- `trans_table[-1]`: excluded, a halted state always has `halted = true`
    | some q =>
      (s.tape.read).bind fun sym =>
        let tr := M q sym
        (s.tape.write tr.write).bind fun t1 =>
          (t1.move tr.dir).bind fun t2 =>
            some
              { halted := tr.next.isNone
                state := tr.next
                tape := t2
                stepNum := s.stepNum + 1
                haltInfo := if tr.next.isNone then some (t2.countNonzero, q, sym) else s.haltInfo }

/-- `n` calls of `step` -/
def steps (M : Table) : Nat → DirectSim → Option DirectSim
  | 0, s => some s
  | n + 1, s => (step M s).bind (steps M n)

/-- `seek` (137-139).  The distance to the target is the loop variant, so no fuel is needed. -/
def seek (M : Table) (target : Nat) (s : DirectSim) : Option DirectSim :=
  go (target - s.stepNum) s
where
  go : Nat → DirectSim → Option DirectSim
    | 0, s => some s
    | k + 1, s =>
      if !s.halted && decide (s.stepNum < target) then (step M s).bind (go k) else some s

end DirectSim
end Model

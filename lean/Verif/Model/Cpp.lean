import Mathlib.Data.Nat.Notation

/-!
# Model of the C++ machines, simulator and enumerator (`cpp/src`)

`int` and `long` are unbounded integers (`State` is `Int` because -1 is the halting state; symbols are never negative and
are natural numbers).  Reading or writing a `vector` outside of its bounds is undefined behaviour and is the outcome `ub`;
a failed `ASSERT` ends the program and is the outcome `exit`.  Names of machines (`hereditary_name_`) and progress messages
are left out.
-/

namespace Model.Cpp

/-- What a piece of the program does: a value, `exit(1)`, undefined behaviour, or (in the model only) the bound on the
number of rounds of a loop is used up. -/
inductive Out (α : Type) where
  | ok (a : α)
  | exit
  | ub
  | more
deriving DecidableEq, Repr

instance : Monad Out where
  pure := .ok
  bind x f := match x with
    | .ok a => f a
    | .exit => .exit
    | .ub => .ub
    | .more => .more

/-- a loop that collects results -/
def mapOut {α β : Type} (f : α → Out β) : List α → Out (List β)
  | [] => .ok []
  | a :: l => do
    let b ← f a
    let r ← mapOut f l
    .ok (b :: r)

/-! ### `turing_machine.h`, `turing_machine.cpp` -/

/-- `TuringMachine::LookupResult` (turing_machine.h 19-24): `move` is +1 (right) or -1 (left), `state` -1 is halting -/
structure Trans where
  symbol : Nat
  move : Int
  state : Int
  undecided : Bool := false
deriving DecidableEq, Repr

/-- `empty_trans` (turing_machine.cpp 16, 140) -/
def emptyTrans : Trans := ⟨1, 1, -1, true⟩

/-- `TuringMachine` (turing_machine.h 17-64) -/
structure TM where
  numStates : Nat
  numSymbols : Nat
  maxNextState : Int
  maxNextSymbol : Int
  nextMoveLeftOk : Bool
  numHalts : Int
  transitions : List (List Trans)
deriving DecidableEq, Repr

/-- `Lookup` (turing_machine.h 26-28) -/
def TM.lookup (tm : TM) (q : Int) (a : Nat) : Out Trans :=
  if q < 0 then .ub
  else match tm.transitions[q.toNat]? with
    | none => .ub
    | some r => match r[a]? with
      | none => .ub
      | some t => .ok t

/-- the empty machine (turing_machine.cpp 11-20) -/
def TM.empty (n m : Nat) : TM where
  numStates := n
  numSymbols := m
  maxNextState := 1
  maxNextSymbol := 1
  nextMoveLeftOk := false
  numHalts := n * m
  transitions := List.replicate n (List.replicate m emptyTrans)

/-- the machine from a table (turing_machine.cpp 23-48); `transitions_[0]` must exist -/
def TM.ofTable (rows : List (List Trans)) : Out TM :=
  match rows with
  | [] => .ub
  | r0 :: _ =>
    let maxState : Int := rows.flatten.foldl (fun x t => max x t.state) 0
    let maxSymbol : Int := rows.flatten.foldl (fun (x : Int) t => max x t.symbol) 0
    let halts : Int := rows.flatten.foldl (fun x t => if t.state < 0 then x + 1 else x) 0
    .ok { numStates := rows.length
          numSymbols := r0.length
          maxNextState := min (maxState + 1) (rows.length - 1)
          maxNextSymbol := min (maxSymbol + 1) (r0.length - 1)
          nextMoveLeftOk := true
          numHalts := halts
          transitions := rows }

/-- the copy of the table (turing_machine.cpp 65-71) -/
def copyTable (rows : List (List Trans)) (n m : Nat) : Out (List (List Trans)) :=
  if n ≤ rows.length ∧ ∀ r ∈ rows.take n, m ≤ r.length then .ok ((rows.take n).map (·.take m)) else .ub

/-- `transitions_[q][a] = t` (turing_machine.cpp 73) -/
def setCell (rows : List (List Trans)) (q : Int) (a : Nat) (t : Trans) : Out (List (List Trans)) :=
  if q < 0 then .ub
  else match rows[q.toNat]? with
    | none => .ub
    | some r => if a < r.length then .ok (rows.set q.toNat (r.set a t)) else .ub

/-- the machine from a previous one (turing_machine.cpp 51-74) -/
def TM.child (old : TM) (q : Int) (a : Nat) (t : Trans) : Out TM := do
  let rows ← copyTable old.transitions old.numStates old.numSymbols
  let rows ← setCell rows q a t
  .ok { numStates := old.numStates
        numSymbols := old.numSymbols
        maxNextState := max old.maxNextState (min (old.numStates - 1) (t.state + 1))
        maxNextSymbol := max old.maxNextSymbol (min (old.numSymbols - 1) (t.symbol + 1))
        nextMoveLeftOk := true
        numHalts := old.numHalts - 1
        transitions := rows }

/-- one transition as text (turing_machine.cpp 94-115) -/
def writeTrans (t : Trans) : Out (List Char) :=
  if t.undecided then .ok ['-', '-', '-']
  else do
    let d ← if t.move = 1 then .ok 'R' else if t.move = -1 then .ok 'L' else .exit
    let s := if 0 ≤ t.state then Char.ofNat (t.state.toNat + 65) else 'Z'
    .ok (Nat.toDigits 10 t.symbol ++ [d, s])

/-- `WriteTuringMachine` (turing_machine.cpp 85-118) -/
def TM.write (tm : TM) : Out (List Char) :=
  if ¬ tm.numStates < 26 then .exit
  else if ¬ tm.numSymbols < 10 then .exit
  else do
    let rows ← mapOut (fun (q : Nat) => do
      let cells ← mapOut (fun a => do
        let t ← tm.lookup q a
        writeTrans t) (List.range tm.numSymbols)
      .ok ((if q ≠ 0 then ['_'] else []) ++ cells.flatten)) (List.range tm.numStates)
    .ok rows.flatten

/-- a defined transition from its three characters (turing_machine.cpp 142-160) -/
def readTrans (c d e : Char) : Out Trans :=
  if ¬ ('0' ≤ c ∧ c ≤ '9') then .exit
  else if d ≠ 'R' ∧ d ≠ 'L' then .exit
  else
    let move : Int := if d = 'R' then 1 else -1
    if e = 'Z' then .ok ⟨c.toNat - 48, move, -1, false⟩
    else if 'A' ≤ e ∧ e ≤ 'Z' then .ok ⟨c.toNat - 48, move, e.toNat - 65, false⟩
    else .exit

/-- The loops over rows and cells (turing_machine.cpp 130-167).  `fresh`: at the beginning of the outer loop; `row`: the
present row up to here.  Behind the end of the text there is a zero byte, which no test accepts; a `-` is not followed by
any test. -/
def readRows (fresh : Bool) (row : List Trans) : List Char → Out (List (List Trans))
  | [] => .ok (if fresh then [] else [row])
  | [c] =>
    if c = '_' then .ok [row]
    else if c = '-' then .ok [row ++ [emptyTrans]]
    else .exit
  | [c, d] =>
    if c = '_' then do
      let rs ← readRows true [] [d]
      .ok (row :: rs)
    else if c = '-' then .ok [row ++ [emptyTrans]]
    else .exit
  | c :: d :: e :: s =>
    if c = '_' then do
      let rs ← readRows true [] (d :: e :: s)
      .ok (row :: rs)
    else if c = '-' then readRows false (row ++ [emptyTrans]) s
    else do
      let t ← readTrans c d e
      readRows false (row ++ [t]) s

/-- what ends the machine in a line (turing_machine.cpp 125) -/
def lineEnds : List Char := [' ', '\n', '\t', ',', '#', '|']

/-- `ReadTuringMachine` of a line (turing_machine.cpp 122-168) -/
def readTM (line : List Char) : Out TM := do
  let rows ← readRows true [] (line.takeWhile fun c => !lineEnds.contains c)
  TM.ofTable rows

/-! ### `simulator.h`, `simulator.cpp` -/

/-- `Tape` (simulator.h 11-34) -/
structure Tape where
  cells : List Nat
  start : Int
  index : Int
deriving DecidableEq, Repr

/-- `unit_size_` (simulator.cpp 12) -/
def unitSize : Nat := 100

/-- `Tape::Tape` (simulator.cpp 11-15) -/
def Tape.new : Tape := ⟨List.replicate unitSize 0, 50, 50⟩

/-- `read()` (simulator.h 15) -/
def Tape.read (t : Tape) : Out Nat :=
  if t.index < 0 then .ub
  else match t.cells[t.index.toNat]? with
    | none => .ub
    | some a => .ok a

/-- `in_range` (simulator.h 22-25) -/
def Tape.inRange (t : Tape) (pos : Int) : Bool := decide (0 ≤ pos + t.start ∧ pos + t.start < t.cells.length)

/-- `read(pos)` (simulator.cpp 17-24) -/
def Tape.readAt (t : Tape) (pos : Int) : Nat :=
  if 0 ≤ pos + t.start ∧ pos + t.start < t.cells.length then (t.cells[(pos + t.start).toNat]?).getD 0 else 0

/-- `write` (simulator.h 17) -/
def Tape.write (t : Tape) (a : Nat) : Out Tape :=
  if 0 ≤ t.index ∧ t.index < t.cells.length then .ok { t with cells := t.cells.set t.index.toNat a } else .ub

/-- `move` (simulator.cpp 26-36) -/
def Tape.move (t : Tape) (d : Int) : Tape :=
  let i := t.index + d
  if i < 0 then ⟨List.replicate unitSize 0 ++ t.cells, t.start + unitSize, i + unitSize⟩
  else if (t.cells.length : Int) ≤ i then ⟨t.cells ++ List.replicate unitSize 0, t.start, i⟩
  else ⟨t.cells, t.start, i⟩

/-- `position` (simulator.h 21) -/
def Tape.position (t : Tape) : Int := t.index - t.start

/-- `DirectSimulator` (simulator.h 36-61).  `lastState`, `lastSymbol` have no value before the first step. -/
structure Sim where
  tape : Tape
  state : Int
  stepNum : Nat
  lastState : Option Int
  lastSymbol : Option Nat
deriving DecidableEq, Repr

/-- simulator.cpp 46-49 -/
def Sim.new : Sim := ⟨Tape.new, 0, 0, none, none⟩

/-- `is_halted` (simulator.h 43) -/
def Sim.isHalted (s : Sim) : Bool := decide (s.state = -1)

/-- `StepSafe` (simulator.cpp 51-61) -/
def stepSafe (tm : TM) (s : Sim) : Out Sim := do
  let a ← s.tape.read
  let t ← tm.lookup s.state a
  let tape ← s.tape.write t.symbol
  .ok ⟨tape.move t.move, t.state, s.stepNum + 1, some s.state, some a⟩

/-- `Step` (simulator.cpp 63-67) -/
def step (tm : TM) (s : Sim) : Out Sim := if s.isHalted then .ok s else stepSafe tm s

/-- at most `k` rounds of the loop of `Seek` -/
def seekN (tm : TM) : Nat → Sim → Out Sim
  | 0, s => .ok s
  | k + 1, s =>
    if s.isHalted then .ok s
    else do
      let s ← stepSafe tm s
      seekN tm k s

/-- `Seek` (simulator.cpp 69-73): each round increases `step_num_` by one, so this is the number of rounds -/
def seek (tm : TM) (goal : Int) (s : Sim) : Out Sim := seekN tm (goal - s.stepNum).toNat s

/-! ### `enumerator.h`, `enumerator.cpp` -/

/-- `EnumExpandParams` (enumerator.h 11-15) -/
structure Expand where
  reachedUndecided : Bool
  lastState : Option Int
  lastSymbol : Option Nat
deriving DecidableEq, Repr

/-- the transitions that the loops of `expand_tm` go through (enumerator.cpp 34-39) -/
def nextTrans (tm : TM) : List Trans :=
  (List.range (tm.maxNextState + 1).toNat).flatMap fun (q : Nat) =>
    (List.range (tm.maxNextSymbol + 1).toNat).flatMap fun a =>
      ([1, -1] : List Int).flatMap fun d =>
        if d = 1 ∨ tm.nextMoveLeftOk = true then [⟨a, d, q, false⟩] else []

/-- `expand_tm` (enumerator.cpp 27-48): the machines pushed, in order.  The cell is one without a value only if the
filter has not simulated anything. -/
def expandTM (allowNoHalt : Bool) (tm : TM) (r : Expand) : Out (List TM) :=
  if allowNoHalt = true ∨ tm.numHalts > 1 then
    match r.lastState, r.lastSymbol with
    | some q, some a => mapOut (fun t => tm.child q a t) (nextTrans tm)
    | _, _ => .ub
  else .ok []

/-- `enumerate` (enumerator.cpp 13-25), at most the given number of rounds; the top of the stack is the head.  The filter
also changes the state of the enumerator. -/
def enumLoop {σ : Type} (allowNoHalt : Bool) (filter : σ → TM → Out (σ × Expand)) : Nat → List TM → σ → Out σ
  | _, [], st => .ok st
  | 0, _ :: _, _ => .more
  | k + 1, tm :: todos, st => do
    let (st, r) ← filter st tm
    if r.reachedUndecided then do
      let cs ← expandTM allowNoHalt tm r
      enumLoop allowNoHalt filter k (cs.reverse ++ todos) st
    else enumLoop allowNoHalt filter k todos st

end Model.Cpp

import Verif.Model.Records

/-!
# Model of `Code/TM_Enum.py`

`none` stands for a Python exception.  `copy.deepcopy` is the identity: values are immutable here.
-/

namespace Model.IO

/-- `TM_Enum` (16-24) -/
structure TMEnum where
  tm : SM
  allowNoHalt : Bool
  deriving DecidableEq, Repr

/-- `self.tm.trans_table[state_in][symbol_in] = t`; the indexes are not negative -/
def SM.setCell (m : SM) (q a : Nat) (t : BTrans) : Option SM :=
  match m.rows[q]? with
  | none => none
  | some row => if a < row.length then some { m with rows := m.rows.set q (row.set a t) } else none

/-- `set_trans` (26-32) -/
def TMEnum.setTrans (e : TMEnum) (q a : Nat) (symOut dirOut stOut : Int) : Option TMEnum :=
  (e.tm.setCell q a { cond := .running, sym := symOut, dir := dirOut, st := stOut }).map fun m => { e with tm := m }

/-- `set_halt_trans` (34-41) -/
def TMEnum.setHaltTrans (e : TMEnum) (q a : Nat) : Option TMEnum :=
  (e.tm.setCell q a { cond := .halt, sym := 1, dir := 1, st := -1 }).map fun m => { e with tm := m }

/-- `blank_tm_enum` (6-14) -/
def blankTMEnum (numStates numSyms : Nat) (first1rb allowNoHalt : Bool) : Option TMEnum :=
  (tmFromQuints (if first1rb then [((0 : Int), (0 : Int), some 1, 1, some 1)] else []) (irange numStates) (irange numSyms)).map
    fun m => { tm := m, allowNoHalt := allowNoHalt }

/-- the metrics computed by the first loop of `enum_children` (47-60) -/
structure Metrics where
  maxState : Int
  maxSym : Int
  numUndef : Nat
  defined : Bool

/-- the body of the loop (52-60) -/
def Metrics.add (s : Metrics) (t : BTrans) : Metrics :=
  if t.cond = .undefined then { s with numUndef := s.numUndef + 1 }
  else { s with defined := true, maxState := max s.maxState t.st, maxSym := max s.maxSym t.sym }

/-- the loop (51-60) -/
def SM.metrics (m : SM) : Option Metrics :=
  m.cells.map fun cells => cells.foldl Metrics.add { maxState := 0, maxSym := 0, numUndef := 0, defined := false }

/-- the loops at the end (77-80): the values of `state_out`, `symbol_out` and `dir_out` in order -/
def childTriples (numStates numSyms : Int) (numDirs : Nat) : List (Nat × Nat × Nat) :=
  (List.range numStates.toNat).flatMap fun q' =>
    (List.range numSyms.toNat).flatMap fun w => (List.range' (2 - numDirs) numDirs).map fun d => (q', w, d)

/-- `enum_children` (43-86) -/
def TMEnum.enumChildren (e : TMEnum) (q a : Nat) : Option (List TMEnum) :=
  match e.tm.metrics with
  | none => none
  | some s =>
    let numDirs := if s.defined then 2 else 1
    let numStates := min (e.tm.nStates : Int) (s.maxState + 2)
    let numSyms := min (e.tm.nSyms : Int) (s.maxSym + 2)
    if e.allowNoHalt ∨ s.numUndef > 1 then
      Py.mapO (fun (x : Nat × Nat × Nat) => e.setTrans q a x.2.1 x.2.2 x.1) (childTriples numStates numSyms numDirs)
    else some []

end Model.IO

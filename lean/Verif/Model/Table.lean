import Verif.Model.Py
import Verif.Model.Str
import Verif.Spec.TM

/-!
# Model of concrete machine tables and of their encodings

`Simple_Machine` and `tm_from_quintuples` of `Code/Macro/Turing_Machine.py`, and `Code/IO/TM_Record.py`.
`none` stands for a Python exception.
-/

namespace Model.IO
open Spec (Dir Instr Table)

/-- the conditions that a base transition can have (`Turing_Machine.py` 31-34) -/
inductive BCond
  | running | halt | undefined
  deriving DecidableEq, Repr

/-- A transition of a base machine (`Transition`, `Turing_Machine.py` 49-63), with the integers that Python
stores: direction 0 is left, 1 right, 2 stay; state -1 is halt.  `condition_details` and `states_last_seen`
are left out: they are determined by the position in the table. -/
structure BTrans where
  cond : BCond
  sym : Int
  dir : Int
  st : Int
  deriving DecidableEq, Repr

/-- `Simple_Machine` (255-293): the table, `num_states`, `num_symbols` -/
structure SM where
  rows : List (List BTrans)
  nStates : Nat
  nSyms : Nat
  deriving DecidableEq, Repr

/-- the undefined transition (322-332) -/
def undefTrans : BTrans := { cond := .undefined, sym := 1, dir := 1, st := -1 }

/-- A quintuple: state, symbol, symbol written (`None` allowed), direction, next state (`none`: -1) -/
abbrev Quint (α β : Type) := α × β × Option β × Int × Option α

section
variable {α β : Type} [DecidableEq α] [DecidableEq β]

/-- the transition of a quintuple with the given indexes (305-320) -/
def quintTrans (states : List α) (symOut : Nat) (dir : Int) : Option α → Option BTrans
  | none => some { cond := .halt, sym := symOut, dir := dir, st := -1 }
  | some q =>
    match states.idxOf? q with
    | none => none
    | some i => some { cond := .running, sym := symOut, dir := dir, st := i }

/-- "Set all defined transitions" (297-320): the loop.  `states.index(x)` raises if `x` is not there. -/
def fillQuints (states : List α) (symbols : List β) :
    List (Quint α β) → List (List (Option BTrans)) → Option (List (List (Option BTrans)))
  | [], t => some t
  | (q, a, w, d, q') :: rest, t =>
    match w with
    | none => fillQuints states symbols rest t
    | some w =>
      match states.idxOf? q, symbols.idxOf? a, symbols.idxOf? w with
      | some i, some j, some k =>
        match quintTrans states k d q' with
        | none => none
        | some tr => fillQuints states symbols rest (t.modify i (·.set j (some tr)))
      | _, _, _ => none

/-- `tm_from_quintuples` (295-335) -/
def tmFromQuints (quints : List (Quint α β)) (states : List α) (symbols : List β) : Option SM :=
  (fillQuints states symbols quints (List.replicate states.length (List.replicate symbols.length none))).map
    fun t => { rows := t.map (·.map (·.getD undefTrans)), nStates := states.length, nSyms := symbols.length }

end

/-- `list(range(n))` -/
def irange (n : Nat) : List Int := (List.range n).map Int.ofNat

/-- state numbers as `tm_from_quintuples` sees them: -1 is halt -/
def haltOr (s : Int) : Option Int := if s = -1 then none else some s

/-! ## Standard text (`TM_Record.py` 11-37, `Turing_Machine.py` 72-84 and 276-284) -/

/-- `Transition.to_ttable_str` (72-82) -/
def BTrans.toStr (t : BTrans) : Option (List Char) :=
  if t.cond = .undefined then some ['-', '-', '-']
  else
    match Py.get Py.digits t.sym, Py.get ['L', 'R', 'S'] t.dir,
        (if t.cond = .halt then some 'Z' else Py.get Py.uppercase t.st) with
    | some s, some d, some q => some [s, d, q]
    | _, _, _ => none

/-- `Simple_Machine.ttable_str` (276-284) -/
def SM.toStr (m : SM) : Option (List Char) :=
  if m.nStates < 25 ∧ m.nSyms < 10 then
    (Py.mapO (fun row => (Py.mapO BTrans.toStr row).map List.flatten) m.rows).map (Py.join '_')
  else some []

/-- the transitions of one row (23-34): quintuples without "---" -/
def parseRow (numStates state : Nat) : Nat → Nat → List Char → Option (List (Quint Int Int))
  | _, _, [] => some []
  | 0, _, _ => none
  | fuel + 1, sym, x :: y :: z :: rest =>
    if [x, y, z] = ['-', '-', '-'] then parseRow numStates state fuel (sym + 1) rest
    else
      let symOut := Py.find Py.digits x
      let dir := Py.find ['L', 'R'] y
      let stOut := if Py.find Py.uppercase z ≥ numStates then -1 else Py.find Py.uppercase z
      if ¬ 0 ≤ symOut then none
      else if ¬ (dir = 0 ∨ dir = 1) then none
      else if ¬ -1 ≤ stOut then none
      else (parseRow numStates state fuel (sym + 1) rest).map
        (((state : Int), (sym : Int), some symOut, dir, haltOr stOut) :: ·)
  | _ + 1, _, _ => none      -- `assert len(trans_str) == 3`

/-- the number of `symbol_in` values of a row: `len(range(0, len(row), 3))` -/
def rowCells (row : List Char) : Nat := (row.length + 2) / 3

/-- the rows (22-34) -/
def parseRows (numStates : Nat) : Nat → List (List Char) → Option (List (Quint Int Int))
  | _, [] => some []
  | state, row :: rows =>
    match parseRow numStates state (row.length + 1) 0 row, parseRows numStates (state + 1) rows with
    | some q, some qs => some (q ++ qs)
    | _, _ => none

/-- `max_symbol` (20, 24): the largest `symbol_in`, 0 if there is none -/
def maxSymbol (rows : List (List Char)) : Nat := rows.foldl (fun m row => max m (rowCells row - 1)) 0

/-- `parse_tm` (14-37).  Note that `find` returns -1 for an unknown letter, so that an unknown state letter
means halt. -/
def parseTM (line : List Char) : Option SM :=
  if ' ' ∈ line then none
  else
    let rows := Py.split '_' (Py.strip line)
    match parseRows rows.length 0 rows with
    | none => none
    | some quints => tmFromQuints quints (irange rows.length) (irange (maxSymbol rows + 1))

/-! ## Packed bytes (`TM_Record.py` 40-91) -/

/-- `pack_trans_ints` (40-49) -/
def packTransInts (symbol dir state : Int) (isNewrow : Bool) : Option Nat :=
  let dir := if dir = 0 ∨ dir = 1 then dir else 0
  if ¬ (-1 ≤ symbol ∧ symbol < 7) then none
  else if ¬ (-1 ≤ state ∧ state < 7) then none
  else if ¬ (dir = 0 ∨ dir = 1) then none
  else
    let byte := (symbol + 1).toNat ||| ((state + 1).toNat <<< 3) ||| (dir.toNat <<< 6) |||
      (isNewrow.toNat <<< 7)
    if byte < 256 then some byte else none

/-- `unpack_trans_ints` (51-56): symbol, dir, state, is_newrow -/
def unpackTransInts (byte : Nat) : Int × Int × Int × Bool :=
  (((byte &&& 7 : Nat) : Int) - 1, ((byte >>> 6) &&& 1 : Nat), (((byte >>> 3) &&& 7 : Nat) : Int) - 1,
    decide ((byte >>> 7) &&& 1 ≠ 0))

/-- `pack_trans` (59-65) -/
def packTrans (t : BTrans) (isNewrow : Bool) : Option Nat :=
  if t.cond = .undefined then packTransInts (-1) 0 (-1) isNewrow
  else packTransInts t.sym t.dir t.st isNewrow

/-- one row of `pack_tm` (71-76) -/
def packRow : Bool → List BTrans → Option (List Nat)
  | _, [] => some []
  | new, t :: ts =>
    match packTrans t new, packRow false ts with
    | some b, some bs => some (b :: bs)
    | _, _ => none

/-- `pack_tm` (68-77): the array has `num_states * num_symbols` bytes, all 0 at first -/
def packTM (m : SM) : Option (List Nat) :=
  match Py.mapO (packRow true) m.rows with
  | none => none
  | some bs =>
    let b := bs.flatten
    if b.length ≤ m.nStates * m.nSyms then some (b ++ List.replicate (m.nStates * m.nSyms - b.length) 0)
    else none

/-- the loop of `unpack_tm` (80-89): `state_in`, `symbol_in` (unbound at first), the quintuples so far -/
def unpackLoop : List Nat → Int → Option Nat → List (Quint Int Int) →
    Option (Int × Option Nat × List (Quint Int Int))
  | [], state, sym, quints => some (state, sym, quints)
  | byte :: rest, state, sym, quints =>
    let (symbol, dir, st, new) := unpackTransInts byte
    let state := if new then state + 1 else state
    let sym := if new then some 0 else sym
    match sym with
    | none => none                       -- UnboundLocalError
    | some a =>
      let quints := if 0 ≤ symbol then quints ++ [(state, (a : Int), some symbol, dir, haltOr st)] else quints
      unpackLoop rest state (some (a + 1)) quints

/-- `unpack_tm` (79-91) -/
def unpackTM (pack : List Nat) : Option SM :=
  match unpackLoop pack (-1) none [] with
  | none => none
  | some (_, none, _) => none            -- UnboundLocalError
  | some (state, some sym, quints) => tmFromQuints quints (irange (state + 1).toNat) (irange sym)

/-! ## The list message and the choice of the encoding (`TM_Record.py` 93-132) -/

/-- `io_pb2.TMList` -/
structure TMList where
  nStates : Int
  nSyms : Int
  ttable : List Int
  deriving DecidableEq, Repr

/-- the `oneof ttable` of `io_pb2.TuringMachine`, and its other field -/
inductive TTable
  | unset
  | packed (b : List Nat)
  | list (l : TMList)
  | str (s : List Char)
  deriving DecidableEq, Repr

/-- `io_pb2.TuringMachine` -/
structure ProtoTM where
  ttable : TTable
  allowNoHalt : Bool
  deriving DecidableEq, Repr

/-- fits the `sint32` fields of `TMList` -/
def sint32 (x : Int) : Bool := decide (-2 ^ 31 ≤ x ∧ x < 2 ^ 31)

/-- what `tm_to_list` does to the transition object (99-100): it changes the machine itself -/
def listTrans (t : BTrans) : BTrans := if t.cond = .undefined then { t with sym := -1 } else t

/-- the integers of a transition (101-103) -/
def listInts (t : BTrans) : List Int := [t.sym, t.dir, t.st]

/-- the transitions that the two loops of `tm_to_list` visit (96-98) -/
def SM.cells (m : SM) : Option (List BTrans) :=
  (Py.mapO (fun q => Py.mapO (fun a => (m.rows[q]?).bind (·[a]?)) (List.range m.nSyms))
    (List.range m.nStates)).map List.flatten

/-- `tm_to_list` (93-103): the message and the changed machine -/
def tmToList (m : SM) : Option (TMList × SM) :=
  match m.cells with
  | none => none
  | some cells =>
    let ints := (cells.map fun t => listInts (listTrans t)).flatten
    if sint32 m.nStates && sint32 m.nSyms && ints.all sint32 then
      some ({ nStates := m.nStates, nSyms := m.nSyms, ttable := ints },
        { m with rows := m.rows.map (·.map listTrans) })
    else none

/-- one pass of the inner loop of `tm_from_list` (110-112); note that `i` is never changed, it stays 0 -/
def listQuint (l : TMList) (q a : Nat) : Option (List (Quint Int Int)) :=
  match l.ttable.take 3 with
  | [w, d, s] => some (if w ≠ -1 then [((q : Int), (a : Int), some w, d, haltOr s)] else [])
  | _ => none

/-- `tm_from_list` (105-115) -/
def tmFromList (l : TMList) : Option SM :=
  match Py.mapO (fun q => (Py.mapO (fun a => listQuint l q a) (List.range l.nSyms.toNat)).map List.flatten)
      (List.range l.nStates.toNat) with
  | none => none
  | some quints => tmFromQuints quints.flatten (irange l.nStates.toNat) (irange l.nSyms.toNat)

/-- `write_tm` (128-132): the message, and the machine after the call -/
def writeTM (m : SM) (p : ProtoTM) : Option (ProtoTM × SM) :=
  if m.nStates ≤ 7 ∧ m.nSyms ≤ 8 then
    (packTM m).map fun b => ({ p with ttable := .packed b }, m)
  else
    (tmToList m).map fun (l, m') => ({ p with ttable := .list l }, m')

/-- `read_tm` (117-126).  In the `ttable_str` case the name `IO` is not imported: NameError. -/
def readTM (p : ProtoTM) : Option SM :=
  match p.ttable with
  | .packed b => unpackTM b
  | .str _ => none
  | .list l => tmFromList l
  | .unset => none

/-! ## Meaning -/

/-- the meaning of a transition object -/
def BTrans.instr (t : BTrans) : Instr :=
  let d := if t.dir = 0 then Dir.L else Dir.R
  match t.cond with
  | .undefined => .undef
  | .halt => .halt t.sym.toNat d
  | .running => .go t.sym.toNat d t.st.toNat

/-- the transition table that a machine object stands for -/
def SM.table (m : SM) : Table := fun q a => (((m.rows[q]?).bind (·[a]?)).map BTrans.instr).getD .undef

end Model.IO

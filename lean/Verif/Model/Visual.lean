import Verif.Model.Direct
import Verif.Spec.Visual
import Verif.Model.ExprText

/-!
# Model of `Code/Visual_Simulator.py`

The terminal width, the options and the machine come as arguments; option parsing and the two printed
transition tables before the run are not modelled.
-/

namespace Model.Visual
open Spec (Table)
open Spec.Visual (Opts)

/-- `STATES` (line 19): upper case letters, lower case letters, `!` -/
def STATES : List Char :=
  Py.uppercase ++ ['a', 'b', 'c', 'd', 'e', 'f', 'g', 'h', 'i', 'j', 'k', 'l', 'm', 'n', 'o', 'p', 'q', 'r', 's', 't',
    'u', 'v', 'w', 'x', 'y', 'z'] ++ ['!']

/-- `COLOR` (line 21) -/
def COLOR : List Nat := [49, 41, 42, 44, 46, 43, 45]

/-- `[A-Za-z]` of the regular expressions (31, 36) -/
def isLetter (c : Char) : Bool := decide ('A' ≤ c ∧ c ≤ 'Z' ∨ 'a' ≤ c ∧ c ≤ 'z')

/-- What a block of the text is: a head (with `dir_left` and the state) or symbols. -/
inductive Block
  | head (left : Bool) (state : Nat)
  | syms (l : List Nat)
  deriving DecidableEq, Repr

/-- `(\d+)(\^(\d+))?` and the list `base * exp` (41-50).  Simplified: `\d` is an ASCII digit. -/
def parseSyms (b : List Char) : Option (List Nat) :=
  let base := b.takeWhile (fun c => decide (c ∈ Py.digits))
  let rest := b.dropWhile (fun c => decide (c ∈ Py.digits))
  if base = [] then none
  else
    let digs := base.map (fun c => c.toNat - '0'.toNat)
    match rest with
    | [] => some digs
    | '^' :: e =>
      -- `int(m.group(3))`; `natOf` is `none` unless `e` is a non-empty list of digits
      (ExprText.natOf e).map fun n => (List.replicate n digs).flatten
    | _ => none

/-- One block (31-41): `none` = the assertion fails -/
def parseBlock (b : List Char) : Option Block :=
  match b with
  | ['<', c] => if isLetter c then some (.head true (STATES.idxOf c)) else (parseSyms b).map .syms
  | [c, '>'] => if isLetter c then some (.head false (STATES.idxOf c)) else (parseSyms b).map .syms
  | _ => (parseSyms b).map .syms

/-- The local variables of `parse_config` (24-29): `left`, `right`, `in_left`, `dir_left`, `state` -/
structure PState where
  left : List Nat
  right : List Nat
  inLeft : Bool
  dirLeft : Bool
  state : Option Nat
  deriving DecidableEq, Repr

/-- The body of the loop (30-50) -/
def PState.add (s : PState) : Block → PState
  | .head d q => { s with dirLeft := d, state := some q, inLeft := false }
  | .syms l => if s.inLeft then { s with left := s.left ++ l } else { s with right := s.right ++ l }

/-- The loop over the blocks (30-50) -/
def parseLoop : List (List Char) → PState → Option PState
  | [], s => some s
  | b :: bs, s => (parseBlock b).bind fun x => parseLoop bs (s.add x)

/-- `parse_config` (23-57): state, left, right.  The state stays `None` if there is no head. -/
def parseConfig (text : List Char) : Option (Option Nat × List Nat × List Nat) :=
  (parseLoop (Py.words text) ⟨[], [], true, false, none⟩).map fun s =>
    if s.dirLeft then
      match s.left.getLast? with
      | some top => (s.state, s.left.dropLast, top :: s.right)
      | none => (s.state, [], 0 :: s.right)
    else (s.state, s.left, s.right)

/-- `for i, symb in enumerate(l): sim.tape.write_pos(symb, i + base)` (158-163) -/
def writeAll : List Nat → Int → DirectTape Nat → Option (DirectTape Nat)
  | [], _, t => some t
  | a :: l, p, t => (t.writePos a p).bind fun t' => writeAll l (p + 1) t'

/-- The set-up of the simulator in `main` (136-163) -/
def start (q : Nat) (left right : List Nat) : Option DirectSim :=
  (writeAll left (-(left.length : Int)) DirectSim.new.tape).bind fun t =>
    (writeAll right 0 t).map fun t' => { DirectSim.new with state := some q, tape := t' }

/-- `should_print` (60-67) -/
def shouldPrint (o : Opts) (s : DirectSim) : Bool :=
  o.a || (o.l && s.tape.posLeftmost == s.tape.position) || (o.r && s.tape.posRightmost == s.tape.position)

/-- `range(a, b)` -/
def range (a b : Int) : List Int := (List.range (b - a).toNat).map fun (i : Nat) => a + i

/-- `"%wd" % n` -/
def padNum (w n : Nat) : List Char :=
  let d := Nat.toDigits 10 n
  List.replicate (w - d.length) ' ' ++ d

/-- The escape character `\033` -/
def ESC : Char := Char.ofNat 27

/-- `STATES[sim.state]`, where the state is -1 after halting -/
def stateChar : Option Nat → Option Char
  | none => Py.get STATES (-1)
  | some q => STATES[q]?

/-- One cell of the picture (79-85) -/
def printCell (s : DirectSim) (pos : Int) : Option (List Char) :=
  (s.tape.readPos pos).bind fun value =>
    if s.tape.position = pos then
      (COLOR[value]?).bind fun c => (stateChar s.state).map fun ch =>
        [ESC, '[', '1', ';'] ++ Nat.toDigits 10 c ++ ['m', ch]
    else (COLOR[value]?).map fun c => [ESC, '['] ++ Nat.toDigits 10 c ++ ['m', ' ']

/-- `print_range` (71-75) -/
def printRange (o : Opts) (s : DirectSim) : List Int :=
  let half := o.width / 2 - 10
  if o.relative then range (s.tape.position - half) (s.tape.position + half + 1) else range (-half) (half + 1)

/-- `state_str` as written with width 4 (87-88) -/
def stateName (o : Opts) (s : DirectSim) : Option (List Char) :=
  if s.halted then some ['H', 'A', 'L', 'T']
  else match s.state with
    | some q => o.names[q]?
    | none => none

/-- `print_tape` (69-92): the text written; `none` = an exception -/
def printTape (o : Opts) (s : DirectSim) : Option (List Char) :=
  if shouldPrint o s then
    (Py.mapO (printCell s) (printRange o s)).bind fun cells =>
      (stateName o s).bind fun name =>
        (s.tape.read).bind fun v =>
          (COLOR[v]?).map fun c =>
            [ESC, '[', '0', 'm'] ++ padNum 10 s.stepNum ++ [':', ' '] ++ cells.flatten ++ [ESC, '[', '0', 'm'] ++ name ++
              [' ', ESC, '['] ++ Nat.toDigits 10 c ++ ['m'] ++ padNum 2 v ++ [ESC, '[', '0', 'm', '\n']
  else some []

/-- The loop of `run_visual` (98-102), `fuel` rounds: what is written, and whether the loop has ended -/
def loop (o : Opts) (M : Table) : Nat → DirectSim → Option (List Char × Bool)
  | fuel, s =>
    if s.halted then some ("TM Halted on step ".toList ++ Nat.toDigits 10 s.stepNum ++ ['\n'], true)
    else match fuel with
      | 0 => some ([], false)
      | f + 1 =>
        (s.step M).bind fun s' => (printTape o s').bind fun t =>
          (loop o M f s').map fun r => (t ++ r.1, r.2)

/-- `run_visual` (95-102) -/
def runVisual (o : Opts) (M : Table) (fuel : Nat) (s : DirectSim) : Option (List Char × Bool) :=
  (printTape o s).bind fun t => (loop o M fuel s).map fun r => (t ++ r.1, r.2)

/-- `main` (146-165) with a start configuration; an empty one is like none.  A missing head leaves `None` as the
state, and then both printing and stepping raise. -/
def main (o : Opts) (M : Table) (fuel : Nat) (text : List Char) : Option (List Char × Bool) :=
  if text = [] then (start 0 [] []).bind (runVisual o M fuel)
  else (parseConfig text).bind fun c =>
    match c.1 with
    | none => none
    | some q => (start q c.2.1 c.2.2).bind (runVisual o M fuel)

end Model.Visual

import Verif.Model.Morphett
import Verif.Model.ExprText

/-!
# Model of the printed transition tables and of two converters

`Code/TM_Print.py`, `machine_ttable_to_str` of `Code/Macro/Turing_Machine.py`, `Code/IO_CGA_to_Morphett.py`,
`Machines/Tools/Convert_Format.py`.  `none` stands for a Python exception.  Not modelled: command lines, opening files, compression.
-/

namespace Model.Print
open Model.IO

/-- `STATES` (`Turing_Machine.py` 187) -/
def STATES : List Char :=
  Py.uppercase ++ ['a', 'b', 'c', 'd', 'e', 'f', 'g', 'h', 'i', 'j', 'k', 'l', 'm', 'n', 'o', 'p', 'q', 'r', 's', 't',
    'u', 'v', 'w', 'x', 'y', 'z'] ++ Py.digits ++ ['!', '@', '#', '$', '%', '^', '&', '*'] ++ ['Z']

/-- `SYMBOLS` (188) -/
def SYMBOLS : List Char := Py.digits ++ ['-']

/-- `DIRS` (189) -/
def DIRS : List Char := ['L', 'R', 'S', '-']

/-- the three characters of a cell (`TM_Print.py` 40-45, `Turing_Machine.py` 226-231); the state after halting is -1 -/
def cellStr (t : BTrans) : Option (List Char) :=
  if t.cond = .undefined then some ['-', '-', '-']
  else
    match Py.get SYMBOLS t.sym, Py.get DIRS t.dir, Py.get STATES t.st with
    | some s, some d, some q => some [s, d, q]
    | _, _, _ => none

/-- `s * n` for a string -/
def times (s : List Char) (n : Nat) : List Char := (List.replicate n s).flatten

/-! ## `TM_Print.py` -/

/-- a row (35-46) -/
def mdRow (m : SM) (q : Nat) : Option (List Char) :=
  match Py.get STATES q,
      Py.mapO (fun a => (((m.rows[q]?).bind (·[a]?)).bind cellStr).map fun s => [' '] ++ s ++ [' ', '|']) (List.range m.nSyms) with
  | some c, some cells => some (['|', ' ', ' ', c, ' ', ' ', '|'] ++ cells.flatten ++ ['\n'])
  | _, _ => none

/-- `tm_to_markdown` (13-48) -/
def toMarkdown (m : SM) : Option (List Char) :=
  (Py.mapO (mdRow m) (List.range m.nStates)).map fun rows =>
    "|     |".toList ++ ((List.range m.nSyms).map fun a => "  ".toList ++ Nat.toDigits 10 a ++ "  |".toList).flatten ++ ['\n'] ++
      times "| :-: ".toList (m.nSyms + 1) ++ "|\n".toList ++ rows.flatten

/-! ## `machine_ttable_to_str` -/

/-- a row (222-232), with the number of its state -/
def boxRow (q : Nat) (row : List BTrans) : Option (List Char) :=
  match Py.get STATES q, Py.mapO (fun t => (cellStr t).map fun s => ['|', ' '] ++ s ++ [' ']) row with
  | some c, some cells => some (['\x20', '\x20', '\x20', '|', ' ', c, ' '] ++ cells.flatten ++ ['|', '\n'])
  | _, _ => none

/-- a line between two rows (217-220, 234-237) -/
def boxRule (start : List Char) (k : Nat) : List Char := start ++ times "+-----".toList k ++ "+\n".toList

/-- the rows from state `q` on (222-237) -/
def boxRows (k : Nat) : Nat → List (List BTrans) → Option (List Char)
  | _, [] => some []
  | q, row :: rows =>
    match boxRow q row, boxRows k (q + 1) rows with
    | some s, some r => some (s ++ boxRule "   +---".toList k ++ r)
    | _, _ => none

/-- `machine_ttable_to_str` (191-241): `trans_table[0]` raises for a table without rows -/
def toBox (m : SM) : Option (List Char) :=
  match m.rows[0]? with
  | none => none
  | some r0 =>
    let k := r0.length
    (boxRows k 0 m.rows).map fun rows =>
      "\nTransition table:\n\n".toList ++ boxRule "       ".toList k ++ "       ".toList ++
        ((List.range k).map fun j => "|  ".toList ++ Nat.toDigits 10 j ++ "  ".toList).flatten ++ "|\n".toList ++
        boxRule "   +---".toList k ++ rows ++ ['\n']

/-! ## `IO_CGA_to_Morphett.py` -/

/-- the words of a line (18-24): `none` if the assertion fails, nothing for a line without words -/
def cgaRow (line : List Char) : Option (Option (List (List Char))) :=
  let parts := Py.words (Py.strip ((Py.split '#' line).headD []))
  if parts = [] then some none else if parts.length = 7 then some (some parts) else none

/-- `DIRS.find(dir)` (41): substring search in "LR" -/
def cgaDir (token : List Char) : Int :=
  if token = ['L'] then 0 else if token = ['L', 'R'] then 0 else if token = ['R'] then 1 else -1

/-- `parse_trans` (28-43): the last three components of a quintuple.  `int` is the one of `ExprText`. -/
def cgaTrans (states : List Name) (symb dir state : List Char) : Option (Option Int × Int × Option Name) :=
  if symb = ['-'] then (if dir = ['-'] ∧ state = ['-'] then some (none, 0, none) else none)
  else if symb = ['H'] then (if dir = ['H'] ∧ state = ['H'] then some (some 1, 1, none) else none)
  else
    match ExprText.intOf symb with
    | none => none
    | some w => if (w = 0 ∨ w = 1) ∧ state ∈ states then some (some w, cgaDir dir, some state) else none

/-- the two quintuples of a row (45-48) -/
def cgaQuints (states : List Name) : List (List Char) → Option (List (Quint Name Int))
  | [q, sy0, d0, st0, sy1, d1, st1] =>
    match cgaTrans states sy0 d0 st0, cgaTrans states sy1 d1 st1 with
    | some x, some y => some [(q, 0, x), (q, 1, y)]
    | _, _ => none
  | _ => none

/-- `parse_tm` (16-49): the machine and the names of its states -/
def cgaParse (text : List Char) : Option (SM × List Name) :=
  match Py.mapO cgaRow (Py.split '\n' text) with
  | none => none
  | some ls =>
    let rows := ls.filterMap id
    let states := rows.map (·.headD [])
    match Py.mapO (cgaQuints states) rows with
    | none => none
    | some quints => (tmFromQuints quints.flatten states [0, 1]).map fun m => (m, states)

/-- `main` (52-66): what is written to the output file.  The names of the symbols are 0 and 1. -/
def cgaMain (text : List Char) : Option (List Char) :=
  (cgaParse text).bind fun (m, states) => (mkRecord m).bind fun (_, m') => morphWrite m' states [['0'], ['1']]

/-! ## `Convert_Format.py` -/

/-- what becomes of one input file; `loops`: the program reads the end of the file for ever -/
inductive Conv
  | noTag | improper | loops | raises | written (t : List (List (Int × Int × Int)))
  deriving DecidableEq, Repr

/-- a rule (34-42) -/
def convRule : List Char → Option (Int × Int × Int)
  | [q, a, d] => some (Py.find Py.digits a, Py.find ['L', 'R'] d, if q = 'Z' then -1 else Py.find Py.uppercase q)
  | _ => none

/-- the lines of the table (31-44): every line up to the end of the file is a row -/
def convRows : List (List Char) → Option (List (List (Int × Int × Int)))
  | [] => some []
  | line :: rest =>
    match Py.mapO convRule (Py.words line).tail, convRows rest with
    | some r, some rs => some (r :: rs)
    | _, _ => none

/-- the lines from the first one that begins with "A: " (28-29) -/
def convSkip : List (List Char) → List (List Char)
  | [] => []
  | line :: rest => if line.take 3 = ['A', ':', ' '] then line :: rest else convSkip rest

/-- One file (15-50), given as its lines with their newlines.  The table is written as Python prints a list of lists of tuples. -/
def convert (lines : List (List Char)) : Conv :=
  let first := lines.headD []
  if first.take 11 = "%% Format: ".toList then
    if (first.drop 11).dropLast = "Marxen2".toList then
      match convSkip lines with
      | [] => .loops
      | ls => match convRows ls with
        | none => .raises
        | some t => .written t
    else .improper
  else .noTag

end Model.Print

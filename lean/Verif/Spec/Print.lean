import Verif.Spec.Format

/-!
# Specification: tables that are drawn with bars, lists of transitions in words
-/

namespace Spec.Print
open Spec Model.IO

/-! ## Tables drawn with bars -/

/-- a text without the spaces at both ends -/
def trim (s : List Char) : List Char := ((s.dropWhile (· = ' ')).reverse.dropWhile (· = ' ')).reverse

/-- the cells of a line: what is between two bars -/
def lineCells (line : List Char) : List (List Char) := (line.splitOn '|').tail.dropLast.map trim

/-- the cells of a table: of all lines that have a bar -/
def tableCells (text : List Char) : List (List (List Char)) :=
  ((text.splitOn '\n').filter fun line => decide ('|' ∈ line)).map lineCells

/-- the names of 70 states -/
def stateNames : List Char := "ABCDEFGHIJKLMNOPQRSTUVWXYZabcdefghijklmnopqrstuvwxyz0123456789!@#$%^&*".toList

/-- the names of 11 symbols -/
def symbolNames : List Char := "0123456789-".toList

/-- the name of number `i`, nothing if there is none -/
def nameAt (names : List Char) (i : Int) : List Char := if 0 ≤ i then (names[i.toNat]?).toList else []

/-- the text of a transition; halting is written as a step to `Z` -/
def cell (t : BTrans) : List Char :=
  match t.cond with
  | .undefined => "---".toList
  | .halt => nameAt symbolNames t.sym ++ nameAt ['L', 'R', 'S'] t.dir ++ ['Z']
  | .running => nameAt symbolNames t.sym ++ nameAt ['L', 'R', 'S'] t.dir ++ nameAt stateNames t.st

/-- the decimal numerals 0, 1, ..., k-1 -/
def columns (k : Nat) : List (List Char) := (List.range k).map (Nat.toDigits 10)

/-- the rows of a table: the name of the state, then its cells -/
def rows (m : SM) : List (List (List Char)) := m.rows.mapIdx fun q r => nameAt stateNames q :: r.map cell

/-- Moves are to the left, to the right, or none. -/
def Dirs (m : SM) : Prop := ∀ r ∈ m.rows, ∀ t ∈ r, t.cond ≠ .undefined → t.dir = 0 ∨ t.dir = 1 ∨ t.dir = 2

/-- no step leads into state number 25, whose name is Z -/
def NoZ (m : SM) : Prop := ∀ r ∈ m.rows, ∀ t ∈ r, t.cond = .running → t.st ≠ 25

/-! ## Machines in words, as on the page that `IO_CGA_to_Morphett.py` reads

A line has seven words: a state, and what the machine does there on 0 and on 1. -/

/-- what a machine does -/
inductive Act
  | undef | halt | go (w : Fin 2) (d : Dir) (q : List Char)
  deriving DecidableEq

def Act.words : Act → List (List Char)
  | .undef => ["-".toList, "-".toList, "-".toList]
  | .halt => ["H".toList, "H".toList, "H".toList]
  | .go w d q => [[if w = 0 then '0' else '1'], [dirChar d], q]

/-- a row: state, action on 0, action on 1 -/
structure Row where
  state : List Char
  on0 : Act
  on1 : Act
  deriving DecidableEq

def Row.words (r : Row) : List (List Char) := r.state :: (r.on0.words ++ r.on1.words)

/-- space or tab -/
def blank (c : Char) : Prop := c = ' ' ∨ c = '\t'

/-- `ws` are the words of the text, with blanks between them and possibly at both ends -/
inductive Spaced : List (List Char) → List Char → Prop
  | nil {s} : (∀ c ∈ s, blank c) → Spaced [] s
  | last {pre w post} : (∀ c ∈ pre, blank c) → (∀ c ∈ post, blank c) → Spaced [w] (pre ++ w ++ post)
  | cons {pre w b ws s} : (∀ c ∈ pre, blank c) → blank b → ws ≠ [] → Spaced ws s → Spaced (w :: ws) (pre ++ w ++ b :: s)

/-- the end of a line: nothing, or a comment -/
def Comment (s : List Char) : Prop := s = [] ∨ ∃ t, s = '#' :: t ∧ '\n' ∉ t

/-- the line says `r` (nothing: an empty line or a comment) -/
def Says : Option Row → List Char → Prop
  | none, line => ∃ s c, (∀ x ∈ s, blank x) ∧ Comment c ∧ line = s ++ c
  | some r, line => ∃ s c, Spaced r.words s ∧ Comment c ∧ line = s ++ c

/-- a word for a state: not empty, without white space (`str.isspace`) and `#` -/
def StateWord (s : List Char) : Prop := s ≠ [] ∧ ∀ c ∈ s, Py.isSpace c = false ∧ c ≠ '#'

/-- the instruction of an action; states are numbered as in the list of names -/
def Act.instr (names : List (List Char)) : Act → Instr
  | .undef => .undef
  | .halt => .halt 1 .R
  | .go w d q => .go w d (names.idxOf q)

/-- the table of the rows -/
def rowsTable (rs : List Row) : Table := fun q a =>
  match rs[q]? with
  | none => .undef
  | some r =>
    let names := rs.map (·.state)
    match a with
    | 0 => r.on0.instr names
    | 1 => r.on1.instr names
    | _ => .undef

/-- the states are different words, and actions go to states of the table -/
structure Sheet (rs : List Row) : Prop where
  rows : rs ≠ []
  words : ∀ r ∈ rs, StateWord r.state
  distinct : (rs.map (·.state)).Nodup
  closed : ∀ r ∈ rs, ∀ a, (a = r.on0 ∨ a = r.on1) → ∀ w d q, a = .go w d q → q ∈ rs.map (·.state)

/-! ## Machines in the format "Marxen2" -/

/-- a rule: next state, symbol, direction; halting is a step to `Z` -/
def marxenRule : Instr → List Char
  | .undef => []
  | .halt w d => ['Z', Char.ofNat (48 + w), dirChar d]
  | .go w d q => [Char.ofNat (65 + q), Char.ofNat (48 + w), dirChar d]

/-- the line of state `q` of a machine with `k` symbols -/
def marxenLine (T : Table) (k q : Nat) : List Char :=
  [Char.ofNat (65 + q), ':'] ++ ((List.range k).map fun a => ' ' :: marxenRule (T q a)).flatten ++ ['\n']

/-- a file: the tag, lines with data that do not begin with "A: ", the table -/
def marxenFile (info : List (List Char)) (T : Table) (n k : Nat) : List (List Char) :=
  "%% Format: Marxen2\n".toList :: (info ++ (List.range n).map (marxenLine T k))

/-- the numbers of an instruction: symbol, direction (0 left, 1 right), state or -1 for halting -/
def triple : Instr → Int × Int × Int
  | .undef => (-1, 1, -1)
  | .halt w d => (w, dirBit d, -1)
  | .go w d q => (w, dirBit d, q)

end Spec.Print

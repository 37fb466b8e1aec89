import Verif.Model.Records

/-!
# Model of the tools that count and find records

`Code/IO_Count.py`, `Code/IO_Find.py`, `Code/Find_Record.py`, `Code/IO/General.py` (`get_tm`), `Code/Read_Record.py` (which is
`loadFrame` of `Records`).  A binary file is a list of bytes, a text file a list of characters.  A record is a value of a type `α`
with a message of its machine.  Not modelled: what is printed about a record beyond its place, compression, progress messages.
-/

namespace Model.RecordTools
open Model.IO

/-! ## `IO_Count.py` -/

/-- the loop over the records of one file (26-29): the number counted, and whether `IO_Error` ended it.  The fuel is the number of
rounds. -/
def countFile (data : List Nat) : Nat → Nat → Nat × End
  | 0, _ => (0, .raise)
  | fuel + 1, pos =>
    match skipFrame data pos with
    | none => (0, .raise)
    | some (false, _) => (0, .eof)
    | some (true, pos) => ((countFile data fuel pos).1 + 1, (countFile data fuel pos).2)

/-- the loop over the files (23-34): for each file the number and whether the error is reported, and the total.  Every record has
at least four bytes, so the size of the file is fuel enough. -/
def countFiles : List (List Nat) → List (Nat × End) × Nat
  | [] => ([], 0)
  | f :: rest =>
    (countFile f (f.length + 1) 0 :: (countFiles rest).1, (countFile f (f.length + 1) 0).1 + (countFiles rest).2)

/-! ## `IO_Find.py` and `Find_Record.py` -/

/-- how a search ends: with an exception, without a record, or at the record with the given number -/
inductive Find
  | raise
  | no
  | at (i : Nat)
  deriving DecidableEq, Repr

section
variable {α : Type} (parse : List Nat → Option α) (tm : α → ProtoTM)

/-- the loop of `IO_Find.py` over one file (19-27); `i` is the number of the record -/
def ioFindFile (text : List Char) (data : List Nat) : Nat → Nat → Nat → Find
  | 0, _, _ => .raise
  | fuel + 1, pos, i =>
    match readFrame parse data pos with
    | .raise => .raise
    | .eof => .no
    | .got a pos =>
      match (readTM (tm a)).bind SM.toStr with
      | none => .raise
      | some s => if s = text then .at i else ioFindFile text data fuel pos (i + 1)

/-- `IO_Find.py` (17-29): the number of the file and of the record in it; `some none` is "not found" -/
def ioFind (text : List Char) : List (List Nat) → Nat → Option (Option (Nat × Nat))
  | [], _ => some none
  | f :: rest, k =>
    match ioFindFile parse tm text f (f.length + 1) 0 0 with
    | .raise => none
    | .at i => some (some (k, i))
    | .no => ioFind text rest (k + 1)

/-- the field `ttable_packed` of a message: empty if another member of the `oneof` is set -/
def packedField (p : ProtoTM) : List Nat :=
  match p.ttable with
  | .packed b => b
  | _ => []

/-- the loop of `find` over a binary file (`Find_Record.py` 15-20) -/
def findPacked (bytes : List Nat) (data : List Nat) : Nat → Nat → Nat → Find
  | 0, _, _ => .raise
  | fuel + 1, pos, i =>
    match readFrame parse data pos with
    | .raise => .raise
    | .eof => .no
    | .got a pos => if packedField (tm a) = bytes then .at i else findPacked bytes data fuel pos (i + 1)

/-- `find` (`Find_Record.py` 11-20) on a file with the suffix `.pb` -/
def findRecord (text : List Char) (data : List Nat) : Find :=
  match (parseTM text).bind packTM with
  | none => .raise
  | some b => findPacked parse tm b data (data.length + 1) 0 0

end

/-- the loop of `find` over a text file (`Find_Record.py` 15-20): the reader packs the machine of each line -/
def findText (bytes : List Nat) : Nat → List Char → Nat → Find
  | 0, _, _ => .raise
  | fuel + 1, s, i =>
    let line := Py.strip (Py.readline s).1
    if line = [] then .no
    else match Py.words line with
      | [] => .raise
      | w :: _ =>
        match (parseTM w).bind mkRecord with
        | none => .raise
        | some (p, _) => if packedField p = bytes then .at i else findText bytes fuel (Py.readline s).2 (i + 1)

/-- `find` (`Find_Record.py` 11-20) on a text file -/
def findRecordText (text : List Char) (file : List Char) : Find :=
  match (parseTM text).bind packTM with
  | none => .raise
  | some b => findText b (file.length + 1) file 0

/-! ## `get_tm` (`IO/General.py` 50-67) -/

/-- one or more times `[0-9][LR][A-Z]`, `---` or `_` (line 52); here: zero or more -/
def literalGo : List Char → Bool
  | [] => true
  | '_' :: s => literalGo s
  | a :: b :: c :: s =>
    if a = '-' then decide (b = '-' ∧ c = '-') && literalGo s
    else decide (a ∈ Py.digits ∧ (b = 'L' ∨ b = 'R') ∧ c ∈ Py.uppercase) && literalGo s
  | _ => false

/-- `re.fullmatch(r"([0-9][LR][A-Z]|---|_)+", tm)` (52) -/
def isLiteral (s : List Char) : Bool := decide (s ≠ []) && literalGo s

/-- `int(s)` for ASCII digits without underscores; a negative number of records to skip is the same as none -/
def pyInt (s : List Char) : Option Nat :=
  match Py.strip s with
  | '-' :: ds => if ds ≠ [] ∧ ds.all (· ∈ Py.digits) = true then some 0 else none
  | '+' :: ds => if ds ≠ [] ∧ ds.all (· ∈ Py.digits) = true then some (Nat.ofDigitChars 10 ds 0) else none
  | ds => if ds ≠ [] ∧ ds.all (· ∈ Py.digits) = true then some (Nat.ofDigitChars 10 ds 0) else none

/-- `get_tm` (50-67); `load` is `load_tm` (46-48): `none` is an exception -/
def getTM (load : List Char → Nat → Option SM) (s : List Char) : Option SM :=
  if isLiteral s then parseTM s
  else if ':' ∈ s then
    match Py.split ':' s with
    | name :: num :: _ => (pyInt num).bind (load name)
    | _ => none
  else load s 0

/-- `load_tm` (46-48) on a binary file with the given bytes -/
def loadTM {α : Type} (parse : List Nat → Option α) (tm : α → ProtoTM) (data : List Nat) (n : Nat) : Option SM :=
  match loadFrame parse data n 0 with
  | some (some a) => readTM (tm a)
  | _ => none

end Model.RecordTools

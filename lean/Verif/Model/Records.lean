import Verif.Model.Table

/-!
# Model of the record files: `Code/IO/StdText.py`, `Code/IO/Proto.py`, `Code/IO/BBC.py`

A text file is a list of characters (after newline translation), a binary file a list of bytes.  Not
modelled: opening, compression, flushing; the protobuf library (a record is its serialised message, and
`ParseFromString` is a parameter); the decimal rendering of step counts and scores.
-/

namespace Model.IO

/-! ## Standard text files (`StdText.py`) -/

/-- `TM_Record(tm_enum = ...)` (`TM_Record.py` 137-151): the message and the machine of the new record -/
def mkRecord (m : SM) : Option (ProtoTM × SM) := writeTM m { ttable := .unset, allowNoHalt := false }

/-- what `Writer.write_record` uses of a record: the machine, and the rendered step count and score if it is
marked as halting -/
structure TextRec where
  m : SM
  halt : Option (List Char × List Char)

/-- `Writer.write_record` (48-58): the characters appended to the file -/
def TextRec.write (r : TextRec) : Option (List Char) :=
  r.m.toStr.map fun s => s ++ (match r.halt with
    | none => []
    | some (steps, score) => [' ', 'H', 'a', 'l', 't', ' '] ++ steps ++ [' '] ++ score) ++ ['\n']

/-- writing several records -/
def writeText (rs : List TextRec) : Option (List Char) := (Py.mapO TextRec.write rs).map List.flatten

/-- the result of reading: an exception, `None`, or a record (its machine) and the rest of the file -/
inductive Read (α : Type)
  | raise
  | eof
  | got (a : α) (rest : List Char)
  deriving DecidableEq, Repr

/-- `Reader.read_record` (92-99) -/
def readText (s : List Char) : Read SM :=
  let line := Py.strip (Py.readline s).1
  if line = [] then .eof
  else match Py.words line with
    | [] => .raise                    -- IndexError
    | w :: _ =>
      match parseTM w with
      | none => .raise
      | some m =>
        match mkRecord m with
        | none => .raise
        | some (_, m') => .got m' (Py.readline s).2

/-- `for rec in reader` (105-109), run to the end; `none` if it raises -/
def readAllText : Nat → List Char → Option (List SM)
  | 0, _ => none
  | fuel + 1, s =>
    match readText s with
    | .raise => none
    | .eof => some []
    | .got m rest => (readAllText fuel rest).map (m :: ·)

/-- `load_record` (112-121): `skip_record` (101-103) reads a line; `none` is an exception other than
`RecordLocateError`, `some none` is `RecordLocateError` -/
def loadText : Nat → List Char → Option (Option SM)
  | 0, s =>
    match readText s with
    | .raise => none
    | .eof => some none
    | .got m _ => some (some m)
  | n + 1, s => loadText n (Py.readline s).2

/-! ## Length-delimited binary files (`Proto.py`) -/

/-- `struct.pack("<L", n)` -/
def packLE (n : Nat) : Option (List Nat) :=
  if n < 2 ^ 32 then some [n % 256, n / 256 % 256, n / 65536 % 256, n / 16777216 % 256] else none

/-- `struct.unpack("<L", b)` -/
def unpackLE : List Nat → Nat
  | [] => 0
  | b :: bs => b + 256 * unpackLE bs

/-- `Writer.write_record` (42-58): the bytes appended for a serialised message -/
def writeFrame (payload : List Nat) : Option (List Nat) := (packLE payload.length).map (· ++ payload)

/-- `infile.read(n)` at a position: the bytes and the new position -/
def fread (data : List Nat) (pos n : Nat) : List Nat × Nat :=
  ((data.drop pos).take n, pos + ((data.drop pos).take n).length)

/-- results of the binary readers: an exception, `None`, or a value and the new position -/
inductive BRead (α : Type)
  | raise
  | eof
  | got (a : α) (pos : Nat)
  deriving DecidableEq, Repr

/-- `_read_message_len` (81-87) -/
def readLen (data : List Nat) (pos : Nat) : BRead Nat :=
  let (b, pos') := fread data pos 4
  if 0 < b.length then
    if b.length ≠ 4 then .raise else .got (unpackLE b) pos'
  else .eof

section
variable {α : Type}

/-- `read_record` (90-104); `parse` is `ParseFromString` -/
def readFrame (parse : List Nat → Option α) (data : List Nat) (pos : Nat) : BRead α :=
  match readLen data pos with
  | .raise => .raise
  | .eof => .eof
  | .got n pos =>
    let (b, pos') := fread data pos n
    if b.length ≠ n then .raise
    else match parse b with
      | none => .raise
      | some a => .got a pos'

/-- `skip_record` (106-113): the returned flag and the new position; seeking past the end is allowed -/
def skipFrame (data : List Nat) (pos : Nat) : Option (Bool × Nat) :=
  match readLen data pos with
  | .raise => none
  | .eof => some (false, pos)
  | .got n pos => some (true, pos + n)

/-- how the iteration over a file ends -/
inductive End
  | eof | raise
  deriving DecidableEq, Repr

/-- `for rec in reader` (115-127): the records and how it ended -/
def readAllFrames (parse : List Nat → Option α) (data : List Nat) : Nat → Nat → List α × End
  | 0, _ => ([], .raise)
  | fuel + 1, pos =>
    match readFrame parse data pos with
    | .raise => ([], .raise)
    | .eof => ([], .eof)
    | .got a pos => let r := readAllFrames parse data fuel pos; (a :: r.1, r.2)

/-- `load_record` (130-139): `some none` is `RecordLocateError` -/
def loadFrame (parse : List Nat → Option α) (data : List Nat) : Nat → Nat → Option (Option α)
  | 0, pos =>
    match readFrame parse data pos with
    | .raise => none
    | .eof => some none
    | .got a _ => some (some a)
  | n + 1, pos =>
    match skipFrame data pos with
    | none => none
    | some (_, pos) => loadFrame parse data n pos

end

/-! ## bbchallenge database (`BBC.py`) -/

/-- `unpack_trans_ints` (23-42): symbol (`none`: undefined), direction, state -/
def bbcTrans : List Nat → Option (Option Int × Int × Int)
  | [b0, b1, b2] =>
    let symbol : Int := b0
    let state : Int := (b2 : Int) - 1
    let dir : Option Int := if b1 = 0 then some 1 else if b1 = 1 then some 0 else none
    match dir with
    | none => none                         -- assert
    | some dir => if state = -1 ∧ symbol = 0 then some (none, 0, 0) else some (some symbol, dir, state)
  | _ => none                              -- assert

/-- `unpack_tm` (44-54).  An undefined transition has `state_out = None`, which is not looked at. -/
def bbcUnpack (b : List Nat) : Option SM :=
  match Py.mapO (fun i => bbcTrans ((b.drop (3 * i)).take 3)) (List.range 10) with
  | none => none
  | some ts =>
    let quints : List (Quint Int Int) := ts.zipIdx.map fun ((w, d, s), i) =>
      (((i / 2 : Nat) : Int), ((i % 2 : Nat) : Int), w, d, haltOr s)
    tmFromQuints quints (irange 5) (irange 2)

/-- `read_record` (96-106): a short read is an exception; the record's machine is packed -/
def bbcRead (data : List Nat) (pos : Nat) : BRead SM :=
  let (b, pos') := fread data pos 30
  if b = [] then .eof
  else if b.length ≠ 30 then .raise
  else match bbcUnpack b with
    | none => .raise
    | some m =>
      match mkRecord m with
      | none => .raise
      | some (_, m') => .got m' pos'

/-- `skip_record` (108-112): the returned flag compares the new absolute position with 30 -/
def bbcSkip (pos : Nat) : Bool × Nat := (decide (pos + 30 = 30), pos + 30)

/-- `get_tm` (114-117) -/
def bbcGet (data : List Nat) (n : Nat) : BRead SM := bbcRead data (30 + n * 30)

/-- `load_record` (134-139): the position after the header is 30 -/
def bbcLoad (data : List Nat) (n : Nat) : BRead SM :=
  bbcRead data ((List.range n).foldl (fun pos _ => (bbcSkip pos).2) 30)

/-- `for rec in reader` (119-131) -/
def bbcAll (data : List Nat) : Nat → Nat → List SM × End
  | 0, _ => ([], .raise)
  | fuel + 1, pos =>
    match bbcRead data pos with
    | .raise => ([], .raise)
    | .eof => ([], .eof)
    | .got a pos => let r := bbcAll data fuel pos; (a :: r.1, r.2)

/-- `IndexReader.indexes` (160-169): big-endian numbers; `none`: exception at the end -/
def bbcIndexes : Nat → List Nat → List Nat × End
  | 0, _ => ([], .raise)
  | fuel + 1, b =>
    match b with
    | [] => ([], .eof)
    | b0 :: b1 :: b2 :: b3 :: rest =>
      let r := bbcIndexes fuel rest
      ((((b0 * 256 + b1) * 256 + b2) * 256 + b3) :: r.1, r.2)
    | _ => ([], .raise)

end Model.IO

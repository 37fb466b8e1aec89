import Verif.Model.RecordTools
import Verif.Model.Morphett
import Verif.Model.Status

/-!
# Model of `Code/IO_Convert.py` and of `Code/IO/OldText.py` (writing)

A file is a list of bytes.  What is not modelled is given by `Lib`: the encoding of text, compression, the protobuf library, the fields
of a message other than its machine, the printing of numbers.  Two paths are the same file if they are the same text.
-/

namespace Model.Convert
open Model.IO Model.Status

/-! ## File names -/

/-- `Path(p).name`: what follows the last `/` -/
def baseName (p : List Char) : List Char := ((Py.split '/' p).getLast?).getD []

/-- `path.suffixes` (pathlib): nothing if the name ends with a dot; otherwise the parts after the dots that are not at the beginning,
each with its dot -/
def suffixes (p : List Char) : List (List Char) :=
  let name := baseName p
  if name.getLast? = some '.' then []
  else ((Py.split '.' (name.dropWhile (· = '.'))).drop 1).map ('.' :: ·)

/-- `FORMATS` (12-13) without "auto" -/
inductive Fmt
  | text | proto | morphett | textOld | bbcDb | bbcIndex | bbcIndexText
  deriving DecidableEq, Repr

/-- `Detect_Format` (15-40) -/
def detect (p : List Char) : Fmt :=
  let s := suffixes p
  if ".pb".toList ∈ s then .proto
  else if ".morphett".toList ∈ s then .morphett
  else if ".db".toList ∈ s then .bbcDb
  else if ".index".toList ∈ s then
    if ".txt".toList ∈ s then .bbcIndexText else .bbcIndex
  else if ".old".toList ∈ s then .textOld
  else .text

/-- `guess_module` (`IO/General.py` 14-31): the format the other programs take a file for -/
def guess (p : List Char) : Fmt :=
  let s := suffixes p
  if ".pb".toList ∈ s then .proto
  else if ".morphett".toList ∈ s then .morphett
  else .text

/-- `".gz" in filename.suffixes` -/
def isGz (p : List Char) : Bool := decide (".gz".toList ∈ suffixes p)

/-! ## Records -/

/-- the reason why a machine is undecided, `UnknownInfo` in `io.proto` 213-221; the time is given as it is printed -/
inductive Unk
  | none | loops (n : Nat) | tape (n : Nat) | time (s : List Char) | macroSteps | threw
  deriving DecidableEq, Repr

/-- what is not modelled; `I` is the type of the fields of a record message other than the machine, `E` that of `ExpInt` objects -/
structure Lib (I E : Type) where
  enc : List Char → List Nat
  dec : List Nat → Option (List Char)
  gz : List Nat → List Nat
  gunzip : List Nat → Option (List Nat)
  unzip : List Nat → Option (List Nat)
  ser : ProtoTM → I → List Nat
  parse : List Nat → Option (ProtoTM × I)
  fresh : I
  status : I → BBStatus
  unk : I → Unk
  loads : List Nat → Option E
  /-- `big_int_approx_str(v).replace("_", "")` -/
  approx : Option (Val E) → List Char
  /-- `str(v)` of an integer -/
  decimal : Int → List Char

/-- a `TM_Record` (`TM_Record.py` 131-170): the message, and the machine object if it has been made, with the names of its states and
symbols as they are printed -/
structure Rec (I : Type) where
  msg : ProtoTM
  tme : Option (SM × List Name × List Name)
  info : I

section
variable {I E : Type} (L : Lib I E)

/-- the names of states and symbols of a machine made with `list(range(n))` -/
def numNames (n : Nat) : List Name := (List.range n).map fun i => L.decimal (i : Int)

/-- `TM_Record(tm_enum = TM_Enum(tm, allow_no_halt = False))`.  The readers modelled in `Records` and `Morphett` give the machine after
it has been stored in the message once; storing it again gives the same message (`mkRecord_again`). -/
def newRec (m : SM) (S Y : List Name) : Option (Rec I) :=
  (mkRecord m).map fun (p, m') => { msg := p, tme := some (m', S, Y), info := L.fresh }

/-- `tm_record.tm()` (`TM_Record.py` 154-162) with the names of its states and symbols -/
def Rec.machine (r : Rec I) : Option (SM × List Name × List Name) :=
  match r.tme with
  | some x => some x
  | none => (readTM r.msg).map fun m => (m, numNames L m.nStates, numNames L m.nSyms)

/-! ## Readers -/

/-- `for tm_record in reader` of `StdText.py` 92-109 -/
def textRecs : Nat → List Char → List (Rec I) × End
  | 0, _ => ([], .raise)
  | fuel + 1, s =>
    match readText s with
    | .raise => ([], .raise)
    | .eof => ([], .eof)
    | .got m rest =>
      match newRec L m (numNames L m.nStates) (numNames L m.nSyms) with
      | none => ([], .raise)
      | some r => (r :: (textRecs fuel rest).1, (textRecs fuel rest).2)

/-- white space of bytes -/
def byteSpace (b : Nat) : Bool := decide ((9 ≤ b ∧ b ≤ 13) ∨ b = 32)

/-- the same on a compressed file, which is opened in binary mode (`StdText.py` 83-84): a line of bytes is not text, `parse_tm` raises
a `TypeError` -/
def textGzRecs (data : List Nat) : List (Rec I) × End :=
  if (data.takeWhile (· ≠ 10)).all byteSpace then ([], .eof) else ([], .raise)

/-- the names the machine of a Morphett file has (`Morphett.py` 71-87) -/
def morphNames (s : List Char) : List Name × List Name :=
  match Py.mapO morphLine (Py.split '\n' s) with
  | none => ([], [])
  | some ls =>
    let quints := ls.filterMap id
    ((quints.map (·.1)).foldl addNew [], (quints.map (·.2.1)).foldl addNew [['_']])

/-- the one record of a Morphett file (`Morphett.py` 70-97) -/
def morphRecs (s : List Char) : List (Rec I) × End :=
  match (morphRead s).bind fun m => newRec L m (morphNames s).1 (morphNames s).2 with
  | none => ([], .raise)
  | some r => ([r], .eof)

/-- the records of a list of machines with numbered states -/
def recsOf : List SM → End → List (Rec I) × End
  | [], e => ([], e)
  | m :: ms, e =>
    match newRec L m (numNames L m.nStates) (numNames L m.nSyms) with
    | none => ([], .raise)
    | some r => (r :: (recsOf ms e).1, (recsOf ms e).2)

/-- a file system: the contents of each existing file -/
abbrev FS := List Char → Option (List Nat)

/-- `get_reader` (43-59), entering it, and the loop over its records (107-108).  The readers of index files return nothing from
`__enter__` (`BBC.py` 147-149, 177-179), so the loop is over `None`, a `TypeError`.  There is no reader for the old text format. -/
def reading (fs : FS) (f : Fmt) (p : List Char) : List (Rec I) × End :=
  match fs p with
  | none => ([], .raise)                          -- FileNotFoundError
  | some data =>
    match f with
    | .text =>
      if isGz p then (match L.gunzip data with | none => ([], .raise) | some b => textGzRecs b)
      else match L.dec data with
        | none => ([], .raise)
        | some s => textRecs L (s.length + 1) s
    | .proto =>
      match (if isGz p then L.gunzip data else some data) with
      | none => ([], .raise)
      | some b =>
        let r := readAllFrames L.parse b (b.length + 1) 0
        (r.1.map fun (q, i) => { msg := q, tme := none, info := i }, r.2)
    | .morphett =>
      if isGz p then (match L.gunzip data with
        | none => ([], .raise)
        | some b => if b = [] then morphRecs L [] else ([], .raise))
      else match L.dec data with
        | none => ([], .raise)
        | some s => morphRecs L s
    | .bbcDb =>
      match L.unzip data with
      | none => ([], .raise)
      | some b => let r := bbcAll b (b.length + 1) 30; recsOf L r.1 r.2
    | .bbcIndex => ([], .raise)
    | .bbcIndexText => ([], .raise)
    | .textOld => ([], .raise)

/-! ## Writers.  A writer gives what it appends to the file, and whether it ends without an exception. -/

/-- the rest of a line (`StdText.py` 50-57): `none` if `get_big_int` raises -/
def textNote (i : I) : Option (List Char) :=
  let h := (L.status i).halt
  if h.halting = true then
    match getBigInt L.loads h.steps, getBigInt L.loads h.score with
    | some a, some b => some (" Halt ".toList ++ L.approx a ++ ' ' :: L.approx b)
    | _, _ => none
  else some []

/-- `StdText.Writer.write_record` (48-58) -/
def writeTextRec (r : Rec I) : List Char × Bool :=
  match (r.machine L).bind fun x => x.1.toStr with
  | none => ([], false)
  | some s =>
    match textNote L r.info with
    | none => (s, false)
    | some t => (s ++ t ++ ['\n'], true)

/-- `Morphett.Writer.write_record` (33-48), as far as it does not raise -/
def writeMorphRec (r : Rec I) : List Char × Bool :=
  match (r.machine L).bind fun x => morphWrite x.1 x.2.1 x.2.2 with
  | none => ([], false)
  | some s => (s, true)

/-- an attribute of a line of the old format: `str_generic` (`OldText.py` 84-97) raises unless it is a text, an integer or a float -/
abbrev Attr := Option (List Char)

/-- the attribute for the result of `get_big_int` -/
def numAttr : Option (Val E) → Attr
  | some (.int v) => some (L.decimal v)
  | _ => none

/-- `inf_reason2str` (25-33) -/
def infReason : Nat → Option (List Char)
  | 0 => some []
  | 1 => some "Repeat_in_Place".toList
  | 2 => some "Chain_Move".toList
  | 3 => some "Proof_System".toList
  | 4 => some "Reverse_Engineer".toList
  | 5 => some "Lin_Recur".toList
  | 6 => some "CTL".toList
  | _ => none                                    -- KeyError

/-- the attributes for a machine without a decision (123-147) -/
def unkAttrs : Unk → Option (List Attr)
  | .none => some [some "Not_Run".toList]
  | .loops n => some [some "Max_Steps".toList, some (L.decimal n)]
  | .tape n => some [some "Over_Tape".toList, some (L.decimal n)]
  | .time s => some [some "Time_Out".toList, some s]
  | .macroSteps => some [some "Macro_Over_Steps".toList]
  | .threw => none                               -- raise Exception(unknown_info)

/-- category and attributes (123-170) -/
def oldAttrs (i : I) : Option (List Char × List Attr) :=
  let s := L.status i
  if s.halt.decided = false then (unkAttrs L (L.unk i)).map fun a => ("Unknown".toList, a)
  else if s.halt.halting = true then
    match getBigInt L.loads s.halt.score, getBigInt L.loads s.halt.steps with
    | some a, some b => some ("Halt".toList, [numAttr L a, numAttr L b])
    | _, _ => none
  else
    match infReason s.halt.infReason with
    | none => none
    | some reason =>
      if s.quasi.decided = false then
        some ("Infinite".toList, [some reason, some "Quasihalt_Not_Computed".toList, some "N/A".toList])
      else if s.quasi.quasihalting = true then
        match getBigInt L.loads s.quasi.steps with
        | none => none
        | some a => some ("Infinite".toList, [some reason, some (L.decimal s.quasi.state), numAttr L a])
      else some ("Infinite".toList, [some reason, some "No_Quasihalt".toList, some "N/A".toList])

/-- `write_list` (80-82) and the end of the line (78) -/
def attrText : List Attr → List Char × Bool
  | [] => (['\n'], true)
  | none :: _ => ([], false)
  | some s :: rest => (' ' :: (s ++ (attrText rest).1), (attrText rest).2)

/-- `ReaderWriter.write_record` (115-172); the log number is `None` -/
def writeOldRec (r : Rec I) : List Char × Bool :=
  match unpackTM (RecordTools.packedField r.msg) with
  | none => ([], false)
  | some m =>
    match oldAttrs L r.info with
    | none => ([], false)
    | some (cat, attrs) =>
      match displayTable m with
      | none => ([], false)
      | some s => (s ++ " | None ".toList ++ cat ++ (attrText attrs).1, (attrText attrs).2)

/-- `write_record` of a format on a file: a compressed text file is opened in binary mode (`StdText.py` 38-39), writing text to it is a
`TypeError`; so is printing to it (`Morphett.py` 23-24) -/
def writeRec (f : Fmt) (p : List Char) (r : Rec I) : List Nat × Bool :=
  match f with
  | .text => if isGz p then ([], false) else (L.enc (writeTextRec L r).1, (writeTextRec L r).2)
  | .proto =>
    match writeFrame (L.ser r.msg r.info) with
    | none => ([], false)
    | some b => (b, true)
  | .morphett =>
    if isGz p then ([], (writeMorphRec L r).2 && decide ((writeMorphRec L r).1 = []))
    else (L.enc (writeMorphRec L r).1, (writeMorphRec L r).2)
  | .textOld => (L.enc (writeOldRec L r).1, (writeOldRec L r).2)
  | _ => ([], false)

/-- the loop (108-110): what is written, how many records were read, whether it ends without an exception in the writer -/
def writeAll (f : Fmt) (p : List Char) : List (Rec I) → List Nat × Nat × Bool
  | [] => ([], 0, true)
  | r :: rs =>
    if (writeRec L f p r).2 then
      ((writeRec L f p r).1 ++ (writeAll f p rs).1, (writeAll f p rs).2.1 + 1, (writeAll f p rs).2.2)
    else ((writeRec L f p r).1, 1, false)

/-- `get_writer` (61-79) and entering it: is there a file to write to?  `BBC.Writer` raises; for index files an exception is returned,
which cannot be entered. -/
def canWrite : Fmt → Bool
  | .text | .proto | .morphett | .textOld => true
  | .bbcDb | .bbcIndex | .bbcIndexText => false

/-- the contents of the file when it is closed; the old format is never compressed (`OldText.py` 184) -/
def closed (f : Fmt) (p : List Char) (b : List Nat) : List Nat :=
  if f ≠ .textOld ∧ isGz p = true then L.gz b else b

def FS.put (fs : FS) (p : List Char) (b : List Nat) : FS := fun q => if q = p then some b else fs q

/-- `main` (82-112) with the formats given on the command line (`none`: "auto"): the files afterwards and the number of records it
reports, `none` if it ends with an exception.  The output file is opened, and so emptied, before the input file. -/
def convert (fs : FS) (inFmt outFmt : Option Fmt) (inp outp : List Char) : FS × Option Nat :=
  let i := inFmt.getD (detect inp)
  let o := outFmt.getD (detect outp)
  if canWrite o then
    let rd := reading L (fs.put outp []) i inp
    let w := writeAll L o outp rd.1
    (fs.put outp (closed L o outp w.1), if w.2.2 = true ∧ rd.2 = .eof then some w.2.1 else none)
  else (fs, none)

end

end Model.Convert

import Verif.Model.Records

/-!
# Model of `Code/IO/Morphett.py` and of the machine printer of `Code/IO/OldText.py`

The names of the states and symbols of a machine are given rendered, as `print` would write them.  Not modelled:
opening files, compression.
-/

namespace Model.IO

/-- a name -/
abbrev Name := List Char

/-- one line (39-48): none if Python raises an IndexError.  `DIRS[-1]` is "r". -/
def morphCell (states symbols : List Name) (q a : Nat) (t : BTrans) : Option (List Char) :=
  if t.cond = .undefined then some []
  else
    match Py.get states q, Py.get symbols a, Py.get symbols t.sym, Py.get ['l', 'r'] t.dir,
        (if t.cond = .halt then some ['h', 'a', 'l', 't'] else Py.get states t.st) with
    | some n1, some n2, some n3, some d, some n4 =>
      some (n1 ++ ' ' :: (n2 ++ ' ' :: (n3 ++ ' ' :: (d :: ' ' :: (n4 ++ ['\n'])))))
    | _, _, _, _, _ => none

/-- `tm.symbols[0] = "_"` (36) -/
def blankFirst (symbols : List Name) : List Name := symbols.set 0 ['_']

/-- `Writer.write_record` (33-48).  `tm.symbols` is empty only for machines without symbols. -/
def morphWrite (m : SM) (states symbols : List Name) : Option (List Char) :=
  if symbols = [] then none
  else
    (Py.mapO (fun q => (Py.mapO (fun a => ((m.rows[q]?).bind (·[a]?)).bind (morphCell states (blankFirst symbols) q a))
      (List.range m.nSyms)).map List.flatten) (List.range m.nStates)).map List.flatten

/-- `DIRS.find(token)` (82): substring search in "lr" -/
def morphDir (token : List Char) : Int :=
  if token = ['l'] then 0 else if token = ['l', 'r'] then 0 else if token = ['r'] then 1 else -1

/-- `s.lower()` for the letters that matter -/
def lower (c : Char) : Char := if 65 ≤ c.toNat ∧ c.toNat ≤ 90 then Char.ofNat (c.toNat + 32) else c

/-- `state_out.lower().startswith("halt")` (80) -/
def isHaltName (s : List Char) : Bool := decide ((s.map lower).take 4 = ['h', 'a', 'l', 't'])

/-- a line of the file (74-82): an exception, nothing, or a quintuple -/
def morphLine (line : List Char) : Option (Option (Quint Name Name)) :=
  let line := (Py.split ';' line).headD []
  let line := line.filter (· ≠ '!')
  let line := Py.strip line
  if line = [] then some none
  else match Py.words line with
    | [q, a, w, d, q'] => some (some (q, a, some w, morphDir d, if isHaltName q' then none else some q'))
    | _ => none                    -- ValueError

/-- `if x not in l: l.append(x)` (84-87) -/
def addNew {α : Type} [DecidableEq α] (l : List α) (x : α) : List α := if x ∈ l then l else l ++ [x]

/-- `Reader.read_record` (70-93) on a whole file; splitting at newlines gives the lines of the file and possibly
an empty line more, which is ignored -/
def morphRead (s : List Char) : Option SM :=
  match Py.mapO morphLine (Py.split '\n' s) with
  | none => none
  | some ls =>
    let quints := ls.filterMap id
    let states := (quints.map (·.1)).foldl addNew []
    let symbols := (quints.map (·.2.1)).foldl addNew [['_']]
    match tmFromQuints quints states symbols with
    | none => none
    | some m => (mkRecord m).map (·.2)

/-! ## `OldText.py` -/

/-- one cell of `display_ttable` (44-51), with the space after it -/
def oldCell (t : BTrans) : Option (List Char) :=
  if t.cond = .undefined then some ['-', '-', '-', ' ']
  else
    match Py.get Py.digits t.sym, Py.get ['L', 'R'] t.dir,
        (if 0 ≤ t.st then Py.get (Py.uppercase.take 25) t.st else some 'Z') with
    | some s, some d, some q => some [s, d, q, ' ']
    | _, _, _ => none

/-- `display_ttable` (39-54) -/
def displayTable (m : SM) : Option (List Char) :=
  ((Py.mapO (fun q => (Py.mapO (fun a => ((m.rows[q]?).bind (·[a]?)).bind oldCell) (List.range m.nSyms)).map
    fun cs => cs.flatten ++ [' ']) (List.range m.nStates)).map List.flatten).map Py.strip

end Model.IO

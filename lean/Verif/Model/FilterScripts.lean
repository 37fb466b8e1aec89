import Verif.Model.FileTools
import Verif.Model.Tools
import Mathlib.Data.Nat.Digits.Defs

/-!
# Model of the filter scripts `Tools/filter.sh`, `Tools/sbatch_filter_setup.sh`, `sbatch_filter_array.sh`, `sbatch_filter_finish.sh`

The scripts run under `set -e`: the first command that fails ends them.  The state is the data directory.  A record file is the
list of what a reader finds in it (`Model/FileTools.lean`), a text file is a list of lines.  The filter command, the statistics
and the conversion to text are parameters; categorising is the model of `IO_Categorize.py`.  Not modelled: file system errors,
the log, times, and directory names that are not plain names (`.`, `a/b`).
-/

namespace Model.FilterScripts
open Model.Status Model.FileTools

/-! ## The test of the size -/

/-- A number as `wc -c` prints it: its decimal digits, the highest first. -/
def numeral (n : Nat) : List Nat := if n = 0 then [0] else (Nat.digits 10 n).reverse

/-- `[[ a < b ]]` in bash compares strings, not numbers. -/
def strLess : List Nat → List Nat → Bool
  | [], [] => false
  | [], _ :: _ => true
  | _ :: _, [] => false
  | a :: as, b :: bs => if a < b then true else if b < a then false else strLess as bs

/-- `[[ "$(wc -c < ${ROOT_DIR}/unknown.pb)" < 1000000 ]]` (filter.sh:40) -/
def smallEnough (size : Nat) : Bool := strLess (numeral size) [1, 0, 0, 0, 0, 0, 0]

section
variable {α β E : Type} (status : α → BBStatus) (loads : List Nat → Option E) (value : E → Int)

/-- a directory `${ROOT_DIR}/${SUBDIR}`: `in.pb`, `out.pb` and the files of `IO_Categorize.py` -/
structure WorkDir (α : Type) where
  inFile : Option (List (Item α))
  outFile : Option (List (Item α))
  cats : Option (Category → List α)

/-- `${ROOT_DIR}`: `unknown.pb`, `unknown.txt` and the directories of the filters -/
structure Root (α β : Type) where
  unknown : Option (List (Item α))
  text : Option (List β)
  dirs : String → Option (WorkDir α)

/-- A filter with its arguments: from the contents of `--infile` it makes `--outfile` (or not); the flag says whether it exits
with success. -/
abbrev Command (α : Type) := List (Item α) → Option (List (Item α)) × Bool

/-- the other programs: `TM_Analyze.py` (does it succeed?), the size of a file, `IO_Convert.py` -/
structure Programs (α β : Type) where
  analyze : List (Item α) → Bool
  size : List (Item α) → Nat
  convert : List (Item α) → Option (List β)

/-- `filter.sh` (12-42) with `SUBDIR = sub` and the filter `cmd`; the flag says whether it exits with success. -/
def filterSh (P : Programs α β) (root : Root α β) (sub : String) (cmd : Command α) : Root α β × Bool :=
  -- 22-23: rm -rf ${WORK_DIR}; mkdir -p ${WORK_DIR}
  let put (d : WorkDir α) : Root α β := { root with dirs := Function.update root.dirs sub (some d) }
  match root.unknown with
  | none => (put ⟨none, none, none⟩, false)                  -- 26: cp fails
  | some f =>
    match cmd f with                                          -- 29
    | (out, false) => (put ⟨some f, out, none⟩, false)
    | (none, true) =>                                         -- 32: the input of IO_Categorize.py cannot be opened
      (put ⟨some f, none, some (Output.new (α := α)).file⟩, false)
    | (some out, true) =>
      match categorizeFiles status loads value [out] Output.new with
      | (o, true) => (put ⟨some f, some out, some o.file⟩, false)
      | (o, false) =>
        -- 35: cp ${WORK_DIR}/unknown.pb ${ROOT_DIR}/unknown.pb
        let new := (o.file .unknown).map Item.ok
        let root' := { put ⟨some f, some out, some o.file⟩ with unknown := some new }
        if P.analyze out = false then (root', false)          -- 38
        else if smallEnough (P.size new) then                 -- 40-42
          match P.convert new with
          | none => (root', false)
          | some t => ({ root' with text := some t }, true)
        else (root', true)

/-- one filter after another, as long as they succeed -/
def filters (P : Programs α β) : List (String × Command α) → Root α β → Root α β × Bool
  | [], root => (root, true)
  | (sub, cmd) :: rest, root =>
    match filterSh status loads value P root sub cmd with
    | (root', false) => (root', false)
    | (root', true) => filters P rest root'

/-! ## The scripts for a cluster -/

/-- `${WORK_DIR}/split/${INDEX}`: the files of `IO_Categorize.py`, `unknown.txt` and whether there is the file `success` -/
structure Shard (α β : Type) where
  cats : Option (Category → List α)
  text : Option (List β)
  success : Bool

/-- `Code/Count.py` (77-83) on a text file and on a record file: the sum of the counts (`Tools.count`, C52) of the machines;
`none` if it raises -/
def countText (parse : β → Option α) (count : α → Option Int) (lines : List β) : Option Int :=
  (Py.mapO (fun l => (parse l).bind count) lines).map List.sum

def countPb (count : α → Option Int) (f : List (Item α)) : Option Int :=
  if (readAll f).2 = .eof then (Py.mapO count (readAll f).1).map List.sum else none

/-- what a job of the cluster needs: the filter, `IO.Reader` on a line, `count` of the machine of a record, and the
line `IO_Convert.py` writes for a record -/
structure JobPrograms (α β : Type) where
  cmd : List β → Option (List (Item α)) × Bool
  parse : β → Option α
  count : α → Option Int
  render : α → β

/-- `sbatch_filter_array.sh` (26-53) on the part `input` of the lines -/
def arrayJob (J : JobPrograms α β) (input : List β) : Shard α β :=
  match J.cmd input with
  | (_, false) => ⟨none, none, false⟩
  | (none, true) => ⟨none, none, false⟩                       -- 37: Count.py raises
  | (some out, true) =>
    match countText J.parse J.count input, countPb J.count out with
    | some before, some after =>
      if before ≠ after then ⟨none, none, false⟩              -- 39-42
      else
        match categorizeFiles status loads value [out] Output.new with
        | (o, true) => ⟨some o.file, none, false⟩
        | (o, false) => ⟨some o.file, some ((o.file .unknown).map J.render), true⟩
    | _, _ => ⟨none, none, false⟩

/-- `${ROOT_DIR}/unknown.txt` and the files in `${WORK_DIR}` after `sbatch_filter_finish.sh` -/
structure Merged (α β : Type) where
  text : List β
  file : Category → Option (List α)

/-- `sbatch_filter_finish.sh` (25-36): `none` if it exits with 1.  `shards` are the directories `split/0*` in their order
(the numbers have eight digits: up to ten million parts). -/
def finish (numShards : Nat) (shards : List (Shard α β)) : Option (Merged α β) :=
  if (shards.filter (·.success)).length ≠ numShards then none
  else some
    { text := shards.flatMap (fun s => s.text.getD [])
      file := fun c =>
        -- 34: halt.{small,large}.pb unknown.pb qhalt.{small,large}.pb infinite.pb
        if c = .haltUnk ∨ c = .qhaltUnk then none
        else some (shards.flatMap (fun s => (s.cats.map (fun f => f c)).getD [])) }

/-- The three scripts: `sbatch_filter_setup.sh` splits `unknown.txt` (30-31), where `split` is what `split --number=l/N` does;
every part is a job, and then the results are combined. -/
def cluster (J : JobPrograms α β) (split : Nat → List β → List (List β)) (numShards : Nat) (text : List β) : Option (Merged α β) :=
  finish numShards ((split numShards text).map (arrayJob status loads value J))

end

end Model.FilterScripts

import Verif.Model.Status
import Mathlib.Data.Rat.Defs
import Mathlib.Algebra.BigOperators.Group.Finset.Basic
import Mathlib.Algebra.Field.Rat
import Mathlib.Data.List.Permutation

/-!
# Model of `Code/IO_Categorize.py`, `Code/IO_Sort.py` and `Code/IO_Sample.py`

A record is a value of a type `α` with a status.  A file is the list of what a reader finds in it; that the reader of the
length-delimited format finds the records that were written is C29.  Not modelled: printing, timing, compression.
-/

namespace Model.FileTools
open Model.Status

/-- what a reader finds: a record; a message that cannot be parsed; a message that is cut off (`read_record` raises `IO_Error`,
`skip_record` seeks past the end and returns True, `Proto.py` 90-113); a length field that is cut off (both raise `IO_Error`) -/
inductive Item (α : Type)
  | ok (a : α)
  | bad
  | cutData
  | cutLen
  deriving DecidableEq, Repr

/-- how reading ended: at the end of the file, with `IO_Error`, with another exception -/
inductive Stop
  | eof | ioError | raised
  deriving DecidableEq, Repr

/-- `for tm_record in reader` (`Proto.py` 115-127): the records, and how it ended -/
def readAll {α : Type} : List (Item α) → List α × Stop
  | [] => ([], .eof)
  | .ok a :: rest => (a :: (readAll rest).1, (readAll rest).2)
  | .bad :: _ => ([], .raised)
  | .cutData :: _ => ([], .ioError)
  | .cutLen :: _ => ([], .ioError)

section
variable {α E : Type} (status : α → BBStatus) (loads : List Nat → Option E)
-- the value of an `ExpInt`; comparisons of `ExpInt` objects are taken to compare values
variable (value : E → Int)

/-! ## `IO_Categorize.py` -/

/-- the output files (30-32) -/
inductive Category
  | haltSmall | haltLarge | haltUnk | qhaltSmall | qhaltLarge | qhaltUnk | infinite | unknown
  deriving DecidableEq, Repr

/-- the value of the result of `get_big_int`; something else cannot be compared -/
def valOf : Val E → Option Int
  | .int v => some v
  | .exp e => some (value e)
  | .other => none

/-- `categorize_record` (43-74): `none` if it raises -/
def categorize (s : BBStatus) : Option Category :=
  if ¬ s.halt.decided = true then some .unknown
  else if s.halt.halting = true then
    match getBigInt loads s.halt.steps with
    | none => none
    | some none => some .haltUnk
    | some (some v) =>
      match valOf value v with
      | none => none
      | some v => if v < 1000 then some .haltSmall else some .haltLarge
  else if s.quasi.quasihalting = true then
    match getBigInt loads s.quasi.steps with
    | none => none
    | some none => some .qhaltUnk
    | some (some v) =>
      match valOf value v with
      | none => none
      | some v => if v < 1000 then some .qhaltSmall else some .qhaltLarge
  else some .infinite

/-- the output files and the counters (16-27).  The counter of a category is incremented before the record is written. -/
structure Output (α : Type) where
  file : Category → List α
  count : Category → Nat
  numWritten : Nat

/-- `__init__` and `__enter__` (16-35): the output files are empty -/
def Output.new : Output α := ⟨fun _ => [], fun _ => 0, 0⟩

/-- `write_record` (76-79) -/
def writeRecord (out : Output α) (a : α) : Option (Output α) :=
  match categorize loads value (status a) with
  | none => none
  | some c => some
    { file := Function.update out.file c (out.file c ++ [a])
      count := Function.update out.count c (out.count c + 1)
      numWritten := out.numWritten + 1 }

/-- the records of one file; the flag says whether an exception was raised -/
def categorizeList : List α → Output α → Output α × Bool
  | [], out => (out, false)
  | a :: rest, out =>
    match writeRecord status loads value out a with
    | none => (out, true)
    | some out' => categorizeList rest out'

/-- `filter` (82-90): an exception ends the run; the output files are closed with what has been written -/
def categorizeFiles : List (List (Item α)) → Output α → Output α × Bool
  | [], out => (out, false)
  | f :: rest, out =>
    match categorizeList status loads value (readAll f).1 out with
    | (out', true) => (out', true)
    | (out', false) => if (readAll f).2 = .eof then categorizeFiles rest out' else (out', true)

/-! ## `IO_Sort.py` -/

/-- `sorting_func` (11-16): `none` if it raises -/
def sortKey (a : α) : Option Int :=
  match getBigInt loads (status a).halt.score with
  | none => none
  | some none => some 0
  | some (some v) => valOf value v

/-- all keys are computed first (`list.sort` with a key function) -/
def keyed : List α → Option (List (Int × α))
  | [] => some []
  | a :: rest =>
    match sortKey status loads value a, keyed rest with
    | some k, some l => some ((k, a) :: l)
    | _, _ => none

/-- `sort` (18-39): `list.sort` is a stable sort, also with `reverse = True`.  `none` if it raises; then the output file is not
opened. -/
def sortFile (f : List (Item α)) : Option (List α) :=
  match readAll f with
  | (_, .raised) => none
  | (recs, _) => (keyed status loads value recs).map fun l => (l.mergeSort (fun x y => decide (y.1 ≤ x.1))).map (·.2)

end

/-! ## `IO_Sample.py` -/

/-- the random choices of the program: `random.random() < a / b`, `random.randrange(n)`, `random.shuffle(l)` -/
structure Random (m : Type → Type) where
  less : Nat → Nat → m Bool
  range : Nat → m Nat
  shuffle : {α : Type} → List α → m (List α)

/-- the variables of `sample` (14-16) -/
structure Sampler (α : Type) where
  numRecords : Nat
  numRead : Nat
  sample : List α
  deriving DecidableEq, Repr

section
variable {α : Type} {m : Type → Type} [Monad m] (R : Random m)

/-- the loop over one file (20-41).  The flag says whether an exception other than `IO_Error` was raised.  The size of the sample
is taken to be a natural number. -/
def sampleFile (n : Nat) : List (Item α) → Sampler α → m (Sampler α × Bool)
  | [], s => do
    if s.sample.length < n then pure (s, false)
    else
      let _ ← R.less n s.numRecords
      pure (s, false)
  | item :: rest, s => do
    if s.sample.length < n then
      match item with
      | .ok a => sampleFile n rest ⟨s.numRecords + 1, s.numRead + 1, s.sample ++ [a]⟩
      | .bad => pure (s, true)
      | _ => pure (s, false)
    else
      let hit ← R.less n s.numRecords
      if hit then
        match item with
        | .ok a =>
          let i ← R.range n
          if i < s.sample.length then sampleFile n rest ⟨s.numRecords + 1, s.numRead + 1, s.sample.set i a⟩
          else pure (s, true)               -- ValueError for `randrange(0)`, or IndexError
        | .bad => pure (s, true)
        | _ => pure (s, false)
      else
        match item with
        | .cutLen => pure (s, false)
        | _ => sampleFile n rest { s with numRecords := s.numRecords + 1 }

/-- the loop over the files (17-43) -/
def sampleFiles (n : Nat) : List (List (Item α)) → Sampler α → m (Sampler α × Bool)
  | [], s => pure (s, false)
  | f :: rest, s => do
    let (s', raised) ← sampleFile R n f s
    if raised then pure (s', true) else sampleFiles n rest s'

/-- `sample` (13-50): the records written, or `none` if an exception is raised -/
def sampleMain (n : Nat) (files : List (List (Item α))) : m (Option (List α)) := do
  let (s, raised) ← sampleFiles R n files ⟨1, 0, []⟩
  if raised then pure none
  else
    let l ← R.shuffle s.sample
    pure (some l)

end

/-- The choices as an oracle: `S` is the state of the source of randomness. -/
def oracle (S : Type) (less : Nat → Nat → S → Bool × S) (range : Nat → S → Nat × S)
    (shuffle : {α : Type} → List α → S → List α × S) : Random (StateM S) :=
  ⟨less, range, shuffle⟩

/-- Expected values: a random value is given by the expected value of every function of it. -/
def Ex (X : Type) : Type := (X → ℚ) → ℚ

instance : Monad Ex where
  pure x := fun f => f x
  bind x g := fun f => x fun a => g a f

/-- ideal randomness: `random.random() < a / b` has probability `a / b` (1 if this is larger), `random.randrange(n)` is uniform,
`random.shuffle` is uniform over the permutations.  Simplified: the rounding of floating point numbers is left out. -/
def ideal : Random Ex where
  less a b := fun f => min 1 ((a : ℚ) / b) * f true + (1 - min 1 ((a : ℚ) / b)) * f false
  range n := fun f => (∑ i ∈ Finset.range n, f i) / n
  shuffle l := fun f => (l.permutations.map f).sum / l.permutations.length

end Model.FileTools

import Verif.Model.Str
import Mathlib.Algebra.Order.Field.Rat
import Mathlib.Data.Rat.Floor

/-!
# Model of `Tools/venn_diff.py`, `cpp/scripts/shuffle_split.py` and `Code/Random_Sample.py`

Text files are lists of characters.  Not modelled: command lines, names of the files that are written, encodings.
-/

namespace Model.LineTools

/-- The lines of a text file, as iterating over it or `readlines` gives them: each with its newline, which only the last one may
lack. -/
def lines : List Char → List (List Char)
  | [] => []
  | c :: s => if c = '\n' then ['\n'] :: lines s else
    match lines s with
    | [] => [[c]]
    | l :: ls => (c :: l) :: ls

/-! ## `venn_diff.py` -/

/-- The three files that are written, and whether the program ends without an exception. -/
structure Venn where
  inter : List Char
  lonly : List Char
  ronly : List Char
  ok : Bool
  deriving DecidableEq, Repr

/-- The loop over the lines of the right file (20-28): `only` is the set `left_only`, `inter` and `ronly` is what has been written.
`remove` (23) raises a `KeyError` if the line is not in the set any more.  Gives what has been written and the set, `none` after
an exception. -/
def vennLoop (all : List (List Char)) : List (List Char) → List (List Char) → List Char → List Char →
    List Char × List Char × Option (List (List Char))
  | [], only, inter, ronly => (inter, ronly, some only)
  | l :: right, only, inter, ronly =>
    if l ∈ all then
      if l ∈ only then vennLoop all right (only.erase l) (inter ++ l) ronly else (inter, ronly, none)
    else vennLoop all right only inter (ronly ++ l)

/-- `venn_diff` (13-31).  A set is a list without repetitions; `order` is the order in which Python goes through a set (30). -/
def venn (order : List (List Char) → List (List Char)) (left right : List Char) : Venn :=
  let set := (lines left).dedup                     -- 14-16
  match vennLoop set (lines right) set [] [] with
  | (inter, ronly, some only) => ⟨inter, (order only).flatten, ronly, true⟩
  | (inter, ronly, none) => ⟨inter, [], ronly, false⟩

/-! ## `shuffle_split.py` -/

/-- `round` of a float: to the nearest integer, from the middle to the even one -/
def pyRound (x : ℚ) : Int :=
  if x - ⌊x⌋ < 1 / 2 then ⌊x⌋
  else if 1 / 2 < x - ⌊x⌋ then ⌊x⌋ + 1
  else if ⌊x⌋ % 2 = 0 then ⌊x⌋ else ⌊x⌋ + 1

/-- `chunk_breaks[i]` (21-22); `fl` is the rounding of the result of a floating point operation -/
def chunkBreak (fl : ℚ → ℚ) (n k i : Nat) : Int := pyRound (fl (fl ((n : ℚ) / k) * i))

/-- `lines[a : b]` for `a` and `b` that are not negative -/
def slice {α : Type} (xs : List α) (a b : Int) : List α := (xs.take b.toNat).drop a.toNat

/-- The chunks (21-26) of the lines in the order they have after shuffling.  No chunks is a division by 0, for a negative number
nothing is written. -/
def chunks {α : Type} (fl : ℚ → ℚ) (num : Int) (shuffled : List α) : Option (List (List α)) :=
  if num = 0 then none
  else some ((List.range num.toNat).map fun i =>
    slice shuffled (chunkBreak fl shuffled.length num.toNat i) (chunkBreak fl shuffled.length num.toNat (i + 1)))

/-- the whole script: the files that are written -/
def shuffleSplit (fl : ℚ → ℚ) (shuffle : List (List Char) → List (List Char)) (num : Int) (file : List Char) : Option (List (List Char)) :=
  (chunks fl num (shuffle (lines file))).map (·.map List.flatten)

/-! ## `Random_Sample.py` -/

/-- `for j in range(n): line = infile.readline()` (33-34): the last line that was read and the rest of the file; `last` is what the
variable is before -/
def readMany : Nat → List Char → List Char → List Char × List Char
  | 0, last, s => (last, s)
  | n + 1, _, s => readMany n (Py.readline s).1 (Py.readline s).2

/-- the loop (30-36): what is written for the line numbers `nums` -/
def sampleLoop : List Nat → Nat → List Char → List Char → List Char
  | [], _, _, _ => []
  | num :: nums, last, line, s => (readMany (num - last) line s).1 ++ sampleLoop nums num (readMany (num - last) line s).1 (readMany (num - last) line s).2

/-- The script from 22 on, with the sorted random numbers `nums` (25-26): `none` is the failed assertion. -/
def sample (len size : Nat) (nums : List Nat) (file : List Char) : Option (List Char) :=
  if size ≤ len / 2 then some (sampleLoop nums 0 [] file) else none

end Model.LineTools

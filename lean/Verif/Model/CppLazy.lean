import Verif.Model.Cpp

/-!
# Model of the lazy beaver search (`cpp/src/lazy_beaver_enumerator.cpp`, `lb_enum.cpp`, `lb_enum_continue.cpp`,
`cpp/scripts/merge_steps_examples.py`)

Files are lists of lines.  A line of the witness file is the pair of the number and the text of the machine (printing and
reading the number is left out).
-/

namespace Model.Cpp

/-- `LazyBeaverEnum` (lazy_beaver_enumerator.h 15-44): the set `steps_realized_` and the two files -/
structure Lazy where
  steps : List Nat := []
  witness : List (Nat × List Char) := []
  nonhalt : List (List Char) := []
  total : Nat := 0
  halt : Nat := 0
deriving DecidableEq, Repr

/-- `min_missing`, at most the given number of rounds (lazy_beaver_enumerator.cpp 38-44) -/
def minMissingFrom (steps : List Nat) : Nat → Nat → Nat
  | 0, i => i
  | k + 1, i => if i ∈ steps then minMissingFrom steps k (i + 1) else i

/-- `min_missing`: there are at most as many rounds as numbers in the set -/
def minMissing (steps : List Nat) : Nat := minMissingFrom steps steps.length 1

/-- `filter_tm` (lazy_beaver_enumerator.cpp 53-88); `file` says whether there is a file for non-halting machines -/
def lazyFilter (maxSteps : Int) (file : Bool) (st : Lazy) (tm : TM) : Out (Lazy × Expand) := do
  let s ← seek tm maxSteps Sim.new
  let st := { st with total := st.total + 1 }
  if s.isHalted then do
    let st := { st with halt := st.halt + 1 }
    if s.stepNum ∈ st.steps then .ok (st, ⟨s.isHalted, s.lastState, s.lastSymbol⟩)
    else do
      let text ← tm.write
      let st := { st with steps := s.stepNum :: st.steps, witness := st.witness ++ [(s.stepNum, text)] }
      .ok (st, ⟨s.isHalted, s.lastState, s.lastSymbol⟩)
  else if file then do
    let text ← tm.write
    .ok ({ st with nonhalt := st.nonhalt ++ [text] }, ⟨s.isHalted, s.lastState, s.lastSymbol⟩)
  else .ok (st, ⟨s.isHalted, s.lastState, s.lastSymbol⟩)

/-- `EnumerateAll` (lb_enum.cpp 15-37), the enumeration -/
def lbEnum (fuel n m : Nat) (maxSteps : Int) (file : Bool) : Out Lazy :=
  enumLoop false (lazyFilter maxSteps file) fuel [TM.empty n m] {}

/-- the last lines of `EnumerateAll` (lb_enum.cpp 31-36): the number printed, or "Inconclusive" -/
def lbPrint (maxSteps : Int) (st : Lazy) : Option Nat :=
  if (minMissing st.steps : Int) < maxSteps then some (minMissing st.steps) else none

/-- `ContinueEnumerateFromFile` (lb_enum_continue.cpp 14-39) -/
def lbContinue (fuel : Nat) (maxSteps : Int) : List (List Char) → Lazy → Out Lazy
  | [], st => .ok st
  | line :: lines, st => do
    let tm ← readTM line
    let st ← enumLoop false (lazyFilter maxSteps false) fuel [tm] st
    lbContinue fuel maxSteps lines st

/-- one process for each chunk (lb_enum_local_parallel.sh 35-40) -/
def lbChunks (fuel : Nat) (maxSteps : Int) (chunks : List (List (List Char))) : Out (List Lazy) :=
  mapOut (fun lines => lbContinue fuel maxSteps lines {}) chunks

/-- insertion into a strictly ascending list -/
def insertStep (k : Nat) : List Nat → List Nat
  | [] => [k]
  | x :: l => if k < x then k :: x :: l else if k = x then x :: l else x :: insertStep k l

/-- the keys of `steps_example` in ascending order (merge_steps_examples.py 18-30) -/
def mergedSteps (files : List (List (Nat × List Char))) : List Nat :=
  (files.flatten.map Prod.fst).foldl (fun l k => insertStep k l) []

/-- the numbers strictly between neighbours (merge_steps_examples.py 37-39) -/
def holes : List Nat → List Nat
  | x :: y :: l => (List.range (y - (x + 1))).map (· + (x + 1)) ++ holes (y :: l)
  | _ => []

/-- "Min un-attained steps", the first number (merge_steps_examples.py 41-43, `-n` at least 1) -/
def mergePrint (files : List (List (Nat × List Char))) : Option Nat := (holes (mergedSteps files)).head?

/-- `lb_enum_local_parallel.sh`: a short enumeration, the machines that have not halted shuffled and split into chunks in
some way (`split`), an enumeration for each chunk, and the merge of all witness files -/
def lbParallel (fuel n m : Nat) (initSteps maxSteps : Int) (split : List (List Char) → List (List (List Char))) :
    Out (Option Nat) := do
  let st ← lbEnum fuel n m initSteps true
  let parts ← lbChunks fuel maxSteps (split st.nonhalt)
  .ok (mergePrint (st.witness :: parts.map Lazy.witness))

end Model.Cpp

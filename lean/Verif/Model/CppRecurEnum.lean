import Verif.Model.CppRecur

/-!
# Model of the enumeration with the linear recurrence detector (`cpp/src/lin_recur_enumerator.cpp`, `lr_enum.cpp`,
`lr_enum_continue.cpp`, `cpp/scripts/lr_enum_local_parallel.sh`)

Files are lists of lines.  Compression, statistics and the choice of the machine with the longest period (which is only
printed) are left out.
-/

namespace Model.Cpp

/-- the three output files and the counters of `LinRecurEnum` (lin_recur_enumerator.h 20-80) -/
structure LrFiles where
  halt : List (List Char) := []
  inf : List (List Char) := []
  unknown : List (List Char) := []
  numTotal : Nat := 0
  numHalt : Nat := 0
  numInf : Nat := 0
  numUnknown : Nat := 0
deriving DecidableEq, Repr

/-- a number as printed by `<<` -/
def showInt (z : Int) : List Char := if z < 0 then '-' :: Nat.toDigits 10 z.natAbs else Nat.toDigits 10 z.natAbs

/-- lin_recur_enumerator.cpp 113-114 -/
def haltLine (text : List Char) (steps : Nat) : List Char := text ++ " | Halt ".toList ++ Nat.toDigits 10 steps

/-- lin_recur_enumerator.cpp 121-123 -/
def infLine (text : List Char) (period : Nat) (offset : Int) (start : Nat) : List Char :=
  text ++ " | Lin_Recur ".toList ++ Nat.toDigits 10 period ++ [' '] ++ showInt offset ++ " <".toList ++ Nat.toDigits 10 start

/-- `filter_tm` (lin_recur_enumerator.cpp 100-139).  `only` is `only_unknown`, which has no value in a build without Boost. -/
def lrFilter (maxSteps : Int) (only : Bool) (st : LrFiles) (tm : TM) : Out (LrFiles × Expand) := do
  let r ← lrDetect tm maxSteps
  let st := { st with numTotal := st.numTotal + 1 }
  if r.isHalted then do
    let st := { st with numHalt := st.numHalt + 1 }
    if only then .ok (st, ⟨r.isHalted, r.lastState, r.lastSymbol⟩)
    else do
      let text ← tm.write
      .ok ({ st with halt := st.halt ++ [haltLine text r.stepsRun] }, ⟨r.isHalted, r.lastState, r.lastSymbol⟩)
  else if r.isLinRecurrent then do
    let st := { st with numInf := st.numInf + 1 }
    if only then .ok (st, ⟨r.isHalted, r.lastState, r.lastSymbol⟩)
    else do
      let text ← tm.write
      .ok ({ st with inf := st.inf ++ [infLine text r.period r.offset r.start] }, ⟨r.isHalted, r.lastState, r.lastSymbol⟩)
  else do
    let text ← tm.write
    .ok ({ st with numUnknown := st.numUnknown + 1, unknown := st.unknown ++ [text] }, ⟨r.isHalted, r.lastState, r.lastSymbol⟩)

/-- `LinRecurEnumerate` (lr_enum.cpp 14-42) as called by `main`, with `first_1rb` -/
def lrEnum (fuel n m : Nat) (maxSteps : Int) (allow only : Bool) : Out LrFiles := do
  let root ← (TM.empty n m).child 0 0 ⟨1, 1, 1, false⟩
  enumLoop allow (lrFilter maxSteps only) fuel [root] {}

/-- `ContinueLinRecurEnumerate` (lr_enum_continue.cpp 14-46) -/
def lrContinue (fuel : Nat) (maxSteps : Int) (allow only : Bool) : List (List Char) → LrFiles → Out LrFiles
  | [], st => .ok st
  | line :: lines, st => do
    let tm ← readTM line
    let st ← enumLoop allow (lrFilter maxSteps only) fuel [tm] st
    lrContinue fuel maxSteps allow only lines st

/-- `lr_enum_local_parallel.sh`: a short enumeration, the unknown machines distributed in some way (`split`), an enumeration
for each part, and the final files -/
def lrParallel (fuel n m : Nat) (initSteps maxSteps : Int) (allow only : Bool)
    (split : List (List Char) → List (List (List Char))) :
    Out (List (List Char) × List (List Char) × List (List Char)) := do
  let st ← lrEnum fuel n m initSteps allow only
  let parts ← mapOut (fun lines => lrContinue fuel maxSteps allow only lines {}) (split st.unknown)
  .ok (st.halt ++ (parts.map LrFiles.halt).flatten, st.inf ++ (parts.map LrFiles.inf).flatten, (parts.map LrFiles.unknown).flatten)

end Model.Cpp

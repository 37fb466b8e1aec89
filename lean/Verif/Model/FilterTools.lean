import Verif.Model.CPS
import Verif.Model.CTL
import Verif.Model.Filters
import Verif.Model.Pipeline

/-!
# Models of the filter programs

`main` of `Code/Reverse_Engineer_Filter.py`, `Code/Backtracking_Filter.py`, `Code/CTL_Filter.py` and `Code/CPS_Filter.py`: each reads
the records of a file one by one, runs a filter on the machine of each, which may change its status, and writes it.  Not modelled:
the fields that describe the run of the filter (parameters, statistics, elapsed time), which nothing here reads; reading and
writing files, which are C25-C29.
-/

namespace Model.FilterTools
open Spec (Table)
open Model.Status

/-- A record: the machine with its numbers of states and symbols, and its status -/
structure Record where
  table : Table
  nS : Nat
  nK : Nat
  status : BBStatus

/-- the machine of a record -/
def Record.machine (r : Record) : Table × Nat × Nat := (r.table, r.nS, r.nK)

/-- `for tm_record in reader: filter(tm_record); writer.write_record(tm_record)` (`Reverse_Engineer_Filter.py` 100-104,
`Backtracking_Filter.py` 219-223, `CTL_Filter.py` 104-108, `CPS_Filter.py` 81-85): the records written and whether the program came
to the end of the input.  `f` gives the new status of a record, or `none` if it raises. -/
def mainLoop (f : Record → Option BBStatus) : List Record → List Record × Bool
  | [] => ([], true)
  | r :: rs =>
    match f r with
    | none => ([], false)
    | some s => ({ r with status := s } :: (mainLoop f rs).1, (mainLoop f rs).2)

/-- `status.quasihalt_status.is_decided = False` -/
def forgetQuasi (s : BBStatus) : BBStatus := { s with quasi := { s.quasi with decided := false } }

/-- `InfReason` (io.proto:82-92) -/
def INF_BACKTRACK : Nat := 7
def INF_CLOSED_GRAPH : Nat := 8

/-! ## `Reverse_Engineer_Filter.py` -/

/-- `filter` (83-91) -/
def revEng (r : Record) : Option BBStatus :=
  match RevEng.isInfinite r.table r.nS r.nK with
  | none => none
  | some true => some (forgetQuasi (setNotHalting r.status Pipeline.INF_REVERSE_ENGINEER))
  | some false => some r.status

/-! ## `Backtracking_Filter.py` -/

/-- the names defined by `import IO` (`IO/__init__.py` 4-8), without the modules that it imports on the way -/
def ioNames : List String :=
  ["StdText", "Proto", "Morphett", "OldText", "BBC", "Reader", "Writer", "load_tm", "get_tm", "parse_tm", "Timer"]

/-- `backtrack` (185-204), where `names` are the attributes of the package `IO`: `IO.parse_ttable` is looked up first.  A machine
without halting cells gives `result = None`, whose attributes cannot be read. -/
def backtrackWith (names : List String) (steps width : Nat) (r : Record) : Option BBStatus :=
  if "parse_ttable" ∈ names then
    match Backtrack.ttable r.table r.nS r.nK steps width with
    | none => none
    | some none => none
    | some (some res) =>
      if res.success then
        if res.halted then none      -- the assertion
        else some (setNotHalting (forgetQuasi r.status) INF_BACKTRACK)
      else some (forgetQuasi r.status)
  else none

/-- `backtrack` as it is -/
def backtrack (steps width : Nat) (r : Record) : Option BBStatus := backtrackWith ioNames steps width r

/-! ## `CTL_Filter.py` -/

/-- `--type` -/
inductive CTLType
  | ctl1 | ctl2 | ctl3 | ctl4
  deriving DecidableEq, Repr

/-- `get_module(type).test_CTL` on a machine stack.  `rounds` bounds the number of rounds of the `while` loop of the algorithm, which
may not end: then the model says `false`. -/
def testOf {σ S : Type} [DecidableEq σ] [DecidableEq S] (type : CTLType) (rounds : Nat) (M : Machine σ S) (cutoff : Nat) : Bool :=
  match type with
  | .ctl1 => CTL.test1 M cutoff rounds
  | .ctl2 => CTL.test2 M cutoff rounds
  | .ctl3 => CTL.test3 M cutoff rounds
  | .ctl4 => CTL.test4 M cutoff rounds

/-- the arguments (91-101); `none` if not given.  Negative numbers are left out. -/
structure CTLArgs where
  type : CTLType
  blockSize : Option Nat
  offset : Nat
  backsymbol : Bool
  cutoff : Nat
  minBlock : Nat
  /-- 0: not given -/
  maxBlock : Nat
  allOffsets : Bool
  /-- `max_sim_steps_per_symbol` of the two macro machines (10 000) -/
  maxSim : Nat
  /-- see `testOf` -/
  rounds : Nat

/-- `test_CTL` from the start (`CTL1.py` 87-99 and the same in the other modules), including the checks of
`Block_Macro_Machine.__init__` (`Turing_Machine.py` 359, 370-371) -/
def testCTL (a : CTLArgs) (T : Table) (k offset : Nat) : Option Bool :=
  if k ≠ 1 then
    if k = 0 then none
    else if offset ≠ 0 ∧ ¬ offset < k then none
    else if a.backsymbol then some (testOf a.type a.rounds (back (block (simple T) k offset a.maxSim) a.maxSim) a.cutoff)
    else some (testOf a.type a.rounds (block (simple T) k offset a.maxSim) a.cutoff)
  else if a.backsymbol then some (testOf a.type a.rounds (back (simple T) a.maxSim) a.cutoff)
  else some (testOf a.type a.rounds (simple T) a.cutoff)

/-- `for offset in range(block_size)` (64-68) -/
def tryOffsets (a : CTLArgs) (T : Table) (k : Nat) : List Nat → Option Bool
  | [] => some false
  | o :: os =>
    match testCTL a T k o with
    | none => none
    | some true => some true
    | some false => tryOffsets a T k os

/-- `filter_block_size` (62-73) -/
def tryBlock (a : CTLArgs) (T : Table) (k : Nat) : Option Bool :=
  if a.allOffsets then tryOffsets a T k (List.range k) else testCTL a T k a.offset

/-- `for block_size in range(min, max + 1)` (77-80) -/
def tryBlocks (a : CTLArgs) (T : Table) : List Nat → Option Bool
  | [] => some false
  | k :: ks =>
    match tryBlock a T k with
    | none => none
    | some true => some true
    | some false => tryBlocks a T ks

/-- `filter_all` (75-83): does one of the attempts succeed?  Without any block size `Block_Macro_Machine` (or `range`) gets `None` and
raises. -/
def ctlSuccess (a : CTLArgs) (T : Table) : Option Bool :=
  if a.maxBlock ≠ 0 then tryBlocks a T (List.range' a.minBlock (a.maxBlock + 1 - a.minBlock))
  else
    match a.blockSize with
    | none => none
    | some k => tryBlock a T k

/-- `filter_all` (75-83) with the assignments of `filter` (43-60), made at the first success only -/
def ctl (a : CTLArgs) (r : Record) : Option BBStatus :=
  match ctlSuccess a r.table with
  | none => none
  | some true => some (forgetQuasi (setNotHalting r.status Pipeline.INF_CTL))
  | some false => some r.status

/-! ## `CPS_Filter.py` -/

/-- the arguments (59-73) after the checks in 75-79: 0 if not given -/
structure CPSArgs where
  minBlock : Nat
  maxBlock : Nat
  maxWindow : Nat
  lim : CPS.Lim

/-- `filter_all` (21-51).  It begins with `clear_proto()` (`TM_Record.py` 167-169): the status is empty. -/
def cps (a : CPSArgs) (ordC : List (CPS.Cfg Nat (Option Nat)) → List (CPS.Cfg Nat (Option Nat)))
    (ordB : List (List Nat) → List (List Nat)) (r : Record) : Option BBStatus :=
  match CPS.filterAll (simple r.table) a.lim ordC ordB (CPS.filterSizes a.minBlock a.maxBlock a.maxWindow) with
  | none => none
  | some true => some (setNotHalting BBStatus.empty INF_CLOSED_GRAPH)
  | some false => some BBStatus.empty

end Model.FilterTools

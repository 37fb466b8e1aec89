import Verif.Model.FileTools
import Verif.Model.Dict

/-!
# Model of `Code/TM_Analyze.py`

A file is the list of what a reader finds in it (`FileTools.Item`).  Not modelled: timings and sizes of messages (159-185, sums of
floating point numbers and of numbers from protobuf), the layout of the report and the approximations of
large numbers in it.  Means are exact quotients, the program prints them
rounded.
-/

namespace Model.Analyze
open Model.Status Model.FileTools

/-- The numbers of a record that are summed up (131-157).  `log10Steps` is also the one whose minimum is printed. -/
inductive Field
  | loops | log10Steps | rules | linearRules | expRules | genRules | collatzRules | proofsFailed | ruleMoves
  | lrStart | lrPeriod | lrOffset
  | btSteps | btWidth
  | cgBlock | cgSteps | cgConfigs | cgEdges | cgIters | cgLoop
  deriving DecidableEq, Repr

/-- The part of a record that is read: the status, the set member of `unknown_info.reason` (105; 0 to 4 in the order of `io.proto`,
`none` if there is none), the fields of `filter` that are set (numbers of the fields), the numbers of the results of the filters. -/
structure Rec where
  status : BBStatus
  reason : Option Nat
  filters : List Nat
  num : Field → Nat
  offset : Int
  btSuccess : Bool
  cgSuccess : Bool

/-- What is added to a statistic for a record (131-157); `none` if nothing is.  `found_inf_loop` is 0 or 1. -/
def Rec.value (r : Rec) : Field → Option Nat
  | .lrOffset => some r.offset.natAbs
  | .btSteps => if r.btSuccess then some (r.num .btSteps) else none
  | .btWidth => if r.btSuccess then some (r.num .btWidth) else none
  | .cgBlock => if r.cgSuccess then some (r.num .cgBlock) else none
  | .cgSteps => if r.cgSuccess then some (r.num .cgSteps) else none
  | .cgConfigs => if r.cgSuccess then some (r.num .cgConfigs) else none
  | .cgEdges => if r.cgSuccess then some (r.num .cgEdges) else none
  | .cgIters => if r.cgSuccess then some (r.num .cgIters) else none
  | .cgLoop => if r.cgSuccess then some (r.num .cgLoop) else none
  | f => some (r.num f)

/-- `Stat` (16-39); the minimum `none` is `math.inf` -/
structure Stat where
  count : Nat := 0
  total : Nat := 0
  min : Option Nat := none
  max : Nat := 0
  deriving DecidableEq, Repr

/-- `Stat.add` (27-33) -/
def Stat.add (s : Stat) (v : Nat) : Stat :=
  if v ≠ 0 then
    { count := s.count + 1, total := s.total + v, min := some (match s.min with | none => v | some m => Nat.min m v)
      max := Nat.max s.max v }
  else s

/-- `Stat.mean` (35-39) -/
def Stat.mean (s : Stat) : Rat := if s.count ≠ 0 then (s.total : Rat) / s.count else 0

/-- `BigIntStat` (41-49); numbers by their value -/
structure BigStat where
  count : Nat := 0
  max : Int := 0
  deriving DecidableEq, Repr

/-- `BigIntStat.add` (46-49) -/
def BigStat.add (s : BigStat) : Option Int → BigStat
  | none => s
  | some v => if v ≠ 0 then { count := s.count + 1, max := Max.max s.max v } else s

/-- `counter[k] += 1` -/
def bump {κ : Type} [DecidableEq κ] (c : List (κ × Nat)) (k : κ) : List (κ × Nat) := Py.dset c k ((Py.dget c k).getD 0 + 1)

/-- `TMStats` (55-97) -/
structure Stats where
  count : Nat := 0
  unknown : Nat := 0
  halt : Nat := 0
  inf : Nat := 0
  qhalt : Nat := 0
  haltSteps : BigStat := {}
  haltScore : BigStat := {}
  qhaltSteps : BigStat := {}
  unknownReason : List (Option Nat × Nat) := []
  infReason : List (Nat × Nat) := []
  filtersRun : List (Nat × Nat) := []
  stat : Field → Stat := fun _ => {}

section
variable {α E : Type} (rec : α → Rec) (loads : List Nat → Option E) (value : E → Int)

/-- `get_big_int` and the value; the outer option is an exception -/
def bigVal (b : BigInt) : Option (Option Int) :=
  match getBigInt loads b with
  | none => none
  | some none => some none
  | some (some v) => (valOf value v).map some

/-- the halting status (102-116) -/
def addHalt (s : Stats) (r : Rec) : Option Stats :=
  if ¬ r.status.halt.decided = true then
    some { s with unknown := s.unknown + 1, unknownReason := bump s.unknownReason r.reason }
  else if r.status.halt.halting = true then
    match bigVal loads value r.status.halt.steps, bigVal loads value r.status.halt.score with
    | some steps, some score => some { s with halt := s.halt + 1, haltSteps := s.haltSteps.add steps, haltScore := s.haltScore.add score }
    | _, _ => none
  else some { s with inf := s.inf + 1, infReason := bump s.infReason r.status.halt.infReason }

/-- the quasihalting status (118-122) -/
def addQuasi (s : Stats) (r : Rec) : Option Stats :=
  if r.status.quasi.quasihalting = true then
    match bigVal loads value r.status.quasi.steps with
    | some steps => some { s with qhalt := s.qhalt + 1, qhaltSteps := s.qhaltSteps.add steps }
    | none => none
  else some s

/-- `add_record` (99-157); `none` if it raises -/
def addRecord (s : Stats) (r : Rec) : Option Stats :=
  (addHalt loads value { s with count := s.count + 1 } r).bind fun s =>
    (addQuasi loads value s r).map fun s =>
      { s with
        filtersRun := r.filters.foldl bump s.filtersRun
        stat := fun f => match r.value f with | none => s.stat f | some v => (s.stat f).add v }

/-- what `print` (187-295) needs so as not to raise: the minimum of `log10_num_steps` is formatted as an integer (220), which
`math.inf` is not, and the reasons must have names (202), which are the numbers 0 to 8 -/
def printable (s : Stats) : Bool := (s.stat .log10Steps).min.isSome && s.infReason.all (fun e => decide (e.1 ≤ 8))

/-- the loop over the records of a file (322-325): `none` if it raises.  `freq` is `print_freq`. -/
def addList (freq : Nat) : List α → Stats → Option Stats
  | [], s => some s
  | a :: rest, s =>
    match addRecord loads value s (rec a) with
    | none => none
    | some s => if freq ≠ 0 ∧ s.count % freq = 0 ∧ printable s = false then none else addList freq rest s

/-- the loop over the files (319-327): `IO_Error` is reported and the next file is read -/
def addFiles (freq : Nat) : List (List (Item α)) → Stats → Option Stats
  | [], s => some s
  | f :: rest, s =>
    match addList rec loads value freq (readAll f).1 s with
    | none => none
    | some s => if (readAll f).2 = .raised then none else addFiles freq rest s

/-- how the program ends: with an exception, "No Records in file", or with the report of these numbers -/
inductive Outcome
  | raised
  | empty
  | report (s : Stats)

/-- `main` (312-332) -/
def analyze (freq : Nat) (files : List (List (Item α))) : Outcome :=
  match addFiles rec loads value freq files {} with
  | none => .raised
  | some s => if s.count > 0 then (if printable s then .report s else .raised) else .empty

end

end Model.Analyze

import Verif.Model.BlockFinder
import Verif.Model.CTL
import Verif.Model.Filters
import Verif.Model.LinRecur
import Verif.Model.Prover
import Verif.Model.Status

/-!
# Model of `Code/Macro_Simulator.py`

The result of the pipeline is the sequence of assignments it makes to the fields of the status message
(`tm_record.proto.status`), one by one in their order, because a timer may interrupt it between any two of them
(`run_timer`, Alarm.py).  Not modelled: the other parts of the record (statistics, parameters, details of the verdicts), which
nothing here reads back; the options for recursive and limited rules (off, as by default); time.
-/

namespace Model.Pipeline
open Spec (Dir Table)
open Model.Status Model.Prover Model.BlockFinder

/-! ## Assignments -/

/-- An assignment to a field of `BBStatus`.  `set_big_int` first clears the field. -/
inductive Write
  | decided (b : Bool)
  | halting (b : Bool)
  | clearSteps
  | steps (v : Int)
  | clearScore
  | score (v : Int)
  | fromState (q : Nat)
  | fromSymbol (a : Nat)
  | infReason (r : Nat)
  | qDecided (b : Bool)
  | qHalting (b : Bool)
  | clearQSteps
  | qSteps (v : Int)
  | qState (q : Nat)
  deriving DecidableEq, Repr

/-- there are no `ExpInt` objects here -/
def noDumps : Empty → List Nat := fun e => e.elim

/-- one assignment; `none` is an exception -/
def Write.apply (s : BBStatus) : Write → Option BBStatus
  | .decided b => some { s with halt := { s.halt with decided := b } }
  | .halting b => some { s with halt := { s.halt with halting := b } }
  | .clearSteps => some { s with halt := { s.halt with steps := .unset } }
  | .steps v => (setBigInt noDumps s.halt.steps (.int v)).map fun x => { s with halt := { s.halt with steps := x } }
  | .clearScore => some { s with halt := { s.halt with score := .unset } }
  | .score v => (setBigInt noDumps s.halt.score (.int v)).map fun x => { s with halt := { s.halt with score := x } }
  | .fromState q => some { s with halt := { s.halt with fromState := q } }
  | .fromSymbol a => some { s with halt := { s.halt with fromSymbol := a } }
  | .infReason r => some { s with halt := { s.halt with infReason := r } }
  | .qDecided b => some { s with quasi := { s.quasi with decided := b } }
  | .qHalting b => some { s with quasi := { s.quasi with quasihalting := b } }
  | .clearQSteps => some { s with quasi := { s.quasi with steps := .unset } }
  | .qSteps v => (setBigInt noDumps s.quasi.steps (.int v)).map fun x => { s with quasi := { s.quasi with steps := x } }
  | .qState q => some { s with quasi := { s.quasi with state := q } }

def applyWrites (s : BBStatus) : List Write → Option BBStatus
  | [] => some s
  | w :: ws => (w.apply s).bind fun s' => applyWrites s' ws

/-- `set_halting` (Halting_Lib.py:134-152) with all arguments given -/
def haltingW (steps score : Int) (q a : Nat) : List Write :=
  [.decided true, .halting true, .clearSteps, .steps steps, .clearScore, .score score, .fromState q, .fromSymbol a,
    .qDecided true, .qHalting false]

/-- `set_not_halting` (Halting_Lib.py:154-159) -/
def notHaltingW (reason : Nat) : List Write := [.decided true, .halting false, .infReason reason]

/-- the end of `set_inf_recur` (Halting_Lib.py:190-201), given the state seen last and one more than that time -/
def quasiW : Option (Nat × Int) → List Write
  | none => [.qDecided true, .qHalting false]
  | some (q, n) => [.qDecided true, .qHalting true, .clearQSteps, .qSteps n, .qState q]

/-- `set_inf_recur` (Halting_Lib.py:167-201) -/
def infRecurW (ignore : Option (List Nat)) (seen : Option (List (Nat × Nat))) : List Write :=
  match seen, ignore with
  | some seen, some ignore =>
    match recurLoop ignore (seen.map fun e => (e.1, (e.2 : Int))) none (-1) with
    | (none, _) => quasiW none
    | (some q, l) => quasiW (some (q, l + 1))
  | _, _ => [.qDecided false]

/-- `InfReason` (io.proto:82-92) -/
def INF_MACRO_STEP : Nat := 1
def INF_CHAIN_STEP : Nat := 2
def INF_PROOF_SYSTEM : Nat := 3
def INF_REVERSE_ENGINEER : Nat := 4
def INF_LIN_RECUR : Nat := 5
def INF_CTL : Nat := 6

/-! ## The pipeline -/

/-- The options read by the pipeline (28-54, and those of the simulator, the proof system and the block finder). -/
structure Options where
  reverseEngineer : Bool
  linSteps : Nat
  linMin : Bool
  runSim : Bool
  /-- 0 or not given: use the block finder -/
  blockSize : Nat
  /-- 0: no limit -/
  maxLoops : Nat
  tapeLimit : Nat
  maxBlockMult : Nat
  blockMult : Nat
  maxBlockSize : Nat
  backsymbol : Bool
  ctl : Bool
  prover : Bool
  computeSteps : Bool
  rules : Opts

/-- the default values of the options -/
def Options.default : Options where
  reverseEngineer := true
  linSteps := 127
  linMin := false
  runSim := true
  blockSize := 0
  maxLoops := 1000
  tapeLimit := 50
  maxBlockMult := 2
  blockMult := 0
  maxBlockSize := 0
  backsymbol := true
  ctl := true
  prover := true
  computeSteps := true
  rules := defaults

/-- Values that are not options: the limits of the macro machines (10 000 and 1 000 in the code), the floating point division
used by the block finder, the number of rounds the closed tape language test has time for, and the number of iterations after
which the model stops loops that need not end. -/
structure Env where
  maxBlock : Nat
  maxBack : Nat
  quot : Nat → Nat → Rat
  ctlRounds : Nat
  fuel : Nat

/-- how a call ends -/
inductive End
  | returned
  | raised
  /-- not finished yet -/
  | running
  deriving DecidableEq, Repr

/-- what a call does to the status, and how it ends -/
structure Trace where
  writes : List Write
  ending : End
  deriving DecidableEq, Repr

section
variable {σ S : Type} [DecidableEq σ] [DecidableEq S]

/-- the loop of `simulate_machine` (161-166); `none`: not finished yet -/
def simLoop (M : Machine σ S) (o : Options) : Nat → PSim σ S → Option (PSim σ S)
  | 0, _ => none
  | fuel + 1, p =>
    if (o.maxLoops = 0 ∨ p.sim.loops < o.maxLoops) ∧ p.sim.op = .running ∧ tapeLen p.sim.tape ≤ o.tapeLimit then
      simLoop M o fuel (p.step M o.rules)
    else some p

/-- `inf_reason` -/
def reasonCode : InfReason → Nat
  | .macroStep => INF_MACRO_STEP
  | .chainStep => INF_CHAIN_STEP
  | .proofSystem => INF_PROOF_SYSTEM

/-- 188-240: the report of the simulator at the end of the loop.  With `--no-steps` the step number stays 0 and
`states_last_seen` is `None` (Simulator.py:77-78, 98-109).  After a proof by the proof system `inf_recur_states` is `None` if no
states are listed (Simulator.py:144-150). -/
def report (M : Machine σ S) (o : Options) (p : PSim σ S) : Trace :=
  if tapeLen p.sim.tape > o.tapeLimit then ⟨[], .returned⟩
  else
    match p.sim.op with
    | .raised => ⟨[], .raised⟩
    | .running => ⟨[], .returned⟩
    | .gaveUp => ⟨[], .returned⟩
    | .infRepeat =>
      match p.sim.infReason with
      | none => ⟨[], .raised⟩
      | some r =>
        let seen := if o.computeSteps && p.seenOk then some p.sim.seen else none
        let ignore := if r = .proofSystem ∧ p.sim.recur = [] then none else some p.sim.recur
        ⟨notHaltingW (reasonCode r) ++ infRecurW ignore seen, .returned⟩
    | .halt | .undefined =>
      match p.sim.cell with
      | none => ⟨[], .raised⟩
      | some (a, q) =>
        ⟨haltingW (if o.computeSteps then (p.sim.steps : Int) else 0) ((p.sim.nonzeros natOps M : Nat) : Int) q a, .returned⟩

/-- `simulate_machine` (141-240).  Without a prover the statistics of the prover cannot be read: AttributeError at line 179. -/
def simulate (M : Machine σ S) (o : Options) (fuel : Nat) : Trace :=
  if o.prover then
    match simLoop M o fuel (PSim.init M) with
    | none => ⟨[], .running⟩
    | some p => if p.sim.op = .raised then ⟨[], .raised⟩ else report M o p
  else ⟨[], .raised⟩

end

/-- 100-139: the block finder, CTL and the simulator -/
def runSimulator (T : Table) (o : Options) (e : Env) : Trace :=
  let size : BlockFinder.Out :=
    if o.blockSize ≠ 0 then .size o.blockSize
    else
      let loops := if o.maxLoops ≠ 0 then o.maxLoops / 100 else 100
      blockFinder T e.maxBlock e.maxBack e.quot ⟨loops, loops, o.maxBlockMult, o.maxBlockSize, o.blockMult⟩ e.fuel
  match size with
  | .raised => ⟨[], .raised⟩
  | .unfinished => ⟨[], .running⟩
  | .size k =>
    if k = 0 then ⟨[], .raised⟩                   -- `assert block_size > 0`
    else
      let cutoff := if o.maxLoops ≠ 0 then o.maxLoops / 10 else 1000
      let ctl : Bool := o.ctl &&
        (if k = 1 then CTL.test2 (back (simple T) e.maxBack) cutoff e.ctlRounds
         else CTL.test2 (back (block (simple T) k 0 e.maxBlock) e.maxBack) cutoff e.ctlRounds)
      if ctl then ⟨notHaltingW INF_CTL ++ [.qDecided false], .returned⟩
      else if o.backsymbol then
        if k = 1 then simulate (back (simple T) e.maxBack) o e.fuel
        else simulate (back (block (simple T) k 0 e.maxBlock) e.maxBack) o e.fuel
      else
        if k = 1 then simulate (simple T) o e.fuel
        else simulate (block (simple T) k 0 e.maxBlock) o e.fuel

/-- the recurrence detector (90-98; Lin_Recur_Detect.py:63-65, 93-102): what it writes, and the end if it raises -/
def linRecur (T : Table) (o : Options) (fuel : Nat) : Trace :=
  match LinRecur.filter T o.linSteps o.linMin fuel with
  | none => ⟨[], .running⟩
  | some .raise => ⟨[], .raised⟩
  | some .unknown => ⟨[], .returned⟩
  | some (.halting n none) => ⟨[.decided true, .halting true, .clearSteps, .steps n, .qDecided true, .qHalting false], .returned⟩
  | some (.halting n (some (score, q, a))) => ⟨haltingW n score q a, .returned⟩
  | some (.recur _ _ _ _ none) => ⟨quasiW none ++ notHaltingW INF_LIN_RECUR, .returned⟩
  | some (.recur _ _ _ _ (some (none, _))) => ⟨[], .raised⟩         -- no such state
  | some (.recur _ _ _ _ (some (some q, n))) => ⟨quasiW (some (q, n)) ++ notHaltingW INF_LIN_RECUR, .returned⟩

/-- `run_options` (70-139) on the table `T` with `nS` states and `nK` symbols, when the status is `s` -/
def runOptions (T : Table) (nS nK : Nat) (o : Options) (e : Env) (s : BBStatus) : Trace :=
  let re : Option Bool := if o.reverseEngineer then RevEng.isInfinite T nS nK else some false
  match re with
  | none => ⟨[], .raised⟩
  | some true => ⟨notHaltingW INF_REVERSE_ENGINEER ++ [.qDecided false], .returned⟩
  | some false =>
    let lr : Trace := if o.linSteps ≠ 0 then linRecur T o e.fuel else ⟨[], .returned⟩
    match lr.ending with
    | .returned =>
      match applyWrites s lr.writes with
      | none => ⟨lr.writes, .raised⟩
      | some s' =>
        if o.linSteps ≠ 0 ∧ s'.halt.decided = true then lr
        else if o.runSim then
          let r := runSimulator T o e
          ⟨lr.writes ++ r.writes, r.ending⟩
        else lr
    | _ => lr

/-- `run_timer` (56-68): the alarm may come after any number of assignments; it is caught and the status is left as it is. -/
def runTimer (T : Table) (nS nK : Nat) (o : Options) (e : Env) (s : BBStatus) (alarm : Option Nat) : Trace :=
  let t := runOptions T nS nK o e s
  match alarm with
  | none => t
  | some n => ⟨t.writes.take n, .returned⟩

end Model.Pipeline

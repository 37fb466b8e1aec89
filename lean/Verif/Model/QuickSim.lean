import Verif.Model.Pipeline

/-!
# Model of `Code/Quick_Sim.py`

The program simulates one machine and prints a report.  Options for recursive and limited rules are off (as by default), and so
is `--manual`; the start state is A (as by default).  Printing is left out, except for the numbers and the verdict of the last
report; numbers are printed as they are (the code prints approximations of large ones).
-/

namespace Model.QuickSim
open Spec (Dir Table)
open Model.Status Model.Prover Model.BlockFinder Model.Pipeline

/-- The options (Quick_Sim.py 166-196 and the option groups of the modules used there). -/
structure Options where
  /-- `--quiet` or `--verbose` -/
  quiet : Bool
  /-- 0: no limit -/
  maxLoops : Nat
  printLoops : Nat
  freeze : Bool
  prover : Bool
  computeSteps : Bool
  /-- 0 or not given: use the block finder -/
  blockSize : Nat
  backsymbol : Bool
  bfLoops : Nat
  maxBlockMult : Nat
  blockMult : Nat
  maxStepsInBlock : Nat
  maxStepsInBack : Nat
  rules : Opts

/-- the default values of the options -/
def Options.default : Options where
  quiet := false
  maxLoops := 0
  printLoops := 100000
  freeze := false
  prover := true
  computeSteps := true
  blockSize := 0
  backsymbol := true
  bfLoops := 10000
  maxBlockMult := 2
  blockMult := 0
  maxStepsInBlock := 1000000
  maxStepsInBack := 1000
  rules := defaults

section
variable {σ S : Type} [DecidableEq σ] [DecidableEq S]

/-- `log_and_apply` with `frozen` (Proof_System.py 572-590): known rules are applied, nothing is logged. -/
def logAndApply (M : Machine σ S) (o : Opts) (frozen : Bool) (p : Prover σ S) (st : S) (tape : ChainTape σ Nat) (loop : Nat) :
    Prover σ S × Out (Res σ) :=
  if frozen then
    match Py.dget p.rules (strip natIsOne st tape) with
    | some r =>
      match applyRule o r tape p.nv with
      | (.raise, nv) => ({ p with nv := nv }, .raise)
      | (.fail, nv) => ({ p with nv := nv }, .fail)
      | (.ok res, nv) => ({ p with past := [], nv := nv }, .ok res)
    | none => (p, .fail)
  else Prover.logAndApply M o p st tape loop

/-- `Simulator.step` (Simulator.py 129-219) with a proof system that may be frozen, or without proof system -/
def step (M : Machine σ S) (o : Options) (frozen : Bool) (p : PSim σ S) : PSim σ S :=
  if p.sim.op ≠ .running then p
  else
    let s := { p.sim with loops := p.sim.loops + 1 }
    if o.prover then
      match logAndApply M o.rules frozen p.prover s.st s.tape p.sim.loops with
      | (pr, .raise) => { p with sim := s.raise, prover := pr }
      | (pr, .fail) => { p with sim := s.macroStep natOps M, prover := pr }
      | (pr, .ok (.inf states)) =>
        { p with sim := { s with op := .infRepeat, infReason := some .proofSystem, recur := states }, prover := pr }
      | (pr, .ok (.apply tape steps seen)) =>
        { sim := { s with tape := tape, seen := SimSt.addSeen natOps s.seen s.steps seen, steps := s.steps + steps }
          prover := pr
          seenOk := p.seenOk && !seen.isEmpty }
    else { p with sim := s.macroStep natOps M }

/-- how a loop ends: an exception, not yet, or with this simulator -/
inductive Ran (α : Type)
  | raised
  | unfinished
  | done (a : α)

/-- the loop of a quiet run (Quick_Sim.py 50-59); the second number is `total_loops` -/
def quietLoop (M : Machine σ S) (o : Options) : Nat → Nat → PSim σ S → Ran (PSim σ S)
  | fuel, total, p =>
    if p.sim.op = .running ∧ (o.maxLoops = 0 ∨ total < o.maxLoops) then
      match fuel with
      | 0 => .unfinished
      | fuel + 1 =>
        let p := step M o false p
        if p.sim.op = .raised then .raised else quietLoop M o fuel (total + 1) p
    else .done p

/-- `loop_seek` (Simulator.py 123-125) -/
def loopSeek (M : Machine σ S) (o : Options) (frozen : Bool) (cutoff : Nat) : Nat → PSim σ S → Ran (PSim σ S)
  | fuel, p =>
    if p.sim.loops < cutoff ∧ p.sim.op = .running then
      match fuel with
      | 0 => .unfinished
      | fuel + 1 =>
        let p := step M o frozen p
        if p.sim.op = .raised then .raised else loopSeek M o frozen cutoff fuel p
    else .done p

/-- the loop of a run with output (Quick_Sim.py 60-70).  `loop_run` does `print_loops` loops at most.  `sim.prover` may be `None`:
then it has no attribute `frozen`. -/
def printLoop (M : Machine σ S) (o : Options) (printLoops : Nat) : Nat → Bool → Nat → PSim σ S → Ran (PSim σ S)
  | fuel, frozen, total, p =>
    if p.sim.op = .running ∧ (o.maxLoops = 0 ∨ total < o.maxLoops) then
      match fuel with
      | 0 => .unfinished
      | fuel + 1 =>
        match loopSeek M o frozen (p.sim.loops + printLoops) printLoops p with
        | .raised => .raised
        | .unfinished => .unfinished
        | .done p =>
          if o.freeze then
            if o.prover then printLoop M o printLoops fuel true (total + printLoops) p else .raised
          else printLoop M o printLoops fuel frozen (total + printLoops) p
    else .done p

/-- the verdict that is printed (Quick_Sim.py 75-105) -/
inductive Verdict
  /-- the number of steps is printed unless `--no-steps` is given -/
  | halted (steps : Option Nat) (nonzeros : Nat)
  | undefined (state symbol : Nat) (steps : Option Nat) (nonzeros : Nat)
  | infinite (reason : InfReason) (quasi : BBStatus)
  | gaveUp
  | unexpected
deriving DecidableEq, Repr

/-- the last report: the totals of `print_self` (Simulator.py 227-236) and the verdict -/
structure Report where
  loops : Nat
  steps : Nat
  nonzeros : Nat
  verdict : Verdict
deriving DecidableEq, Repr

/-- the verdict (75-105).  `inf_recur_states` and `states_last_seen` as in `Pipeline.report`. -/
def verdict (M : Machine σ S) (o : Options) (p : PSim σ S) : Option Verdict :=
  let steps := if o.computeSteps then some p.sim.steps else none
  match p.sim.op with
  | .halt => some (.halted steps (p.sim.nonzeros natOps M))
  | .undefined =>
    match p.sim.cell with
    | none => none
    | some (a, q) => some (.undefined q a steps (p.sim.nonzeros natOps M))
  | .infRepeat =>
    match p.sim.infReason with
    | none => none
    | some r =>
      let seen := if o.computeSteps && p.seenOk then some p.sim.seen else none
      let ignore := if r = .proofSystem ∧ p.sim.recur = [] then none else some p.sim.recur
      (applyWrites .empty (infRecurW ignore seen)).map (.infinite r)
  | .gaveUp => some .gaveUp
  | .running => some .unexpected
  | .raised => none

/-- the report -/
def report (M : Machine σ S) (o : Options) (p : PSim σ S) : Ran Report :=
  match verdict M o p with
  | none => .raised
  | some v => .done ⟨p.sim.loops, if o.computeSteps then p.sim.steps else 0, p.sim.nonzeros natOps M, v⟩

/-- the program after the machine has been built (44-105, 208-209) -/
def simulate (M : Machine σ S) (o : Options) (fuel : Nat) : Ran Report :=
  let printLoops := if o.maxLoops ≠ 0 ∧ o.printLoops > o.maxLoops then o.maxLoops else o.printLoops
  match (if o.quiet then quietLoop M o fuel 0 (PSim.init M) else printLoop M o printLoops fuel false 0 (PSim.init M)) with
  | .raised => .raised
  | .unfinished => .unfinished
  | .done p => report M o p

end

/-- Values that are not options: the limits of the macro machines of the block finder (10 000 and 1 000 in the code), its
floating point division, and the number of iterations after which the model stops loops that need not end. -/
structure Env where
  bfBlock : Nat
  bfBack : Nat
  quot : Nat → Nat → Rat
  fuel : Nat

/-- the block size (23-33) -/
def size (T : Table) (o : Options) (e : Env) : BlockFinder.Out :=
  if o.blockSize ≠ 0 then .size o.blockSize
  else blockFinder T e.bfBlock e.bfBack e.quot ⟨o.bfLoops, o.bfLoops, o.maxBlockMult, 0, o.blockMult⟩ e.fuel

/-- `run` (20-105) -/
def quickSim (T : Table) (o : Options) (e : Env) : Ran Report :=
  match size T o e with
  | .raised => .raised
  | .unfinished => .unfinished
  | .size k =>
    if o.backsymbol then
      if k = 1 then simulate (back (simple T) o.maxStepsInBack) o e.fuel
      else simulate (back (block (simple T) k 0 o.maxStepsInBlock) o.maxStepsInBack) o e.fuel
    else
      if k = 1 then simulate (simple T) o e.fuel
      else simulate (block (simple T) k 0 o.maxStepsInBlock) o e.fuel

end Model.QuickSim

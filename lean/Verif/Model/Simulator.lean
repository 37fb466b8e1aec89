import Verif.Model.Machine
import Verif.Model.ChainTape

/-!
# Model of `Code/Macro/Simulator.py` without the proof system

With `compute_steps` (the default).  Not modelled: timing, verbose output and the move statistics.
-/

namespace Model
open Spec (Dir)

/-- why a simulation is infinite (`inf_reason`) -/
inductive InfReason
  | macroStep | chainStep | proofSystem
  deriving DecidableEq, Repr

/-- `Simulator` (57-109) -/
structure SimSt (σ S ν : Type) where
  tape : ChainTape σ ν
  st : S
  dir : Dir
  steps : ν
  loops : Nat
  seen : List (Nat × ν)
  op : Cond
  cell : Option (Nat × Nat)
  infReason : Option InfReason
  recur : List Nat
  deriving DecidableEq, Repr

namespace SimSt
variable {σ S ν : Type} [DecidableEq σ] [DecidableEq S]

/-- `__init__` (57-109) -/
def init (N : NumOps ν) (M : Machine σ S) : SimSt σ S ν :=
  { tape := ChainTape.init M.initSym M.initDir, st := M.initSt, dir := M.initDir, steps := N.ofNat 0
    loops := 0, seen := [], op := .running, cell := none, infReason := none, recur := [] }

/-- record the visits of one transition (199-203, 214-215) -/
def addSeen (N : NumOps ν) (seen : List (Nat × ν)) (base : ν) (new : List (Nat × Nat)) :
    List (Nat × ν) :=
  new.foldl (fun d e => Py.dset d e.1 (N.add base (N.ofNat e.2))) seen

/-- a Python exception -/
def raise (s : SimSt σ S ν) : SimSt σ S ν := { s with op := .raised }

/-- the macro machine step of `step` (176-217) -/
def macroStep (N : NumOps ν) (M : Machine σ S) (s : SimSt σ S ν) : SimSt σ S ν :=
  match s.tape.topSymbol with
  | none => s.raise
  | some cur =>
    let t := M.trans cur s.st s.dir
    let s := { s with op := t.cond, cell := t.cell }
    if t.cond = .raised then s
    else if t.cond = .infRepeat then
      { s with infReason := some .macroStep, recur := t.seen.map (·.1) }
    else if t.st = s.st ∧ t.dir = s.dir ∧ t.cond = .running then
      match s.tape.chainMove N t.sym with
      | none => s.raise
      | some (tape, none) =>
        { s with tape := tape, op := .infRepeat, infReason := some .chainStep, recur := t.seen.map (·.1) }
      | some (tape, some reps) =>
        { s with
          tape := tape
          seen := addSeen N s.seen
            (N.add s.steps (N.mul (N.ofNat t.steps) (N.sub reps (N.ofNat 1)))) t.seen
          steps := N.add s.steps (N.mul (N.ofNat t.steps) reps) }
    else if t.cond ≠ .gaveUp then
      match s.tape.singleMove N t.sym t.dir with
      | none => s.raise
      | some tape =>
        { s with
          tape := tape
          st := t.st
          dir := t.dir
          seen := addSeen N s.seen s.steps t.seen
          steps := N.add s.steps (N.ofNat t.steps) }
    else s

/-- `step` (129-219) with `prover = None` -/
def step (N : NumOps ν) (M : Machine σ S) (s : SimSt σ S ν) : SimSt σ S ν :=
  if s.op ≠ .running then s
  else macroStep N M { s with loops := s.loops + 1 }

/-- `loop_seek` (123-125); every iteration increments `num_loops`, so `cutoff` iterations suffice -/
def loopSeekGo (N : NumOps ν) (M : Machine σ S) (cutoff : Nat) : Nat → SimSt σ S ν → SimSt σ S ν
  | 0, s => s
  | k + 1, s => if s.loops < cutoff ∧ s.op = .running then loopSeekGo N M cutoff k (step N M s) else s

def loopSeek (N : NumOps ν) (M : Machine σ S) (cutoff : Nat) (s : SimSt σ S ν) : SimSt σ S ν :=
  loopSeekGo N M cutoff cutoff s

/-- `get_nonzeros` (221-224) -/
def nonzeros (N : NumOps ν) (M : Machine σ S) (s : SimSt σ S ν) : ν :=
  s.tape.nonzeros N M.evalSym (M.evalSt s.st)

end SimSt

/-- `seek` (114-117) with plain numbers: every step adds at least one to `step_num`, so `cutoff`
iterations suffice -/
def SimSt.seekGo {σ S : Type} [DecidableEq σ] [DecidableEq S] (M : Machine σ S) (cutoff : Nat) :
    Nat → SimSt σ S Nat → SimSt σ S Nat
  | 0, s => s
  | k + 1, s =>
    if s.steps < cutoff ∧ s.op = .running then seekGo M cutoff k (SimSt.step natOps M s) else s

def SimSt.seek {σ S : Type} [DecidableEq σ] [DecidableEq S] (M : Machine σ S) (cutoff : Nat)
    (s : SimSt σ S Nat) : SimSt σ S Nat := seekGo M cutoff cutoff s

end Model

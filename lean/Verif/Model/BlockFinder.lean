import Verif.Model.Simulator

/-!
# Model of `Code/Macro/Block_Finder.py`

Not modelled: verbose output, the timer, the statistics in the result message (only `best_block_size` is read afterwards).
The parameters and results are fields of type `uint64`: natural numbers here, so that numbers from `2 ^ 64` on are not
treated.
-/

namespace Model.BlockFinder
open Spec (Dir Table)

variable {σ S : Type} [DecidableEq σ] [DecidableEq S]

/-- `BlockFinderParams` -/
structure Params where
  compressionLoops : Nat
  multLoops : Nat
  maxBlockMult : Nat
  /-- 0: no limit (49-52) -/
  maxBlockSize : Nat
  blockMult : Nat

/-- `x <= max_block_size` (49-52) -/
def Params.allows (p : Params) (x : Nat) : Bool := p.maxBlockSize = 0 || x ≤ p.maxBlockSize

/-- `len(sim.tape.tape[0]) + len(sim.tape.tape[1])` (68, 72; the same as `compressed_size`, Tape.py:64-66) -/
def tapeLen {ν : Type} (t : ChainTape σ ν) : Nat := t.left.length + t.right.length

/-- How the first loop ends. -/
inductive Search where
  | raised
  /-- the machine stopped: return block size 1 -/
  | stopped
  | worst (maxLength worstLoop : Nat)
deriving DecidableEq, Repr

/-- the loop 70-79, `i` rounds left -/
def worstLoop (M : Machine σ S) : Nat → SimSt σ S Nat → Nat → Nat → Search
  | 0, _, maxLength, worst => .worst maxLength worst
  | i + 1, s, maxLength, worst =>
    let s := s.step natOps M
    if s.op = .raised then .raised
    else
      let len := tapeLen s.tape
      let (maxLength, worst) := if len > maxLength then (len, s.loops) else (maxLength, worst)
      if s.op ≠ .running then .stopped else worstLoop M i s maxLength worst

/-- `[seq.symbol]*seq.num` for each run; an infinite number raises -/
def expand : List (Blk σ Nat) → Option (List σ)
  | [] => some []
  | b :: bs =>
    match b.num, expand bs with
    | some n, some r => some (List.replicate n b.sym ++ r)
    | _, _ => none

/-- `uncompress_tape` (168-176).  The Python lists have the nearest run last; `[1:]` drops the farthest one. -/
def uncompress (t : ChainTape σ Nat) : Option (List σ) := expand (t.left.dropLast.reverse ++ t.right.dropLast)

/-- `range(0, n, k)` for `k > 0` -/
def multiples (n k : Nat) : List Nat := (List.range n).filter fun i => i % k = 0

/-- `compression_efficiency` (178-184) for `k > 0` -/
def efficiency (tape : List σ) (k : Nat) : Int :=
  (multiples (tape.length - 2 * k) k).foldl (fun size i =>
    if (tape.drop i).take k = (tape.drop (i + k)).take k then size - k else size) tape.length

/-- the loop 99-106: the remaining block sizes, `min_compr`, `opt_size` -/
def optLoop (p : Params) (tape : List σ) : List Nat → Int → Nat → Int × Nat
  | [], minCompr, opt => (minCompr, opt)
  | b :: bs, minCompr, opt =>
    if efficiency tape b < minCompr then
      if p.allows b then optLoop p tape bs (efficiency tape b) b else (minCompr, opt)
    else optLoop p tape bs minCompr opt

/-- 97-106: `min_compr` and `opt_size` -/
def optSize (p : Params) (tape : List σ) : Int × Nat :=
  optLoop p tape ((List.range (tape.length / 2)).drop 1) (tape.length + 1) 1

/-- A simulator with `steps_from_chain` and `steps_from_macro`. -/
structure Stat (σ S : Type) where
  sim : SimSt σ S Nat
  chain : Nat
  macr : Nat

/-- `Simulator.step` with the two statistics (Simulator.py:186-217): they grow as `step_num` does, `steps_from_chain` in a
chain move. -/
def Stat.step (M : Machine σ S) (x : Stat σ S) : Stat σ S :=
  let s := x.sim.step natOps M
  let diff := s.steps - x.sim.steps
  match x.sim.tape.topSymbol with
  | none => { x with sim := s }
  | some a =>
    let t := M.trans a x.sim.st x.sim.dir
    if t.st = x.sim.st ∧ t.dir = x.sim.dir ∧ t.cond = .running then { x with sim := s, chain := x.chain + diff }
    else { x with sim := s, macr := x.macr + diff }

/-- `loop_seek` (Simulator.py:123-125) -/
def Stat.loopSeekGo (M : Machine σ S) (cutoff : Nat) : Nat → Stat σ S → Stat σ S
  | 0, x => x
  | k + 1, x => if x.sim.loops < cutoff ∧ x.sim.op = .running then loopSeekGo M cutoff k (x.step M) else x

def Stat.run (M : Machine σ S) (cutoff : Nat) : Stat σ S :=
  Stat.loopSeekGo M cutoff cutoff ⟨SimSt.init natOps M, 0, 0⟩

/-- the result of the search -/
inductive Out where
  | raised
  /-- the loop over the multiples has not ended yet -/
  | unfinished
  /-- `best_block_size` -/
  | size (k : Nat)
deriving DecidableEq, Repr

/-- The loop 137-156 and 160 (with `fuel`).  `quot a b` is the floating point number `a / b`, it may be any function here. -/
def multLoop (T : Table) (maxBlock maxBack : Nat) (quot : Nat → Nat → Rat) (p : Params) (opt : Nat) :
    Nat → Nat → Nat → Rat → Out
  | 0, _, _, _ => .unfinished
  | fuel + 1, mult, optMult, best =>
    if mult ≤ optMult + p.maxBlockMult ∧ p.allows (mult * opt) = true then
      if mult * opt = 0 then .raised            -- `assert block_size > 0`
      else
        let x := Stat.run (back (block (simple T) (mult * opt) 0 maxBlock) maxBack) p.multLoops
        if x.sim.op = .raised then .raised
        else if x.sim.op ≠ .running then .size (mult * opt)
        else if x.macr = 0 then .raised        -- ZeroDivisionError
        else
          let factor := quot x.chain x.macr
          if factor > 2 * best then multLoop T maxBlock maxBack quot p opt fuel (mult + 1) mult factor
          else multLoop T maxBlock maxBack quot p opt fuel (mult + 1) optMult best
    else .size (optMult * opt)

/-- 118-160, after `opt_size` has been found -/
def chooseMult (T : Table) (maxBlock maxBack : Nat) (quot : Nat → Nat → Rat) (p : Params) (fuel : Nat)
    (opt : Nat) : Out :=
  if p.blockMult ≠ 0 then .size (p.blockMult * opt)
  else if p.multLoops = 0 then .size opt
  else multLoop T maxBlock maxBack quot p opt fuel 1 1 0

/-- `block_finder` (44-166); `maxBlock` and `maxBack` are the limits `max_sim_steps_per_symbol` of the macro machines
(10 000 and 1 000). -/
def blockFinder (T : Table) (maxBlock maxBack : Nat) (quot : Nat → Nat → Rat) (p : Params) (fuel : Nat) : Out :=
  if p.compressionLoops ≠ 0 then
    let s0 := SimSt.init natOps (simple T)
    match worstLoop (simple T) p.compressionLoops s0 (tapeLen s0.tape) 0 with
    | .raised => .raised
    | .stopped => .size 1
    | .worst maxLength worst =>
      let s := s0.loopSeek natOps (simple T) worst
      if s.op = .raised then .raised
      else if tapeLen s.tape ≠ maxLength then .raised     -- the assertion in line 87
      else
        match uncompress s.tape with
        | none => .raised
        | some tape =>
          let (minCompr, opt) := optSize p tape
          if minCompr < 0 then .raised                    -- 109: the field is unsigned
          else chooseMult T maxBlock maxBack quot p fuel opt
  else chooseMult T maxBlock maxBack quot p fuel 1

end Model.BlockFinder

import Verif.Model.RecLinear
import Verif.Spec.RecursiveStrict

/-!
# Specification: `--recursive --exp-linear-rules`

The simulator with two parameters: `adj` as in `Spec/RecursiveStrict.lean`, and `fix`, what is done with each half of the tape
after a linear rule has been applied.  The code does nothing there (`linearWith_code`).
-/

namespace Spec
open Model Model.Expr Model.Prover Model.Recursive Model.Linear
variable {σ S : Type} [DecidableEq σ] [DecidableEq S]

/-- what is done with the blocks of a half tape -/
abbrev Fix := ∀ {σ : Type}, List (Blk σ V) → List (Blk σ V)

/-- the blocks are left as they are (`apply_linear_rule` 1288-1294) -/
def leave : Fix := fun bs => bs

/-- blocks of exponent 0 are removed, as for general rules (`apply_general_rule` 1402) -/
def tidy : Fix := fun bs => bs.filter nonZero

def linearGen (fix : Fix) (metaRules : Bool) (o : Opts) (r : Recursive.GenRule) (tape : ChainTape σ V) : Out (Recursive.Res σ) :=
  match tryGen r.vars r.result r.states with
  | .raise => .raise
  | .fail => Recursive.applyGen o r tape
  | .ok lr =>
    match RecLinear.ints tape with
    | none => .raise
    | some t =>
      match applyLinear metaRules lr t with
      | .raise => .raise
      | .fail => .fail
      | .ok (.inf states _) => .ok (.inf states)
      | .ok (.apply t noMeta) =>
        .ok (.apply ⟨t.dir, fix (RecLinear.values t).left, fix (RecLinear.values t).right⟩ (.num 0) r.states noMeta)

def linearRule [Sums] (fix : Fix) (metaRules : Bool) (o : Opts) (r : Recursive.Rule σ) (tape : ChainTape σ V) (nv : Nat) :
    Out (Recursive.Res σ) × Nat :=
  match r with
  | .diff r => (Recursive.applyDiff r tape nv, nv + 1)
  | .gen r => (linearGen fix metaRules o r tape, nv)

def linearProve [Sums] (adj : Nat → Mins → Mins) (M : Machine σ S) (o : Opts) (rs : Rules σ S) (key : Strip σ S) (st : S)
    (tape : ChainTape σ V) (delta : Int) (nv : Nat) : Out (Recursive.Rule σ) × Nat :=
  if RecLinear.linearInProof M o rs st tape delta nv then (.raise, nv) else proveWith adj M o rs key st tape delta nv

def linearLog [Sums] (adj : Nat → Mins → Mins) (fix : Fix) (metaRules : Bool) (M : Machine σ S) (o : Opts) (b : Base σ S) (loop : Nat) :
    Base σ S × Out (Recursive.Res σ) :=
  let tape := b.g.sim.tape
  let st := b.g.sim.st
  let setNv (b : Base σ S) (nv : Nat) : Base σ S := { b with g := { b.g with nv := nv } }
  let key := strip valIsOne st tape
  match Py.dget b.rules key with
  | some r =>
    match linearRule fix metaRules o r tape b.g.nv with
    | (.raise, nv) => (setNv b nv, .raise)
    | (.fail, nv) => (setNv b nv, .fail)
    | (.ok res, nv) => (setNv (if res.large then { b with past := [] } else b) nv, .ok res)
  | none =>
    let past := (Py.dget b.past key).getD ⟨none, none⟩
    let (past', try') := past.log loop
    let b := { b with past := Py.dset b.past key past' }
    if try' then
      match linearProve adj M o b.rules key st tape ((loop : Int) - past'.lastLoop.getD 0) b.g.nv with
      | (.raise, nv) => (setNv b nv, .raise)
      | (.fail, nv) => (setNv b nv, .fail)
      | (.ok r, nv) =>
        let b := { b with rules := Py.dset b.rules key r, past := [(key, { past' with lastLoop := none })] }
        let (res, nv) := linearRule fix metaRules o r tape nv
        (setNv b nv, res)
    else if b.past.length > o.maxConfigs then ({ b with past := [] }, .fail)
    else (b, .fail)

def linearWith [Sums] (adj : Nat → Mins → Mins) (fix : Fix) (metaRules : Bool) (M : Machine σ S) (o : Opts) (b : Base σ S) : Base σ S :=
  if b.g.sim.op ≠ .running then b
  else
    let loop := b.g.sim.loops
    let b := { b with g := { b.g with sim := { b.g.sim with loops := loop + 1 } } }
    match linearLog adj fix metaRules M o b loop with
    | (b, .raise) => { b with g := { b.g with sim := b.g.sim.raise } }
    | (b, .fail) => { b with g := { b.g with sim := b.g.sim.macroStep valOps M } }
    | (b, .ok res) => { b with g := b.g.result res }

/-- With `lower` and `leave` this is the simulator of the code. -/
theorem linearWith_code : (linearWith lower leave : Bool → Machine σ S → Opts → Base σ S → Base σ S) = RecLinear.step := rfl

def linearAfter [Sums] (adj : Nat → Mins → Mins) (fix : Fix) (metaRules : Bool) (M : Machine σ S) (o : Opts) (n : Nat) : Base σ S :=
  (linearWith adj fix metaRules M o)^[n] (Base.init M)

/-- the simulator with `--recursive --exp-linear-rules` after `n` loops; `metaRules` is `--exp-meta-linear-rules` -/
def linafter (metaRules : Bool) (M : Machine σ S) (o : Opts) (n : Nat) : Base σ S := (RecLinear.step metaRules M o)^[n] (Base.init M)

/-- the same, with the minima of general rules proved with rules kept, and blocks of exponent 0 removed -/
def linkept (metaRules : Bool) (M : Machine σ S) (o : Opts) (n : Nat) : Base σ S := linearAfter keep tidy metaRules M o n

/-- What a simulator state must tell about the base machine `T` started on the blank tape; step counts and the states recorded
while the simulator is running are given up with `--exp-linear-rules`. -/
structure RightLin (T : Table) (M : Machine σ S) (mean : DC σ S → DC Nat (Option Nat)) (n : Nat) (s : SimSt σ S V) : Prop where
  /-- not halted after `n` loops: the machine passes through the configuration shown (after at least `n` steps, if the simulator is
  still running), with the score shown -/
  running : s.op = .running ∨ s.op = .gaveUp → ∃ k u, s.tape = numbers u ∧
    Represents (mean (tapeDC M.initSym u s.st)) (run T k init) ∧ s.nonzeros valOps M = .num (score (run T k init)) ∧
    (s.op = .running → n ≤ k)
  /-- halted: the machine halts, with the tape and the score shown; `UNDEFINED` is reported exactly if the executed table cell is
  undefined, and the reported cell is the executed one -/
  halted : s.op = .halt ∨ s.op = .undefined → ∃ k u, s.tape = numbers u ∧ HaltsAt T init k ∧
    RepresentsTape (mean (tapeDC M.initSym u s.st)) (run T k init).tape ∧ s.nonzeros valOps M = .num (score (run T k init)) ∧
    ∃ a q, s.cell = some (a, q) ∧ (run T (k - 1) init).state = some q ∧ (run T (k - 1) init).scanned = a ∧
      (s.op = .undefined ↔ T q a = .undef)
  /-- infinite, by a rule or a chain step: the machine never halts and visits exactly the reported states again and again -/
  infinite : s.op = .infRepeat → s.infReason ≠ some .macroStep →
    NeverHalts T init ∧ ∀ q, VisitedForever T init q ↔ q ∈ s.recur

end Spec

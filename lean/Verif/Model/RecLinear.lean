import Verif.Model.LinearRule

/-!
# Model of the proof system with `--recursive --exp-linear-rules` (`Code/Macro/Proof_System.py`, `Code/Macro/Simulator.py`)

As `Model/Recursive.lean`, but a linear rule is applied with all its repetitions at once (`Model/LinearRule.lean`).

* The code makes the `Linear_Rule` once, when the rule is proved; here it is made from the stored general rule whenever it is
  needed, which is the same (`Props.C82_rule_kept`).
* A proof in which a linear rule applies is not modelled: the model raises an exception (`linearInProof`).  Such proofs are rare
  without `exp_meta_linear_rules`, because applying a linear rule clears the memory of past configurations.
* The code stops counting steps and recording `states_last_seen` when a linear rule is applied (Simulator.py:161-162).  Here
  `ruleSteps` and `sim.seen` go on, the steps of linear rules counting 0; the step count means nothing afterwards.
* Huge numbers (`ExpInt`) are modelled by their value; exceptions of their arithmetic are left out, except the one of
  `Mult_Func.apply_rep`.
-/

namespace Model.RecLinear
open Model.Expr Model.Linear
open Model.Prover hiding GenRule Rule Res fitsMin applyDiff applyGen proveRule
open Model.Recursive hiding applyGen applyRule proveRule logAndApply

variable {σ S : Type}

/-- the blocks of a half tape, if no exponent is an expression -/
def intHalf : List (Blk σ V) → Option (List (Blk σ Int))
  | [] => some []
  | b :: bs =>
    match b.num, intHalf bs with
    | none, some r => some (⟨b.sym, none⟩ :: r)
    | some (.num k), some r => some (⟨b.sym, some k⟩ :: r)
    | _, _ => none

/-- the tape, if no exponent is an expression -/
def ints (t : ChainTape σ V) : Option (ChainTape σ Int) :=
  match intHalf t.left, intHalf t.right with
  | some l, some r => some ⟨t.dir, l, r⟩
  | _, _ => none

/-- a tape of numbers as a tape of values -/
def values (t : ChainTape σ Int) : ChainTape σ V :=
  ⟨t.dir, t.left.map (fun b => ⟨b.sym, b.num.map Val.num⟩), t.right.map (fun b => ⟨b.sym, b.num.map Val.num⟩)⟩

/-- `apply_rule` (1018-1068) for a general or linear rule; `metaRules` is `exp_meta_linear_rules`. -/
def applyGen (metaRules : Bool) (o : Opts) (r : GenRule) (tape : ChainTape σ V) : Out (Res σ) :=
  match tryGen r.vars r.result r.states with
  | .raise => .raise
  | .fail => Recursive.applyGen o r tape
  | .ok lr =>
    match ints tape with
    | none => .raise
    | some t =>
      match applyLinear metaRules lr t with
      | .raise => .raise
      | .fail => .fail
      | .ok (.inf states _) => .ok (.inf states)
      | .ok (.apply t noMeta) => .ok (.apply (values t) (.num 0) r.states noMeta)

/-- `apply_rule` (1018-1068), with the next free variable -/
def applyRule [Sums] (metaRules : Bool) (o : Opts) (r : Rule σ) (tape : ChainTape σ V) (nv : Nat) : Out (Res σ) × Nat :=
  match r with
  | .diff r => (applyDiff r tape nv, nv + 1)
  | .gen r => (applyGen metaRules o r tape, nv)

/-! ## Linear rules inside proofs -/

/-- there is a linear rule for this configuration, and its minima are met (1258) -/
def linearHere [DecidableEq σ] [DecidableEq S] (rs : Rules σ S) (g : Sim σ S) : Bool :=
  match Py.dget rs (strip valIsOne g.sim.st g.sim.tape) with
  | some (.gen r) =>
    match tryGen r.vars r.result r.states with
    | .fail => false
    | _ =>
      match fitsMin r.vars ((g.sim.tape.left ++ g.sim.tape.right).map (·.num)) [] with
      | .fail => false
      | _ => true
  | _ => false

/-- The loop 778-833 comes to a configuration where a linear rule applies. -/
def linearMet [Sums] [DecidableEq σ] [DecidableEq S] (M : Machine σ S) (o : Opts) (rs : Rules σ S) :
    Nat → Sim σ S → List (Nat × Option Int) → Bool
  | 0, _, _ => false
  | k + 1, g, mins =>
    match g.sim.tape.half g.sim.tape.dir with
    | [] => false
    | b :: _ =>
      if belowMin b.num then false
      else if linearHere rs g then true
      else
        let g := g.step M o rs
        if g.sim.op ≠ .running then false
        else match updMins (g.sim.tape.left ++ g.sim.tape.right) mins with
          | .ok mins => linearMet M o rs k g mins
          | _ => false

/-- A linear rule applies in the proof (712-833). -/
def linearInProof [Sums] [DecidableEq σ] [DecidableEq S] (M : Machine σ S) (o : Opts) (rs : Rules σ S) (st : S)
    (tape : ChainTape σ V) (delta : Int) (nv : Nat) : Bool :=
  match Recursive.genHalf tape.left nv with
  | none => false
  | some (l, ml, nv) =>
    match Recursive.genHalf tape.right nv with
    | none => false
    | some (r, mr, nv) =>
      let g : Sim σ S :=
        { sim :=
            { tape := ⟨tape.dir, l, r⟩, st := st, dir := tape.dir, steps := .expr ⟨[], 0⟩, loops := 0, seen := [], op := .running
              cell := none, infReason := none, recur := [] }
          ruleSteps := .num 0, ruleMoves := 0, nv := nv }
      linearMet M o rs delta.toNat g (ml ++ mr)

/-- `prove_rule` (712-1016) -/
def proveRule [Sums] [DecidableEq σ] [DecidableEq S] (M : Machine σ S) (o : Opts) (rs : Rules σ S) (key : Strip σ S) (st : S)
    (tape : ChainTape σ V) (delta : Int) (nv : Nat) : Out (Rule σ) × Nat :=
  if linearInProof M o rs st tape delta nv then (.raise, nv) else Recursive.proveRule M o rs key st tape delta nv

/-! ## The proof system and the simulation -/

/-- `log_and_apply` (572-616) with `try_apply_a_rule` (618-638), and the new state of the proof system; `.fail` is
`NOTHING_TO_DO`. -/
def logAndApply [Sums] [DecidableEq σ] [DecidableEq S] (metaRules : Bool) (M : Machine σ S) (o : Opts) (b : Base σ S) (loop : Nat) :
    Base σ S × Out (Res σ) :=
  let tape := b.g.sim.tape
  let st := b.g.sim.st
  let setNv (b : Base σ S) (nv : Nat) : Base σ S := { b with g := { b.g with nv := nv } }
  let key := strip valIsOne st tape
  match Py.dget b.rules key with
  | some r =>
    match applyRule metaRules o r tape b.g.nv with
    | (.raise, nv) => (setNv b nv, .raise)
    | (.fail, nv) => (setNv b nv, .fail)
    | (.ok res, nv) => (setNv (if res.large then { b with past := [] } else b) nv, .ok res)
  | none =>
    let past := (Py.dget b.past key).getD ⟨none, none⟩
    let (past', try') := past.log loop
    let b := { b with past := Py.dset b.past key past' }
    if try' then
      match proveRule M o b.rules key st tape ((loop : Int) - past'.lastLoop.getD 0) b.g.nv with
      | (.raise, nv) => (setNv b nv, .raise)
      | (.fail, nv) => (setNv b nv, .fail)
      | (.ok r, nv) =>
        -- `add_rule` (673-710)
        let b := { b with rules := Py.dset b.rules key r, past := [(key, { past' with lastLoop := none })] }
        let (res, nv) := applyRule metaRules o r tape nv
        (setNv b nv, res)
    else if b.past.length > o.maxConfigs then ({ b with past := [] }, .fail)
    else (b, .fail)

/-- `step` (129-219) -/
def step [Sums] [DecidableEq σ] [DecidableEq S] (metaRules : Bool) (M : Machine σ S) (o : Opts) (b : Base σ S) : Base σ S :=
  if b.g.sim.op ≠ .running then b
  else
    let loop := b.g.sim.loops
    let b := { b with g := { b.g with sim := { b.g.sim with loops := loop + 1 } } }
    match logAndApply metaRules M o b loop with
    | (b, .raise) => { b with g := { b.g with sim := b.g.sim.raise } }
    | (b, .fail) => { b with g := { b.g with sim := b.g.sim.macroStep valOps M } }
    | (b, .ok res) => { b with g := b.g.result res }

end Model.RecLinear

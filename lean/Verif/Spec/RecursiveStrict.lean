import Verif.Spec.Recursive

/-!
# Specification: `--recursive` with the minima of general rules kept

The simulator with recursive proofs, with a parameter `adj` at the one place where `prove_rule` (Proof_System.py:874) lowers the
minimum of a variable of a general rule: `adj k mins` are the smallest values used there after a proof with `k` uses of rules.
The code uses `mins` itself (`stepWith_code`); `keep` lowers nothing if a rule was used, so that the rule is only applied to
exponents that are at least those of its proof.
-/

namespace Spec
open Model Model.Expr Model.Prover Model.Recursive
variable {σ S : Type} [DecidableEq σ] [DecidableEq S]

abbrev Mins := List (Nat × Option Int)

/-- the minima as the code takes them -/
def lower : Nat → Mins → Mins := fun _ mins => mins

/-- the minima if rules were used: the exponents of the proof -/
def keep : Nat → Mins → Mins := fun k mins => if k > 0 then mins.map (fun e => (e.1, some 1)) else mins

/-- `prove_rule` (712-1016) -/
def proveWith [Sums] (adj : Nat → Mins → Mins) (M : Machine σ S) (o : Opts) (rs : Rules σ S) (key : Strip σ S) (st : S)
    (tape : ChainTape σ V) (delta : Int) (nv : Nat) : Out (Recursive.Rule σ) × Nat :=
  match Recursive.genHalf tape.left nv with
  | none => (.raise, nv)
  | some (l, ml, nv) =>
    match Recursive.genHalf tape.right nv with
    | none => (.raise, nv)
    | some (r, mr, nv) =>
      let init : ChainTape σ V := ⟨tape.dir, l, r⟩
      let g : Sim σ S :=
        { sim :=
            { tape := init, st := st, dir := tape.dir, steps := .expr ⟨[], 0⟩, loops := 0, seen := [], op := .running
              cell := none, infReason := none, recur := [] }
          ruleSteps := .num 0, ruleMoves := 0, nv := nv }
      match Recursive.genLoop M o rs delta.toNat g (ml ++ mr) with
      | .raise => (.raise, nv)
      | .fail => (.fail, nv)
      | .ok (g, mins) =>
        if strip valIsOne g.sim.st g.sim.tape ≠ key then (.fail, g.nv)
        else match diffHalf g.sim.tape.left init.left, diffHalf g.sim.tape.right init.right with
          | some (dl, cl), some (dr, cr) =>
            if cl && cr then
              match Recursive.mkDiff init { g.sim.tape with left := dl, right := dr } mins g with
              | some r => (.ok (.diff r), g.nv)
              | none => (.raise, g.nv)
            else
              match Recursive.mkGen init (adj g.ruleMoves mins) g with
              | some r => (.ok (.gen r), g.nv)
              | none => (.raise, g.nv)
          | _, _ => (.raise, g.nv)

/-- `log_and_apply` (572-616) -/
def logWith [Sums] (adj : Nat → Mins → Mins) (M : Machine σ S) (o : Opts) (b : Base σ S) (loop : Nat) : Base σ S × Out (Recursive.Res σ) :=
  let tape := b.g.sim.tape
  let st := b.g.sim.st
  let setNv (b : Base σ S) (nv : Nat) : Base σ S := { b with g := { b.g with nv := nv } }
  let key := strip valIsOne st tape
  match Py.dget b.rules key with
  | some r =>
    match Recursive.applyRule o r tape b.g.nv with
    | (.raise, nv) => (setNv b nv, .raise)
    | (.fail, nv) => (setNv b nv, .fail)
    | (.ok res, nv) => (setNv (if res.large then { b with past := [] } else b) nv, .ok res)
  | none =>
    let past := (Py.dget b.past key).getD ⟨none, none⟩
    let (past', try') := past.log loop
    let b := { b with past := Py.dset b.past key past' }
    if try' then
      match proveWith adj M o b.rules key st tape ((loop : Int) - past'.lastLoop.getD 0) b.g.nv with
      | (.raise, nv) => (setNv b nv, .raise)
      | (.fail, nv) => (setNv b nv, .fail)
      | (.ok r, nv) =>
        let b := { b with rules := Py.dset b.rules key r, past := [(key, { past' with lastLoop := none })] }
        let (res, nv) := Recursive.applyRule o r tape nv
        (setNv b nv, res)
    else if b.past.length > o.maxConfigs then ({ b with past := [] }, .fail)
    else (b, .fail)

/-- `step` (129-219) -/
def stepWith [Sums] (adj : Nat → Mins → Mins) (M : Machine σ S) (o : Opts) (b : Base σ S) : Base σ S :=
  if b.g.sim.op ≠ .running then b
  else
    let loop := b.g.sim.loops
    let b := { b with g := { b.g with sim := { b.g.sim with loops := loop + 1 } } }
    match logWith adj M o b loop with
    | (b, .raise) => { b with g := { b.g with sim := b.g.sim.raise } }
    | (b, .fail) => { b with g := { b.g with sim := b.g.sim.macroStep valOps M } }
    | (b, .ok res) => { b with g := b.g.result res }

/-- the simulator after `n` loops -/
def afterWith [Sums] (adj : Nat → Mins → Mins) (M : Machine σ S) (o : Opts) (n : Nat) : Base σ S :=
  (stepWith adj M o)^[n] (Base.init M)

/-- With `lower` this is the simulator of the code. -/
theorem stepWith_code : (stepWith lower : Machine σ S → Opts → Base σ S → Base σ S) = Base.step := rfl

/-- the simulator that applies a general rule proved with rules only at or above the exponents of its proof -/
def kept (M : Machine σ S) (o : Opts) (n : Nat) : Base σ S := afterWith keep M o n

end Spec

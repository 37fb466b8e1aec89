import Verif.Model.Prover

/-!
# Model of the proof system with `--recursive` (`Code/Macro/Proof_System.py`, `Code/Macro/Simulator.py`)

With `limited_rules`, `exp_linear_rules` off and `compute_steps` on.  Rules are then also applied inside proofs, so one and the
same code runs on plain numbers (in the simulation) and on expressions (in a proof); here both are values `V`.

* `step_num` is kept as the sum of two parts, `sim.steps` (macro and chain steps) and `ruleSteps` (steps by rules), because only
  the latter may be fractions.
* Of `states_last_seen` only the states are kept, not the times; the times stored in `sim.seen` mean nothing here.
* `Linear_Rule` without `exp_linear_rules` is the `General_Rule` it contains (1244-1246), with its minima raised;
  `Exponential_Rule` needs an `ExpInt` on the tape (or a rule that `Linear_Rule.try_gen` accepts) and does not occur.
* As in the model of the simple proof system: lists of blocks are nearest first, a number that is none (infinity inside an
  expression) is an exception, printing and statistics are left out.
-/

namespace Model.Recursive
open Spec (Dir)
open Model.Expr Model.RuleFunc Model.Prover

/-- A number of steps in a rule. -/
abbrev W := Val ℚ

variable {σ S : Type}

/-- `Diff_Rule` (59-73) -/
structure DiffRule (σ : Type) where
  init : ChainTape σ V
  diff : ChainTape σ V
  steps : W
  states : List Nat
  isMeta : Bool
deriving DecidableEq, Repr

/-- `General_Rule` (322-353).  `vars` is `var_list` with `min_list`; `result` is `result_list`.  `isMeta` tells whether rules
were used in the proof; the code does not keep this for general rules. -/
structure GenRule where
  vars : List (Option (Nat × Int))
  result : List (Option V)
  steps : W
  states : List Nat
  infinite : Bool
  isMeta : Bool
deriving DecidableEq, Repr

inductive Rule (σ : Type) where
  | diff (r : DiffRule σ)
  | gen (r : GenRule)
deriving DecidableEq, Repr

/-- `ProverResult` (478-484) with `large_delta`. -/
inductive Res (σ : Type) where
  | apply (tape : ChainTape σ V) (steps : W) (states : List Nat) (large : Bool)
  | inf (states : List Nat)
deriving DecidableEq, Repr

/-! ## Applying a rule -/

/-- `isinstance(x, Algebraic_Expression)` -/
def isExpr : V → Bool
  | .num _ => false
  | .expr _ => true

/-- an expression without variables is replaced by its constant (858-860, 1220-1222) -/
def simp : V → V
  | .num k => .num k
  | .expr e => if e.terms.isEmpty then .num e.const else .expr e

/-- `Subtract_Func.max_reps` (Rule_Func.py:34-39); an expression can only be divided by 1 (Algebraic_Expression.py:239-242). -/
def maxReps (min const : Int) (start : V) : Option (V × V) :=
  match start with
  | .num z =>
    let (r, f) := (Subtract.mk min const).maxReps z
    some (.num r, .num f)
  | .expr _ => if const = 1 then some (start.sub (.num (min - 1)), .num (min - 1)) else none

/-- The variables of the loop 1088-1166. -/
structure Scan where
  reps : Option V
  limit : Option (Dir × Nat × V)
  vals : List (Nat × V × Int)
  large : Bool
deriving DecidableEq, Repr

/-- The loop 1088-1166 over one half tape, whose next block is number `i`. -/
def scanHalf (d : Dir) : Nat → List (Blk σ V) → List (Blk σ V) → List (Blk σ V) → Scan → Out Scan
  | i, ib :: is, db :: ds, nb :: ns, sc =>
    match ib.num with
    | some (.expr e) =>
      match e.variableRestricted, nb.num, db.num with
      | .ok x, some n, some (.num delta) =>
        let iv := n.sub (.num e.const)
        if !alwaysGe iv (.num 0) then .fail
        else
          let sc := { sc with vals := Py.dset sc.vals x (iv, delta) }
          if delta < 0 then
            let sc := { sc with large := sc.large || delta ≠ -1 }
            match sc.reps with
            | none =>
              if isExpr iv && delta ≠ -1 then .fail
              else match maxReps e.const (-delta) n with
                | none => .raise
                | some (reps, final) =>
                  scanHalf d (i + 1) is ds ns { sc with reps := some reps, limit := some (d, i, final) }
            | some (.num r) =>
              if isExpr iv then .fail
              else match maxReps e.const (-delta) n with
                | some (.num reps, final) =>
                  if reps < r then
                    scanHalf d (i + 1) is ds ns { sc with reps := some (.num reps), limit := some (d, i, final) }
                  else scanHalf d (i + 1) is ds ns sc
                | _ => .raise
            | some (.expr _) => .fail
          else scanHalf d (i + 1) is ds ns sc
      | _, _, _ => .raise
    | _ => scanHalf d (i + 1) is ds ns sc
  | _, _, _, _, sc => .ok sc

/-- 1213-1222 over one half tape, whose next block is number `i`; `limit` is the limiting block if it is in this half. -/
def returnHalf (reps : V) (limit : Option (Nat × V)) :
    Nat → List (Blk σ V) → List (Blk σ V) → Option (List (Blk σ V))
  | i, db :: ds, nb :: ns =>
    match nb.num, returnHalf reps limit (i + 1) ds ns with
    | none, some r => some (nb :: r)
    | some n, some r =>
      if (limit.map (·.1)) = some i then limit.map (fun l => ⟨nb.sym, some (simp l.2)⟩ :: r)
      else match db.num with
        | some delta => some (⟨nb.sym, some (simp (n.add (reps.mul delta)))⟩ :: r)
        | none => none
    | _, none => none
  | _, _, ns => some ns

/-- the limit if it is in the half tape `d` (1216) -/
def limitIn (d : Dir) (limit : Option (Dir × Nat × V)) : Option (Nat × V) :=
  match limit with
  | some (d', i, f) => if d' = d then some (i, f) else none
  | none => none

/-- `x.num != 0` (1223, 1402) -/
def nonZero (b : Blk σ V) : Bool :=
  match b.num with
  | none => true
  | some v => !v.eq (.num 0)

/-- `init_value[x] + delta_value[x] * y` (1193) -/
def lineAt (vals : List (Nat × V × Int)) (y : W) (x : Nat) : Option W :=
  (Py.dget vals x).map (fun p => p.1.toQ.add ((Val.num (p.2 : ℚ)).mul y))

/-- `is_const(num_reps) and num_reps <= 0` (1177) -/
def repsBad : V → Bool
  | .num z => z ≤ 0
  | .expr _ => false

/-- The function that sums the steps of a difference rule over its applications (1195).  It is a parameter only so that the
specification can speak about the same program with another sum; the code has `series_sum`, the instance below. -/
class Sums where
  sum : W → Nat → W → Except Err W

instance codeSums : Sums := ⟨Series.seriesSum⟩

/-- `apply_diff_rule` (1070-1236); `k` is the fresh variable of line 1191. -/
def applyDiff [Sums] (r : DiffRule σ) (tape : ChainTape σ V) (k : Nat) : Out (Res σ) :=
  match scanHalf .L 0 r.init.left r.diff.left tape.left ⟨none, none, [], false⟩ with
  | .raise => .raise
  | .fail => .fail
  | .ok sc =>
    match scanHalf .R 0 r.init.right r.diff.right tape.right sc with
    | .raise => .raise
    | .fail => .fail
    | .ok sc =>
      match sc.reps with
      | none => .ok (.inf r.states)
      | some reps =>
        if repsBad reps then .fail
        else
          match r.steps.subst (lineAt sc.vals (.expr (varE k))) with
          | .error _ => .raise
          | .ok each =>
            match Sums.sum each k reps.toQ with
            | .error _ => .raise
            | .ok total =>
              match returnHalf reps (limitIn .L sc.limit) 0 r.diff.left tape.left,
                  returnHalf reps (limitIn .R sc.limit) 0 r.diff.right tape.right with
              | some left, some right =>
                .ok (.apply { tape with left := left.filter nonZero, right := right.filter nonZero } total r.states sc.large)
              | _, _ => .raise

/-- `config_fits_min` (1431-1440): the assignment, or a failure. -/
def fitsMin : List (Option (Nat × Int)) → List (Option V) → List (Nat × V) → Out (List (Nat × V))
  | some (x, m) :: vs, c :: cs, a =>
    match c with
    | none => .raise
    | some c => if alwaysGe c (.num m) then fitsMin vs cs (Py.dset a x c) else .fail
  | none :: vs, _ :: cs, a => fitsMin vs cs a
  | _, _, a => .ok a

/-- `next_list == current_list` (1380) -/
def listEq : List (Option V) → List (Option V) → Bool
  | [], [] => true
  | none :: as, none :: bs => listEq as bs
  | some a :: as, some b :: bs => a.eq b && listEq as bs
  | _, _ => false

/-- How the loop of `apply_general_rule` ends. -/
inductive GenEnd where
  | inf
  | stop (cur : List (Option V)) (diffSteps : W) (applied : Bool)
deriving DecidableEq, Repr

def subsQ (a : List (Nat × V)) (x : Nat) : Option W := (Py.dget a x).map Val.toQ

/-- The loop 1368-1392; the fuel is `max_num_reps - num_reps`. -/
def genApplyLoop (r : GenRule) : Nat → List (Option V) → W → Bool → Out GenEnd
  | fuel, cur, diffSteps, applied =>
    match fitsMin r.vars cur [] with
    | .raise => .raise
    | .fail => .ok (.stop cur diffSteps applied)
    | .ok a =>
      match fuel with
      | 0 => .ok (.stop cur diffSteps applied)
      | fuel + 1 =>
        match r.steps.subst (subsQ a), substNums (Py.dget a) r.result with
        | .ok w, some next =>
          if listEq next cur then .ok .inf else genApplyLoop r fuel next (diffSteps.add w) true
        | _, _ => .raise

/-- 1398-1402 for one half tape: the blocks with their new exponents and the exponents left over -/
def setCounts : List (Blk σ V) → List (Option V) → List (Blk σ V) × List (Option V)
  | [], cs => ([], cs)
  | b :: bs, c :: cs => let r := setCounts bs cs; (⟨b.sym, c⟩ :: r.1, r.2)
  | bs, [] => (bs, [])

/-- `apply_general_rule` (1336-1429) -/
def applyGen (o : Opts) (r : GenRule) (tape : ChainTape σ V) : Out (Res σ) :=
  if o.maxReps = 0 then .raise
  else
    let cur := (tape.left ++ tape.right).map (·.num)
    match (if r.infinite then fitsMin r.vars cur [] else .fail) with
    | .raise => .raise
    | .ok _ => .ok (.inf r.states)
    | .fail =>
      match genApplyLoop r o.maxReps cur (.num 0) false with
      | .raise => .raise
      | .fail => .fail
      | .ok .inf => .ok (.inf r.states)
      | .ok (.stop _ _ false) => .fail
      | .ok (.stop cur diffSteps true) =>
        let (left, rest) := setCounts tape.left cur
        let (right, _) := setCounts tape.right rest
        .ok (.apply { tape with left := left.filter nonZero, right := right.filter nonZero } diffSteps r.states true)

/-- `apply_rule` (1018-1068), with the next free variable -/
def applyRule [Sums] (o : Opts) (r : Rule σ) (tape : ChainTape σ V) (nv : Nat) : Out (Res σ) × Nat :=
  match r with
  | .diff r => (applyDiff r tape nv, nv + 1)
  | .gen r => (applyGen o r tape, nv)

/-! ## The simulator, in a proof or outside -/

abbrev Rules (σ S : Type) := List (Strip σ S × Rule σ)

/-- The part of `Simulator` that changes; `nv` is the class counter `Variable.num_vars`. -/
structure Sim (σ S : Type) where
  sim : SimSt σ S V
  ruleSteps : W
  ruleMoves : Nat
  nv : Nat
deriving DecidableEq, Repr

/-- `step_num` -/
def Sim.stepNum (g : Sim σ S) : W := g.sim.steps.toQ.add g.ruleSteps

/-- the effect of a `ProverResult` (142-175) -/
def Sim.result (g : Sim σ S) : Res σ → Sim σ S
  | .inf states => { g with sim := { g.sim with op := .infRepeat, infReason := some .proofSystem, recur := states } }
  | .apply tape steps states _ =>
    { g with
      sim := { g.sim with tape := tape, seen := states.foldl (fun d q => Py.dset d q g.sim.steps) g.sim.seen }
      ruleSteps := g.ruleSteps.add steps
      ruleMoves := g.ruleMoves + 1 }

/-- `step` (129-219) with a frozen prover that knows the rules `rs` (`log_and_apply` 572-592, `try_apply_a_rule` 618-638). -/
def Sim.step [Sums] [DecidableEq σ] [DecidableEq S] (M : Machine σ S) (o : Opts) (rs : Rules σ S) (g : Sim σ S) : Sim σ S :=
  if g.sim.op ≠ .running then g
  else
    let g := { g with sim := { g.sim with loops := g.sim.loops + 1 } }
    match Py.dget rs (strip valIsOne g.sim.st g.sim.tape) with
    | none => { g with sim := g.sim.macroStep valOps M }
    | some r =>
      match applyRule o r g.sim.tape g.nv with
      | (.raise, nv) => { g with sim := g.sim.raise, nv := nv }
      | (.fail, nv) => { g with sim := g.sim.macroStep valOps M, nv := nv }
      | (.ok res, nv) => { g with nv := nv }.result res

/-! ## Proving a rule -/

/-- The loop 753-771 over a half tape: the generalised blocks, `min_val`, and the next free variable. -/
def genHalf : List (Blk σ V) → Nat → Option (List (Blk σ V) × List (Nat × Option Int) × Nat)
  | [], nv => some ([], [], nv)
  | b :: bs, nv =>
    match b.num with
    | none => (genHalf bs nv).map (fun r => (⟨b.sym, none⟩ :: r.1, r.2.1, r.2.2))
    | some (.num n) =>
      if n = 1 then (genHalf bs nv).map (fun r => (⟨b.sym, some (.num 1)⟩ :: r.1, r.2.1, r.2.2))
      else if n > 2 ^ 20 then
        (genHalf bs (nv + 1)).map (fun r =>
          (⟨b.sym, some (.expr (varPlus nv (2 ^ 20)))⟩ :: r.1, (nv, some (2 ^ 20)) :: r.2.1, r.2.2))
      else if n = 0 then none
      else
        (genHalf bs (nv + 1)).map (fun r =>
          (⟨b.sym, some (.expr (varPlus nv n))⟩ :: r.1, (nv, some n) :: r.2.1, r.2.2))
    | some (.expr _) => none

/-- The loop 778-833. -/
def genLoop [Sums] [DecidableEq σ] [DecidableEq S] (M : Machine σ S) (o : Opts) (rs : Rules σ S) :
    Nat → Sim σ S → List (Nat × Option Int) → Out (Sim σ S × List (Nat × Option Int))
  | 0, g, mins => .ok (g, mins)
  | k + 1, g, mins =>
    match g.sim.tape.half g.sim.tape.dir with
    | [] => .raise
    | b :: _ =>
      if belowMin b.num then .fail
      else
        let g := g.step M o rs
        if g.sim.op = .raised then .raise
        else if g.sim.op ≠ .running then .fail
        else match updMins (g.sim.tape.left ++ g.sim.tape.right) mins with
          | .raise => .raise
          | .fail => .fail
          | .ok mins => genLoop M o rs k g mins

/-- `ConstantToExpression` of a plain number (984-985) -/
def asExprQ : W → W
  | .num k => .expr ⟨[], k⟩
  | .expr e => .expr e

/-- `substitute` of `replaces` or `assignment` in the number of steps (972, 890) -/
def substSteps (subs : List (Nat × V)) (w : W) : Except Err W := w.subst (subsQ subs)

/-- 949-1005 -/
def mkDiff (init diff : ChainTape σ V) (mins : List (Nat × Option Int)) (g : Sim σ S) : Option (DiffRule σ) :=
  if g.ruleMoves > 0 then
    some { init := init, diff := diff, steps := asExprQ g.stepNum, states := g.sim.seen.map (·.1), isMeta := true }
  else
    match tighten mins init.left, tighten mins init.right with
    | some (l, rl), some (r, rr) =>
      let subs := Py.dget (rl ++ rr)
      match substNums subs (diff.left.map (·.num)), substNums subs (diff.right.map (·.num)),
          substSteps (rl ++ rr) g.stepNum with
      | some dl, some dr, .ok steps =>
        some { init := { init with left := l, right := r }
               diff := { diff with left := setNums diff.left dl, right := setNums diff.right dr }
               steps := asExprQ steps, states := g.sim.seen.map (·.1), isMeta := false }
      | _, _, _ => none
    | _, _ => none

/-- `as_strictly_linear` (Algebraic_Expression.py:278-282) -/
def strictlyLinear : V → Option (Nat × Int × Int)
  | .num _ => none
  | .expr e =>
    match e.terms with
    | [t] =>
      match t.vars with
      | [vp] => if vp.pow = 1 then some (vp.var, t.coef, e.const) else none
      | _ => none
    | _ => none

/-- `Linear_Rule.try_gen` and the new minima (140-168, 108-111): `ok` of the minima, `fail` if it is not a linear rule. -/
def tryLinear : List (Option (Nat × Int)) → List (Option V) → Out (List (Option (Nat × Int)))
  | none :: vs, _ :: rs =>
    match tryLinear vs rs with
    | .ok l => .ok (none :: l)
    | .fail => .fail
    | .raise => .raise
  | some (x, m) :: vs, r :: rs =>
    match r with
    | none => .fail
    | some v =>
      if v.variables ≠ [x] then .fail
      else match strictlyLinear v with
        | none => .fail
        | some (_, coef, const) =>
          match (if coef = 1 then .ok m else (Mult.new m coef const).map (·.min)) with
          | .error _ => .raise
          | .ok m =>
            match tryLinear vs rs with
            | .ok l => .ok (some (x, m) :: l)
            | .fail => .fail
            | .raise => .raise
  | _, _ => .ok []

/-- all variables of the results are variables of the rule (341-344) -/
def varsValid (vars : List (Option (Nat × Int))) (result : List (Option V)) : Bool :=
  result.all (fun r => match r with
    | none => true
    | some v => v.variables.all (fun x => vars.any (fun e => e.map (·.1) = some x)))

/-- 865-946 -/
def mkGen (init : ChainTape σ V) (mins : List (Nat × Option Int)) (g : Sim σ S) : Option GenRule :=
  match genVars mins (init.left ++ init.right) with
  | none => none
  | some (vars, a) =>
    match substNums (Py.dget a) ((g.sim.tape.left ++ g.sim.tape.right).map (·.num)), substSteps a g.stepNum with
    | some result, .ok steps =>
      if !varsValid vars result then none
      else
        let rule : GenRule :=
          { vars := vars, result := result, steps := steps, states := g.sim.seen.map (·.1)
            infinite := isInfinite vars result, isMeta := g.ruleMoves > 0 }
        match tryLinear vars result with
        | .raise => none
        | .fail => some rule
        | .ok vars => some { rule with vars := vars }
    | _, _ => none

/-- `prove_rule` (712-1016) with `recursive`, with the next free variable. -/
def proveRule [Sums] [DecidableEq σ] [DecidableEq S] (M : Machine σ S) (o : Opts) (rs : Rules σ S) (key : Strip σ S) (st : S)
    (tape : ChainTape σ V) (delta : Int) (nv : Nat) : Out (Rule σ) × Nat :=
  match genHalf tape.left nv with
  | none => (.raise, nv)
  | some (l, ml, nv) =>
    match genHalf tape.right nv with
    | none => (.raise, nv)
    | some (r, mr, nv) =>
      let init : ChainTape σ V := ⟨tape.dir, l, r⟩
      let g : Sim σ S :=
        { sim :=
            { tape := init, st := st, dir := tape.dir, steps := .expr ⟨[], 0⟩, loops := 0, seen := [], op := .running
              cell := none, infReason := none, recur := [] }
          ruleSteps := .num 0, ruleMoves := 0, nv := nv }
      match genLoop M o rs delta.toNat g (ml ++ mr) with
      | .raise => (.raise, nv)
      | .fail => (.fail, nv)
      | .ok (g, mins) =>
        if strip valIsOne g.sim.st g.sim.tape ≠ key then (.fail, g.nv)
        else match diffHalf g.sim.tape.left init.left, diffHalf g.sim.tape.right init.right with
          | some (dl, cl), some (dr, cr) =>
            if cl && cr then
              match mkDiff init { g.sim.tape with left := dl, right := dr } mins g with
              | some r => (.ok (.diff r), g.nv)
              | none => (.raise, g.nv)
            else
              match mkGen init mins g with
              | some r => (.ok (.gen r), g.nv)
              | none => (.raise, g.nv)
          | _, _ => (.raise, g.nv)

/-! ## The proof system and the simulation -/

/-- `Simulator` with its `Proof_System` (486-523). -/
structure Base (σ S : Type) where
  g : Sim σ S
  past : List (Strip σ S × Past)
  rules : Rules σ S
deriving DecidableEq, Repr

def Base.init [DecidableEq σ] [DecidableEq S] (M : Machine σ S) : Base σ S :=
  ⟨⟨SimSt.init valOps M, .num 0, 0, 0⟩, [], []⟩

def Res.large : Res σ → Bool
  | .apply _ _ _ l => l
  | .inf _ => true

/-- `log_and_apply` (572-616) with `try_apply_a_rule` (618-638), and the new state of the proof system; `.fail` is
`NOTHING_TO_DO`. -/
def logAndApply [Sums] [DecidableEq σ] [DecidableEq S] (M : Machine σ S) (o : Opts) (b : Base σ S) (loop : Nat) :
    Base σ S × Out (Res σ) :=
  let tape := b.g.sim.tape
  let st := b.g.sim.st
  let setNv (b : Base σ S) (nv : Nat) : Base σ S := { b with g := { b.g with nv := nv } }
  let key := strip valIsOne st tape
  match Py.dget b.rules key with
  | some r =>
    match applyRule o r tape b.g.nv with
    | (.raise, nv) => (setNv b nv, .raise)
    | (.fail, nv) => (setNv b nv, .fail)
    | (.ok res, nv) => (setNv (if res.large then { b with past := [] } else b) nv, .ok res)
  | none =>
    let past := (Py.dget b.past key).getD ⟨none, none⟩
    let (past', try') := past.log loop
    let b := { b with past := Py.dset b.past key past' }
    if try' then
      match proveRule M o b.rules key st tape ((loop : Int) - past'.lastLoop.getD 0) b.g.nv with
      | (.raise, nv) => (setNv b nv, .raise)
      | (.fail, nv) => (setNv b nv, .fail)
      | (.ok r, nv) =>
        -- `add_rule` (673-710)
        let b := { b with rules := Py.dset b.rules key r, past := [(key, { past' with lastLoop := none })] }
        let (res, nv) := applyRule o r tape nv
        (setNv b nv, res)
    else if b.past.length > o.maxConfigs then ({ b with past := [] }, .fail)
    else (b, .fail)

/-- `step` (129-219) -/
def Base.step [Sums] [DecidableEq σ] [DecidableEq S] (M : Machine σ S) (o : Opts) (b : Base σ S) : Base σ S :=
  if b.g.sim.op ≠ .running then b
  else
    let loop := b.g.sim.loops
    let b := { b with g := { b.g with sim := { b.g.sim with loops := loop + 1 } } }
    match logAndApply M o b loop with
    | (b, .raise) => { b with g := { b.g with sim := b.g.sim.raise } }
    | (b, .fail) => { b with g := { b.g with sim := b.g.sim.macroStep valOps M } }
    | (b, .ok res) => { b with g := b.g.result res }

end Model.Recursive

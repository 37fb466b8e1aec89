import Verif.Model.Simulator
import Verif.Model.Series
import Verif.Model.RuleFunc
import Mathlib.Data.List.Dedup

/-!
# Model of `Code/Macro/Proof_System.py` and of `Simulator.step` with the proof system

With the default options: `recursive`, `limited_rules`, `exp_linear_rules` off, `compute_steps` on.  The run lengths of the
simulation are then plain integers (natural numbers here) and those of a proof integers or expressions over the integers.

* Lists of blocks are nearest first (Python: farthest first); the loops over blocks run in this order here.  The order only
  decides which of two equally limiting blocks is the `limit` of `apply_diff_rule`.
* `Linear_Rule`, `Exponential_Rule` (99-320): `try_gen` of both returns `False` in a proof without recursion; where the model
  would need them it raises, and `C49_run_refines` shows that this never happens in a run.
* `Limited_Diff_Rule` is in `Model/Limited.lean`, meta rules in `Model/Recursive.lean`; printing, statistics and `times_seen`
  are not modelled.
* A number that is none (infinity inside an expression, a negative or fractional count) is an exception here;
  `C49_run_refines` shows that it never comes up in a run.
-/

namespace Model.Expr
variable {K : Type}

/-- `variables` (Algebraic_Expression.py:54-58, 291-298), a set as a list without repetitions. -/
def Val.variables : Val K → List Nat
  | .num _ => []
  | .expr e => (e.terms.flatMap (fun t => t.vars.map (·.var))).dedup

/-- `VarPlusConstExpression` (Algebraic_Expression.py:438-443). -/
def varPlus (v : Nat) (c : Int) : Expr Int := ⟨[⟨[⟨v, 1⟩], 1⟩], c⟩

/-- an integer expression as one over the rationals (the same Python object) -/
def Expr.toQ (e : Expr Int) : Expr ℚ := ⟨e.terms.map (fun t => ⟨t.vars, t.coef⟩), e.const⟩

def Val.toQ : Val Int → Val ℚ
  | .num k => .num k
  | .expr e => .expr e.toQ

end Model.Expr

namespace Model.Prover
open Spec (Dir)
open Model.Expr Model.RuleFunc

/-- A run length in a proof. -/
abbrev V := Val Int

/-- the operations of the simulator on them; `top.num == 0` is `Expression.__eq__` -/
def valOps : NumOps V where
  ofNat n := .num n
  add := Val.add
  sub := Val.sub
  mul := Val.mul
  isZero v := v.eq (.num 0)

/-- The options read here (`max_prover_configs`, `max_num_reps`; 44-49). -/
structure Opts where
  maxConfigs : Nat
  maxReps : Nat

def defaults : Opts := ⟨100000, 10⟩

/-- An exception, a failure (`False`) or a result. -/
inductive Out (α : Type) where
  | raise
  | fail
  | ok (a : α)
deriving DecidableEq, Repr

variable {σ S ν : Type}

/-! ## Stripped configurations -/

/-- `stripped_info` (415-422).  (A symbol is never itself a pair of a symbol and 1.) -/
inductive Info (σ : Type) where
  | one (a : σ)
  | many (a : σ)
deriving DecidableEq, Repr

def info (isOne : ν → Bool) (b : Blk σ ν) : Info σ :=
  match b.num with
  | none => .many b.sym
  | some n => if isOne n then .one b.sym else .many b.sym

/-- The tuple returned by `strip_config`. -/
structure Strip (σ S : Type) where
  st : S
  dir : Dir
  left : List (Info σ)
  right : List (Info σ)
deriving DecidableEq, Repr

/-- `strip_config` (424-432); `tape[d][1:]` drops the farthest block. -/
def strip (isOne : ν → Bool) (st : S) (t : ChainTape σ ν) : Strip σ S :=
  ⟨st, t.dir, t.left.dropLast.map (info isOne), t.right.dropLast.map (info isOne)⟩

def natIsOne (n : Nat) : Bool := n = 1
def valIsOne (v : V) : Bool := v.eq (.num 1)

/-! ## Proving a rule -/

/-- The loop 753-771 over a half tape: the generalised blocks, `min_val`, and the next free variable. -/
def genHalf : List (Blk σ Nat) → Nat → Option (List (Blk σ V) × List (Nat × Option Int) × Nat)
  | [], nv => some ([], [], nv)
  | b :: bs, nv =>
    match b.num with
    | none => (genHalf bs nv).map (fun r => (⟨b.sym, none⟩ :: r.1, r.2.1, r.2.2))
    | some n =>
      if n = 1 then (genHalf bs nv).map (fun r => (⟨b.sym, some (.num 1)⟩ :: r.1, r.2.1, r.2.2))
      else if n > 2 ^ 20 then
        (genHalf bs (nv + 1)).map (fun r =>
          (⟨b.sym, some (.expr (varPlus nv (2 ^ 20)))⟩ :: r.1, (nv, some (2 ^ 20)) :: r.2.1, r.2.2))
      else if n = 0 then none
      else
        (genHalf bs (nv + 1)).map (fun r =>
          (⟨b.sym, some (.expr (varPlus nv n))⟩ :: r.1, (nv, some (n : Int)) :: r.2.1, r.2.2))

/-- `min` of two numbers, `none` is minus infinity (833) -/
def minOpt : Option Int → Option Int → Option Int
  | some a, some b => some (if b < a then b else a)
  | _, _ => none

/-- 823-833 for one block -/
def updMin (mins : List (Nat × Option Int)) (num : Option V) : Out (List (Nat × Option Int)) :=
  match num with
  | none => .ok mins
  | some v =>
    match v.variables with
    | [] => .ok mins
    | [x] =>
      match Py.dget mins x with
      | none => .raise
      | some m => .ok (Py.dset mins x (minOpt m v.minVal))
    | _ => .fail

/-- 821-833 -/
def updMins : List (Blk σ V) → List (Nat × Option Int) → Out (List (Nat × Option Int))
  | [], mins => .ok mins
  | b :: bs, mins =>
    match updMin mins b.num with
    | .raise => .raise
    | .fail => .fail
    | .ok mins => updMins bs mins

/-- `ae.min_val(block.num) <= 0` (780) -/
def belowMin (num : Option V) : Bool :=
  match num with
  | none => false
  | some v => match v.minVal with | none => true | some m => m ≤ 0

/-- The loop 778-833. -/
def genLoop [DecidableEq σ] [DecidableEq S] (M : Machine σ S) :
    Nat → SimSt σ S V → List (Nat × Option Int) → Out (SimSt σ S V × List (Nat × Option Int))
  | 0, s, mins => .ok (s, mins)
  | k + 1, s, mins =>
    match s.tape.half s.tape.dir with
    | [] => .raise
    | b :: _ =>
      if belowMin b.num then .fail
      else
        let s := s.step valOps M
        if s.op = .raised then .raise
        else if s.op ≠ .running then .fail
        else match updMins (s.tape.left ++ s.tape.right) mins with
          | .raise => .raise
          | .fail => .fail
          | .ok mins => genLoop M k s mins

/-- 856-862 for one block; the flag is whether the difference is constant -/
def diffNum (final init : Option V) : Option (Option V × Bool) :=
  match final, init with
  | none, _ => some (none, true)
  | some _, none => none
  | some v, some w =>
    match v.sub w with
    | .num k => some (some (.num k), true)
    | .expr e => if e.terms.isEmpty then some (some (.num e.const), true) else some (some (.expr e), false)

/-- 853-862 for one half tape -/
def diffHalf : List (Blk σ V) → List (Blk σ V) → Option (List (Blk σ V) × Bool)
  | f :: fs, i :: is =>
    match diffNum f.num i.num, diffHalf fs is with
    | some (d, c), some (ds, cs) => some (⟨f.sym, d⟩ :: ds, c && cs)
    | _, _ => none
  | fs, _ => some (fs, true)

/-- `Diff_Rule` (59-73) -/
structure DiffRule (σ : Type) where
  init : ChainTape σ V
  diff : ChainTape σ V
  steps : V
  loops : Nat
  seen : List (Nat × V)
deriving DecidableEq, Repr

/-- `General_Rule` (322-353).  `vars` is `var_list` with `min_list`; `result` is `result_list`. -/
structure GenRule where
  vars : List (Option (Nat × Int))
  result : List (Option V)
  steps : V
  loops : Nat
  seen : List (Nat × V)
  infinite : Bool
deriving DecidableEq, Repr

inductive Rule (σ : Type) where
  | diff (r : DiffRule σ)
  | gen (r : GenRule)
deriving DecidableEq, Repr

/-- a finite number from `min_val` -/
def getMin (mins : List (Nat × Option Int)) (x : Nat) : Option Int :=
  match Py.dget mins x with
  | some (some m) => some m
  | _ => none

/-- 957-964: the tightened initial blocks and `replaces` -/
def tighten (mins : List (Nat × Option Int)) : List (Blk σ V) → Option (List (Blk σ V) × List (Nat × V))
  | [] => some ([], [])
  | b :: bs =>
    match b.num with
    | some (.expr e) =>
      match e.variableRestricted with
      | .error _ => none
      | .ok x =>
        match getMin mins x with
        | none => none
        | some m =>
          let new := ((Val.expr (varE x)).sub (.num m)).add (.num 1)
          match e.subst (fun v => if v = x then some new else none), tighten mins bs with
          | .ok v, some (r, reps) => some (⟨b.sym, some v⟩ :: r, (x, new) :: reps)
          | _, _ => none
    | _ => (tighten mins bs).map (fun r => (b :: r.1, r.2))

/-- `substitute` in a dictionary (891-892, 972-973) -/
def substSeen (subs : Nat → Option V) : List (Nat × V) → Option (List (Nat × V))
  | [] => some []
  | (q, v) :: rest =>
    match v.subst subs, substSeen subs rest with
    | .ok w, some r => some ((q, w) :: r)
    | _, _ => none

/-- `substitute` in a block (966-968, 885-886) -/
def substNums (subs : Nat → Option V) : List (Option V) → Option (List (Option V))
  | [] => some []
  | none :: rest => (substNums subs rest).map (none :: ·)
  | some v :: rest =>
    match v.subst subs, substNums subs rest with
    | .ok w, some r => some (some w :: r)
    | _, _ => none

def setNums : List (Blk σ V) → List (Option V) → List (Blk σ V)
  | b :: bs, n :: ns => ⟨b.sym, n⟩ :: setNums bs ns
  | bs, _ => bs

/-- `ConstantToExpression` of a plain number (984-985) -/
def asExpr : V → V
  | .num k => .expr ⟨[], k⟩
  | .expr e => .expr e

/-- 949-1005 -/
def mkDiff (init diff : ChainTape σ V) (mins : List (Nat × Option Int)) (s : SimSt σ S V) : Option (DiffRule σ) :=
  match tighten mins init.left, tighten mins init.right with
  | some (l, rl), some (r, rr) =>
    let subs := Py.dget (rl ++ rr)
    match substNums subs (diff.left.map (·.num)), substNums subs (diff.right.map (·.num)),
        s.steps.subst subs, substSeen subs s.seen with
    | some dl, some dr, .ok steps, some seen =>
      some { init := { init with left := l, right := r }
             diff := { diff with left := setNums diff.left dl, right := setNums diff.right dr }
             steps := asExpr steps, loops := s.loops, seen := seen }
    | _, _, _, _ => none
  | _, _ => none

/-- 867-880: `var_list` with `min_list`, and `assignment` -/
def genVars (mins : List (Nat × Option Int)) : List (Blk σ V) → Option (List (Option (Nat × Int)) × List (Nat × V))
  | [] => some ([], [])
  | b :: bs =>
    match b.num with
    | some (.expr e) =>
      match e.variableRestricted with
      | .error _ => none
      | .ok x =>
        match getMin mins x, genVars mins bs with
        | some m, some (r, a) =>
          some (some (x, e.const - m + 1) :: r, (x, (Val.expr e).sub (.num (2 * e.const))) :: a)
        | _, _ => none
    | _ => (genVars mins bs).map (fun r => (none :: r.1, r.2))

/-- `variables(result_block.num) != {var_list[i]}` for no block (150, and the same test in `Exponential_Rule.try_gen`) -/
def linearTest : List (Option (Nat × Int)) → List (Option V) → Bool
  | some (x, _) :: vs, r :: rs =>
    (match r with | none => false | some v => v.variables = [x]) && linearTest vs rs
  | none :: vs, _ :: rs => linearTest vs rs
  | _, _ => true

/-- 346-353 -/
def isInfinite : List (Option (Nat × Int)) → List (Option V) → Bool
  | some (x, _) :: vs, r :: rs =>
    (match r with | none => true | some v => alwaysGe v (.expr (varE x))) && isInfinite vs rs
  | none :: vs, _ :: rs => isInfinite vs rs
  | _, _ => true

/-- 865-946 -/
def mkGen (init : ChainTape σ V) (mins : List (Nat × Option Int)) (s : SimSt σ S V) : Option GenRule :=
  match genVars mins (init.left ++ init.right) with
  | none => none
  | some (vars, a) =>
    let subs := Py.dget a
    match substNums subs ((s.tape.left ++ s.tape.right).map (·.num)), s.steps.subst subs, substSeen subs s.seen with
    | some result, .ok steps, some seen =>
      if linearTest vars result then none
      else some { vars := vars, result := result, steps := steps, loops := s.loops, seen := seen
                  infinite := isInfinite vars result }
    | _, _, _ => none

/-- `prove_rule` (712-1016), with the next free variable. -/
def proveRule [DecidableEq σ] [DecidableEq S] (M : Machine σ S) (key : Strip σ S) (st : S) (tape : ChainTape σ Nat)
    (delta : Int) (nv : Nat) : Out (Rule σ) × Nat :=
  match genHalf tape.left nv with
  | none => (.raise, nv)
  | some (l, ml, nv) =>
    match genHalf tape.right nv with
    | none => (.raise, nv)
    | some (r, mr, nv) =>
      let init : ChainTape σ V := ⟨tape.dir, l, r⟩
      let s : SimSt σ S V :=
        { tape := init, st := st, dir := tape.dir, steps := .expr ⟨[], 0⟩, loops := 0, seen := [], op := .running
          cell := none, infReason := none, recur := [] }
      match genLoop M delta.toNat s (ml ++ mr) with
      | .raise => (.raise, nv)
      | .fail => (.fail, nv)
      | .ok (s, mins) =>
        if strip valIsOne s.st s.tape ≠ key then (.fail, nv)
        else match diffHalf s.tape.left init.left, diffHalf s.tape.right init.right with
          | some (dl, cl), some (dr, cr) =>
            if cl && cr then
              match mkDiff init { s.tape with left := dl, right := dr } mins s with
              | some r => (.ok (.diff r), nv)
              | none => (.raise, nv)
            else
              match mkGen init mins s with
              | some r => (.ok (.gen r), nv)
              | none => (.raise, nv)
          | _, _ => (.raise, nv)

/-! ## Applying a rule -/

/-- `ProverResult` (478-484): `APPLY_RULE` with tape, steps and `states_last_seen`, or `INF_REPEAT` with the states. -/
inductive Res (σ : Type) where
  | apply (tape : ChainTape σ Nat) (steps : Nat) (seen : List (Nat × Nat))
  | inf (states : List Nat)
deriving DecidableEq, Repr

/-- a plain natural number -/
def asNat : V → Option Nat
  | .num z => if 0 ≤ z then some z.toNat else none
  | .expr _ => none

def asNats : List (Nat × V) → Option (List (Nat × Nat))
  | [] => some []
  | (q, v) :: rest =>
    match asNat v, asNats rest with
    | some n, some r => some ((q, n) :: r)
    | _, _ => none

/-- The variables of the loop 1088-1166: `num_reps`, `limit_dir`/`limit_index`/`limit_final` and, for each variable,
`init_value` and `delta_value`. -/
structure Scan where
  reps : Option Int
  limit : Option (Dir × Nat × Int)
  vals : List (Nat × Int × Int)
deriving DecidableEq, Repr

/-- The loop 1088-1166 over one half tape, whose next block is number `i`. -/
def scanHalf (d : Dir) : Nat → List (Blk σ V) → List (Blk σ V) → List (Blk σ Nat) → Scan → Out Scan
  | i, ib :: is, db :: ds, nb :: ns, sc =>
    match ib.num with
    | some (.expr e) =>
      match e.variableRestricted, nb.num, db.num with
      | .ok x, some n, some (.num delta) =>
        if (n : Int) - e.const < 0 then .fail
        else
          let sc := { sc with vals := Py.dset sc.vals x ((n : Int) - e.const, delta) }
          if delta < 0 then
            let (reps, final) := (Subtract.mk e.const (-delta)).maxReps n
            match sc.reps with
            | none => scanHalf d (i + 1) is ds ns { sc with reps := some reps, limit := some (d, i, final) }
            | some r =>
              if reps < r then scanHalf d (i + 1) is ds ns { sc with reps := some reps, limit := some (d, i, final) }
              else scanHalf d (i + 1) is ds ns sc
          else scanHalf d (i + 1) is ds ns sc
      | _, _, _ => .raise
    | _ => scanHalf d (i + 1) is ds ns sc
  | _, _, _, _, sc => .ok sc

/-- 1213-1222 over one half tape, whose next block is number `i`; `limit` is the limiting block if it is in this half. -/
def returnHalf (reps : Int) (limit : Option (Nat × Int)) :
    Nat → List (Blk σ V) → List (Blk σ Nat) → Option (List (Blk σ Nat))
  | i, db :: ds, nb :: ns =>
    match nb.num, returnHalf reps limit (i + 1) ds ns with
    | none, some r => some (nb :: r)
    | some n, some r =>
      match limit with
      | some (j, final) =>
        if j = i then (asNat (.num final)).map (fun n => ⟨nb.sym, some n⟩ :: r)
        else match db.num with
          | some (.num delta) => (asNat (.num (n + reps * delta))).map (fun n => ⟨nb.sym, some n⟩ :: r)
          | _ => none
      | none =>
        match db.num with
        | some (.num delta) => (asNat (.num (n + reps * delta))).map (fun n => ⟨nb.sym, some n⟩ :: r)
        | _ => none
    | _, none => none
  | _, _, ns => some ns

/-- the limit if it is in the half tape `d` (1216) -/
def limitIn (d : Dir) (limit : Option (Dir × Nat × Int)) : Option (Nat × Int) :=
  match limit with
  | some (d', i, f) => if d' = d then some (i, f) else none
  | none => none

/-- `x.num != 0` (1223, 1402) -/
def nonZero (b : Blk σ Nat) : Bool := b.num ≠ some 0

/-- an integer that may be kept as a fraction -/
def ratToInt : Val ℚ → Option Int
  | .num q => if q.den = 1 then some q.num else none
  | .expr _ => none

/-- `init_value[x] + delta_value[x] * y` (1193, 1197) -/
def lineAt (vals : List (Nat × Int × Int)) (y : V) (x : Nat) : Option V :=
  (Py.dget vals x).map (fun p => (Val.num p.1).add ((Val.num p.2).mul y))

/-- 1203-1204 for each state -/
def lastSeen (steps diffSteps : V) (subs : Nat → Option V) : List (Nat × V) → Option (List (Nat × V))
  | [] => some []
  | (q, v) :: rest =>
    match (diffSteps.sub (steps.sub v)).subst subs, lastSeen steps diffSteps subs rest with
    | .ok w, some r => some ((q, w) :: r)
    | _, _ => none

/-- `apply_diff_rule` (1070-1236); `k` is the fresh variable of line 1191. -/
def applyDiff (r : DiffRule σ) (tape : ChainTape σ Nat) (k : Nat) : Out (Res σ) :=
  match scanHalf .L 0 r.init.left r.diff.left tape.left ⟨none, none, []⟩ with
  | .raise => .raise
  | .fail => .fail
  | .ok sc =>
    match scanHalf .R 0 r.init.right r.diff.right tape.right sc with
    | .raise => .raise
    | .fail => .fail
    | .ok sc =>
      match sc.reps with
      | none => .ok (.inf (r.seen.map (·.1)))
      | some reps =>
        if reps ≤ 0 then .fail
        else
          match r.steps.subst (lineAt sc.vals (.expr (varE k))) with
          | .error _ => .raise
          | .ok each =>
            match Series.seriesSum each.toQ k (.num reps) with
            | .error _ => .raise
            | .ok total =>
              match ratToInt total with
              | none => .raise
              | some diffSteps =>
                match lastSeen r.steps (.num diffSteps) (lineAt sc.vals (.num (reps - 1))) r.seen,
                    returnHalf reps (limitIn .L sc.limit) 0 r.diff.left tape.left,
                    returnHalf reps (limitIn .R sc.limit) 0 r.diff.right tape.right with
                | some seen, some left, some right =>
                  match asNat (.num diffSteps), asNats seen with
                  | some n, some seen =>
                    .ok (.apply { tape with left := left.filter nonZero, right := right.filter nonZero } n seen)
                  | _, _ => .raise
                | _, _, _ => .raise

/-- `config_fits_min` (1431-1440): the assignment, or a failure. -/
def fitsMin : List (Option (Nat × Int)) → List (Option Int) → List (Nat × V) → Out (List (Nat × V))
  | some (x, m) :: vs, c :: cs, a =>
    match c with
    | none => .raise
    | some c => if c - m ≥ 0 then fitsMin vs cs (Py.dset a x (.num c)) else .fail
  | none :: vs, _ :: cs, a => fitsMin vs cs a
  | _, _, a => .ok a

/-- 1378: the next exponents, all plain numbers -/
def nextList (subs : Nat → Option V) : List (Option V) → Option (List (Option Int))
  | [] => some []
  | none :: rest => (nextList subs rest).map (none :: ·)
  | some v :: rest =>
    match v.subst subs, nextList subs rest with
    | .ok (.num z), some r => some (some z :: r)
    | _, _ => none

/-- How the loop of `apply_general_rule` ends. -/
inductive GenEnd where
  | inf
  | stop (cur : List (Option Int)) (diffSteps : V) (last : Option (List (Nat × V)))
deriving DecidableEq, Repr

/-- The loop 1368-1392; the fuel is `max_num_reps - num_reps`. -/
def genApplyLoop (r : GenRule) : Nat → List (Option Int) → V → Option (List (Nat × V)) → Out GenEnd
  | fuel, cur, diffSteps, last =>
    match fitsMin r.vars cur [] with
    | .raise => .raise
    | .fail => .ok (.stop cur diffSteps last)
    | .ok a =>
      match fuel with
      | 0 => .ok (.stop cur diffSteps last)
      | fuel + 1 =>
        match r.steps.subst (Py.dget a), nextList (Py.dget a) r.result with
        | .ok w, some next =>
          if next = cur then .ok .inf else genApplyLoop r fuel next (diffSteps.add w) (some a)
        | _, _ => .raise

/-- 1398-1402 for one half tape: the blocks with their new exponents and the exponents left over -/
def setCounts : List (Blk σ Nat) → List (Option Int) → Option (List (Blk σ Nat) × List (Option Int))
  | [], cs => some ([], cs)
  | b :: bs, none :: cs => (setCounts bs cs).map (fun r => (⟨b.sym, none⟩ :: r.1, r.2))
  | b :: bs, some c :: cs =>
    match asNat (.num c), setCounts bs cs with
    | some n, some r => some (⟨b.sym, some n⟩ :: r.1, r.2)
    | _, _ => none
  | bs, [] => some (bs, [])

/-- `apply_general_rule` (1336-1429) -/
def applyGen (o : Opts) (r : GenRule) (tape : ChainTape σ Nat) : Out (Res σ) :=
  if o.maxReps = 0 then .raise
  else
    let cur : List (Option Int) := (tape.left ++ tape.right).map (fun b => b.num.map (fun n : Nat => (n : Int)))
    match (if r.infinite then fitsMin r.vars cur [] else .fail) with
    | .raise => .raise
    | .ok _ => .ok (.inf (r.seen.map (·.1)))
    | .fail =>
      match genApplyLoop r o.maxReps cur (.num 0) none with
      | .raise => .raise
      | .fail => .fail
      | .ok .inf => .ok (.inf (r.seen.map (·.1)))
      | .ok (.stop _ _ none) => .fail
      | .ok (.stop cur diffSteps (some a)) =>
        match setCounts tape.left cur with
        | none => .raise
        | some (left, rest) =>
          match setCounts tape.right rest, lastSeen r.steps diffSteps (Py.dget a) r.seen with
          | some (right, _), some seen =>
            match asNat diffSteps, asNats seen with
            | some n, some seen =>
              .ok (.apply { tape with left := left.filter nonZero, right := right.filter nonZero } n seen)
            | _, _ => .raise
          | _, _ => .raise

/-! ## The proof system -/

/-- `Past_Config` (434-440) -/
structure Past where
  lastLoop : Option Nat
  lastDelta : Option Int
deriving DecidableEq, Repr

/-- `log_config` (445-470) -/
def Past.log (p : Past) (loop : Nat) : Past × Bool :=
  match p.lastLoop with
  | none => ({ p with lastLoop := some loop }, false)
  | some last =>
    let delta : Int := (loop : Int) - last
    match p.lastDelta with
    | none => (⟨some loop, some delta⟩, false)
    | some d => if d = 0 ∨ d ≠ delta then (⟨some loop, some delta⟩, false) else (p, true)

/-- `Proof_System` (486-523); `nv` is the class counter `Variable.num_vars`. -/
structure Prover (σ S : Type) where
  past : List (Strip σ S × Past)
  rules : List (Strip σ S × Rule σ)
  nv : Nat
deriving DecidableEq, Repr

def Prover.init : Prover σ S := ⟨[], [], 0⟩

/-- `apply_rule` (1018-1068), with the next free variable -/
def applyRule (o : Opts) (r : Rule σ) (tape : ChainTape σ Nat) (nv : Nat) : Out (Res σ) × Nat :=
  match r with
  | .diff r => (applyDiff r tape nv, nv + 1)
  | .gen r => (applyGen o r tape, nv)

/-- `log_and_apply` (572-616) after no rule was found: log the configuration and prove a rule if it is time (594-616). -/
def logAndProve [DecidableEq σ] [DecidableEq S] (M : Machine σ S) (o : Opts) (p : Prover σ S) (key : Strip σ S)
    (st : S) (tape : ChainTape σ Nat) (loop : Nat) : Prover σ S × Out (Res σ) :=
  let past := (Py.dget p.past key).getD ⟨none, none⟩
  let (past', try') := past.log loop
  let p := { p with past := Py.dset p.past key past' }
  if try' then
    match proveRule M key st tape ((loop : Int) - past'.lastLoop.getD 0) p.nv with
    | (.raise, nv) => ({ p with nv := nv }, .raise)
    | (.fail, nv) => ({ p with nv := nv }, .fail)
    | (.ok r, nv) =>
      -- `add_rule` (673-710)
      let p := { p with rules := Py.dset p.rules key r, past := [(key, { past' with lastLoop := none })], nv := nv }
      let (res, nv) := applyRule o r tape p.nv
      ({ p with nv := nv }, res)
  else if p.past.length > o.maxConfigs then ({ p with past := [] }, .fail)
  else (p, .fail)

/-- `log_and_apply` (572-616) with `try_apply_a_rule` (618-638); `.fail` is `NOTHING_TO_DO`. -/
def logAndApply [DecidableEq σ] [DecidableEq S] (M : Machine σ S) (o : Opts) (p : Prover σ S) (st : S)
    (tape : ChainTape σ Nat) (loop : Nat) : Prover σ S × Out (Res σ) :=
  let key := strip natIsOne st tape
  match Py.dget p.rules key with
  | some r =>
    match applyRule o r tape p.nv with
    | (.raise, nv) => ({ p with nv := nv }, .raise)
    | (.fail, nv) => ({ p with nv := nv }, .fail)
    | (.ok res, nv) => ({ p with past := [], nv := nv }, .ok res)
  | none => logAndProve M o p key st tape loop

/-! ## The simulator with the proof system -/

/-- `Simulator` with its `prover`; `seenOk` is false once `states_last_seen` has been set to `None` (168-170). -/
structure PSim (σ S : Type) where
  sim : SimSt σ S Nat
  prover : Prover σ S
  seenOk : Bool
deriving DecidableEq, Repr

def PSim.init [DecidableEq σ] [DecidableEq S] (M : Machine σ S) : PSim σ S :=
  ⟨SimSt.init natOps M, Prover.init, true⟩

/-- `step` (129-219) -/
def PSim.step [DecidableEq σ] [DecidableEq S] (M : Machine σ S) (o : Opts) (p : PSim σ S) : PSim σ S :=
  if p.sim.op ≠ .running then p
  else
    let s := { p.sim with loops := p.sim.loops + 1 }
    match logAndApply M o p.prover s.st s.tape p.sim.loops with
    | (pr, .raise) => { p with sim := s.raise, prover := pr }
    | (pr, .fail) => { p with sim := s.macroStep natOps M, prover := pr }
    | (pr, .ok (.inf states)) =>
      { p with sim := { s with op := .infRepeat, infReason := some .proofSystem, recur := states }, prover := pr }
    | (pr, .ok (.apply tape steps seen)) =>
      { sim := { s with tape := tape, seen := SimSt.addSeen natOps s.seen s.steps seen, steps := s.steps + steps }
        prover := pr
        seenOk := p.seenOk && !seen.isEmpty }

end Model.Prover

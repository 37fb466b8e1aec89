import Verif.Model.Recursive

/-!
# Model of linear rules with `--exp-linear-rules` (`Code/Macro/Proof_System.py`)

Without the option a linear rule is applied as the general rule it contains (`Model/Recursive.lean`); with it, all applications
are made at once.  Here the exponents on the tape are plain integers (huge ones, `ExpInt`, are modelled by their value); the use
of linear rules inside proofs, where exponents are expressions, is not modelled.  Printing and statistics are left out.
-/

namespace Model.Linear
open Model.Expr Model.RuleFunc Model.Prover
open Model.Recursive (strictlyLinear)

variable {σ : Type}

/-- The functions a `Linear_Rule` may contain (`func_list`). -/
inductive Func where
  | sub (f : Subtract)
  | add (f : Add)
  | mult (f : Mult)

/-- `func.min` -/
def Func.min : Func → Int
  | .sub f => f.min
  | .add f => f.min
  | .mult f => f.min

/-- `func.is_decreasing` (Rule_Func.py:27, 52, 70) -/
def Func.isDecreasing : Func → Bool
  | .sub _ => true
  | .add _ => false
  | .mult _ => false

/-- `func.has_collatz_decrease` (Rule_Func.py:28), read for decreasing functions only -/
def Func.collatz : Func → Bool
  | .sub f => f.const > 1
  | .add _ => false
  | .mult _ => false

/-- `func.apply_rep` -/
def Func.applyRep (f : Func) (start : Int) (reps : Int) : Except Err Int :=
  match f with
  | .sub f => .ok (f.applyRep start reps)
  | .add f => .ok (f.applyRep start reps)
  | .mult f => f.applyRep start reps.toNat

/-- 162-168: the function `x -> coef x + const` -/
def mkFunc (min coef const : Int) : Except Err Func :=
  if coef = 1 then
    if const < 0 then (Subtract.new min (-const)).map .sub else (Add.new min const).map .add
  else (Mult.new min coef const).map .mult

/-- `Linear_Rule` (99-138): `var_list` with `func_list`; `min_list` is the minima of the functions (108-112).
`num_steps`, `num_loops`, `name` and the contained general rule are left out. -/
structure LinRule where
  funcs : List (Option (Nat × Func))
  states : List Nat

/-- `self.infinite` (124-138) -/
def LinRule.infinite (r : LinRule) : Bool := !r.funcs.any (fun f => match f with | some (_, f) => f.isDecreasing | none => false)

/-- `self.has_collatz_decrease` (127-135) -/
def LinRule.collatz (r : LinRule) : Bool :=
  r.funcs.any (fun f => match f with | some (_, f) => f.isDecreasing && f.collatz | none => false)

/-- The loop 144-168 of `Linear_Rule.try_gen`. -/
def genFuncs : List (Option (Nat × Int)) → List (Option V) → Out (List (Option (Nat × Func)))
  | none :: vs, _ :: rs =>
    match genFuncs vs rs with
    | .ok l => .ok (none :: l)
    | .fail => .fail
    | .raise => .raise
  | some (x, m) :: vs, r :: rs =>
    match r with
    | none => .fail
    | some v =>
      if v.variables ≠ [x] then .fail
      else match strictlyLinear v with
        | none => .fail
        | some (_, coef, const) =>
          match mkFunc m coef const with
          | .error _ => .raise
          | .ok f =>
            match genFuncs vs rs with
            | .ok l => .ok (some (x, f) :: l)
            | .fail => .fail
            | .raise => .raise
  | [], [] => .ok []
  | _, _ => .raise

/-- `Linear_Rule.try_gen` (140-170) -/
def tryGen (vars : List (Option (Nat × Int))) (result : List (Option V)) (states : List Nat) : Out LinRule :=
  match genFuncs vars result with
  | .ok l => .ok ⟨l, states⟩
  | .fail => .fail
  | .raise => .raise

/-- `config_fits_min` (1431-1440); an infinite exponent where the rule has a variable is not modelled. -/
def fits : List (Option (Nat × Func)) → List (Option Int) → Out Unit
  | some (_, f) :: fs, c :: cs =>
    match c with
    | none => .raise
    | some c => if c - f.min ≥ 0 then fits fs cs else .fail
  | none :: fs, _ :: cs => fits fs cs
  | _, _ => .ok ()

/-- The variables `num_reps`, `limit_index`, `limit_final` (1274-1276), all `None` at first. -/
abbrev Limit := Option (Int × Nat × Int)

/-- The loop 1277-1283, whose next block is number `i`. -/
def scan : Nat → List (Option (Nat × Func)) → List (Option Int) → Limit → Out Limit
  | i, some (_, .sub f) :: fs, c :: cs, lim =>
    match c with
    | none => .raise
    | some c =>
      let (reps, final) := f.maxReps c
      match lim with
      | none => scan (i + 1) fs cs (some (reps, i, final))
      | some (r, j, g) =>
        if r = 0 ∨ reps < r then scan (i + 1) fs cs (some (reps, i, final)) else scan (i + 1) fs cs (some (r, j, g))
  | i, _ :: fs, _ :: cs, lim => scan (i + 1) fs cs lim
  | _, _, _, lim => .ok lim

/-- The loop 1288-1294, whose next block is number `i`. -/
def newCounts (reps : Int) (limit : Nat) (final : Int) : Nat → List (Option (Nat × Func)) → List (Option Int) →
    Out (List (Option Int))
  | i, f :: fs, c :: cs =>
    match newCounts reps limit final (i + 1) fs cs with
    | .raise => .raise
    | .fail => .fail
    | .ok rest =>
      if i = limit then .ok (some final :: rest)
      else match f with
        | none => .ok (c :: rest)
        | some (_, f) =>
          match c with
          | none => .raise
          | some c =>
            match f.applyRep c reps with
            | .error _ => .raise
            | .ok c => .ok (some c :: rest)
  | _, _, cs => .ok cs

/-- `ProverResult` (478-484) with the second value returned, which goes to `large_delta`; there is no number of steps. -/
inductive LinRes (σ : Type) where
  | apply (tape : ChainTape σ Int) (noMeta : Bool)
  | inf (states : List Nat) (noMeta : Bool)
deriving DecidableEq, Repr

/-- the blocks with new exponents -/
def putNums (bs : List (Blk σ Int)) (cs : List (Option Int)) : List (Blk σ Int) :=
  List.zipWith (fun b c => ⟨b.sym, c⟩) bs cs

/-- `apply_linear_rule` (1241-1304) with `exp_linear_rules`; `metaRules` is `exp_meta_linear_rules`. -/
def applyLinear (metaRules : Bool) (r : LinRule) (tape : ChainTape σ Int) : Out (LinRes σ) :=
  let cur := (tape.left ++ tape.right).map (·.num)
  if cur.length ≠ r.funcs.length then .raise
  else
    let noMeta := if metaRules then r.collatz else true
    match fits r.funcs cur with
    | .raise => .raise
    | .fail => .fail
    | .ok _ =>
      if r.infinite then .ok (.inf r.states noMeta)
      else match scan 0 r.funcs cur none with
        | .ok (some (reps, limit, final)) =>
          if reps < 0 then .raise
          else match newCounts reps limit final 0 r.funcs cur with
            | .ok cs =>
              .ok (.apply { tape with
                left := putNums tape.left (cs.take tape.left.length)
                right := putNums tape.right (cs.drop tape.left.length) } noMeta)
            | _ => .raise
        | _ => .raise

end Model.Linear

import Verif.Spec.Expr
import Verif.Spec.RecursiveStrict
import Mathlib.Algebra.BigOperators.Intervals

/-!
# Specification: `--recursive` with exact sums

The steps of a difference rule, summed over its applications.  `SumsRight` says what the sum must be; `exactSum` is `series_sum`
without its two faults: it does not round a half or a sixth down, and it sums a term with the third power of the variable with
its factor.
-/

namespace Spec
open Model Model.Expr Model.Prover Model.Recursive

/-- `sum each k N` is, for whatever values of the variables, the sum of `each` with 0, 1, ..., `N` - 1 for the variable `k`. -/
def SumsRight [Sums] : Prop := ∀ (each : W) (k : Nat) (N total : W), Sums.sum each k N = .ok total →
  ∀ (ρ : Nat → ℚ) (n : Nat), Val.value ρ N = n →
    Val.value ρ total = ∑ i ∈ Finset.range n, Val.value (Function.update ρ k (i : ℚ)) each

/-- the sum of one term -/
def exactTerm (t : Term ℚ) (k : Nat) (N : W) : Except Err W :=
  let pow := ((t.vars.filter (·.var = k)).map (·.pow)).sum
  let vars := t.vars.filter (·.var ≠ k)
  let rest : W := if vars = [] then .num t.coef else .expr ⟨[⟨vars, t.coef⟩], 0⟩
  let N1 := N.sub (.num 1)
  if pow = 0 then .ok (rest.mul N)
  else if pow = 1 then .ok (((rest.mul N).mul N1).mul (.num (1 / 2)))
  else if pow = 2 then .ok ((((rest.mul N).mul N1).mul (((Val.num 2).mul N).sub (.num 1))).mul (.num (1 / 6)))
  else if pow = 3 then .ok (rest.mul (((N.mul N1).mul (.num (1 / 2))).pow 2))
  else .error .notImplemented

def exactLoop (k : Nat) (N : W) : List (Term ℚ) → W → Except Err W
  | [], total => .ok total
  | t :: ts, total =>
    match exactTerm t k N with
    | .error e => .error e
    | .ok x => exactLoop k N ts (total.add x)

def exactSum (e : W) (k : Nat) (N : W) : Except Err W :=
  match e with
  | .num c => .ok ((Val.num c).mul N)
  | .expr e => exactLoop k N e.terms ((Val.num e.const).mul N)

@[reducible] def exactSums : Sums := ⟨exactSum⟩

variable {σ S : Type} [DecidableEq σ] [DecidableEq S]

/-- the simulator with the minima kept and with exact sums -/
def repaired (M : Machine σ S) (o : Opts) (n : Nat) : Base σ S := @afterWith _ _ _ _ exactSums keep M o n

/-- What is to be right beside `RightRec`: the number of steps reported, whatever values are put in for variables left in it. -/
structure RightSteps (T : Table) (M : Machine σ S) (mean : DC σ S → DC Nat (Option Nat)) (n : Nat) (b : Base σ S) : Prop where
  /-- not halted: the machine passes through the configuration shown after that many steps (at least `n`, having visited exactly the
  states recorded, if the simulator is still running) -/
  running : b.g.sim.op = .running ∨ b.g.sim.op = .gaveUp → ∀ ρ : Nat → Nat, ∃ k u, b.g.sim.tape = numbers u ∧
    Represents (mean (tapeDC M.initSym u b.g.sim.st)) (run T k init) ∧ Val.value (fun x => (ρ x : ℚ)) b.g.stepNum = k ∧
    (b.g.sim.op = .running → n ≤ k ∧ ∀ q, q ∈ b.g.sim.seen.map (·.1) ↔ ∃ j, j < k ∧ VisitedAt T init q j)
  /-- halted: the machine halts after that many steps -/
  halted : b.g.sim.op = .halt ∨ b.g.sim.op = .undefined → ∃ k, HaltsAt T init k ∧
    ∀ ρ : Nat → Nat, Val.value (fun x => (ρ x : ℚ)) b.g.stepNum = k

end Spec

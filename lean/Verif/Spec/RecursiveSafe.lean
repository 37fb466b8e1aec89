import Verif.Spec.RecursiveSums

/-!
# Specification: exceptions of `--recursive`

`series_sum` refuses (`NotImplementedError`) to sum a fourth or higher power of the variable.  `patched` is the same simulator with
a sum that gives 0 where `series_sum` refuses.
-/

namespace Spec
open Model Model.Expr Model.Prover Model.Recursive

def defaultSum : Except Err W → Except Err W
  | .ok t => .ok t
  | .error _ => .ok (.num 0)

/-- the same sums, but 0 where there is none -/
@[reducible] def withDefault (how : Sums) : Sums := ⟨fun each k N => defaultSum (@Sums.sum how each k N)⟩

variable {σ S : Type} [DecidableEq σ] [DecidableEq S]

/-- the simulator of the code, but the sum of steps that `series_sum` refuses to compute is 0 -/
def patched (M : Machine σ S) (o : Opts) (n : Nat) : Base σ S := @afterWith _ _ _ _ (withDefault codeSums) lower M o n

/-- The variable `k` occurs in `each` at most to the third power. -/
def LowPower (each : W) (k : Nat) : Prop :=
  match each with
  | .num _ => True
  | .expr e => ∀ t ∈ e.terms, ∀ v ∈ t.vars, v.var = k → v.pow ≤ 3

end Spec

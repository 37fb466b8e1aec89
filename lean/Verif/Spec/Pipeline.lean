import Verif.Spec.TM
import Verif.Spec.Stack
import Verif.Model.Pipeline

/-!
# Specification: what a status message says about a machine
-/

namespace Spec
open Model.Status

/-- the integer stored in a field is `n` -/
def Holds (f : BigInt) (n : Int) : Prop := getBigInt (E := Empty) (fun _ => none) f = some (some (.int n))

/-- The verdict is right: a machine marked as halting halts, a machine marked as infinite never halts. -/
def VerdictOK (T : Table) (s : BBStatus) : Prop :=
  s.halt.decided = true →
    (s.halt.halting = true → ∃ n, HaltsAt T init n) ∧ (s.halt.halting = false → NeverHalts T init)

/-- The step count of a machine marked as halting is right. -/
def StepsOK (T : Table) (s : BBStatus) : Prop :=
  s.halt.decided = true → s.halt.halting = true → ∃ n : Nat, HaltsAt T init n ∧ Holds s.halt.steps n

/-- The score and the last table cell of a machine marked as halting are right. -/
def ScoreOK (T : Table) (s : BBStatus) : Prop :=
  s.halt.decided = true → s.halt.halting = true →
    ∃ n : Nat, HaltsAt T init n ∧ Holds s.halt.score (score (run T n init)) ∧
      (run T (n - 1) init).state = some s.halt.fromState ∧
      (run T (n - 1) init).tape (run T (n - 1) init).pos = s.halt.fromSymbol

/-- What is said about quasihalting is right: if the machine is marked as not quasihalting, then it halts or visits every state it
visits again and again; if it is marked as quasihalting with state `q` at step `n`, then it never halts, `n` is the first step
after the last visit to `q`, and every state visited at `n` or later is visited again and again. -/
def QuasiOK (T : Table) (s : BBStatus) : Prop :=
  s.quasi.decided = true →
    (s.quasi.quasihalting = false →
      (∃ n, HaltsAt T init n) ∨ ∀ q t, VisitedAt T init q t → VisitedForever T init q) ∧
    (s.quasi.quasihalting = true → NeverHalts T init ∧ ∃ n : Nat, Holds s.quasi.steps n ∧ 0 < n ∧
      VisitedAt T init s.quasi.state (n - 1) ∧ (∀ t, n ≤ t → ¬ VisitedAt T init s.quasi.state t) ∧
      ∀ q t, n ≤ t → VisitedAt T init q t → VisitedForever T init q)

open Model Model.Pipeline

/-- In-place repeats can be trusted: without back symbols, or if blocks never give up. -/
def Safe (T : Table) (o : Options) (e : Env) : Prop :=
  o.backsymbol = false ∨ ∀ k, 2 ≤ k → ∀ c cfg, blockValid k c → Represents (blockFlat k 0 c) cfg →
    ((block (simple T) k 0 e.maxBlock).trans c.front c.st c.dir).cond ≠ .gaveUp

end Spec

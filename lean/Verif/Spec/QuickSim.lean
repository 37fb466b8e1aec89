import Verif.Model.QuickSim
import Verif.Spec.Pipeline
import Verif.Spec.Recur

/-!
# Specification: what a report of `Quick_Sim.py` says about a machine
-/

namespace Spec
open Model Model.Status Model.QuickSim

/-- The machine was in state `q` on symbol `a` before its last step `n`. -/
def LastCell (T : Table) (n q a : Nat) : Prop := (run T (n - 1) init).state = some q ∧ (run T (n - 1) init).scanned = a

/-- The state said to be left for good is visited for the last time one step before the time given. -/
def LeftOK (T : Table) (s : BBStatus) : Prop :=
  s.quasi.decided = true → s.quasi.quasihalting = true → ∃ n : Nat, Holds s.quasi.steps n ∧ 0 < n ∧
    VisitedAt T init s.quasi.state (n - 1) ∧ ∀ t, n ≤ t → ¬ VisitedAt T init s.quasi.state t

/-- The report `r` is right.  `steps`: steps are counted; `safe`: the reason "macro step" can be trusted. -/
def ReportOK (T : Table) (steps : Bool) (safe : Prop) (r : Report) : Prop :=
  match r.verdict with
  | .halted n nz =>
    ∃ m q a, HaltsAt T init m ∧ LastCell T m q a ∧ T q a ≠ .undef ∧ nz = score (run T m init) ∧ r.nonzeros = nz ∧
      n = (if steps then some m else none) ∧ r.steps = (if steps then m else 0)
  | .undefined q a n nz =>
    ∃ m, HaltsAt T init m ∧ LastCell T m q a ∧ T q a = .undef ∧ nz = score (run T m init) ∧ r.nonzeros = nz ∧
      n = (if steps then some m else none) ∧ r.steps = (if steps then m else 0)
  | .infinite reason s =>
    (reason ≠ .macroStep ∨ safe → NeverHalts T init) ∧ s.quasi.decided = steps ∧
      (reason ≠ .macroStep → QuasiOK T s) ∧ (safe → LeftOK T s)
  | .gaveUp => ∃ m, (run T m init).state ≠ none ∧ r.nonzeros = score (run T m init) ∧ r.steps = (if steps then m else 0)
  | .unexpected =>
    ∃ m, (run T m init).state ≠ none ∧ r.nonzeros = score (run T m init) ∧ r.steps = (if steps then m else 0) ∧ r.loops ≤ m

/-- In-place repeats can be trusted: without back symbols, or if no block of the size used gives up. -/
def QuickSafe (T : Table) (o : Model.QuickSim.Options) (e : Model.QuickSim.Env) : Prop :=
  o.backsymbol = false ∨ ∀ k, size T o e = .size k → 2 ≤ k → ∀ c cfg, blockValid k c → Represents (blockFlat k 0 c) cfg →
    ((block (simple T) k 0 o.maxStepsInBlock).trans c.front c.st c.dir).cond ≠ .gaveUp

end Spec

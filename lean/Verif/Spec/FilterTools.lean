import Verif.Spec.Pipeline
import Verif.Model.FilterTools

/-!
# Specification: what a filter program may do to a file of records
-/

namespace Spec
open Model.Status Model.FilterTools

/-- Everything the status says about the machine is right. -/
def Right (r : Record) : Prop :=
  VerdictOK r.table r.status ∧ StepsOK r.table r.status ∧ ScoreOK r.table r.status ∧ QuasiOK r.table r.status

/-- the records of a file are well-formed machines with right statuses -/
def RightFile (rs : List Record) : Prop := ∀ r ∈ rs, WFTable r.table r.nS r.nK ∧ Right r

/-- If everything in a file is right, then so is everything in the file that the program writes. -/
def StaysRight (f : Record → Option BBStatus) : Prop :=
  ∀ rs, RightFile rs → ∀ r ∈ (mainLoop f rs).1, Right r

/-- The `i`-th record written has the machine of the `i`-th record read; if the program comes to its end, then one record
is written for each record read. -/
def SameMachines (f : Record → Option BBStatus) : Prop :=
  ∀ rs, (mainLoop f rs).1.map Record.machine <+: rs.map Record.machine ∧
    ((mainLoop f rs).2 = true → (mainLoop f rs).1.length = rs.length)

/-- Whether a machine halts is not forgotten, with its data. -/
def KeepsHalting (f : Record → Option BBStatus) : Prop :=
  ∀ rs, RightFile rs → ∀ (i : Nat) (r r' : Record), rs[i]? = some r → (mainLoop f rs).1[i]? = some r' → r.status.halt.decided = true →
    r'.status.halt.decided = true ∧ r'.status.halt.halting = r.status.halt.halting ∧
    (r.status.halt.halting = true → r'.status = r.status)

/-- What is known about quasihalting is not forgotten. -/
def KeepsQuasihalting (f : Record → Option BBStatus) : Prop :=
  ∀ rs, RightFile rs → ∀ (i : Nat) (r r' : Record), rs[i]? = some r → (mainLoop f rs).1[i]? = some r' → r.status.quasi.decided = true →
    r'.status.quasi = r.status.quasi

/-- A record is changed only if the machine is newly marked as infinite, for the given reason. -/
def ChangesOnlyInfinite (f : Record → Option BBStatus) (reason : Nat) : Prop :=
  ∀ rs, ∀ (i : Nat) (r r' : Record), rs[i]? = some r → (mainLoop f rs).1[i]? = some r' → r'.status = r.status ∨
    (r'.status.halt.decided = true ∧ r'.status.halt.halting = false ∧ r'.status.halt.infReason = reason)

/-- The machines for which `decider` says yes are marked as infinite, for the given reason. -/
def MarksInfinite (f : Record → Option BBStatus) (decider : Record → Option Bool) (reason : Nat) : Prop :=
  ∀ rs, ∀ (i : Nat) (r r' : Record), rs[i]? = some r → (mainLoop f rs).1[i]? = some r' → decider r = some true →
    r'.status.halt.decided = true ∧ r'.status.halt.halting = false ∧ r'.status.halt.infReason = reason

/-- The program comes to the end of every file of well-formed machines. -/
def Finishes (f : Record → Option BBStatus) : Prop :=
  ∀ rs, (∀ r ∈ rs, WFTable r.table r.nS r.nK) → (mainLoop f rs).2 = true

end Spec

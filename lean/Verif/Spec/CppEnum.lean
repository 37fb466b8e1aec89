import Verif.Spec.Cpp
import Verif.Spec.Rename
import Verif.Spec.Recur

/-!
# Specification for the C++ enumeration with the linear recurrence detector
-/

namespace Spec

/-- From step `start` on the machine does not halt, and after each period it is in the same state at the same symbol, further
on the tape by the offset. -/
structure Recurs (M : Table) (period : Nat) (offset : Int) (start : Nat) : Prop where
  pos : 0 < period
  runs : NeverHalts M init
  again : ∀ t, start ≤ t → (run M (t + period) init).state = (run M t init).state ∧
    (run M (t + period) init).scanned = (run M t init).scanned ∧ (run M (t + period) init).pos = (run M t init).pos + offset

/-- `P` is a restriction of `M` up to renaming of states other than the first, renaming of symbols other than the blank, and
mirroring. -/
def StandsIn (n m : Nat) (M P : Table) : Prop := ∃ ρ : Renaming n m, ρ.st 0 = 0 ∧ ρ.sy 0 = 0 ∧ RestrictsTo ρ M P

end Spec

namespace Model.Cpp
open Spec

/-- the line begins with the text of a machine with `n` states and `m` symbols, with table `M` -/
def ReadsAs (n m : Nat) (line : List Char) (M : Table) : Prop := ∃ tm, readTM line = .ok tm ∧ tm.Shaped n m ∧ tm.table = M

/-- the machine `M` is accounted for by the three files -/
def Covered (n m : Nat) (M : Table) (halt inf unknown : List (List Char)) : Prop :=
  (∃ (k : Nat) (text : String) (P : Table), HaltsAt M init k ∧ (s!"{text} | Halt {k}").toList ∈ halt ∧ ReadsAs n m text.toList P ∧
    StandsIn n m M P ∧ HaltsAt P init k) ∨
  (∃ line ∈ inf, ∃ P, NeverHalts M init ∧ ReadsAs n m line P ∧ StandsIn n m M P) ∨
  (∃ line ∈ unknown, ∃ P, ReadsAs n m line P ∧ StandsIn n m M P)

end Model.Cpp

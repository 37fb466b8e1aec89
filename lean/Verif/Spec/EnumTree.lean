import Verif.Model.Enum
import Verif.Model.Status
import Verif.Spec.Enum

/-!
# Specification: the tree of machines, and what an enumeration run may assume
-/

namespace Model.IO
open Spec
open Model.Status (BBStatus)

/-- The machines that the enumeration generates from `root`: it, and the children of generated machines at the
undefined cell that they reach. -/
inductive InTree (root : TMEnum) : TMEnum → Prop
  | root : InTree root root
  | child {e e' : TMEnum} {t q a : Nat} {cs : List TMEnum} : InTree root e → StuckAt e.tm.table t q a →
      e.enumChildren q a = some cs → e' ∈ cs → InTree root e'

/-- a sensible machine that fits into a packed record -/
structure TMEnum.Good (e : TMEnum) : Prop where
  wf : e.tm.WF
  moves : e.tm.Moves
  states : e.tm.nStates ≤ 7
  syms : e.tm.nSyms ≤ 7
  two : 2 ≤ e.tm.nSyms

/-- the decider reports halting at undefined cells only -/
def HaltsUndefined (x : BBStatus) (e : TMEnum) : Prop :=
  x.halt.decided = true → x.halt.halting = true →
    x.halt.fromState < e.tm.nStates ∧ x.halt.fromSymbol < e.tm.nSyms ∧ e.tm.table x.halt.fromState x.halt.fromSymbol = .undef

end Model.IO

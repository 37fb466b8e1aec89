import Verif.Model.MPI
import Mathlib.Data.Multiset.AddSub
import Mathlib.Algebra.BigOperators.Group.Finset.Basic
import Mathlib.Algebra.Order.Group.Multiset

/-!
# Specification: where the jobs are
-/

namespace Model.MPI
variable {n : Nat} {J : Type}

/-- the state `s` can occur when the master starts with `jobs` -/
def Reachable (jobs : List J) (s : Sys n J) : Prop := ∃ ls, Sys.exec ls (Sys.start n jobs) = some s

/-- the jobs in a message to the master -/
def WMsg.jobs : WMsg J → Multiset J
  | .push js => js
  | _ => 0

/-- the jobs on the way from worker `w` to the master -/
def Sys.toMaster (s : Sys n J) (w : Fin n) : Multiset J :=
  ((s.wire w).map WMsg.jobs).sum + ((s.inbox w).map WMsg.jobs).sum

/-- the jobs on the way from the master to worker `w` -/
def Sys.toWorker (s : Sys n J) (w : Fin n) : Multiset J := ((s.pops w).map fun js => (js : Multiset J)).sum

/-- the jobs at worker `w`, on the way from it or on the way to it -/
def Sys.held (s : Sys n J) (w : Fin n) : Multiset J := (s.worker w).queue + s.toMaster w + s.toWorker w

end Model.MPI

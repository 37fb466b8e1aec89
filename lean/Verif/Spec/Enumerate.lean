import Verif.Model.Enumerate

/-!
# Specification: what an enumeration run should do
-/

namespace Model.IO
open Model.Status (BBStatus)

/-- A work queue keeps what is put into it: `contents s` are the jobs in the queue. -/
structure LawfulQueue {σ α : Type} (I : QueueImpl σ α) (contents : σ → List α) : Prop where
  new : contents I.new = []
  pop_none : ∀ s, (I.pop s).1 = none → contents s = [] ∧ contents (I.pop s).2 = []
  pop_some : ∀ s x, (I.pop s).1 = some x → (contents s).Perm (x :: contents (I.pop s).2)
  push : ∀ s x, (contents (I.push s x)).Perm (x :: contents s)
  pushAll : ∀ s xs, (contents (I.pushAll s xs)).Perm (xs ++ contents s)

/-- the record says that its machine halts -/
def Rec.Halted (r : Rec) : Prop := r.status.halt.decided = true ∧ r.status.halt.halting = true

instance (r : Rec) : Decidable r.Halted := by unfold Rec.Halted; infer_instance

/-- the record before its machine was run -/
def Rec.unrun (r : Rec) : Rec := { r with status := .empty }

/-- the record after its machine was run with the given result -/
def Rec.ran (r : Rec) (x : BBStatus) : Rec := { r with status := x }

/-- the new machines that a record gives rise to -/
def Rec.kids (r : Rec) : List Rec := if r.Halted then (expand r).getD [] else []

/-- the record as it is written -/
def Rec.written (r : Rec) : Rec := if r.Halted then (standardize r).getD r else r

/-- no exception is raised when the record is handled -/
def Rec.Handled (r : Rec) : Prop := r.Halted → (expand r).isSome ∧ (standardize r).isSome

end Model.IO

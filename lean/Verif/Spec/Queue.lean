import Verif.Model.WorkQueue

/-!
# Specification of work queues: a sequence of waiting jobs, oldest first
-/

namespace Spec
open Model (QOp)

/-- the jobs pushed in a history, oldest first -/
def pushed {α : Type} : List (QOp α) → List α
  | [] => []
  | .pop :: ops => pushed ops
  | .push x :: ops => x :: pushed ops
  | .pushAll xs :: ops => xs ++ pushed ops

/-- Which waiting job a pop takes: `take waiting` is this job and those that remain, `none` if no job is waiting. -/
abbrev Discipline (α : Type) := List α → Option (α × List α)

/-- the most recent one -/
def newest {α : Type} : Discipline α := fun l => if h : l = [] then none else some (l.getLast h, l.dropLast)

/-- the oldest one -/
def oldest {α : Type} : Discipline α
  | [] => none
  | x :: l => some (x, l)

/-- what a history of operations should return: results of the pops, and the jobs that wait at the end -/
def ideal {α : Type} (D : Discipline α) : List (QOp α) → List α → List (Option α) × List α
  | [], w => ([], w)
  | .push x :: ops, w => ideal D ops (w ++ [x])
  | .pushAll xs :: ops, w => ideal D ops (w ++ xs)
  | .pop :: ops, w =>
    match D w with
    | none => (none :: (ideal D ops w).1, (ideal D ops w).2)
    | some (x, w') => (some x :: (ideal D ops w').1, (ideal D ops w').2)

/-- the number of waiting jobs before each operation of a history that starts with `n` waiting jobs -/
def sizesBefore {α : Type} : List (QOp α) → Nat → List Nat
  | [], _ => []
  | .pop :: ops, n => n :: sizesBefore ops (n - 1)
  | .push _ :: ops, n => n :: sizesBefore ops (n + 1)
  | .pushAll xs :: ops, n => n :: sizesBefore ops (n + xs.length)

end Spec

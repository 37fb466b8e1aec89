import Verif.Model.Py

/-!
# Model of `Code/Work_Queue.py`
-/

namespace Model

/-- `Basic_LIFO_Work_Queue` (25-33): the end of the list is the top of the stack -/
structure LIFO (α : Type) where
  queue : List α
  sizeQueue : Nat
  minQueue : Nat
  maxQueue : Nat

namespace LIFO
variable {α : Type}

/-- `__init__` (28-32) -/
def new : LIFO α := { queue := [], sizeQueue := 0, minQueue := 0, maxQueue := 0 }

/-- `save_stats` (52-55) -/
def saveStats (s : LIFO α) : LIFO α :=
  { s with sizeQueue := s.queue.length, minQueue := min s.minQueue s.queue.length, maxQueue := max s.maxQueue s.queue.length }

/-- `pop_job` (34-40); `list.pop` takes the last element -/
def popJob (s : LIFO α) : Option α × LIFO α :=
  let s := s.saveStats
  match s.queue.getLast? with
  | none => (none, s)
  | some x => (some x, { s with queue := s.queue.dropLast })

/-- `push_job` (42-45) -/
def pushJob (s : LIFO α) (job : α) : LIFO α := { s.saveStats with queue := s.queue ++ [job] }

/-- `push_jobs` (47-50) -/
def pushJobs (s : LIFO α) (jobs : List α) : LIFO α := { s.saveStats with queue := s.queue ++ jobs }

/-- `get_stats` (57-66) -/
def getStats (s : LIFO α) : (Nat × Nat × Nat) × LIFO α :=
  ((s.sizeQueue, s.minQueue, s.maxQueue),
    { s with sizeQueue := s.queue.length, minQueue := s.queue.length, maxQueue := s.queue.length })

end LIFO

/-- `Basic_FIFO_Work_Queue` (69-73) -/
structure FIFO (α : Type) where
  queue : List α

namespace FIFO
variable {α : Type}

/-- `__init__` (72-73) -/
def new : FIFO α := { queue := [] }

/-- `pop_job` (75-79) -/
def popJob (s : FIFO α) : Option α × FIFO α :=
  match s.queue with
  | [] => (none, s)
  | x :: q => (some x, { queue := q })

/-- `push_job` (81-82) -/
def pushJob (s : FIFO α) (job : α) : FIFO α := { queue := s.queue ++ [job] }

/-- `push_jobs` (84-85) -/
def pushJobs (s : FIFO α) (jobs : List α) : FIFO α := { queue := s.queue ++ jobs }

end FIFO

/-- The interface `Work_Queue` (3-23), for either implementation: what the two methods do to the state -/
structure QueueImpl (σ α : Type) where
  new : σ
  pop : σ → Option α × σ
  push : σ → α → σ
  pushAll : σ → List α → σ

def lifoImpl (α : Type) : QueueImpl (LIFO α) α :=
  { new := LIFO.new, pop := LIFO.popJob, push := LIFO.pushJob, pushAll := LIFO.pushJobs }
def fifoImpl (α : Type) : QueueImpl (FIFO α) α :=
  { new := FIFO.new, pop := FIFO.popJob, push := FIFO.pushJob, pushAll := FIFO.pushJobs }

/-- the operations a user can make -/
inductive QOp (α : Type)
  | pop
  | push (x : α)
  | pushAll (xs : List α)

/-- a history of operations: the results of the pops, and the final state -/
def runOps {σ α : Type} (I : QueueImpl σ α) : List (QOp α) → σ → List (Option α) × σ
  | [], s => ([], s)
  | .pop :: ops, s => let r := I.pop s; let rest := runOps I ops r.2; (r.1 :: rest.1, rest.2)
  | .push x :: ops, s => runOps I ops (I.push s x)
  | .pushAll xs :: ops, s => runOps I ops (I.pushAll s xs)

end Model

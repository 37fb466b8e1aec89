import Verif.Model.Py
import Mathlib.Data.List.FinRange
import Mathlib.Logic.Function.Basic

/-!
# Model of `Code/MPI_Work_Queue.py`

One master and `n` workers (ranks 1 to `n`, here 0 to `n - 1`).  Messages from a worker to the master are delivered in
order: `wire` holds those on the way, `inbox` those that have arrived, from which the master picks by tag.  A `Label`
names one atomic action of one process together with its outside influences (which job was run and pushed, whether a timer
has expired, how many updates have arrived, whose message is received).  Not modelled: timing statistics and printing.
-/

namespace Model.MPI

/-- `DEFAULT_MAX_LOCAL_JOBS`, `DEFAULT_TARGET_LOCAL_JOBS`, `MIN_NUM_JOBS_PER_BATCH`, `MAX_NUM_JOBS_PER_BATCH` (21-25) -/
def defaultMax : Nat := 30
def defaultTarget : Nat := 25
def minBatch : Nat := 10
def maxBatch : Nat := 25

/-- a Python number: an integer, or the float `m / 4` -/
inductive Num
  | int (i : Int)
  | quarters (m : Nat)
  deriving DecidableEq, Repr

/-- `n * 3 / 4`: true division gives a float -/
def threeQuarters (n : Nat) : Num := .quarters (n * 3)

/-- the position that a slice index stands for -/
def sliceIndex {α : Type} (l : List α) (i : Int) : Nat := (if i < 0 then max 0 (l.length + i) else i).toNat

/-- `l[:x]`; `none` is the `TypeError` for floats -/
def sliceTo {α : Type} (l : List α) : Num → Option (List α)
  | .int i => some (l.take (sliceIndex l i))
  | .quarters _ => none

/-- `l[x:]` -/
def sliceFrom {α : Type} (l : List α) : Num → Option (List α)
  | .int i => some (l.drop (sliceIndex l i))
  | .quarters _ => none

/-- `-x`; the value of a float does not matter in a slice -/
def Num.neg : Num → Num
  | .int i => .int (-i)
  | .quarters m => .quarters m

/-- what a worker process is doing -/
inductive Phase
  | running
  | waiting      -- in `comm.recv` of `pop_job`
  | done         -- `pop_job` has returned `None`
  | crashed
  deriving DecidableEq, Repr

/-- `MPI_Worker_Work_Queue.__init__` (32-62) -/
structure Worker (J : Type) where
  queue : List J
  maxSize : Nat
  target : Num
  phase : Phase

def Worker.new {J : Type} : Worker J := { queue := [], maxSize := defaultMax, target := .int defaultTarget, phase := .running }

/-- messages to the master -/
inductive WMsg (J : Type)
  | waiting
  | push (jobs : List J)
  | report (size : Nat)

namespace Worker
variable {J : Type}

/-- `_report_queue_size` (148-153); `due`: the interval is over -/
def report (w : Worker J) (due : Bool) : List (WMsg J) := if due then [.report w.queue.length] else []

/-- `pop_job` (75-80 and 81-90): the job returned, if any, the messages sent, the worker afterwards -/
def popJob (w : Worker J) (due : Bool) : Option J × List (WMsg J) × Worker J :=
  match w.queue.getLast? with
  | some x => (some x, w.report due, { w with queue := w.queue.dropLast })
  | none => (none, [.waiting], { w with phase := .waiting })

/-- `pop_job` (90-101), when the answer `jobs` has come -/
def recvJobs (w : Worker J) (jobs : List J) : Option J × Worker J :=
  let q := w.queue ++ jobs
  match q.getLast? with
  | some x => (some x, { w with queue := q.dropLast, phase := .running })
  | none => (none, { w with queue := q, phase := .done })

/-- `_update_max_queue_size` (129-135): the sizes received, in order -/
def updateMax (w : Worker J) (sizes : List Nat) : Worker J :=
  sizes.foldl (fun w n => { w with maxSize := n, target := threeQuarters n }) w

/-- `_send_extra` (137-146): `none` if the slice raises a `TypeError` -/
def sendExtra (w : Worker J) : Option (List (WMsg J) × Worker J) :=
  if w.queue.length > w.maxSize then
    match sliceTo w.queue w.target.neg, sliceFrom w.queue w.target.neg with
    | some extra, some rest => some ([.push extra], { w with queue := rest })
    | _, _ => none
  else some ([], w)

/-- `push_jobs` (106-111) -/
def pushJobs (w : Worker J) (jobs : List J) (sizes : List Nat) (due : Bool) : List (WMsg J) × Worker J :=
  let w := ({ w with queue := w.queue ++ jobs } : Worker J).updateMax sizes
  match w.sendExtra with
  | none => ([], { w with phase := .crashed })
  | some (msgs, w) => (msgs ++ w.report due, w)

end Worker

/-- where the master is in `run_master` -/
inductive MPc
  | probe                                  -- 233
  | waits                                  -- 237
  | pushes                                 -- 247
  | reports                                -- 252
  | update                                 -- 261
  | check (target : Num)                   -- 285
  | send (batch : Num) (increase : Int) (count : Int)   -- 308
  | quit                                   -- 290
  | crashed
  deriving DecidableEq, Repr

/-- the whole system; `pushed` and `ran` record the jobs given to `push_jobs` and returned by `pop_job` so far -/
structure Sys (n : Nat) (J : Type) where
  worker : Fin n → Worker J
  wire : Fin n → List (WMsg J)
  inbox : Fin n → List (WMsg J)
  pops : Fin n → List (List J)
  ups : Fin n → List Nat
  queue : List J
  busy : Fin n → Bool
  wsize : Fin n → Nat
  pc : MPc
  pushed : List J
  ran : List J

/-- the start: `Master.push_job` (201-202) has been called for `jobs` -/
def Sys.start (n : Nat) {J : Type} (jobs : List J) : Sys n J :=
  { worker := fun _ => .new, wire := fun _ => [], inbox := fun _ => [], pops := fun _ => [], ups := fun _ => []
    queue := jobs, busy := fun _ => true, wsize := fun _ => 0, pc := .probe, pushed := [], ran := [] }

inductive Label (n : Nat) (J : Type)
  | deliver (w : Fin n)
  | pop (w : Fin n) (due : Bool)
  | recv (w : Fin n)
  | push (w : Fin n) (jobs : List J) (arrived : Nat) (due : Bool)
  | master (w : Fin n) (due : Bool) (cancelled : Fin n → Bool)

/-- remove the first message that `f` selects (`comm.recv` with a tag) -/
def takeMsg {J β : Type} (f : WMsg J → Option β) : List (WMsg J) → Option (β × List (WMsg J))
  | [] => none
  | m :: ms =>
    match f m with
    | some b => some (b, ms)
    | none => (takeMsg f ms).map fun x => (x.1, m :: x.2)

def WMsg.waiting? {J : Type} : WMsg J → Option Unit
  | .waiting => some ()
  | _ => none
def WMsg.push? {J : Type} : WMsg J → Option (List J)
  | .push js => some js
  | _ => none
def WMsg.report? {J : Type} : WMsg J → Option Nat
  | .report k => some k
  | _ => none

/-- `min(a, t)` of an integer and a float: the first unless the second is smaller -/
def Num.pyMin (a : Nat) : Num → Num
  | .int i => if i < a then .int i else .int a
  | .quarters m => if m < 4 * a then .quarters m else .int a

/-- `x + 1` -/
def Num.succ : Num → Num
  | .int i => .int (i + 1)
  | .quarters m => .quarters (m + 4)

section
variable {n : Nat} {J : Type}

/-- some worker has a message of this kind in the inbox (`comm.Iprobe`) -/
def Sys.probeAny (s : Sys n J) {β : Type} (f : WMsg J → Option β) : Bool :=
  (List.finRange n).any fun w => (takeMsg f (s.inbox w)).isSome

/-- `num_waiting` (292) -/
def Sys.numWaiting (s : Sys n J) : Nat := (List.finRange n).countP fun w => !s.busy w

/-- `worker_state.index(False)` (313) -/
def Sys.firstWaiting (s : Sys n J) : Option (Fin n) := (List.finRange n).find? fun w => !s.busy w

/-- `max_queue_size` (261-263) -/
def Sys.maxQueueSize (s : Sys n J) : Nat :=
  max ((s.queue.length + ((List.finRange n).map s.wsize).sum) / (n + 1)) maxBatch

/-- `increase_count` (304): what it is compared with is an integer; a float with a fraction never equals one -/
def increaseCount (batch : Num) (numWaiting queueLength : Nat) : Int :=
  match batch with
  | .int b => (b + 1) * numWaiting - queueLength
  | .quarters m => if (m + 4) * numWaiting % 4 = 0 then ((m + 4) * numWaiting / 4 : Nat) - queueLength else -1

/-- one statement of `run_master` (231-321); `w` says whose message is received next, `due` whether the update interval is
over, `cancelled` which of the previous updates can still be cancelled -/
def Sys.masterStep (s : Sys n J) (w : Fin n) (due : Bool) (cancelled : Fin n → Bool) : Option (Sys n J) :=
  match s.pc with
  | .probe => if (List.finRange n).any fun v => !(s.inbox v).isEmpty then some { s with pc := .waits } else none
  | .waits =>
    if s.probeAny WMsg.waiting? then
      match takeMsg WMsg.waiting? (s.inbox w) with
      | none => none
      | some (_, rest) =>
        some { s with inbox := Function.update s.inbox w rest
                      busy := Function.update s.busy w false
                      wsize := Function.update s.wsize w 0 }
    else some { s with pc := .pushes }
  | .pushes =>
    if s.probeAny WMsg.push? then
      match takeMsg WMsg.push? (s.inbox w) with
      | none => none
      | some (js, rest) => some { s with inbox := Function.update s.inbox w rest, queue := s.queue ++ js }
    else some { s with pc := .reports }
  | .reports =>
    if s.probeAny WMsg.report? then
      match takeMsg WMsg.report? (s.inbox w) with
      | none => none
      | some (k, rest) =>
        some { s with inbox := Function.update s.inbox w rest, wsize := Function.update s.wsize w k }
    else some { s with pc := .update }
  | .update =>
    let m := s.maxQueueSize
    let ups := if due then fun v => (if cancelled v then (s.ups v).dropLast else s.ups v) ++ [m] else s.ups
    some { s with ups := ups, pc := .check (threeQuarters m) }
  | .check target =>
    if s.queue.isEmpty ∧ (List.finRange n).all fun v => !s.busy v then
      some { s with pops := fun v => s.pops v ++ [[]], pc := .quit }
    else if s.numWaiting > 0 then
      let batch := Num.pyMin (max minBatch (s.queue.length / s.numWaiting)) target
      some { s with pc := .send batch (increaseCount batch s.numWaiting s.queue.length) 0 }
    else some { s with pc := .probe }
  | .send batch inc count =>
    if s.queue.isEmpty then some { s with pc := .probe }
    else
      match s.firstWaiting with
      | none => some { s with pc := .probe }
      | some v =>
        match sliceTo s.queue batch, sliceFrom s.queue batch with
        | some block, some rest =>
          some { s with queue := rest
                        pops := Function.update s.pops v (s.pops v ++ [block])
                        wsize := Function.update s.wsize v (s.wsize v + block.length)
                        busy := Function.update s.busy v true
                        pc := .send (if count + 1 = inc then batch.succ else batch) inc (count + 1) }
        | _, _ => some { s with pc := .crashed }
  | .quit => none
  | .crashed => none

/-- one action; `none` if it is not possible -/
def Sys.act (s : Sys n J) : Label n J → Option (Sys n J)
  | .deliver w =>
    match s.wire w with
    | [] => none
    | m :: ms =>
      some { s with wire := Function.update s.wire w ms, inbox := Function.update s.inbox w (s.inbox w ++ [m]) }
  | .pop w due =>
    if (s.worker w).phase = .running then
      let r := (s.worker w).popJob due
      some { s with worker := Function.update s.worker w r.2.2
                    wire := Function.update s.wire w (s.wire w ++ r.2.1)
                    ran := s.ran ++ r.1.toList }
    else none
  | .recv w =>
    if (s.worker w).phase = .waiting then
      match s.pops w with
      | [] => none
      | js :: rest =>
        let r := (s.worker w).recvJobs js
        some { s with worker := Function.update s.worker w r.2
                      pops := Function.update s.pops w rest
                      ran := s.ran ++ r.1.toList }
    else none
  | .push w js arrived due =>
    if (s.worker w).phase = .running then
      let r := (s.worker w).pushJobs js ((s.ups w).take arrived) due
      some { s with worker := Function.update s.worker w r.2
                    wire := Function.update s.wire w (s.wire w ++ r.1)
                    ups := Function.update s.ups w ((s.ups w).drop arrived)
                    pushed := s.pushed ++ js }
    else none
  | .master w due cancelled => s.masterStep w due cancelled

/-- a schedule -/
def Sys.exec : List (Label n J) → Sys n J → Option (Sys n J)
  | [], s => some s
  | l :: ls, s => (s.act l).bind (Sys.exec ls)

end

end Model.MPI

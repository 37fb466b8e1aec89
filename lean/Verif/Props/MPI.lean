import Verif.Lemmas.MPI2

/-!
# C38, C39: the parallel work queue
-/

namespace Props
open Model.MPI

/-! ## C38 -/

/-- **C38.** At every moment every job given to the master at the start or pushed by a worker is in exactly one place:
returned by a `pop_job` (once), in the queue of the master, in the queue of a worker, or in a message. -/
theorem C38_conservation {n : Nat} {J : Type} (jobs : List J) (s : Sys n J) (h : Reachable jobs s) :
    (jobs + s.pushed : Multiset J) = s.ran + s.queue + ∑ w, ((s.worker w).queue + s.toMaster w + s.toWorker w) :=
  reachable_total h

/-- **C38.** When the master announces the end, every job has been run, and no job is left anywhere. -/
theorem C38_quit {n : Nat} {J : Type} (jobs : List J) (s : Sys n J) (h : Reachable jobs s) (hq : s.pc = .quit) :
    (s.ran).Perm (jobs ++ s.pushed) ∧ s.queue = [] ∧
      ∀ w, (s.worker w).queue = [] ∧ s.toMaster w = 0 ∧ s.toWorker w = 0 ∧
        ((s.worker w).phase = .waiting ∨ (s.worker w).phase = .done) := by
  have hi := reachable_inv h
  have ht := reachable_total h
  have hh : ∀ w, s.held w = 0 := fun w => (inv_quit hi hq w).1
  refine ⟨?_, hi.quit hq, fun w => ?_⟩
  · unfold Sys.total at ht
    simp only [hh, Finset.sum_const_zero, add_zero, hi.quit hq, Multiset.coe_nil] at ht
    rw [Multiset.coe_add] at ht
    exact (Multiset.coe_eq_coe.1 ht).symm
  · have h0 := hh w
    unfold Sys.held at h0
    have hc := congrArg Multiset.card h0
    simp only [Multiset.card_add, Multiset.card_zero, Multiset.coe_card] at hc
    refine ⟨List.length_eq_zero_iff.1 (by omega), Multiset.card_eq_zero.1 (by omega), Multiset.card_eq_zero.1 (by omega), ?_⟩
    rcases (inv_quit hi hq w).2 with ⟨h, -⟩ | ⟨h, -⟩
    · exact Or.inl h
    · exact Or.inr h

/-- **C38.** A worker ends (its `pop_job` returns `None`) only after every job has been run. -/
theorem C38_worker_ends {n : Nat} {J : Type} (jobs : List J) (s : Sys n J) (h : Reachable jobs s) (w : Fin n)
    (hd : (s.worker w).phase = .done) : (s.ran).Perm (jobs ++ s.pushed) := by
  have hw := (reachable_inv h).worker w
  have hq : s.pc = .quit := by
    generalize s.worker w = w' at hw hd
    generalize s.wire w = wire at hw
    generalize s.inbox w = inbox at hw
    generalize s.pops w = pops at hw
    generalize s.busy w = busy at hw
    cases hw with
    | work hp => rcases hp with hp | hp <;> simp [hp] at hd
    | ask hp => simp [hp] at hd
    | asked hp => simp [hp] at hd
    | wait hp => simp [hp] at hd
    | answer hp => simp [hp] at hd
    | bye hp => simp [hp] at hd
    | fin hp he g2 hq => exact hq
  exact (C38_quit jobs s h hq).1

/-- **C38.** There is no deadlock: with at least one worker, a state in which nothing can happen is one in which the master
has announced the end and all workers have ended, or a process has crashed (C39). -/
theorem C38_no_deadlock {n : Nat} (hn : 0 < n) {J : Type} (jobs : List J) (s : Sys n J) (h : Reachable jobs s)
    (hs : ∀ l, s.act l = none) :
    s.pc = .crashed ∨ (∃ w, (s.worker w).phase = .crashed) ∨ s.pc = .quit ∧ ∀ w, (s.worker w).phase = .done :=
  inv_progress hn (reachable_inv h) hs

/-- a step of the master -/
def mst (w : Fin 2) : Label 2 Nat := .master w false (fun _ => false)

/-- two workers and one job, which gives rise to two further jobs, to the end -/
def sched : List (Label 2 Nat) :=
  [.pop 0 false, .pop 1 false, .deliver 0, .deliver 1] ++
  -- the master answers worker 0
  [mst 0, mst 0, mst 1, mst 0, mst 0, mst 0, mst 0, mst 0, mst 0, mst 0] ++
  -- worker 0 gets job 7, pushes 8 and 9 and runs them
  [.recv 0, .push 0 [8, 9] 0 true, .pop 0 false, .pop 0 false, .pop 0 false, .deliver 0, .deliver 0] ++
  [mst 0, mst 0, mst 0, mst 0, mst 0, mst 0, mst 0, mst 0] ++ [.recv 0, .recv 1]

example : ((Sys.exec sched (Sys.start 2 [7])).map fun s =>
    (s.ran, s.pushed, s.pc, (s.worker 0).phase, (s.worker 1).phase)) =
      some ([7, 9, 8], [8, 9], .quit, .done, .done) := by decide +kernel

/-! ## C39 -/

/-- **C39 (partial).** A worker that has not received a new queue size never crashes when it pushes jobs, and what it keeps
and sends is what it had. -/
theorem C39_no_update_partial {J : Type} (w : Worker J) (i : Int) (hi : w.target = .int i) (hw : w.phase = .running)
    (jobs : List J) (due : Bool) : (w.pushJobs jobs [] due).2.phase = .running ∧
      ∃ extra, w.queue ++ jobs = extra ++ (w.pushJobs jobs [] due).2.queue := by
  unfold Worker.pushJobs Worker.updateMax Worker.sendExtra
  simp only [List.foldl_nil, hi, Num.neg, sliceTo, sliceFrom]
  split
  · rename_i h
    split at h <;> simp at h
  · rename_i msgs w' h
    split at h
    · simp only [Option.some.injEq, Prod.mk.injEq] at h
      obtain ⟨-, rfl⟩ := h
      exact ⟨hw, _, (List.take_append_drop _ _).symm⟩
    · simp only [Option.some.injEq, Prod.mk.injEq] at h
      obtain ⟨-, rfl⟩ := h
      exact ⟨hw, [], rfl⟩

/-- **C39, violated.** Once a worker has received a new queue size, having more jobs than that size always crashes it: the
slice index is a float. -/
theorem C39_crash {J : Type} (w : Worker J) (hw : w.phase = .running) (jobs : List J) (sizes : List Nat) (size : Nat) (due : Bool) :
    (w.pushJobs jobs (sizes ++ [size]) due).2.phase = .crashed ↔ size < w.queue.length + jobs.length := by
  have e : ({ w with queue := w.queue ++ jobs } : Worker J).updateMax (sizes ++ [size]) =
      { w with queue := w.queue ++ jobs, maxSize := size, target := threeQuarters size } := by
    unfold Worker.updateMax
    rw [List.foldl_append]
    have h := updateMax_queue ({ w with queue := w.queue ++ jobs } : Worker J) sizes
    unfold Worker.updateMax at h
    simp only [List.foldl_cons, List.foldl_nil]
    generalize List.foldl _ _ sizes = x at h ⊢
    obtain ⟨h1, h2⟩ := h
    simp only at h1 h2
    simp only [h1, h2]
  unfold Worker.pushJobs
  simp only [e]
  unfold Worker.sendExtra
  simp only [threeQuarters, Num.neg, sliceTo, sliceFrom, List.length_append]
  by_cases hc : size < w.queue.length + jobs.length
  · simp [hc]
  · simp [hc, hw]

/-- **C39, violated, reachable.** One worker, one job, one update of the queue size (25): the worker crashes when it pushes 26
jobs at once. -/
theorem C39_worker_crash_reachable : ∃ s : Sys 1 Nat, Reachable [0] s ∧ (s.worker 0).phase = .crashed := by
  let ls : List (Label 1 Nat) := [.pop 0 false, .deliver 0] ++ List.replicate 8 (.master 0 true (fun _ => false)) ++
    [.recv 0, .push 0 (List.range 26) 1 false]
  have h : ((Sys.exec ls (Sys.start 1 [0])).map fun s => (s.worker 0).phase) = some .crashed := by decide +kernel
  rw [Option.map_eq_some_iff] at h
  obtain ⟨s, h1, h2⟩ := h
  exact ⟨s, ⟨ls, h1⟩, h2⟩

/-- **C39, violated.** The master crashes exactly if some worker waits and its share of the queue exceeds three quarters of
the maximal queue size, for the same reason. -/
theorem C39_master_crash {n : Nat} {J : Type} (s : Sys n J) (hq : s.queue ≠ []) (hw : s.numWaiting ≠ 0) (w : Fin n) (b : Bool) (c : Fin n → Bool)
    (hpc : s.pc = .check (threeQuarters s.maxQueueSize)) :
    ((s.masterStep w b c).bind fun s' => s'.masterStep w b c).map (·.pc) = some .crashed ↔
      3 * s.maxQueueSize < 4 * max 10 (s.queue.length / s.numWaiting) := by
  have hfw : ∃ v, s.firstWaiting = some v := by
    cases hf : s.firstWaiting with
    | some v => exact ⟨v, rfl⟩
    | none =>
      exfalso
      apply hw
      unfold Sys.numWaiting
      rw [List.countP_eq_zero]
      intro v _
      simp [all_busy_iff.1 hf v]
  obtain ⟨v, hv⟩ := hfw
  have hne : ¬ (s.queue.isEmpty = true ∧ ((List.finRange n).all fun v => !s.busy v) = true) := by
    rintro ⟨h, -⟩
    exact hq (by simpa using h)
  have hne' : s.queue.isEmpty = false := by simpa using hq
  let batch := Num.pyMin (max minBatch (s.queue.length / s.numWaiting)) (threeQuarters s.maxQueueSize)
  have e1 : s.masterStep w b c = some { s with pc := .send batch (increaseCount batch s.numWaiting s.queue.length) 0 } := by
    unfold Sys.masterStep
    rw [hpc]
    simp only [hne, if_false, gt_iff_lt, Nat.pos_of_ne_zero hw, if_true]
    rfl
  rw [e1, Option.bind_some]
  unfold Sys.masterStep
  simp only [hne']
  have e2 : ∀ p : MPc, Sys.firstWaiting { s with pc := p } = some v := fun p => hv
  simp only [e2]
  unfold batch Num.pyMin threeQuarters minBatch
  simp only
  by_cases hc : s.maxQueueSize * 3 < 4 * max 10 (s.queue.length / s.numWaiting)
  · simp only [hc, if_true, sliceTo, sliceFrom, Bool.false_eq_true, if_false, Option.map_some, true_iff]
    omega
  · simp only [hc, if_false, sliceTo, sliceFrom, Bool.false_eq_true, Option.map_some, Option.some.injEq, reduceCtorEq, false_iff]
    omega

/-- **C39, violated, reachable.** One worker and 26 jobs at the master at the start: the master crashes as soon as the worker
asks for work. -/
theorem C39_master_crash_reachable : ∃ s : Sys 1 Nat, Reachable (List.range 26) s ∧ s.pc = .crashed := by
  let ls : List (Label 1 Nat) := [.pop 0 false, .deliver 0] ++ List.replicate 8 (.master 0 true (fun _ => false))
  have h : ((Sys.exec ls (Sys.start 1 (List.range 26))).map (·.pc)) = some .crashed := by decide +kernel
  rw [Option.map_eq_some_iff] at h
  obtain ⟨s, h1, h2⟩ := h
  exact ⟨s, ⟨ls, h1⟩, h2⟩

/-- an update that has arrived and a queue that is too long -/
example : ((Worker.new : Worker Nat).pushJobs (List.range 30) [25, 28] false).2.phase = .crashed := by decide +kernel
/-- without an update: 6 jobs are sent back, 25 are kept -/
example : ((Worker.new : Worker Nat).pushJobs (List.range 31) [] false).2.queue = (List.range 31).drop 6 := by decide +kernel

end Props

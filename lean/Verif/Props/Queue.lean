import Verif.Spec.Queue
import Mathlib.Data.List.Basic
import Mathlib.Order.MinMax

/-!
# C35: work queues
-/

namespace Props
open Spec Model

variable {α : Type}

theorem lifo_ideal (ops : List (QOp α)) (s : LIFO α) :
    (runOps (lifoImpl α) ops s).1 = (ideal newest ops s.queue).1 ∧
      (runOps (lifoImpl α) ops s).2.queue = (ideal newest ops s.queue).2 := by
  induction ops generalizing s with
  | nil => exact ⟨rfl, rfl⟩
  | cons op ops ih =>
    cases op with
    | push x => exact ih _
    | pushAll xs => exact ih _
    | pop =>
      simp only [runOps, ideal]
      by_cases h : s.queue = []
      · have e1 : newest s.queue = none := by simp [newest, h]
        have e2 : (lifoImpl α).pop s = (none, s.saveStats) := by
          simp [lifoImpl, LIFO.popJob, LIFO.saveStats, h]
        rw [e1, e2]
        obtain ⟨h1, h2⟩ := ih s.saveStats
        exact ⟨by rw [h1]; rfl, by rw [h2]; rfl⟩
      · have e1 : newest s.queue = some (s.queue.getLast h, s.queue.dropLast) := by simp [newest, h]
        have e2 : (lifoImpl α).pop s = (some (s.queue.getLast h), { s.saveStats with queue := s.queue.dropLast }) := by
          simp [lifoImpl, LIFO.popJob, LIFO.saveStats, List.getLast?_eq_some_getLast h]
        rw [e1, e2]
        obtain ⟨h1, h2⟩ := ih { s.saveStats with queue := s.queue.dropLast }
        exact ⟨by simp only; rw [h1], by simp only; rw [h2]⟩

theorem fifo_ideal (ops : List (QOp α)) (s : FIFO α) :
    (runOps (fifoImpl α) ops s).1 = (ideal oldest ops s.queue).1 ∧
      (runOps (fifoImpl α) ops s).2.queue = (ideal oldest ops s.queue).2 := by
  induction ops generalizing s with
  | nil => exact ⟨rfl, rfl⟩
  | cons op ops ih =>
    cases op with
    | push x => exact ih _
    | pushAll xs => exact ih _
    | pop =>
      obtain ⟨q⟩ := s
      cases q with
      | nil => exact ⟨congrArg (none :: ·) (ih ⟨[]⟩).1, (ih ⟨[]⟩).2⟩
      | cons x q => exact ⟨congrArg (some x :: ·) (ih ⟨q⟩).1, (ih ⟨q⟩).2⟩

/-- any discipline that takes one waiting job conserves jobs -/
theorem ideal_conserves (D : Discipline α) (hD : ∀ w x w', D w = some (x, w') → (x :: w').Perm w) (ops : List (QOp α)) (w : List α) :
    ((ideal D ops w).1.filterMap id ++ (ideal D ops w).2).Perm (w ++ pushed ops) := by
  induction ops generalizing w with
  | nil => simp [ideal, pushed]
  | cons op ops ih =>
    cases op with
    | push x =>
      simp only [ideal, pushed]
      have := ih (w ++ [x])
      rwa [List.append_assoc, List.singleton_append] at this
    | pushAll xs =>
      simp only [ideal, pushed]
      have := ih (w ++ xs)
      rwa [List.append_assoc] at this
    | pop =>
      simp only [ideal, pushed]
      cases hd : D w with
      | none => simpa using ih w
      | some y =>
        obtain ⟨x, w'⟩ := y
        simp only [List.filterMap_cons, id, List.cons_append]
        refine ((ih w').cons x).trans ?_
        rw [← List.cons_append]
        exact (hD w x w' hd).append_right _

/-- **C35.** Both queues return what they should over every history: the LIFO queue always the most recently pushed job
that waits, the FIFO queue the oldest, and `None` exactly when no job waits. -/
theorem C35_discipline (ops : List (QOp α)) :
    (runOps (lifoImpl α) ops .new).1 = (ideal newest ops []).1 ∧ (runOps (fifoImpl α) ops .new).1 = (ideal oldest ops []).1 :=
  ⟨(lifo_ideal ops .new).1, (fifo_ideal ops .new).1⟩

/-- **C35.** Over every history the jobs popped together with the jobs still queued are the jobs pushed, each as often
as it was pushed. -/
theorem C35_conservation (ops : List (QOp α)) :
    ((runOps (lifoImpl α) ops .new).1.filterMap id ++ (runOps (lifoImpl α) ops .new).2.queue).Perm (pushed ops) ∧
    ((runOps (fifoImpl α) ops .new).1.filterMap id ++ (runOps (fifoImpl α) ops .new).2.queue).Perm (pushed ops) := by
  constructor
  · rw [(lifo_ideal ops .new).1, (lifo_ideal ops .new).2]
    refine ideal_conserves newest ?_ ops []
    intro w x w' h
    unfold newest at h
    split at h
    · cases h
    · next hw =>
      cases h
      have := List.dropLast_append_getLast hw
      conv_rhs => rw [← this]
      exact (List.perm_append_singleton _ _).symm
  · rw [(fifo_ideal ops .new).1, (fifo_ideal ops .new).2]
    refine ideal_conserves oldest ?_ ops []
    intro w x w' h
    cases w with
    | nil => cases h
    | cons y l => cases h; exact List.Perm.refl _

/-- **C35.** For the FIFO queue even the order is kept. -/
theorem C35_fifo_order (ops : List (QOp α)) :
    (runOps (fifoImpl α) ops .new).1.filterMap id ++ (runOps (fifoImpl α) ops .new).2.queue = pushed ops := by
  rw [(fifo_ideal ops .new).1, (fifo_ideal ops .new).2]
  suffices h : ∀ w, (ideal oldest ops w).1.filterMap id ++ (ideal oldest ops w).2 = w ++ pushed ops from h []
  induction ops with
  | nil => intro w; simp [ideal, pushed]
  | cons op ops ih =>
    intro w
    cases op with
    | push x => simp only [ideal, pushed]; rw [ih]; simp
    | pushAll xs => simp only [ideal, pushed]; rw [ih]; simp
    | pop =>
      cases w with
      | nil => simpa [ideal, oldest, pushed] using ih []
      | cons x w => simpa [ideal, oldest, pushed] using ih w

example : runOps (lifoImpl Nat) [.push 1, .pushAll [2, 3], .pop, .push 4, .pop, .pop, .pop, .pop] .new =
    ([some 3, some 4, some 2, some 1, none], { queue := [], sizeQueue := 0, minQueue := 0, maxQueue := 3 }) := rfl

example : (runOps (fifoImpl Nat) [.push 1, .pushAll [2, 3], .pop, .push 4, .pop, .pop, .pop, .pop] .new).1 =
    [some 1, some 2, some 3, some 4, none] := rfl

/-! ### Statistics -/

theorem min_foldl_le (l : List Nat) (a : Nat) : ∀ x ∈ a :: l, l.foldl min a ≤ x := by
  induction l generalizing a with
  | nil => intro x hx; simp at hx; exact hx.ge
  | cons b l ih =>
    intro x hx
    have h := ih (min a b)
    rw [List.foldl_cons]
    rcases List.mem_cons.1 hx with rfl | hx
    · exact (h (min x b) (by simp)).trans (min_le_left _ _)
    · rcases List.mem_cons.1 hx with rfl | hx
      · exact (h (min a x) (by simp)).trans (min_le_right _ _)
      · exact h x (List.mem_cons_of_mem _ hx)

theorem max_foldl_ge (l : List Nat) (a : Nat) : ∀ x ∈ a :: l, x ≤ l.foldl max a := by
  induction l generalizing a with
  | nil => intro x hx; simp at hx; exact hx.le
  | cons b l ih =>
    intro x hx
    have h := ih (max a b)
    rw [List.foldl_cons]
    rcases List.mem_cons.1 hx with rfl | hx
    · exact (le_max_left _ _).trans (h (max x b) (by simp))
    · rcases List.mem_cons.1 hx with rfl | hx
      · exact (le_max_right _ _).trans (h (max a x) (by simp))
      · exact h x (List.mem_cons_of_mem _ hx)

theorem min_foldl_mem (l : List Nat) (a : Nat) : l.foldl min a ∈ a :: l := by
  induction l generalizing a with
  | nil => simp
  | cons b l ih =>
    rw [List.foldl_cons]
    have := ih (min a b)
    rcases List.mem_cons.1 this with h | h
    · rw [h]
      rcases min_choice a b with e | e <;> rw [e] <;> simp
    · exact List.mem_cons_of_mem _ (List.mem_cons_of_mem _ h)

theorem max_foldl_mem (l : List Nat) (a : Nat) : l.foldl max a ∈ a :: l := by
  induction l generalizing a with
  | nil => simp
  | cons b l ih =>
    rw [List.foldl_cons]
    have := ih (max a b)
    rcases List.mem_cons.1 this with h | h
    · rw [h]
      rcases max_choice a b with e | e <;> rw [e] <;> simp
    · exact List.mem_cons_of_mem _ (List.mem_cons_of_mem _ h)

theorem lifo_stats (ops : List (QOp α)) (s : LIFO α) :
    (runOps (lifoImpl α) ops s).2.getStats.1 =
      ((s.sizeQueue :: sizesBefore ops s.queue.length).getLast (by simp),
        (sizesBefore ops s.queue.length).foldl min s.minQueue, (sizesBefore ops s.queue.length).foldl max s.maxQueue) := by
  induction ops generalizing s with
  | nil => rfl
  | cons op ops ih =>
    cases op with
    | push x =>
      refine (ih (s.pushJob x)).trans ?_
      simp [LIFO.pushJob, LIFO.saveStats, sizesBefore]
    | pushAll xs =>
      refine (ih (s.pushJobs xs)).trans ?_
      simp [LIFO.pushJobs, LIFO.saveStats, sizesBefore]
    | pop =>
      refine (ih (s.popJob).2).trans ?_
      have h1 : s.popJob.2.queue.length = s.queue.length - 1 := by
        unfold LIFO.popJob LIFO.saveStats
        simp only
        split
        · next h => simp [List.getLast?_eq_none_iff.1 h]
        · simp
      have h2 : s.popJob.2.sizeQueue = s.queue.length ∧ s.popJob.2.minQueue = min s.minQueue s.queue.length ∧
          s.popJob.2.maxQueue = max s.maxQueue s.queue.length := by
        unfold LIFO.popJob LIFO.saveStats
        simp only
        split <;> exact ⟨rfl, rfl, rfl⟩
      simp [h1, h2, sizesBefore]

/-- **C35.** The statistics of the LIFO queue.  Of the numbers of waiting jobs at the last report and before every
operation since, `get_stats` reports the last, the smallest and the largest.  (So the effect of the last operation is not
yet in the report.)  Reporting changes no job. -/
theorem C35_stats (s : LIFO α) (ops : List (QOp α)) (size least most : Nat) (s' : LIFO α)
    (h : (runOps (lifoImpl α) ops s.getStats.2).2.getStats = ((size, least, most), s')) :
    size = (s.queue.length :: sizesBefore ops s.queue.length).getLast (by simp) ∧
    (least ∈ s.queue.length :: sizesBefore ops s.queue.length ∧
      ∀ n ∈ s.queue.length :: sizesBefore ops s.queue.length, least ≤ n) ∧
    (most ∈ s.queue.length :: sizesBefore ops s.queue.length ∧
      ∀ n ∈ s.queue.length :: sizesBefore ops s.queue.length, n ≤ most) ∧
    s'.queue = (ideal newest ops s.queue).2 := by
  have e := lifo_stats ops s.getStats.2
  have e2 := congrArg Prod.fst h
  rw [e] at e2
  simp only [Prod.mk.injEq] at e2
  obtain ⟨rfl, rfl, rfl⟩ := e2
  refine ⟨rfl, ⟨min_foldl_mem _ _, min_foldl_le _ _⟩, ⟨max_foldl_mem _ _, max_foldl_ge _ _⟩, ?_⟩
  have e3 := congrArg (fun p => p.2.queue) h
  exact e3.symm.trans (lifo_ideal ops s.getStats.2).2

/-- **C35.** The same for the first report of a new queue. -/
theorem C35_stats_new (ops : List (QOp α)) :
    (runOps (lifoImpl α) ops .new).2.getStats.1 = (runOps (lifoImpl α) ops (LIFO.new (α := α)).getStats.2).2.getStats.1 := by
  rfl

-- three jobs wait at the first report; afterwards 1 to 5 jobs wait, 4 before the last operation
example : let s := (runOps (lifoImpl Nat) [.pushAll [1, 2, 3]] .new).2
    s.getStats.1 = (0, 0, 0) ∧ sizesBefore ([.pop, .pop, .pushAll [4, 5, 6, 7], .pop, .push 8] : List (QOp Nat)) 3 =
      [3, 2, 1, 5, 4] ∧
    (runOps (lifoImpl Nat) [.pop, .pop, .pushAll [4, 5, 6, 7], .pop, .push 8] s.getStats.2).2.getStats.1 = (4, 1, 5) :=
  ⟨rfl, rfl, rfl⟩

end Props

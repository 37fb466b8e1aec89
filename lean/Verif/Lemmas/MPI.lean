import Verif.Spec.MPI
import Mathlib.Tactic.Abel
import Mathlib.Data.Fintype.Basic
import Mathlib.Algebra.BigOperators.Fin

/-!
# Conservation of jobs
-/

set_option linter.unusedSectionVars false

namespace Model.MPI
variable {n : Nat} {J : Type}

theorem slice_append (l : List J) (x : Num) {a b : List J} (ha : sliceTo l x = some a) (hb : sliceFrom l x = some b) : a ++ b = l := by
  cases x with
  | int i =>
    simp only [sliceTo, sliceFrom, Option.some.injEq] at ha hb
    subst ha; subst hb
    exact List.take_append_drop _ _
  | quarters m => simp [sliceTo] at ha

theorem takeMsg_some {β : Type} {f : WMsg J → Option β} {l rest : List (WMsg J)} {b : β} (h : takeMsg f l = some (b, rest)) :
    ∃ l1 m l2, l = l1 ++ m :: l2 ∧ rest = l1 ++ l2 ∧ f m = some b ∧ ∀ x ∈ l1, f x = none := by
  induction l generalizing rest with
  | nil => simp [takeMsg] at h
  | cons m ms ih =>
    unfold takeMsg at h
    cases hm : f m with
    | some c =>
      simp only [hm, Option.some.injEq, Prod.mk.injEq] at h
      obtain ⟨rfl, rfl⟩ := h
      exact ⟨[], m, ms, rfl, rfl, hm, by simp⟩
    | none =>
      simp only [hm] at h
      rw [Option.map_eq_some_iff] at h
      obtain ⟨⟨c, r⟩, h1, h2⟩ := h
      simp only [Prod.mk.injEq] at h2
      obtain ⟨rfl, rfl⟩ := h2
      obtain ⟨l1, m', l2, rfl, rfl, h3, h4⟩ := ih h1
      refine ⟨m :: l1, m', l2, rfl, rfl, h3, fun x hx => ?_⟩
      rcases List.mem_cons.1 hx with rfl | hx
      · exact hm
      · exact h4 x hx

theorem takeMsg_none {β : Type} {f : WMsg J → Option β} {l : List (WMsg J)} (h : takeMsg f l = none) : ∀ x ∈ l, f x = none := by
  induction l with
  | nil => simp
  | cons m ms ih =>
    unfold takeMsg at h
    cases hm : f m with
    | some c => simp [hm] at h
    | none =>
      simp only [hm, Option.map_eq_none_iff] at h
      intro x hx
      rcases List.mem_cons.1 hx with rfl | hx
      · exact hm
      · exact ih h x hx

theorem probeAny_false {s : Sys n J} {β : Type} {f : WMsg J → Option β} (h : ¬ s.probeAny f = true) (w : Fin n) :
    ∀ x ∈ s.inbox w, f x = none := by
  unfold Sys.probeAny at h
  rw [List.any_eq_true] at h
  push Not at h
  have := h w (List.mem_finRange w)
  exact takeMsg_none (by simpa using this)

/-- the jobs in messages -/
def msgSum (l : List (WMsg J)) : Multiset J := (l.map WMsg.jobs).sum

theorem msgSum_append (l l' : List (WMsg J)) : msgSum (l ++ l') = msgSum l + msgSum l' := by simp [msgSum]
theorem msgSum_cons (m : WMsg J) (l : List (WMsg J)) : msgSum (m :: l) = m.jobs + msgSum l := by simp [msgSum]
theorem msgSum_nil : msgSum ([] : List (WMsg J)) = 0 := rfl

theorem msgSum_take {β : Type} {f : WMsg J → Option β} {l rest : List (WMsg J)} {b : β} (h : takeMsg f l = some (b, rest)) :
    ∃ m, f m = some b ∧ msgSum l = m.jobs + msgSum rest := by
  obtain ⟨l1, m, l2, rfl, rfl, h3, -⟩ := takeMsg_some h
  refine ⟨m, h3, ?_⟩
  rw [msgSum_append, msgSum_cons, msgSum_append]
  abel

def popSum (l : List (List J)) : Multiset J := (l.map fun js => (js : Multiset J)).sum

theorem popSum_append (l l' : List (List J)) : popSum (l ++ l') = popSum l + popSum l' := by simp [popSum]
theorem popSum_cons (m : List J) (l : List (List J)) : popSum (m :: l) = m + popSum l := by simp [popSum]
theorem popSum_single (m : List J) : popSum [m] = m := by simp [popSum]

/-- all the jobs -/
def Sys.total (s : Sys n J) : Multiset J := (s.ran : Multiset J) + s.queue + ∑ w, s.held w

theorem held_eq (s : Sys n J) (w : Fin n) :
    s.held w = ((s.worker w).queue : Multiset J) + (msgSum (s.wire w) + msgSum (s.inbox w)) + popSum (s.pops w) := rfl

theorem sum_change {f g : Fin n → Multiset J} (w : Fin n) (h : ∀ v, v ≠ w → g v = f v) :
    ∑ v, g v + f w = ∑ v, f v + g w := by
  rw [← Finset.add_sum_erase _ _ (Finset.mem_univ w), ← Finset.add_sum_erase Finset.univ f (Finset.mem_univ w),
    Finset.sum_congr rfl (g := f) (fun v hv => h v (Finset.ne_of_mem_erase hv))]
  abel

/-- a step of one worker's jobs -/
theorem total_of_held {s s' : Sys n J} (w : Fin n) (d : Multiset J) (hv : ∀ v, v ≠ w → s'.held v = s.held v)
    (h : (s'.ran : Multiset J) + s'.queue + s'.held w = s.ran + s.queue + s.held w + d) : s'.total = s.total + d := by
  unfold Sys.total
  have := sum_change w hv
  apply add_right_cancel (b := s.held w)
  calc _ = (s'.ran : Multiset J) + s'.queue + (∑ v, s'.held v + s.held w) := by abel
    _ = (s'.ran : Multiset J) + s'.queue + s'.held w + ∑ v, s.held v := by rw [this]; abel
    _ = _ := by rw [h]; abel

theorem popJob_sum (w : Worker J) (due : Bool) :
    ((w.popJob due).1.toList : Multiset J) + (w.popJob due).2.2.queue + msgSum (w.popJob due).2.1 = w.queue := by
  unfold Worker.popJob
  cases h : w.queue.getLast? with
  | none =>
    simp only [Option.toList_none]
    rw [List.getLast?_eq_none_iff.1 h]
    rfl
  | some x =>
    obtain ⟨ys, hy⟩ := List.getLast?_eq_some_iff.1 h
    simp only [Option.toList_some, hy, List.dropLast_concat]
    have : msgSum (w.report due) = 0 := by unfold Worker.report; split <;> rfl
    rw [this, add_zero, Multiset.coe_add, Multiset.coe_eq_coe]
    exact List.perm_append_comm

theorem recvJobs_sum (w : Worker J) (js : List J) :
    ((w.recvJobs js).1.toList : Multiset J) + (w.recvJobs js).2.queue = w.queue + js := by
  unfold Worker.recvJobs
  simp only
  cases h : (w.queue ++ js).getLast? with
  | none =>
    simp only [Option.toList_none]
    rw [Multiset.coe_add, Multiset.coe_add]
    rfl
  | some x =>
    obtain ⟨ys, hy⟩ := List.getLast?_eq_some_iff.1 h
    simp only [Option.toList_some, Multiset.coe_add, hy, List.dropLast_concat]
    rw [Multiset.coe_eq_coe]
    exact List.perm_append_comm

theorem updateMax_queue (w : Worker J) (sizes : List Nat) : (w.updateMax sizes).queue = w.queue ∧ (w.updateMax sizes).phase = w.phase := by
  unfold Worker.updateMax
  induction sizes generalizing w with
  | nil => exact ⟨rfl, rfl⟩
  | cons n ns ih => rw [List.foldl_cons]; exact ih _

theorem sendExtra_sum {w w' : Worker J} {msgs : List (WMsg J)} (h : w.sendExtra = some (msgs, w')) :
    msgSum msgs + w'.queue = w.queue ∧ w'.phase = w.phase := by
  unfold Worker.sendExtra at h
  split at h
  · split at h
    · rename_i a b ha hb
      simp only [Option.some.injEq, Prod.mk.injEq] at h
      obtain ⟨rfl, rfl⟩ := h
      have := slice_append _ _ ha hb
      refine ⟨?_, rfl⟩
      simp only [msgSum, List.map_cons, List.map_nil, List.sum_cons, List.sum_nil, WMsg.jobs, add_zero, Multiset.coe_add, this]
    · simp at h
  · simp only [Option.some.injEq, Prod.mk.injEq] at h
    obtain ⟨rfl, rfl⟩ := h
    exact ⟨by simp [msgSum], rfl⟩

theorem pushJobs_sum (w : Worker J) (js : List J) (sizes : List Nat) (due : Bool) :
    msgSum (w.pushJobs js sizes due).1 + (w.pushJobs js sizes due).2.queue = w.queue + js := by
  unfold Worker.pushJobs
  simp only
  obtain ⟨e1, -⟩ := updateMax_queue ({ w with queue := w.queue ++ js } : Worker J) sizes
  split
  · rw [e1, msgSum_nil, zero_add, Multiset.coe_add]
  · rename_i msgs w' h
    obtain ⟨h1, -⟩ := sendExtra_sum h
    have : msgSum (w'.report due) = 0 := by unfold Worker.report; split <;> rfl
    simp only
    rw [msgSum_append, this, add_zero, h1, e1, Multiset.coe_add]

/-- one action conserves the jobs -/
theorem act_total {s s' : Sys n J} {l : Label n J} (h : s.act l = some s') :
    (s'.total + s.pushed = s.total + s'.pushed) := by
  cases l with
  | deliver w =>
    simp only [Sys.act] at h
    split at h
    · simp at h
    · rename_i m ms hw
      simp only [Option.some.injEq] at h
      subst h
      rw [total_of_held (s := s) w 0 (fun v hv => by simp [held_eq, hv])]
      · simp
      · simp only [held_eq, Function.update_self, hw, msgSum_append, msgSum_cons, msgSum_nil]
        abel
  | pop w due =>
    simp only [Sys.act] at h
    split at h
    · simp only [Option.some.injEq] at h
      subst h
      rw [total_of_held (s := s) w 0 (fun v hv => by simp [held_eq, hv])]
      · simp
      · simp only [held_eq, Function.update_self, msgSum_append]
        rw [← popJob_sum (s.worker w) due, ← Multiset.coe_add]
        abel
    · simp at h
  | recv w =>
    simp only [Sys.act] at h
    split at h
    · split at h
      · simp at h
      · rename_i js rest hp
        simp only [Option.some.injEq] at h
        subst h
        rw [total_of_held (s := s) w 0 (fun v hv => by simp [held_eq, hv])]
        · simp
        · simp only [held_eq, Function.update_self, hp, popSum_cons]
          rw [← Multiset.coe_add]
          have := recvJobs_sum (s.worker w) js
          calc _ = (s.ran : Multiset J) + s.queue + ((((s.worker w).recvJobs js).1.toList : Multiset J) + ((s.worker w).recvJobs js).2.queue) +
                (msgSum (s.wire w) + msgSum (s.inbox w)) + popSum rest := by abel
            _ = _ := by rw [this]; abel
    · simp at h
  | push w js k due =>
    simp only [Sys.act] at h
    split at h
    · simp only [Option.some.injEq] at h
      subst h
      rw [total_of_held (s := s) w js (fun v hv => by simp [held_eq, hv])]
      · simp only [← Multiset.coe_add]; abel
      · simp only [held_eq, Function.update_self, msgSum_append]
        have := pushJobs_sum (s.worker w) js ((s.ups w).take k) due
        calc _ = (s.ran : Multiset J) + s.queue + (msgSum ((s.worker w).pushJobs js ((s.ups w).take k) due).1 +
                ((s.worker w).pushJobs js ((s.ups w).take k) due).2.queue) +
                (msgSum (s.wire w) + msgSum (s.inbox w)) + popSum (s.pops w) := by abel
          _ = _ := by rw [this]; abel
    · simp at h
  | master w due cancelled =>
    have key : ∀ {t : Sys n J}, t = s' → t.total = s.total → t.pushed = s.pushed → s'.total + s.pushed = s.total + s'.pushed := by
      rintro t rfl h1 h2
      rw [h1, h2]
    simp only [Sys.act, Sys.masterStep] at h
    split at h
    · split at h
      · exact key (Option.some.inj h) rfl rfl
      · simp at h
    · split at h
      · split at h
        · simp at h
        · rename_i rest ht
          simp only [Option.some.injEq] at h
          subst h
          obtain ⟨m, hm, hsum⟩ := msgSum_take ht
          have hm' : m.jobs = 0 := by cases m <;> simp_all [WMsg.waiting?, WMsg.jobs]
          rw [total_of_held (s := s) w 0 (fun v hv => by simp [held_eq, hv])]
          · simp
          · simp only [held_eq, Function.update_self, hsum, hm', zero_add, add_zero]
      · exact key (Option.some.inj h) rfl rfl
    · split at h
      · split at h
        · simp at h
        · rename_i js rest ht
          simp only [Option.some.injEq] at h
          subst h
          obtain ⟨m, hm, hsum⟩ := msgSum_take ht
          have hm' : m.jobs = js := by cases m <;> simp_all [WMsg.push?, WMsg.jobs]
          rw [total_of_held (s := s) w 0 (fun v hv => by simp [held_eq, hv])]
          · simp
          · simp only [held_eq, Function.update_self, hsum, hm', ← Multiset.coe_add]
            abel
      · exact key (Option.some.inj h) rfl rfl
    · split at h
      · split at h
        · simp at h
        · rename_i k rest ht
          simp only [Option.some.injEq] at h
          subst h
          obtain ⟨m, hm, hsum⟩ := msgSum_take ht
          have hm' : m.jobs = 0 := by cases m <;> simp_all [WMsg.report?, WMsg.jobs]
          rw [total_of_held (s := s) w 0 (fun v hv => by simp [held_eq, hv])]
          · simp
          · simp only [held_eq, Function.update_self, hsum, hm', zero_add, add_zero]
      · exact key (Option.some.inj h) rfl rfl
    · exact key (Option.some.inj h) rfl rfl
    · split at h
      · refine key (Option.some.inj h) ?_ ?_
        · unfold Sys.total
          congr 1
          refine Finset.sum_congr rfl fun v _ => ?_
          simp only [held_eq, popSum_append]
          simp [popSum]
        · rfl
      · split at h
        · exact key (Option.some.inj h) rfl rfl
        · exact key (Option.some.inj h) rfl rfl
    · split at h
      · exact key (Option.some.inj h) rfl rfl
      · split at h
        · exact key (Option.some.inj h) rfl rfl
        · rename_i v hv
          split at h
          · rename_i block rest h1 h2
            have hq := slice_append _ _ h1 h2
            simp only [Option.some.injEq] at h
            subst h
            rw [total_of_held (s := s) v 0 (fun u hu => by simp [held_eq, hu])]
            · simp
            · simp only [held_eq, Function.update_self, popSum_append, popSum_single]
              conv_rhs => rw [← hq, ← Multiset.coe_add]
              abel
          · exact key (Option.some.inj h) rfl rfl
    · simp at h
    · simp at h

theorem exec_invariant {P : Sys n J → Prop} (hstep : ∀ s l s', P s → s.act l = some s' → P s') :
    ∀ (ls : List (Label n J)) (s s' : Sys n J), P s → Sys.exec ls s = some s' → P s'
  | [], s, s', hP, h => by simp only [Sys.exec, Option.some.injEq] at h; exact h ▸ hP
  | l :: ls, s, s', hP, h => by
    simp only [Sys.exec] at h
    rw [Option.bind_eq_some_iff] at h
    obtain ⟨t, h1, h2⟩ := h
    exact exec_invariant hstep ls t s' (hstep s l t hP h1) h2

theorem reachable_total {jobs : List J} {s : Sys n J} (h : Reachable jobs s) : (jobs : Multiset J) + s.pushed = s.total := by
  obtain ⟨ls, h⟩ := h
  refine exec_invariant (P := fun s => (jobs : Multiset J) + (s.pushed : Multiset J) = s.total) ?_ ls _ s ?_ h
  · intro s l s' hs ha
    have := act_total ha
    apply add_right_cancel (b := (s.pushed : Multiset J))
    rw [this, ← hs]
    abel
  · simp [Sys.start, Sys.total, held_eq, Worker.new, msgSum, popSum]

end Model.MPI

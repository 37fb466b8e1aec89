import Verif.Lemmas.MPI

/-!
# The protocol invariant
-/

set_option linter.unusedSectionVars false

namespace Model.MPI
variable {n : Nat} {J : Type}

def NoWait (l : List (WMsg J)) : Prop := ∀ m ∈ l, m.waiting? = none
def NoPush (l : List (WMsg J)) : Prop := ∀ m ∈ l, m.push? = none

/-- the master has collected the pushed jobs in this round -/
def MPc.afterPushes : MPc → Prop
  | .reports | .update | .check _ | .send _ _ _ => True
  | _ => False

/-- what the master and a worker know about each other -/
inductive WInv (pc : MPc) : Worker J → (wire inbox : List (WMsg J)) → (pops : List (List J)) → (busy : Bool) → Prop
  /-- the worker works (or has crashed), and the master knows -/
  | work {w wire inbox} (hp : w.phase = .running ∨ w.phase = .crashed) (h1 : NoWait wire) (h2 : NoWait inbox) (hq : pc ≠ .quit) :
      WInv pc w wire inbox [] true
  /-- its request is on the way -/
  | ask {w l inbox} (hp : w.phase = .waiting) (he : w.queue = []) (h1 : NoWait l) (h2 : NoWait inbox) (hq : pc ≠ .quit) :
      WInv pc w (l ++ [.waiting]) inbox [] true
  /-- its request has arrived -/
  | asked {w l} (hp : w.phase = .waiting) (he : w.queue = []) (h1 : NoWait l) (hq : pc ≠ .quit) :
      WInv pc w [] (l ++ [.waiting]) [] true
  /-- the master knows that it waits -/
  | wait {w inbox} (hp : w.phase = .waiting) (he : w.queue = []) (h1 : NoWait inbox) (h2 : pc.afterPushes → NoPush inbox) (hq : pc ≠ .quit) :
      WInv pc w [] inbox [] false
  /-- the answer is on the way -/
  | answer {w inbox js} (hp : w.phase = .waiting) (he : w.queue = []) (h1 : NoWait inbox) (hj : js ≠ []) (hq : pc ≠ .quit) :
      WInv pc w [] inbox [js] true
  /-- the end is on the way -/
  | bye {w inbox busy} (hp : w.phase = .waiting) (he : w.queue = []) (h2 : NoPush inbox) (hq : pc = .quit) :
      WInv pc w [] inbox [[]] busy
  /-- the end -/
  | fin {w inbox busy} (hp : w.phase = .done) (he : w.queue = []) (h2 : NoPush inbox) (hq : pc = .quit) :
      WInv pc w [] inbox [] busy

theorem WInv.pc {pc pc' : MPc} {w : Worker J} {wire inbox : List (WMsg J)} {pops : List (List J)} {busy : Bool}
    (h : WInv pc w wire inbox pops busy) (h1 : pc ≠ .quit) (h2 : pc' ≠ .quit) (h3 : pc'.afterPushes → pc.afterPushes ∨ NoPush inbox) :
    WInv pc' w wire inbox pops busy := by
  cases h with
  | work hp g1 g2 hq => exact .work hp g1 g2 h2
  | ask hp he g1 g2 hq => exact .ask hp he g1 g2 h2
  | asked hp he g1 hq => exact .asked hp he g1 h2
  | wait hp he g1 g2 hq => exact .wait hp he g1 (fun h => (h3 h).elim g2 id) h2
  | answer hp he g1 hj hq => exact .answer hp he g1 hj h2
  | bye hp he g2 hq => exact absurd hq h1
  | fin hp he g2 hq => exact absurd hq h1

/-- the invariant -/
structure Inv (s : Sys n J) : Prop where
  worker : ∀ w, WInv s.pc (s.worker w) (s.wire w) (s.inbox w) (s.pops w) (s.busy w)
  quit : s.pc = .quit → s.queue = []
  probe : 0 < n → s.pc = .probe → ∃ w, s.busy w = true
  send : 0 < n → ∀ b i c, s.pc = .send b i c → (∃ w, s.busy w = true) ∨ s.queue ≠ []
  batch : ∀ b i c, s.pc = .send b i c → (∃ m, b = .quarters m) ∨ ∃ k : Int, 0 < k ∧ b = .int k
  target : ∀ t, s.pc = .check t → ∃ m, t = .quarters (m * 3) ∧ 25 ≤ m

theorem report_noWait (w : Worker J) (due : Bool) : NoWait (w.report due) := by
  unfold Worker.report
  split
  · intro m hm; simp only [List.mem_singleton] at hm; subst hm; rfl
  · simp [NoWait]

theorem NoWait.append {l l' : List (WMsg J)} (h : NoWait l) (h' : NoWait l') : NoWait (l ++ l') := by
  intro m hm
  rcases List.mem_append.1 hm with hm | hm
  · exact h m hm
  · exact h' m hm

theorem pushJobs_noWait (w : Worker J) (js : List J) (sizes : List Nat) (due : Bool) (hp : w.phase = .running) :
    NoWait (w.pushJobs js sizes due).1 ∧ ((w.pushJobs js sizes due).2.phase = .running ∨ (w.pushJobs js sizes due).2.phase = .crashed) := by
  unfold Worker.pushJobs
  simp only
  obtain ⟨-, e2⟩ := updateMax_queue ({ w with queue := w.queue ++ js } : Worker J) sizes
  split
  · exact ⟨by simp [NoWait], Or.inr rfl⟩
  · rename_i msgs w' h
    obtain ⟨-, h2⟩ := sendExtra_sum h
    refine ⟨NoWait.append ?_ (report_noWait _ _), Or.inl (by rw [h2, e2]; exact hp)⟩
    unfold Worker.sendExtra at h
    split at h
    · split at h
      · simp only [Option.some.injEq, Prod.mk.injEq] at h
        obtain ⟨rfl, -⟩ := h
        intro m hm; simp only [List.mem_singleton] at hm; subst hm; rfl
      · simp at h
    · simp only [Option.some.injEq, Prod.mk.injEq] at h
      obtain ⟨rfl, -⟩ := h
      simp [NoWait]

theorem deliver_inv {pc : MPc} {w : Worker J} {m : WMsg J} {wire inbox : List (WMsg J)} {pops : List (List J)} {busy : Bool}
    (h : WInv pc w (m :: wire) inbox pops busy) : WInv pc w wire (inbox ++ [m]) pops busy := by
  generalize hw : m :: wire = l at h
  cases h with
  | work hp g1 g2 hq =>
    subst hw
    refine .work hp (fun x hx => g1 x (by simp [hx])) (g2.append fun x hx => ?_) hq
    simp only [List.mem_singleton] at hx
    subst hx
    exact g1 _ (by simp)
  | @ask l' _ hp he g1 g2 hq =>
    cases l' with
    | nil =>
      simp only [List.nil_append, List.cons.injEq] at hw
      obtain ⟨rfl, rfl⟩ := hw
      exact .asked hp he g2 hq
    | cons x l' =>
      simp only [List.cons_append, List.cons.injEq] at hw
      obtain ⟨rfl, rfl⟩ := hw
      refine .ask hp he (fun x hx => g1 x (by simp [hx])) (g2.append fun x hx => ?_) hq
      simp only [List.mem_singleton] at hx
      subst hx
      exact g1 _ (by simp)
  | asked hp he g1 hq => simp at hw
  | wait hp he g1 g2 hq => simp at hw
  | answer hp he g1 hj hq => simp at hw
  | bye hp he g2 hq => simp at hw
  | fin hp he g2 hq => simp at hw

/-- taking a message that is no request -/
theorem take_inv {pc : MPc} {w : Worker J} {wire inbox rest : List (WMsg J)} {pops : List (List J)} {busy : Bool}
    (h : WInv pc w wire inbox pops busy) {β : Type} {f : WMsg J → Option β} (hf : ∀ m b, f m = some b → m.waiting? = none) {b : β}
    (ht : takeMsg f inbox = some (b, rest)) : WInv pc w wire rest pops busy := by
  obtain ⟨l1, m, l2, he, rfl, h3, -⟩ := takeMsg_some ht
  have hm := hf m b h3
  have sub : ∀ x ∈ l1 ++ l2, x ∈ inbox := by
    intro x hx
    rw [he]
    rcases List.mem_append.1 hx with hx | hx <;> simp [hx]
  cases h with
  | work hp g1 g2 hq => exact .work hp g1 (fun x hx => g2 x (sub x hx)) hq
  | ask hp he' g1 g2 hq => exact .ask hp he' g1 (fun x hx => g2 x (sub x hx)) hq
  | @asked l hp he' g1 hq =>
    rcases List.eq_nil_or_concat l2 with rfl | ⟨l2', y, rfl⟩
    · exfalso
      have := List.append_inj_right' he (by simp)
      simp only [List.cons.injEq, and_true] at this
      subst this
      simp [WMsg.waiting?] at hm
    · rw [List.concat_eq_append] at he sub ⊢
      rw [← List.cons_append, ← List.append_assoc] at he
      obtain ⟨e1, e2⟩ := List.append_inj' he (by simp)
      simp only [List.cons.injEq, and_true] at e2
      subst e2
      rw [← List.append_assoc]
      refine .asked hp he' (fun x hx => g1 x ?_) hq
      rw [e1]
      rcases List.mem_append.1 hx with hx | hx <;> simp [hx]
  | wait hp he' g1 g2 hq => exact .wait hp he' (fun x hx => g1 x (sub x hx)) (fun h x hx => g2 h x (sub x hx)) hq
  | answer hp he' g1 hj hq => exact .answer hp he' (fun x hx => g1 x (sub x hx)) hj hq
  | bye hp he' g2 hq => exact .bye hp he' (fun x hx => g2 x (sub x hx)) hq
  | fin hp he' g2 hq => exact .fin hp he' (fun x hx => g2 x (sub x hx)) hq

/-- taking a request -/
theorem takeWait_inv {w : Worker J} {wire inbox rest : List (WMsg J)} {pops : List (List J)} {busy : Bool}
    (h : WInv .waits w wire inbox pops busy) {b : Unit} (ht : takeMsg WMsg.waiting? inbox = some (b, rest)) :
    WInv .waits w wire rest pops false := by
  obtain ⟨l1, m, l2, he, rfl, h3, -⟩ := takeMsg_some ht
  have hm : m ∈ inbox := by rw [he]; simp
  have contra : NoWait inbox → False := fun h => by have := h m hm; rw [this] at h3; cases h3
  cases h with
  | work hp g1 g2 hq => exact (contra g2).elim
  | ask hp he' g1 g2 hq => exact (contra g2).elim
  | @asked l hp he' g1 hq =>
    rcases List.eq_nil_or_concat l2 with rfl | ⟨l2', y, rfl⟩
    · obtain ⟨e1, -⟩ := List.append_inj' he (by simp)
      subst e1
      rw [List.append_nil]
      exact .wait hp he' g1 (fun h => h.elim) (by simp)
    · exfalso
      rw [List.concat_eq_append, ← List.cons_append, ← List.append_assoc] at he
      obtain ⟨e1, -⟩ := List.append_inj' he (by simp)
      have := g1 m (by rw [e1]; simp)
      rw [this] at h3
      cases h3
  | wait hp he' g1 g2 hq => exact (contra g1).elim
  | answer hp he' g1 hj hq => exact (contra g1).elim
  | bye hp he' g2 hq => cases hq
  | fin hp he' g2 hq => cases hq

theorem inv_start (jobs : List J) : Inv (Sys.start n jobs) := by
  refine ⟨fun w => .work (Or.inl rfl) (by simp [NoWait, Sys.start]) (by simp [NoWait, Sys.start]) (by simp [Sys.start]), ?_, ?_, ?_, ?_, ?_⟩
  · simp [Sys.start]
  · intro hn _; exact ⟨⟨0, hn⟩, rfl⟩
  · simp [Sys.start]
  · simp [Sys.start]
  · simp [Sys.start]

/-- a worker action keeps the rest -/
theorem Inv.of_worker {s s' : Sys n J} (h : Inv s) (hpc : s'.pc = s.pc) (hq : s'.queue = s.queue) (hb : s'.busy = s.busy)
    (hw : ∀ w, WInv s'.pc (s'.worker w) (s'.wire w) (s'.inbox w) (s'.pops w) (s'.busy w)) : Inv s' :=
  ⟨hw, by rw [hpc, hq]; exact h.quit, by rw [hpc, hb]; exact h.probe, by rw [hpc, hb, hq]; exact h.send, by rw [hpc]; exact h.batch,
    by rw [hpc]; exact h.target⟩

theorem all_busy_iff {s : Sys n J} : s.firstWaiting = none ↔ ∀ w, s.busy w = true := by
  unfold Sys.firstWaiting
  rw [List.find?_eq_none]
  simp

theorem firstWaiting_some {s : Sys n J} {w : Fin n} (h : s.firstWaiting = some w) : s.busy w = false := by
  have := List.find?_some h
  simpa using this

theorem inv_act {s s' : Sys n J} {l : Label n J} (hi : Inv s) (h : s.act l = some s') : Inv s' := by
  cases l with
  | deliver w =>
    simp only [Sys.act] at h
    split at h
    · simp at h
    · rename_i m ms hw
      simp only [Option.some.injEq] at h
      subst h
      refine hi.of_worker rfl rfl rfl fun v => ?_
      by_cases hv : v = w
      · subst hv
        simp only [Function.update_self]
        exact deliver_inv (by rw [← hw]; exact hi.worker v)
      · simp only [ne_eq, hv, not_false_eq_true, Function.update_of_ne]
        exact hi.worker v
  | pop w due =>
    simp only [Sys.act] at h
    split at h
    · rename_i hrun
      simp only [Option.some.injEq] at h
      subst h
      refine hi.of_worker rfl rfl rfl fun v => ?_
      by_cases hv : v = w
      · subst hv
        simp only [Function.update_self]
        have hv := hi.worker v
        generalize s.worker v = w' at hv hrun ⊢
        generalize s.wire v = wire at hv ⊢
        generalize s.inbox v = inbox at hv ⊢
        generalize s.pops v = pops at hv ⊢
        generalize s.busy v = busy at hv ⊢
        cases hv with
        | work hp g1 g2 hq =>
          unfold Worker.popJob
          split
          · exact .work hp (g1.append (report_noWait _ _)) g2 hq
          · rename_i hn
            exact .ask rfl (List.getLast?_eq_none_iff.1 hn) g1 g2 hq
        | ask hp => rw [hp] at hrun; cases hrun
        | asked hp => rw [hp] at hrun; cases hrun
        | wait hp => rw [hp] at hrun; cases hrun
        | answer hp => rw [hp] at hrun; cases hrun
        | bye hp => rw [hp] at hrun; cases hrun
        | fin hp => rw [hp] at hrun; cases hrun
      · simp only [ne_eq, hv, not_false_eq_true, Function.update_of_ne]
        exact hi.worker v
    · simp at h
  | recv w =>
    simp only [Sys.act] at h
    split at h
    · rename_i hrun
      split at h
      · simp at h
      · rename_i js rest hpops
        simp only [Option.some.injEq] at h
        subst h
        refine hi.of_worker rfl rfl rfl fun v => ?_
        by_cases hv : v = w
        · subst hv
          simp only [Function.update_self]
          have hv := hi.worker v
          rw [hpops] at hv
          generalize s.worker v = w' at hv hrun ⊢
          generalize s.wire v = wire at hv ⊢
          generalize s.inbox v = inbox at hv ⊢
          generalize s.busy v = busy at hv ⊢
          cases hv with
          | answer hp he g1 hj hq =>
            unfold Worker.recvJobs
            simp only [he, List.nil_append]
            cases hl : js.getLast? with
            | none => exact absurd (List.getLast?_eq_none_iff.1 hl) hj
            | some x => exact .work (Or.inl rfl) (by simp [NoWait]) g1 hq
          | bye hp he g2 hq =>
            unfold Worker.recvJobs
            simp only [he, List.nil_append, List.getLast?_nil]
            exact .fin rfl rfl g2 hq
        · simp only [ne_eq, hv, not_false_eq_true, Function.update_of_ne]
          exact hi.worker v
    · simp at h
  | push w js k due =>
    simp only [Sys.act] at h
    split at h
    · rename_i hrun
      simp only [Option.some.injEq] at h
      subst h
      refine hi.of_worker rfl rfl rfl fun v => ?_
      by_cases hv : v = w
      · subst hv
        simp only [Function.update_self]
        have hv := hi.worker v
        obtain ⟨p1, p2⟩ := pushJobs_noWait (s.worker v) js ((s.ups v).take k) due hrun
        generalize (s.worker v).pushJobs js ((s.ups v).take k) due = r at p1 p2 ⊢
        generalize s.worker v = w' at hv hrun
        generalize s.wire v = wire at hv ⊢
        generalize s.inbox v = inbox at hv ⊢
        generalize s.pops v = pops at hv ⊢
        generalize s.busy v = busy at hv ⊢
        cases hv with
        | work hp g1 g2 hq => exact .work p2 (g1.append p1) g2 hq
        | ask hp => rw [hp] at hrun; cases hrun
        | asked hp => rw [hp] at hrun; cases hrun
        | wait hp => rw [hp] at hrun; cases hrun
        | answer hp => rw [hp] at hrun; cases hrun
        | bye hp => rw [hp] at hrun; cases hrun
        | fin hp => rw [hp] at hrun; cases hrun
      · simp only [ne_eq, hv, not_false_eq_true, Function.update_of_ne]
        exact hi.worker v
    · simp at h
  | master w due cancelled =>
    simp only [Sys.act, Sys.masterStep] at h
    split at h
    · -- probe
      rename_i hpc
      split at h
      · simp only [Option.some.injEq] at h
        subst h
        exact ⟨fun v => (hi.worker v).pc (by simp [hpc]) (by simp) (fun h => h.elim), by simp, by simp, by simp, by simp, by simp⟩
      · simp at h
    · -- waits
      rename_i hpc
      split at h
      · split at h
        · simp at h
        · rename_i b rest ht
          simp only [Option.some.injEq] at h
          subst h
          refine ⟨fun v => ?_, by simp [hpc], by simp [hpc], by simp [hpc], by simp [hpc], by simp [hpc]⟩
          have hv' := hi.worker v
          by_cases hv : v = w
          · subst hv
            simp only [Function.update_self]
            rw [hpc] at hv' ⊢
            exact takeWait_inv hv' ht
          · simp only [ne_eq, hv, not_false_eq_true, Function.update_of_ne]
            exact hv'
      · simp only [Option.some.injEq] at h
        subst h
        exact ⟨fun v => (hi.worker v).pc (by simp [hpc]) (by simp) (fun h => h.elim), by simp, by simp, by simp, by simp, by simp⟩
    · -- pushes
      rename_i hpc
      split at h
      · split at h
        · simp at h
        · rename_i js rest ht
          simp only [Option.some.injEq] at h
          subst h
          refine ⟨fun v => ?_, by simp [hpc], by simp [hpc], by simp [hpc], by simp [hpc], by simp [hpc]⟩
          have hv' := hi.worker v
          by_cases hv : v = w
          · subst hv
            simp only [Function.update_self]
            exact take_inv hv' (fun m b hm => by cases m <;> simp_all [WMsg.push?, WMsg.waiting?]) ht
          · simp only [ne_eq, hv, not_false_eq_true, Function.update_of_ne]
            exact hv'
      · rename_i hno
        simp only [Option.some.injEq] at h
        subst h
        exact ⟨fun v => (hi.worker v).pc (by simp [hpc]) (by simp) (fun _ => Or.inr (probeAny_false hno v)), by simp, by simp, by simp, by simp, by simp⟩
    · -- reports
      rename_i hpc
      split at h
      · split at h
        · simp at h
        · rename_i k rest ht
          simp only [Option.some.injEq] at h
          subst h
          refine ⟨fun v => ?_, by simp [hpc], by simp [hpc], by simp [hpc], by simp [hpc], by simp [hpc]⟩
          have hv' := hi.worker v
          by_cases hv : v = w
          · subst hv
            simp only [Function.update_self]
            exact take_inv hv' (fun m b hm => by cases m <;> simp_all [WMsg.report?, WMsg.waiting?]) ht
          · simp only [ne_eq, hv, not_false_eq_true, Function.update_of_ne]
            exact hv'
      · simp only [Option.some.injEq] at h
        subst h
        exact ⟨fun v => (hi.worker v).pc (by simp [hpc]) (by simp) (fun _ => Or.inl (by rw [hpc]; trivial)), by simp, by simp, by simp, by simp, by simp⟩
    · -- update
      rename_i hpc
      simp only [Option.some.injEq] at h
      subst h
      refine ⟨fun v => (hi.worker v).pc (by simp [hpc]) (by simp) (fun _ => Or.inl (by rw [hpc]; trivial)), by simp, by simp, by simp, by simp, ?_⟩
      intro t ht
      simp only [MPc.check.injEq] at ht
      exact ⟨s.maxQueueSize, ht.symm, le_max_right _ _⟩
    · -- check
      rename_i target hpc
      split at h
      · rename_i hc
        simp only [Option.some.injEq] at h
        subst h
        refine ⟨fun v => ?_, fun _ => by simpa using hc.1, by simp, by simp, by simp, by simp⟩
        have hb : s.busy v = false := by
          have := hc.2
          rw [List.all_eq_true] at this
          simpa using this v (List.mem_finRange v)
        have hv' := hi.worker v
        rw [hpc, hb] at hv'
        simp only
        generalize s.worker v = w' at hv' ⊢
        generalize s.wire v = wire at hv' ⊢
        generalize s.inbox v = inbox at hv' ⊢
        generalize s.pops v = pops at hv' ⊢
        cases hv' with
        | wait hp he g1 g2 hq => exact .bye hp he (g2 trivial) rfl
        | bye hp he g2 hq => cases hq
        | fin hp he g2 hq => cases hq
      · rename_i hc
        split at h
        · simp only [Option.some.injEq] at h
          subst h
          obtain ⟨m, rfl, hm⟩ := hi.target _ hpc
          refine ⟨fun v => (hi.worker v).pc (by simp [hpc]) (by simp) (fun _ => Or.inl (by rw [hpc]; trivial)), by simp, by simp, ?_, ?_, by simp⟩
          · intro _ b i c _
            by_cases hq : s.queue = []
            · left
              by_contra hno
              push Not at hno
              refine hc ⟨by simp [hq], ?_⟩
              rw [List.all_eq_true]
              intro v _
              simpa using hno v
            · exact Or.inr hq
          · intro b i c hb
            simp only [MPc.send.injEq] at hb
            obtain ⟨rfl, -⟩ := hb
            unfold Num.pyMin
            simp only
            split
            · exact Or.inl ⟨_, rfl⟩
            · refine Or.inr ⟨_, ?_, rfl⟩
              have : minBatch ≤ max minBatch (s.queue.length / s.numWaiting) := le_max_left _ _
              unfold minBatch at this ⊢
              omega
        · rename_i hnw
          simp only [Option.some.injEq] at h
          subst h
          refine ⟨fun v => (hi.worker v).pc (by simp [hpc]) (by simp) (fun h => h.elim), by simp, ?_, by simp, by simp, by simp⟩
          intro hn _
          refine ⟨⟨0, hn⟩, ?_⟩
          have : s.numWaiting = 0 := by omega
          unfold Sys.numWaiting at this
          rw [List.countP_eq_zero] at this
          simpa using this ⟨0, hn⟩ (List.mem_finRange _)
    · -- send
      rename_i batch inc count hpc
      split at h
      · rename_i hq
        simp only [Option.some.injEq] at h
        subst h
        refine ⟨fun v => (hi.worker v).pc (by simp [hpc]) (by simp) (fun h => h.elim), by simp, ?_, by simp, by simp, by simp⟩
        intro hn _
        exact (hi.send hn _ _ _ hpc).resolve_right (fun h => h (by simpa using hq))
      · rename_i hq
        split at h
        · rename_i hf
          simp only [Option.some.injEq] at h
          subst h
          refine ⟨fun v => (hi.worker v).pc (by simp [hpc]) (by simp) (fun h => h.elim), by simp, ?_, by simp, by simp, by simp⟩
          intro hn _
          exact ⟨⟨0, hn⟩, all_busy_iff.1 hf _⟩
        · rename_i v hf
          split at h
          · rename_i block rest h1 h2
            simp only [Option.some.injEq] at h
            subst h
            have hbf := firstWaiting_some hf
            refine ⟨fun u => ?_, by simp, by simp, ?_, ?_, by simp⟩
            · have hu' := (hi.worker u).pc (pc' := .send (if count + 1 = inc then batch.succ else batch) inc (count + 1)) (by simp [hpc]) (by simp)
                (fun _ => Or.inl (by rw [hpc]; trivial))
              by_cases hu : u = v
              · subst hu
                simp only [Function.update_self]
                rw [hbf] at hu'
                have hbl : block ≠ [] := by
                  rcases hi.batch _ _ _ hpc with ⟨m, rfl⟩ | ⟨k, hk, rfl⟩
                  · simp [sliceTo] at h1
                  · simp only [sliceTo, Option.some.injEq, sliceIndex] at h1
                    rw [if_neg (by omega)] at h1
                    subst h1
                    simp only [List.isEmpty_iff] at hq
                    intro h0
                    rw [List.take_eq_nil_iff] at h0
                    rcases h0 with h0 | h0
                    · omega
                    · exact hq h0
                generalize s.worker u = w' at hu' ⊢
                generalize s.wire u = wire at hu' ⊢
                generalize s.inbox u = inbox at hu' ⊢
                generalize s.pops u = pops at hu' ⊢
                cases hu' with
                | wait hp he g1 g2 hq => exact .answer hp he g1 hbl (by simp)
                | bye hp he g2 hq => cases hq
                | fin hp he g2 hq => cases hq
              · simp only [ne_eq, hu, not_false_eq_true, Function.update_of_ne]
                exact hu'
            · intro _ _ _ _ _
              exact Or.inl ⟨v, by simp⟩
            · intro b i c hb
              simp only [MPc.send.injEq] at hb
              obtain ⟨rfl, -⟩ := hb
              rcases hi.batch _ _ _ hpc with ⟨m, rfl⟩ | ⟨k, hk, rfl⟩
              · simp [sliceTo] at h1
              · right
                split
                · exact ⟨k + 1, by omega, rfl⟩
                · exact ⟨k, hk, rfl⟩
          · simp only [Option.some.injEq] at h
            subst h
            exact ⟨fun v => (hi.worker v).pc (by simp [hpc]) (by simp) (fun h => h.elim), by simp, by simp, by simp, by simp, by simp⟩
    · simp at h
    · simp at h

theorem reachable_inv {jobs : List J} {s : Sys n J} (h : Reachable jobs s) : Inv s := by
  obtain ⟨ls, h⟩ := h
  exact exec_invariant (P := Inv) (fun s l s' hs ha => inv_act hs ha) ls _ s (inv_start jobs) h

theorem msgSum_noPush {l : List (WMsg J)} (h : NoPush l) : msgSum l = 0 := by
  induction l with
  | nil => rfl
  | cons m l ih =>
    rw [msgSum_cons, ih (fun x hx => h x (by simp [hx]))]
    have := h m (by simp)
    cases m <;> simp_all [WMsg.push?, WMsg.jobs]

/-- when the master has quit, nothing is left -/
theorem inv_quit {s : Sys n J} (hi : Inv s) (hq : s.pc = .quit) (w : Fin n) :
    s.held w = 0 ∧ ((s.worker w).phase = .waiting ∧ s.pops w = [[]] ∨ (s.worker w).phase = .done ∧ s.pops w = []) := by
  have hw := hi.worker w
  rw [held_eq]
  generalize s.worker w = w' at hw ⊢
  generalize s.wire w = wire at hw ⊢
  generalize s.inbox w = inbox at hw ⊢
  generalize s.pops w = pops at hw ⊢
  generalize s.busy w = busy at hw
  cases hw with
  | work hp g1 g2 h => exact absurd hq h
  | ask hp he g1 g2 h => exact absurd hq h
  | asked hp he g1 h => exact absurd hq h
  | wait hp he g1 g2 h => exact absurd hq h
  | answer hp he g1 hj h => exact absurd hq h
  | bye hp he g2 h => exact ⟨by simp [he, msgSum_noPush g2, msgSum_nil, popSum], Or.inl ⟨hp, rfl⟩⟩
  | fin hp he g2 h => exact ⟨by simp [he, msgSum_noPush g2, msgSum_nil, popSum], Or.inr ⟨hp, rfl⟩⟩

theorem takeMsg_isSome {β : Type} {f : WMsg J → Option β} {l : List (WMsg J)} {m : WMsg J} {b : β} (hm : m ∈ l) (h : f m = some b) :
    ∃ r, takeMsg f l = some r := by
  cases ht : takeMsg f l with
  | some r => exact ⟨r, rfl⟩
  | none => have := takeMsg_none ht m hm; rw [this] at h; cases h

theorem probeAny_true {s : Sys n J} {β : Type} {f : WMsg J → Option β} (h : s.probeAny f = true) : ∃ w r, takeMsg f (s.inbox w) = some r := by
  unfold Sys.probeAny at h
  rw [List.any_eq_true] at h
  obtain ⟨w, -, hw⟩ := h
  exact ⟨w, Option.isSome_iff_exists.1 hw⟩

/-- something can happen unless all is over -/
theorem inv_progress (hn : 0 < n) {s : Sys n J} (hi : Inv s) (hs : ∀ l, s.act l = none) :
    s.pc = .crashed ∨ (∃ w, (s.worker w).phase = .crashed) ∨ s.pc = .quit ∧ ∀ w, (s.worker w).phase = .done := by
  by_cases hcr : ∃ w, (s.worker w).phase = .crashed
  · exact Or.inr (Or.inl hcr)
  push Not at hcr
  have w0 : Fin n := ⟨0, hn⟩
  have hm : ∀ w, s.masterStep w false (fun _ => false) = none := fun w => hs (.master w false _)
  cases hpc : s.pc with
  | crashed => exact Or.inl rfl
  | quit =>
    right; right
    refine ⟨rfl, fun w => ?_⟩
    rcases (inv_quit hi hpc w).2 with ⟨h1, h2⟩ | ⟨h1, -⟩
    · exfalso
      have := hs (.recv w)
      simp [Sys.act, h1, h2] at this
    · exact h1
  | probe =>
    exfalso
    obtain ⟨w, hb⟩ := hi.probe hn hpc
    have hw := hi.worker w
    have hpr := hm w0
    simp only [Sys.masterStep, hpc] at hpr
    have hin : ∀ v, s.inbox v = [] := by
      intro v
      split at hpr
      · simp at hpr
      · rename_i hany
        simp only [List.any_eq_true, not_exists, not_and] at hany
        simpa using hany v (List.mem_finRange v)
    have h1 := hs (.deliver w)
    have h2 := hs (.pop w false)
    have h3 := hs (.recv w)
    simp only [Sys.act] at h1 h2 h3
    rw [hin w, hb] at hw
    have hcw := hcr w
    generalize s.worker w = w' at *
    generalize hwire : s.wire w = wire at *
    generalize hpops : s.pops w = pops at *
    generalize hbox : ([] : List (WMsg J)) = box at hw
    generalize hbt : true = bt at hw
    cases hw with
    | work hp g1 g2 hq =>
      rcases hp with hp | hp
      · simp [hp] at h2
      · exact hcw hp
    | @ask l _ hp he g1 g2 hq => cases l <;> simp at h1
    | asked hp he g1 hq => simp at hbox
    | wait hp he g1 g2 hq => cases hbt
    | answer hp he g1 hj hq => simp [hp] at h3
    | bye hp he g2 hq => rw [hpc] at hq; cases hq
    | fin hp he g2 hq => rw [hpc] at hq; cases hq
  | waits =>
    exfalso
    by_cases ha : s.probeAny WMsg.waiting? = true
    · obtain ⟨w, r, hr⟩ := probeAny_true ha
      have := hm w
      simp [Sys.masterStep, hpc, ha, hr] at this
    · have := hm w0
      simp [Sys.masterStep, hpc, ha] at this
  | pushes =>
    exfalso
    by_cases ha : s.probeAny WMsg.push? = true
    · obtain ⟨w, r, hr⟩ := probeAny_true ha
      have := hm w
      simp [Sys.masterStep, hpc, ha, hr] at this
    · have := hm w0
      simp [Sys.masterStep, hpc, ha] at this
  | reports =>
    exfalso
    by_cases ha : s.probeAny WMsg.report? = true
    · obtain ⟨w, r, hr⟩ := probeAny_true ha
      have := hm w
      simp [Sys.masterStep, hpc, ha, hr] at this
    · have := hm w0
      simp [Sys.masterStep, hpc, ha] at this
  | update =>
    exfalso
    have := hm w0
    simp [Sys.masterStep, hpc] at this
  | check t =>
    exfalso
    have := hm w0
    simp only [Sys.masterStep, hpc] at this
    split at this
    · simp at this
    · split at this <;> simp at this
  | send b i c =>
    exfalso
    have := hm w0
    simp only [Sys.masterStep, hpc] at this
    split at this
    · simp at this
    · split at this
      · simp at this
      · split at this <;> simp at this

end Model.MPI

import Verif.Lemmas.DirectTape

/-! Forward simulation of the direct simulator. -/

namespace Model.DirectSim
open Spec (Table)

/-- The simulator object represents the mathematical configuration `c`. -/
structure Sim (s : DirectSim) (c : Spec.Config) : Prop where
  wf : s.tape.WF
  blank : s.tape.initSymbol = 0
  tape : s.tape.abs = c.tape
  pos : s.tape.position = c.pos
  state : s.state = c.state
  halted : s.halted = c.state.isNone

theorem sim_new : Sim new Spec.init :=
  ⟨DirectTape.wf_new _, rfl, DirectTape.abs_new _, rfl, rfl, rfl⟩

theorem sim_step {M : Table} {s : DirectSim} {c : Spec.Config} (h : Sim s c) :
    ∃ s', step M s = some s' ∧ Sim s' (Spec.step M c) ∧
      s'.stepNum = s.stepNum + (if s.halted then 0 else 1) ∧
      s'.tape.posLeftmost = min s.tape.posLeftmost s'.tape.position ∧
      s'.tape.posRightmost = max s.tape.posRightmost s'.tape.position ∧
      (s.halted = true → s' = s) ∧
      (∀ q, s.halted = false → c.state = some q → s'.halted = true →
        s'.haltInfo = some (Spec.score (Spec.step M c), q, c.tape c.pos)) := by
  obtain ⟨hwf, hb, ht, hp, hs, hh⟩ := h
  cases hq : c.state with
  | none =>
    have hhalt : s.halted = true := by rw [hh, hq]; rfl
    refine ⟨s, by unfold step; rw [if_pos hhalt], ?_, by simp [hhalt], ?_, ?_, fun _ => rfl, ?_⟩
    · rw [Spec.step_halted hq]; exact ⟨hwf, hb, ht, hp, hs, hh⟩
    · have := (DirectTape.wf_iff.1 hwf).1; omega
    · have := (DirectTape.wf_iff.1 hwf).2; omega
    · intro q h0; rw [hhalt] at h0; cases h0
  | some q =>
    have hhalt : s.halted = false := by rw [hh, hq]; rfl
    have hst : s.state = some q := by rw [hs, hq]
    obtain ⟨t1, e1, wf1, p1, i1, l1, r1, a1⟩ :=
      DirectTape.write_eq hwf (M q (c.tape c.pos)).write
    obtain ⟨t2, e2, wf2, p2, i2, a2, l2, r2⟩ :=
      DirectTape.move_eq wf1 (M q (c.tape c.pos)).dir
    have hread : s.tape.read = some (c.tape c.pos) := by
      rw [DirectTape.read_eq hwf, ht, hp]
    have hsim : t2.abs = (Spec.step M c).tape := by
      rw [a2, a1, Spec.step_tape hq, ht, hp]
    refine ⟨{ halted := (M q (c.tape c.pos)).next.isNone
              state := (M q (c.tape c.pos)).next
              tape := t2
              stepNum := s.stepNum + 1
              haltInfo := if (M q (c.tape c.pos)).next.isNone then
                some (t2.countNonzero, q, c.tape c.pos) else s.haltInfo }, ?_, ⟨wf2, ?_, hsim, ?_, ?_, ?_⟩, ?_, ?_, ?_, ?_, ?_⟩
    · unfold step
      rw [hhalt, hst, hread]
      simp only [Option.bind_some, e1, e2, Bool.false_eq_true, if_false]
    · exact i2.trans (i1.trans hb)
    · rw [Spec.step_pos hq]; simp only; rw [p2, p1, hp]
    · exact (Spec.step_state hq).symm
    · simp only; rw [Spec.step_state hq]
    · simp [hhalt]
    · simp only; rw [l2, l1, p2]
    · simp only; rw [r2, r1, p2]
    · intro h0; rw [hhalt] at h0; cases h0
    · intro q' _ hq' hn
      simp only at hn ⊢
      rw [if_pos hn]
      have : q = q' := by simpa using hq'
      subst this
      rw [DirectTape.countNonzero_eq, hsim, i2, i1, hb]
      rfl

/-- `n` steps of the simulator follow `n` steps of the machine. -/
theorem sim_steps {M : Table} (n : Nat) {s : DirectSim} {c : Spec.Config} (h : Sim s c) :
    ∃ s', steps M n s = some s' ∧ Sim s' (Spec.run M n c) := by
  induction n generalizing s c with
  | zero => exact ⟨s, rfl, h⟩
  | succ n ih =>
    obtain ⟨s1, e1, h1, _⟩ := sim_step (M := M) h
    obtain ⟨s', e', h'⟩ := ih h1
    exact ⟨s', by simp [steps, e1, e'], by rw [Spec.run_succ]; exact h'⟩

theorem steps_succ' (M : Table) (n : Nat) (s : DirectSim) :
    steps M (n + 1) s = (steps M n s).bind (step M) := by
  induction n generalizing s with
  | zero =>
    simp only [steps]
    cases h : step M s <;> simp [h]
  | succ n ih =>
    rw [steps]
    cases h : step M s with
    | none => simp [steps, h]
    | some s1 =>
      rw [Option.bind_some, ih s1]
      simp [steps, h]

end Model.DirectSim

import Verif.Spec.Tape
import Verif.Lemmas.DirectSim

/-!
# C01, C02: the direct tape and the direct simulator
-/

namespace Props
open Spec Model

/-- Perform one user operation on the buffer tape; `none` = Python raises. -/
def applyOp {α : Type} (t : DirectTape α) : Tape.Op α → Option (DirectTape α)
  | .write s => t.write s
  | .move d => t.move d
  | .writePos s p => t.writePos s p

def applyOps {α : Type} : DirectTape α → List (Tape.Op α) → Option (DirectTape α)
  | t, [] => some t
  | t, op :: ops => (applyOp t op).bind (fun t' => applyOps t' ops)

/-- **C01.** After any sequence of operations on a fresh tape nothing has raised, and every
observation (head position, symbol under the head, symbol at any position, furthest cells touched,
number of non-blank cells) is the one of the two-way infinite tape; a copy has the same contents. -/
theorem C01_direct_tape {α : Type} [DecidableEq α] (s0 : α) (ops : List (Tape.Op α)) :
    ∃ t, applyOps (DirectTape.new s0) ops = some t ∧
      t.position = ((Tape.blank s0).applyAll ops).pos ∧
      t.read = some (((Tape.blank s0).applyAll ops).cells ((Tape.blank s0).applyAll ops).pos) ∧
      (∀ p, t.readPos p = some (((Tape.blank s0).applyAll ops).cells p)) ∧
      (∀ p, t.copy.readPos p = some (((Tape.blank s0).applyAll ops).cells p)) ∧
      t.posLeftmost = ((Tape.blank s0).applyAll ops).lo ∧
      t.posRightmost = ((Tape.blank s0).applyAll ops).hi ∧
      t.countNonzero = Set.ncard {p | ((Tape.blank s0).applyAll ops).cells p ≠ s0} := by
  have key : ∀ (ops : List (Tape.Op α)) (t : DirectTape α) (T : Tape α), t.WF →
      t.initSymbol = s0 → t.abs = T.cells → t.position = T.pos → t.posLeftmost = T.lo →
      t.posRightmost = T.hi →
      ∃ t', applyOps t ops = some t' ∧ t'.WF ∧ t'.initSymbol = s0 ∧
        t'.abs = (T.applyAll ops).cells ∧ t'.position = (T.applyAll ops).pos ∧
        t'.posLeftmost = (T.applyAll ops).lo ∧ t'.posRightmost = (T.applyAll ops).hi := by
    intro ops
    induction ops with
    | nil => intro t T h1 h2 h3 h4 h5 h6; exact ⟨t, rfl, h1, h2, h3, h4, h5, h6⟩
    | cons op ops ih =>
      intro t T h1 h2 h3 h4 h5 h6
      cases op with
      | write s =>
        obtain ⟨t', e, w, p, i, l, r, a⟩ := DirectTape.write_eq h1 s
        obtain ⟨t'', e', rest⟩ := ih t' (T.apply (.write s)) w (i.trans h2)
          (by rw [a, h3, h4]; rfl) (p.trans h4) (l.trans h5) (r.trans h6)
        exact ⟨t'', by simp [applyOps, applyOp, e, e'], rest⟩
      | move d =>
        obtain ⟨t', e, w, p, i, a, l, r⟩ := DirectTape.move_eq h1 d
        obtain ⟨t'', e', rest⟩ := ih t' (T.apply (.move d)) w (i.trans h2)
          (by rw [a, h3]; rfl) (by rw [p, h4]; rfl) (by rw [l, h5, h4]; rfl) (by rw [r, h6, h4]; rfl)
        exact ⟨t'', by simp [applyOps, applyOp, e, e'], rest⟩
      | writePos s q =>
        obtain ⟨t', e, w, p, i, a, l, r⟩ := DirectTape.writePos_eq h1 s q
        obtain ⟨t'', e', rest⟩ := ih t' (T.apply (.writePos s q)) w (i.trans h2)
          (by rw [a, h3]; rfl) (p.trans h4) (by rw [l, h5]; rfl) (by rw [r, h6]; rfl)
        exact ⟨t'', by simp [applyOps, applyOp, e, e'], rest⟩
  obtain ⟨t, e, w, i, a, p, l, r⟩ := key ops (DirectTape.new s0) (Tape.blank s0)
    (DirectTape.wf_new s0) rfl (DirectTape.abs_new s0) rfl rfl rfl
  refine ⟨t, e, p, ?_, ?_, ?_, l, r, ?_⟩
  · rw [DirectTape.read_eq w, a, p]
  · intro x; rw [DirectTape.readPos_eq, a]
  · intro x; rw [DirectTape.copy, DirectTape.readPos_eq, a]
  · rw [DirectTape.countNonzero_eq, a, i]

/-- The statement is not vacuous: a run that grows the buffer on both sides. -/
example : (applyOps (DirectTape.new (0 : Nat))
      [.write 1, .move .L, .write 2, .writePos 3 4, .move .R, .move .R]).map
        (fun t => (t.position, t.read, t.readPos 4, t.readPos (-1), t.readPos 7, t.countNonzero))
    = some (1, some 0, some 3, some 2, some 0, 3) := rfl

/-- **C02.** `n` calls of `step` on a fresh simulator never raise and give exactly the state, halt
flag, position, tape and (while running) step count of the mathematical machine after `n` steps; the
step counter stops at the halting step; at the halting step the recorded score and halting cell are
right. -/
theorem C02_direct_simulator (M : Table) (n : Nat) :
    ∃ s, DirectSim.steps M n DirectSim.new = some s ∧
      s.state = (run M n init).state ∧
      (s.halted = true ↔ (run M n init).state = none) ∧
      s.tape.position = (run M n init).pos ∧
      (∀ p, s.tape.readPos p = some ((run M n init).tape p)) ∧
      s.tape.countNonzero = score (run M n init) ∧
      (s.halted = false → s.stepNum = n) ∧
      (∀ k, HaltsAt M init k → k ≤ n →
        s.stepNum = k ∧
        ∃ q a, s.haltInfo = some (score (run M k init), q, a) ∧
          (run M (k - 1) init).state = some q ∧
          (run M (k - 1) init).tape (run M (k - 1) init).pos = a ∧ (M q a).next = none) := by
  have key : ∀ n, ∃ s, DirectSim.steps M n DirectSim.new = some s ∧ DirectSim.Sim s (run M n init) ∧
      (s.halted = false → s.stepNum = n) ∧
      (∀ k, HaltsAt M init k → k ≤ n →
        s.stepNum = k ∧
        ∃ q a, s.haltInfo = some (score (run M k init), q, a) ∧
          (run M (k - 1) init).state = some q ∧
          (run M (k - 1) init).tape (run M (k - 1) init).pos = a ∧ (M q a).next = none) := by
    intro n
    induction n with
    | zero =>
      refine ⟨_, rfl, DirectSim.sim_new, fun _ => rfl, fun k hk hk0 => ?_⟩
      have : k = 0 := by omega
      subst this
      exact absurd hk.1 (by simp [init])
    | succ n ih =>
      obtain ⟨s, e, hs, hn, hk⟩ := ih
      obtain ⟨s', e', hs', hstep, _, _, hsame, hinfo⟩ := DirectSim.sim_step (M := M) hs
      refine ⟨s', ?_, ?_, ?_, ?_⟩
      · rw [DirectSim.steps_succ', e]; exact e'
      · rw [run_succ']; exact hs'
      · intro h0
        have : s.halted = false := by
          cases h : s.halted
          · rfl
          · rw [hsame h] at h0; rw [h] at h0; cases h0
        rw [hstep, this, hn this]; simp
      · intro k hHalt hle
        rcases Nat.lt_or_ge n k with hgt | hle'
        · have hkn : k = n + 1 := by omega
          subst hkn
          have hrun : (run M n init).state ≠ none := hHalt.2 n (by omega)
          obtain ⟨q, hq⟩ := Option.ne_none_iff_exists'.1 hrun
          have hnh : s.halted = false := by rw [hs.halted, hq]; rfl
          have hh' : s'.halted = true := by
            rw [hs'.halted, ← run_succ', hHalt.1]; rfl
          refine ⟨by rw [hstep, hnh, hn hnh]; simp, q, _, ?_, hq, rfl, ?_⟩
          · rw [hinfo q hnh hq hh', run_succ']; rfl
          · have := hHalt.1
            rw [run_succ', step_state hq] at this
            exact this
        · have hs0 : s.halted = true := by
            rw [hs.halted, run_none_mono hle' hHalt.1]; rfl
          rw [hsame hs0]
          exact hk k hHalt hle'
  obtain ⟨s, e, hs, hn, hk⟩ := key n
  refine ⟨s, e, hs.state, ?_, hs.pos, ?_, ?_, hn, hk⟩
  · rw [hs.halted]; simp
  · intro p; rw [DirectTape.readPos_eq, hs.tape]
  · rw [DirectTape.countNonzero_eq, hs.tape, hs.blank]; rfl

/-- The 2-state busy beaver halts after 6 steps with 4 ones. -/
def bb2 : Table := fun q a => match q, a with
  | 0, 0 => .go 1 .R 1
  | 0, 1 => .go 1 .L 1
  | 1, 0 => .go 1 .L 0
  | 1, 1 => .halt 1 .R
  | _, _ => .undef

example : (DirectSim.steps bb2 10 DirectSim.new).map
    (fun s => (s.halted, s.stepNum, s.haltInfo)) = some (true, 6, some (4, 1, 1)) := by decide

end Props

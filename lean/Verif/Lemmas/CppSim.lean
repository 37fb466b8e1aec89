import Verif.Spec.Cpp
import Verif.Lemmas.TM
import Verif.Lemmas.Rename

/-!
# The C++ simulator runs the machine
-/

namespace Model.Cpp
open Spec

@[simp] theorem ok_bind {α β : Type} (a : α) (f : α → Out β) : ((Out.ok a) >>= f) = f a := rfl
@[simp] theorem exit_bind {α β : Type} (f : α → Out β) : ((Out.exit : Out α) >>= f) = .exit := rfl
@[simp] theorem ub_bind {α β : Type} (f : α → Out β) : ((Out.ub : Out α) >>= f) = .ub := rfl
@[simp] theorem more_bind {α β : Type} (f : α → Out β) : ((Out.more : Out α) >>= f) = .more := rfl

theorem bind_ok {α β : Type} {x : Out α} {f : α → Out β} {b : β} (h : (x >>= f) = .ok b) : ∃ a, x = .ok a ∧ f a = .ok b := by
  cases x with
  | ok a => exact ⟨a, rfl, h⟩
  | exit => cases h
  | ub => cases h
  | more => cases h

/-- the number of a state in the code -/
def stNum : Option Nat → Int
  | none => -1
  | some q => q

theorem stNum_some (q : Nat) : stNum (some q) = (q : Int) := rfl

theorem stNum_none_iff {o : Option Nat} : stNum o = -1 ↔ o = none := by
  cases o with
  | none => exact ⟨fun _ => rfl, fun _ => rfl⟩
  | some q =>
    refine ⟨fun h => ?_, fun h => by cases h⟩
    rw [stNum_some] at h
    omega

theorem stNum_inj {o o' : Option Nat} (h : stNum o = stNum o') : o = o' := by
  cases o with
  | none => exact (stNum_none_iff.1 h.symm).symm
  | some q =>
    cases o' with
    | none => exact absurd (stNum_none_iff.1 h) (by simp)
    | some q' => rw [stNum_some, stNum_some] at h; congr 1; omega

theorem shaped_cell {tm : TM} {n m : Nat} (h : tm.Shaped n m) {q a : Nat} (hq : q < n) (ha : a < m) :
    ∃ r t, tm.transitions[q]? = some r ∧ r[a]? = some t ∧ r ∈ tm.transitions ∧ t ∈ r ∧ t.Fits n m ∧ tm.table q a = t.instr ∧
      tm.lookup q a = .ok t := by
  have hq' : q < tm.transitions.length := by rw [h.height]; exact hq
  have h1 : tm.transitions[q]? = some tm.transitions[q] := List.getElem?_eq_getElem hq'
  have h2 := List.getElem_mem hq'
  have ha' : a < tm.transitions[q].length := by rw [h.width _ h2]; exact ha
  have h3 : tm.transitions[q][a]? = some tm.transitions[q][a] := List.getElem?_eq_getElem ha'
  have h4 := List.getElem_mem ha'
  refine ⟨_, _, h1, h3, h2, h4, h.cells _ h2 _ h4, ?_, ?_⟩
  · unfold TM.table
    rw [h1]
    simp only [h3]
  · unfold TM.lookup
    rw [if_neg (by omega), Int.toNat_natCast, h1]
    simp only [h3]

theorem instr_next_num {n m : Nat} {t : Trans} (h : t.Fits n m) : stNum t.instr.next = t.state := by
  unfold Trans.instr
  cases hu : t.undecided with
  | true => rw [h.undec hu]; rfl
  | false =>
    have := h.low
    simp only [Bool.false_eq_true, if_false]
    by_cases h0 : t.state < 0
    · rw [if_pos h0]; show -1 = _; omega
    · rw [if_neg h0]; show ((t.state.toNat : Nat) : Int) = _; omega

theorem instr_write {n m : Nat} {t : Trans} (h : t.Fits n m) : t.instr.write = t.symbol := by
  unfold Trans.instr
  cases hu : t.undecided with
  | true => rw [h.undec hu]; rfl
  | false =>
    simp only [Bool.false_eq_true, if_false]
    split <;> rfl

theorem instr_delta {n m : Nat} {t : Trans} (h : t.Fits n m) : t.instr.dir.delta = t.move := by
  unfold Trans.instr
  cases hu : t.undecided with
  | true => rw [h.undec hu]; rfl
  | false =>
    simp only [Bool.false_eq_true, if_false]
    rcases h.dir with hd | hd <;> rw [hd] <;> split <;> rfl

theorem shaped_fits {tm : TM} {n m : Nat} (h : tm.Shaped n m) : Fits tm.table n m := by
  intro q hq a ha
  obtain ⟨r, t, -, -, -, -, hf, ht, -⟩ := shaped_cell h hq ha
  rw [ht]
  have h1 := hf.sym
  have h2 := hf.low
  have h3 := hf.high
  unfold Trans.instr
  by_cases hu : t.undecided = true
  · rw [if_pos hu]; trivial
  · rw [if_neg hu]
    by_cases h0 : t.state < 0
    · rw [if_pos h0]; exact h1
    · rw [if_neg h0]; exact ⟨h1, by omega⟩

/-! ### The tape -/

/-- the vector is long enough for the head -/
def Tape.Valid (t : Tape) : Prop := 0 ≤ t.index ∧ t.index < t.cells.length

theorem tape_new_valid : Tape.new.Valid := by
  constructor
  · decide
  · decide

theorem tape_new_read (p : Int) : Tape.new.readAt p = 0 := by
  unfold Tape.readAt Tape.new
  split
  · simp only [List.getElem?_replicate]
    split <;> rfl
  · rfl

theorem tape_read {t : Tape} (h : t.Valid) : t.read = .ok (t.readAt t.position) := by
  obtain ⟨h1, h2⟩ := h
  unfold Tape.read Tape.readAt Tape.position
  rw [if_neg (by omega), show t.index - t.start + t.start = t.index by omega, if_pos ⟨h1, h2⟩]
  have : t.index.toNat < t.cells.length := by omega
  rw [List.getElem?_eq_getElem this]
  rfl

theorem tape_write {t : Tape} (h : t.Valid) (a : Nat) :
    ∃ t', t.write a = .ok t' ∧ t'.Valid ∧ t'.position = t.position ∧
      ∀ p, t'.readAt p = if p = t.position then a else t.readAt p := by
  obtain ⟨h1, h2⟩ := h
  refine ⟨{ t with cells := t.cells.set t.index.toNat a }, ?_, ?_, rfl, fun p => ?_⟩
  · unfold Tape.write; rw [if_pos ⟨h1, h2⟩]
  · exact ⟨h1, by simpa using h2⟩
  · unfold Tape.readAt Tape.position
    simp only [List.length_set, List.getElem?_set]
    by_cases hp : p = t.index - t.start
    · have e : p + t.start = t.index := by omega
      rw [if_pos hp, e, if_pos ⟨h1, h2⟩, if_pos rfl, if_pos (by omega)]
      rfl
    · rw [if_neg hp]
      split
      · rw [if_neg (by omega)]
      · rfl

theorem tape_move {t : Tape} (h : t.Valid) (d : Int) (hd : d = 1 ∨ d = -1) :
    (t.move d).Valid ∧ (t.move d).position = t.position + d ∧ ∀ p, (t.move d).readAt p = t.readAt p := by
  obtain ⟨h1, h2⟩ := h
  unfold Tape.move
  simp only
  by_cases hl : t.index + d < 0
  · rw [if_pos hl]
    refine ⟨⟨?_, ?_⟩, ?_, fun p => ?_⟩
    · simp only [unitSize]; omega
    · simp only [List.length_append, List.length_replicate, unitSize]; omega
    · unfold Tape.position; simp only; omega
    · unfold Tape.readAt
      simp only [List.length_append, List.length_replicate]
      by_cases hp : 0 ≤ p + t.start ∧ p + t.start < t.cells.length
      · rw [if_pos hp, if_pos (by omega), List.getElem?_append_right (by simp only [List.length_replicate]; omega)]
        simp only [List.length_replicate]
        congr 2
        omega
      · rw [if_neg hp]
        split
        · rw [List.getElem?_append_left (by simp only [List.length_replicate]; omega), List.getElem?_replicate]
          split <;> rfl
        · rfl
  · rw [if_neg hl]
    by_cases hr : (t.cells.length : Int) ≤ t.index + d
    · rw [if_pos hr]
      refine ⟨⟨?_, ?_⟩, ?_, fun p => ?_⟩
      · simp only; omega
      · simp only [List.length_append, List.length_replicate, unitSize]; omega
      · unfold Tape.position; simp only; omega
      · unfold Tape.readAt
        simp only [List.length_append, List.length_replicate]
        by_cases hp : 0 ≤ p + t.start ∧ p + t.start < t.cells.length
        · rw [if_pos hp, if_pos (by omega), List.getElem?_append_left (by omega)]
        · rw [if_neg hp]
          split
          · rw [List.getElem?_append_right (by omega), List.getElem?_replicate]
            split <;> rfl
          · rfl
    · rw [if_neg hr]
      refine ⟨⟨?_, ?_⟩, ?_, fun p => rfl⟩
      · simp only; omega
      · simp only; omega
      · unfold Tape.position; simp only; omega

/-! ### The simulator -/

/-- the simulator is in configuration `c` -/
structure Rel (s : Sim) (c : Config) : Prop where
  state : s.state = stNum c.state
  pos : s.tape.position = c.pos
  tape : ∀ p, s.tape.readAt p = c.tape p
  valid : s.tape.Valid

theorem rel_new : Rel Sim.new init := ⟨rfl, rfl, tape_new_read, tape_new_valid⟩

theorem rel_halted {s : Sim} {c : Config} (h : Rel s c) : s.isHalted = true ↔ c.state = none := by
  unfold Sim.isHalted
  rw [decide_eq_true_iff, h.state, stNum_none_iff]

theorem stepSafe_spec {tm : TM} {n m : Nat} (hs : tm.Shaped n m) {s : Sim} {c : Config} (h : Rel s c) (hr : InRange n m c)
    {q : Nat} (hq : c.state = some q) :
    ∃ s', stepSafe tm s = .ok s' ∧ Rel s' (Spec.step tm.table c) ∧ s'.stepNum = s.stepNum + 1 ∧
      s'.lastState = some (q : Int) ∧ s'.lastSymbol = some (c.tape c.pos) := by
  have hst : s.state = (q : Int) := by rw [h.state, hq]; rfl
  have hread : s.tape.read = .ok (c.tape c.pos) := by rw [tape_read h.valid, h.tape, h.pos]
  obtain ⟨r, t, -, -, -, -, hf, ht, hl⟩ := shaped_cell hs (hr.1 q hq) (hr.2 c.pos)
  obtain ⟨t1, e1, v1, p1, r1⟩ := tape_write h.valid t.symbol
  obtain ⟨v2, p2, r2⟩ := tape_move v1 t.move hf.dir
  refine ⟨⟨t1.move t.move, t.state, s.stepNum + 1, some s.state, some (c.tape c.pos)⟩, ?_, ⟨?_, ?_, ?_, v2⟩, rfl, ?_, rfl⟩
  · unfold stepSafe
    rw [hread, ok_bind, hst, hl, ok_bind, e1, ok_bind]
  · rw [step_state hq, ht]
    exact (instr_next_num hf).symm
  · rw [step_pos hq, ht, instr_delta hf]
    show (t1.move t.move).position = _
    rw [p2, p1, h.pos]
  · intro p
    show (t1.move t.move).readAt p = _
    rw [r2, r1, step_tape hq, ht, instr_write hf, Function.update_apply, h.pos, h.tape]
  · rw [hst]

/-- the last cell used: this is where the machine was one step earlier -/
def LastCell (s : Sim) (c : Config) : Prop :=
  ∃ q : Nat, c.state = some q ∧ s.lastState = some (q : Int) ∧ s.lastSymbol = some (c.tape c.pos)

theorem seekN_spec {tm : TM} {n m : Nat} (hs : tm.Shaped n m) (k : Nat) : ∀ {s : Sim} {c : Config}, Rel s c → InRange n m c →
    ∃ s' j, seekN tm k s = .ok s' ∧ j ≤ k ∧ Rel s' (run tm.table j c) ∧ s'.stepNum = s.stepNum + j ∧
      (∀ i < j, (run tm.table i c).state ≠ none) ∧ (j < k → (run tm.table j c).state = none) ∧
      (0 < j → LastCell s' (run tm.table (j - 1) c)) := by
  induction k with
  | zero =>
    intro s c h hr
    exact ⟨s, 0, rfl, le_refl _, h, rfl, fun i hi => absurd hi (by omega), fun hi => absurd hi (by omega), fun hi => absurd hi (by omega)⟩
  | succ k ih =>
    intro s c h hr
    cases hq : c.state with
    | none =>
      refine ⟨s, 0, ?_, by omega, h, rfl, fun i hi => absurd hi (by omega), fun _ => hq, fun hi => absurd hi (by omega)⟩
      unfold seekN
      rw [if_pos ((rel_halted h).2 hq)]
    | some q =>
      obtain ⟨s1, e1, r1, n1, l1, l2⟩ := stepSafe_spec hs h hr hq
      have hu : seekN tm (k + 1) s = seekN tm k s1 := by
        conv_lhs => unfold seekN
        rw [if_neg (fun hh => by rw [(rel_halted h).1 hh] at hq; cases hq), e1, ok_bind]
      rw [hu]
      by_cases hn : (Spec.step tm.table c).state = none
      · refine ⟨s1, 1, ?_, by omega, r1, n1, ?_, fun _ => hn, fun _ => ⟨q, hq, l1, l2⟩⟩
        · cases k with
          | zero => rfl
          | succ k =>
            unfold seekN
            rw [if_pos ((rel_halted r1).2 hn)]
        · intro i hi
          obtain rfl : i = 0 := by omega
          show c.state ≠ none
          rw [hq]; simp
      · obtain ⟨s', j, e, hj, r', n', g1, g2, g3⟩ := ih r1 (inRange_step (shaped_fits hs) hr hn)
        refine ⟨s', j + 1, e, by omega, r', by rw [n', n1]; omega, ?_, fun hlt => g2 (by omega), fun _ => ?_⟩
        · intro i hi
          cases i with
          | zero => show c.state ≠ none; rw [hq]; simp
          | succ i => exact g1 i (by omega)
        · cases j with
          | zero =>
            have : s' = s1 := by
              cases k with
              | zero => exact (Out.ok.inj e).symm
              | succ k => exact absurd (g2 (by omega)) hn
            rw [this]
            exact ⟨q, hq, l1, l2⟩
          | succ j => exact g3 (by omega)

end Model.Cpp

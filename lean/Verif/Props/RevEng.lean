import Verif.Lemmas.Reach

/-! # C14: the reverse-engineering filter -/

namespace Props
open Spec Model

/-- **C14.** If the filter says "infinite", the machine never halts from the blank tape.  Moreover the
filter never raises on a well-formed machine. -/
theorem C14_reverse_engineer_sound (M : Table) (nS nK : Nat) (wf : WFTable M nS nK)
    (h : RevEng.isInfinite M nS nK = some true) : NeverHalts M init := by
  have hall : ∀ hs, RevEng.isInfinite.go M nS nK hs = some true →
      ∀ c ∈ hs, RevEng.cannotReachHalt M nS nK c.1 c.2 = some true := by
    intro hs
    induction hs with
    | nil => intro _ c hc; cases hc
    | cons x xs ih =>
      intro e c hc
      unfold RevEng.isInfinite.go at e
      cases hx : RevEng.cannotReachHalt M nS nK x.1 x.2 with
      | none => rw [hx] at e; cases e
      | some b =>
        rw [hx] at e
        cases b with
        | false => simp at e
        | true =>
          simp only [Option.bind_some, if_true] at e
          rcases List.mem_cons.1 hc with rfl | hc
          · exact hx
          · exact ih e c hc
  by_contra hnot
  obtain ⟨n, q, hq, hhalt⟩ := exists_halting_cell hnot
  have inv := inv_run wf n (by rw [hq]; simp)
  have hqS := inv.st q hq
  have haK := inv.sym (run M n init).pos
  generalize ha : (run M n init).tape (run M n init).pos = a at *
  have hmem : (q, a) ∈ halts M nS nK := by
    unfold halts
    rw [List.mem_filter, mem_cells]
    exact ⟨⟨hqS, haK⟩, by simp [haltCell, hhalt]⟩
  have hc := hall _ h _ hmem
  -- the step that led to this configuration
  have hprev : n ≠ 0 → ∃ q0 a0 w d, q0 < nS ∧ a0 < nK ∧ M q0 a0 = .go w d q ∧
      (a = 0 ∨ ∃ q1 a1 d1 q1', q1 < nS ∧ a1 < nK ∧ M q1 a1 = .go a d1 q1' ∧ d1 ≠ d) := by
    intro hn
    obtain ⟨m, rfl⟩ := Nat.exists_eq_succ_of_ne_zero hn
    have hrun : (run M m init).state ≠ none :=
      run_some_mono (Nat.le_succ m) (by rw [hq]; simp)
    obtain ⟨q0, hq0⟩ := Option.ne_none_iff_exists'.1 hrun
    have inv0 := inv_run wf m hrun
    have hq' := hq
    rw [Nat.succ_eq_add_one, run_succ', step_state hq0, next_some_iff] at hq'
    obtain ⟨w, d, e⟩ := hq'
    refine ⟨q0, _, w, d, inv0.st q0 hq0, inv0.sym _, e, ?_⟩
    rw [Nat.succ_eq_add_one, run_succ', step_tape hq0, step_pos hq0, e] at ha
    simp only [Instr.dir, Instr.write] at ha
    have hne : (run M m init).pos + d.delta ≠ (run M m init).pos := by
      cases d <;> simp [Dir.delta]
    rw [Function.update_of_ne hne] at ha
    rcases inv0.side _ hne with h0 | ⟨q1, a1, d1, q1', hq1, ha1, e1, hd⟩
    · left; rw [← ha]; exact h0
    · right
      rw [ha] at e1
      refine ⟨q1, a1, d1, q1', hq1, ha1, e1, ?_⟩
      rintro rfl
      cases d1 <;> simp [Dir.delta] at hd
  unfold RevEng.cannotReachHalt at hc
  by_cases h0 : (toState M nS nK q).length = 0 ∧ (q, a) ≠ (0, 0)
  · obtain ⟨hlen, hne⟩ := h0
    have hn : n ≠ 0 := by
      rintro rfl
      apply hne
      simp only [run_zero, init, Option.some.injEq] at hq ha
      rw [← hq, ← ha]
    obtain ⟨q0, a0, w, d, hq0, ha0, e, _⟩ := hprev hn
    have : (q0, a0) ∈ toState M nS nK q := by
      unfold toState
      rw [List.mem_filter, mem_cells]
      exact ⟨⟨hq0, ha0⟩, by simp [e, Instr.next]⟩
    rw [List.length_eq_zero_iff.1 hlen] at this
    cases this
  · simp only [h0, if_false] at hc
    by_cases ha0 : a = 0
    · simp [ha0] at hc
    · simp only [ne_eq, ha0, not_false_eq_true, if_true] at hc
      have hn : n ≠ 0 := by
        rintro rfl
        simp only [run_zero, init] at ha
        exact ha0 ha.symm
      obtain ⟨q0, a0, w, d, hq0, ha0', e, hcase⟩ := hprev hn
      rcases hcase with hz | ⟨q1, a1, d1, q1', hq1, ha1, e1, hd⟩
      · exact ha0 hz
      · have m1 : (q1, a1) ∈ toSymbol M nS nK a := by
          unfold toSymbol
          rw [List.mem_filter, mem_cells]
          exact ⟨⟨hq1, ha1⟩, by simp [e1, Instr.next, Instr.write]⟩
        have m0 : (q0, a0) ∈ toState M nS nK q := by
          unfold toState
          rw [List.mem_filter, mem_cells]
          exact ⟨⟨hq0, ha0'⟩, by simp [e, Instr.next]⟩
        by_cases hl : (toSymbol M nS nK a).length = 0
        · rw [List.length_eq_zero_iff.1 hl] at m1; cases m1
        · simp only [hl, if_false] at hc
          unfold RevEng.sameDirection at hc
          cases hts : toState M nS nK q with
          | nil => rw [hts] at m0; cases m0
          | cons c0 rest =>
            rw [hts] at hc m0
            simp only [Option.some.injEq, Bool.and_eq_true, List.all_eq_true, beq_iff_eq] at hc
            have hd0 := hc.1 _ m0
            have hd1 := hc.2 _ m1
            simp only [e, e1, Instr.dir] at hd0 hd1
            exact hd (hd1.trans hd0.symm)

/-- The filter never raises on a well-formed machine. -/
theorem C14_reverse_engineer_total (M : Table) (nS nK : Nat) :
    ∃ b, RevEng.isInfinite M nS nK = some b := by
  have hall : ∀ hs, ∃ b, RevEng.isInfinite.go M nS nK hs = some b := by
    intro hs
    induction hs with
    | nil => exact ⟨true, rfl⟩
    | cons x xs ih =>
      obtain ⟨b, hb⟩ := ih
      have : ∃ b', RevEng.cannotReachHalt M nS nK x.1 x.2 = some b' := by
        unfold RevEng.cannotReachHalt
        split
        · exact ⟨_, rfl⟩
        · rename_i h1
          split
          · rename_i h2
            split
            · exact ⟨_, rfl⟩
            · unfold RevEng.sameDirection
              cases hts : toState M nS nK x.1 with
              | nil =>
                exfalso
                apply h1
                refine ⟨by rw [hts]; rfl, ?_⟩
                intro he
                exact h2 (Prod.mk.inj he).2
              | cons c0 rest => exact ⟨_, rfl⟩
          · exact ⟨_, rfl⟩
      obtain ⟨b', hb'⟩ := this
      unfold RevEng.isInfinite.go
      rw [hb']
      cases b' with
      | true => exact ⟨b, by simp [hb]⟩
      | false => exact ⟨false, by simp⟩
  exact hall _

/-- A machine the filter decides although it has a halting cell: `1RB 1LA ; 1LA 1LZ`-like table in
which every transition into `B` moves right and every transition writing `2` moves right. -/
def revEngSample : Table := fun q a => match q, a with
  | 0, 0 => .go 2 .R 1
  | 0, 1 => .go 1 .L 0
  | 0, 2 => .go 1 .L 0
  | 1, 0 => .go 1 .L 0
  | 1, 1 => .go 1 .L 0
  | 1, 2 => .halt 1 .R
  | _, _ => .undef

example : WFTable revEngSample 2 3 ∧ RevEng.isInfinite revEngSample 2 3 = some true := by decide

end Props

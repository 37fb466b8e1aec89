import Verif.Lemmas.Backtrack

/-! # C15, C16: the backtracking filter -/

namespace Props
open Spec Model

/-- What is true of a "success" of the filter: the only halting it can have overlooked is halting at
the very first step. -/
theorem backtrack_success (M : Table) (nS nK steps width : Nat) (wf : WFTable M nS nK)
    (r : Backtrack.Result) (h : Backtrack.ttable M nS nK steps width = some (some r))
    (hs : r.success = true) : ∀ n, HaltsAt M init n → n = 1 := by
  have key : ∀ (hs : List (Nat × Nat)) (comb : Option Backtrack.Result),
      Backtrack.ttable.go M nS nK steps width hs comb = some (some r) →
      ∀ c ∈ hs, ∃ r', Backtrack.singleHalt M nS nK c.1 c.2 steps width = some r' ∧
        r'.success = true := by
    intro hs
    induction hs with
    | nil => intro _ _ c hc; cases hc
    | cons x xs ih =>
      intro comb e c hc
      unfold Backtrack.ttable.go at e
      by_cases hl : Backtrack.hasSelfLoop M nK x.1 = true
      · rw [if_pos hl] at e
        simp only [Option.some.injEq] at e
        subst e
        contradiction
      · rw [if_neg hl] at e
        cases hx : Backtrack.singleHalt M nS nK x.1 x.2 steps width with
        | none => rw [hx] at e; cases e
        | some r' =>
          rw [hx, Option.bind_some] at e
          by_cases hr' : r'.success = true
          · rw [hr'] at e
            simp only [Bool.not_true, Bool.false_eq_true, if_false] at e
            rcases List.mem_cons.1 hc with rfl | hc
            · exact ⟨r', hx, hr'⟩
            · exact ih _ e c hc
          · simp only [hr', Bool.not_false, if_true, Option.some.injEq] at e
            rw [e] at hr'
            exact absurd hs hr'
  intro n hn
  cases n with
  | zero => exact absurd hn.1 (by simp [init])
  | succ n =>
    have hrun := hn.2 n (Nat.lt_succ_self n)
    obtain ⟨q, hq⟩ := Option.ne_none_iff_exists'.1 hrun
    have inv := inv_run wf n hrun
    have hcell : (M q ((run M n init).tape (run M n init).pos)).next = none := by
      have := hn.1
      rw [run_succ', step_state hq] at this
      exact this
    have hmem : (q, (run M n init).tape (run M n init).pos) ∈ halts M nS nK := by
      unfold halts
      rw [List.mem_filter, mem_cells]
      exact ⟨⟨inv.st q hq, inv.sym _⟩, by simp [haltCell, hcell]⟩
    obtain ⟨r', e', hr'⟩ := key _ _ h _ hmem
    unfold Backtrack.singleHalt at e'
    split at e'
    · cases e'
    · simp only [Option.some.injEq] at e'
      subst e'
      have := Backtrack.singleLoop_success wf _ hr' n _ (List.mem_singleton_self _)
        ⟨hq, rfl, fun _ h => (by cases h), fun _ h => (by cases h)⟩
      rw [this]

/-- **C15 (partial).** If backtracking reports success, the machine never reaches a halting or
undefined transition from the blank tape – provided its very first transition is not one of them.
Missing: nothing can be added, the unrestricted claim is false, see
`C15_backtrack_unsound_on_first_step`. -/
theorem C15_backtrack_sound_partial (M : Table) (nS nK steps width : Nat) (wf : WFTable M nS nK)
    (hfirst : (M 0 0).next ≠ none)
    (r : Backtrack.Result) (h : Backtrack.ttable M nS nK steps width = some (some r))
    (hs : r.success = true) : NeverHalts M init := by
  by_contra hnot
  obtain ⟨n, q, hq, hc⟩ := exists_halting_cell hnot
  have hhalt : HaltsAt M init (n + 1) := by
    refine ⟨by rw [run_succ', step_state hq]; exact hc, fun m hm => ?_⟩
    exact run_some_mono (Nat.lt_succ_iff.1 hm) (by rw [hq]; simp)
  have := backtrack_success M nS nK steps width wf r h hs _ hhalt
  have hn : n = 0 := by omega
  subst hn
  simp only [run_zero, init, Option.some.injEq] at hq hc
  rw [← hq] at hc
  exact hfirst hc

/-- A two-state machine that halts at once, and nothing leads back to the start state. -/
def haltAtOnce : Table := fun q a => match q, a with
  | 0, 0 => .halt 1 .R
  | 0, 1 => .go 1 .R 1
  | 1, 0 => .go 1 .R 1
  | 1, 1 => .go 1 .R 1
  | _, _ => .undef

/-- **C15 is violated**: a machine that halts at its first step gets "success". -/
theorem C15_backtrack_unsound_on_first_step :
    ∃ (M : Table) (nS nK steps width : Nat) (r : Backtrack.Result), WFTable M nS nK ∧
      Backtrack.ttable M nS nK steps width = some (some r) ∧ r.success = true ∧ HaltsAt M init 1 := by
  refine ⟨haltAtOnce, 2, 2, 10, 10, _, by decide, rfl, rfl, ?_, ?_⟩
  · rfl
  · intro m hm
    have : m = 0 := by omega
    subst this
    simp [init]

/-- **C16.** If backtracking reports that the machine halts, it does, and the halting transition
comes right after the reported number of steps. -/
theorem C16_backtrack_halted (M : Table) (nS nK steps width : Nat)
    (r : Backtrack.Result) (h : Backtrack.ttable M nS nK steps width = some (some r))
    (hh : r.halted = true) : HaltsAt M init (r.maxSteps + 1) := by
  have key : ∀ (hs : List (Nat × Nat)) (comb : Option Backtrack.Result),
      (∀ c ∈ hs, haltCell M c = true) → (∀ c, comb = some c → c.halted = false) →
      Backtrack.ttable.go M nS nK steps width hs comb = some (some r) →
      HaltsAt M init (r.maxSteps + 1) := by
    intro hs
    induction hs with
    | nil =>
      intro comb _ hcomb e
      simp only [Backtrack.ttable.go, Option.some.injEq] at e
      rw [hcomb r e] at hh
      cases hh
    | cons x xs ih =>
      intro comb hcell hcomb e
      unfold Backtrack.ttable.go at e
      by_cases hl : Backtrack.hasSelfLoop M nK x.1 = true
      · rw [if_pos hl] at e
        simp only [Option.some.injEq] at e
        rw [← e] at hh
        cases hh
      · rw [if_neg hl] at e
        cases hx : Backtrack.singleHalt M nS nK x.1 x.2 steps width with
        | none => rw [hx] at e; cases e
        | some r' =>
          rw [hx, Option.bind_some] at e
          unfold Backtrack.singleHalt at hx
          split at hx
          · cases hx
          · simp only [Option.some.injEq] at hx
            by_cases hr' : r'.success = true
            · have hnh : r'.halted = false := by
                rw [← hx] at hr' ⊢
                exact Backtrack.singleLoop_success_halted _ hr'
              rw [hr'] at e
              simp only [Bool.not_true, Bool.false_eq_true, if_false] at e
              refine ih _ (fun c hc => hcell c (by simp [hc])) ?_ e
              intro c hc
              simp only [Option.some.injEq] at hc
              rw [← hc]
              cases hcb : comb with
              | none => exact hnh
              | some c' => simp [Backtrack.Result.merge, hnh, hcomb c' hcb]
            · simp only [hr', Bool.not_false, if_true, Option.some.injEq] at e
              subst e
              subst hx
              have hm := Backtrack.singleLoop_halted (M := M) (nS := nS) (nK := nK) (W := width)
                { left := [], right := [], current := x.2, state := x.1 } steps
                (i := 0) (w := 1) (nodes := 0)
                (ps := [{ left := [], right := [], current := x.2, state := x.1 }])
                (by intro p hp c hc
                    rw [List.mem_singleton] at hp
                    subst hp
                    exact hc) hh
              have hcx : (M x.1 x.2).next = none := by
                have := hcell x (by simp)
                simpa [haltCell] using this
              refine ⟨?_, fun m hm' => ?_⟩
              · rw [run_succ', step_state hm.state, hm.cur]; exact hcx
              · exact run_some_mono (Nat.lt_succ_iff.1 hm') (by rw [hm.state]; simp)
  refine key _ none ?_ (by intro c hc; cases hc) h
  intro c hc
  unfold halts at hc
  exact (List.mem_filter.1 hc).2

/-- A machine proven infinite at depth 3 (its halting cell needs a `1` on the wrong side). -/
def backSample : Table := fun q a => match q, a with
  | 0, 0 => .go 1 .R 1
  | 0, 1 => .go 0 .R 1
  | 1, 0 => .go 0 .R 0
  | 1, 1 => .halt 1 .R
  | _, _ => .undef

example : WFTable backSample 2 2 ∧ (backSample 0 0).next ≠ none ∧
    (Backtrack.ttable backSample 2 2 10 10).map (Option.map (·.success)) = some (some true) := by
  decide

/-- Busy beaver-like machine that halts at step 4 and is found by backtracking 3 steps. -/
def backHalts : Table := fun q a => match q, a with
  | 0, 0 => .go 1 .R 1
  | 0, 1 => .go 1 .L 2
  | 1, 0 => .go 1 .L 0
  | 1, 1 => .go 1 .R 0
  | 2, 0 => .halt 1 .R
  | 2, 1 => .go 1 .L 1
  | _, _ => .undef

example : (Backtrack.ttable backHalts 3 2 10 10).map (Option.map (fun r => (r.halted, r.maxSteps)))
    = some (some (true, 3)) := by decide

end Props

import Verif.Lemmas.Pipeline

/-!
# C54: the verdicts of the filter pipeline

`runOptions T nS nK o e s` is what the pipeline does to a status `s` for the machine `T`.
-/

namespace Props
open Spec Model Model.Status Model.Prover Model.Pipeline

/-- The full claim: whatever the options, the pipeline keeps the verdict and the step count of a status right. -/
def C54_claim : Prop :=
  ∀ (T : Table) (nS nK : Nat), WFTable T nS nK → ∀ (o : Options) (e : Env) (s s' : BBStatus), o.rules.maxReps ≠ 0 →
    VerdictOK T s → StepsOK T s → applyWrites s (runOptions T nS nK o e s).writes = some s' → VerdictOK T s' ∧ StepsOK T s'

section
variable (T : Table) (nS nK : Nat) (wf : WFTable T nS nK) (o : Options) (e : Env) (ho : o.rules.maxReps ≠ 0) (s : BBStatus)

theorem shape_cases {T : Table} {b : Bool} {safe : Prop} {ws : List Write} (h : Shape T b safe ws) (s s' : BBStatus)
    (hs : applyWrites s ws = some s') :
    s' = s ∨
    (∃ n q a, HaltsAt T init n ∧ (run T (n - 1) init).state = some q ∧
      (run T (n - 1) init).tape (run T (n - 1) init).pos = a ∧ ∃ m : Int, (m = n ∨ b = false) ∧
      s' = { halt := { s.halt with decided := true, halting := true, steps := big m, score := big (score (run T n init))
                                   fromState := q, fromSymbol := a }
             quasi := { s.quasi with decided := true, quasihalting := false } }) ∨
    ∃ r x, r ≠ 0 ∧ (r ≠ INF_MACRO_STEP ∨ safe → NeverHalts T init) ∧
      (∀ y, x = some y → (r ≠ INF_MACRO_STEP → QuasiRight T y) ∧ (safe → LastRight T y)) ∧
      s' = { halt := { s.halt with decided := true, halting := false, infReason := r }, quasi := qAfter s.quasi x } := by
  cases h with
  | nothing => left; simpa [applyWrites] using hs.symm
  | halts n q a h1 h2 h3 =>
    rw [haltingW_apply] at hs
    refine Or.inr (Or.inl ⟨n, q, a, h1, h2, h3, _, ?_, (Option.some.inj hs).symm⟩)
    cases b <;> simp
  | exact n q a h1 h2 h3 =>
    rw [haltingW_apply] at hs
    exact Or.inr (Or.inl ⟨n, q, a, h1, h2, h3, _, Or.inl rfl, (Option.some.inj hs).symm⟩)
  | infinite r x h1 h2 h3 =>
    rw [writes_append, notHaltingW_apply, Option.bind_some, qW_apply] at hs
    exact Or.inr (Or.inr ⟨r, x, h1, h2, h3, (Option.some.inj hs).symm⟩)
  | recur x h1 h2 =>
    rw [writes_append, show quasiW x = qW (some x) from rfl, qW_apply, Option.bind_some, notHaltingW_apply] at hs
    refine Or.inr (Or.inr ⟨INF_LIN_RECUR, some x, by decide, fun _ => h1, fun y hy => ?_, (Option.some.inj hs).symm⟩)
    cases hy
    refine ⟨fun _ => h2, fun _ => ?_⟩
    cases x with
    | none => trivial
    | some x => obtain ⟨m, h3, h4, h5, h6, -⟩ := h2; exact ⟨m, h3, h4, h5, h6⟩

/-- no assignment fails -/
theorem C54_no_failed_write : ∃ s', applyWrites s (runOptions T nS nK o e s).writes = some s' := writes_total _ s

include wf ho

/-- **C54, verdicts (partial).** After the pipeline has run, to whatever end, a machine marked as halting halts and a machine
marked as infinite never halts, unless it is marked because of an in-place repeat over the back-symbol machine on top of a block
machine that may give up.  (In that case it is false: `C54_claim_false`.) -/
theorem C54_verdict_partial (hs : VerdictOK T s) (s' : BBStatus)
    (h : applyWrites s (runOptions T nS nK o e s).writes = some s')
    (hsafe : s'.halt.infReason ≠ INF_MACRO_STEP ∨ Safe T o e) : VerdictOK T s' := by
  rcases shape_cases (runOptions_shape T nS nK wf o e ho s).1 s s' h with rfl | ⟨n, q, a, h1, h2, h3, m, h4, rfl⟩ |
    ⟨r, x, h1, h2, h3, rfl⟩
  · exact hs
  · exact fun _ => ⟨fun _ => ⟨n, h1⟩, fun hh => by cases hh⟩
  · exact fun _ => ⟨fun hh => (by cases hh), fun _ => h2 hsafe⟩

/-- **C54, halting machines.** A machine marked as halting halts, with the reported score and last table cell. -/
theorem C54_score (hs : ScoreOK T s) (s' : BBStatus)
    (h : applyWrites s (runOptions T nS nK o e s).writes = some s') : ScoreOK T s' := by
  rcases shape_cases (runOptions_shape T nS nK wf o e ho s).1 s s' h with rfl | ⟨n, q, a, h1, h2, h3, m, h4, rfl⟩ |
    ⟨r, x, h1, h2, h3, rfl⟩
  · exact hs
  · exact fun _ _ => ⟨n, h1, holds_big _, h2, h3⟩
  · exact fun _ hh => by cases hh

/-- **C54, step counts (partial).** A machine marked as halting halts at the reported step, unless the option `--no-steps` is
given.  (With it this is false: `C54_no_steps_false`.) -/
theorem C54_steps_partial (hc : o.computeSteps = true) (hs : StepsOK T s) (s' : BBStatus)
    (h : applyWrites s (runOptions T nS nK o e s).writes = some s') : StepsOK T s' := by
  rcases shape_cases (runOptions_shape T nS nK wf o e ho s).1 s s' h with rfl | ⟨n, q, a, h1, h2, h3, m, h4, rfl⟩ |
    ⟨r, x, h1, h2, h3, rfl⟩
  · exact hs
  · refine fun _ _ => ⟨n, h1, ?_⟩
    rcases h4 with rfl | h4
    · exact holds_big _
    · rw [hc] at h4; cases h4
  · exact fun _ hh => by cases hh

/-- **C54, quasihalting (partial).** What is said about quasihalting is right, unless the machine is marked as infinite because of
an in-place repeat.  (In that case it is false: `C54_quasi_false`.) -/
theorem C54_quasi_partial (hs : QuasiOK T s) (s' : BBStatus)
    (h : applyWrites s (runOptions T nS nK o e s).writes = some s') (hr : s'.halt.infReason ≠ INF_MACRO_STEP) :
    QuasiOK T s' := by
  rcases shape_cases (runOptions_shape T nS nK wf o e ho s).1 s s' h with rfl | ⟨n, q, a, h1, h2, h3, m, h4, rfl⟩ |
    ⟨r, x, h1, h2, h3, rfl⟩
  · exact hs
  · exact fun _ => ⟨fun _ => Or.inl ⟨n, h1⟩, fun hh => by cases hh⟩
  · intro hd
    rcases x with _ | _ | ⟨q, n⟩
    · cases hd
    · exact ⟨fun _ => Or.inr ((h3 _ rfl).1 hr), fun hh => by cases hh⟩
    · refine ⟨fun hh => (by cases hh), fun _ => ⟨h2 (Or.inl hr), ?_⟩⟩
      obtain ⟨m, rfl, h4, h5, h6, h7⟩ := (h3 _ rfl).1 hr
      exact ⟨m, holds_big _, h4, h5, h6, h7⟩

/-- **C54, quasihalting after in-place repeats.** Even then, if the machine is marked as quasihalting, the named state is visited
for the last time one step before the named time. -/
theorem C54_quasi_last (hs : Safe T o e) (s' : BBStatus) (hq : s.quasi.decided = false)
    (h : applyWrites s (runOptions T nS nK o e s).writes = some s') (hd : s'.quasi.decided = true)
    (hh : s'.quasi.quasihalting = true) : ∃ n : Nat, Holds s'.quasi.steps n ∧ 0 < n ∧
      VisitedAt T init s'.quasi.state (n - 1) ∧ ∀ t, n ≤ t → ¬ VisitedAt T init s'.quasi.state t := by
  rcases shape_cases (runOptions_shape T nS nK wf o e ho s).1 s s' h with rfl | ⟨n, q, a, h1, h2, h3, m, h4, rfl⟩ |
    ⟨r, x, h1, h2, h3, rfl⟩
  · rw [hq] at hd; cases hd
  · cases hh
  · rcases x with _ | _ | ⟨q, n⟩
    · cases hd
    · cases hh
    · obtain ⟨m, rfl, h4, h5, h6⟩ := (h3 _ rfl).2 hs
      exact ⟨m, holds_big _, h4, h5, h6⟩

/-- **C54, exceptions.** The pipeline raises only if the recurrence detector is given one step, or without the proof system. -/
theorem C54_raises (h : (runOptions T nS nK o e s).ending = .raised) : o.linSteps = 1 ∨ o.prover = false :=
  (runOptions_shape T nS nK wf o e ho s).2 h

/-- The full claim for a run that is interrupted by the timer: a fresh status is right whenever the alarm comes. -/
def C54_interrupt_claim : Prop :=
  ∀ (T : Table) (nS nK : Nat), WFTable T nS nK → ∀ (o : Options) (e : Env) (alarm : Option Nat) (s' : BBStatus),
    o.rules.maxReps ≠ 0 → Safe T o e →
    applyWrites .empty (runTimer T nS nK o e .empty alarm).writes = some s' → VerdictOK T s'

/-- **C54, interruption (partial).** Whenever the alarm comes, a machine marked as halting halts, and a machine marked as infinite
with a reason never halts (with the exception above); the step count and the score, if there are any, are right. -/
theorem C54_interrupt_partial (alarm : Option Nat) (s' : BBStatus)
    (h : applyWrites .empty (runTimer T nS nK o e .empty alarm).writes = some s') :
    (s'.halt.halting = true → s'.halt.decided = true ∧ ∃ n : Nat, HaltsAt T init n ∧
      (s'.halt.steps = .unset ∨ Holds s'.halt.steps n ∨ o.computeSteps = false) ∧
      (s'.halt.score = .unset ∨ Holds s'.halt.score (score (run T n init)))) ∧
    (s'.halt.decided = true → s'.halt.halting = false → s'.halt.infReason ≠ 0 →
      s'.halt.infReason ≠ INF_MACRO_STEP ∨ Safe T o e → NeverHalts T init) := by
  obtain ⟨n, hn⟩ : ∃ n, (runTimer T nS nK o e .empty alarm).writes = (runOptions T nS nK o e .empty).writes.take n := by
    unfold runTimer
    cases alarm with
    | none => exact ⟨_, List.take_length.symm⟩
    | some n => exact ⟨n, rfl⟩
  rw [hn] at h
  have hsh := (runOptions_shape T nS nK wf o e ho .empty).1
  generalize (runOptions T nS nK o e .empty).writes = ws at hsh h
  have hhalt : ∀ (m : Nat) (k : Int) (q a : Nat), HaltsAt T init m → (k = m ∨ o.computeSteps = false) →
      applyWrites .empty ((haltingW k (score (run T m init) : Nat) q a).take n) = some s' →
      (s'.halt.halting = true → s'.halt.decided = true ∧ ∃ n : Nat, HaltsAt T init n ∧
        (s'.halt.steps = .unset ∨ Holds s'.halt.steps n ∨ o.computeSteps = false) ∧
        (s'.halt.score = .unset ∨ Holds s'.halt.score (score (run T n init)))) ∧ s'.halt.infReason = 0 := by
    intro m k q a hm hk hw
    have hst : ∀ f, f = big k → f = .unset ∨ Holds f m ∨ o.computeSteps = false := by
      rintro f rfl
      rcases hk with rfl | hk
      · exact Or.inr (Or.inl (holds_big _))
      · exact Or.inr (Or.inr hk)
    have hsc := holds_big (score (run T m init) : Nat)
    have hlen : ∀ j, (haltingW k (score (run T m init) : Nat) q a).take (j + 10) = haltingW k (score (run T m init) : Nat) q a :=
      fun j => List.take_of_length_le (by simp [haltingW])
    match n with
    | 0 | 1 =>
      simp [haltingW, applyWrites, Write.apply, BBStatus.empty] at hw
      subst hw
      exact ⟨fun hh => (by cases hh), rfl⟩
    | 2 | 3 =>
      simp [haltingW, applyWrites, Write.apply, BBStatus.empty] at hw
      subst hw
      exact ⟨fun _ => ⟨rfl, m, hm, Or.inl rfl, Or.inl rfl⟩, rfl⟩
    | 4 | 5 =>
      simp [haltingW, applyWrites, Write.apply, BBStatus.empty, setBigInt_big] at hw
      subst hw
      exact ⟨fun _ => ⟨rfl, m, hm, hst _ rfl, Or.inl rfl⟩, rfl⟩
    | 6 | 7 | 8 | 9 =>
      simp [haltingW, applyWrites, Write.apply, BBStatus.empty, setBigInt_big] at hw
      subst hw
      exact ⟨fun _ => ⟨rfl, m, hm, hst _ rfl, Or.inr hsc⟩, rfl⟩
    | j + 10 =>
      rw [hlen, haltingW_apply] at hw
      simp only [Option.some.injEq] at hw
      subst hw
      exact ⟨fun _ => ⟨rfl, m, hm, hst _ rfl, Or.inr hsc⟩, rfl⟩
  -- assignments to the quasihalt status leave the halt status alone
  have hq : ∀ (x : Option (Option (Nat × Int))) (j : Nat) (s1 s2 : BBStatus), applyWrites s1 ((qW x).take j) = some s2 →
      s2.halt = s1.halt := by
    intro x j s1 s2 hw
    rcases x with _ | _ | ⟨st, v⟩
    · match j with
      | 0 => simp [qW, applyWrites] at hw; rw [hw]
      | j + 1 => simp [qW, applyWrites, Write.apply] at hw; rw [← hw]
    · match j with
      | 0 | 1 => simp [qW, quasiW, applyWrites, Write.apply] at hw; rw [← hw]
      | j + 2 => simp [qW, quasiW, applyWrites, Write.apply] at hw; rw [← hw]
    · match j with
      | 0 | 1 | 2 | 3 | 4 => simp [qW, quasiW, applyWrites, Write.apply, setBigInt_big] at hw; rw [← hw]
      | j + 5 => simp [qW, quasiW, applyWrites, Write.apply, setBigInt_big] at hw; rw [← hw]
  have hinf : ∀ (r j : Nat) (s1 s2 : BBStatus), s1.halt = BBStatus.empty.halt →
      applyWrites s1 ((notHaltingW r).take j) = some s2 → s2.halt.halting = false ∧
        (s2.halt.infReason = 0 ∨ s2.halt.infReason = r) := by
    intro r j s1 s2 he hw
    obtain ⟨⟨d, ha, st, sc, fs, fa, ir⟩, qs⟩ := s1
    simp only [BBStatus.empty, HaltStatus.mk.injEq] at he
    obtain ⟨rfl, rfl, rfl, rfl, rfl, rfl, rfl⟩ := he
    match j with
    | 0 | 1 | 2 => simp [notHaltingW, applyWrites, Write.apply] at hw; subst hw; simp
    | j + 3 => simp [notHaltingW, applyWrites, Write.apply] at hw; subst hw; simp
  cases hsh with
  | nothing =>
    simp [applyWrites, BBStatus.empty] at h
    subst h
    exact ⟨fun hh => (by cases hh), fun hh => (by cases hh)⟩
  | halts m q a h1 h2 h3 =>
    obtain ⟨g1, g2⟩ := hhalt m _ q a h1 (by cases o.computeSteps <;> simp) h
    exact ⟨g1, fun _ _ hne => absurd g2 hne⟩
  | exact m q a h1 h2 h3 =>
    obtain ⟨g1, g2⟩ := hhalt m _ q a h1 (Or.inl rfl) h
    exact ⟨g1, fun _ _ hne => absurd g2 hne⟩
  | infinite r x h1 h2 h3 =>
    have : s'.halt.halting = false ∧ (s'.halt.infReason = 0 ∨ s'.halt.infReason = r) := by
      rw [List.take_append, writes_append] at h
      obtain ⟨s1, hs1⟩ := writes_total ((notHaltingW r).take n) .empty
      rw [hs1, Option.bind_some] at h
      rw [hq x _ s1 s' h]
      exact hinf r n .empty s1 rfl hs1
    refine ⟨fun hh => ?_, fun _ _ hne hor => ?_⟩
    · rw [this.1] at hh; cases hh
    · rcases this.2 with h0 | h0
      · exact absurd h0 hne
      · rw [h0] at hor; exact h2 hor
  | recur x h1 h2 =>
    have : s'.halt.halting = false := by
      rw [List.take_append, writes_append] at h
      obtain ⟨s1, hs1⟩ := writes_total ((quasiW x).take n) .empty
      rw [hs1, Option.bind_some] at h
      exact (hinf _ _ s1 s' (hq (some x) n .empty s1 hs1) h).1
    exact ⟨fun hh => (by rw [this] at hh; cases hh), fun _ _ _ _ => h1⟩

omit wf ho

/-- **C54, ending.** With a limit on the number of loops the pipeline comes to an end. -/
theorem C54_ends (hm : o.maxLoops ≠ 0) (maxBlock maxBack rounds : Nat) (quot : Nat → Nat → Rat) :
    ∃ fuel, ∀ fuel', fuel ≤ fuel' → (runOptions T nS nK o ⟨maxBlock, maxBack, quot, rounds, fuel'⟩ s).ending ≠ .running := by
  obtain ⟨k, f, hf, -⟩ := C56_search T maxBlock maxBack quot
    ⟨o.maxLoops / 100, o.maxLoops / 100, o.maxBlockMult, o.maxBlockSize, o.blockMult⟩
  refine ⟨f + o.maxLoops + 1 + o.linSteps, fun fuel hfuel => ?_⟩
  have hsim : (runSimulator T o ⟨maxBlock, maxBack, quot, rounds, fuel⟩).ending ≠ .running := by
    unfold runSimulator
    simp only [if_pos hm]
    rw [hf fuel (by omega)]
    by_cases hb : o.blockSize ≠ 0
    · simp only [if_pos hb]
      repeat' split
      all_goals first | exact simulate_ends _ o hm (by omega) | simp
    · simp only [if_neg hb]
      repeat' split
      all_goals first | exact simulate_ends _ o hm (by omega) | simp
  unfold runOptions
  extract_lets re lr r
  have hlr : lr.ending ≠ .running := by
    unfold lr
    split
    · rename_i hl
      exact linRecur_ends T o fuel hl (by omega)
    · simp
  clear_value lr re
  repeat' split
  all_goals first | exact hlr | exact hsim | simp

/-- **C54, limits.** The simulator goes on as long as the machine runs, the tape is within its limit and the number of loops is
below its limit; a limit of 0 loops is no limit. -/
theorem C54_loop_limit {σ S : Type} [DecidableEq σ] [DecidableEq S] (M : Model.Machine σ S) (o : Options) (fuel : Nat)
    (p p' : PSim σ S) (h : simLoop M o fuel p = some p') :
    (p'.sim.op ≠ .running ∨ o.tapeLimit < BlockFinder.tapeLen p'.sim.tape ∨ (o.maxLoops ≠ 0 ∧ o.maxLoops ≤ p'.sim.loops)) ∧
    ∃ n, p' = (fun q => PSim.step M o.rules q)^[n] p ∧ ∀ m < n, ((fun q => PSim.step M o.rules q)^[m] p).sim.op = .running ∧
      BlockFinder.tapeLen ((fun q => PSim.step M o.rules q)^[m] p).sim.tape ≤ o.tapeLimit ∧
      (o.maxLoops = 0 ∨ ((fun q => PSim.step M o.rules q)^[m] p).sim.loops < o.maxLoops) := by
  induction fuel generalizing p with
  | zero => simp [simLoop] at h
  | succ fuel ih =>
    unfold simLoop at h
    split at h
    · next hc =>
      obtain ⟨h1, n, h2, h3⟩ := ih _ h
      refine ⟨h1, n + 1, h2, ?_⟩
      intro m hm
      cases m with
      | zero => exact ⟨hc.2.1, hc.2.2, hc.1⟩
      | succ m => exact h3 m (by omega)
    · next hc =>
      cases h
      refine ⟨?_, 0, rfl, fun m hm => absurd hm (by omega)⟩
      by_cases h1 : p'.sim.op = .running
      · by_cases h2 : BlockFinder.tapeLen p'.sim.tape ≤ o.tapeLimit
        · refine Or.inr (Or.inr ?_)
          by_contra h3
          exact hc ⟨by omega, h1, h2⟩
        · exact Or.inr (Or.inl (by omega))
      · exact Or.inl h1

end

/-! ### Runs of the pipeline -/

/-- the limits of the code (10 000 and 1 000), exact division, and bounds that are not reached in the examples -/
def env : Env := ⟨10000, 1000, fun a b => (a : Rat) / b, 100, 2000⟩

-- halting, found by the recurrence detector with the default options, and by the simulator without it
example : (runOptions exBB2 2 2 .default env .empty).writes = haltingW 6 4 1 1 := by decide +kernel
example : (runOptions exBB2 2 2 { Options.default with linSteps := 0, blockSize := 2 } env .empty).writes = haltingW 6 4 1 1 := by
  decide +kernel
example : (runOptions exBB2 2 2 { Options.default with linSteps := 0 } env .empty).ending = .returned := by decide +kernel
-- infinite, found by reverse engineering, by the recurrence detector, by CTL, as a repeat in place and as a chain step
example : (runOptions bouncer 2 1 .default env .empty).writes = notHaltingW INF_REVERSE_ENGINEER ++ [.qDecided false] := by
  decide +kernel
example : (runOptions c13T 3 1 { Options.default with reverseEngineer := false } env .empty).writes
    = quasiW (some (0, 1)) ++ notHaltingW INF_LIN_RECUR := by decide +kernel
example : (runOptions bouncer2 2 2 { Options.default with reverseEngineer := false, linSteps := 0, blockSize := 1 } env .empty).writes
    = notHaltingW INF_CTL ++ [.qDecided false] := by decide +kernel
example : (runOptions bouncer 2 1
      { Options.default with reverseEngineer := false, linSteps := 0, ctl := false, blockSize := 2 } env .empty).writes
    = notHaltingW INF_MACRO_STEP ++ quasiW none := by decide +kernel
example : (runOptions (tbl [[.go 1 .R 1], [.go 1 .R 1]]) 2 2
      { Options.default with reverseEngineer := false, linSteps := 0, ctl := false, blockSize := 1 } env .empty).writes
    = notHaltingW INF_CHAIN_STEP ++ quasiW (some (0, 1)) := by decide +kernel
-- the options are taken as given: three loops are enough with blocks of two symbols, and not with single symbols
example : (runOptions exBB2 2 2
    { Options.default with linSteps := 0, ctl := false, reverseEngineer := false, maxLoops := 3, blockSize := 1 }
    env .empty).writes = [] := by decide +kernel
example : (runOptions exBB2 2 2
    { Options.default with linSteps := 0, ctl := false, reverseEngineer := false, maxLoops := 3, blockSize := 2 }
    env .empty).writes = haltingW 6 4 1 1 := by decide +kernel
-- and no limit on loops is no limit
example : (runOptions exBB2 2 2
    { Options.default with linSteps := 0, ctl := false, reverseEngineer := false, maxLoops := 0, blockSize := 1 }
    env .empty).writes = haltingW 6 4 1 1 := by decide +kernel
-- nothing is written if no filter decides
example : (runOptions exBB2 2 2 { Options.default with linSteps := 2, runSim := false } env .empty).writes = [] := by
  decide +kernel
-- the two ways of raising
example : (runOptions exBB2 2 2 { Options.default with linSteps := 1 } env .empty).ending = .raised := by decide +kernel
example : (runOptions exBB2 2 2 { Options.default with linSteps := 0, prover := false, blockSize := 1 } env .empty).ending = .raised := by
  decide +kernel

theorem exBB2_wf : WFTable exBB2 2 2 where
  posS := by decide
  posK := by decide
  closed := by
    intro q a w d q' hq ha
    revert q a
    have : ∀ q < 2, ∀ a < 2, exBB2 q a = .go w d q' → w < 2 ∧ q' < 2 := by
      intro q hq a ha
      match q, a, hq, ha with
      | 0, 0, _, _ => intro h; cases h; decide
      | 0, 1, _, _ => intro h; cases h; decide
      | 1, 0, _, _ => intro h; cases h; decide
      | 1, 1, _, _ => intro h; cases h
    exact fun q a hq ha => this q hq a ha

/-! ### What is false -/

theorem c05T_wf : WFTable c05T 135 2 where
  posS := by decide
  posK := by decide
  closed := by
    intro q a w d q' hq ha h
    unfold c05T at h
    split at h
    · injection h with h1 h2 h3
      subst h1 h3
      refine ⟨?_, by omega⟩
      split <;> omega
    · split at h <;> (cases h; try decide)

/-- the options of the counterexample: macro steps over blocks of two cells, no other filter -/
def c05Opts : Options := { Options.default with reverseEngineer := false, linSteps := 0, ctl := false, blockSize := 2 }

/-- the verdict of a run: marked as decided, marked as halting, the reason -/
def verdict (T : Table) (nS nK : Nat) (o : Options) (e : Env) : Option (Bool × Bool × Nat) :=
  (applyWrites .empty (runOptions T nS nK o e .empty).writes).map fun s => (s.halt.decided, s.halt.halting, s.halt.infReason)

theorem halts_of_verdict {T : Table} {nS nK : Nat} (wf : WFTable T nS nK) {o : Options} {e : Env} (ho : o.rules.maxReps ≠ 0)
    {r : Nat} (h : verdict T nS nK o e = some (true, true, r)) : ¬ NeverHalts T init := by
  obtain ⟨s', hs'⟩ := C54_no_failed_write T nS nK o e .empty
  simp only [verdict, hs', Option.map_some, Option.some.injEq, Prod.mk.injEq] at h
  obtain ⟨n, hn, -⟩ := C54_score T nS nK wf o e ho .empty (fun h => by cases h) s' hs' h.1 h.2.1
  exact fun hh => hh n hn.1

theorem not_ok_of_verdict {T : Table} {nS nK : Nat} {o : Options} {e : Env} {r : Nat} (hT : ¬ NeverHalts T init)
    (h : verdict T nS nK o e = some (true, false, r)) :
    ∃ s', applyWrites .empty (runOptions T nS nK o e .empty).writes = some s' ∧ ¬ VerdictOK T s' := by
  obtain ⟨s', hs'⟩ := C54_no_failed_write T nS nK o e .empty
  simp only [verdict, hs', Option.map_some, Option.some.injEq, Prod.mk.injEq] at h
  exact ⟨s', hs', fun hh => hT ((hh h.1).2 h.2.1)⟩

/-- **The full claim is false**: with a limit of 5 steps per block, a machine that halts is marked as infinite.  (With the limits
of the code: `C54_limits_false`.) -/
theorem C54_claim_false : ¬ C54_claim := by
  intro h
  obtain ⟨s', h1, h2⟩ := not_ok_of_verdict (T := c05T) (nS := 135) (nK := 2) (o := c05Opts) (e := { env with maxBlock := 5 })
    (r := INF_MACRO_STEP)
    (halts_of_verdict c05T_wf (o := c05Opts) (e := env) (r := 0) (by decide) (by decide +kernel)) (by decide +kernel)
  exact h2 (h c05T 135 2 c05T_wf c05Opts { env with maxBlock := 5 } .empty s' (by decide) (fun h => by cases h)
    (fun h => by cases h) h1).1

/-- **Step counts are wrong with `--no-steps`**: a machine that halts at step 6 is reported to halt at step 0. -/
theorem C54_no_steps_false : ∃ s', applyWrites .empty (runOptions exBB2 2 2
    { Options.default with linSteps := 0, blockSize := 1, computeSteps := false } env .empty).writes = some s' ∧
    s'.halt.decided = true ∧ s'.halt.halting = true ∧ Holds s'.halt.steps 0 ∧ HaltsAt exBB2 init 6 ∧ ¬ StepsOK exBB2 s' := by
  have h6 : HaltsAt exBB2 init 6 := by
    obtain ⟨s', hs'⟩ := C54_no_failed_write exBB2 2 2 .default env .empty
    have h : (runOptions exBB2 2 2 .default env .empty).writes = haltingW 6 4 1 1 := by decide +kernel
    have hok := C54_steps_partial exBB2 2 2 exBB2_wf .default env (by decide) .empty rfl (fun h => by cases h) s' hs'
    rw [h, haltingW_apply] at hs'
    cases hs'
    obtain ⟨n, hn, h1⟩ := hok rfl rfl
    have h2 := holds_big 6
    unfold Holds at h1 h2
    rw [h2] at h1
    injection h1 with h1; injection h1 with h1; injection h1 with h1
    rwa [show n = 6 by omega] at hn
  have h : (runOptions exBB2 2 2 { Options.default with linSteps := 0, blockSize := 1, computeSteps := false } env .empty).writes
      = haltingW 0 4 1 1 := by decide +kernel
  rw [h]
  refine ⟨_, haltingW_apply .., rfl, rfl, holds_big 0, h6, fun hh => ?_⟩
  obtain ⟨n, hn, h1⟩ := hh rfl rfl
  have h2 := holds_big 0
  unfold Holds at h1 h2
  rw [h2] at h1
  injection h1 with h1; injection h1 with h1; injection h1 with h1
  rw [show n = 0 by omega] at hn
  cases hn.1

/-- **An interrupted run may leave a wrong verdict**: if the alarm comes between the first two assignments, a machine that halts
is left marked as decided and not halting, that is as infinite. -/
theorem C54_interrupt_claim_false : ¬ C54_interrupt_claim := by
  intro h
  have hT : ¬ NeverHalts exBB2 init :=
    halts_of_verdict exBB2_wf (o := .default) (e := env) (r := 0) (by decide) (by decide +kernel)
  have hw : (runTimer exBB2 2 2 { Options.default with backsymbol := false } env .empty (some 1)).writes = [.decided true] := by
    decide +kernel
  obtain ⟨s', hs'⟩ := writes_total [.decided true] .empty
  have h1 := h exBB2 2 2 exBB2_wf { Options.default with backsymbol := false } env (some 1) s' (by decide) (Or.inl rfl)
    (by rw [hw]; exact hs')
  cases hs'
  exact hT ((h1 rfl).2 rfl)

theorem c13T_wf : WFTable c13T 3 1 where
  posS := by decide
  posK := by decide
  closed := by
    intro q a w d q' hq ha
    match q, a, hq, ha with
    | 0, 0, _, _ => intro h; cases h; decide
    | 1, 0, _, _ => intro h; cases h; decide
    | 2, 0, _, _ => intro h; cases h; decide

/-- **What is said about quasihalting after a repeat in place may be wrong**: the start state is visited only once, but the
machine is marked as not quasihalting. -/
theorem C54_quasi_false : ∃ s', applyWrites .empty (runOptions c13T 3 1
    { Options.default with reverseEngineer := false, linSteps := 0, ctl := false, blockSize := 2 } env .empty).writes = some s' ∧
    ¬ QuasiOK c13T s' := by
  have hq : NeverHalts c13T init ∧ ∀ t, 1 ≤ t → ¬ VisitedAt c13T init 0 t := by
    obtain ⟨s', hs'⟩ := C54_no_failed_write c13T 3 1 { Options.default with reverseEngineer := false } env .empty
    have hok := C54_quasi_partial c13T 3 1 c13T_wf { Options.default with reverseEngineer := false } env (by decide) .empty
      (fun h => by cases h) s' hs'
    rw [show (runOptions c13T 3 1 { Options.default with reverseEngineer := false } env .empty).writes
      = quasiW (some (0, 1)) ++ notHaltingW INF_LIN_RECUR by decide +kernel, writes_append,
      show quasiW (some (0, 1)) = qW (some (some (0, 1))) from rfl, qW_apply, Option.bind_some, notHaltingW_apply] at hs'
    cases hs'
    obtain ⟨h1, n, h2, h3, h4, h5, -⟩ := (hok (by decide) rfl).2 rfl
    have h6 := holds_big 1
    unfold Holds at h2 h6
    have h7 : (some (some (Val.int 1)) : Option (Option (Val Empty))) = some (some (.int (n : Int))) := h6.symm.trans h2
    injection h7 with h7; injection h7 with h7; injection h7 with h7
    rw [show n = 1 by omega] at h5
    exact ⟨h1, h5⟩
  have h : (runOptions c13T 3 1 { Options.default with reverseEngineer := false, linSteps := 0, ctl := false, blockSize := 2 }
      env .empty).writes = notHaltingW INF_MACRO_STEP ++ quasiW none := by decide +kernel
  rw [h, writes_append, notHaltingW_apply, Option.bind_some, show quasiW none = qW (some none) from rfl, qW_apply]
  refine ⟨_, rfl, fun hh => ?_⟩
  rcases (hh rfl).1 rfl with ⟨n, hn⟩ | hf
  · exact hq.1 n hn.1
  · obtain ⟨t, ht, hv⟩ := hf 0 0 rfl 1
    exact hq.2 t ht hv

end Props

import Verif.Lemmas.QuickSim

/-!
# C68: `Quick_Sim.py` reports only what is true of the machine
-/

namespace Props
open Spec Model Model.Prover Model.QuickSim

/-- **C68.** Whatever the options are, a report is right: a machine said to have halted halts after exactly the steps and with
exactly the nonzeros printed, in the cell printed; a machine said to be infinite never halts (if the reason is "macro step":
unless blocks may give up), and what is said about quasihalting is right; otherwise the totals are those of the machine after some
number of steps.  Rules may be applied any number of times (`max_prover_reps` not 0).  Missing, because false
(`C68_limits_false`, `C54_quasi_false`): trust in the reason "macro step" in general. -/
theorem C68_report_partial (T : Table) (o : Model.QuickSim.Options) (e : Model.QuickSim.Env) (ho : o.rules.maxReps ≠ 0) (r : Report)
    (h : quickSim T o e = .done r) : ReportOK T o.computeSteps (QuickSafe T o e) r := by
  rcases quickSim_cases T o e with ⟨-, h1⟩ | ⟨k, σ, S, i1, i2, M, mean, Means, -, -, hS, hsafe, h1, -⟩
  · rw [h1] at h; cases h
  · rw [h1] at h
    by_cases hf : o.quiet = false → o.freeze = true → o.prover = true
    · rcases simulate_cases hS o ho hf e.fuel hsafe with ⟨h2, -⟩ | ⟨r', h2, h3, -⟩
      · rw [h2] at h; cases h
      · rw [h2] at h; cases h; exact h3
    · push Not at hf
      rw [simulate_freeze hS o ho hf.1 hf.2.1 (by simpa using hf.2.2)] at h
      split at h <;> cases h

/-- **C68, no wrong verdict.** A machine that halts is never reported as infinite (if in-place repeats can be trusted), and a
machine that never halts is never reported as halted. -/
theorem C68_verdict_partial (T : Table) (o : Model.QuickSim.Options) (e : Model.QuickSim.Env) (ho : o.rules.maxReps ≠ 0)
    (r : Report) (h : quickSim T o e = .done r) :
    ((∃ n, HaltsAt T init n) → QuickSafe T o e → ∀ reason s, r.verdict ≠ .infinite reason s) ∧
    (NeverHalts T init → (∀ n nz, r.verdict ≠ .halted n nz) ∧ ∀ q a n nz, r.verdict ≠ .undefined q a n nz) := by
  have H := C68_report_partial T o e ho r h
  unfold ReportOK at H
  refine ⟨?_, fun hn => ⟨fun n nz hv => ?_, fun q a n nz hv => ?_⟩⟩
  · rintro ⟨n, hn⟩ hs reason s hv
    rw [hv] at H
    exact H.1 (Or.inr hs) n hn.1
  · rw [hv] at H
    obtain ⟨m, q, a, h1, -⟩ := H
    exact hn m h1.1
  · rw [hv] at H
    obtain ⟨m, h1, -⟩ := H
    exact hn m h1.1

/-- **C68, halting machines are found.** If the machine halts at step `n`, the limit of loops is off or at least `n`, and the block
size is found, then the program ends, and says that the machine halted, after exactly `n` steps, or that it gave up (or that the
machine repeats in place, if that cannot be trusted).  With blocks of size 1 and no back symbols it never gives up. -/
theorem C68_finds_halt_partial (T : Table) (o : Model.QuickSim.Options) (e : Model.QuickSim.Env) (ho : o.rules.maxReps ≠ 0) {n k : Nat}
    (hn : HaltsAt T init n) (hk : size T o e = .size k) (hm : o.maxLoops = 0 ∨ n ≤ o.maxLoops) (hf : n ≤ e.fuel)
    (hp : o.quiet = true ∨ 0 < o.printLoops) (hfr : o.quiet = true ∨ o.freeze = false ∨ o.prover = true) :
    ∃ r, quickSim T o e = .done r ∧ r.verdict ≠ .unexpected ∧
      (QuickSafe T o e → r.verdict = .gaveUp ∨
        (∃ steps nz, r.verdict = .halted steps nz ∧ steps = if o.computeSteps then some n else none) ∨
        ∃ q a steps nz, r.verdict = .undefined q a steps nz ∧ steps = if o.computeSteps then some n else none) ∧
      (k = 1 → o.backsymbol = false → r.verdict ≠ .gaveUp) := by
  rcases quickSim_cases T o e with ⟨h1, -⟩ | ⟨k', σ, S, i1, i2, M, mean, Means, hk', -, hS, hsafe, h1, hg⟩
  · rw [hk] at h1; cases h1
  · rw [hk] at hk'
    cases hk'
    have hfz : o.quiet = false → o.freeze = true → o.prover = true := by
      intro h3 h4
      rcases hfr with h5 | h5 | h5
      · rw [h3] at h5; cases h5
      · rw [h4] at h5; cases h5
      · exact h5
    rcases simulate_cases hS o ho hfz e.fuel hsafe with ⟨h2, h3⟩ | ⟨r, h2, h3, h4, h5, h6⟩
    · exact absurd (h3 n hn hp) (by omega)
    · have hne : r.verdict ≠ .unexpected := by
        intro hv
        obtain ⟨h7, h8⟩ := h6 hv
        unfold ReportOK at h3
        rw [hv] at h3
        obtain ⟨m, h9, -, -, h10⟩ := h3
        exact h9 (run_none_mono (by omega) hn.1)
      refine ⟨r, by rw [h1, h2], hne, fun hs => ?_, fun hk1 hb hv => ?_⟩
      · have h3' := h3
        unfold ReportOK at h3
        cases hv : r.verdict with
        | gaveUp => exact Or.inl rfl
        | unexpected => exact absurd hv hne
        | infinite reason s =>
          rw [hv] at h3
          exact absurd hn.1 (h3.1 (Or.inr hs) n)
        | halted steps nz =>
          rw [hv] at h3
          obtain ⟨m, q, a, g1, -, -, -, -, g2, -⟩ := h3
          rw [HaltsAt.unique hn g1]
          exact Or.inr (Or.inl ⟨_, _, rfl, g2⟩)
        | undefined q a steps nz =>
          rw [hv] at h3
          obtain ⟨m, g1, -, -, -, -, g2, -⟩ := h3
          rw [HaltsAt.unique hn g1]
          exact Or.inr (Or.inr ⟨_, _, _, _, rfl, g2⟩)
      · obtain ⟨m, hm⟩ := h4 hv
        exact hg hk1 hb m hm

/-- **C68, limit of loops.** The program stops without verdict only if there is a limit of loops and that many were done.  A quiet
(or verbose) run does not do more loops than that; a run with output stops at the next multiple of the number of loops between two
outputs. -/
theorem C68_limit (T : Table) (o : Model.QuickSim.Options) (e : Model.QuickSim.Env) (ho : o.rules.maxReps ≠ 0) (r : Report)
    (h : quickSim T o e = .done r) :
    (r.verdict = .unexpected → o.maxLoops ≠ 0 ∧ o.maxLoops ≤ r.loops) ∧
    (o.maxLoops ≠ 0 → (o.quiet = true ∨ min o.printLoops o.maxLoops ∣ o.maxLoops → r.loops ≤ o.maxLoops) ∧
      r.loops < o.maxLoops + max 1 (min o.printLoops o.maxLoops)) := by
  rcases quickSim_cases T o e with ⟨-, h1⟩ | ⟨k, σ, S, i1, i2, M, mean, Means, -, -, hS, hsafe, h1, -⟩
  · rw [h1] at h; cases h
  · rw [h1] at h
    by_cases hf : o.quiet = false → o.freeze = true → o.prover = true
    · rcases simulate_cases hS o ho hf e.fuel hsafe with ⟨h2, -⟩ | ⟨r', h2, -, -, h3, h4⟩
      · rw [h2] at h; cases h
      · rw [h2] at h
        cases h
        refine ⟨h4, fun hm => ?_⟩
        have hc : chunk o = min o.printLoops o.maxLoops := by
          unfold chunk
          split
          · omega
          · rename_i hh
            push Not at hh
            have := hh hm
            omega
        rw [hc] at h3
        rcases h3 hm with h5 | ⟨h5, h6, h7⟩
        · exact ⟨fun _ => h5, by omega⟩
        · refine ⟨fun hor => ?_, by omega⟩
          rcases hor with h8 | h8
          · rw [h5] at h8; cases h8
          · exact h7 h8
    · push Not at hf
      rw [simulate_freeze hS o ho hf.1 hf.2.1 (by simpa using hf.2.2)] at h
      split at h <;> cases h

/-- **C68, exceptions.** The program raises only if it is to freeze a proof system that is switched off. -/
theorem C68_raises_only (T : Table) (o : Model.QuickSim.Options) (e : Model.QuickSim.Env) (ho : o.rules.maxReps ≠ 0)
    (h : quickSim T o e = .raised) : o.quiet = false ∧ o.freeze = true ∧ o.prover = false := by
  rcases quickSim_cases T o e with ⟨-, h1⟩ | ⟨k, σ, S, i1, i2, M, mean, Means, -, -, hS, hsafe, h1, -⟩
  · rw [h1] at h; cases h
  · rw [h1] at h
    by_contra hf
    have hf' : o.quiet = false → o.freeze = true → o.prover = true := by
      intro h2 h3
      by_contra h4
      exact hf ⟨h2, h3, by simpa using h4⟩
    rcases simulate_cases hS o ho hf' e.fuel hsafe with ⟨h2, -⟩ | ⟨r', h2, -⟩ <;> rw [h2] at h <;> cases h

/-- **C68, exceptions.** And then it always does. -/
theorem C68_freeze_without_prover (T : Table) (o : Model.QuickSim.Options) (e : Model.QuickSim.Env) (hq : o.quiet = false)
    (hf : o.freeze = true) (hp : o.prover = false) (hk : size T o e ≠ .unfinished) (he : 0 < e.fuel) (ho : o.rules.maxReps ≠ 0) :
    quickSim T o e = .raised := by
  rcases quickSim_cases T o e with ⟨h1, -⟩ | ⟨k, σ, S, i1, i2, M, mean, Means, -, -, hS, hsafe, h1, -⟩
  · exact absurd h1 hk
  · rw [h1, simulate_freeze hS o ho hq hf hp]
    rw [if_neg (by omega)]

/-- **C68, no progress.** With output every 0 loops the program never ends, for any machine. -/
theorem C68_print_zero (T : Table) (o : Model.QuickSim.Options) (e : Model.QuickSim.Env) (hq : o.quiet = false)
    (h0 : o.printLoops = 0) (r : Report) : quickSim T o e ≠ .done r := by
  intro h
  rcases quickSim_cases T o e with ⟨-, h1⟩ | ⟨k, σ, S, i1, i2, M, mean, Means, -, -, hS, hsafe, h1, -⟩
  · rw [h1] at h; cases h
  · rw [h1] at h
    exact simulate_zero M o hq h0 _ _ h

/-- **C68, frozen proof system.** A frozen proof system proves no rule. -/
theorem C68_frozen {σ S : Type} [DecidableEq σ] [DecidableEq S] (M : Machine σ S) (o : Model.QuickSim.Options) (p : PSim σ S) :
    (Model.QuickSim.step M o true p).prover.rules = p.prover.rules := by
  unfold Model.QuickSim.step
  split
  · rfl
  · split
    · unfold Model.QuickSim.logAndApply
      simp only [if_true]
      cases Py.dget p.prover.rules (strip natIsOne p.sim.st p.sim.tape) with
      | none => rfl
      | some r =>
        simp only
        match applyRule o.rules r p.sim.tape p.prover.nv with
        | (.raise, nv) => rfl
        | (.fail, nv) => rfl
        | (.ok (.inf s), nv) => rfl
        | (.ok (.apply t s l), nv) => rfl
    · rfl

/-- **C68, without proof system.** Without proof system a step is a step of the plain simulator. -/
theorem C68_no_prover {σ S : Type} [DecidableEq σ] [DecidableEq S] (M : Machine σ S) (o : Model.QuickSim.Options)
    (hp : o.prover = false) (frozen : Bool) (p : PSim σ S) : (Model.QuickSim.step M o frozen p).sim = p.sim.step natOps M := by
  unfold Model.QuickSim.step SimSt.step
  split
  · rfl
  · rw [hp]; rfl

/-! ## Examples -/

/-- block size 3, the limits of the code, division rounded down -/
def quickOpts : Model.QuickSim.Options := { Model.QuickSim.Options.default with blockSize := 3 }
def quickEnv : Model.QuickSim.Env := ⟨10000, 1000, fun a b => (a / b : Nat), 500⟩

-- the five-state champion, with output every hundred loops
example : (match quickSim exBB5 { quickOpts with printLoops := 100, maxLoops := 1000 } quickEnv with
    | .done r => decide (r.verdict = .halted (some 47176870) 4098)
    | _ => false) = true := by decide +kernel

/-- the two-state champion -/
def quickBB2 : Table := tbl [[.go 1 .R 1, .go 1 .L 1], [.go 1 .L 0, .halt 1 .R]]

example : HaltsAt quickBB2 init 6 := by
  refine ⟨by decide, fun m hm => ?_⟩
  interval_cases m <;> decide

-- one loop at a time, blocks of size 1, no back symbols: six loops
example : (match quickSim quickBB2 { quickOpts with blockSize := 1, backsymbol := false, maxLoops := 6, quiet := true } quickEnv with
    | .done r => decide (r = ⟨6, 6, 4, .halted (some 6) 4⟩)
    | _ => false) = true := by decide +kernel

-- the limit of four loops: no verdict
example : (match quickSim quickBB2 { quickOpts with blockSize := 1, backsymbol := false, maxLoops := 4, quiet := true } quickEnv with
    | .done r => decide (r = ⟨4, 4, 3, .unexpected⟩)
    | _ => false) = true := by decide +kernel

-- with output every three loops the limit of four loops is not kept
example : (match quickSim quickBB2 { quickOpts with blockSize := 1, backsymbol := false, maxLoops := 4, printLoops := 3 } quickEnv with
    | .done r => decide (r.loops = 6)
    | _ => false) = true := by decide +kernel

-- the block finder is used
example : (match quickSim quickBB2 { quickOpts with blockSize := 0, bfLoops := 20, quiet := true } quickEnv with
    | .done r => decide (r.verdict = .halted (some 6) 4)
    | _ => false) = true := by decide +kernel

-- an infinite machine; state `C` is left after three steps
def quickInf : Table := tbl [[.go 1 .R 2], [.go 1 .R 1], [.go 1 .R 1]]
example : (match quickSim quickInf { quickOpts with blockSize := 1 } quickEnv with
    | .done r => (match r.verdict with
      | .infinite .chainStep s => decide (s.quasi.decided = true ∧ s.quasi.quasihalting = true ∧ s.quasi.state = 2)
      | _ => false)
    | _ => false) = true := by decide +kernel

-- an undefined transition
def quickUndef : Table := tbl [[.go 1 .R 1], [.undef]]
example : (match quickSim quickUndef { quickOpts with blockSize := 1 } quickEnv with
    | .done r => decide (r.verdict = .undefined 1 0 (some 2) 2)
    | _ => false) = true := by decide +kernel

-- a frozen proof system that does not exist
example : (match quickSim quickBB2 { quickOpts with prover := false, freeze := true } quickEnv with
    | .raised => true
    | _ => false) = true := by decide +kernel

end Props

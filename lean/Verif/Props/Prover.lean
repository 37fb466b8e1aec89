import Verif.Lemmas.ProverStacks
import Verif.Props.Simulator

/-!
# C48-C50: the proof system

`Stack T σ S M mean Means` ranges over the stacks the tools build over the base machine `T`.
-/

namespace Props
open Spec Model Model.Prover

variable {T : Table} {σ S : Type} [DecidableEq σ] [DecidableEq S] {M : Machine σ S} {mean : DC σ S → DC Nat (Option Nat)}
  {Means : DC σ S → Config → Prop}

/-! ## C48: proven rules -/

/-- **C48.** A rule proved from the configuration `tape`, `st` is sound: it speaks about every configuration of the same
shape with run lengths at or above its minima, and from each of those the base machine reaches the final configuration of the
rule in exactly the stated number of steps, with the stated last visits. -/
theorem C48_rule_sound (h : Stack T σ S M mean Means) {st : S} {tape : ChainTape σ Nat} (hw : WFTape M.initSym tape)
    {delta : Int} (hd : 1 ≤ delta) {nv : Nat} {r : Rule σ}
    (hr : (proveRule M (strip natIsOne st tape) st tape delta nv).1 = .ok r) : RuleSound T M.initSym Means st tape r := by
  obtain ⟨⟨TDen, hs, F⟩, -, -⟩ := stack_ok h
  have := proveRule_ok (z := M.initSym) M st tape delta nv hw hd
  rw [hr] at this
  exact rule_sound F this

/-- **C48, in a run.** Every rule the simulator holds is sound for every configuration it is looked up for. -/
theorem C48_all_rules_sound (h : Stack T σ S M mean Means) (o : Opts) (n : Nat) (hop : (pafter M o n).sim.op = .running)
    (key : Strip σ S) (r : Rule σ) (hr : Py.dget (pafter M o n).prover.rules key = some r)
    (tape : ChainTape σ Nat) (hk : strip natIsOne key.st tape = key) : RuleSound T M.initSym Means key.st tape r := by
  obtain ⟨⟨TDen, hs, F⟩, -, -⟩ := stack_ok h
  exact rule_sound F (hk ▸ ((pinv_after M o n).run hop).2.rules key r hr)

/-- erases a run of ones, adds a 2 to a run of twos and puts two ones before it -/
def exGen : Table := tbl [[.go 2 .L 1, .go 0 .R 0, .go 2 .R 0], [.go 1 .L 2, .undef, .go 2 .L 1], [.go 1 .L 3], [.go 0 .R 0]]

def exTape : ChainTape Nat Nat := ⟨.R, [⟨0, none⟩], [⟨1, some 6⟩, ⟨2, some 2⟩, ⟨0, none⟩]⟩

/-- the rule: for `x, y ≥ 1`, from `1^x 2^y` to `1^2 2^(y+1)` in `x + 2 y + 4` steps -/
def exRule : GenRule :=
  { vars := [none, some (0, 1), some (1, 1), none]
    result := [none, some (.num 2), some (.expr (Expr.varPlus 1 1)), none]
    steps := .expr ⟨[⟨[⟨0, 1⟩], 1⟩, ⟨[⟨1, 1⟩], 2⟩], 4⟩
    loops := 7
    seen := [(0, .expr ⟨[⟨[⟨0, 1⟩], 1⟩, ⟨[⟨1, 1⟩], 1⟩], 0⟩), (1, .expr ⟨[⟨[⟨0, 1⟩], 1⟩, ⟨[⟨1, 1⟩], 2⟩], 1⟩),
      (2, .expr ⟨[⟨[⟨0, 1⟩], 1⟩, ⟨[⟨1, 1⟩], 2⟩], 2⟩), (3, .expr ⟨[⟨[⟨0, 1⟩], 1⟩, ⟨[⟨1, 1⟩], 2⟩], 3⟩)]
    infinite := false }

-- a general rule is proved, and its tape meets the hypotheses
example : (proveRule (simple exGen) (strip natIsOne (some 0) exTape) (some 0) exTape 7 0).1 = .ok (.gen exRule) := by
  decide +kernel
example : WFTape 0 exTape ∧ GenCovers exRule exTape := by
  refine ⟨fun d => ?_, ?_⟩
  · cases d <;> simp [exTape, ChainTape.half, WFHalf]
  · simp [GenCovers, exRule, exTape, lengths]

/-- writes ones: a sweep in each direction makes the run longer by two -/
def exSweep : Table := tbl [[.go 1 .R 1, .go 1 .L 0], [.go 1 .L 0, .go 1 .R 1]]

/-- the rule: for `x ≥ 0`, from `1^(x+1)` to `1^(x+3)` in `2 x + 5` steps -/
def exDiff : DiffRule Nat :=
  { init := ⟨.L, [⟨0, none⟩], [⟨1, some (.expr (Expr.varPlus 0 1))⟩, ⟨0, none⟩]⟩
    diff := ⟨.L, [⟨0, none⟩], [⟨1, some (.num 2)⟩, ⟨0, none⟩]⟩
    steps := .expr ⟨[⟨[⟨0, 1⟩], 2⟩], 5⟩
    loops := 4
    seen := [(0, .expr ⟨[⟨[⟨0, 1⟩], 2⟩], 4⟩), (1, .expr ⟨[⟨[⟨0, 1⟩], 1⟩], 2⟩)] }

-- a difference rule is found in a run
example : (pafter (simple exSweep) defaults 12).prover.rules =
    [(⟨some 0, .L, [], [.many 1]⟩, .diff exDiff)] := by decide +kernel

/-! ## C49: applying rules -/

/-- **C49.** Applying a proven rule to a configuration of its shape that means the base configuration `cfg`: the new tape has
positive run lengths and is where the base machine is after exactly the reported steps, with the reported last visits, and a
difference rule is applied as often as possible. -/
theorem C49_apply_exact (h : Stack T σ S M mean Means) {st : S} {tape : ChainTape σ Nat} (hw : WFTape M.initSym tape)
    {delta : Int} (hd : 1 ≤ delta) {nv : Nat} {r : Rule σ}
    (hr : (proveRule M (strip natIsOne st tape) st tape delta nv).1 = .ok r) (o : Opts) (nv' : Nat) {u : ChainTape σ Nat}
    (hu : WFTape M.initSym u) (hk : strip natIsOne st u = strip natIsOne st tape) {cfg : Config}
    (hm : Means (tapeDC M.initSym u st) cfg) : ApplySound T M.initSym Means o st u cfg r (applyRule o r u nv').1 := by
  obtain ⟨⟨TDen, hs, F⟩, -, -⟩ := stack_ok h
  have := proveRule_ok (z := M.initSym) M st tape delta nv hw hd
  rw [hr] at this
  exact apply_sound F (hk ▸ this) hu hm o nv'

theorem tracks_of (h : Stack T σ S M mean Means) (o : Opts) (ho : o.maxReps ≠ 0) (n : Nat) :
    Tracks M n (pafter M o n).sim := by
  obtain ⟨-, -, ⟨ok, okS, hs, h1, h2⟩⟩ := stack_ok h
  rcases (pinv_after M o n).tracks with ht | ⟨-, hz | hf⟩
  · exact ht
  · exact absurd hz ho
  · exact (hf ok okS hs h1 h2).elim

/-- **C49, refinement.** The simulator with the proof system never raises; after `n` loops it is exactly where the simulator
without proof system is after some number `m` of loops, `m ≥ n` while it is running; or the proof system has stopped it. -/
theorem C49_run_refines (h : Stack T σ S M mean Means) (o : Opts) (ho : o.maxReps ≠ 0) (n : Nat) :
    Tracks M n (pafter M o n).sim ∧ (pafter M o n).sim.op ≠ .raised := by
  have ht := tracks_of h o ho n
  refine ⟨ht, ?_⟩
  obtain ⟨⟨TDen, hs, F⟩, hi, -⟩ := stack_ok h
  cases ht with
  | same m h1 h2 => rw [h1.op]; exact (after_ok F hi m).1.safe
  | proof m h1 => rw [h1]; simp

theorem stack_exact (h : Stack T σ S M mean Means) (m : Nat) : ExactSim T M mean (SimSt.after M m) := by
  cases h with
  | simple => convert (C10_simulator_exact T 1 0 0 0 (by omega) m).1
  | block k off maxSim hoff => convert (C10_simulator_exact T k off maxSim 0 hoff m).2.1
  | back maxSim => convert (C10_simulator_exact T 1 0 0 maxSim (by omega) m).2.2.1
  | nested k off maxBlock maxBack hoff => convert (C10_simulator_exact T k off maxBlock maxBack hoff m).2.2.2

/-- **C49, whole run.** With the proof system the simulator reports the same exact configuration, step count, score, halting
step and cell as the base machine. -/
theorem C49_run_exact (h : Stack T σ S M mean Means) (o : Opts) (ho : o.maxReps ≠ 0) (n : Nat) :
    ExactSim T M mean (pafter M o n).sim := by
  obtain ⟨ht, hr⟩ := C49_run_refines h o ho n
  cases ht with
  | same m h1 h2 =>
    have H := stack_exact h m
    have hdc : (pafter M o n).sim.dc M.initSym = (SimSt.after M m).dc M.initSym := by
      unfold SimSt.dc; rw [h1.tape, h1.st]
    have hnz : (pafter M o n).sim.nonzeros natOps M = (SimSt.after M m).nonzeros natOps M := by
      unfold SimSt.nonzeros; rw [h1.tape, h1.st]
    refine ⟨hr, by rw [h1.dir, h1.tape]; exact H.dir, fun hh => ?_, fun hh => ?_⟩
    · rw [hdc, hnz, h1.steps]; exact H.running (by rw [← h1.op]; exact hh)
    · rw [hdc, hnz, h1.steps, h1.cell hh, h1.op]; exact H.halted (by rw [← h1.op]; exact hh)
  | proof m h1 h2 h3 h4 =>
    have H := stack_exact h m
    refine ⟨hr, ?_, fun hh => ?_, fun hh => ?_⟩
    · have e1 := h3.dir
      have e2 := h3.tape
      simp only at e1 e2
      rw [e1, e2]; exact H.dir
    · rw [h1] at hh; rcases hh with hh | hh <;> cases hh
    · rw [h1] at hh; rcases hh with hh | hh <;> cases hh

/-- **C49, step by step.** While the simulator is running, every loop is at least one step of the base machine. -/
theorem C49_run_progress (h : Stack T σ S M mean Means) (o : Opts) (ho : o.maxReps ≠ 0) (n : Nat)
    (hop : (pafter M o n).sim.op = .running) : n ≤ (pafter M o n).sim.steps := by
  obtain ⟨⟨TDen, hs, F⟩, hi, -⟩ := stack_ok h
  cases tracks_of h o ho n with
  | same m h1 h2 =>
    have h3 := (after_ok F hi m).2 (by rw [← h1.op]; exact hop)
    have := h2 hop
    rw [h1.steps]; omega
  | proof m h1 => rw [hop] at h1; cases h1

/-- **C49, last visits.** With the proof system the recorded time of a state is the last time before `step_num` at which the
base machine was in that state; states without an entry were never visited.  The record is never thrown away. -/
theorem C49_run_last_seen (h : Stack T σ S M mean Means) (o : Opts) (ho : o.maxReps ≠ 0) (n : Nat) :
    (pafter M o n).seenOk = true ∧
    ∀ q, (∀ u, Py.dget (pafter M o n).sim.seen q = some u ↔ LastSeen T init (pafter M o n).sim.steps q u) ∧
      (Py.dget (pafter M o n).sim.seen q = none ↔ ∀ u, u < (pafter M o n).sim.steps → ¬ VisitedAt T init q u) := by
  obtain ⟨⟨TDen, hs, F⟩, hi, -⟩ := stack_ok h
  have key : ∀ n, ∃ m, (pafter M o n).sim.steps = (SimSt.after M m).steps ∧
      ∀ q, Py.dget (pafter M o n).sim.seen q = Py.dget (SimSt.after M m).seen q := by
    intro n
    cases tracks_of h o ho n with
    | same m h1 h2 => exact ⟨m, h1.steps, h1.seen⟩
    | proof m h1 h2 h3 h4 => exact ⟨m, h3.steps, h3.seen⟩
  have exact_ : ∀ n q u, Py.dget (pafter M o n).sim.seen q = some u ↔ LastSeen T init (pafter M o n).sim.steps q u := by
    intro n q u
    obtain ⟨m, h1, h2⟩ := key n
    rw [h1, h2 q]; exact (after_ok F hi m).1.seen.2 q u
  refine ⟨?_, fun q => ⟨exact_ n q, ?_⟩⟩
  · induction n with
    | zero => rfl
    | succ n ih =>
      have hstep : pafter M o (n + 1) = (pafter M o n).step M o := Function.iterate_succ_apply' _ _ _
      by_cases hop : (pafter M o n).sim.op = .running
      · obtain ⟨hl, hpo⟩ := (pinv_after M o n).run hop
        obtain ⟨m, hsame, -⟩ : ∃ m, SameSim (SimSt.after M m) (pafter M o n).sim ∧ n ≤ m := by
          cases tracks_of h o ho n with
          | same m h1 h2 => exact ⟨m, h1, h2 hop⟩
          | proof m h1 => rw [hop] at h1; cases h1
        have hsucc := exact_ (n + 1)
        have hcur := exact_ n
        have hst := C49_run_exact h o ho (n + 1)
        have hres := (logAndApply_ok (s := { (pafter M o n).sim with loops := (pafter M o n).sim.loops + 1 }) hpo hop (by
          show (pafter M o n).sim.dir = (pafter M o n).sim.tape.dir
          rw [hsame.dir, hsame.tape]; exact (after_wf M m).2) (by
          show (pafter M o n).sim.tape.WF M.initSym
          rw [hsame.tape]; exact (after_wf M m).1) o).2
        simp only at hres
        have hprog := steps_same M
        rw [hstep] at hsucc ⊢
        unfold PSim.step at hsucc ⊢
        rw [if_neg (by rw [hop]; simp)] at hsucc ⊢
        simp only at hsucc ⊢
        rw [hl] at hsucc hres ⊢
        generalize logAndApply M o (pafter M o n).prover (pafter M o n).sim.st (pafter M o n).sim.tape n = la at hsucc hres ⊢
        match la, hsucc, hres with
        | (pr, .raise), _, _ => exact ih
        | (pr, .fail), _, _ => exact ih
        | (pr, .ok (.inf states)), _, _ => exact ih
        | (pr, .ok (.apply tape steps seen)), hsucc, hres =>
          obtain ⟨hk, k, hk1, hL⟩ := hres
          simp only [ih, Bool.true_and, Bool.not_eq_true']
          rw [List.isEmpty_eq_false_iff]
          rintro rfl
          have hs' : SameSim (SimSt.after M m) { (pafter M o n).sim with loops := n + 1 } :=
            ⟨hsame.tape, hsame.st, hsame.dir, hsame.steps, hsame.op, hsame.seen, hsame.cell, hsame.reason, hsame.recur⟩
          have h2 := steps_same M k hs'
          have h3 := iter_ok F (after_ok F hi m).1 k
          have h4 := (h3.2 (by rw [← h2.op]; exact hL.op)).2
          rw [← h2.steps, hL.steps, ← hsame.steps] at h4
          simp only at h4
          have h5 : (SimSt.step natOps M)^[k] (SimSt.after M m) = SimSt.after M (m + k) := after_add M m k
          have h6 : (run T (SimSt.after M (m + k)).steps init).state ≠ none := by
            have := (after_ok F hi (m + k)).1.run (Or.inl (by rw [← h5, ← h2.op]; exact hL.op))
            exact (F.live _ _ this).1
          have h7 : (SimSt.after M (m + k)).steps = (pafter M o n).sim.steps + steps := by
            rw [← h5, ← h2.steps]; exact hL.steps
          rw [h7] at h6
          have h8 := run_some_mono (show (pafter M o n).sim.steps + steps - 1 ≤ (pafter M o n).sim.steps + steps by omega) h6
          obtain ⟨q, hq⟩ := Option.ne_none_iff_exists'.1 h8
          have h9 : LastSeen T init ((pafter M o n).sim.steps + steps) q ((pafter M o n).sim.steps + steps - 1) :=
            ⟨by omega, hq, fun t h1 h2 => absurd h2 (by omega)⟩
          have h10 := (hsucc q _).2 h9
          have h11 := (hcur q _).1 h10
          have := h11.1
          omega
      · rw [hstep]
        unfold PSim.step
        rw [if_pos hop]; exact ih
  · constructor
    · intro h u hu hv
      obtain ⟨t, ht⟩ := lastSeen_exists hu hv
      rw [(exact_ n q t).2 ht] at h
      cases h
    · intro h
      cases hd : Py.dget (pafter M o n).sim.seen q with
      | none => rfl
      | some t =>
        have := (exact_ n q t).1 hd
        exact absurd this.2.1 (h t this.1)

-- the general rule is applied ten times
example : (applyRule defaults (.gen exRule) exTape 5).1 = .ok (.apply
    ⟨.R, [⟨0, none⟩], [⟨1, some 2⟩, ⟨2, some 12⟩, ⟨0, none⟩]⟩ 194 [(0, 179), (1, 191), (2, 192), (3, 193)]) := by decide +kernel

/-- the 5-state champion `1RB1LC_1RC1RB_1RD0LE_1LA1LD_1RZ0LA` -/
def exBB5 : Table := tbl [[.go 1 .R 1, .go 1 .L 2], [.go 1 .R 2, .go 1 .R 1], [.go 1 .R 3, .go 0 .L 4],
  [.go 1 .L 0, .go 1 .L 3], [.halt 1 .R, .go 0 .L 0]]

-- 47 million steps in 370 loops, almost all by applying a difference rule
example : let M := block (simple exBB5) 3 0 1000
    let s := (pafter M defaults 370).sim
    (s.op, s.steps, s.nonzeros natOps M, s.cell, s.seen) = (.halt, 47176870, 4098, some (0, 4),
      [(0, 47176867), (1, 47164579), (2, 47176868), (3, 47164581), (4, 47176869)]) := by decide +kernel

/-! ## C50: infinite verdicts -/

/-- **C50.** If applying a proven rule reports that it applies forever, the base machine never halts from that configuration,
and the reported states are exactly those visited infinitely often. -/
theorem C50_apply_infinite (h : Stack T σ S M mean Means) {st : S} {tape : ChainTape σ Nat} (hw : WFTape M.initSym tape)
    {delta : Int} (hd : 1 ≤ delta) {nv : Nat} {r : Rule σ}
    (hr : (proveRule M (strip natIsOne st tape) st tape delta nv).1 = .ok r) (o : Opts) (nv' : Nat) {u : ChainTape σ Nat}
    (hu : WFTape M.initSym u) (hk : strip natIsOne st u = strip natIsOne st tape) {cfg : Config}
    (hm : Means (tapeDC M.initSym u st) cfg) {states : List Nat} (hi : (applyRule o r u nv').1 = .ok (.inf states)) :
    NeverHalts T cfg ∧ ∀ q, VisitedForever T cfg q ↔ q ∈ states := by
  have := C49_apply_exact h hw hd hr o nv' hu hk hm
  rw [hi] at this
  exact this

/-- **C50, whole run.** If the simulator stops because of the proof system, the base machine never halts on the blank tape,
and the reported states are exactly those visited infinitely often. -/
theorem C50_run_infinite (h : Stack T σ S M mean Means) (o : Opts) (ho : o.maxReps ≠ 0) (n : Nat)
    (hr : (pafter M o n).sim.infReason = some .proofSystem) :
    NeverHalts T init ∧ ∀ q, VisitedForever T init q ↔ q ∈ (pafter M o n).sim.recur := by
  obtain ⟨⟨TDen, hs, F⟩, hi, -⟩ := stack_ok h
  cases tracks_of h o ho n with
  | same m h1 h2 =>
    rw [h1.reason] at hr
    exact absurd hr (after_noProof M m)
  | proof m h1 h2 h3 h4 =>
    have := loops_forever F (after_ok F hi m).1 h4
    exact ⟨this.1, fun q => (this.2 q).1⟩

-- the verdict occurs
example : let s := (pafter (simple exSweep) defaults 12).sim
    (s.op, s.infReason, s.recur) = (.infRepeat, some .proofSystem, [0, 1]) := by decide +kernel

end Props

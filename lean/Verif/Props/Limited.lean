import Verif.Lemmas.LimitedSim
import Verif.Props.Prover

/-!
# C60: limited rules

With the option `--limited-rules` the proof system keeps only the part of the tape a rule touches and applies the rule
whatever is beyond it.  `ord` is the order in which the candidate rules are tried in each loop (the tool takes it from a set).
-/

namespace Props
open Spec Model Model.Prover

variable {T : Table} {σ S : Type} [DecidableEq σ] [DecidableEq S] {M : Machine σ S} {mean : DC σ S → DC Nat (Option Nat)}
  {Means : DC σ S → Config → Prop}

/-- **C60, rules.** A limited rule proved from the configuration `tape`, `st` is sound in every surrounding.  It speaks about
every tape that looks the same within its distance from the head, with run lengths there at or above the minima. -/
theorem C60_rule_sound (h : Stack T σ S M mean Means) {st : S} {tape : ChainTape σ Nat} (hw : WFTape M.initSym tape)
    {delta : Int} (hd : 1 ≤ delta) {num nv : Nat} {r : LimRule σ}
    (hr : (proveRuleL M (strip natIsOne st tape) st tape delta num nv).1 = .ok (.lim r)) :
    LimSound T Means st r.rule ∧ ∀ u, WFTape M.initSym u → SameKinds (cut r.dist u) (cut r.dist tape) →
      AtLeast r.rule.init (cut r.dist u) → DiffCovers r.rule (cut r.dist u) := by
  obtain ⟨⟨TDen, hs, F⟩, -, -⟩ := stack_ok h
  have := proveRuleL_ok F (z := M.initSym) st tape delta num nv hw hd
  rw [hr] at this
  exact ⟨this.sound, fun u hu hk ha => lim_covers this (fits_of (st := st) hu hw hk) hu ha⟩

/-- **C60, application.** Applying a limited rule to a tape that looks the same within its distance and means the base
configuration `cfg` reports what the base machine does from `cfg`. -/
theorem C60_apply_exact (h : Stack T σ S M mean Means) {st : S} {tape : ChainTape σ Nat} (hw : WFTape M.initSym tape)
    {delta : Int} (hd : 1 ≤ delta) {num nv : Nat} {r : LimRule σ}
    (hr : (proveRuleL M (strip natIsOne st tape) st tape delta num nv).1 = .ok (.lim r)) (nv' : Nat) {u : ChainTape σ Nat}
    (hu : WFTape M.initSym u) (hk : SameKinds (cut r.dist u) (cut r.dist tape)) {cfg : Config}
    (hm : Means (tapeDC M.initSym u st) cfg) : LimApplySound T M.initSym Means st u cfg r (applyLim r u nv') := by
  obtain ⟨⟨TDen, hs, F⟩, -, -⟩ := stack_ok h
  have := proveRuleL_ok F (z := M.initSym) st tape delta num nv hw hd
  rw [hr] at this
  have := applyLim_ok F this (fits_of (st := st) hu hw hk) hu hm nv'
  match ha : applyLim r u nv', this with
  | .raise, this => exact this
  | .fail, this => exact this
  | .ok (.inf states), this => exact this
  | .ok (.apply u' n seen), ⟨h1, h2, h3, h4, h5, _, h7⟩ => exact ⟨h1, h2, h3, h4, h5.2, h7⟩

/-! ## Whole runs -/

omit [DecidableEq σ] [DecidableEq S] in
/-- a simulator with all its invariants reports the base machine exactly -/
theorem exactSim_ok {Den TDen hs} (H : SimOK T M Den TDen hs M.initSym init s) (SC : Scored M TDen)
    (hz : M.evalSym M.initSym = 0)
    (h1 : ∀ c cfg, Den c cfg → Represents (mean c) cfg) (h2 : ∀ c tp, TDen c tp → RepresentsTape (mean c) tp)
    (h3 : ∀ c cfg, Den c cfg → TDen c cfg.tape) : ExactSim T M mean s := by
  have hscore : ∀ tp, TDen (s.dc M.initSym) tp → s.nonzeros natOps M = Set.ncard {p : Int | tp p ≠ 0} := by
    intro tp htp
    obtain ⟨a, b, hab, ha, hb⟩ := ChainTape.nonzeros_spec M.evalSym hz H.wf (M.evalSt s.st)
    rw [SC _ tp a b htp ha hb]
    exact hab
  refine ⟨H.safe, H.dir, fun h => ?_, fun h => ?_⟩
  · have := H.run h
    exact ⟨h1 _ _ this, hscore _ (h3 _ _ this)⟩
  · obtain ⟨a, b, c⟩ := H.halt h
    exact ⟨a, h2 _ _ b, hscore _ b, c⟩

omit [DecidableEq σ] [DecidableEq S] in
theorem stack_sim (h : Stack T σ S M mean Means) : ∃ TDen hs, Follows T M Means TDen hs ∧ Means (initDC M) init ∧
    ∀ s, SimOK T M Means TDen hs M.initSym init s → ExactSim T M mean s := by
  cases h with
  | simple =>
    refine ⟨_, _, simple_follows T, simple_init T, fun s H => ?_⟩
    exact exactSim_ok H (simple_scored T) rfl (fun _ _ h => h) (fun _ _ h => h) (fun _ _ h => represents_tape h)
  | block k off maxSim hoff =>
    have hk : 0 < k := by omega
    refine ⟨_, _, block_follows (simple_follows T) (simple_shift _) hk off maxSim 0, block_init (simple_init T) hk hoff, fun s H => ?_⟩
    exact exactSim_ok H (block_scored (simple_scored T) hk off maxSim 0) (block_zero rfl k off maxSim) (fun _ _ h => h.2)
      (fun _ _ h => h.2) (fun _ _ h => ⟨h.1, represents_tape h.2⟩)
  | back maxSim =>
    refine ⟨_, _, back_follows (simple_follows T) (simple_shift _) maxSim, back_init (simple_init T) maxSim, fun s H => ?_⟩
    exact exactSim_ok H (back_scored (simple_scored T) maxSim) rfl (fun _ _ h => h) (fun _ _ h => h)
      (fun _ _ h => represents_tape h)
  | nested k off maxBlock maxBack hoff =>
    have hk : 0 < k := by omega
    have F2 := block_follows (simple_follows T) (simple_shift _) hk off maxBlock 0
    refine ⟨_, _, back_follows F2 (block_shift (simple_shift _) hk 0) maxBack,
      back_init (block_init (simple_init T) hk hoff) maxBack, fun s H => ?_⟩
    exact exactSim_ok H (back_scored (block_scored (simple_scored T) hk off maxBlock 0) maxBack) (block_zero rfl k off maxBlock)
      (fun _ _ h => h.2) (fun _ _ h => h.2) (fun _ _ h => ⟨h.1, represents_tape h.2⟩)

variable {o : Opts} {ord : Order σ}

theorem lim_main (h : Stack T σ S M mean Means) (ho : o.maxReps ≠ 0) (hord : ∀ n l, (ord n l).Perm l) {TDen hs}
    (F : Follows T M Means TDen hs) (hi : Means (initDC M) init) (n : Nat) :
    (SimOK T M Means TDen hs M.initSym init (lafter M o ord n).sim ∧ (lafter M o ord n).sim.infReason ≠ some .proofSystem) ∨
      LProof T (lafter M o ord n).sim := by
  obtain ⟨-, -, ⟨ok, okS, hM, h1, h2⟩⟩ := stack_ok h
  rcases (linv_after F hi o hord n).main with hm | hm | hm
  · exact Or.inl hm
  · exact Or.inr hm
  · rcases hm.2 with h3 | h3
    · exact absurd h3 ho
    · exact (h3 ok okS hM h1 h2).elim

/-- **C60, whole run.** With limited rules, tried in any order, the simulator never raises, and reports the same exact
configuration, step count, score, halting step and cell as the base machine. -/
theorem C60_run_exact (h : Stack T σ S M mean Means) (ho : o.maxReps ≠ 0) (hord : ∀ n l, (ord n l).Perm l) (n : Nat) :
    ExactSim T M mean (lafter M o ord n).sim := by
  obtain ⟨TDen, hs, F, hi, hex⟩ := stack_sim h
  rcases lim_main h ho hord F hi n with hm | hm
  · exact hex _ hm.1
  · refine ⟨by rw [hm.op]; simp, hm.dir, fun hh => ?_, fun hh => ?_⟩
    · rw [hm.op] at hh; rcases hh with hh | hh <;> cases hh
    · rw [hm.op] at hh; rcases hh with hh | hh <;> cases hh

/-- **C60, step by step.** While the simulator is running, every loop is at least one step of the base machine. -/
theorem C60_run_progress (h : Stack T σ S M mean Means) (hord : ∀ n l, (ord n l).Perm l) (n : Nat)
    (hop : (lafter M o ord n).sim.op = .running) : (lafter M o ord n).sim.loops = n ∧ n ≤ (lafter M o ord n).sim.steps := by
  obtain ⟨TDen, hs, F, hi, -⟩ := stack_sim h
  have := (linv_after F hi o hord n).run hop
  exact ⟨this.loops, this.steps⟩

/-- **C60, last visits.** The recorded time of a state is the last time before `step_num` at which the base machine was in that
state; states without an entry were never visited.  The record is never thrown away. -/
theorem C60_run_last_seen (h : Stack T σ S M mean Means) (ho : o.maxReps ≠ 0) (hord : ∀ n l, (ord n l).Perm l) (n : Nat) :
    (lafter M o ord n).seenOk = true ∧
    ∀ q, (∀ u, Py.dget (lafter M o ord n).sim.seen q = some u ↔ LastSeen T init (lafter M o ord n).sim.steps q u) ∧
      (Py.dget (lafter M o ord n).sim.seen q = none ↔ ∀ u, u < (lafter M o ord n).sim.steps → ¬ VisitedAt T init q u) := by
  obtain ⟨TDen, hs, F, hi, -⟩ := stack_sim h
  have hse : SeenExact T init (lafter M o ord n).sim.steps (lafter M o ord n).sim.seen := by
    rcases lim_main h ho hord F hi n with hm | hm
    · exact hm.1.seen
    · exact hm.seen
  refine ⟨(linv_after F hi o hord n).seenOk, fun q => ⟨hse.2 q, ?_⟩⟩
  constructor
  · intro h u hu hv
    obtain ⟨t, ht⟩ := lastSeen_exists hu hv
    rw [(hse.2 q t).2 ht] at h
    cases h
  · intro h
    cases hd : Py.dget (lafter M o ord n).sim.seen q with
    | none => rfl
    | some t =>
      have := (hse.2 q t).1 hd
      exact absurd this.2.1 (h t this.1)

/-- **C60, infinite verdicts.** If the simulator stops because of the proof system or of a chain step, the base machine never
halts on the blank tape, and the reported states are exactly those visited infinitely often. -/
theorem C60_run_infinite (h : Stack T σ S M mean Means) (ho : o.maxReps ≠ 0) (hord : ∀ n l, (ord n l).Perm l) (n : Nat)
    (hop : (lafter M o ord n).sim.op = .infRepeat) (hr : (lafter M o ord n).sim.infReason ≠ some .macroStep) :
    NeverHalts T init ∧ ∀ q, VisitedForever T init q ↔ q ∈ (lafter M o ord n).sim.recur := by
  obtain ⟨TDen, hs, F, hi, -⟩ := stack_sim h
  rcases lim_main h ho hord F hi n with hm | hm
  · rcases hm.1.inf hop with h1 | h1
    · exact ⟨h1.2.1, fun q => (h1.2.2 q).1⟩
    · exact absurd h1.1 hr
  · exact ⟨hm.never, hm.recur⟩

/-- A macro step that repeats itself is a right verdict wherever it is without proof system (C11, C12). -/
theorem C60_run_infinite_macro (h : Stack T σ S M mean Means) (ho : o.maxReps ≠ 0) (hord : ∀ n l, (ord n l).Perm l) (n : Nat)
    (hinf : FollowsInf T M Means) (hop : (lafter M o ord n).sim.op = .infRepeat) : NeverHalts T init := by
  obtain ⟨TDen, hs, F, hi, -⟩ := stack_sim h
  rcases lim_main h ho hord F hi n with hm | hm
  · rcases hm.1.inf hop with h1 | h1
    · exact h1.2.1
    · exact (h1.2 hinf).1
  · exact hm.never

/-! ## Cases -/

def exLimM : Machine (List Nat) (BSt (Option Nat)) := block (simple exBB5) 3 0 1000

/-- The rule of the 5-state champion: it touches two blocks to each side. -/
def exLimRule : LimRule (List Nat) :=
  { rule :=
      { init := ⟨.L, [⟨[0, 0, 1], some (.num 1)⟩, ⟨[0, 0, 0], none⟩],
          [⟨[1, 1, 1], some (.expr (Expr.varPlus 0 1))⟩, ⟨[0, 0, 1], some (.expr (Expr.varPlus 1 4))⟩]⟩
        diff := ⟨.L, [⟨[0, 0, 1], some (.num 0)⟩, ⟨[0, 0, 0], none⟩], [⟨[1, 1, 1], some (.num 5)⟩, ⟨[0, 0, 1], some (.num (-3))⟩]⟩
        steps := .expr ⟨[⟨[⟨0, 1⟩], 18⟩], 84⟩
        loops := 13
        seen := [(3, .expr ⟨[⟨[⟨0, 1⟩], 18⟩], 83⟩), (0, .expr ⟨[⟨[⟨0, 1⟩], 12⟩], 48⟩), (1, .expr ⟨[⟨[⟨0, 1⟩], 15⟩], 64⟩),
          (2, .expr ⟨[⟨[⟨0, 1⟩], 15⟩], 65⟩)] }
    dist := ⟨2, 2⟩
    num := 0 }

-- 47 million steps in 370 loops, with this rule
example : let s := lafter exLimM defaults (fun _ l => l) 370
    (s.sim.op, s.sim.steps, s.sim.nonzeros natOps exLimM, s.sim.cell, s.sim.seen) = (.halt, 47176870, 4098, some (0, 4),
      [(0, 47176867), (1, 47164579), (2, 47176868), (3, 47164581), (4, 47176869)]) ∧
    s.prover.rules.map (·.2) = [[exLimRule], [exLimRule]] := by decide +kernel

/-- a tape with other symbols beyond the distance of the rule -/
def exLimFar : ChainTape (List Nat) Nat :=
  ⟨.L, [⟨[0, 0, 1], some 1⟩, ⟨[0, 0, 0], none⟩], [⟨[1, 1, 1], some 5⟩, ⟨[0, 0, 1], some 20⟩, ⟨[0, 1, 0], some 7⟩, ⟨[0, 0, 0], none⟩]⟩

-- it looks the same within the distance, and the rule applies there
example : WFTape [0, 0, 0] exLimFar ∧ SameKinds (cut exLimRule.dist exLimFar) (cut exLimRule.dist
    ⟨.L, [⟨[0, 0, 1], some 1⟩, ⟨[0, 0, 0], none⟩], [⟨[1, 1, 1], some 8⟩, ⟨[0, 0, 1], some 4⟩, ⟨[0, 1, 1], some 1⟩, ⟨[0, 0, 0], none⟩]⟩) := by
  refine ⟨fun d => ?_, rfl, fun d => ?_⟩
  · cases d <;> simp [exLimFar, ChainTape.half, WFHalf]
  · cases d <;> simp [exLimFar, exLimRule, cut, takeL, ChainTape.half, SameKind]
example : applyLim exLimRule exLimFar 7 = .ok (.apply
    ⟨.L, [⟨[0, 0, 1], some 1⟩, ⟨[0, 0, 0], none⟩], [⟨[1, 1, 1], some 35⟩, ⟨[0, 0, 1], some 2⟩, ⟨[0, 1, 0], some 7⟩, ⟨[0, 0, 0], none⟩]⟩
    2286 [(3, 2285), (0, 2076), (1, 2179), (2, 2180)]) := by decide +kernel

-- the verdict occurs
example : let s := (lafter (simple exSweep) defaults (fun _ l => l) 12).sim
    (s.op, s.infReason, s.recur) = (.infRepeat, some .proofSystem, [0, 1]) := by decide +kernel

end Props

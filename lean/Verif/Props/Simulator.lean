import Verif.Lemmas.Simulator
import Verif.Props.Macro

/-!
# C10-C13: the accelerated simulator without proof rules

The machine stacks built by the tools (`Quick_Sim.py`, `Macro_Simulator.py`) are: the plain machine, a
block machine, a back-symbol machine, and a back-symbol machine over a block machine.
-/

namespace Props
open Spec Model

variable {σ S : Type} [DecidableEq σ] [DecidableEq S]

/-- What the simulator state `s` over the stack `M` must tell about the base machine `T` started on the
blank tape; `mean` translates the macro configuration into a configuration of the base machine. -/
structure ExactSim (T : Table) (M : Machine σ S) (mean : DC σ S → DC Nat (Option Nat))
    (s : SimSt σ S Nat) : Prop where
  /-- no exception -/
  safe : s.op ≠ .raised
  /-- the direction attribute of the simulator agrees with the one of its tape -/
  dir : s.dir = s.tape.dir
  /-- not halted: the configuration is that of the base machine after exactly `step_num` steps -/
  running : s.op = .running ∨ s.op = .gaveUp →
    Represents (mean (s.dc M.initSym)) (run T s.steps init) ∧
    s.nonzeros natOps M = score (run T s.steps init)
  /-- halted: the base machine halts at exactly that step, with that tape and score; `UNDEFINED` is
  reported exactly if the executed table cell is undefined, and the reported cell is the executed one -/
  halted : s.op = .halt ∨ s.op = .undefined →
    HaltsAt T init s.steps ∧ RepresentsTape (mean (s.dc M.initSym)) (run T s.steps init).tape ∧
    s.nonzeros natOps M = score (run T s.steps init) ∧
    ∃ a q, s.cell = some (a, q) ∧ (run T (s.steps - 1) init).state = some q ∧
      (run T (s.steps - 1) init).scanned = a ∧ (s.op = .undefined ↔ T q a = .undef)

theorem exactSim_of {T : Table} {M : Machine σ S} {Den TDen hs} {mean : DC σ S → DC Nat (Option Nat)}
    (F : Follows T M Den TDen hs) (hi : Den (initDC M) init) (SC : Scored M TDen)
    (hz : M.evalSym M.initSym = 0)
    (h1 : ∀ c cfg, Den c cfg → Represents (mean c) cfg) (h2 : ∀ c tp, TDen c tp → RepresentsTape (mean c) tp)
    (h3 : ∀ c cfg, Den c cfg → TDen c cfg.tape) (n : Nat) : ExactSim T M mean (SimSt.after M n) := by
  have H := (after_ok F hi n).1
  have hscore : ∀ tp, TDen ((SimSt.after M n).dc M.initSym) tp →
      (SimSt.after M n).nonzeros natOps M = Set.ncard {p : Int | tp p ≠ 0} := by
    intro tp htp
    obtain ⟨a, b, hab, ha, hb⟩ := ChainTape.nonzeros_spec M.evalSym hz H.wf (M.evalSt (SimSt.after M n).st)
    rw [SC _ tp a b htp ha hb]
    exact hab
  refine ⟨H.safe, H.dir, fun h => ?_, fun h => ?_⟩
  · have := H.run h
    exact ⟨h1 _ _ this, hscore _ (h3 _ _ this)⟩
  · obtain ⟨a, b, c⟩ := H.halt h
    exact ⟨a, h2 _ _ b, hscore _ b, c⟩

theorem represents_tape {c : DC Nat (Option Nat)} {cfg : Config} (h : Represents c cfg) :
    RepresentsTape c cfg.tape := by
  obtain ⟨b, h, -⟩ := h; exact ⟨b, h⟩

theorem block_zero {M : Machine σ S} (hz : M.evalSym M.initSym = 0) (k off maxSim : Nat) :
    (block M k off maxSim).evalSym (block M k off maxSim).initSym = 0 := by
  simp [block, hz]

/-- **C10.** For every machine and each of the four stacks, after any number of loops the simulator has
not raised and is exact. -/
theorem C10_simulator_exact (T : Table) (k off maxBlock maxBack : Nat) (hoff : off < k) (n : Nat) :
    ExactSim T (simple T) id (SimSt.after (simple T) n) ∧
    ExactSim T (block (simple T) k off maxBlock) (blockFlat k 0)
      (SimSt.after (block (simple T) k off maxBlock) n) ∧
    ExactSim T (back (simple T) maxBack) backFlat (SimSt.after (back (simple T) maxBack) n) ∧
    ExactSim T (back (block (simple T) k off maxBlock) maxBack) (fun c => blockFlat k 0 (backFlat c))
      (SimSt.after (back (block (simple T) k off maxBlock) maxBack) n) := by
  have hk : 0 < k := by omega
  have F1 := simple_follows T
  have F2 := block_follows F1 (simple_shift _) hk off maxBlock 0
  have z1 : (simple T).evalSym (simple T).initSym = 0 := rfl
  refine ⟨?_, ?_, ?_, ?_⟩
  · exact exactSim_of F1 (simple_init T) (simple_scored T) z1 (fun _ _ h => h) (fun _ _ h => h)
      (fun _ _ h => represents_tape h) n
  · exact exactSim_of F2 (block_init (simple_init T) hk hoff) (block_scored (simple_scored T) hk off maxBlock 0)
      (block_zero z1 k off maxBlock) (fun _ _ h => h.2) (fun _ _ h => h.2)
      (fun _ _ h => ⟨h.1, represents_tape h.2⟩) n
  · exact exactSim_of (back_follows F1 (simple_shift _) maxBack) (back_init (simple_init T) maxBack)
      (back_scored (simple_scored T) maxBack) z1 (fun _ _ h => h) (fun _ _ h => h)
      (fun _ _ h => represents_tape h) n
  · exact exactSim_of (back_follows F2 (block_shift (simple_shift _) hk 0) maxBack)
      (back_init (block_init (simple_init T) hk hoff) maxBack)
      (back_scored (block_scored (simple_scored T) hk off maxBlock 0) maxBack)
      (block_zero z1 k off maxBlock) (fun _ _ h => h.2) (fun _ _ h => h.2)
      (fun _ _ h => ⟨h.1, represents_tape h.2⟩) n

/-- What `seek(cutoff)` and `loop_seek(cutoff)` do: they stop after the first `step` after which the cutoff
is reached or the simulation is not running any more; a running step always makes progress. -/
structure SeeksRight (M : Machine σ S) : Prop where
  progress : ∀ n, (SimSt.after M (n + 1)).op = .running →
    (SimSt.after M n).steps < (SimSt.after M (n + 1)).steps ∧ (SimSt.after M (n + 1)).loops = n + 1
  seek : ∀ cutoff, ∃ m, SimSt.seek M cutoff (SimSt.init natOps M) = SimSt.after M m ∧
    ¬ ((SimSt.after M m).steps < cutoff ∧ (SimSt.after M m).op = .running) ∧
    ∀ j, j < m → (SimSt.after M j).steps < cutoff ∧ (SimSt.after M j).op = .running
  loopSeek : ∀ cutoff, ∃ m, SimSt.loopSeek natOps M cutoff (SimSt.init natOps M) = SimSt.after M m ∧
    ¬ (m < cutoff ∧ (SimSt.after M m).op = .running) ∧
    m ≤ cutoff ∧ ∀ j, j < m → (SimSt.after M j).op = .running

theorem seeksRight_of {T : Table} {M : Machine σ S} {Den TDen hs} (F : Follows T M Den TDen hs)
    (hi : Den (initDC M) init) : SeeksRight M := by
  refine ⟨fun n h => ?_, seek_done F hi, loopSeek_done F hi⟩
  have hop : (SimSt.after M n).op = .running := by
    by_contra hh
    rw [after_succ] at h
    unfold SimSt.step at h
    rw [if_pos hh] at h
    exact hh h
  have h2 := (step_ok F (after_ok F hi n).1).2 hop
  rw [← after_succ] at h2
  have h3 := (after_ok F hi n).2 hop
  exact ⟨h2.2 h, by omega⟩

/-- **C10, driver loops.** -/
theorem C10_seek (T : Table) (k off maxBlock maxBack : Nat) (hoff : off < k) :
    SeeksRight (simple T) ∧ SeeksRight (block (simple T) k off maxBlock) ∧
    SeeksRight (back (simple T) maxBack) ∧ SeeksRight (back (block (simple T) k off maxBlock) maxBack) := by
  have hk : 0 < k := by omega
  have F1 := simple_follows T
  have F2 := block_follows F1 (simple_shift _) hk off maxBlock 0
  exact ⟨seeksRight_of F1 (simple_init T), seeksRight_of F2 (block_init (simple_init T) hk hoff),
    seeksRight_of (back_follows F1 (simple_shift _) maxBack) (back_init (simple_init T) maxBack),
    seeksRight_of (back_follows F2 (block_shift (simple_shift _) hk 0) maxBack)
      (back_init (block_init (simple_init T) hk hoff) maxBack)⟩

/-- the 3-state busy beaver for the number of ones, `1RB1RZ_1LB0RC_1LC1LA` -/
def exBB3 : Table := tbl [[.go 1 .R 1, .halt 1 .R], [.go 1 .L 1, .go 0 .R 2], [.go 1 .L 2, .go 1 .L 0]]

-- a halting run on the block machine (size 3, offset 1) and on the nested machine
example : let s := SimSt.after (block (simple exBB3) 3 1 1000) 10
    (s.op, s.steps, s.nonzeros natOps (block (simple exBB3) 3 1 1000), s.cell)
      = (.halt, 21, 5, some (1, 0)) := by decide +kernel
example : let M := back (block (simple exBB3) 2 1 1000) 1000
    let s := SimSt.after M 10
    (s.op, s.steps, s.nonzeros natOps M, s.cell) = (.halt, 21, 5, some (1, 0)) := by decide +kernel

/-- **C11.** An infinite verdict of the simulator over a plain, block or back-symbol machine, for
whichever reason, means that the base machine never halts on the blank tape.  Over the nested stack this
holds for chain steps, and for in-place repeats if the block machine never gives up (see C05). -/
theorem C11_infinite_sound (T : Table) (k off maxBlock maxBack : Nat) (hoff : off < k) (n : Nat) :
    ((SimSt.after (simple T) n).op = .infRepeat → NeverHalts T init) ∧
    ((SimSt.after (block (simple T) k off maxBlock) n).op = .infRepeat → NeverHalts T init) ∧
    ((SimSt.after (back (simple T) maxBack) n).op = .infRepeat → NeverHalts T init) ∧
    (let s := SimSt.after (back (block (simple T) k off maxBlock) maxBack) n
     s.op = .infRepeat → s.infReason = some .chainStep ∨
      (∀ c cfg, blockValid k c → Represents (blockFlat k 0 c) cfg →
        ((block (simple T) k off maxBlock).trans c.front c.st c.dir).cond ≠ .gaveUp) →
      NeverHalts T init) := by
  have hk : 0 < k := by omega
  have F1 := simple_follows T
  have F2 := block_follows F1 (simple_shift _) hk off maxBlock 0
  have I2 := block_inf F1 (simple_noGiveUp T) (simple_inf T) hk off maxBlock 0
  have key : ∀ {σ S : Type} [DecidableEq σ] [DecidableEq S] {M : Machine σ S} {Den TDen hs},
      Follows T M Den TDen hs → Den (initDC M) init → FollowsInf T M Den →
      (SimSt.after M n).op = .infRepeat → NeverHalts T init := by
    intro σ S _ _ M Den TDen hs F hi FI h
    rcases (after_ok F hi n).1.inf h with h | h
    · exact h.2.1
    · exact (h.2 FI).1
  refine ⟨key F1 (simple_init T) (simple_inf T), key F2 (block_init (simple_init T) hk hoff) I2,
    key (back_follows F1 (simple_shift _) maxBack) (back_init (simple_init T) maxBack)
      (back_inf F1 (simple_noGiveUp T) (simple_inf T) maxBack), ?_⟩
  intro s h hor
  have F := back_follows F2 (block_shift (simple_shift _) hk 0) maxBack
  have hi : backDen (blockDen k 0 Represents) (initDC (back (block (simple T) k off maxBlock) maxBack)) init :=
    back_init (block_init (simple_init T) hk hoff) maxBack
  rcases (after_ok F hi n).1.inf h with h1 | h1
  · exact h1.2.1
  · rcases hor with ho | ho
    · have := h1.1
      rw [show (SimSt.after (back (block (simple T) k off maxBlock) maxBack) n).infReason = _ from ho] at this
      cases this
    · exact (h1.2 (back_inf F2 (fun c cfg h => ho c cfg h.1 h.2) I2 maxBack)).1

-- both kinds of verdict occur
example : let s := SimSt.after (simple (tbl [[.go 1 .R 0]])) 1
    (s.op, s.infReason) = (.infRepeat, some .chainStep) := by decide
example : let s := SimSt.after (block (simple bouncer) 2 0 1000) 1
    (s.op, s.infReason) = (.infRepeat, some .macroStep) := by decide +kernel

/-- **C12.** After any number of loops the recorded time of a state is the last time before `step_num`
at which the base machine was in that state; states without an entry were never visited. -/
theorem C12_last_seen_exact (T : Table) (k off maxBlock maxBack : Nat) (hoff : off < k) (n : Nat) :
    let ok := fun {σ S : Type} (s : SimSt σ S Nat) =>
      ∀ q, (∀ u, Py.dget s.seen q = some u ↔ LastSeen T init s.steps q u) ∧
        (Py.dget s.seen q = none ↔ ∀ u, u < s.steps → ¬ VisitedAt T init q u)
    ok (SimSt.after (simple T) n) ∧ ok (SimSt.after (block (simple T) k off maxBlock) n) ∧
    ok (SimSt.after (back (simple T) maxBack) n) ∧
    ok (SimSt.after (back (block (simple T) k off maxBlock) maxBack) n) := by
  have hk : 0 < k := by omega
  have F1 := simple_follows T
  have F2 := block_follows F1 (simple_shift _) hk off maxBlock 0
  have key : ∀ {σ S : Type} [DecidableEq σ] [DecidableEq S] {M : Machine σ S} {Den TDen hs},
      Follows T M Den TDen hs → Den (initDC M) init →
      ∀ q, (∀ u, Py.dget (SimSt.after M n).seen q = some u ↔ LastSeen T init (SimSt.after M n).steps q u) ∧
        (Py.dget (SimSt.after M n).seen q = none ↔
          ∀ u, u < (SimSt.after M n).steps → ¬ VisitedAt T init q u) := by
    intro σ S _ _ M Den TDen hs F hi q
    have H := (after_ok F hi n).1.seen
    refine ⟨H.2 q, ?_⟩
    constructor
    · intro h u hu hv
      obtain ⟨t, ht⟩ := lastSeen_exists hu hv
      rw [(H.2 q t).2 ht] at h
      cases h
    · intro h
      cases hd : Py.dget (SimSt.after M n).seen q with
      | none => rfl
      | some t =>
        have := (H.2 q t).1 hd
        exact absurd this.2.1 (h t this.1)
  exact ⟨key F1 (simple_init T), key F2 (block_init (simple_init T) hk hoff),
    key (back_follows F1 (simple_shift _) maxBack) (back_init (simple_init T) maxBack),
    key (back_follows F2 (block_shift (simple_shift _) hk 0) maxBack)
      (back_init (block_init (simple_init T) hk hoff) maxBack)⟩


example : (SimSt.after (back (simple exBB3) 1000) 9).seen = [(0, 20), (1, 16), (2, 19)] := by decide +kernel

/-! ## C13: recurring states -/

/-- The full claim for the block machine: the reported recurring states are those visited infinitely
often. -/
def C13_claim : Prop :=
  ∀ (T : Table) (k off maxBlock n : Nat), off < k →
    (SimSt.after (block (simple T) k off maxBlock) n).op = .infRepeat →
    ∀ q, VisitedForever T init q ↔ q ∈ (SimSt.after (block (simple T) k off maxBlock) n).recur

/-- **C13 (partial).** For an infinite chain step the reported states are exactly the ones visited
infinitely often, for every stack; for an in-place repeat over a block or back-symbol machine every state
visited infinitely often is reported.  Missing: the converse for in-place repeats, which is false, see
`C13_claim_false`. -/
theorem C13_recurring_states_partial (T : Table) (k off maxBlock maxBack : Nat) (hoff : off < k) (n : Nat) :
    let chain := fun {σ S : Type} (s : SimSt σ S Nat) => s.op = .infRepeat → s.infReason = some .chainStep →
      ∀ q, VisitedForever T init q ↔ q ∈ s.recur
    let any := fun {σ S : Type} (s : SimSt σ S Nat) => s.op = .infRepeat →
      ∀ q, VisitedForever T init q → q ∈ s.recur
    (chain (SimSt.after (simple T) n) ∧ any (SimSt.after (simple T) n)) ∧
    (chain (SimSt.after (block (simple T) k off maxBlock) n) ∧
      any (SimSt.after (block (simple T) k off maxBlock) n)) ∧
    (chain (SimSt.after (back (simple T) maxBack) n) ∧ any (SimSt.after (back (simple T) maxBack) n)) ∧
    chain (SimSt.after (back (block (simple T) k off maxBlock) maxBack) n) := by
  have hk : 0 < k := by omega
  have F1 := simple_follows T
  have F2 := block_follows F1 (simple_shift _) hk off maxBlock 0
  have I2 := block_inf F1 (simple_noGiveUp T) (simple_inf T) hk off maxBlock 0
  have key : ∀ {σ S : Type} [DecidableEq σ] [DecidableEq S] {M : Machine σ S} {Den TDen hs},
      Follows T M Den TDen hs → Den (initDC M) init →
      ((SimSt.after M n).op = .infRepeat → (SimSt.after M n).infReason = some .chainStep →
        ∀ q, VisitedForever T init q ↔ q ∈ (SimSt.after M n).recur) := by
    intro σ S _ _ M Den TDen hs F hi h hr
    rcases (after_ok F hi n).1.inf h with h | h
    · exact fun q => (h.2.2 q).1
    · rw [hr] at h; cases h.1
  have key2 : ∀ {σ S : Type} [DecidableEq σ] [DecidableEq S] {M : Machine σ S} {Den TDen hs},
      Follows T M Den TDen hs → Den (initDC M) init → FollowsInf T M Den →
      ((SimSt.after M n).op = .infRepeat →
        ∀ q, VisitedForever T init q → q ∈ (SimSt.after M n).recur) := by
    intro σ S _ _ M Den TDen hs F hi FI h
    rcases (after_ok F hi n).1.inf h with h | h
    · exact fun q => (h.2.2 q).1.1
    · intro q hq
      obtain ⟨u, hu, hv⟩ := hq (SimSt.after M n).steps
      exact (h.2 FI).2 q u hu hv
  have F3 := back_follows F1 (simple_shift _) maxBack
  exact ⟨⟨key F1 (simple_init T), key2 F1 (simple_init T) (simple_inf T)⟩,
    ⟨key F2 (block_init (simple_init T) hk hoff), key2 F2 (block_init (simple_init T) hk hoff) I2⟩,
    ⟨key F3 (back_init (simple_init T) maxBack), key2 F3 (back_init (simple_init T) maxBack)
      (back_inf F1 (simple_noGiveUp T) (simple_inf T) maxBack)⟩,
    key (back_follows F2 (block_shift (simple_shift _) hk 0) maxBack)
      (back_init (block_init (simple_init T) hk hoff) maxBack)⟩

/-- State A is left at once and never visited again; B and C bounce between two cells. -/
def c13T : Table := tbl [[.go 0 .R 1], [.go 0 .L 2], [.go 0 .R 1]]

/-- In-place repeats report states that are visited only once. -/
theorem C13_claim_false : ¬ C13_claim := by
  intro h
  have h1 := (h c13T 2 0 1000 1 (by decide) (by decide +kernel) 0).2 (by decide +kernel)
  have hno : ∀ q a, (c13T q a).next ≠ some 0 := by
    intro q a
    match q, a with
    | 0, 0 => decide
    | 1, 0 => decide
    | 2, 0 => decide
    | 0, _ + 1 => simp [c13T, tbl, Instr.next]
    | 1, _ + 1 => simp [c13T, tbl, Instr.next]
    | 2, _ + 1 => simp [c13T, tbl, Instr.next]
    | _ + 3, _ => simp [c13T, tbl, Instr.next]
  obtain ⟨u, hu, hv⟩ := h1 1
  obtain ⟨k, rfl⟩ : ∃ k, u = k + 1 := ⟨u - 1, by omega⟩
  unfold VisitedAt at hv
  rw [run_succ'] at hv
  cases hs : (run c13T k init).state with
  | none =>
    unfold Spec.step at hv
    rw [hs] at hv
    simp only at hv
    rw [hs] at hv
    cases hv
  | some q =>
    rw [step_eq hs] at hv
    exact hno _ _ hv

end Props

import Verif.Props.Pipeline
import Verif.Lemmas.Zip

/-!
# C54 with the limits of the code

A machine with sixteen states and ten symbols that halts after 10 132 steps.  With `--block-size=5` and otherwise the default
options and limits, the pipeline marks it as infinite.
-/

namespace Props
open Spec Model Model.Status Model.Prover Model.Pipeline

/-- States 0 to 4 walk to and fro over the border between two blocks 128 times.  The states from 5 on count inside the left block
for 10 001 steps and then restore it; at this moment the inner machine gives up.  State 4 halts a few steps later. -/
def c54T : Table := fun q a =>
  match q with
  | 0 => if a < 9 then .go (a + 1) .L 1 else .go 0 .L 2
  | 1 => .go a .R 0
  | 2 => if a < 5 then .go (a + 1) .R 0 else .go 6 .R 3
  | 3 => if a < 4 then .go (a + 1) .L 4 else .go a .L 5
  | 4 => if a = 0 then .halt 1 .R else .go a .R 3
  | 5 => if a < 9 then .go (a + 1) .L 6 else .go 6 .L 7
  | 6 => .go a .R 5
  | 7 => if a < 9 then .go (a + 1) .L 8 else .go 0 .L 9
  | 8 => .go a .R 7
  | 9 => if a < 9 then .go (a + 1) .R 7 else .go 0 .L 10
  | 10 => if a < 6 then .go (a + 1) .R 11 else .go 0 .L 13
  | 11 => .go a .L 12
  | 12 => .go a .R 14
  | 13 => if a < 6 then .go (a + 1) .R 15 else .go 0 .R 3
  | 14 => .go a .R 7
  | _ => .go a .R 14

theorem c54T_wf : WFTable c54T 16 10 where
  posS := by decide
  posK := by decide
  closed := by
    intro q a w d q' hq ha h
    unfold c54T at h
    split at h <;> (try split at h) <;> first | cases h; done | (injection h with h1 h2 h3; omega)

set_option maxRecDepth 100000 in
theorem c54T_halts : HaltsAt c54T init 10132 := by
  have h1 : (Spec.run c54T 10132 init).state = none := by
    rw [(Zip.run_is 10132 init_is).1]; decide +kernel
  have h2 : (Spec.run c54T 10131 init).state ≠ none := by
    rw [(Zip.run_is 10131 init_is).1]; decide +kernel
  refine ⟨h1, fun m hm hh => h2 ?_⟩
  rw [show 10131 = m + (10131 - m) by omega, run_add, run_halted hh, hh]

/-! ### It is marked as infinite -/

/-- what the block machine does with the left block -/
def c54Lim : Trans (List Nat) (Option Nat) :=
  limLoop (simple c54T) 10000 10001 { st := some 5, dir := .L, pos := 4, tape := [0, 0, 0, 0, 6], steps := 0, loops := 0
                                      seen := [], old := none, nextSave := 128 }

theorem c54Lim_block : (block (simple c54T) 5 0 10000).trans [0, 0, 0, 0, 6] (.plain (some 5)) .L = c54Lim.mapSt .plain := by
  unfold block simLimited c54Lim
  dsimp only
  norm_num

set_option maxRecDepth 1000000 in
theorem c54_run : (ZLim.run c54T 10001 ⟨5, .L, [0, 0, 0, 0], 6, [], 0, none, 128⟩).map
    (fun z => (z.left.reverse ++ z.head :: z.right, z.q, z.dir, z.loops)) = some ([0, 0, 0, 0, 6], 3, .R, 10001) := by
  decide +kernel

/-- it makes 10 001 steps without leaving the block and gives up -/
theorem c54Lim_eq : c54Lim.cond = .gaveUp ∧ c54Lim.sym = [0, 0, 0, 0, 6] ∧ c54Lim.st = some 3 ∧ c54Lim.dir = .R ∧
    c54Lim.steps = 10001 ∧ c54Lim.cell = none := by
  obtain ⟨z, hz, hz2⟩ := Option.map_eq_some_iff.1 c54_run
  simp only [Prod.mk.injEq] at hz2
  obtain ⟨h1, h2, h3, h4⟩ := hz2
  have := ZLim.run_is (m := 10000) 10000 (s := { st := some 5, dir := .L, pos := 4, tape := [0, 0, 0, 0, 6], steps := 0
                                                 loops := 0, seen := [], old := none, nextSave := 128 })
    ⟨rfl, rfl, rfl, rfl, rfl, rfl, rfl, rfl⟩ rfl hz 10001 (by decide)
  rw [h1, h2, h3, h4] at this
  exact this

/-- the transition -/
def c54Trans : Trans (List Nat) (BSt (Option Nat)) where
  cond := .gaveUp
  sym := [0, 0, 0, 0, 6]
  st := .plain (some 3)
  dir := .R
  steps := 10001
  seen := c54Lim.seen
  cell := none

theorem mapSt_eq (t : Trans (List Nat) (Option Nat)) {c sy st d n ce} (h : t.cond = c ∧ t.sym = sy ∧ t.st = st ∧ t.dir = d ∧
    t.steps = n ∧ t.cell = ce) : t.mapSt .plain = ⟨c, sy, BSt.plain st, d, n, t.seen, ce⟩ := by
  obtain ⟨rfl, rfl, rfl, rfl, rfl, rfl⟩ := h
  rfl

theorem c54Trans_eq : (block (simple c54T) 5 0 10000).trans [0, 0, 0, 0, 6] (.plain (some 5)) .L = c54Trans := by
  rw [c54Lim_block, mapSt_eq c54Lim c54Lim_eq]
  unfold c54Trans
  rfl

/-- the block machine with this transition given -/
def c54Block : Machine (List Nat) (BSt (Option Nat)) :=
  { block (simple c54T) 5 0 10000 with
    trans := fun sym st d => if (sym, st, d) = ([0, 0, 0, 0, 6], .plain (some 5), .L) then c54Trans
      else (block (simple c54T) 5 0 10000).trans sym st d }

theorem c54Block_eq : block (simple c54T) 5 0 10000 = c54Block := by
  have : (block (simple c54T) 5 0 10000).trans = c54Block.trans := by
    funext sym st d
    unfold c54Block
    dsimp only
    split
    · rename_i h
      simp only [Prod.mk.injEq] at h
      obtain ⟨rfl, rfl, rfl⟩ := h
      exact c54Trans_eq
    · rfl
  unfold c54Block at this ⊢
  dsimp only at this
  rw [← this]

/-- the options of the counterexample: only the block size is given -/
def c54Opts : Options := { Options.default with blockSize := 5 }

theorem c54_sim : runSimulator c54T c54Opts env = ⟨notHaltingW INF_MACRO_STEP ++ quasiW none, .returned⟩ := by
  have h : runSimulator c54T c54Opts env =
      if CTL.test2 (back c54Block 1000) 100 100 then ⟨notHaltingW INF_CTL ++ [.qDecided false], .returned⟩
      else simulate (back c54Block 1000) c54Opts 2000 := by
    rw [← c54Block_eq]
    unfold runSimulator
    simp [c54Opts, Options.default, env]
  have h1 : CTL.test2 (back c54Block 1000) 100 100 = false := by decide +kernel
  have h2 : simulate (back c54Block 1000) c54Opts 2000 = ⟨notHaltingW INF_MACRO_STEP ++ quasiW none, .returned⟩ := by
    decide +kernel
  rw [h, h1, h2]
  rfl

theorem c54_re : RevEng.isInfinite c54T 16 10 = some false := by decide +kernel

theorem c54_lr : linRecur c54T c54Opts 2000 = ⟨[], .returned⟩ := by decide +kernel

/-- **C54 is false with the limits of the code**: the machine halts after 10 132 steps; with `--block-size=5` and otherwise the
default options it is marked as infinite. -/
theorem C54_limits_false : HaltsAt c54T init 10132 ∧
    ∃ s', applyWrites .empty (runOptions c54T 16 10 { Options.default with blockSize := 5 } env .empty).writes = some s' ∧
      s'.halt.decided = true ∧ s'.halt.halting = false := by
  refine ⟨c54T_halts, ?_⟩
  have h : runOptions c54T 16 10 c54Opts env .empty = ⟨notHaltingW INF_MACRO_STEP ++ quasiW none, .returned⟩ := by
    unfold runOptions
    rw [if_pos (show c54Opts.reverseEngineer = true from rfl), if_pos (show c54Opts.linSteps ≠ 0 by decide), c54_re,
      show env.fuel = 2000 from rfl, c54_lr, c54_sim]
    rfl
  rw [show { Options.default with blockSize := 5 } = c54Opts from rfl, h]
  exact ⟨_, rfl, rfl, rfl⟩

end Props

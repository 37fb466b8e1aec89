import Mathlib.Data.Set.Card
import Mathlib.Logic.Function.Basic

/-!
# Specification: the mathematical Turing machine

A deterministic machine with states and symbols numbered from 0 on a two-way infinite tape of cells
indexed by the integers.  Nothing here refers to the code.  State `0` is the start state and symbol
`0` the blank, as in the usual Busy Beaver setting.
-/

namespace Spec

inductive Dir
  | L | R
  deriving DecidableEq, Repr, Inhabited

def Dir.other : Dir → Dir
  | .L => .R
  | .R => .L

/-- Displacement of the head. -/
def Dir.delta : Dir → Int
  | .L => -1
  | .R => 1

/-- One cell of a transition table.  Executing an undefined cell halts the machine, and by the usual
convention acts as "write 1, move right, halt". -/
inductive Instr
  | undef
  | halt (w : Nat) (d : Dir)
  | go (w : Nat) (d : Dir) (q : Nat)
  deriving DecidableEq, Repr, Inhabited

def Instr.write : Instr → Nat
  | .undef => 1
  | .halt w _ => w
  | .go w _ _ => w

def Instr.dir : Instr → Dir
  | .undef => .R
  | .halt _ d => d
  | .go _ d _ => d

/-- The next state; `none` = halted. -/
def Instr.next : Instr → Option Nat
  | .undef => none
  | .halt _ _ => none
  | .go _ _ q => some q

/-- Transition table: state, symbol read ↦ what to do. -/
abbrev Table := Nat → Nat → Instr

@[ext]
structure Config where
  /-- `none` once the machine has halted -/
  state : Option Nat
  pos : Int
  tape : Int → Nat

/-- One step.  A halted configuration stays as it is. -/
def step (M : Table) (c : Config) : Config :=
  match c.state with
  | none => c
  | some q =>
    let i := M q (c.tape c.pos)
    { state := i.next
      pos := c.pos + i.dir.delta
      tape := Function.update c.tape c.pos i.write }

/-- `n` steps. -/
def run (M : Table) : Nat → Config → Config
  | 0, c => c
  | n + 1, c => run M n (step M c)

/-- Blank tape, head at 0, state 0. -/
def init : Config := { state := some 0, pos := 0, tape := fun _ => 0 }

/-- The machine started in `c` never halts. -/
def NeverHalts (M : Table) (c : Config) : Prop := ∀ n, (run M n c).state ≠ none

/-- The machine started in `c` halts, and the halting transition is its `n`-th step. -/
def HaltsAt (M : Table) (c : Config) (n : Nat) : Prop :=
  (run M n c).state = none ∧ ∀ m, m < n → (run M m c).state ≠ none

/-- The number of non-blank cells. -/
noncomputable def score (c : Config) : Nat := Set.ncard {p : Int | c.tape p ≠ 0}

/-- State `q` is visited at time `t`. -/
def VisitedAt (M : Table) (c : Config) (q t : Nat) : Prop := (run M t c).state = some q

/-- State `q` is visited at arbitrarily late times. -/
def VisitedForever (M : Table) (c : Config) (q : Nat) : Prop :=
  ∀ t, ∃ t', t ≤ t' ∧ VisitedAt M c q t'

/-- `t` is the latest time before `n` at which `q` is visited. -/
def LastSeen (M : Table) (c : Config) (n q t : Nat) : Prop :=
  t < n ∧ VisitedAt M c q t ∧ ∀ t', t < t' → t' < n → ¬ VisitedAt M c q t'

/-- A machine with `nS` states and `nK` symbols: the running transitions of the existing cells stay
inside the table. -/
structure WFTable (M : Table) (nS nK : Nat) : Prop where
  posS : 0 < nS
  posK : 0 < nK
  closed : ∀ q a w d q', q < nS → a < nK → M q a = .go w d q' → w < nK ∧ q' < nS

end Spec

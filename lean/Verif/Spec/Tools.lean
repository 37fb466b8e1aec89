import Verif.Spec.Rename
import Verif.Spec.Enum
import Mathlib.Data.Finset.Prod
import Mathlib.Data.Set.Card

/-!
# Specification of the counting and neighbourhood tools
-/

namespace Spec

/-! ## Zero-reflexive machines -/

/-- Some state, reading the blank, stays the same state. -/
def ZeroReflexive (T : Table) (n : Nat) : Prop := ∃ q < n, (T q 0).next = some q

/-- `T'` is `T` with (some or all) undefined cells filled. -/
def Fills (T T' : Table) : Prop := ∀ q a, T q a ≠ .undef → T' q a = T q a

/-! ## Adjacent machines -/

/-- `T'` differs from `T` in exactly one cell, where a running transition is replaced by another one of a machine with `n`
states and `k` symbols. -/
def Adjacent (T T' : Table) (n k : Nat) : Prop :=
  ∃ q < n, ∃ a < k, (T q a).next ≠ none ∧ (∃ w < k, ∃ d, ∃ p < n, T' q a = .go w d p) ∧ T' q a ≠ T q a ∧
    ∀ q' a', (q', a') ≠ (q, a) → T' q' a' = T q' a'

/-- the number of cells with a running transition -/
def runningCells (T : Table) (n k : Nat) : Nat :=
  ((Finset.range n ×ˢ Finset.range k).filter fun x => (T x.1 x.2).next ≠ none).card

/-! ## Counting machines -/

/-- a transition that halts (an undefined one is not counted as such) -/
def Instr.halts : Instr → Bool
  | .undef => false
  | .halt _ _ => true
  | .go _ _ _ => false

/-- the number of halting cells -/
def haltCells (T : Table) (n k : Nat) : Nat :=
  ((Finset.range n ×ˢ Finset.range k).filter fun x => (T x.1 x.2).halts = true).card

/-- A complete machine with `n` states and `k` symbols of the kind that is counted: every cell is a running transition or
`1RZ`.  (Cells outside the table are empty, so that a machine is one table.) -/
structure CompleteTable (T : Table) (n k : Nat) : Prop where
  cells : ∀ q < n, ∀ a < k, T q a = .halt 1 .R ∨ ∃ w < k, ∃ d, ∃ p < n, T q a = .go w d p
  outside : ∀ q a, ¬ (q < n ∧ a < k) → T q a = .undef

/-- The partial table `P` stands for `T`: after renaming states and symbols, other than states A, B and symbols 0, 1, all
transitions of `P` are transitions of `T`. -/
def StandsFor (P T : Table) (n k : Nat) : Prop :=
  ∃ ρ : Renaming n k, ρ.mirror = false ∧ ρ.st 0 = 0 ∧ ρ.st 1 = 1 ∧ ρ.sy 0 = 0 ∧ ρ.sy 1 = 1 ∧
    ∀ q < n, ∀ a < k, P q a ≠ .undef → T (ρ.st q) (ρ.sy a) = ρ.instr (P q a)

/-- the machines that `P` represents, with exactly one halting cell or, if `allow`, at most one -/
def represented (P : Table) (n k : Nat) (allow : Bool) : Set Table :=
  {T | CompleteTable T n k ∧ (haltCells T n k = 1 ∨ allow = true ∧ haltCells T n k = 0) ∧ StandsFor P T n k}

/-- A partial table as the enumeration in tree normal form makes them: it starts with `1RB`, every transition is used when
it is run, no state or symbol number is left out, and there is at most one halting transition, `1RZ`. -/
structure TreeMachine (P : Table) (n k : Nat) : Prop where
  start : P 0 0 = .go 1 .R 1
  used : ∀ q < n, ∀ a < k, P q a ≠ .undef → ∃ t, AtCell (run P t init) q a
  states : ∀ q < n, ∀ a < k, ∀ w d p, P q a = .go w d p → ∀ p' < p, p' = 0 ∨
    ∃ q' < n, ∃ a' < k, ∃ w' d', P q' a' = .go w' d' p'
  symbols : ∀ q < n, ∀ a < k, ∀ w d p, P q a = .go w d p → ∀ w' < w, w' = 0 ∨
    ∃ q' < n, ∃ a' < k, ∃ d' p', P q' a' = .go w' d' p'
  halts : ∀ q < n, ∀ a < k, ∀ w d, P q a = .halt w d → w = 1 ∧ d = .R
  oneHalt : haltCells P n k ≤ 1

end Spec

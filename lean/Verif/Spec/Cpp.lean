import Verif.Model.Cpp
import Verif.Spec.Format
import Verif.Spec.Enum

/-!
# Specification for the C++ programs: the machine that a table means, and the lazy beaver numbers
-/

namespace Spec

/-- Some machine with `n` states and `m` symbols, started on the blank tape, runs for exactly `k` steps before halting
(the halting step counts). -/
def RunsExactly (n m k : Nat) : Prop := ∃ M : Table, Fits M n m ∧ HaltsAt M init k

/-- `k` is the lazy beaver number: the least number of steps, from 1 on, that no machine with `n` states and `m` symbols
runs for. -/
def LazyBeaver (n m k : Nat) : Prop := 1 ≤ k ∧ ¬ RunsExactly n m k ∧ ∀ j, 1 ≤ j → j < k → RunsExactly n m j

end Spec

namespace Model.Cpp
open Spec

/-- the transition meant -/
def Trans.instr (t : Trans) : Instr :=
  if t.undecided then .undef
  else if t.state < 0 then .halt t.symbol (if t.move = 1 then .R else .L)
  else .go t.symbol (if t.move = 1 then .R else .L) t.state.toNat

/-- the machine meant; there is nothing outside of the table -/
def TM.table (tm : TM) : Table := fun q a =>
  match tm.transitions[q]? with
  | none => .undef
  | some r => match r[a]? with
    | none => .undef
    | some t => t.instr

/-- a transition of a machine with `n` states and `m` symbols -/
structure Trans.Fits (n m : Nat) (t : Trans) : Prop where
  undec : t.undecided = true → t = emptyTrans
  sym : t.symbol < m
  dir : t.move = 1 ∨ t.move = -1
  low : -1 ≤ t.state
  high : t.state < n

/-- a complete table of sensible transitions -/
structure TM.Shaped (tm : TM) (n m : Nat) : Prop where
  states : tm.numStates = n
  symbols : tm.numSymbols = m
  height : tm.transitions.length = n
  width : ∀ r ∈ tm.transitions, r.length = m
  cells : ∀ r ∈ tm.transitions, ∀ t ∈ r, t.Fits n m

end Model.Cpp

import Verif.Spec.Format
import Verif.Spec.Rename

/-!
# Specification of enumeration in tree normal form
-/

namespace Spec

/-- cell (`q`, `a`) of a table with `n` states and `k` symbols is there and is defined -/
def DefinedCell (T : Table) (n k q a : Nat) : Prop := q < n ∧ a < k ∧ T q a ≠ .undef

/-- The transition "write `w`, go in direction `d` to state `q'`" is allowed next: the symbol and the state are used
already or are the first unused ones (state 0 and symbol 0 count as used), and the very first transition goes to the
right. -/
structure AllowedNext (T : Table) (n k w : Nat) (d : Dir) (q' : Nat) : Prop where
  sym : w < k
  st : q' < n
  symUsed : w ≤ 1 ∨ ∃ q a, DefinedCell T n k q a ∧ w ≤ (T q a).write + 1
  stUsed : q' ≤ 1 ∨ ∃ q a s, DefinedCell T n k q a ∧ (T q a).next = some s ∧ q' ≤ s + 1
  dir : d = .R ∨ ∃ q a, DefinedCell T n k q a

/-- at least two cells are undefined -/
def TwoUndefined (T : Table) (n k : Nat) : Prop :=
  ∃ q a q' a', q < n ∧ a < k ∧ q' < n ∧ a' < k ∧ (q, a) ≠ (q', a') ∧ T q a = .undef ∧ T q' a' = .undef

/-- the table with cell (`q`, `a`) set to `i` -/
def Table.fill (T : Table) (q a : Nat) (i : Instr) : Table := fun q' a' => if q' = q ∧ a' = a then i else T q' a'

/-- Started on the blank tape, the machine reaches the undefined cell (`q`, `a`) after `t` steps. -/
def StuckAt (T : Table) (t q a : Nat) : Prop := AtCell (run T t init) q a ∧ T q a = .undef

end Spec

namespace Model.IO

/-- A machine object of the right shape whose defined transitions are sensible.  (Unlike in `SM.WF` the unused fields
of undefined transitions are arbitrary.) -/
structure SM.Sane (m : SM) : Prop where
  states : 0 < m.nStates
  syms : 0 < m.nSyms
  height : m.rows.length = m.nStates
  width : ∀ r ∈ m.rows, r.length = m.nSyms
  cells : ∀ r ∈ m.rows, ∀ t ∈ r, t.cond ≠ .undefined → t.WF m.nStates m.nSyms ∧ (t.dir = 0 ∨ t.dir = 1)

/-- the machine object with one transition replaced -/
def SM.fill (m : SM) (q a : Nat) (i : Spec.Instr) : SM := { m with rows := m.rows.modify q (·.set a (BTrans.ofInstr i)) }

end Model.IO

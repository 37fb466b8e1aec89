import Verif.Model.Table

/-!
# Specification of machine objects and file formats
-/

namespace Model.IO
open Spec (Dir Instr Table)

/-- A sensible transition of a machine with `n` states and `k` symbols (any direction). -/
def BTrans.WF (n k : Nat) (t : BTrans) : Prop :=
  match t.cond with
  | .undefined => t = undefTrans
  | .halt => 0 ≤ t.sym ∧ t.sym < k ∧ t.st = -1
  | .running => 0 ≤ t.sym ∧ t.sym < k ∧ 0 ≤ t.st ∧ t.st < n

/-- A sensible machine: a full table of sensible transitions. -/
structure SM.WF (m : SM) : Prop where
  states : 0 < m.nStates
  syms : 0 < m.nSyms
  height : m.rows.length = m.nStates
  width : ∀ r ∈ m.rows, r.length = m.nSyms
  cells : ∀ r ∈ m.rows, ∀ t ∈ r, t.WF m.nStates m.nSyms

/-- All moves are to the left or to the right. -/
def SM.Moves (m : SM) : Prop := ∀ r ∈ m.rows, ∀ t ∈ r, t.dir = 0 ∨ t.dir = 1

/-- Two machine objects are the same machine: same size, same transition table. -/
def SM.Same (m m' : SM) : Prop := m.nStates = m'.nStates ∧ m.nSyms = m'.nSyms ∧ m.table = m'.table

/-- the transition object of an instruction -/
def BTrans.ofInstr : Instr → BTrans
  | .undef => undefTrans
  | .halt w d => { cond := .halt, sym := w, dir := if d = .L then 0 else 1, st := -1 }
  | .go w d q => { cond := .running, sym := w, dir := if d = .L then 0 else 1, st := q }

/-- the machine object of a transition table -/
def SM.ofTable (T : Table) (n k : Nat) : SM :=
  { rows := (List.range n).map fun q => (List.range k).map fun a => BTrans.ofInstr (T q a), nStates := n, nSyms := k }

end Model.IO

namespace Spec

/-- `T` is the table of a machine with `n` states and `k` symbols. -/
def Fits (T : Table) (n k : Nat) : Prop :=
  ∀ q < n, ∀ a < k, match T q a with
    | .undef => True
    | .halt w _ => w < k
    | .go w _ q' => w < k ∧ q' < n

instance (T : Table) (n k : Nat) : Decidable (Fits T n k) :=
  @Nat.decidableBallLT n (fun q _ => ∀ a < k, _) fun q _ =>
    @Nat.decidableBallLT k (fun a _ => _) fun a _ => by
      cases T q a <;> simp only <;> infer_instance

/-! ## Standard text format (bbchallenge): rows separated by `_`, cells like `1RB`, `1RZ`, `---` -/

def dirChar : Dir → Char
  | .L => 'L'
  | .R => 'R'

def cellText : Instr → List Char
  | .undef => ['-', '-', '-']
  | .halt w d => [Char.ofNat (48 + w), dirChar d, 'Z']
  | .go w d q => [Char.ofNat (48 + w), dirChar d, Char.ofNat (65 + q)]

/-- the row of state `q` -/
def rowText (T : Table) (k q : Nat) : List Char := ((List.range k).map fun a => cellText (T q a)).flatten

/-- the text of a machine with `n` states and `k` symbols -/
def tableText (T : Table) (n k : Nat) : List Char := List.intercalate ['_'] ((List.range n).map (rowText T k))

/-! ## Packed format (`io.proto`): one byte per transition, from the least significant bit: 3 bits symbol+1
(0: undefined), 3 bits state+1 (0: halt), 1 bit direction, 1 bit "first of a row" -/

def dirBit : Dir → Nat
  | .L => 0
  | .R => 1

def cellByte : Instr → Nat
  | .undef => 0
  | .halt w d => (w + 1) + 64 * dirBit d
  | .go w d q => (w + 1) + 8 * (q + 1) + 64 * dirBit d

def tableBytes (T : Table) (n k : Nat) : List Nat :=
  ((List.range n).map fun q => (List.range k).map fun a =>
    cellByte (T q a) + if a = 0 then 128 else 0).flatten

/-! ## List message: three numbers per transition (symbol or -1 for undefined, direction, state or -1 for halt) -/

def listCell : Instr → List Int
  | .undef => [-1, 1, -1]
  | .halt w d => [w, dirBit d, -1]
  | .go w d q => [w, dirBit d, q]

def tableList (T : Table) (n k : Nat) : List Int :=
  ((List.range n).map fun q => ((List.range k).map fun a => listCell (T q a)).flatten).flatten

/-! ## bbchallenge database: three bytes per transition (symbol, 0 = right / 1 = left, state+1 or 0 for halt),
5 states and 2 symbols; undefined transitions are 0, 0, 0; a header of 30 bytes -/

def bbcCell : Instr → List Nat
  | .undef => [0, 0, 0]
  | .halt w d => [w, 1 - dirBit d, 0]
  | .go w d q => [w, 1 - dirBit d, q + 1]

def bbcBytes (T : Table) : List Nat :=
  ((List.range 5).map fun q => ((List.range 2).map fun a => bbcCell (T q a)).flatten).flatten

end Spec

namespace Spec

/-- the old text format: cells separated by one space, rows by two -/
def oldText (T : Table) (n k : Nat) : List Char :=
  List.intercalate [' ', ' '] ((List.range n).map fun q =>
    List.intercalate [' '] ((List.range k).map fun a => cellText (T q a)))

end Spec

import Verif.Spec.Format
import Verif.Spec.Enum

/-!
# Specification for text files of machines that are shared by the Python, C++ and Rust programs
-/

namespace Spec

/-- a machine with its numbers of states and symbols -/
structure Sized where
  table : Table
  states : Nat
  syms : Nat

/-- small enough for the text format: states have letters, symbols have digits -/
structure Sized.Writable (M : Sized) : Prop where
  fits : Fits M.table M.states M.syms
  low : 0 < M.states
  high : M.states < 25
  lowSyms : 1 < M.syms
  highSyms : M.syms < 10

/-- its text -/
def Sized.text (M : Sized) : List Char := tableText M.table M.states M.syms

/-- the table `T` is that of the machine -/
def Sized.Is (M : Sized) (T : Table) : Prop := ∀ q < M.states, ∀ a < M.syms, T q a = M.table q a

/-- a Python machine object is the machine -/
def Sized.Object (M : Sized) (m : Model.IO.SM) : Prop := m.nStates = M.states ∧ m.nSyms = M.syms ∧ M.Is m.table

/-- a machine that a Python record can hold: its packed format (C25) has no code for writing the symbol 7 -/
def Sized.Packable (M : Sized) : Prop :=
  M.states ≤ 7 → M.syms ≤ 8 → ∀ q < M.states, ∀ a < M.syms, (M.table q a).write < 7

/-- what may follow the text in its line: nothing, or a remark after a space -/
def Remark (r : List Char) : Prop := '\n' ∉ r ∧ (r = [] ∨ ∃ x, r = ' ' :: x)

/-- the lines of a file: machines and remarks -/
abbrev Lines := List (Sized × List Char)

/-- the file -/
def Lines.file (ls : Lines) : List Char := (ls.map fun l => l.1.text ++ l.2 ++ ['\n']).flatten

/-- what is known about a machine after at most `N` steps from the blank tape, as a remark -/
inductive Known (M : Sized) (N : Nat) : String → Prop
  | halt (k : Nat) : k ≤ N → HaltsAt M.table init k → Known M N s!" Halt {k}"
  | unknown : (run M.table N init).state ≠ none → Known M N s!" Unknown {N}"

end Spec

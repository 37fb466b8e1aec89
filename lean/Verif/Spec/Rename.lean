import Verif.Spec.TM

/-!
# Specification: renaming the states and symbols of a machine, and mirroring the tape
-/

namespace Spec

/-- A renaming of `n` states and `k` symbols: old number to new number, one-to-one; and whether left and right are
exchanged. -/
structure Renaming (n k : Nat) where
  st : Nat → Nat
  sy : Nat → Nat
  mirror : Bool
  st_lt : ∀ q < n, st q < n
  st_inj : ∀ q < n, ∀ q' < n, st q = st q' → q = q'
  sy_lt : ∀ a < k, sy a < k
  sy_inj : ∀ a < k, ∀ a' < k, sy a = sy a' → a = a'

namespace Renaming
variable {n k : Nat} (ρ : Renaming n k)

def dir (d : Dir) : Dir := if ρ.mirror then d.other else d

def pos (p : Int) : Int := if ρ.mirror then -p else p

/-- the renamed transition -/
def instr : Instr → Instr
  | .undef => .undef
  | .halt w d => .halt (ρ.sy w) (ρ.dir d)
  | .go w d q => .go (ρ.sy w) (ρ.dir d) (ρ.st q)

/-- the renamed configuration -/
def config (c : Config) : Config :=
  { state := c.state.map ρ.st, pos := ρ.pos c.pos, tape := fun p => ρ.sy (c.tape (ρ.pos p)) }

end Renaming

/-- The standard form of a halting transition: write 1, move right. -/
def Instr.std : Instr → Instr
  | .halt _ _ => .halt 1 .R
  | i => i

/-- `T'` is the renamed table `T`, with halting transitions in standard form. -/
def Renamed {n k : Nat} (ρ : Renaming n k) (T T' : Table) : Prop :=
  ∀ q < n, ∀ a < k, T' (ρ.st q) (ρ.sy a) = (ρ.instr (T q a)).std

/-- `P` is a restriction of the renamed table `T`: some cells are left undefined. -/
def RestrictsTo {n k : Nat} (ρ : Renaming n k) (T P : Table) : Prop :=
  ∀ q < n, ∀ a < k, P (ρ.st q) (ρ.sy a) = .undef ∨ P (ρ.st q) (ρ.sy a) = ρ.instr (T q a)

/-- In configuration `c` the machine has reached cell (state `q`, symbol `a`). -/
def AtCell (c : Config) (q a : Nat) : Prop := c.state = some q ∧ c.tape c.pos = a

/-- A configuration of a machine with `n` states and `k` symbols -/
def InRange (n k : Nat) (c : Config) : Prop := (∀ q, c.state = some q → q < n) ∧ ∀ p, c.tape p < k

/-- Tree normal form: states are numbered in the order of their first visit, symbols in the order in which they are first
read, and the first move is to the right. -/
structure TreeNormal (T : Table) : Prop where
  states : ∀ t q a, AtCell (run T t init) q a → ∀ q' < q, ∃ t' ≤ t, ∃ a', AtCell (run T t' init) q' a'
  symbols : ∀ t q a, AtCell (run T t init) q a → ∀ a' < a, ∃ t' ≤ t, ∃ q', AtCell (run T t' init) q' a'
  right : (T 0 0).dir = .R

end Spec

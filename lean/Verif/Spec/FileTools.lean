import Verif.Model.FileTools
import Mathlib.Data.Finset.Dedup

/-!
# Specification of the file tools
-/

namespace Spec
open Model.Status Model.FileTools

section
variable {E : Type} (loads : List Nat → Option E) (value : E → Int)

/-- the number stored in a field is `v` -/
def Stored (f : BigInt) (v : Int) : Prop :=
  getBigInt loads f = some (some (.int v)) ∨ ∃ e, getBigInt loads f = some (some (.exp e)) ∧ value e = v

/-- what the name of a category says about a status -/
def Belongs (s : BBStatus) : Category → Prop
  | .unknown => s.halt.decided = false
  | .haltSmall => s.halt.decided = true ∧ s.halt.halting = true ∧ ∃ v, Stored loads value s.halt.steps v ∧ v < 1000
  | .haltLarge => s.halt.decided = true ∧ s.halt.halting = true ∧ ∃ v, Stored loads value s.halt.steps v ∧ 1000 ≤ v
  | .haltUnk => s.halt.decided = true ∧ s.halt.halting = true ∧ s.halt.steps = .unset
  | .qhaltSmall => s.halt.decided = true ∧ s.halt.halting = false ∧ s.quasi.quasihalting = true ∧
      ∃ v, Stored loads value s.quasi.steps v ∧ v < 1000
  | .qhaltLarge => s.halt.decided = true ∧ s.halt.halting = false ∧ s.quasi.quasihalting = true ∧
      ∃ v, Stored loads value s.quasi.steps v ∧ 1000 ≤ v
  | .qhaltUnk => s.halt.decided = true ∧ s.halt.halting = false ∧ s.quasi.quasihalting = true ∧ s.quasi.steps = .unset
  | .infinite => s.halt.decided = true ∧ s.halt.halting = false ∧ s.quasi.quasihalting = false

/-- the field is empty or holds a number -/
def Readable (f : BigInt) : Prop := f = .unset ∨ ∃ v, Stored loads value f v

/-- the score of a status is `v`; without a score it counts as 0 -/
def ScoreIs (s : BBStatus) (v : Int) : Prop := Stored loads value s.halt.score v ∨ s.halt.score = .unset ∧ v = 0

end

section
variable {α : Type}

/-- an undamaged file with the records `l` -/
def undamaged (l : List α) : List (Item α) := l.map .ok

/-- the records in a file, damaged or not -/
def okRecs (f : List (Item α)) : List α := f.filterMap fun
  | .ok a => some a
  | _ => none

/-- a file that is read up to the record before a cut: the records `l`, then the end of the file or a cut -/
def ReadsUpTo (f : List (Item α)) (l : List α) : Prop :=
  f = undamaged l ∨ ∃ i rest, f = undamaged l ++ i :: rest ∧ (i = .cutData ∨ i = .cutLen)

/-- A source of randomness that keeps the contracts: `random() < 0` is never true, `randrange` stays in range, and
`shuffle` permutes. -/
structure Contract {S : Type} (less : Nat → Nat → S → Bool × S) (range : Nat → S → Nat × S)
    (shuffle : {α : Type} → List α → S → List α × S) : Prop where
  never : ∀ b s, (less 0 b s).1 = false
  inRange : ∀ n s, 0 < n → (range n s).1 < n
  perm : ∀ {α : Type} (l : List α) s, (shuffle l s).1.Perm l

/-- the probability that the random result satisfies `p` -/
noncomputable def prob {X : Type} (x : Ex X) (p : X → Prop) : ℚ := open Classical in x fun r => if p r then 1 else 0

end

end Spec

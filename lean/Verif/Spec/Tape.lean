import Mathlib.Logic.Function.Basic
import Verif.Spec.TM

/-!
# Specification: a two-way infinite tape with a head

`Tape` is a head position, the contents of every cell, and the leftmost and rightmost cell touched so
far.
-/

namespace Spec

structure Tape (α : Type) where
  pos : Int
  cells : Int → α
  lo : Int
  hi : Int

namespace Tape
variable {α : Type}

/-- A fresh tape full of blanks. -/
def blank (s : α) : Tape α := { pos := 0, cells := fun _ => s, lo := 0, hi := 0 }

/-- What a user can do to a tape. -/
inductive Op (α : Type)
  | write (s : α)
  | move (d : Dir)
  | writePos (s : α) (p : Int)

def apply (t : Tape α) : Op α → Tape α
  | .write s => { t with cells := Function.update t.cells t.pos s }
  | .move d =>
    { t with pos := t.pos + d.delta
             lo := min t.lo (t.pos + d.delta)
             hi := max t.hi (t.pos + d.delta) }
  | .writePos s p =>
    { t with cells := Function.update t.cells p s, lo := min t.lo p, hi := max t.hi p }

def applyAll (t : Tape α) (ops : List (Op α)) : Tape α := ops.foldl apply t

end Tape
end Spec

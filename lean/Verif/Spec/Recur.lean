import Verif.Spec.TM

/-! # Specification: linear recurrence -/

namespace Spec

/-- The symbol under the head. -/
def Config.scanned (c : Config) : Nat := c.tape c.pos

/-- From time `s` on the machine runs forever and its history (state, symbol read) has period `p`. -/
def PeriodicFrom (M : Table) (c : Config) (s p : Nat) : Prop :=
  ∀ t, s ≤ t → (run M t c).state ≠ none ∧ (run M (t + p) c).state = (run M t c).state ∧
    (run M (t + p) c).scanned = (run M t c).scanned

end Spec

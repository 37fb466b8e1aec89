import Verif.Model.ChainTape
import Verif.Spec.Macro

/-! # Specification: the meaning of a run-length encoded half tape -/

namespace Spec
open Model (Blk)

/-- The symbols of a half tape, nearest first. -/
def unroll {σ : Type} (blank : σ) : List (Blk σ Nat) → Nat → σ
  | [] => fun _ => blank
  | ⟨a, none⟩ :: _ => fun _ => a
  | ⟨a, some n⟩ :: rest => pre (List.replicate n a) (unroll blank rest)

/-- A well formed half tape: finite positive runs, then one infinite run of blanks, and neighbouring runs
have different symbols. -/
def WFHalf {σ : Type} (blank : σ) : List (Blk σ Nat) → Prop
  | [] => False
  | [⟨a, none⟩] => a = blank
  | ⟨_, none⟩ :: _ :: _ => False
  | [⟨_, some _⟩] => False
  | ⟨a, some n⟩ :: b :: rest => 0 < n ∧ a ≠ b.sym ∧ WFHalf blank (b :: rest)

end Spec

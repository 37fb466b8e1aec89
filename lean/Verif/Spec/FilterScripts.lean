import Verif.Model.FilterScripts
import Verif.Spec.FileTools

/-!
# Specification of the filter scripts
-/

namespace Spec
open Model.Status Model.FileTools Model.FilterScripts

section
variable {α β : Type}

/-- the categories of decided machines -/
def decidedCategories : List Category := [.haltSmall, .haltLarge, .haltUnk, .qhaltSmall, .qhaltLarge, .qhaltUnk, .infinite]

/-- the records of decided machines in the directory of a filter -/
def decidedIn (root : Root α β) (sub : String) : List α :=
  match root.dirs sub with
  | some ⟨_, _, some cats⟩ => decidedCategories.flatMap cats
  | _ => []

/-- the records in `unknown.pb` -/
def holdouts (root : Root α β) : List α := (root.unknown.map okRecs).getD []

/-- A command keeps a measure: when it succeeds with an undamaged output, the sum over the output is the sum over the input. -/
def Keeps {M : Type} [AddCommMonoid M] (w : α → M) (cmd : Command α) : Prop :=
  ∀ f l, cmd f = (some (undamaged l), true) → (l.map w).sum = ((okRecs f).map w).sum

/-- `n` is the sum of the counts of the records -/
def CountSum (count : α → Option Int) (l : List α) (n : Int) : Prop :=
  ∃ ns, List.Forall₂ (fun a k => count a = some k) l ns ∧ ns.sum = n

end

end Spec

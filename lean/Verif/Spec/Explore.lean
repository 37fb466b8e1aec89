import Mathlib.Data.Multiset.AddSub

/-!
# Specification: exploring a tree
-/

namespace Spec

/-- Starting with the jobs `pending`, taking one job after the other, each time adding its children, in any order: the
jobs taken are `done`, those left at the end are `left`. -/
inductive Explores {J : Type} (children : J → Multiset J) : (pending done left : Multiset J) → Prop
  | stop (s : Multiset J) : Explores children s 0 s
  | take {x : J} {s d l : Multiset J} (h : Explores children (children x + s) d l) : Explores children (x ::ₘ s) (x ::ₘ d) l

end Spec

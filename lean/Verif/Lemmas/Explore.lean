import Verif.Spec.Explore
import Mathlib.Data.Multiset.Bind
import Mathlib.Tactic.Abel

/-!
# Exploration is confluent
-/

namespace Spec
variable {J : Type} {children : J → Multiset J}

theorem Explores.trans {s d l d' l' : Multiset J} (h : Explores children s d l) (h' : Explores children l d' l') :
    Explores children s (d + d') l' := by
  induction h with
  | stop s => simpa using h'
  | take _ ih => rw [Multiset.cons_add]; exact .take (ih h')

/-- a complete exploration can start with any job -/
theorem Explores.invert {t d : Multiset J} (h : Explores children t d 0) (x : J) (s : Multiset J) (ht : t = x ::ₘ s) :
    ∃ d', d = x ::ₘ d' ∧ Explores children (children x + s) d' 0 := by
  classical
  generalize hl : (0 : Multiset J) = l at h
  induction h generalizing s with
  | stop t => subst hl; exact absurd ht.symm (Multiset.cons_ne_zero)
  | @take y u d l h ih =>
    subst hl
    by_cases hxy : y = x
    · subst hxy
      have : u = s := (Multiset.cons_inj_right _).1 ht
      subst this
      exact ⟨d, rfl, h⟩
    · obtain ⟨-, v, hu, hs⟩ := (Multiset.cons_eq_cons.1 ht).resolve_left (fun h => hxy h.1)
      subst hu; subst hs
      obtain ⟨d', rfl, h'⟩ := ih (children y + v) (by rw [Multiset.add_cons]) rfl
      refine ⟨y ::ₘ d', Multiset.cons_swap _ _ _, ?_⟩
      rw [Multiset.add_cons]
      refine .take ?_
      rwa [← add_assoc, add_comm (children y), add_assoc]

/-- the jobs explored do not depend on the order -/
theorem Explores.unique {s d d' : Multiset J} (h : Explores children s d 0) (h' : Explores children s d' 0) : d = d' := by
  generalize hl : (0 : Multiset J) = l at h
  induction h generalizing d' with
  | stop s =>
    subst hl
    generalize hz : (0 : Multiset J) = z at h'
    cases h' with
    | stop => exact hz.symm
    | @take x => exact absurd hz (Multiset.zero_ne_cons)
  | @take x s d l h ih =>
    subst hl
    obtain ⟨d'', rfl, h''⟩ := h'.invert x s rfl
    rw [ih h'' rfl]

theorem Explores.balance {s d l : Multiset J} (h : Explores children s d l) : d + l = s + d.bind children := by
  induction h with
  | stop s => simp
  | take h ih => rw [Multiset.cons_add, ih, Multiset.cons_bind, Multiset.cons_add]; congr 1; abel

end Spec

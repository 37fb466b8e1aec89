import Verif.Lemmas.CPS
import Verif.Props.CTL

/-!
# C20: closed position sets

`CGS.run (simple T) k w lim ordC ordB` is `ClosedGraphSim(tm, block_size, window_size, limits).run()`; its
result is the final graph and the success flag, or `none` if Python would raise.  Python iterates over sets,
whose order is not specified: `ordC` and `ordB` are any functions that list the elements of a set in some
order, and the theorems hold for all of them.
-/

namespace Props
open Spec Model Model.CPS

/-- a way to iterate over sets (given as lists): all elements, nothing else, in any order -/
def Iterates {α : Type} (ord : List α → List α) : Prop := ∀ l x, x ∈ ord l ↔ x ∈ l

/-- **C20.** With any block size, any window of at least two blocks, any limits and any iteration order,
the filter does not raise, and if it reports success the machine never halts on the blank tape. -/
theorem C20_cps_sound (T : Table) (k w : Nat) (hk : 0 < k) (hw : 2 * k ≤ w) (lim : Lim)
    (ordC : List (Cfg Nat (Option Nat)) → List (Cfg Nat (Option Nat))) (hC : Iterates ordC)
    (ordB : List (List Nat) → List (List Nat)) (hB : Iterates ordB) :
    ∃ g success, CGS.run (simple T) k w lim ordC ordB = some (g, success) ∧
      (success = true → NeverHalts T init) :=
  run_spec T hk hw lim hC hB

/-- **C20.** The driver that tries many block and window sizes: the same. -/
theorem C20_cps_filter_sound (T : Table) (minBlock maxBlock maxWindow : Nat) (hmin : 0 < minBlock) (lim : Lim)
    (ordC : List (Cfg Nat (Option Nat)) → List (Cfg Nat (Option Nat))) (hC : Iterates ordC)
    (ordB : List (List Nat) → List (List Nat)) (hB : Iterates ordB) :
    ∃ success, filterAll (simple T) lim ordC ordB (filterSizes minBlock maxBlock maxWindow) = some success ∧
      (success = true → NeverHalts T init) := by
  have hsz : ∀ p ∈ filterSizes minBlock maxBlock maxWindow, 0 < p.1 ∧ 2 * p.1 ≤ p.2 := by
    intro p hp
    unfold filterSizes at hp
    split at hp
    · obtain ⟨k, hk, rfl⟩ := List.mem_map.1 hp
      have := List.mem_range'_1.1 hk
      exact ⟨by simp only; omega, by simp only; omega⟩
    · obtain ⟨w, hw, hp⟩ := List.mem_flatMap.1 hp
      obtain ⟨k, hk, rfl⟩ := List.mem_map.1 hp
      have := List.mem_range'_1.1 hk
      exact ⟨by simp only; omega, by simp only; omega⟩
  generalize filterSizes minBlock maxBlock maxWindow = l at hsz
  induction l with
  | nil => exact ⟨false, rfl, fun h => by cases h⟩
  | cons p l ih =>
    obtain ⟨k, w⟩ := p
    obtain ⟨h1, h2⟩ := hsz (k, w) (by simp)
    obtain ⟨g, b, hr, hb⟩ := run_spec T h1 h2 lim hC hB
    unfold filterAll
    rw [hr]
    cases b with
    | true => exact ⟨true, rfl, hb⟩
    | false => exact ih (fun p hp => hsz p (List.mem_cons_of_mem _ hp))

/-- a machine that writes 01 blocks for ever: `1RB---_0RA---` -/
def stripes : Table := tbl [[.go 1 .R 1], [.go 0 .R 0]]

/-- limits for the examples -/
def exLim : Lim := { steps := 1000, iters := 50, configs := 100, edges := 100 }

-- success and failure, with two iteration orders
example : (CGS.run (simple stripes) 2 6 exLim id id).map (·.2) = some true := by decide +kernel
example : (CGS.run (simple bouncer2) 1 3 exLim id List.reverse).map (·.2) = some true := by decide +kernel
example : (CGS.run (simple bouncer2) 2 4 exLim List.reverse id).map (·.2) = some true := by decide +kernel
example : (CGS.run (simple exBB2) 2 6 exLim id id).map (·.2) = some false := by decide +kernel
example : filterAll (simple bouncer2) exLim id id (filterSizes 1 3 0) = some true := by decide +kernel
example : filterAll (simple exBB2) exLim id id (filterSizes 1 2 5) = some false := by decide +kernel
example : Iterates (α := List Nat) List.reverse := fun _ _ => List.mem_reverse

end Props

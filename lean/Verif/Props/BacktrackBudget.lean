import Verif.Lemmas.BacktrackBudget
import Verif.Props.Backtrack

/-! # C84: the depth and width reported by the backtracking filter -/

namespace Props
open Spec Model

/-- **C84.** If backtracking succeeds, the depth and the width reported are within the limits, and
they are exactly the limits needed: with other limits backtracking succeeds if and only if these are
at least the numbers reported, and then the answer is the same in all its fields. -/
theorem C84_reported_limits (M : Table) (nS nK steps width : Nat) (r : Backtrack.Result)
    (h : Backtrack.ttable M nS nK steps width = some (some r)) (hs : r.success = true) :
    r.maxSteps ≤ steps ∧ r.maxWidth ≤ max 1 width ∧
    ∀ steps' width', 0 < width' →
      ((∃ r', Backtrack.ttable M nS nK steps' width' = some (some r') ∧ r'.success = true) ↔
        r.maxSteps ≤ steps' ∧ r.maxWidth ≤ width') ∧
      (r.maxSteps ≤ steps' → r.maxWidth ≤ width' →
        Backtrack.ttable M nS nK steps' width' = some (some r)) := by
  have key : ∀ (s W : Nat) (r : Backtrack.Result),
      Backtrack.ttable M nS nK s W = some (some r) → r.success = true →
      (r.maxSteps ≤ s ∧ r.maxWidth ≤ max 1 W) ∧ ∀ s' W', r.maxSteps ≤ s' → r.maxWidth ≤ W' →
        Backtrack.ttable M nS nK s' W' = some (some r) := by
    intro s W r h hs
    obtain ⟨_, h2, h3⟩ := Backtrack.go_again hs _ h
    exact ⟨h2 (fun _ h => by cases h), h3⟩
  obtain ⟨⟨h1, h2⟩, h3⟩ := key _ _ _ h hs
  refine ⟨h1, h2, fun steps' width' hw => ⟨⟨?_, ?_⟩, h3 steps' width'⟩⟩
  · rintro ⟨r', e, hs'⟩
    obtain ⟨⟨g1, g2⟩, g3⟩ := key _ _ _ e hs'
    have e1 := h3 (max r.maxSteps r'.maxSteps) (max r.maxWidth r'.maxWidth) (by omega) (by omega)
    have e2 := g3 (max r.maxSteps r'.maxSteps) (max r.maxWidth r'.maxWidth) (by omega) (by omega)
    rw [e1] at e2
    simp only [Option.some.injEq] at e2
    subst e2
    omega
  · rintro ⟨a, b⟩
    exact ⟨r, h3 _ _ a b, hs⟩

/-- **C84.** A conclusive answer – success, or that the machine halts – is the same for all larger
limits. -/
theorem C84_conclusive_stays (M : Table) (nS nK steps width steps' width' : Nat)
    (r : Backtrack.Result) (h : Backtrack.ttable M nS nK steps width = some (some r))
    (hc : r.success = true ∨ r.halted = true) (h1 : steps ≤ steps') (h2 : width ≤ width') :
    Backtrack.ttable M nS nK steps' width' = some (some r) :=
  Backtrack.go_mono hc h1 h2 _ h

/-- **C84.** An inconclusive answer has one of three reasons: a state with a halting or undefined
transition has a transition to itself, all steps were used, or the width exceeded its limit. -/
theorem C84_inconclusive_reason (M : Table) (nS nK steps width : Nat)
    (r : Backtrack.Result) (h : Backtrack.ttable M nS nK steps width = some (some r))
    (hs : r.success = false) (hh : r.halted = false) :
    (∃ q < nS, ∃ a < nK, ∃ b < nK, (M q a).next = none ∧ (M q b).next = some q) ∨
      r.maxSteps = steps ∨ width < r.maxWidth := by
  rcases Backtrack.go_open hs hh _ (fun _ h => by cases h) h with ⟨x, hx, hl⟩ | h
  · left
    unfold halts at hx
    rw [List.mem_filter, mem_cells] at hx
    unfold Backtrack.hasSelfLoop at hl
    simp only [List.any_eq_true, List.mem_range, beq_iff_eq] at hl
    obtain ⟨b, hb, e⟩ := hl
    exact ⟨x.1, hx.1.1, x.2, hx.1.2, b, hb, by simpa [haltCell] using hx.2, e⟩
  · exact Or.inr h

/-- **C84.** The number of nodes reported with a success is at least the depth, and at most depth
times width for every halting or undefined transition. -/
theorem C84_nodes_reported (M : Table) (nS nK steps width : Nat) (r : Backtrack.Result)
    (h : Backtrack.ttable M nS nK steps width = some (some r)) (hs : r.success = true) :
    r.maxSteps ≤ r.numNodes ∧
      r.numNodes ≤ ((cells nS nK).filter fun c => (M c.1 c.2).next.isNone).length *
        (r.maxSteps * r.maxWidth) := by
  have := Backtrack.go_nodes hs _ h (fun _ h => by cases h)
  simp only [Option.map_none, Option.getD_none, Nat.zero_add] at this
  exact this

/-- A machine that is proved infinite at depth 6 with three partial configurations at a time. -/
def backDeep : Table := fun q a => match q, a with
  | 0, 0 => .go 0 .L 1
  | 0, 1 => .go 1 .R 2
  | 1, 0 => .go 0 .R 0
  | 1, 1 => .go 1 .R 2
  | 2, 0 => .go 1 .L 1
  | 2, 1 => .halt 1 .R
  | _, _ => .undef

/-- Success with depth 6 and width 3; neither depth 5 nor width 2 is enough. -/
example : (Backtrack.ttable backDeep 3 2 20 10).map
      (Option.map fun r => (r.success, r.maxSteps, r.maxWidth, r.numNodes))
      = some (some (true, 6, 3, 11)) ∧
    (Backtrack.ttable backDeep 3 2 5 10).map
      (Option.map fun r => (r.success, r.halted, r.maxSteps)) = some (some (false, false, 5)) ∧
    (Backtrack.ttable backDeep 3 2 20 2).map
      (Option.map fun r => (r.success, r.halted, r.maxWidth)) = some (some (false, false, 3)) := by
  decide

/-- The machine of C16 is found to halt, with the same answer for larger limits. -/
example : (Backtrack.ttable backHalts 3 2 3 1).map (Option.map (fun r => (r.halted, r.maxSteps)))
    = some (some (true, 3)) := by decide

end Props

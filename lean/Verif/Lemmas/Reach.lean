import Verif.Lemmas.TM
import Verif.Model.Filters

/-! Invariants of all reachable running configurations. -/

namespace Spec

/-- One cell of a well-formed table, as a Boolean. -/
def Instr.closedB (nS nK : Nat) : Instr → Bool
  | .go w _ q' => decide (w < nK) && decide (q' < nS)
  | _ => true

instance (M : Table) (nS nK : Nat) : Decidable (WFTable M nS nK) :=
  decidable_of_iff (0 < nS ∧ 0 < nK ∧ ∀ q < nS, ∀ a < nK, (M q a).closedB nS nK = true) <| by
    constructor
    · rintro ⟨h1, h2, h3⟩
      refine ⟨h1, h2, fun q a w d q' hq ha e => ?_⟩
      have := h3 q hq a ha
      rw [e] at this
      simpa [Instr.closedB] using this
    · rintro ⟨h1, h2, h3⟩
      refine ⟨h1, h2, fun q hq a ha => ?_⟩
      cases e : M q a with
      | go w d q' => simpa [Instr.closedB] using h3 q a w d q' hq ha e
      | _ => rfl

theorem next_some_iff {i : Instr} {q : Nat} : i.next = some q ↔ ∃ w d, i = .go w d q := by
  cases i with
  | undef => simp [Instr.next]
  | halt w d => simp [Instr.next]
  | go w d q' =>
    simp only [Instr.next, Option.some.injEq, Instr.go.injEq]
    constructor
    · rintro rfl; exact ⟨w, d, rfl, rfl, rfl⟩
    · rintro ⟨_, _, _, _, h⟩; exact h

/-- In-range running configuration in which every non-blank cell off the head was written by an
existing running transition that moved towards the side where the head is now. -/
structure Inv (M : Table) (nS nK : Nat) (c : Config) : Prop where
  st : ∀ q, c.state = some q → q < nS
  sym : ∀ x, c.tape x < nK
  side : ∀ x, x ≠ c.pos → c.tape x = 0 ∨
    ∃ q a d q', q < nS ∧ a < nK ∧ M q a = .go (c.tape x) d q' ∧
      ((d = .R ∧ x < c.pos) ∨ (d = .L ∧ c.pos < x))

theorem inv_init {M : Table} {nS nK : Nat} (h : WFTable M nS nK) : Inv M nS nK init := by
  refine ⟨?_, fun _ => h.posK, fun _ _ => Or.inl rfl⟩
  intro q hq
  simp only [init, Option.some.injEq] at hq
  subst hq
  exact h.posS

theorem inv_step {M : Table} {nS nK : Nat} (h : WFTable M nS nK) {c : Config} (hc : Inv M nS nK c)
    (hr : (step M c).state ≠ none) : Inv M nS nK (step M c) := by
  cases hq : c.state with
  | none => rw [step_halted hq]; exact hc
  | some q =>
    obtain ⟨q', hq'⟩ := Option.ne_none_iff_exists'.1 hr
    have hnext := hq'
    rw [step_state hq, next_some_iff] at hnext
    obtain ⟨w, d, e⟩ := hnext
    have hqS := hc.st q hq
    have haK := hc.sym c.pos
    obtain ⟨hw, hq'S⟩ := h.closed q _ w d q' hqS haK e
    have hpos := step_pos (M := M) hq
    have htape := step_tape (M := M) hq
    rw [e] at hpos htape
    simp only [Instr.dir, Instr.write] at hpos htape
    refine ⟨?_, ?_, ?_⟩
    · intro q'' h''; rw [hq'] at h''; cases h''; exact hq'S
    · intro x
      rw [htape]
      by_cases hx : x = c.pos
      · subst hx; rw [Function.update_self]; exact hw
      · rw [Function.update_of_ne hx]; exact hc.sym x
    · intro x hx
      rw [htape, hpos]
      rw [hpos] at hx
      by_cases hxp : x = c.pos
      · subst hxp
        rw [Function.update_self]
        right
        refine ⟨q, _, d, q', hqS, haK, e, ?_⟩
        cases d with
        | L => right; simp [Dir.delta]
        | R => left; simp [Dir.delta]
      · rw [Function.update_of_ne hxp]
        rcases hc.side x hxp with h0 | ⟨q1, a1, d1, q1', hq1, ha1, e1, hd⟩
        · exact Or.inl h0
        · right
          refine ⟨q1, a1, d1, q1', hq1, ha1, e1, ?_⟩
          rcases hd with ⟨rfl, hd⟩ | ⟨rfl, hd⟩
          · refine Or.inl ⟨rfl, ?_⟩
            cases d <;> simp only [Dir.delta] at hx ⊢ <;> omega
          · refine Or.inr ⟨rfl, ?_⟩
            cases d <;> simp only [Dir.delta] at hx ⊢ <;> omega

theorem inv_run {M : Table} {nS nK : Nat} (h : WFTable M nS nK) (n : Nat)
    (hr : (run M n init).state ≠ none) : Inv M nS nK (run M n init) := by
  induction n with
  | zero => exact inv_init h
  | succ n ih =>
    have hn : (run M n init).state ≠ none := run_some_mono (Nat.le_succ n) hr
    rw [run_succ'] at hr ⊢
    exact inv_step h (ih hn) hr

/-- A machine that halts has a last running configuration, which sits on a halting cell. -/
theorem exists_halting_cell {M : Table} (h : ¬ NeverHalts M init) :
    ∃ n q, (run M n init).state = some q ∧
      (M q ((run M n init).tape (run M n init).pos)).next = none := by
  classical
  unfold NeverHalts at h
  simp only [ne_eq, not_forall, not_not] at h
  have hspec := Nat.find_spec h
  have hmin : ∀ m, m < Nat.find h → (run M m init).state ≠ none :=
    fun m hm => Nat.find_min h hm
  generalize Nat.find h = k at *
  cases k with
  | zero => simp [init] at hspec
  | succ n =>
    obtain ⟨q, hq⟩ := Option.ne_none_iff_exists'.1 (hmin n (Nat.lt_succ_self n))
    refine ⟨n, q, hq, ?_⟩
    rw [run_succ', step_state hq] at hspec
    exact hspec

end Spec

namespace Model
theorem mem_cells {nS nK : Nat} {c : Nat × Nat} : c ∈ cells nS nK ↔ c.1 < nS ∧ c.2 < nK := by
  unfold cells
  simp only [List.mem_flatMap, List.mem_range, List.mem_map]
  constructor
  · rintro ⟨q, hq, a, ha, rfl⟩; exact ⟨hq, ha⟩
  · rintro ⟨h1, h2⟩; exact ⟨c.1, h1, c.2, h2, rfl⟩
end Model

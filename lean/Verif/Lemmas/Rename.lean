import Verif.Spec.Rename
import Verif.Spec.Format
import Verif.Lemmas.TM

/-!
# Lemmas about renamings
-/

set_option linter.unusedSectionVars false

namespace Spec
namespace Renaming
variable {n k : Nat} (ρ : Renaming n k)

theorem dir_delta (d : Dir) : (ρ.dir d).delta = ρ.pos d.delta := by
  unfold dir pos
  cases ρ.mirror <;> cases d <;> rfl

theorem pos_add (p p' : Int) : ρ.pos (p + p') = ρ.pos p + ρ.pos p' := by
  unfold pos
  split <;> omega

theorem pos_pos (p : Int) : ρ.pos (ρ.pos p) = p := by
  unfold pos
  split <;> simp

theorem pos_eq_iff (p p' : Int) : ρ.pos p = p' ↔ p = ρ.pos p' :=
  ⟨fun h => by rw [← h, pos_pos], fun h => by rw [h, pos_pos]⟩

theorem config_cell (c : Config) : (ρ.config c).tape (ρ.config c).pos = ρ.sy (c.tape c.pos) := by
  show ρ.sy (c.tape (ρ.pos (ρ.pos c.pos))) = _
  rw [pos_pos]

end Renaming

variable {n k : Nat}

theorem step_renamed (ρ : Renaming n k) {T T' : Table} {c : Config} {q a w q' : Nat} {d : Dir} (hc : AtCell c q a)
    (h : T q a = .go w d q') (h' : T' (ρ.st q) (ρ.sy a) = ρ.instr (T q a)) :
    step T' (ρ.config c) = ρ.config (step T c) := by
  obtain ⟨h1, h2⟩ := hc
  have hs : (ρ.config c).state = some (ρ.st q) := by show c.state.map ρ.st = _; rw [h1]; rfl
  rw [step_eq h1, step_eq hs, ρ.config_cell, h2, h', h]
  unfold Renaming.config
  simp only [Renaming.instr, Instr.next, Instr.dir, Instr.write, Option.map_some, Config.mk.injEq, true_and]
  refine ⟨by rw [ρ.pos_add, ρ.dir_delta], ?_⟩
  funext p
  by_cases hp : p = ρ.pos c.pos
  · subst hp
    rw [Function.update_self, ρ.pos_pos, Function.update_self]
  · rw [Function.update_of_ne hp, Function.update_of_ne]
    intro h
    exact hp ((ρ.pos_eq_iff _ _).1 h)

theorem inRange_step {T : Table} (hf : Fits T n k) {c : Config} (hc : InRange n k c) (hn : (step T c).state ≠ none) :
    InRange n k (step T c) := by
  cases hq : c.state with
  | none => rw [step_halted hq]; exact hc
  | some q =>
    have h1 := hf q (hc.1 q hq) _ (hc.2 c.pos)
    rw [step_eq hq] at hn ⊢
    cases hi : T q (c.tape c.pos) with
    | undef => rw [hi] at hn; exact absurd rfl hn
    | halt w d => rw [hi] at hn; exact absurd rfl hn
    | go w d q' =>
      rw [hi] at h1
      simp only at h1
      refine ⟨fun q'' h => ?_, fun p => ?_⟩
      · simp only [Instr.next, Option.some.injEq] at h
        omega
      · simp only [Instr.write]
        by_cases hp : p = c.pos
        · subst hp; rw [Function.update_self]; exact h1.1
        · rw [Function.update_of_ne hp]; exact hc.2 p

theorem inRange_run {T : Table} (hf : Fits T n k) {c : Config} (hc : InRange n k c) (t : Nat) (hn : (run T t c).state ≠ none) :
    InRange n k (run T t c) := by
  induction t with
  | zero => exact hc
  | succ t ih =>
    rw [run_succ'] at hn ⊢
    have h1 : (run T t c).state ≠ none := fun h => hn (by rw [step_halted h]; exact h)
    exact inRange_step hf (ih h1) hn

theorem inRange_init (hn : 0 < n) (hk : 0 < k) : InRange n k init := by
  refine ⟨fun q h => ?_, fun _ => hk⟩
  simp only [init, Option.some.injEq] at h
  omega

theorem std_next (i : Instr) : i.std.next = i.next := by cases i <;> rfl

theorem instr_next (ρ : Renaming n k) (i : Instr) : (ρ.instr i).next = i.next.map ρ.st := by cases i <;> rfl

theorem step_state_renamed (ρ : Renaming n k) {T T' : Table} (hr : Renamed ρ T T') {c : Config} (hc : InRange n k c) :
    (step T' (ρ.config c)).state = (step T c).state.map ρ.st := by
  cases hq : c.state with
  | none =>
    have : (ρ.config c).state = none := by show c.state.map _ = _; rw [hq]; rfl
    rw [step_halted hq, step_halted this, hq]
    exact this
  | some q =>
    have hs : (ρ.config c).state = some (ρ.st q) := by show c.state.map ρ.st = _; rw [hq]; rfl
    rw [step_eq hq, step_eq hs, ρ.config_cell, hr q (hc.1 q hq) _ (hc.2 _)]
    simp only [std_next, instr_next]

/-- The renamed machine runs in step. -/
theorem run_renamed (ρ : Renaming n k) {T T' : Table} (hf : Fits T n k) (hr : Renamed ρ T T') {c : Config} (hc : InRange n k c)
    (t : Nat) (hn : (run T t c).state ≠ none) : run T' t (ρ.config c) = ρ.config (run T t c) := by
  induction t with
  | zero => rfl
  | succ t ih =>
    rw [run_succ'] at hn
    have h1 : (run T t c).state ≠ none := fun h => hn (by rw [step_halted h]; exact h)
    have hi := inRange_run hf hc t h1
    rw [run_succ', run_succ', ih h1]
    cases hq : (run T t c).state with
    | none => exact absurd hq h1
    | some q =>
      have hq' := hi.1 q hq
      have ha := hi.2 (run T t c).pos
      have hcell := hr q hq' _ ha
      rw [step_state hq] at hn
      cases hi' : T q ((run T t c).tape (run T t c).pos) with
      | undef => rw [hi'] at hn; exact absurd rfl hn
      | halt w d => rw [hi'] at hn; exact absurd rfl hn
      | go w d q' =>
        refine step_renamed ρ ⟨hq, rfl⟩ hi' ?_
        rw [hcell, hi']
        rfl

theorem run_state_renamed (ρ : Renaming n k) {T T' : Table} (hf : Fits T n k) (hr : Renamed ρ T T') {c : Config} (hc : InRange n k c)
    (t : Nat) : (run T' t (ρ.config c)).state = (run T t c).state.map ρ.st := by
  induction t with
  | zero => rfl
  | succ t ih =>
    rw [run_succ', run_succ']
    by_cases h1 : (run T t c).state = none
    · rw [step_halted h1, h1]
      rw [h1] at ih
      rw [step_halted ih, ih]
    · rw [run_renamed ρ hf hr hc t h1]
      exact step_state_renamed ρ hr (inRange_run hf hc t h1)

theorem halts_renamed (ρ : Renaming n k) {T T' : Table} (hf : Fits T n k) (hr : Renamed ρ T T') {c : Config} (hc : InRange n k c) :
    (∀ t, HaltsAt T' (ρ.config c) t ↔ HaltsAt T c t) ∧ (NeverHalts T' (ρ.config c) ↔ NeverHalts T c) := by
  constructor
  · intro t
    unfold HaltsAt
    simp only [run_state_renamed ρ hf hr hc, Option.map_eq_none_iff, ne_eq]
  · unfold NeverHalts
    simp only [run_state_renamed ρ hf hr hc, Option.map_eq_none_iff, ne_eq]

theorem config_init (ρ : Renaming n k) (h0 : ρ.st 0 = 0) (h1 : ρ.sy 0 = 0) : ρ.config init = init := by
  unfold Renaming.config init
  simp only [Option.map_some, h0, h1, Config.mk.injEq, true_and]
  refine ⟨?_, trivial⟩
  unfold Renaming.pos
  split <;> rfl

/-! ## Scores -/

theorem score_of_bij {c c' : Config} (f : Int → Int) (hf : ∀ p, f (f p) = p) (h : ∀ p, c'.tape p = 0 ↔ c.tape (f p) = 0) :
    score c' = score c := by
  unfold score
  have : {p : Int | c'.tape p ≠ 0} = f '' {p : Int | c.tape p ≠ 0} := by
    ext p
    simp only [Set.mem_setOf_eq, Set.mem_image]
    constructor
    · intro hp
      exact ⟨f p, fun h' => hp ((h p).2 h'), hf p⟩
    · rintro ⟨x, hx, rfl⟩ h'
      have := (h (f x)).1 h'
      rw [hf] at this
      exact hx this
  rw [this]
  exact Set.ncard_image_of_injective _ (fun a b hab => by rw [← hf a, hab, hf])

/-- The final tape: same score if the halting transition does not write the blank. -/
theorem score_renamed (ρ : Renaming n k) {T T' : Table} (hf : Fits T n k) (hr : Renamed ρ T T') {c : Config} (hc : InRange n k c)
    (h0 : 0 < k) (h00 : ρ.sy 0 = 0) {t : Nat} (hh : HaltsAt T c (t + 1)) {q a : Nat} (hq : AtCell (run T t c) q a) (hw : (T q a).write ≠ 0) :
    score (run T' (t + 1) (ρ.config c)) = score (run T (t + 1) c) := by
  have h1 := hh.2 t (by omega)
  have hi := inRange_run hf hc t h1
  have hs := hh.1
  rw [run_succ', step_state hq.1, hq.2] at hs
  have hqn := hi.1 q hq.1
  have hak : a < k := by rw [← hq.2]; exact hi.2 _
  have hcell := hr q hqn a hak
  refine score_of_bij ρ.pos ρ.pos_pos fun p => ?_
  rw [run_succ', run_succ', run_renamed ρ hf hr hc t h1]
  have hsc : (ρ.config (run T t c)).state = some (ρ.st q) := by
    show (run T t c).state.map ρ.st = _; rw [hq.1]; rfl
  rw [step_tape hq.1, step_tape hsc, ρ.config_cell, hq.2, hcell]
  have hw' : ((ρ.instr (T q a)).std).write ≠ 0 := by
    cases hi' : T q a with
    | undef => simp [Renaming.instr, Instr.std, Instr.write]
    | halt w d => simp [Renaming.instr, Instr.std, Instr.write]
    | go w d q' => rw [hi'] at hs; cases hs
  by_cases hp : p = ρ.pos (run T t c).pos
  · subst hp
    have : (ρ.config (run T t c)).pos = ρ.pos (run T t c).pos := rfl
    rw [this, Function.update_self, ρ.pos_pos, Function.update_self]
    exact ⟨fun h => absurd h hw', fun h => absurd h hw⟩
  · have hp' : ρ.pos p ≠ (run T t c).pos := fun h => hp ((ρ.pos_eq_iff _ _).1 h)
    rw [Function.update_of_ne hp', Function.update_of_ne (by exact hp)]
    show ρ.sy ((run T t c).tape (ρ.pos p)) = 0 ↔ _
    constructor
    · intro h
      refine ρ.sy_inj _ (hi.2 _) 0 h0 ?_
      rw [h, h00]
    · intro h; rw [h, h00]

end Spec

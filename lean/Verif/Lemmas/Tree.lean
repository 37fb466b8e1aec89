import Verif.Lemmas.Enum
import Verif.Spec.EnumTree
import Mathlib.Logic.Equiv.Basic
import Mathlib.Data.Finset.Card
import Mathlib.Data.Finset.Prod

/-!
# Lemmas about the enumeration tree
-/

set_option linter.unusedSectionVars false

namespace Spec

/-- state `s` is used: it is 0 or not above the target of some defined transition -/
def UsedSt (T : Table) (n k s : Nat) : Prop := s = 0 ∨ ∃ q a s', DefinedCell T n k q a ∧ (T q a).next = some s' ∧ s ≤ s'

def UsedSy (T : Table) (n k w : Nat) : Prop := w = 0 ∨ ∃ q a, DefinedCell T n k q a ∧ w ≤ (T q a).write

variable {n k : Nat}

/-- a run only sees used states and symbols -/
theorem run_used {T : Table} (hf : Fits T n k) (hn : 0 < n) (hk : 0 < k) (t : Nat) (h : (run T t init).state ≠ none) :
    (∀ q, (run T t init).state = some q → UsedSt T n k q) ∧ ∀ p, UsedSy T n k ((run T t init).tape p) := by
  induction t with
  | zero =>
    refine ⟨fun q hq => ?_, fun _ => Or.inl rfl⟩
    simp only [run, init, Option.some.injEq] at hq
    exact Or.inl hq.symm
  | succ t ih =>
    rw [run_succ'] at h ⊢
    have h1 : (run T t init).state ≠ none := fun h' => h (by rw [step_halted h']; exact h')
    obtain ⟨i1, i2⟩ := ih h1
    have hr := inRange_run hf (inRange_init hn hk) t h1
    cases hq : (run T t init).state with
    | none => exact absurd hq h1
    | some q =>
      rw [step_eq hq] at h ⊢
      have hd : DefinedCell T n k q ((run T t init).tape (run T t init).pos) := by
        refine ⟨hr.1 q hq, hr.2 _, fun hu => ?_⟩
        rw [hu] at h
        exact h rfl
      refine ⟨fun q' hq' => Or.inr ⟨_, _, q', hd, hq', le_refl _⟩, fun p => ?_⟩
      simp only
      by_cases hp : p = (run T t init).pos
      · subst hp; rw [Function.update_self]; exact Or.inr ⟨_, _, hd, le_refl _⟩
      · rw [Function.update_of_ne hp]; exact i2 p

/-- a restriction runs in step until it is stuck -/
theorem run_restricts (ρ : Renaming n k) {M P : Table} (hf : Fits M n k) (hn : 0 < n) (hk : 0 < k) (h0 : ρ.st 0 = 0) (h00 : ρ.sy 0 = 0)
    (hr : RestrictsTo ρ M P) (t : Nat) (h : (run P t init).state ≠ none) :
    run P t init = ρ.config (run M t init) ∧ (run M t init).state ≠ none := by
  induction t with
  | zero => exact ⟨(config_init ρ h0 h00).symm, by simp [run, init]⟩
  | succ t ih =>
    rw [run_succ'] at h
    have h1 : (run P t init).state ≠ none := fun h' => h (by rw [step_halted h']; exact h')
    obtain ⟨i1, i2⟩ := ih h1
    have hi := inRange_run hf (inRange_init hn hk) t i2
    rw [run_succ', run_succ', i1]
    rw [i1] at h
    cases hq : (run M t init).state with
    | none => exact absurd hq i2
    | some q =>
      have hs : (ρ.config (run M t init)).state = some (ρ.st q) := by
        show (run M t init).state.map ρ.st = _; rw [hq]; rfl
      have hcell := hr q (hi.1 q hq) _ (hi.2 (run M t init).pos)
      rw [step_state hs, ρ.config_cell] at h
      rcases hcell with hcell | hcell
      · rw [hcell] at h; exact absurd rfl h
      · rw [hcell] at h
        cases hi' : M q ((run M t init).tape (run M t init).pos) with
        | undef => rw [hi'] at h; exact absurd rfl h
        | halt w d => rw [hi'] at h; exact absurd rfl h
        | go w d q' =>
          refine ⟨step_renamed ρ ⟨hq, rfl⟩ hi' hcell, ?_⟩
          rw [step_state hq, hi']
          simp [Instr.next]

/-- keep all names, possibly mirror -/
def Renaming.flip (n k : Nat) (mirror : Bool) : Renaming n k where
  st := id
  sy := id
  mirror := mirror
  st_lt _ h := h
  st_inj _ _ _ _ h := h
  sy_lt _ h := h
  sy_inj _ _ _ _ h := h

/-- exchange two states and two symbols after a renaming -/
def Renaming.swap (ρ : Renaming n k) (x y u v : Nat) (hx : x < n) (hy : y < n) (hu : u < k) (hv : v < k) : Renaming n k where
  st q := Equiv.swap x y (ρ.st q)
  sy a := Equiv.swap u v (ρ.sy a)
  mirror := ρ.mirror
  st_lt q hq := by
    rw [Equiv.swap_apply_def]
    split_ifs
    · exact hy
    · exact hx
    · exact ρ.st_lt q hq
  st_inj q hq q' hq' h := ρ.st_inj q hq q' hq' ((Equiv.swap x y).injective h)
  sy_lt a ha := by
    rw [Equiv.swap_apply_def]
    split_ifs
    · exact hv
    · exact hu
    · exact ρ.sy_lt a ha
  sy_inj a ha a' ha' h := ρ.sy_inj a ha a' ha' ((Equiv.swap u v).injective h)

/-- the invariant of the enumeration: `P` restricts the renamed `M`, has no halting cell, and only used cells -/
structure TreeInv (M : Table) (n k : Nat) (ρ : Renaming n k) (P : Table) : Prop where
  st0 : ρ.st 0 = 0
  sy0 : ρ.sy 0 = 0
  restr : RestrictsTo ρ M P
  noHalt : ∀ q < n, ∀ a < k, ∀ w d, P q a ≠ .halt w d
  used : ∀ q a, DefinedCell P n k q a → UsedSt P n k q ∧ UsedSy P n k a
  first : (∃ q a, DefinedCell P n k q a) ∨ ρ.dir (M 0 0).dir = .R

theorem used_lt_st {T : Table} (hf : Fits T n k) (hn : 0 < n) {s : Nat} (h : UsedSt T n k s) : s < n := by
  rcases h with rfl | ⟨q, a, s', ⟨hq, ha, -⟩, h2, h3⟩
  · exact hn
  · have := hf q hq a ha
    cases hi : T q a with
    | undef => rw [hi] at h2; cases h2
    | halt w d => rw [hi] at h2; cases h2
    | go w d q' =>
      rw [hi] at h2 this
      simp only [Instr.next, Option.some.injEq] at h2 this
      omega

/-- swapping unused states and symbols keeps the invariant -/
theorem TreeInv.swap {M P : Table} {ρ : Renaming n k} (h : TreeInv M n k ρ P) (x y u v : Nat) (hx : x < n) (hy : y < n)
    (hu : u < k) (hv : v < k) (hxy : x = y ∨ ¬ UsedSt P n k x ∧ ¬ UsedSt P n k y) (huv : u = v ∨ ¬ UsedSy P n k u ∧ ¬ UsedSy P n k v) :
    TreeInv M n k (ρ.swap x y u v hx hy hu hv) P := by
  have fixS : ∀ s, UsedSt P n k s → Equiv.swap x y s = s := by
    intro s hs
    rcases hxy with rfl | ⟨h1, h2⟩
    · simp
    · exact Equiv.swap_apply_of_ne_of_ne (fun e => h1 (e ▸ hs)) (fun e => h2 (e ▸ hs))
  have fixY : ∀ s, UsedSy P n k s → Equiv.swap u v s = s := by
    intro s hs
    rcases huv with rfl | ⟨h1, h2⟩
    · simp
    · exact Equiv.swap_apply_of_ne_of_ne (fun e => h1 (e ▸ hs)) (fun e => h2 (e ▸ hs))
  refine ⟨?_, ?_, ?_, h.noHalt, h.used, h.first⟩
  · show Equiv.swap x y (ρ.st 0) = 0
    rw [h.st0]; exact fixS 0 (Or.inl rfl)
  · show Equiv.swap u v (ρ.sy 0) = 0
    rw [h.sy0]; exact fixY 0 (Or.inl rfl)
  · intro q hq a ha
    by_cases hp : P ((ρ.swap x y u v hx hy hu hv).st q) ((ρ.swap x y u v hx hy hu hv).sy a) = .undef
    · exact Or.inl hp
    · right
      have hd : DefinedCell P n k ((ρ.swap x y u v hx hy hu hv).st q) ((ρ.swap x y u v hx hy hu hv).sy a) :=
        ⟨Renaming.st_lt _ q hq, Renaming.sy_lt _ a ha, hp⟩
      obtain ⟨u1, u2⟩ := h.used _ _ hd
      have e1 : (ρ.swap x y u v hx hy hu hv).st q = ρ.st q := by
        have := fixS _ u1
        exact (Equiv.swap x y).injective this
      have e2 : (ρ.swap x y u v hx hy hu hv).sy a = ρ.sy a := by
        have := fixY _ u2
        exact (Equiv.swap u v).injective this
      rw [e1, e2] at hd ⊢
      rcases h.restr q hq a ha with h1 | h1
      · exact absurd h1 hd.2.2
      · rw [h1]
        rw [← h1]
        cases hi : M q a with
        | undef => rw [hi] at h1; exact absurd h1 hd.2.2
        | halt w d => rw [hi] at h1; exact absurd h1 (h.noHalt _ hd.1 _ hd.2.1 _ _)
        | go w d q' =>
          rw [hi] at h1
          rw [h1]
          have uq : UsedSt P n k (ρ.st q') := Or.inr ⟨_, _, ρ.st q', hd, by rw [h1]; rfl, le_refl _⟩
          have uw : UsedSy P n k (ρ.sy w) := Or.inr ⟨_, _, hd, by rw [h1]; exact le_refl _⟩
          show Instr.go (ρ.sy w) (ρ.dir d) (ρ.st q') = Instr.go (Equiv.swap u v (ρ.sy w)) _ (Equiv.swap x y (ρ.st q'))
          rw [fixS _ uq, fixY _ uw]
          rfl

/-- the first unused state -/
theorem first_unused_st {T : Table} (hf : Fits T n k) {Q : Nat} (hQ : Q < n) (h : ¬ UsedSt T n k Q) :
    ∃ X ≤ Q, ¬ UsedSt T n k X ∧ (X ≤ 1 ∨ ∃ q a s, DefinedCell T n k q a ∧ (T q a).next = some s ∧ X ≤ s + 1) := by
  classical
  have hex : ∃ X, ¬ UsedSt T n k X := ⟨Q, h⟩
  refine ⟨Nat.find hex, Nat.find_min' hex h, Nat.find_spec hex, ?_⟩
  by_cases h1 : Nat.find hex ≤ 1
  · exact Or.inl h1
  · right
    have := Nat.find_min hex (m := Nat.find hex - 1) (by omega)
    rcases not_not.1 this with h2 | ⟨q, a, s, hd, hs, hle⟩
    · omega
    · exact ⟨q, a, s, hd, hs, by omega⟩

theorem first_unused_sy {T : Table} {W : Nat} (h : ¬ UsedSy T n k W) :
    ∃ X ≤ W, ¬ UsedSy T n k X ∧ (X ≤ 1 ∨ ∃ q a, DefinedCell T n k q a ∧ X ≤ (T q a).write + 1) := by
  classical
  have hex : ∃ X, ¬ UsedSy T n k X := ⟨W, h⟩
  refine ⟨Nat.find hex, Nat.find_min' hex h, Nat.find_spec hex, ?_⟩
  by_cases h1 : Nat.find hex ≤ 1
  · exact Or.inl h1
  · right
    have := Nat.find_min hex (m := Nat.find hex - 1) (by omega)
    rcases not_not.1 this with h2 | ⟨q, a, hd, hle⟩
    · omega
    · exact ⟨q, a, hd, by omega⟩

theorem fill_defined {T : Table} {q a q1 a1 : Nat} {i : Instr} (hi : i ≠ .undef) (h : DefinedCell T n k q1 a1) :
    DefinedCell (Table.fill T q a i) n k q1 a1 := by
  refine ⟨h.1, h.2.1, ?_⟩
  unfold Table.fill
  split
  · exact hi
  · exact h.2.2

/-- the invariant for a child -/
theorem TreeInv.fill {M P : Table} {ρ : Renaming n k} (h : TreeInv M n k ρ P) {q a q0 a0 w q' : Nat} {d : Dir} (hq0 : q0 < n) (ha0 : a0 < k)
    (eq : ρ.st q0 = q) (ea : ρ.sy a0 = a) (hM : M q0 a0 = .go w d q') (hu : P q a = .undef) (uq : UsedSt P n k q) (ua : UsedSy P n k a) :
    TreeInv M n k ρ (Table.fill P q a (ρ.instr (M q0 a0))) := by
  have hqn : q < n := eq ▸ ρ.st_lt q0 hq0
  have hak : a < k := ea ▸ ρ.sy_lt a0 ha0
  have hne : ρ.instr (M q0 a0) ≠ .undef := by rw [hM]; simp [Renaming.instr]
  have hcell : ∀ q1 a1, ¬ (q1 = q ∧ a1 = a) → Table.fill P q a (ρ.instr (M q0 a0)) q1 a1 = P q1 a1 := by
    intro q1 a1 hc; unfold Table.fill; rw [if_neg hc]
  have hself : Table.fill P q a (ρ.instr (M q0 a0)) q a = ρ.instr (M q0 a0) := by unfold Table.fill; rw [if_pos ⟨rfl, rfl⟩]
  have other : ∀ q1 a1, DefinedCell P n k q1 a1 → ¬ (q1 = q ∧ a1 = a) := by
    rintro q1 a1 hd ⟨rfl, rfl⟩; exact hd.2.2 hu
  have monoS : ∀ s, UsedSt P n k s → UsedSt (Table.fill P q a (ρ.instr (M q0 a0))) n k s := by
    rintro s (hs | ⟨q1, a1, s', hd, h1, h2⟩)
    · exact Or.inl hs
    · exact Or.inr ⟨q1, a1, s', fill_defined hne hd, by rw [hcell _ _ (other _ _ hd)]; exact h1, h2⟩
  have monoY : ∀ s, UsedSy P n k s → UsedSy (Table.fill P q a (ρ.instr (M q0 a0))) n k s := by
    rintro s (hs | ⟨q1, a1, hd, h1⟩)
    · exact Or.inl hs
    · exact Or.inr ⟨q1, a1, fill_defined hne hd, by rw [hcell _ _ (other _ _ hd)]; exact h1⟩
  refine ⟨h.st0, h.sy0, ?_, ?_, ?_, Or.inl ⟨q, a, hqn, hak, by rw [hself]; exact hne⟩⟩
  · intro q1 h1 a1 h2
    by_cases hc : ρ.st q1 = q ∧ ρ.sy a1 = a
    · right
      have e1 : q1 = q0 := ρ.st_inj q1 h1 q0 hq0 (by rw [hc.1, eq])
      have e2 : a1 = a0 := ρ.sy_inj a1 h2 a0 ha0 (by rw [hc.2, ea])
      subst e1; subst e2
      rw [hc.1, hc.2, hself]
    · rw [hcell _ _ hc]
      exact h.restr q1 h1 a1 h2
  · intro q1 h1 a1 h2 w1 d1
    by_cases hc : q1 = q ∧ a1 = a
    · rw [hc.1, hc.2, hself, hM]; simp [Renaming.instr]
    · rw [hcell _ _ hc]; exact h.noHalt q1 h1 a1 h2 w1 d1
  · intro q1 a1 hd
    by_cases hc : q1 = q ∧ a1 = a
    · rw [hc.1, hc.2]; exact ⟨monoS _ uq, monoY _ ua⟩
    · obtain ⟨g1, g2, g3⟩ := hd
      rw [hcell _ _ hc] at g3
      obtain ⟨u1, u2⟩ := h.used q1 a1 ⟨g1, g2, g3⟩
      exact ⟨monoS _ u1, monoY _ u2⟩

/-- the number of undefined cells -/
noncomputable def undefCount (T : Table) (n k : Nat) : Nat := by
  classical
  exact ((Finset.range n ×ˢ Finset.range k).filter fun x => T x.1 x.2 = .undef).card

theorem undefCount_fill {T : Table} {q a : Nat} (hq : q < n) (ha : a < k) {i : Instr} (hi : i ≠ .undef) (hu : T q a = .undef) :
    undefCount (Table.fill T q a i) n k < undefCount T n k := by
  classical
  unfold undefCount
  apply Finset.card_lt_card
  rw [Finset.ssubset_iff_of_subset]
  · refine ⟨(q, a), ?_, ?_⟩
    · simp [hq, ha, hu]
    · intro hx
      have := (Finset.mem_filter.1 hx).2
      simp only [Table.fill, and_self, if_true] at this
      exact hi this
  · intro x hx
    simp only [Finset.mem_filter, Finset.mem_product, Finset.mem_range] at hx ⊢
    refine ⟨hx.1, ?_⟩
    have h2 := hx.2
    unfold Table.fill at h2
    split at h2
    · exact absurd h2 hi
    · exact h2

end Spec

namespace Model.IO
open Spec

theorem sane_fits {m : SM} (h : m.Sane) : Fits m.table m.nStates m.nSyms := by
  intro q hq a ha
  obtain ⟨r, t, h1, h2, h3, h4, h5⟩ := h.cell hq ha
  rw [h5]
  unfold BTrans.instr
  cases hc : t.cond with
  | undefined => trivial
  | halt =>
    have := (h.cells r h2 t h4 (by rw [hc]; simp)).1
    unfold BTrans.WF at this
    rw [hc] at this
    simp only at this ⊢
    omega
  | running =>
    have := (h.cells r h2 t h4 (by rw [hc]; simp)).1
    unfold BTrans.WF at this
    rw [hc] at this
    simp only at this ⊢
    omega

/-- The engine of completeness. -/
theorem tree_complete {root : TMEnum} {M : Table} {n k : Nat} (hf : Fits M n k) (hn : 0 < n) (hk : 0 < k)
    (total : ∀ q < n, ∀ a < k, M q a ≠ .undef)
    (hh : root.allowNoHalt = true ∨ ∃ q < n, ∃ a < k, ∃ w d, M q a = .halt w d) (u : Nat) :
    ∀ (e : TMEnum) (ρ : Renaming n k), e.tm.Sane → e.tm.nStates = n → e.tm.nSyms = k → e.allowNoHalt = root.allowNoHalt →
      TreeInv M n k ρ e.tm.table → undefCount e.tm.table n k ≤ u → InTree root e →
      ∃ (e' : TMEnum) (ρ' : Renaming n k), InTree root e' ∧ TreeInv M n k ρ' e'.tm.table ∧ e'.tm.Sane ∧ e'.tm.nStates = n ∧ e'.tm.nSyms = k ∧
        (NeverHalts e'.tm.table init ∨ ∃ t q a, StuckAt e'.tm.table t q a ∧ HaltsAt M init (t + 1)) := by
  induction u with
  | zero =>
    intro e ρ hs hn' hk' hal hinv hu hin
    exact main e ρ hs hn' hk' hal hinv hin fun e' ρ' _ _ _ _ _ hlt _ => absurd hlt (by omega)
  | succ u ih =>
    intro e ρ hs hn' hk' hal hinv hu hin
    exact main e ρ hs hn' hk' hal hinv hin fun e' ρ' hs hn' hk' hal hinv hlt hin =>
      ih e' ρ' hs hn' hk' hal hinv (by omega) hin
where
  main (e : TMEnum) (ρ : Renaming n k) (hs : e.tm.Sane) (hn' : e.tm.nStates = n) (hk' : e.tm.nSyms = k)
      (hal : e.allowNoHalt = root.allowNoHalt) (hinv : TreeInv M n k ρ e.tm.table) (hin : InTree root e)
      (rec : ∀ (e' : TMEnum) (ρ' : Renaming n k), e'.tm.Sane → e'.tm.nStates = n → e'.tm.nSyms = k → e'.allowNoHalt = root.allowNoHalt →
        TreeInv M n k ρ' e'.tm.table → undefCount e'.tm.table n k < undefCount e.tm.table n k → InTree root e' →
        ∃ (e' : TMEnum) (ρ' : Renaming n k), InTree root e' ∧ TreeInv M n k ρ' e'.tm.table ∧ e'.tm.Sane ∧ e'.tm.nStates = n ∧ e'.tm.nSyms = k ∧
          (NeverHalts e'.tm.table init ∨ ∃ t q a, StuckAt e'.tm.table t q a ∧ HaltsAt M init (t + 1))) :
      ∃ (e' : TMEnum) (ρ' : Renaming n k), InTree root e' ∧ TreeInv M n k ρ' e'.tm.table ∧ e'.tm.Sane ∧ e'.tm.nStates = n ∧ e'.tm.nSyms = k ∧
        (NeverHalts e'.tm.table init ∨ ∃ t q a, StuckAt e'.tm.table t q a ∧ HaltsAt M init (t + 1)) := by
    classical
    have hfP : Fits e.tm.table n k := by have := sane_fits hs; rwa [hn', hk'] at this
    by_cases hnh : NeverHalts e.tm.table init
    · exact ⟨e, ρ, hin, hinv, hs, hn', hk', Or.inl hnh⟩
    · unfold NeverHalts at hnh
      push Not at hnh
      have hmin := Nat.find_spec hnh
      have hlt := fun m => Nat.find_min hnh (m := m)
      generalize Nat.find hnh = N at hmin hlt
      cases N with
      | zero => simp [run, init] at hmin
      | succ t =>
        have hst := hlt t (by omega)
        cases hq : (run e.tm.table t init).state with
        | none => exact absurd hq hst
        | some q =>
          have hr := inRange_run hfP (inRange_init hn hk) t hst
          obtain ⟨us, uy⟩ := run_used hfP hn hk t hst
          obtain ⟨hstep, hMst⟩ := run_restricts ρ hf hn hk hinv.st0 hinv.sy0 hinv.restr t hst
          have hMr := inRange_run hf (inRange_init hn hk) t hMst
          have hqn := hr.1 q hq
          set a := (run e.tm.table t init).tape (run e.tm.table t init).pos with ha
          have hak : a < k := hr.2 _
          have huq := us q hq
          have hua : UsedSy e.tm.table n k a := uy _
          rw [run_succ', step_state hq, ← ha] at hmin
          have hu : e.tm.table q a = .undef := by
            cases hi : e.tm.table q a with
            | undef => rfl
            | halt w d => exact absurd hi (hinv.noHalt q hqn a hak w d)
            | go w d q' => rw [hi] at hmin; cases hmin
          have hstuck : StuckAt e.tm.table t q a := ⟨⟨hq, ha.symm⟩, hu⟩
          -- the cell of `M`
          cases hq0 : (run M t init).state with
          | none => exact absurd hq0 hMst
          | some q0 =>
            have hq0n := hMr.1 q0 hq0
            set a0 := (run M t init).tape (run M t init).pos with ha0
            have ha0k : a0 < k := hMr.2 _
            have eq : ρ.st q0 = q := by
              have : (ρ.config (run M t init)).state = some (ρ.st q0) := by
                show (run M t init).state.map ρ.st = _; rw [hq0]; rfl
              rw [← hstep, hq] at this
              exact (Option.some.inj this).symm
            have ea : ρ.sy a0 = a := by
              rw [ha, hstep, ρ.config_cell]
            cases hM : M q0 a0 with
            | undef => exact absurd hM (total q0 hq0n a0 ha0k)
            | halt w d =>
              refine ⟨e, ρ, hin, hinv, hs, hn', hk', Or.inr ⟨t, q, a, hstuck, ?_, ?_⟩⟩
              · rw [run_succ', step_state hq0, ← ha0, hM]; rfl
              · intro m hm hnone
                exact hMst (run_none_mono (by omega) hnone)
            | go w d q' =>
              have hMf := hf q0 hq0n a0 ha0k
              rw [hM] at hMf
              simp only at hMf
              have hQ : ρ.st q' < n := ρ.st_lt _ hMf.2
              have hW : ρ.sy w < k := ρ.sy_lt _ hMf.1
              -- choose the new names
              obtain ⟨X, hX, hXcase, hXall⟩ : ∃ X, X < n ∧ (ρ.st q' = X ∨ ¬ UsedSt e.tm.table n k (ρ.st q') ∧ ¬ UsedSt e.tm.table n k X) ∧
                  (X ≤ 1 ∨ ∃ q a s, DefinedCell e.tm.table n k q a ∧ (e.tm.table q a).next = some s ∧ X ≤ s + 1) := by
                by_cases hus : UsedSt e.tm.table n k (ρ.st q')
                · refine ⟨ρ.st q', hQ, Or.inl rfl, ?_⟩
                  rcases hus with h0 | ⟨q1, a1, s, hd, h1, h2⟩
                  · left; omega
                  · exact Or.inr ⟨q1, a1, s, hd, h1, by omega⟩
                · obtain ⟨X, h1, h2, h3⟩ := first_unused_st hfP hQ hus
                  exact ⟨X, by omega, Or.inr ⟨hus, h2⟩, h3⟩
              obtain ⟨Y, hY, hYcase, hYall⟩ : ∃ Y, Y < k ∧ (ρ.sy w = Y ∨ ¬ UsedSy e.tm.table n k (ρ.sy w) ∧ ¬ UsedSy e.tm.table n k Y) ∧
                  (Y ≤ 1 ∨ ∃ q a, DefinedCell e.tm.table n k q a ∧ Y ≤ (e.tm.table q a).write + 1) := by
                by_cases hus : UsedSy e.tm.table n k (ρ.sy w)
                · refine ⟨ρ.sy w, hW, Or.inl rfl, ?_⟩
                  rcases hus with h0 | ⟨q1, a1, hd, h1⟩
                  · left; omega
                  · exact Or.inr ⟨q1, a1, hd, by omega⟩
                · obtain ⟨Y, h1, h2, h3⟩ := first_unused_sy hus
                  exact ⟨Y, by omega, Or.inr ⟨hus, h2⟩, h3⟩
              have hinv' := hinv.swap (ρ.st q') X (ρ.sy w) Y hQ hX hW hY hXcase hYcase
              set ρ' := ρ.swap (ρ.st q') X (ρ.sy w) Y hQ hX hW hY with hρ'
              have fixS : Equiv.swap (ρ.st q') X q = q := by
                rcases hXcase with h1 | ⟨h1, h2⟩
                · rw [h1]; simp
                · exact Equiv.swap_apply_of_ne_of_ne (fun e => h1 (e ▸ huq)) (fun e => h2 (e ▸ huq))
              have fixY : Equiv.swap (ρ.sy w) Y a = a := by
                rcases hYcase with h1 | ⟨h1, h2⟩
                · rw [h1]; simp
                · exact Equiv.swap_apply_of_ne_of_ne (fun e => h1 (e ▸ hua)) (fun e => h2 (e ▸ hua))
              have eq' : ρ'.st q0 = q := by
                show Equiv.swap (ρ.st q') X (ρ.st q0) = q; rw [eq]; exact fixS
              have ea' : ρ'.sy a0 = a := by
                show Equiv.swap (ρ.sy w) Y (ρ.sy a0) = a; rw [ea]; exact fixY
              have hfill := hinv'.fill hq0n ha0k eq' ea' hM hu huq hua
              have hinstr : ρ'.instr (M q0 a0) = .go Y (ρ.dir d) X := by
                rw [hM]
                show Instr.go (Equiv.swap (ρ.sy w) Y (ρ.sy w)) (ρ.dir d) (Equiv.swap (ρ.st q') X (ρ.st q')) = _
                rw [Equiv.swap_apply_left, Equiv.swap_apply_left]
              rw [hinstr] at hfill
              -- the child
              have hqs : q < e.tm.nStates := by rw [hn']; exact hqn
              have has : a < e.tm.nSyms := by rw [hk']; exact hak
              obtain ⟨xs, -, hmem, hcs, -⟩ := enumChildren_eq hs hqs has
              have htwo : e.allowNoHalt = true ∨ TwoUndefined e.tm.table e.tm.nStates e.tm.nSyms := by
                rw [hal]
                rcases hh with h1 | ⟨qh, hqh, ah, hah, wh, dh, hMh⟩
                · exact Or.inl h1
                · right
                  refine ⟨q, a, ρ.st qh, ρ.sy ah, hqs, has, by rw [hn']; exact ρ.st_lt _ hqh, by rw [hk']; exact ρ.sy_lt _ hah, ?_, hu, ?_⟩
                  · intro he
                    simp only [Prod.mk.injEq] at he
                    have e1 := ρ.st_inj q0 hq0n qh hqh (by rw [eq, he.1])
                    have e2 := ρ.sy_inj a0 ha0k ah hah (by rw [ea, he.2])
                    rw [← e1, ← e2, hM] at hMh
                    cases hMh
                  · rcases hinv.restr qh hqh ah hah with h1 | h1
                    · exact h1
                    · rw [hMh] at h1
                      exact absurd h1 (hinv.noHalt _ (ρ.st_lt _ hqh) _ (ρ.sy_lt _ hah) _ _)
              have hcs := hcs htwo
              have hdir : ρ.dir d = .R ∨ ∃ q a, DefinedCell e.tm.table n k q a := by
                rcases hinv.first with h1 | h1
                · exact Or.inr h1
                · by_cases hdef : ∃ q a, DefinedCell e.tm.table n k q a
                  · exact Or.inr hdef
                  · left
                    -- nothing is defined: the machine is stuck at the start
                    have ht0 : t = 0 := by
                      by_contra hne
                      have h2 := hlt 1 (by omega)
                      apply h2
                      show (step e.tm.table init).state = none
                      have : e.tm.table 0 0 = .undef := by
                        by_contra hc
                        exact hdef ⟨0, 0, hn, hk, hc⟩
                      rw [step_state (q := 0) rfl]
                      show (e.tm.table 0 0).next = none
                      rw [this]; rfl
                    subst ht0
                    have e1 : q0 = 0 := by
                      simp only [run, init, Option.some.injEq] at hq0
                      exact hq0.symm
                    have e2 : a0 = 0 := rfl
                    rw [e1, e2] at hM
                    rw [hM] at h1
                    exact h1
              have hall : AllowedNext e.tm.table e.tm.nStates e.tm.nSyms Y (ρ.dir d) X := by
                rw [hn', hk']
                exact ⟨hY, hX, hYall, hXall, hdir⟩
              have hx : ((X, Y, if ρ.dir d = .L then 0 else 1) : Nat × Nat × Nat) ∈ xs := by
                rw [hmem]
                refine ⟨by show (if ρ.dir d = .L then 0 else 1) ≤ 1; split <;> omega, ?_⟩
                have : (if (if ρ.dir d = .L then 0 else 1) = 0 then Dir.L else Dir.R) = ρ.dir d := by
                  cases ρ.dir d <;> rfl
                simp only [this]
                exact hall
              have htr : tripleInstr (X, Y, if ρ.dir d = .L then 0 else 1) = .go Y (ρ.dir d) X := by
                unfold tripleInstr
                cases ρ.dir d <;> rfl
              have hchild : ({ e with tm := e.tm.fill q a (.go Y (ρ.dir d) X) } : TMEnum) ∈
                  xs.map fun x => ({ e with tm := e.tm.fill q a (tripleInstr x) } : TMEnum) :=
                List.mem_map.2 ⟨_, hx, by rw [htr]⟩
              have htab : (e.tm.fill q a (.go Y (ρ.dir d) X)).table = Table.fill e.tm.table q a (.go Y (ρ.dir d) X) :=
                sm_fill_table hs hqs has _
              refine rec { e with tm := e.tm.fill q a (.go Y (ρ.dir d) X) } ρ' (fill_sane hs (by rw [hk']; exact hY) (by rw [hn']; exact hX))
                hn' hk' hal ?_ ?_ (InTree.child hin hstuck hcs hchild)
              · simp only [htab]; exact hfill
              · simp only [htab]; exact undefCount_fill hqn hak (by simp) hu

/-! ## Roots -/

/-- the machine without transitions -/
def blankSM (n k : Nat) : SM := { rows := List.replicate n (List.replicate k undefTrans), nStates := n, nSyms := k }

theorem blank_root (n k : Nat) (allow : Bool) :
    blankTMEnum n k false allow = some { tm := blankSM n k, allowNoHalt := allow } := by
  unfold blankTMEnum tmFromQuints
  simp [fillQuints, length_irange, blankSM]

theorem blank_root_1rb {n k : Nat} (allow : Bool) (hn : 1 < n) (hk : 1 < k) :
    blankTMEnum n k true allow = some { tm := (blankSM n k).fill 0 0 (.go 1 .R 1), allowNoHalt := allow } := by
  unfold blankTMEnum tmFromQuints
  obtain ⟨n, rfl⟩ : ∃ n', n = n' + 1 := ⟨n - 1, by omega⟩
  obtain ⟨k, rfl⟩ : ∃ k', k = k' + 1 := ⟨k - 1, by omega⟩
  have e0 : (irange (n + 1)).idxOf? 0 = some 0 := by rw [idxOf_irange, if_pos (by omega)]; rfl
  have e1 : (irange (k + 1)).idxOf? 0 = some 0 := by rw [idxOf_irange, if_pos (by omega)]; rfl
  have e2 : (irange (k + 1)).idxOf? 1 = some 1 := by rw [idxOf_irange, if_pos (by omega)]; rfl
  have e3 : (irange (n + 1)).idxOf? 1 = some 1 := by rw [idxOf_irange, if_pos (by omega)]; rfl
  simp only [if_true, fillQuints, e0, e1, e2, quintTrans, e3, length_irange]
  simp [List.replicate_succ, blankSM, SM.fill, BTrans.ofInstr]

theorem blank_table (n k q a : Nat) : (blankSM n k).table q a = .undef := by
  unfold SM.table blankSM
  simp only [List.getElem?_replicate]
  split
  · simp only [Option.bind_some, List.getElem?_replicate]
    split <;> rfl
  · rfl

theorem blank_sane {n k : Nat} (hn : 0 < n) (hk : 0 < k) : (blankSM n k).Sane := by
  refine ⟨hn, hk, by simp [blankSM], ?_, ?_⟩
  · intro r hr
    rw [List.eq_of_mem_replicate hr]
    simp [blankSM]
  · intro r hr t ht hu
    rw [List.eq_of_mem_replicate hr] at ht
    rw [List.eq_of_mem_replicate ht] at hu
    exact absurd rfl hu

theorem root_inv {M : Table} {n k : Nat} (hn : 1 < n) (hk : 1 < k) {w q' : Nat} {d : Dir} (h1 : M 0 0 = .go w d q')
    (hw : w ≠ 0) (hq : q' ≠ 0) (hqn : q' < n) (hwk : w < k) :
    TreeInv M n k (Renaming.swap (Renaming.flip n k (decide (d = .L))) q' 1 w 1 hqn hn hwk hk)
      ((blankSM n k).fill 0 0 (.go 1 .R 1)).table := by
  set ρ : Renaming n k := Renaming.swap (Renaming.flip n k (decide (d = .L))) q' 1 w 1 hqn hn hwk hk with hρ
  have htab : ((blankSM n k).fill 0 0 (.go 1 .R 1)).table = Table.fill (blankSM n k).table 0 0 (.go 1 .R 1) :=
    sm_fill_table (blank_sane (by omega) (by omega)) (show 0 < n by omega) (show 0 < k by omega) _
  have s0 : ρ.st 0 = 0 := by
    show Equiv.swap q' 1 0 = 0
    exact Equiv.swap_apply_of_ne_of_ne (Ne.symm hq) (by omega)
  have y0 : ρ.sy 0 = 0 := by
    show Equiv.swap w 1 0 = 0
    exact Equiv.swap_apply_of_ne_of_ne (Ne.symm hw) (by omega)
  have hdir : ρ.dir d = .R := by
    show (if decide (d = .L) = true then d.other else d) = .R
    cases d <;> rfl
  have hinstr : ρ.instr (M 0 0) = .go 1 .R 1 := by
    rw [h1]
    show Instr.go (Equiv.swap w 1 w) (ρ.dir d) (Equiv.swap q' 1 q') = _
    rw [Equiv.swap_apply_left, Equiv.swap_apply_left, hdir]
  have hinv : TreeInv M n k ρ (blankSM n k).table := by
    refine ⟨s0, y0, fun q _ a _ => Or.inl (blank_table n k _ _), ?_, ?_, Or.inr (by rw [h1]; exact hdir)⟩
    · intro q _ a _ w d
      rw [blank_table]
      simp
    · rintro q a ⟨-, -, h3⟩
      exact absurd (blank_table n k _ _) h3
  have := hinv.fill (q0 := 0) (a0 := 0) (by omega) (by omega) s0 y0 h1 (blank_table n k 0 0) (Or.inl rfl) (Or.inl rfl)
  rw [hinstr] at this
  rw [htab]
  exact this

theorem complete_of_root {M : Table} {n k : Nat} (hf : Fits M n k) (hn : 0 < n) (hk : 0 < k)
    (total : ∀ q < n, ∀ a < k, M q a ≠ .undef) {root : TMEnum}
    (hh : root.allowNoHalt = true ∨ ∃ q < n, ∃ a < k, ∃ w d, M q a = .halt w d) (ρ : Renaming n k)
    (hs : root.tm.Sane) (hn' : root.tm.nStates = n) (hk' : root.tm.nSyms = k) (hinv : TreeInv M n k ρ root.tm.table) :
    ∃ e, InTree root e ∧ ∃ ρ : Renaming n k, ρ.st 0 = 0 ∧ ρ.sy 0 = 0 ∧ RestrictsTo ρ M e.tm.table ∧
        ((∀ t, (run e.tm.table t init).state ≠ none ∧ run e.tm.table t init = ρ.config (run M t init)) ∨
          ∃ t q a, StuckAt e.tm.table t q a ∧ HaltsAt M init (t + 1) ∧
            ∀ s ≤ t, run e.tm.table s init = ρ.config (run M s init)) := by
  obtain ⟨e, ρ', h1, h2, -, -, -, h3⟩ := tree_complete hf hn hk total hh _ root ρ hs hn' hk' rfl hinv (le_refl _) InTree.root
  refine ⟨e, h1, ρ', h2.st0, h2.sy0, h2.restr, ?_⟩
  rcases h3 with h3 | ⟨t, q, a, h3, h4⟩
  · exact Or.inl fun t => ⟨h3 t, (run_restricts ρ' hf hn hk h2.st0 h2.sy0 h2.restr t (h3 t)).1⟩
  · refine Or.inr ⟨t, q, a, h3, h4, fun s hs => ?_⟩
    have : (run e.tm.table s init).state ≠ none := by
      intro hnone
      have := run_none_mono hs hnone
      rw [h3.1.1] at this
      cases this
    exact (run_restricts ρ' hf hn hk h2.st0 h2.sy0 h2.restr s this).1

end Model.IO

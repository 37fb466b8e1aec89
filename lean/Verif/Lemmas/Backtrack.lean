import Verif.Lemmas.Reach

/-! Backtracking: partial configurations against reachable configurations. -/

namespace Model.Backtrack
open Spec (Dir Instr Table Config)

/-- The configuration `c` agrees with everything the partial configuration `p` prescribes. -/
structure Matches (p : PC) (c : Config) : Prop where
  state : c.state = some p.state
  cur : c.tape c.pos = p.current
  left : ∀ i (h : i < p.left.length), c.tape (c.pos - 1 - i) = p.left[i]
  right : ∀ i (h : i < p.right.length), c.tape (c.pos + 1 + i) = p.right[i]

theorem matches_init {p : PC} : isInitConfig p = true ↔ Matches p Spec.init := by
  unfold isInitConfig
  simp only [Bool.and_eq_true, beq_iff_eq, List.all_eq_true]
  constructor
  · rintro ⟨⟨⟨h1, h2⟩, h3⟩, h4⟩
    refine ⟨by rw [h2]; rfl, h1.symm, fun i h => ?_, fun i h => ?_⟩
    · exact (h3 _ (List.getElem_mem h)).symm
    · exact (h4 _ (List.getElem_mem h)).symm
  · rintro ⟨h1, h2, h3, h4⟩
    refine ⟨⟨⟨h2.symm, ?_⟩, ?_⟩, ?_⟩
    · simpa [Spec.init] using h1.symm
    · intro x hx
      obtain ⟨i, hi, rfl⟩ := List.getElem_of_mem hx
      exact (h3 i hi).symm
    · intro x hx
      obtain ⟨i, hi, rfl⟩ := List.getElem_of_mem hx
      exact (h4 i hi).symm

/-- Backward step: the predecessor matches the partial configuration computed for it. -/
theorem back {M : Table} {c0 : Config} {q0 : Nat} (hq0 : c0.state = some q0) {p : PC}
    (hm : Matches p (Spec.step M c0)) :
    (M q0 (c0.tape c0.pos)).next = some p.state ∧
      p.applies (M q0 (c0.tape c0.pos)) = true ∧
      Matches (p.applyTrans (q0, c0.tape c0.pos) (M q0 (c0.tape c0.pos))) c0 := by
  have hs := hm.state
  rw [Spec.step_state hq0] at hs
  obtain ⟨w, d, e⟩ := Spec.next_some_iff.1 hs
  have htape := Spec.step_tape (M := M) hq0
  have hpos := Spec.step_pos (M := M) hq0
  obtain ⟨_, hcur, hl, hrt⟩ := hm
  rw [htape, hpos] at hcur hl hrt
  rw [e] at hcur hl hrt ⊢
  simp only [Instr.dir, Instr.write, Instr.next] at *
  refine ⟨trivial, ?_, ?_⟩
  · cases d with
    | R =>
      unfold PC.applies
      simp only [Instr.dir, Dir.other, PC.side, Instr.write]
      cases hL : p.left with
      | nil => rfl
      | cons s rest =>
        have := hl 0 (by simp [hL])
        simp only [Dir.delta, hL, List.getElem_cons_zero] at this
        rw [show c0.pos + 1 - 1 - ((0 : Nat) : Int) = c0.pos by omega, Function.update_self] at this
        simp [this]
    | L =>
      unfold PC.applies
      simp only [Instr.dir, Dir.other, PC.side, Instr.write]
      cases hL : p.right with
      | nil => rfl
      | cons s rest =>
        have := hrt 0 (by simp [hL])
        simp only [Dir.delta, hL, List.getElem_cons_zero] at this
        rw [show c0.pos + -1 + 1 + ((0 : Nat) : Int) = c0.pos by omega, Function.update_self] at this
        simp [this]
  · cases d with
    | R =>
      simp only [PC.applyTrans, Instr.dir, Dir.delta] at *
      refine ⟨hq0, rfl, fun i h => ?_, fun i h => ?_⟩
      · simp only [List.length_drop] at h
        simp only [List.getElem_drop]
        have := hl (1 + i) (by omega)
        rw [show c0.pos + 1 - 1 - ((1 + i : Nat) : Int) = c0.pos - 1 - i by omega,
          Function.update_of_ne (by omega)] at this
        exact this
      · cases i with
        | zero =>
          simp only [List.getElem_cons_zero]
          rw [Function.update_of_ne (by omega)] at hcur
          simpa using hcur
        | succ i =>
          simp only [List.getElem_cons_succ]
          have := hrt i (by simpa using h)
          rw [show c0.pos + 1 + 1 + (i : Int) = c0.pos + 1 + ((i + 1 : Nat) : Int) by omega,
            Function.update_of_ne (by omega)] at this
          exact this
    | L =>
      simp only [PC.applyTrans, Instr.dir, Dir.delta] at *
      refine ⟨hq0, rfl, fun i h => ?_, fun i h => ?_⟩
      · cases i with
        | zero =>
          simp only [List.getElem_cons_zero]
          rw [Function.update_of_ne (by omega)] at hcur
          rw [← hcur]; congr 1; simp; omega
        | succ i =>
          simp only [List.getElem_cons_succ]
          have := hl i (by simpa using h)
          rw [show c0.pos + -1 - 1 - (i : Int) = c0.pos - 1 - ((i + 1 : Nat) : Int) by omega,
            Function.update_of_ne (by omega)] at this
          exact this
      · simp only [List.length_drop] at h
        simp only [List.getElem_drop]
        have := hrt (1 + i) (by omega)
        rw [show c0.pos + -1 + 1 + ((1 + i : Nat) : Int) = c0.pos + 1 + i by omega,
          Function.update_of_ne (by omega)] at this
        exact this

theorem head_match {l : List Nat} {w : Nat}
    (h : (match l with | [] => true | s :: _ => s == w) = true) (hl : 0 < l.length) : w = l[0] := by
  cases l with
  | nil => simp at hl
  | cons s rest => simpa using (by simpa using h : s = w).symm

/-- Forward step: from a match of the computed predecessor one machine step gives a match. -/
theorem fwd {M : Table} {p : PC} {a : Nat × Nat} {c0 : Config} (hn : (M a.1 a.2).next = some p.state)
    (happ : p.applies (M a.1 a.2) = true) (hm : Matches (p.applyTrans a (M a.1 a.2)) c0) :
    Matches p (Spec.step M c0) := by
  obtain ⟨w, d, e⟩ := Spec.next_some_iff.1 hn
  rw [e] at happ hm
  have hq0 : c0.state = some a.1 := by have := hm.state; cases d <;> exact this
  have hc0 : c0.tape c0.pos = a.2 := by have := hm.cur; cases d <;> exact this
  have htape := Spec.step_tape (M := M) hq0
  have hpos := Spec.step_pos (M := M) hq0
  have hst := Spec.step_state (M := M) hq0
  rw [hc0, e] at htape hpos hst
  simp only [Instr.dir, Instr.write, Instr.next] at htape hpos hst
  obtain ⟨_, _, hl, hrt⟩ := hm
  cases d with
  | R =>
    simp only [PC.applyTrans, Instr.dir, Dir.delta] at *
    refine ⟨hst, ?_, fun i h => ?_, fun i h => ?_⟩
    · rw [htape, hpos, Function.update_of_ne (by omega)]
      have := hrt 0 (by simp)
      simpa using this
    · rw [htape, hpos]
      cases i with
      | zero =>
        rw [show c0.pos + 1 - 1 - ((0 : Nat) : Int) = c0.pos by omega, Function.update_self]
        unfold PC.applies at happ
        simp only [Instr.dir, Dir.other, PC.side, Instr.write] at happ
        exact head_match happ h
      | succ i =>
        rw [Function.update_of_ne (by omega)]
        have := hl i (by simp; omega)
        simp only [List.getElem_drop, Nat.add_comm 1 i] at this
        rw [← this]; congr 1; omega
    · rw [htape, hpos, Function.update_of_ne (by omega)]
      have := hrt (i + 1) (by simpa using h)
      simp only [List.getElem_cons_succ] at this
      rw [← this]; congr 1; omega
  | L =>
    simp only [PC.applyTrans, Instr.dir, Dir.delta] at *
    refine ⟨hst, ?_, fun i h => ?_, fun i h => ?_⟩
    · rw [htape, hpos, Function.update_of_ne (by omega)]
      have := hl 0 (by simp)
      simp only [List.getElem_cons_zero] at this
      rw [← this]; congr 1; omega
    · rw [htape, hpos, Function.update_of_ne (by omega)]
      have := hl (i + 1) (by simpa using h)
      simp only [List.getElem_cons_succ] at this
      rw [← this]; congr 1; omega
    · rw [htape, hpos]
      cases i with
      | zero =>
        rw [show c0.pos + -1 + 1 + ((0 : Nat) : Int) = c0.pos by omega, Function.update_self]
        unfold PC.applies at happ
        simp only [Instr.dir, Dir.other, PC.side, Instr.write] at happ
        exact head_match happ h
      | succ i =>
        rw [Function.update_of_ne (by omega)]
        have := hrt i (by simp; omega)
        simp only [List.getElem_drop, Nat.add_comm 1 i] at this
        rw [← this]; congr 1; omega

/-- Reachable configurations only match partial configurations that pass `is_possible_config`. -/
theorem possible {M : Table} {nS nK : Nat} {c : Config} (inv : Spec.Inv M nS nK c) {p : PC}
    (hm : Matches p c) : isPossibleConfig M nS nK p = true := by
  unfold isPossibleConfig
  simp only [Bool.and_eq_true, List.all_eq_true]
  constructor
  · intro s hs
    obtain ⟨i, hi, rfl⟩ := List.getElem_of_mem hs
    have hne : c.pos - 1 - (i : Int) ≠ c.pos := by omega
    unfold dirToSymbol
    simp only [Bool.or_eq_true, beq_iff_eq, List.any_eq_true, Bool.and_eq_true]
    rcases inv.side _ hne with h0 | ⟨q, a, d, q', hq, ha, e, hd⟩
    · left; rw [← hm.left i hi]; exact h0
    · right
      refine ⟨(q, a), mem_cells.2 ⟨hq, ha⟩, ?_⟩
      rw [hm.left i hi] at e
      rcases hd with ⟨rfl, _⟩ | ⟨_, h⟩
      · simp [e, Instr.next, Instr.write, Instr.dir, Dir.other]
      · omega
  · intro s hs
    obtain ⟨i, hi, rfl⟩ := List.getElem_of_mem hs
    have hne : c.pos + 1 + (i : Int) ≠ c.pos := by omega
    unfold dirToSymbol
    simp only [Bool.or_eq_true, beq_iff_eq, List.any_eq_true, Bool.and_eq_true]
    rcases inv.side _ hne with h0 | ⟨q, a, d, q', hq, ha, e, hd⟩
    · left; rw [← hm.right i hi]; exact h0
    · right
      refine ⟨(q, a), mem_cells.2 ⟨hq, ha⟩, ?_⟩
      rw [hm.right i hi] at e
      rcases hd with ⟨_, h⟩ | ⟨rfl, _⟩
      · omega
      · simp [e, Instr.next, Instr.write, Instr.dir, Dir.other]

/-- `prev` is the partial configuration computed from `p` by undoing transition `a`. -/
def Prev (M : Table) (p : PC) (a : Nat × Nat) (prev : PC) : Prop :=
  p.applies (M a.1 a.2) = true ∧ prev = p.applyTrans a (M a.1 a.2)

theorem expandOne_some {M : Table} {nS nK : Nat} {p : PC} {cs : List (Nat × Nat)} {acc acc' : List PC}
    (h : expandOne M nS nK p cs acc = some acc') :
    (∀ x ∈ acc, x ∈ acc') ∧
    (∀ a ∈ cs, ∀ prev, Prev M p a prev → isInitConfig prev = false ∧
      (isPossibleConfig M nS nK prev = true → prev ∈ acc')) ∧
    (∀ x ∈ acc', x ∈ acc ∨ ∃ a ∈ cs, Prev M p a x) := by
  induction cs generalizing acc with
  | nil =>
    simp only [expandOne, Option.some.injEq] at h
    subst h
    exact ⟨fun _ h => h, fun _ h => (by cases h), fun _ h => Or.inl h⟩
  | cons c cs ih =>
    unfold expandOne at h
    by_cases happ : p.applies (M c.1 c.2) = true
    · rw [if_pos happ] at h
      simp only at h
      by_cases hi : isInitConfig (p.applyTrans c (M c.1 c.2)) = true
      · rw [if_pos hi] at h; cases h
      · rw [if_neg hi] at h
        by_cases hp : isPossibleConfig M nS nK (p.applyTrans c (M c.1 c.2)) = true
        · rw [if_pos hp] at h
          obtain ⟨h1, h2, h3⟩ := ih h
          refine ⟨fun x hx => h1 x (by simp [hx]), ?_, ?_⟩
          · intro a ha prev hprev
            rcases List.mem_cons.1 ha with rfl | ha
            · obtain ⟨_, rfl⟩ := hprev
              exact ⟨by simpa using hi, fun _ => h1 _ (by simp)⟩
            · exact h2 a ha prev hprev
          · intro x hx
            rcases h3 x hx with h | ⟨a, ha, hx⟩
            · rcases List.mem_append.1 h with h | h
              · exact Or.inl h
              · rw [List.mem_singleton] at h
                exact Or.inr ⟨c, by simp, happ, h⟩
            · exact Or.inr ⟨a, by simp [ha], hx⟩
        · rw [if_neg hp] at h
          obtain ⟨h1, h2, h3⟩ := ih h
          refine ⟨h1, ?_, ?_⟩
          · intro a ha prev hprev
            rcases List.mem_cons.1 ha with rfl | ha
            · obtain ⟨_, rfl⟩ := hprev
              exact ⟨by simpa using hi, fun h => absurd h hp⟩
            · exact h2 a ha prev hprev
          · intro x hx
            rcases h3 x hx with h | ⟨a, ha, hx⟩
            · exact Or.inl h
            · exact Or.inr ⟨a, by simp [ha], hx⟩
    · rw [if_neg happ] at h
      obtain ⟨h1, h2, h3⟩ := ih h
      refine ⟨h1, ?_, ?_⟩
      · intro a ha prev hprev
        rcases List.mem_cons.1 ha with rfl | ha
        · exact absurd hprev.1 happ
        · exact h2 a ha prev hprev
      · intro x hx
        rcases h3 x hx with h | ⟨a, ha, hx⟩
        · exact Or.inl h
        · exact Or.inr ⟨a, by simp [ha], hx⟩

theorem expandOne_none {M : Table} {nS nK : Nat} {p : PC} {cs : List (Nat × Nat)} {acc : List PC}
    (h : expandOne M nS nK p cs acc = none) :
    ∃ a ∈ cs, ∃ prev, Prev M p a prev ∧ isInitConfig prev = true := by
  induction cs generalizing acc with
  | nil => cases h
  | cons c cs ih =>
    unfold expandOne at h
    have lift : (∃ a ∈ cs, ∃ prev, Prev M p a prev ∧ isInitConfig prev = true) →
        ∃ a ∈ c :: cs, ∃ prev, Prev M p a prev ∧ isInitConfig prev = true := by
      rintro ⟨a, ha, r⟩; exact ⟨a, by simp [ha], r⟩
    by_cases happ : p.applies (M c.1 c.2) = true
    · rw [if_pos happ] at h
      simp only at h
      by_cases hi : isInitConfig (p.applyTrans c (M c.1 c.2)) = true
      · exact ⟨c, by simp, _, ⟨happ, rfl⟩, hi⟩
      · rw [if_neg hi] at h
        by_cases hp : isPossibleConfig M nS nK (p.applyTrans c (M c.1 c.2)) = true
        · rw [if_pos hp] at h; exact lift (ih h)
        · rw [if_neg hp] at h; exact lift (ih h)
    · rw [if_neg happ] at h; exact lift (ih h)

theorem expandAll_some {M : Table} {nS nK : Nat} {ps : List PC} {nodes nodes' : Nat}
    {acc acc' : List PC} (h : expandAll M nS nK ps nodes acc = (nodes', some acc')) :
    (∀ x ∈ acc, x ∈ acc') ∧
    (∀ p ∈ ps, ∀ a ∈ toState M nS nK p.state, ∀ prev, Prev M p a prev → isInitConfig prev = false ∧
      (isPossibleConfig M nS nK prev = true → prev ∈ acc')) ∧
    (∀ x ∈ acc', x ∈ acc ∨ ∃ p ∈ ps, ∃ a ∈ toState M nS nK p.state, Prev M p a x) := by
  induction ps generalizing acc nodes with
  | nil =>
    simp only [expandAll, Prod.mk.injEq, Option.some.injEq] at h
    obtain ⟨_, rfl⟩ := h
    exact ⟨fun _ h => h, fun _ h => (by cases h), fun _ h => Or.inl h⟩
  | cons p ps ih =>
    unfold expandAll at h
    cases e : expandOne M nS nK p (toState M nS nK p.state) acc with
    | none => rw [e] at h; cases h
    | some acc1 =>
      rw [e] at h
      obtain ⟨a1, a2, a3⟩ := expandOne_some e
      obtain ⟨h1, h2, h3⟩ := ih h
      refine ⟨fun x hx => h1 x (a1 x hx), ?_, ?_⟩
      · intro p' hp' a ha prev hprev
        rcases List.mem_cons.1 hp' with rfl | hp'
        · obtain ⟨b1, b2⟩ := a2 a ha prev hprev
          exact ⟨b1, fun h => h1 _ (b2 h)⟩
        · exact h2 p' hp' a ha prev hprev
      · intro x hx
        rcases h3 x hx with h | ⟨p', hp', r⟩
        · rcases a3 x h with h | h
          · exact Or.inl h
          · exact Or.inr ⟨p, by simp, h⟩
        · exact Or.inr ⟨p', by simp [hp'], r⟩

theorem expandAll_none {M : Table} {nS nK : Nat} {ps : List PC} {nodes nodes' : Nat}
    {acc : List PC} (h : expandAll M nS nK ps nodes acc = (nodes', none)) :
    ∃ p ∈ ps, ∃ a ∈ toState M nS nK p.state, ∃ prev, Prev M p a prev ∧ isInitConfig prev = true := by
  induction ps generalizing acc nodes with
  | nil => cases h
  | cons p ps ih =>
    unfold expandAll at h
    cases e : expandOne M nS nK p (toState M nS nK p.state) acc with
    | none => exact ⟨p, by simp, expandOne_none e⟩
    | some acc1 =>
      rw [e] at h
      obtain ⟨p', hp', r⟩ := ih h
      exact ⟨p', by simp [hp'], r⟩

/-- Success: nothing reachable in one or more steps matches any of the listed configurations. -/
theorem singleLoop_success {M : Table} {nS nK : Nat} (wf : Spec.WFTable M nS nK) {W : Nat}
    (k : Nat) {i w nodes : Nat} {ps : List PC}
    (h : (singleLoop M nS nK W k i ps w nodes).success = true) :
    ∀ n, ∀ p ∈ ps, Matches p (Spec.run M n Spec.init) → n = 0 := by
  induction k generalizing i ps w nodes with
  | zero => cases h
  | succ k ih =>
    unfold singleLoop at h
    cases e : expandAll M nS nK ps nodes [] with
    | mk nodes' o =>
      rw [e] at h
      cases o with
      | none => cases h
      | some ps' =>
        simp only at h
        obtain ⟨_, h2, _⟩ := expandAll_some e
        -- nothing reachable matches the predecessors, except possibly the initial configuration
        have hnext : ∀ n, ∀ p ∈ ps', Matches p (Spec.run M n Spec.init) → n = 0 := by
          by_cases hl : ps'.length = 0
          · rw [List.length_eq_zero_iff.1 hl]; intro _ _ h; cases h
          · rw [if_neg hl] at h
            split at h
            · cases h
            · exact ih h
        intro n p hp hm
        cases n with
        | zero => rfl
        | succ n =>
          exfalso
          have hrun : (Spec.run M (n + 1) Spec.init).state ≠ none := by rw [hm.state]; simp
          have hrun0 : (Spec.run M n Spec.init).state ≠ none := Spec.run_some_mono (Nat.le_succ n) hrun
          obtain ⟨q0, hq0⟩ := Option.ne_none_iff_exists'.1 hrun0
          have inv0 := Spec.inv_run wf n hrun0
          rw [Spec.run_succ'] at hm
          obtain ⟨b1, b2, b3⟩ := back hq0 hm
          have hmem : (q0, (Spec.run M n Spec.init).tape (Spec.run M n Spec.init).pos)
              ∈ toState M nS nK p.state := by
            unfold toState
            rw [List.mem_filter, mem_cells]
            exact ⟨⟨inv0.st q0 hq0, inv0.sym _⟩, by simp [b1]⟩
          obtain ⟨c1, c2⟩ := h2 p hp _ hmem _ ⟨b2, rfl⟩
          have hn := hnext n _ (c2 (possible inv0 b3)) b3
          subst hn
          have := (matches_init.2 b3).symm.trans c1
          cases this

theorem singleLoop_success_halted {M : Table} {nS nK W : Nat} (k : Nat) {i w nodes : Nat}
    {ps : List PC} (h : (singleLoop M nS nK W k i ps w nodes).success = true) :
    (singleLoop M nS nK W k i ps w nodes).halted = false := by
  induction k generalizing i ps w nodes with
  | zero => cases h
  | succ k ih =>
    unfold singleLoop at h ⊢
    cases e : expandAll M nS nK ps nodes [] with
    | mk nodes' o =>
      rw [e] at h
      cases o with
      | none => cases h
      | some ps' =>
        simp only at h ⊢
        by_cases hl : ps'.length = 0
        · rw [if_pos hl]
        · rw [if_neg hl] at h ⊢
          by_cases hw : max w ps'.length > W
          · rw [if_pos hw]
          · rw [if_neg hw] at h ⊢
            exact ih h

/-- A halting report: the blank start reaches the halting configuration in `maxSteps` steps. -/
theorem singleLoop_halted {M : Table} {nS nK W : Nat} (p0 : PC) (k : Nat) {i w nodes : Nat}
    {ps : List PC} (hps : ∀ p ∈ ps, ∀ c, Matches p c → Matches p0 (Spec.run M i c))
    (h : (singleLoop M nS nK W k i ps w nodes).halted = true) :
    Matches p0 (Spec.run M (singleLoop M nS nK W k i ps w nodes).maxSteps Spec.init) := by
  induction k generalizing i ps w nodes with
  | zero => cases h
  | succ k ih =>
    have hback : ∀ p ∈ ps, ∀ a ∈ toState M nS nK p.state, ∀ prev, Prev M p a prev →
        ∀ c, Matches prev c → Matches p0 (Spec.run M (i + 1) c) := by
      rintro p hp a ha prev ⟨happ, rfl⟩ c hc
      rw [Spec.run_succ]
      apply hps p hp
      unfold toState at ha
      rw [List.mem_filter] at ha
      exact fwd (by simpa using ha.2) happ hc
    unfold singleLoop at h ⊢
    cases e : expandAll M nS nK ps nodes [] with
    | mk nodes' o =>
      rw [e] at h
      cases o with
      | none =>
        obtain ⟨p, hp, a, ha, prev, hprev, hi⟩ := expandAll_none e
        exact hback p hp a ha prev hprev _ (matches_init.1 hi)
      | some ps' =>
        simp only at h ⊢
        by_cases hl : ps'.length = 0
        · rw [if_pos hl] at h; cases h
        · rw [if_neg hl] at h ⊢
          by_cases hw : max w ps'.length > W
          · rw [if_pos hw] at h; cases h
          · rw [if_neg hw] at h ⊢
            refine ih ?_ h
            intro p hp c hc
            rcases (expandAll_some e).2.2 p hp with h | ⟨p', hp', a, ha, hprev⟩
            · cases h
            · exact hback p' hp' a ha p hprev c hc

end Model.Backtrack

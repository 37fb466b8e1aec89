import Verif.Lemmas.Tree

/-!
# Completeness of an enumeration tree, for any program that expands machines at the undefined cell they reach
-/

namespace Spec
variable {n k : Nat}

/-- `Tree`: the machines generated.  `Ex`: those that are expanded. -/
theorem tree_complete_gen {M : Table} (hf : Fits M n k) (hn : 0 < n) (hk : 0 < k) (total : ∀ q < n, ∀ a < k, M q a ≠ .undef)
    (allow : Prop) (hh : allow ∨ ∃ q < n, ∃ a < k, ∃ w d, M q a = .halt w d) (Tree Ex : Table → Prop)
    (hfit : ∀ P, Tree P → Fits P n k)
    (closed : ∀ P t q a w d q', Tree P → Ex P → StuckAt P t q a → q < n → a < k → (allow ∨ TwoUndefined P n k) → AllowedNext P n k w d q' →
      Tree (P.fill q a (.go w d q'))) (u : Nat) :
    ∀ (P : Table) (ρ : Renaming n k), TreeInv M n k ρ P → undefCount P n k ≤ u → Tree P →
      ∃ (P' : Table) (ρ' : Renaming n k), Tree P' ∧ TreeInv M n k ρ' P' ∧
        (¬ Ex P' ∨ NeverHalts P' init ∨ ∃ t q a, StuckAt P' t q a ∧ HaltsAt M init (t + 1)) := by
  induction u with
  | zero =>
    intro P ρ hinv hu hin
    exact main P ρ hinv hin fun P' ρ' _ hlt _ => absurd hlt (by omega)
  | succ u ih =>
    intro P ρ hinv hu hin
    exact main P ρ hinv hin fun P' ρ' hinv hlt hin => ih P' ρ' hinv (by omega) hin
where
  main (P : Table) (ρ : Renaming n k) (hinv : TreeInv M n k ρ P) (hin : Tree P)
      (rec : ∀ (P' : Table) (ρ' : Renaming n k), TreeInv M n k ρ' P' → undefCount P' n k < undefCount P n k → Tree P' →
        ∃ (P' : Table) (ρ' : Renaming n k), Tree P' ∧ TreeInv M n k ρ' P' ∧
          (¬ Ex P' ∨ NeverHalts P' init ∨ ∃ t q a, StuckAt P' t q a ∧ HaltsAt M init (t + 1))) :
      ∃ (P' : Table) (ρ' : Renaming n k), Tree P' ∧ TreeInv M n k ρ' P' ∧
        (¬ Ex P' ∨ NeverHalts P' init ∨ ∃ t q a, StuckAt P' t q a ∧ HaltsAt M init (t + 1)) := by
    classical
    have hfP : Fits P n k := hfit P hin
    by_cases hex : Ex P
    swap
    · exact ⟨P, ρ, hin, hinv, Or.inl hex⟩
    by_cases hnh : NeverHalts P init
    · exact ⟨P, ρ, hin, hinv, Or.inr (Or.inl hnh)⟩
    · unfold NeverHalts at hnh
      push Not at hnh
      have hmin := Nat.find_spec hnh
      have hlt := fun m => Nat.find_min hnh (m := m)
      generalize Nat.find hnh = N at hmin hlt
      cases N with
      | zero => simp [run, init] at hmin
      | succ t =>
        have hst := hlt t (by omega)
        cases hq : (run P t init).state with
        | none => exact absurd hq hst
        | some q =>
          have hr := inRange_run hfP (inRange_init hn hk) t hst
          obtain ⟨us, uy⟩ := run_used hfP hn hk t hst
          obtain ⟨hstep, hMst⟩ := run_restricts ρ hf hn hk hinv.st0 hinv.sy0 hinv.restr t hst
          have hMr := inRange_run hf (inRange_init hn hk) t hMst
          have hqn := hr.1 q hq
          set a := (run P t init).tape (run P t init).pos with ha
          have hak : a < k := hr.2 _
          have huq := us q hq
          have hua : UsedSy P n k a := uy _
          rw [run_succ', step_state hq, ← ha] at hmin
          have hu : P q a = .undef := by
            cases hi : P q a with
            | undef => rfl
            | halt w d => exact absurd hi (hinv.noHalt q hqn a hak w d)
            | go w d q' => rw [hi] at hmin; cases hmin
          have hstuck : StuckAt P t q a := ⟨⟨hq, ha.symm⟩, hu⟩
          -- the cell of `M`
          cases hq0 : (run M t init).state with
          | none => exact absurd hq0 hMst
          | some q0 =>
            have hq0n := hMr.1 q0 hq0
            set a0 := (run M t init).tape (run M t init).pos with ha0
            have ha0k : a0 < k := hMr.2 _
            have eq : ρ.st q0 = q := by
              have : (ρ.config (run M t init)).state = some (ρ.st q0) := by
                show (run M t init).state.map ρ.st = _; rw [hq0]; rfl
              rw [← hstep, hq] at this
              exact (Option.some.inj this).symm
            have ea : ρ.sy a0 = a := by
              rw [ha, hstep, ρ.config_cell]
            cases hM : M q0 a0 with
            | undef => exact absurd hM (total q0 hq0n a0 ha0k)
            | halt w d =>
              refine ⟨P, ρ, hin, hinv, Or.inr (Or.inr ⟨t, q, a, hstuck, ?_, ?_⟩)⟩
              · rw [run_succ', step_state hq0, ← ha0, hM]; rfl
              · intro m hm hnone
                exact hMst (run_none_mono (by omega) hnone)
            | go w d q' =>
              have hMf := hf q0 hq0n a0 ha0k
              rw [hM] at hMf
              simp only at hMf
              have hQ : ρ.st q' < n := ρ.st_lt _ hMf.2
              have hW : ρ.sy w < k := ρ.sy_lt _ hMf.1
              -- choose the new names
              obtain ⟨X, hX, hXcase, hXall⟩ : ∃ X, X < n ∧ (ρ.st q' = X ∨ ¬ UsedSt P n k (ρ.st q') ∧ ¬ UsedSt P n k X) ∧
                  (X ≤ 1 ∨ ∃ q a s, DefinedCell P n k q a ∧ (P q a).next = some s ∧ X ≤ s + 1) := by
                by_cases hus : UsedSt P n k (ρ.st q')
                · refine ⟨ρ.st q', hQ, Or.inl rfl, ?_⟩
                  rcases hus with h0 | ⟨q1, a1, s, hd, h1, h2⟩
                  · left; omega
                  · exact Or.inr ⟨q1, a1, s, hd, h1, by omega⟩
                · obtain ⟨X, h1, h2, h3⟩ := first_unused_st hfP hQ hus
                  exact ⟨X, by omega, Or.inr ⟨hus, h2⟩, h3⟩
              obtain ⟨Y, hY, hYcase, hYall⟩ : ∃ Y, Y < k ∧ (ρ.sy w = Y ∨ ¬ UsedSy P n k (ρ.sy w) ∧ ¬ UsedSy P n k Y) ∧
                  (Y ≤ 1 ∨ ∃ q a, DefinedCell P n k q a ∧ Y ≤ (P q a).write + 1) := by
                by_cases hus : UsedSy P n k (ρ.sy w)
                · refine ⟨ρ.sy w, hW, Or.inl rfl, ?_⟩
                  rcases hus with h0 | ⟨q1, a1, hd, h1⟩
                  · left; omega
                  · exact Or.inr ⟨q1, a1, hd, by omega⟩
                · obtain ⟨Y, h1, h2, h3⟩ := first_unused_sy hus
                  exact ⟨Y, by omega, Or.inr ⟨hus, h2⟩, h3⟩
              have hinv' := hinv.swap (ρ.st q') X (ρ.sy w) Y hQ hX hW hY hXcase hYcase
              set ρ' := ρ.swap (ρ.st q') X (ρ.sy w) Y hQ hX hW hY with hρ'
              have fixS : Equiv.swap (ρ.st q') X q = q := by
                rcases hXcase with h1 | ⟨h1, h2⟩
                · rw [h1]; simp
                · exact Equiv.swap_apply_of_ne_of_ne (fun e => h1 (e ▸ huq)) (fun e => h2 (e ▸ huq))
              have fixY : Equiv.swap (ρ.sy w) Y a = a := by
                rcases hYcase with h1 | ⟨h1, h2⟩
                · rw [h1]; simp
                · exact Equiv.swap_apply_of_ne_of_ne (fun e => h1 (e ▸ hua)) (fun e => h2 (e ▸ hua))
              have eq' : ρ'.st q0 = q := by
                show Equiv.swap (ρ.st q') X (ρ.st q0) = q; rw [eq]; exact fixS
              have ea' : ρ'.sy a0 = a := by
                show Equiv.swap (ρ.sy w) Y (ρ.sy a0) = a; rw [ea]; exact fixY
              have hfill := hinv'.fill hq0n ha0k eq' ea' hM hu huq hua
              have hinstr : ρ'.instr (M q0 a0) = .go Y (ρ.dir d) X := by
                rw [hM]
                show Instr.go (Equiv.swap (ρ.sy w) Y (ρ.sy w)) (ρ.dir d) (Equiv.swap (ρ.st q') X (ρ.st q')) = _
                rw [Equiv.swap_apply_left, Equiv.swap_apply_left]
              rw [hinstr] at hfill
              have htwo : allow ∨ TwoUndefined P n k := by
                rcases hh with h1 | ⟨qh, hqh, ah, hah, wh, dh, hMh⟩
                · exact Or.inl h1
                · right
                  refine ⟨q, a, ρ.st qh, ρ.sy ah, hqn, hak, ρ.st_lt _ hqh, ρ.sy_lt _ hah, ?_, hu, ?_⟩
                  · intro he
                    simp only [Prod.mk.injEq] at he
                    have e1 := ρ.st_inj q0 hq0n qh hqh (by rw [eq, he.1])
                    have e2 := ρ.sy_inj a0 ha0k ah hah (by rw [ea, he.2])
                    rw [← e1, ← e2, hM] at hMh
                    cases hMh
                  · rcases hinv.restr qh hqh ah hah with h1 | h1
                    · exact h1
                    · rw [hMh] at h1
                      exact absurd h1 (hinv.noHalt _ (ρ.st_lt _ hqh) _ (ρ.sy_lt _ hah) _ _)
              have hdir : ρ.dir d = .R ∨ ∃ q a, DefinedCell P n k q a := by
                rcases hinv.first with h1 | h1
                · exact Or.inr h1
                · by_cases hdef : ∃ q a, DefinedCell P n k q a
                  · exact Or.inr hdef
                  · left
                    -- nothing is defined: the machine is stuck at the start
                    have ht0 : t = 0 := by
                      by_contra hne
                      have h2 := hlt 1 (by omega)
                      apply h2
                      show (step P init).state = none
                      have : P 0 0 = .undef := by
                        by_contra hc
                        exact hdef ⟨0, 0, hn, hk, hc⟩
                      rw [step_state (q := 0) rfl]
                      show (P 0 0).next = none
                      rw [this]; rfl
                    subst ht0
                    have e1 : q0 = 0 := by
                      simp only [run, init, Option.some.injEq] at hq0
                      exact hq0.symm
                    have e2 : a0 = 0 := rfl
                    rw [e1, e2] at hM
                    rw [hM] at h1
                    exact h1
              exact rec _ ρ' hfill (undefCount_fill hqn hak (by simp) hu)
                (closed P t q a Y (ρ.dir d) X hin hex hstuck hqn hak htwo ⟨hY, hX, hYall, hXall, hdir⟩)

end Spec

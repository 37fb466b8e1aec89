import Verif.Lemmas.LinRecur

/-!
# The Python recurrence detector, round by round

Round `e` of Brent's algorithm looks for a recurrence that starts at step `2 ^ e` and has a period of at most `2 ^ e`.
-/

namespace Model.LinRecur
open Spec DirectSim

/-- round `e` is allowed by the limit -/
def Below (maxSteps e : Nat) : Prop := maxSteps = 0 ∨ 2 ^ e < maxSteps

/-- round `e` finds nothing -/
def NoPeriod (M : Table) (e : Nat) : Prop := ∀ i, 0 < i → i ≤ 2 ^ e → ¬ PeriodicFrom M init (2 ^ e) i

/-- What the detector answers after at most `n` rounds. -/
def RoundSpec (M : Table) (maxSteps n : Nat) : Option Outcome → Prop
  | none => (0 < n → (run M (2 ^ n) init).state ≠ none) ∧ ∀ e < n, Below maxSteps e ∧ NoPeriod M e
  | some (.halting t _) => HaltsAt M init t ∧ ∃ e, Below maxSteps e ∧ t ≤ 2 ^ (e + 1)
  | some (.recur s p off _ _) => ∃ e, e < n ∧ s = 2 ^ e ∧ Below maxSteps e ∧ 0 < p ∧ p ≤ 2 ^ e ∧ PeriodicFrom M init s p ∧
      off = (run M (s + p) init).pos - (run M s init).pos ∧
      (∀ i, 0 < i → i < p → ¬ PeriodicFrom M init s i) ∧ ∀ e' < e, NoPeriod M e'
  | some .unknown => maxSteps ≠ 0 ∧ (∃ e, maxSteps ≤ 2 ^ e ∧ (run M (2 ^ e) init).state ≠ none) ∧
      ∀ e, Below maxSteps e → NoPeriod M e
  | some .raise => maxSteps = 1

theorem outer_round {M : Table} {maxSteps : Nat} (fuel : Nat) : ∀ (e : Nat) (sim : DirectSim)
    (ls : List (Option Nat × Nat)) (reset : Option Nat), Good M sim → sim.stepNum = (if sim.halted then 1 else 2 ^ e) →
    (sim.halted = false → SeenInv M sim.stepNum ls) → (sim.halted = true → e = 0) →
    ((reset = none ∧ e = 0) ∨ reset = some sim.stepNum ∧ 0 < e) → (∀ e' < e, Below maxSteps e' ∧ NoPeriod M e') →
    RoundSpec M maxSteps (fuel + e) (outer M maxSteps fuel sim ls reset) := by
  induction fuel with
  | zero =>
    intro e sim ls reset hg hnum hls hhalt hreset hprev
    rw [Nat.zero_add]
    refine ⟨fun he => ?_, hprev⟩
    cases hh : sim.halted with
    | true => have := hhalt hh; omega
    | false =>
      have := hg.running hh
      rw [hnum, hh] at this
      exact this
  | succ fuel ih =>
    intro e sim ls reset hg hnum hls hhalt hreset hprev
    have hpos : 0 < 2 ^ e := Nat.pow_pos (by omega)
    have hstep : sim.stepNum = 2 ^ e := by
      rw [hnum]
      cases hh : sim.halted with
      | true => rw [hhalt hh]; rfl
      | false => rfl
    unfold outer
    by_cases hc : maxSteps = 0 ∨ sim.stepNum < maxSteps
    · rw [if_pos hc]
      have hbelow : Below maxSteps e := by rw [hstep] at hc; exact hc
      cases hh : sim.halted with
      | true =>
        obtain ⟨s', es, _, hsame, _⟩ := DirectSim.good_step hg
        have := hsame hh
        subst this
        rw [inner_halted (by omega) (by simp only; omega) hh es]
        exact ⟨(hg.halt hh).1, e, hbelow, by rw [hstep, Nat.pow_succ]; omega⟩
      | false =>
        have hinner := inner_spec hg hh (reset := 2 * sim.stepNum) (2 * sim.stepNum - sim.stepNum)
          { sim := sim, lastSeen := ls, used := [], mostLeft := sim.tape.position
            mostRight := sim.tape.position }
          ⟨hg, hh, le_refl _, hls hh,
            fun q => ⟨fun h => (by cases h), fun ⟨j, a, b, _⟩ => absurd b (by simp only; omega)⟩,
            fun j a b => by
              simp only at b ⊢
              have : j = sim.stepNum := by omega
              subst this; rw [hg.sim.pos],
            fun j a b => by
              simp only at b ⊢
              have : j = sim.stepNum := by omega
              subst this; rw [hg.sim.pos],
            ⟨sim.stepNum, le_refl _, le_refl _, hg.sim.pos.symm⟩,
            ⟨sim.stepNum, le_refl _, le_refl _, hg.sim.pos.symm⟩⟩
          (by simp only; omega) (fun i hi hle => by simp only at hle; omega)
        generalize inner M sim.tape.copy sim.tape.position sim.state (2 * sim.stepNum)
          (2 * sim.stepNum - sim.stepNum)
          { sim := sim, lastSeen := ls, used := [], mostLeft := sim.tape.position
            mostRight := sim.tape.position } = out at hinner ⊢
        cases out with
        | halted s => exact ⟨(hinner.1.halt hinner.2.1).1, e, hbelow, by have := hinner.2.2; rw [Nat.pow_succ]; omega⟩
        | found st off =>
          obtain ⟨i1, i2, i3, i4, i5, i6⟩ := hinner
          have hsum : sim.stepNum + (st.sim.stepNum - sim.stepNum) = st.sim.stepNum := by omega
          refine ⟨e, by omega, hstep, hbelow, by omega, by omega, i4, by rw [hsum]; exact i3, fun i hi hlt => i6 i hi (by omega),
            fun e' he' => (hprev e' he').2⟩
        | reset st =>
          simp only at hinner ⊢
          obtain ⟨i1, i2, i3⟩ := hinner
          have h2 : st.sim.stepNum = 2 ^ (e + 1) := by rw [i2, hstep, Nat.pow_succ]; omega
          rw [show fuel + 1 + e = fuel + (e + 1) by omega]
          refine ih (e + 1) st.sim st.lastSeen _ i1.good (by rw [i1.running]; exact h2) (fun _ => i1.seen)
            (fun hcontra => by rw [i1.running] at hcontra; cases hcontra) (Or.inr ⟨by rw [i2], by omega⟩) ?_
          intro e' he'
          rcases Nat.lt_or_ge e' e with hlt | hge
          · exact hprev e' hlt
          · obtain rfl : e' = e := by omega
            refine ⟨hbelow, fun i hi hle => ?_⟩
            rw [← hstep] at hle ⊢
            exact i3 i hi (by omega)
        | raise => exact hinner.elim
    · rw [if_neg hc]
      rcases hreset with ⟨hr, he⟩ | ⟨hr, he⟩
      · subst hr
        subst he
        show maxSteps = 1
        simp at hstep
        omega
      · subst hr
        simp only [if_true]
        have hh : sim.halted = false := by
          cases hh : sim.halted with
          | false => rfl
          | true => have := hhalt hh; omega
        refine ⟨by omega, ⟨e, by omega, by rw [← hstep]; exact hg.running hh⟩, fun e' he' => (hprev e' ?_).2⟩
        by_contra hge
        have := Nat.pow_le_pow_right (show 0 < 2 by omega) (show e ≤ e' by omega)
        rcases he' with h | h <;> omega

theorem detect_round (M : Table) (maxSteps fuel : Nat) : RoundSpec M maxSteps fuel (detect M maxSteps fuel) := by
  unfold detect
  obtain ⟨s', e, hg, _, hn⟩ := DirectSim.good_step (DirectSim.good_new M)
  rw [e]
  have hn : s'.stepNum = 1 := hn rfl
  refine outer_round fuel 0 s' _ none hg (by rw [hn]; simp) ?_ (fun _ => rfl) (Or.inl ⟨rfl, rfl⟩) (fun e' he' => by omega)
  intro _
  rw [hn]
  exact seenInv_new M

/-- More rounds and a higher limit do not change a verdict. -/
theorem outer_mono {M : Table} {m m' : Nat} (hm : ∀ n : Nat, (m = 0 ∨ n < m) → (m' = 0 ∨ n < m')) (fuel : Nat) :
    ∀ (fuel' : Nat) (sim : DirectSim) (ls : List (Option Nat × Nat)) (reset : Option Nat) (o : Outcome), fuel ≤ fuel' →
    outer M m fuel sim ls reset = some o → o ≠ .unknown → o ≠ .raise → outer M m' fuel' sim ls reset = some o := by
  induction fuel with
  | zero => intro fuel' sim ls reset o _ h; cases h
  | succ fuel ih =>
    intro fuel' sim ls reset o hf h hu hr
    obtain ⟨f', rfl⟩ : ∃ j, fuel' = j + 1 := ⟨fuel' - 1, by omega⟩
    unfold outer at h ⊢
    by_cases hc : m = 0 ∨ sim.stepNum < m
    · rw [if_pos hc] at h
      rw [if_pos (hm _ hc)]
      generalize inner M sim.tape.copy sim.tape.position sim.state (2 * sim.stepNum)
          (2 * sim.stepNum - sim.stepNum)
          { sim := sim, lastSeen := ls, used := [], mostLeft := sim.tape.position
            mostRight := sim.tape.position } = out at h ⊢
      cases out with
      | halted s => exact h
      | found st off => exact h
      | reset st => exact ih f' _ _ _ o (by omega) h hu hr
      | raise => exact h
    · rw [if_neg hc] at h
      cases reset with
      | none => simp only [Option.some.injEq] at h; exact absurd h.symm hr
      | some r =>
        simp only at h
        split at h
        · simp only [Option.some.injEq] at h; exact absurd h.symm hu
        · simp only [Option.some.injEq] at h; exact absurd h.symm hr

theorem detect_mono {M : Table} {m m' fuel fuel' : Nat} (hm : ∀ n : Nat, (m = 0 ∨ n < m) → (m' = 0 ∨ n < m')) (hf : fuel ≤ fuel')
    {o : Outcome} (h : detect M m fuel = some o) (hu : o ≠ .unknown) (hr : o ≠ .raise) : detect M m' fuel' = some o := by
  unfold detect at h ⊢
  cases e : DirectSim.step M DirectSim.new with
  | none => rw [e] at h; simp only [Option.some.injEq] at h; exact absurd h.symm hr
  | some sim => rw [e] at h; exact outer_mono hm fuel fuel' _ _ _ o hf h hu hr

/-- A history that is periodic has each of its periods from the same start. -/
theorem periodic_same_start {M : Table} {s s' p p' : Nat} (h : PeriodicFrom M init s p) (hp : 0 < p)
    (h' : PeriodicFrom M init s' p') : PeriodicFrom M init s p' := by
  have key : ∀ t, s ≤ t → ∀ k, (run M (t + k * p) init).state = (run M t init).state ∧
      (run M (t + k * p) init).scanned = (run M t init).scanned := by
    intro t ht k
    induction k with
    | zero => simp
    | succ k ih =>
      have := h (t + k * p) (by omega)
      rw [show t + (k + 1) * p = t + k * p + p by rw [Nat.add_mul]; omega, this.2.1, this.2.2]
      exact ih
  intro t ht
  have k1 := key t ht s'
  have k2 := key (t + p') (by omega) s'
  have hle : s' ≤ t + s' * p := by have := Nat.le_mul_of_pos_right s' hp; omega
  have h3 := h' (t + s' * p) hle
  rw [show t + s' * p + p' = t + p' + s' * p by omega] at h3
  exact ⟨(h t ht).1, by rw [← k2.1, h3.2.1, k1.1], by rw [← k2.2, h3.2.2, k1.2]⟩

end Model.LinRecur

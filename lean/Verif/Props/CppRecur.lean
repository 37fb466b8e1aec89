import Verif.Lemmas.CppRecur

/-!
# C64: the linear recurrence detector of the C++ code

`lrDetect tm maxSteps` is `LinRecurDetect`; `tm.Shaped n m` says that the table is complete and every transition is one of a
machine with `n` states and `m` symbols.
-/

namespace Props
open Spec Model.Cpp

/-- The detector always comes to an answer, without leaving an array; it runs for less than twice the limit. -/
theorem C64_ends {tm : TM} {n m : Nat} (hs : tm.Shaped n m) (hn : 0 < n) (hm : 0 < m) (maxSteps : Int) :
    ∃ r, lrDetect tm maxSteps = .ok r ∧ ¬ (r.isHalted = true ∧ r.isLinRecurrent = true) ∧
      (2 ≤ maxSteps → (r.stepsRun : Int) < 2 * maxSteps) := by
  obtain ⟨r, er, h⟩ := lrDetect_spec hs hn hm maxSteps
  refine ⟨r, er, ?_⟩
  cases h with
  | halted e t q a h1 h2 h3 h4 h5 h6 hr =>
    subst hr
    refine ⟨by simp, fun _ => ?_⟩
    rw [Nat.pow_succ] at h4
    show ((t : Nat) : Int) < _
    omega
  | found e p h1 h2 h3 h4 h5 h6 hr =>
    subst hr
    refine ⟨by simp [recurResult], fun _ => ?_⟩
    show ((2 ^ e + p : Nat) : Int) < _
    omega
  | unknown e h1 h2 h3 h4 hr =>
    subst hr
    refine ⟨by simp, fun hm => ?_⟩
    show ((2 ^ e : Nat) : Int) < _
    cases e with
    | zero => simp; omega
    | succ e =>
      have := h3 e (by omega)
      rw [Nat.pow_succ]
      omega

/-- A reported recurrence is real: the machine never halts, and from the start step on it is, after each period, in the same
state at the same symbol, further on the tape by the offset.  No smaller period would do from that start. -/
theorem C64_recur_sound {tm : TM} {n m : Nat} (hs : tm.Shaped n m) (hn : 0 < n) (hm : 0 < m) {maxSteps : Int} {r : LinRecur}
    (h : lrDetect tm maxSteps = .ok r) (hr : r.isLinRecurrent = true) :
    0 < r.period ∧ NeverHalts tm.table init ∧
    (∀ t, r.start ≤ t → (run tm.table (t + r.period) init).state = (run tm.table t init).state ∧
      (run tm.table (t + r.period) init).scanned = (run tm.table t init).scanned ∧
      (run tm.table (t + r.period) init).pos = (run tm.table t init).pos + r.offset) ∧
    ∀ p, 0 < p → p < r.period → ¬ PeriodicFrom tm.table init r.start p := by
  obtain ⟨r', er, hd⟩ := lrDetect_spec hs hn hm maxSteps
  rw [h] at er
  obtain rfl := Out.ok.inj er
  cases hd with
  | halted e t q a h1 h2 h3 h4 h5 h6 ee => rw [ee] at hr; cases hr
  | unknown e h1 h2 h3 h4 ee => rw [ee] at hr; cases hr
  | found e p h1 h2 h3 h4 h5 h6 ee =>
    subst ee
    refine ⟨h2, h4.neverHalts, fun t ht => ⟨(h4 t ht).2.1, (h4 t ht).2.2, h4.pos ht⟩, h5⟩

/-- If halting is reported, the machine halts after exactly the reported number of steps, at the reported cell of the table. -/
theorem C64_halting {tm : TM} {n m : Nat} (hs : tm.Shaped n m) (hn : 0 < n) (hm : 0 < m) {maxSteps : Int} {r : LinRecur}
    (h : lrDetect tm maxSteps = .ok r) (hr : r.isHalted = true) :
    HaltsAt tm.table init r.stepsRun ∧ ∃ q a : Nat, r.lastState = some (q : Int) ∧ r.lastSymbol = some a ∧
      (run tm.table (r.stepsRun - 1) init).state = some q ∧ (run tm.table (r.stepsRun - 1) init).scanned = a ∧
      (tm.table q a).next = none := by
  obtain ⟨r', er, hd⟩ := lrDetect_spec hs hn hm maxSteps
  rw [h] at er
  obtain rfl := Out.ok.inj er
  cases hd with
  | halted e t q a h1 h2 h3 h4 h5 h6 ee =>
    subst ee
    refine ⟨h3, q, a, rfl, rfl, h5, h6, ?_⟩
    have h7 := h3.1
    rw [show t = (t - 1) + 1 by omega, run_succ', step_state h5] at h7
    rw [← h6]; exact h7
  | unknown e h1 h2 h3 h4 ee => rw [ee] at hr; cases hr
  | found e p h1 h2 h3 h4 h5 h6 ee => subst ee; cases hr

/-- If neither is reported, the machine has been run for at least the limit, and has not halted by then. -/
theorem C64_unknown {tm : TM} {n m : Nat} (hs : tm.Shaped n m) (hn : 0 < n) (hm : 0 < m) {maxSteps : Int} (hmax : 2 ≤ maxSteps)
    {r : LinRecur} (h : lrDetect tm maxSteps = .ok r) (h1 : r.isHalted = false) (h2 : r.isLinRecurrent = false) :
    maxSteps ≤ r.stepsRun ∧ (run tm.table r.stepsRun init).state ≠ none := by
  obtain ⟨r', er, hd⟩ := lrDetect_spec hs hn hm maxSteps
  rw [h] at er
  obtain rfl := Out.ok.inj er
  cases hd with
  | halted e t q a _ _ _ _ _ _ ee => rw [ee] at h1; cases h1
  | found e p _ _ _ _ _ _ ee => subst ee; cases h2
  | unknown e g1 g2 g3 g4 ee =>
    subst ee
    refine ⟨g1, g2 ?_⟩
    by_contra h0
    obtain rfl : e = 0 := by omega
    simp at g1
    omega

/-- Every machine that halts within the limit is reported, with its number of steps. -/
theorem C64_finds_halting {tm : TM} {n m : Nat} (hs : tm.Shaped n m) (hn : 0 < n) (hm : 0 < m) {maxSteps : Int} (hmax : 2 ≤ maxSteps)
    {k : Nat} (hk : HaltsAt tm.table init k) (hle : (k : Int) ≤ maxSteps) :
    ∃ r, lrDetect tm maxSteps = .ok r ∧ r.isHalted = true ∧ r.stepsRun = k := by
  obtain ⟨r, er, hd⟩ := lrDetect_spec hs hn hm maxSteps
  refine ⟨r, er, ?_⟩
  cases hd with
  | halted e t q a h1 h2 h3 h4 h5 h6 ee =>
    subst ee
    refine ⟨rfl, ?_⟩
    rcases Nat.lt_trichotomy t k with h | h | h
    · exact absurd h3.1 (hk.2 t h)
    · exact h
    · exact absurd hk.1 (h3.2 k h)
  | found e p _ _ _ h4 _ _ _ => exact absurd hk.1 (h4.neverHalts k)
  | unknown e g1 g2 g3 g4 er =>
    by_cases h0 : e = 0
    · subst h0
      simp at g1
      omega
    · exact absurd (run_none_mono (show k ≤ 2 ^ e by omega) hk.1) (g2 (by omega))

/-- Every recurrence is found whose start and period are at most a power of two that is below the limit. -/
theorem C64_finds_recurrence {tm : TM} {n m : Nat} (hs : tm.Shaped n m) (hn : 0 < n) (hm : 0 < m) {maxSteps : Int} {s p e : Nat}
    (hp : 0 < p) (h : PeriodicFrom tm.table init s p) (h1 : s ≤ 2 ^ e) (h2 : p ≤ 2 ^ e) (h3 : ((2 ^ e : Nat) : Int) < maxSteps) :
    ∃ r, lrDetect tm maxSteps = .ok r ∧ r.isLinRecurrent = true := by
  obtain ⟨r, er, hd⟩ := lrDetect_spec hs hn hm maxSteps
  refine ⟨r, er, ?_⟩
  cases hd with
  | halted e' t q a _ _ g _ _ _ _ => exact absurd g.1 (h.neverHalts t)
  | found e' p' _ _ _ _ _ _ er => subst er; rfl
  | unknown e' g1 g2 g3 g4 er =>
    refine absurd (h.mono h1) (g4 e ?_ p hp h2)
    by_contra hc
    have := Nat.pow_le_pow_right (show 0 < 2 by omega) (show e' ≤ e by omega)
    omega

/-- A halting machine is not reported with a limit of one step, even though the step is made; and a field of the answer is
never given a value. -/
theorem C64_limit_one : HaltsAt (TM.empty 2 2).table init 1 ∧
    ∃ r, lrDetect (TM.empty 2 2) 1 = .ok r ∧ r.isHalted = false ∧ r.stepsRun = 1 ∧ r.maxRef = none := by
  refine ⟨⟨by decide, fun i hi => ?_⟩, ?_⟩
  · obtain rfl : i = 0 := by omega
    decide
  · refine ⟨⟨false, false, 0, 0, 0, some 0, some 0, none, 1⟩, by decide +kernel, rfl, rfl, rfl⟩

/-! ### Examples -/

/-- a machine that walks to the right in two states -/
def cppWalker : TM := { TM.empty 2 2 with transitions := [[⟨1, 1, 1, false⟩, emptyTrans], [⟨1, 1, 0, false⟩, emptyTrans]] }

/-- the table is one of a machine with two states and two symbols -/
theorem cppWalker_shaped : cppWalker.Shaped 2 2 := by
  have hf : ∀ r ∈ cppWalker.transitions, r.length = 2 ∧ ∀ t ∈ r, t = emptyTrans ∨ t = ⟨1, 1, 1, false⟩ ∨ t = ⟨1, 1, 0, false⟩ := by decide
  refine ⟨rfl, rfl, rfl, fun r hr => (hf r hr).1, fun r hr t ht => ?_⟩
  rcases (hf r hr).2 t ht with rfl | rfl | rfl
  · exact ⟨fun _ => rfl, by decide, by decide, by decide, by decide⟩
  · exact ⟨fun h => (by cases h), by decide, by decide, by decide, by decide⟩
  · exact ⟨fun h => (by cases h), by decide, by decide, by decide, by decide⟩

example : ∃ r, lrDetect cppWalker 10 = .ok r ∧ r.isLinRecurrent = true ∧ r.start = 2 ∧ r.period = 2 ∧ r.offset = 2 :=
  ⟨recurResult cppWalker.table 2 2, by decide +kernel, rfl, rfl, rfl, by decide⟩

example : NeverHalts cppWalker.table init :=
  (C64_recur_sound (maxSteps := 10) (r := recurResult cppWalker.table 2 2) cppWalker_shaped (by omega) (by omega) (by decide +kernel) rfl).2.1

end Props

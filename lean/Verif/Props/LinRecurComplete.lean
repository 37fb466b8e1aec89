import Verif.Lemmas.LinRecurComplete
import Verif.Props.LinRecur
import Verif.Props.CppRecur

/-!
# C69: the Python recurrence detector finds what is there, and the C++ one finds the same

`filter M maxSteps findMin fuel` is the detector of `Lin_Recur_Detect.py`; `fuel` is the number of rounds of Brent's algorithm
the caller is prepared to wait for, `maxSteps = 0` means no limit.  `none` is "still running".
-/

namespace Props
open Spec Model LinRecur

/-- the search for the least start does not change the kind of the answer -/
theorem filter_cases (M : Table) (maxSteps : Nat) (findMin : Bool) (fuel : Nat) :
    (∃ s0 s p d used quasi, detect M maxSteps fuel = some (.recur s0 p d used quasi) ∧
      filter M maxSteps findMin fuel = some (.recur s p d used quasi) ∧ s ≤ s0) ∨
    filter M maxSteps findMin fuel = detect M maxSteps fuel ∧ ∀ s p d used quasi, detect M maxSteps fuel ≠ some (.recur s p d used quasi) := by
  cases e : detect M maxSteps fuel with
  | none => right; refine ⟨?_, fun _ _ _ _ _ h => by cases h⟩; unfold filter; rw [e]
  | some o =>
    cases o with
    | recur s p d used quasi =>
      left
      cases findMin with
      | false => exact ⟨s, s, p, d, used, quasi, rfl, by unfold filter; rw [e]; rfl, le_refl _⟩
      | true =>
        have spec := detect_spec M maxSteps fuel _ e
        obtain ⟨s1, e1, hper, hmin⟩ := searchGo_spec spec.2.1.neverHalts p spec.1 (s + 1) (-1) s
          (by omega) (by omega) (by omega) (by simpa using spec.2.1) (by omega)
        have ef : filter M maxSteps true fuel = some (.recur s1 p d used quasi) := by
          unfold filter
          rw [e]
          simp only [if_true]
          rw [periodSearch, e1]
          simp
        refine ⟨s, s1, p, d, used, quasi, rfl, ef, ?_⟩
        by_contra hlt
        exact hmin s (by omega) spec.2.1
    | halting n info => right; refine ⟨?_, fun _ _ _ _ _ h => by cases h⟩; unfold filter; rw [e]
    | unknown => right; refine ⟨?_, fun _ _ _ _ _ h => by cases h⟩; unfold filter; rw [e]
    | raise => right; refine ⟨?_, fun _ _ _ _ _ h => by cases h⟩; unfold filter; rw [e]

/-- **C69.** Every machine that halts within the limit is reported as halting, at its number of steps. -/
theorem C69_finds_halting {M : Table} {maxSteps fuel k : Nat} (findMin : Bool) (hk : HaltsAt M init k)
    (hlim : maxSteps = 0 ∨ k ≤ maxSteps) (h1 : maxSteps ≠ 1) (hf : k ≤ 2 ^ fuel) (hf0 : 0 < fuel) :
    ∃ info, filter M maxSteps findMin fuel = some (.halting k info) := by
  have hr := detect_round M maxSteps fuel
  rcases filter_cases M maxSteps findMin fuel with ⟨s0, s, p, d, used, quasi, e, -⟩ | ⟨e, -⟩
  · exact absurd hk.1 ((detect_spec M maxSteps fuel _ e).2.1.neverHalts k)
  · rw [e]
    cases ed : detect M maxSteps fuel with
    | none => rw [ed] at hr; exact absurd (run_none_mono hf hk.1) (hr.1 hf0)
    | some o =>
      rw [ed] at hr
      cases o with
      | halting t info =>
        obtain rfl := HaltsAt.unique hr.1 hk
        exact ⟨info, rfl⟩
      | recur s p d used quasi => obtain ⟨_, _, _, _, _, _, h, _⟩ := hr; exact absurd hk.1 (h.neverHalts k)
      | unknown =>
        obtain ⟨g1, ⟨e, g2, g3⟩, -⟩ := hr
        exact absurd (run_none_mono (by omega) hk.1) g3
      | raise => exact absurd hr h1

/-- **C69.** Every recurrence is found whose start and period are at most a power of two that is below the limit; the reported
start is at most that power of two. -/
theorem C69_finds_recurrence {M : Table} {maxSteps fuel s p e : Nat} (findMin : Bool) (hp : 0 < p) (h : PeriodicFrom M init s p)
    (hs : s ≤ 2 ^ e) (hpe : p ≤ 2 ^ e) (hlim : maxSteps = 0 ∨ 2 ^ e < maxSteps) (hf : e < fuel) :
    ∃ s' p' d used quasi, filter M maxSteps findMin fuel = some (.recur s' p' d used quasi) ∧ s' ≤ 2 ^ e := by
  have hr := detect_round M maxSteps fuel
  have hno : ¬ NoPeriod M e := fun hn => hn p hp hpe (h.mono hs)
  rcases filter_cases M maxSteps findMin fuel with ⟨s0, s', p', d, used, quasi, e1, e2, hle⟩ | ⟨e1, e2⟩
  · rw [e1] at hr
    obtain ⟨e', -, rfl, -, -, -, -, -, -, hprev⟩ := hr
    refine ⟨s', p', d, used, quasi, e2, le_trans hle (Nat.pow_le_pow_right (by omega) ?_)⟩
    by_contra hlt
    exact hno (hprev e (by omega))
  · exfalso
    cases ed : detect M maxSteps fuel with
    | none => rw [ed] at hr; exact hno (hr.2 e hf).2
    | some o =>
      rw [ed] at hr
      cases o with
      | halting t info => exact h.neverHalts t hr.1.1
      | recur s p d used quasi => exact e2 _ _ _ _ _ ed
      | unknown => exact hno (hr.2.2 e hlim)
      | raise =>
        have : maxSteps = 1 := hr
        have := Nat.pow_pos (n := e) (show 0 < 2 by omega)
        omega

/-- **C69.** Without a limit the detector comes to an end exactly if the machine halts or its history (state, symbol read)
becomes periodic. -/
theorem C69_unlimited_ends (M : Table) (findMin : Bool) :
    (∃ fuel, filter M 0 findMin fuel ≠ none) ↔ (∃ n, HaltsAt M init n) ∨ ∃ s p, 0 < p ∧ PeriodicFrom M init s p := by
  constructor
  · rintro ⟨fuel, hne⟩
    have hr := detect_round M 0 fuel
    rcases filter_cases M 0 findMin fuel with ⟨s0, s', p', d, used, quasi, e1, -⟩ | ⟨e1, e2⟩
    · have := detect_spec M 0 fuel _ e1
      exact Or.inr ⟨s0, p', this.1, this.2.1⟩
    · rw [e1] at hne
      cases ed : detect M 0 fuel with
      | none => exact absurd ed hne
      | some o =>
        rw [ed] at hr
        cases o with
        | halting t info => exact Or.inl ⟨t, hr.1⟩
        | recur s p d used quasi => exact absurd ed (e2 _ _ _ _ _)
        | unknown => exact absurd rfl hr.1
        | raise => cases hr
  · rintro (⟨n, hn⟩ | ⟨s, p, hp, h⟩)
    · obtain ⟨info, e⟩ := C69_finds_halting (maxSteps := 0) (fuel := n + 1) findMin hn (Or.inl rfl) (by omega)
        (by have := Nat.lt_two_pow_self (n := n + 1); omega) (by omega)
      exact ⟨n + 1, by rw [e]; simp⟩
    · have := Nat.lt_two_pow_self (n := s + p)
      obtain ⟨s', p', d, used, quasi, e, -⟩ := C69_finds_recurrence (maxSteps := 0) (fuel := s + p + 1) (e := s + p) findMin hp h
        (by omega) (by omega) (Or.inl rfl) (by omega)
      exact ⟨s + p + 1, by rw [e]; simp⟩

/-- **C69.** The reported period is the least with which the history of the machine is periodic from any step on; and with the
search for the start switched on, the reported start is the least step from which the history is periodic at all. -/
theorem C69_least_period {M : Table} {maxSteps fuel s p : Nat} {findMin : Bool} {d : Int}
    {used : List (Option Nat)} {quasi : Option (Option Nat × Nat)}
    (h : filter M maxSteps findMin fuel = some (.recur s p d used quasi)) :
    IsLeast {p | 0 < p ∧ ∃ s, PeriodicFrom M init s p} p ∧
    (findMin = true → IsLeast {s | ∃ p, 0 < p ∧ PeriodicFrom M init s p} s) := by
  obtain ⟨s0, e, hle, hper, hmin⟩ := filter_recur h
  have hr := detect_round M maxSteps fuel
  rw [e] at hr
  obtain ⟨e', -, -, -, hp, -, hper0, -, hleast, -⟩ := hr
  refine ⟨⟨⟨hp, s, hper⟩, ?_⟩, fun hf => ⟨⟨p, hp, hper⟩, ?_⟩⟩
  · rintro p' ⟨hp', s', h'⟩
    by_contra hlt
    exact hleast p' hp' (by omega) (periodic_same_start hper0 hp h')
  · rintro s' ⟨p', hp', h'⟩
    by_contra hlt
    exact hmin hf s' (by omega) (periodic_same_start h' hp' hper)

/-- **C69.** A verdict stands: with more rounds, and with a higher limit or none, the detector gives the same answer. -/
theorem C69_verdict_stands {M : Table} {m m' fuel fuel' : Nat} {findMin : Bool} {o : Outcome}
    (h : filter M m findMin fuel = some o) (hu : o ≠ .unknown) (hr : o ≠ .raise)
    (hm : m' = 0 ∨ (m ≠ 0 ∧ m ≤ m')) (hf : fuel ≤ fuel') : filter M m' findMin fuel' = some o := by
  have hm' : ∀ n : Nat, (m = 0 ∨ n < m) → (m' = 0 ∨ n < m') := fun n hn => by omega
  rcases filter_cases M m findMin fuel with ⟨s0, s, p, d, used, quasi, e1, -⟩ | ⟨e1, -⟩
  · have e3 := detect_mono hm' hf e1 (by simp) (by simp)
    unfold filter at h ⊢
    rw [e1] at h
    rw [e3]
    exact h
  · rw [e1] at h
    have e3 := detect_mono hm' hf h hu hr
    have e4 := e1
    unfold filter at e4 ⊢
    rw [h] at e4
    rw [e3]
    exact e4

/-- **C69.** The only limit with which the detector raises an exception is one step; there it always does. -/
theorem C69_raises_iff (M : Table) (maxSteps fuel : Nat) (findMin : Bool) :
    filter M maxSteps findMin (fuel + 1) = some .raise ↔ maxSteps = 1 := by
  refine ⟨(C17_lin_recur_other M maxSteps (fuel + 1) findMin).1, ?_⟩
  rintro rfl
  have : detect M 1 (fuel + 1) = some .raise := by
    unfold detect
    obtain ⟨s', e, hg, _, hn⟩ := DirectSim.good_step (DirectSim.good_new M)
    rw [e]
    have hn : s'.stepNum = 1 := hn rfl
    simp only
    unfold outer
    rw [if_neg (by omega)]
  unfold filter
  rw [this]

/-- **C69.** The C++ detector gives the same answer as the Python one (before its search for the least start), for the same
machine and limit: the same number of steps and cell of the table for a halt, the same start, period and offset for a
recurrence, and if one of them gives up so does the other. -/
theorem C69_agrees_cpp {tm : Cpp.TM} {n m : Nat} (hs : tm.Shaped n m) (hn : 0 < n) (hm : 0 < m) {maxSteps fuel : Nat}
    (hmax : 2 ≤ maxSteps) (hf : maxSteps ≤ fuel) :
    ∃ r o, Cpp.lrDetect tm maxSteps = .ok r ∧ filter tm.table maxSteps false fuel = some o ∧
      match o with
      | .halting k info => r.isHalted = true ∧ r.isLinRecurrent = false ∧ r.stepsRun = k ∧
          ∃ q a : Nat, info = some (score (run tm.table k init), q, a) ∧ r.lastState = some (q : Int) ∧ r.lastSymbol = some a
      | .recur s p d _ _ => r.isHalted = false ∧ r.isLinRecurrent = true ∧ r.start = s ∧ r.period = p ∧ r.offset = d
      | .unknown => r.isHalted = false ∧ r.isLinRecurrent = false
      | .raise => False := by
  obtain ⟨r, er, hd⟩ := Cpp.lrDetect_spec hs hn hm (maxSteps : Int)
  have hne := C17_lin_recur_ends tm.table maxSteps fuel false (by omega) hf
  obtain ⟨o, eo⟩ := Option.ne_none_iff_exists'.1 hne
  refine ⟨r, o, er, eo, ?_⟩
  have ed : detect tm.table maxSteps fuel = some o := by
    rcases filter_cases tm.table maxSteps false fuel with ⟨s0, s, p, d, used, quasi, e1, -⟩ | ⟨e1, -⟩
    · rw [← eo, e1]; unfold filter; rw [e1]; rfl
    · rw [← e1]; exact eo
  have hr := detect_round tm.table maxSteps fuel
  have hsp := detect_spec tm.table maxSteps fuel _ ed
  rw [ed] at hr
  cases o with
  | halting k info =>
    obtain ⟨hk, q, a, h1, h2, h3, h4⟩ := hsp
    cases hd with
    | halted e t q' a' g1 g2 g3 g4 g5 g6 ee =>
      subst ee
      obtain rfl := HaltsAt.unique g3 hk
      refine ⟨rfl, rfl, rfl, q, a, h1, ?_, ?_⟩
      · rw [h2] at g5
        obtain rfl := Option.some.inj g5
        rfl
      · rw [← g6, ← h3]; rfl
    | found e p _ _ _ g4 _ _ _ => exact absurd hk.1 (g4.neverHalts k)
    | unknown e' g1 g2 g3 g4 ee =>
      obtain ⟨-, e, hb, hle⟩ := hr
      have hlt : e < e' := by
        by_contra hc
        have := Nat.pow_le_pow_right (show 0 < 2 by omega) (show e' ≤ e by omega)
        rcases hb with hb | hb <;> omega
      have := Nat.pow_le_pow_right (show 0 < 2 by omega) (show e + 1 ≤ e' by omega)
      exact absurd (run_none_mono (by omega) hk.1) (g2 (by omega))
  | recur s p d used quasi =>
    obtain ⟨e, -, rfl, hb, h1, h2, h3, h4, h5, h6⟩ := hr
    cases hd with
    | halted e t q' a' g1 g2 g3 g4 g5 g6 ee => exact absurd g3.1 (h3.neverHalts t)
    | found e' p' g0 g1 g2 g3 g4 g5 ee =>
      subst ee
      have hee : e' = e := by
        rcases Nat.lt_trichotomy e' e with h | h | h
        · exact absurd g3 (h6 e' h p' g1 g2)
        · exact h
        · exact absurd h3 (g5 e h p h1 h2)
      subst hee
      have hpp : p' = p := by
        rcases Nat.lt_trichotomy p' p with h | h | h
        · exact absurd g3 (h5 p' g1 h)
        · exact h
        · exact absurd h3 (g4 p h1 h)
      subst hpp
      exact ⟨rfl, rfl, rfl, rfl, h4.symm⟩
    | unknown e' g1 g2 g3 g4 ee =>
      refine absurd h3 (g4 e ?_ p h1 h2)
      by_contra hc
      have := Nat.pow_le_pow_right (show 0 < 2 by omega) (show e' ≤ e by omega)
      rcases hb with hb | hb <;> omega
  | unknown =>
    obtain ⟨h1, ⟨e', h2, h2'⟩, h3⟩ := hr
    cases hd with
    | halted e t q' a' g1 g2 g3 g4 g5 g6 ee =>
      have hlt : e < e' := by
        by_contra hc
        have := Nat.pow_le_pow_right (show 0 < 2 by omega) (show e' ≤ e by omega)
        omega
      have := Nat.pow_le_pow_right (show 0 < 2 by omega) (show e + 1 ≤ e' by omega)
      exact absurd (run_none_mono (by omega) g3.1) h2'
    | found e' p' g0 g1 g2 g3 g4 g5 ee => exact absurd g3 (h3 e' (Or.inr (by omega)) p' g1 g2)
    | unknown e' g1 g2 g3 g4 ee => subst ee; exact ⟨rfl, rfl⟩
  | raise => have : maxSteps = 1 := hr; omega

/-! ### Examples -/

/-- the walker of the C++ examples is periodic with period 2 from the beginning -/
theorem cppWalker_periodic : PeriodicFrom cppWalker.table init 2 2 :=
  ((detect_spec cppWalker.table 10 10 (.recur 2 2 2 [some 0, some 1] none) (by decide +kernel))).2.1

example : ∃ s' p' d used quasi, filter cppWalker.table 5 true 3 = some (.recur s' p' d used quasi) ∧ s' ≤ 2 ^ 1 :=
  C69_finds_recurrence (e := 1) true (by omega) cppWalker_periodic (by decide) (by decide) (Or.inr (by decide)) (by omega)

example : ∃ fuel, filter cppWalker.table 0 true fuel ≠ none :=
  (C69_unlimited_ends _ true).2 (Or.inr ⟨2, 2, by omega, cppWalker_periodic⟩)

example : filter cppWalker.table 0 true 7 = some (.recur 0 2 2 [some 0, some 1] none) :=
  C69_verdict_stands (m := 5) (fuel := 3) (by decide +kernel) (by simp) (by simp) (Or.inl rfl) (by omega)

example : IsLeast {p | 0 < p ∧ ∃ s, PeriodicFrom cppWalker.table init s p} 2 :=
  (C69_least_period (maxSteps := 5) (fuel := 3) (findMin := true) (s := 0) (d := 2) (used := [some 0, some 1]) (quasi := none)
    (by decide +kernel)).1

example : ∃ info, filter (Cpp.TM.empty 2 2).table 2 false 2 = some (.halting 1 info) :=
  C69_finds_halting false ⟨by decide, fun i hi => by obtain rfl : i = 0 := by omega
                                                     decide⟩ (Or.inr (by omega)) (by omega) (by omega) (by omega)

example : ∃ r o, Cpp.lrDetect cppWalker 5 = .ok r ∧ filter cppWalker.table 5 false 5 = some o ∧ r.period = 2 ∧
    ∃ used quasi, o = .recur 2 2 2 used quasi := by
  obtain ⟨r, o, h1, h2, h3⟩ := C69_agrees_cpp (maxSteps := 5) (fuel := 5) cppWalker_shaped (by omega) (by omega) (by omega) (by omega)
  refine ⟨r, o, h1, h2, ?_⟩
  have h4 : filter cppWalker.table 5 false 5 = some (.recur 2 2 2 [some 0, some 1] none) := by decide +kernel
  rw [h4] at h2
  obtain rfl := Option.some.inj h2
  exact ⟨h3.2.2.2.1, _, _, rfl⟩

end Props

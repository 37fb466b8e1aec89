import Verif.Lemmas.ValidatorCount

/-!
# C62: what the rule validator reads is what is written

`Spec/ValidatorText.lean` says which machines, counts and configurations are printed so that they can be read (`TransOk`,
`CountOk`, `ConfigOk`), and what a written count means (`Term`).
-/

namespace Props
open Model.Validator
open Spec.Validator Spec.ValidatorText

/-- A machine printed and read is the same machine. -/
theorem C62_tm_roundtrip (m : Mode) (tm : TM) (hne : tm ≠ []) (h : ∀ row ∈ tm, ∀ t ∈ row, TransOk t) :
    readTM m (showTM tm) = .ok tm := readTM_show m tm hne h

/-- A machine is read from one text only, and it is always one that can be printed. -/
theorem C62_tm_exact {m : Mode} {s : List Char} {tm : TM} (h : readTM m s = .ok tm) :
    showTM tm = s ∧ tm ≠ [] ∧ ∀ row ∈ tm, ∀ t ∈ row, TransOk t := ⟨showTM_read h, readTM_ok h⟩

/-- A sum of terms `13`, `x`, `12x`, in any order and with repetitions, is read as their sum, if the numbers in it add up to less
than `2^64`. -/
theorem C62_count_value (m : Mode) (ts : List Term) (hne : ts ≠ []) (hw : ∀ t ∈ ts, t.Written)
    (h : (ts.map Term.number).sum < 2 ^ 64) :
    ∃ s, readSum m (Py.join '+' (ts.map Term.text)) = .ok s ∧ ∀ v, sumValue v s = (ts.map (Term.value v)).sum :=
  readSum_value m ts hne hw h

/-- A count printed and read is the same count. -/
theorem C62_count_roundtrip (m : Mode) (e : Count) (h : CountOk e) : readCount m (showCount e) = .ok e := readCount_show m e h

/-- A configuration printed and read is the same configuration. -/
theorem C62_config_roundtrip (m : Mode) (c : Config) (h : ConfigOk c) : readConfig m (showConfig c) = .ok c :=
  readConfig_show m c h

/-- Functions are printed, but reading them is an error. -/
theorem C62_function_unreadable (m : Mode) (x : Nat) (f n b : CountExpr) :
    readCount m (showCount (.fin (.iter x f n b))) = .err := readCount_iter m x f n b

/-- Not everything that is accepted means what it says: whatever comes after the letter of a term is ignored. -/
theorem C62_rest_ignored (m : Mode) (ds : List Char) (c : Char) (r : List Char) (hd : ∀ c ∈ ds, c ∈ "0123456789".toList)
    (hc : c ∈ "abcdefghijklmnopqrstuvwxyz".toList) (hr : '+' ∉ r) : readSum m (ds ++ c :: r) = readSum m (ds ++ [c]) :=
  readSum_rest m ds c r hd hc hr

/-- so `n-1` is read as `n` -/
theorem C62_minus_false (m : Mode) : readCount m "n-1".toList = .ok (.fin (.ofVar 0)) ∧
    readConfig m "0^inf 1^n-1 A> 0^inf".toList = readConfig m "0^inf 1^n A> 0^inf".toList :=
  ⟨rfl, rfl⟩

/-- In a term without letters, everything before the last number is ignored. -/
theorem C62_front_ignored (m : Mode) (p ds : List Char) (y : Char)
    (hp : ∀ c ∈ p ++ [y], c ∉ "abcdefghijklmnopqrstuvwxyz".toList) (hy : y ∉ "0123456789".toList)
    (hp' : '+' ∉ p ++ [y]) (hd : ∀ c ∈ ds, c ∈ "0123456789".toList) (hne : ds ≠ []) :
    readSum m (p ++ [y] ++ ds) = readSum m ds := by
  refine readSum_last m p ds y (fun c hc => ?_) ?_ hp' hd hne
  · by_contra h
    exact hp c hc (lower_mem (by simpa using h))
  · by_contra h
    exact hy (digit_mem (by simpa using h))

/-- so `10-3` is read as 3 -/
theorem C62_difference_false (m : Mode) : readCount m "10-3".toList = .ok (.fin (.ofNat 3)) := rfl

/-- The running state with number 25 is printed as `Z` and read as the halting state. -/
theorem C62_state_false (m : Mode) : readTM m (showTM [[.to 1 .R (some 25)]]) = .ok [[.to 1 .R none]] ∧
    readConfig m (showConfig ⟨[], [], some 25, .R⟩) = .ok ⟨[], [], none, .R⟩ := ⟨rfl, rfl⟩

/-- The symbol 10 is printed as two digits and read as two symbols on the tape; in a machine it is an error. -/
theorem C62_symbol_false (m : Mode) :
    readConfig m (showConfig ⟨[⟨[10], .inf⟩], [], some 0, .R⟩) = .ok ⟨[⟨[0, 1], .inf⟩], [], some 0, .R⟩ ∧
    readTM m (showTM [[.to 10 .R (some 0)]]) = .err := ⟨rfl, rfl⟩

/-! ### Examples -/

def exText : TM := [[.to 1 .R (some 1), .to 1 .L (some 1)], [.to 1 .L (some 0), .undef], [.to 0 .R none, .to 2 .L (some 24)]]

example : showTM exText = "1RB1LB_1LA---_0RZ2LY".toList := by decide

example : readTM debug (showTM exText) = .ok exText :=
  C62_tm_roundtrip debug exText (by simp [exText]) (by simp [exText, TransOk])

example : readTM debug "1RB1LB_1LA".toList ≠ .err ∧ readTM debug "1RB1L_1LA".toList = .err ∧
    readTM debug "1R5".toList = .panic ∧ readTM release "1R5".toList = .err := by decide

/-- `a+2b+7+a+3` is `2a+2b+10` -/
example : readSum debug "a+2b+7+a+3".toList = .ok ⟨[(1, 2), (2, 2)], 10⟩ := rfl

example : ∃ s, readSum release "a+2b+7+a+3".toList = .ok s ∧
    ∀ v, sumValue v s = v 1 + (2 * v 2 + (7 + (v 1 + (3 + 0)))) := by
  obtain ⟨s, h1, h2⟩ := C62_count_value release [.var [] 'a', .var ['2'] 'b', .const ['7'], .var [] 'a', .const ['3']] (by simp)
    (by simp [Term.Written]) (by simp [Term.number, decimal])
  refine ⟨s, h1, fun v => ?_⟩
  rw [h2]
  simp [Term.value, Term.number, decimal, show letterVar 'a' = 1 from rfl, show letterVar 'b' = 2 from rfl]

/-- an overflow panics, or wraps around -/
example : readSum debug "18446744073709551615+1".toList = .panic ∧
    readSum release "18446744073709551615+1".toList = .ok (.ofNat 0) := ⟨rfl, rfl⟩

def exConfig : Model.Validator.Config :=
  ⟨[⟨[1, 0], .fin (.varPlus 0 3)⟩, ⟨[0], .inf⟩], [⟨[2, 1], .fin (.ofNat 1)⟩, ⟨[0], .inf⟩], some 2, .L⟩

example : showConfig exConfig = "0^inf 01^n+3 <C 21 0^inf".toList := by decide

example : readConfig debug (showConfig exConfig) = .ok exConfig := by
  refine C62_config_roundtrip debug exConfig ⟨?_, ?_, ?_⟩
  · intro b hb
    simp only [exConfig, List.mem_cons, List.not_mem_nil, or_false] at hb
    rcases hb with rfl | rfl
    · exact ⟨by simp, by simp, ⟨by simp, by simp, by simp, by simp⟩⟩
    · exact ⟨by simp, by simp, trivial⟩
  · intro b hb
    simp only [exConfig, List.mem_cons, List.not_mem_nil, or_false] at hb
    rcases hb with rfl | rfl
    · exact ⟨by simp, by simp, ⟨by simp [VarSum.ofNat], by simp [VarSum.ofNat], by simp [VarSum.ofNat], by simp [VarSum.ofNat]⟩⟩
    · exact ⟨by simp, by simp, trivial⟩
  · intro k hk
    simp only [exConfig, Option.some.injEq] at hk
    omega

/-- several blanks, blanks at the ends, empty half tapes -/
example : readConfig debug "  12   A>".toList = .ok ⟨[⟨[2, 1], .fin (.ofNat 1)⟩], [], some 0, .R⟩ ∧
    readConfig debug "<B".toList = .ok ⟨[], [], some 1, .L⟩ ∧ readConfig debug "1^0 <Z 0^inf".toList =
      .ok ⟨[⟨[1], .fin (.ofNat 0)⟩], [⟨[0], .inf⟩], none, .L⟩ ∧ readConfig debug "1 A 1".toList = .err := ⟨rfl, rfl, rfl, rfl⟩

/-- `(λx.x+2) n` is printed and cannot be read -/
example : showCount (.fin (.iter 23 (.varPlus 23 2) (.ofVar 0) (.ofNat 0))) = "((λx.x+2)^n 0)".toList := by decide

end Props

import Verif.Lemmas.Status

/-!
# C31, C32: big integers and status records

`setBigInt dumps old v` is `set_big_int(field, v)` on a field that held `old`; `getBigInt loads f` is
`get_big_int(f)`.  `dumps` and `loads` stand for Python's `pickle`.
-/

namespace Props
open Model.Status

variable {E : Type} (dumps : E → List Nat) (loads : List Nat → Option E)

/-! ## C31 -/

/-- **C31.** Any integer can be stored in a field, whatever it held, and read back. -/
theorem C31_bigint_roundtrip (old : BigInt) (v : Int) :
    ∃ f, setBigInt dumps old (.int v) = some f ∧ getBigInt loads f = some (some (.int v)) := by
  unfold setBigInt
  by_cases h : v.natAbs ≤ bigIntMax
  · simp only [if_pos h]
    rw [if_pos (by unfold bigIntMax at h; omega)]
    exact ⟨_, rfl, rfl⟩
  · simp only [if_neg h]
    exact ⟨_, rfl, by simp [getBigInt, parseHex_hex]⟩

/-- **C31.** Integers of absolute value below 2^63 are stored as such; all others as hexadecimal text. -/
theorem C31_small_plain (old : BigInt) (v : Int) :
    (v.natAbs < 2 ^ 63 → setBigInt dumps old (.int v) = some (.int v)) ∧
    (2 ^ 63 ≤ v.natAbs → setBigInt dumps old (.int v) = some (.hexStr (hex v))) := by
  unfold setBigInt
  constructor
  · intro h
    have : v.natAbs ≤ bigIntMax := by unfold bigIntMax; omega
    simp only [if_pos this]
    rw [if_pos (by omega)]
  · intro h
    have : ¬ v.natAbs ≤ bigIntMax := by unfold bigIntMax; omega
    simp only [if_neg this]

/-- **C31.** The same for `ExpInt` objects, as far as pickling works; other objects are refused. -/
theorem C31_expint_roundtrip (hp : ∀ e, loads (dumps e) = some e) (old : BigInt) (e : E) :
    ∃ f, setBigInt dumps old (.exp e) = some f ∧ getBigInt loads f = some (some (.exp e)) :=
  ⟨_, rfl, by simp [getBigInt, hp]⟩

/-- **C31.** Reading: a field that was never set gives `None`; integers are read from each of the three kinds of fields that
may hold them, also the old one that is not written any more. -/
theorem C31_reads (n : Nat) (v : Int) : getBigInt loads .unset = some none ∧
    getBigInt loads (.int v) = some (some (.int v)) ∧ getBigInt loads (.uintOld n) = some (some (.int n)) ∧
    getBigInt loads (.hexStr (hex v)) = some (some (.int v)) :=
  ⟨rfl, rfl, rfl, by simp [getBigInt, parseHex_hex]⟩

theorem C31_refused (old : BigInt) : setBigInt dumps old .other = none := rfl

-- at the borders
example : setBigInt (E := Empty) (fun _ => []) .unset (.int (2 ^ 63 - 1)) = some (.int (2 ^ 63 - 1)) :=
  (C31_small_plain _ _ _).1 (by decide)
example : setBigInt (E := Empty) (fun _ => []) .unset (.int (-2 ^ 63)) = some (.hexStr (hex (-2 ^ 63))) :=
  (C31_small_plain _ _ _).2 (by decide)
example : hex (-2 ^ 64 - 10) = "-0x1000000000000000a".toList := by
  simp [hex, hexDigits, hexDigit]
example : parseHex "-0x1000000000000000a".toList = some (-2 ^ 64 - 10) := by decide

/-! ## C32 -/

/-- The flags of a status are consistent. -/
def Coherent (s : BBStatus) : Prop :=
  s.halt.halting = true → s.halt.decided = true ∧ s.quasi.decided = true ∧ s.quasi.quasihalting = false

/-- **C32, partial.** After any sequence of updates in which no recurrence is reported for a machine marked as
halting, a machine marked halting is decided and marked as not quasihalting.  Missing: sequences that report a
recurrence for a machine marked halting, see `C32_halting_and_quasihalting`. -/
theorem C32_coherent_partial (us : List (Update E)) (s : BBStatus) (h : applyAll dumps .empty us = some s)
    (hrec : ∀ pre ignore seen post s', us = pre ++ .infRecur ignore seen :: post → applyAll dumps .empty pre = some s' →
      s'.halt.halting = false) : Coherent s := by
  have gen : ∀ (us pre : List (Update E)) (s0 : BBStatus), applyAll dumps .empty pre = some s0 → Coherent s0 →
      applyAll dumps s0 us = some s →
      (∀ pre' ignore seen post s', pre ++ us = pre' ++ .infRecur ignore seen :: post →
        applyAll dumps .empty pre' = some s' → s'.halt.halting = false) → Coherent s := by
    have happ : ∀ (a b : List (Update E)) (s0 : BBStatus), applyAll dumps s0 (a ++ b) =
        (applyAll dumps s0 a).bind fun s1 => applyAll dumps s1 b := by
      intro a
      induction a with
      | nil => intro b s0; rfl
      | cons u a ih =>
        intro b s0
        rw [List.cons_append]
        conv_lhs => unfold applyAll
        conv_rhs => lhs; unfold applyAll
        cases u.apply dumps s0 with
        | none => rfl
        | some s1 => exact ih b s1
    intro us
    induction us with
    | nil =>
      intro pre s0 _ hc h _
      unfold applyAll at h
      cases h
      exact hc
    | cons u us ih =>
      intro pre s0 hpre hc h hr
      unfold applyAll at h
      cases hu : u.apply dumps s0 with
      | none => rw [hu] at h; cases h
      | some s1 =>
        rw [hu] at h
        refine ih (pre ++ [u]) s1 ?_ ?_ h (by simpa using hr)
        · rw [happ, hpre]
          simp [applyAll, hu]
        · cases u with
          | halting steps score q a =>
            unfold Update.apply setHalting at hu
            simp only at hu
            split at hu
            · cases hu
            · split at hu
              · cases hu
              · cases hu
                intro _
                exact ⟨rfl, rfl, rfl⟩
          | notHalting r =>
            cases hu
            intro h'
            cases h'
          | notQuasihalting =>
            cases hu
            intro h'
            exact ⟨(hc h').1, rfl, rfl⟩
          | infRecur ignore seen =>
            have hf := hr pre ignore seen us s0 rfl hpre
            have : s1.halt = s0.halt := by
              unfold Update.apply setInfRecur at hu
              simp only at hu
              split at hu
              · split at hu
                · cases hu; rfl
                · split at hu
                  · cases hu
                  · cases hu; rfl
              · cases hu; rfl
            intro h'
            rw [this, hf] at h'
            cases h'
  exact gen us [] .empty rfl (by intro h; cases h) h (by simpa using hrec)

/-- **C32.** Marking a machine as halting: the record says so, the step count and the score read back, and nothing
else is claimed. -/
theorem C32_halting (s : BBStatus) (steps score : Int) (q a : Nat) :
    ∃ s', setHalting dumps s (.int steps) (some (.int score)) (some q) (some a) = some s' ∧
      s'.halt.decided = true ∧ s'.halt.halting = true ∧
      getBigInt loads s'.halt.steps = some (some (.int steps)) ∧ getBigInt loads s'.halt.score = some (some (.int score)) ∧
      s'.halt.fromState = q ∧ s'.halt.fromSymbol = a ∧
      s'.quasi.decided = true ∧ s'.quasi.quasihalting = false := by
  obtain ⟨f, f1, f2⟩ := C31_bigint_roundtrip dumps loads s.halt.steps steps
  obtain ⟨g, g1, g2⟩ := C31_bigint_roundtrip dumps loads s.halt.score score
  unfold setHalting
  rw [f1]
  simp only
  rw [g1]
  exact ⟨_, rfl, rfl, rfl, f2, g2, rfl, rfl, rfl, rfl⟩

/-- **C32.** The optional arguments: what is not given is left as it was. -/
theorem C32_halting_defaults (s : BBStatus) (steps : Int) (score : Option Int) (q a : Option Nat) :
    ∃ s', setHalting dumps s (.int steps) (score.map .int) q a = some s' ∧
      (score = none → s'.halt.score = s.halt.score) ∧
      (∀ v, score = some v → getBigInt loads s'.halt.score = some (some (.int v))) ∧
      (q = none → s'.halt.fromState = s.halt.fromState) ∧ (∀ q', q = some q' → s'.halt.fromState = q') ∧
      (a = none → s'.halt.fromSymbol = s.halt.fromSymbol) ∧ (∀ a', a = some a' → s'.halt.fromSymbol = a') ∧
      s'.halt.infReason = s.halt.infReason ∧ s'.quasi.steps = s.quasi.steps ∧ s'.quasi.state = s.quasi.state := by
  obtain ⟨f, f1, -⟩ := C31_bigint_roundtrip dumps loads s.halt.steps steps
  have opt : ∀ (x : Option Nat) (y : Nat), (x = none → x.getD y = y) ∧ ∀ z, x = some z → x.getD y = z := by
    intro x y
    exact ⟨by rintro rfl; rfl, by rintro z rfl; rfl⟩
  cases score with
  | none =>
    simp only [setHalting, f1, Option.map_none]
    exact ⟨_, rfl, fun _ => rfl, nofun, (opt q _).1, (opt q s.halt.fromState).2, (opt a _).1,
      (opt a s.halt.fromSymbol).2, rfl, rfl, rfl⟩
  | some v =>
    obtain ⟨g, g1, g2⟩ := C31_bigint_roundtrip dumps loads s.halt.score v
    simp only [setHalting, f1, Option.map_some, g1]
    exact ⟨_, rfl, nofun, by rintro _ ⟨⟩; exact g2, (opt q _).1, (opt q s.halt.fromState).2, (opt a _).1,
      (opt a s.halt.fromSymbol).2, rfl, rfl, rfl⟩

/-- **C32.** Marking a machine as infinite: decided, not halting, the reason is stored; the quasihalt part is left
alone. -/
theorem C32_infinite (s : BBStatus) (reason : Nat) :
    (setNotHalting s reason).halt.decided = true ∧ (setNotHalting s reason).halt.halting = false ∧
      (setNotHalting s reason).halt.infReason = reason ∧ (setNotHalting s reason).quasi = s.quasi :=
  ⟨rfl, rfl, rfl, rfl⟩

/-- **C32.** A recurrence report with the times at which each state was last seen (`seen`) and the states of the
recurring part (`ignore`): the quasihalt status is decided.  If all states seen are recurring the machine does not
quasihalt.  Otherwise it does, at the latest last time of a non-recurring state, plus one, in such a state. -/
theorem C32_recurrence (s : BBStatus) (ignore : List Nat) (seen : List (Nat × Int)) (hpos : ∀ e ∈ seen, 0 ≤ e.2) :
    ∃ s', setInfRecur dumps s (some ignore) (some seen) = some s' ∧ s'.quasi.decided = true ∧
      ((∀ e ∈ seen, e.1 ∈ ignore) → s'.quasi.quasihalting = false) ∧
      ((∃ e ∈ seen, e.1 ∉ ignore) → s'.quasi.quasihalting = true ∧ ∃ l, (s'.quasi.state, l) ∈ seen ∧
        s'.quasi.state ∉ ignore ∧ (∀ e ∈ seen, e.1 ∉ ignore → e.2 ≤ l) ∧
        getBigInt loads s'.quasi.steps = some (some (.int (l + 1)))) := by
  unfold setInfRecur
  simp only
  rcases recurLoop_spec ignore seen none (-1) with ⟨h1, h2⟩ | ⟨q, l, h1, h2, h3, h4, h5⟩
  · rw [h1]
    refine ⟨_, rfl, rfl, fun _ => rfl, ?_⟩
    rintro ⟨e, he, hi⟩
    have := h2 e he hi
    have := hpos e he
    omega
  · rw [h1]
    obtain ⟨f, f1, f2⟩ := C31_bigint_roundtrip dumps loads s.quasi.steps (l + 1)
    simp only
    rw [f1]
    refine ⟨_, rfl, rfl, ?_, fun _ => ⟨rfl, l, h2, h3, h5, f2⟩⟩
    intro hall
    exact absurd (hall _ h2) h3

/-- **C32 fails: a recurrence report does not set the infinite flag.** (The docstring says that it does.)  It
leaves the halt status as it was. -/
theorem C32_recurrence_not_infinite (s s' : BBStatus) (ignore : Option (List Nat)) (seen : Option (List (Nat × Int)))
    (h : setInfRecur dumps s ignore seen = some s') : s'.halt = s.halt := by
  unfold setInfRecur at h
  split at h
  · split at h
    · cases h; rfl
    · split at h
      · cases h
      · cases h; rfl
  · cases h; rfl

/-- **C32 fails for sequences that mix the two kinds of reports**: a machine can end up marked as halting and as
quasihalting. -/
theorem C32_halting_and_quasihalting : ∃ (us : List (Update Empty)) (s : BBStatus),
    applyAll (fun _ => []) .empty us = some s ∧ s.halt.halting = true ∧ s.quasi.quasihalting = true :=
  ⟨[.halting (.int 5) none none none, .infRecur (some [0]) (some [(1, 3)])], _, rfl, rfl, rfl⟩

/-- A report without data leaves an undecided status that still says "quasihalting". -/
theorem C32_undecided_quasihalting : ∃ (us : List (Update Empty)) (s : BBStatus),
    applyAll (fun _ => []) .empty us = some s ∧ s.quasi.decided = false ∧ s.quasi.quasihalting = true :=
  ⟨[.infRecur (some [0]) (some [(1, 3)]), .infRecur none none], _, rfl, rfl, rfl⟩

-- what the recurrence detector does: report a recurrence, then mark the machine as infinite
def exUpdates : List (Update Empty) := [.infRecur (some [2]) (some [(0, 3), (1, 7), (2, 20)]), .notHalting 4]
example : ∃ s, applyAll (fun _ => []) .empty exUpdates = some s ∧ s.halt.decided = true ∧ s.halt.halting = false ∧
    s.quasi.quasihalting = true ∧ s.quasi.steps = .int 8 ∧ s.quasi.state = 1 := ⟨_, rfl, rfl, rfl, rfl, rfl, rfl⟩

-- a sequence meeting the hypothesis of `C32_coherent_partial` that ends in "halting"
example : ∃ s, applyAll (E := Empty) (fun _ => []) .empty [.notHalting 4, .halting (.int 5) none none none] = some s ∧
    s.halt.halting = true ∧ Coherent s := by
  refine ⟨_, rfl, rfl, ?_⟩
  refine C32_coherent_partial (E := Empty) (fun _ => []) [.notHalting 4, .halting (.int 5) none none none] _ rfl ?_
  intro pre ignore seen post s' h _
  match pre, h with
  | [], h => simp at h
  | [_], h => simp at h
  | [_, _], h => simp at h
  | _ :: _ :: _ :: _, h => simp at h

end Props

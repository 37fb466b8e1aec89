import Verif.Lemmas.CppRecurEnum

/-!
# C65: the C++ enumeration with the linear recurrence detector

`lrEnum fuel n m L allow only` is `lr_enum n m L ... allow ... only`, `lrParallel` is `lr_enum_local_parallel.sh`, for any way
of distributing the lines to the processes.  Names and text are limited to fewer than 26 states and 10 symbols.
-/

namespace Props
open Spec Model.Cpp

/-- Each line of the file of halting machines reads as a machine that halts after exactly the number of steps in the line. -/
theorem C65_halt_sound {fuel n m : Nat} (hn : 1 < n) (hm : 1 < m) (hn' : n < 26) (hm' : m < 10) {L : Int} {allow only : Bool}
    {st : LrFiles} (h : lrEnum fuel n m L allow only = .ok st) {l : List Char} (hl : l ∈ st.halt) :
    ∃ (M : Table) (text : String) (k : Nat), String.ofList l = s!"{text} | Halt {k}" ∧ ReadsAs n m l M ∧ HaltsAt M init k := by
  obtain ⟨tr, ht, -⟩ := lrEnum_trace hn hm hn' hm' h
  exact ht.halt_sound hn hm hn' hm' hl

/-- Each line of the file of infinite machines reads as a machine that never halts and recurs with the period, the offset
and the start in the line. -/
theorem C65_inf_sound {fuel n m : Nat} (hn : 1 < n) (hm : 1 < m) (hn' : n < 26) (hm' : m < 10) {L : Int} {allow only : Bool}
    {st : LrFiles} (h : lrEnum fuel n m L allow only = .ok st) {l : List Char} (hl : l ∈ st.inf) :
    ∃ (M : Table) (text : String) (p : Nat) (o : Int) (s : Nat), String.ofList l = s!"{text} | Lin_Recur {p} {o} <{s}" ∧
      ReadsAs n m l M ∧ Recurs M p o s := by
  obtain ⟨tr, ht, -⟩ := lrEnum_trace hn hm hn' hm' h
  exact ht.inf_sound hn hm hn' hm' hl

/-- Each line of the file of unknown machines reads as a machine that is still running after `L` steps. -/
theorem C65_unknown_sound {fuel n m : Nat} (hn : 1 < n) (hm : 1 < m) (hn' : n < 26) (hm' : m < 10) {L : Int} (hL : 2 ≤ L)
    {allow only : Bool} {st : LrFiles} (h : lrEnum fuel n m L allow only = .ok st) {l : List Char} (hl : l ∈ st.unknown) :
    ∃ M : Table, ReadsAs n m l M ∧ (run M L.toNat init).state ≠ none := by
  obtain ⟨tr, ht, -⟩ := lrEnum_trace hn hm hn' hm' h
  obtain ⟨M, h1, h2⟩ := ht.unknown_sound hn hm hn' hm' hl
  exact ⟨M, h1, h2 hL⟩

/-- The numbers printed at the end: each machine is counted once, and the counts are those of the lines in the files. -/
theorem C65_counts {fuel n m : Nat} (hn : 1 < n) (hm : 1 < m) (hn' : n < 26) (hm' : m < 10) {L : Int} {allow only : Bool}
    {st : LrFiles} (h : lrEnum fuel n m L allow only = .ok st) :
    st.numHalt + st.numInf + st.numUnknown = st.numTotal ∧ st.numUnknown = st.unknown.length ∧
      (only = false → st.numHalt = st.halt.length ∧ st.numInf = st.inf.length) := by
  obtain ⟨tr, -, -, h, -⟩ := lrEnum_trace hn hm hn' hm' h
  exact h

/-- The enumeration comes to its end, without leaving an array or failing an assertion. -/
theorem C65_ends {n m : Nat} (hn : 1 < n) (hm : 1 < m) (hn' : n < 26) (hm' : m < 10) (L : Int) (allow only : Bool) :
    ∃ f st, ∀ k, lrEnum (f + k) n m L allow only = .ok st :=
  lrEnum_ends hn hm hn' hm' L allow only

/-- Nothing is missed: every complete machine whose first transition writes a non-blank symbol and leaves the initial state
(and that has a halting transition, unless such are allowed) is accounted for.  Up to renaming and mirroring it is an extension
of a machine in one of the files, and if that is the file of halting machines it halts after the number of steps given there;
if it is the file of infinite machines, it never halts. -/
theorem C65_complete {fuel n m : Nat} (hn : 1 < n) (hm : 1 < m) (hn' : n < 26) (hm' : m < 10) {L : Int} {allow : Bool}
    {st : LrFiles} (h : lrEnum fuel n m L allow false = .ok st) {M : Table} (hf : Fits M n m) (total : ∀ q < n, ∀ a < m, M q a ≠ .undef)
    (hh : allow = true ∨ ∃ q < n, ∃ a < m, ∃ w d, M q a = .halt w d) {w q' : Nat} {d : Dir} (h1 : M 0 0 = .go w d q')
    (hw : w ≠ 0) (hq : q' ≠ 0) : Covered n m M st.halt st.inf st.unknown :=
  (lrEnum_complete hn hm hn' hm' h hf total hh h1 hw hq).1 rfl

/-- If no machine is left unknown, then the number of steps of every such machine that halts is in the file. -/
theorem C65_all_halting {fuel n m : Nat} (hn : 1 < n) (hm : 1 < m) (hn' : n < 26) (hm' : m < 10) {L : Int} {allow : Bool}
    {st : LrFiles} (h : lrEnum fuel n m L allow false = .ok st) (hu : st.unknown = []) {M : Table} (hf : Fits M n m)
    (total : ∀ q < n, ∀ a < m, M q a ≠ .undef) {w q' : Nat} {d : Dir} (h1 : M 0 0 = .go w d q') (hw : w ≠ 0) (hq : q' ≠ 0) {k : Nat}
    (hk : HaltsAt M init k) : ∃ text : String, (s!"{text} | Halt {k}").toList ∈ st.halt := by
  rcases C65_complete hn hm hn' hm' h hf total (Or.inr (halting_cell hf (by omega) (by omega) total hk)) h1 hw hq with
    ⟨k', text, P, a1, a2, -⟩ | ⟨l, -, P, a1, -⟩ | ⟨l, a1, -⟩
  · rw [haltsAt_unique hk a1]; exact ⟨text, a2⟩
  · exact absurd hk.1 (a1 k)
  · rw [hu] at a1; cases a1

/-- With `only_unknown` (and in builds in which that has an arbitrary value) the file of unknown machines is still complete:
what it does not account for halts before twice the limit or never. -/
theorem C65_only_unknown {fuel n m : Nat} (hn : 1 < n) (hm : 1 < m) (hn' : n < 26) (hm' : m < 10) {L : Int} {allow only : Bool}
    {st : LrFiles} (h : lrEnum fuel n m L allow only = .ok st) {M : Table} (hf : Fits M n m) (total : ∀ q < n, ∀ a < m, M q a ≠ .undef)
    (hh : allow = true ∨ ∃ q < n, ∃ a < m, ∃ w d, M q a = .halt w d) {w q' : Nat} {d : Dir} (h1 : M 0 0 = .go w d q')
    (hw : w ≠ 0) (hq : q' ≠ 0) :
    (∃ k, HaltsAt M init k ∧ (k : Int) < 2 * L) ∨ NeverHalts M init ∨ ∃ line ∈ st.unknown, ∃ P, ReadsAs n m line P ∧ StandsIn n m M P :=
  (lrEnum_complete hn hm hn' hm' h hf total hh h1 hw hq).2

/-- The parallel script: what its three files say is true. -/
theorem C65_parallel_sound {fuel n m : Nat} (hn : 1 < n) (hm : 1 < m) (hn' : n < 26) (hm' : m < 10) {L1 L2 : Int} {allow only : Bool}
    {split : List (List Char) → List (List (List Char))} (hs : ∀ f l, l ∈ (split f).flatten ↔ l ∈ f) {H I U : List (List Char)}
    (h : lrParallel fuel n m L1 L2 allow only split = .ok (H, I, U)) :
    (∀ l ∈ H, ∃ (M : Table) (text : String) (k : Nat), String.ofList l = s!"{text} | Halt {k}" ∧ ReadsAs n m l M ∧ HaltsAt M init k) ∧
    (∀ l ∈ I, ∃ (M : Table) (text : String) (p : Nat) (o : Int) (s : Nat), String.ofList l = s!"{text} | Lin_Recur {p} {o} <{s}" ∧
      ReadsAs n m l M ∧ Recurs M p o s) ∧
    (2 ≤ L2 → ∀ l ∈ U, ∃ M : Table, ReadsAs n m l M ∧ (run M L2.toNat init).state ≠ none) := by
  obtain ⟨tr1, H1, I1, U1, tr2, H2, I2, t1, t2, rfl, rfl, -⟩ := lrParallel_trace hn hm hn' hm' hs h
  refine ⟨fun l hl => ?_, fun l hl => ?_, fun h2 l hl => ?_⟩
  · exact (List.mem_append.1 hl).elim (t1.halt_sound hn hm hn' hm') (t2.halt_sound hn hm hn' hm')
  · exact (List.mem_append.1 hl).elim (t1.inf_sound hn hm hn' hm') (t2.inf_sound hn hm hn' hm')
  · obtain ⟨M, a1, a2⟩ := t2.unknown_sound hn hm hn' hm' hl
    exact ⟨M, a1, a2 h2⟩

/-- The parallel script: nothing is missed, whatever the two limits are. -/
theorem C65_parallel_complete {fuel n m : Nat} (hn : 1 < n) (hm : 1 < m) (hn' : n < 26) (hm' : m < 10) {L1 L2 : Int} {allow : Bool}
    {split : List (List Char) → List (List (List Char))} (hs : ∀ f l, l ∈ (split f).flatten ↔ l ∈ f) {H I U : List (List Char)}
    (h : lrParallel fuel n m L1 L2 allow false split = .ok (H, I, U)) {M : Table} (hf : Fits M n m)
    (total : ∀ q < n, ∀ a < m, M q a ≠ .undef) (hh : allow = true ∨ ∃ q < n, ∃ a < m, ∃ w d, M q a = .halt w d) {w q' : Nat} {d : Dir}
    (h1 : M 0 0 = .go w d q') (hw : w ≠ 0) (hq : q' ≠ 0) : Covered n m M H I U :=
  (lrParallel_complete hn hm hn' hm' hs h hf total hh h1 hw hq).1 rfl

/-- The same when only the unknown machines are written. -/
theorem C65_parallel_only {fuel n m : Nat} (hn : 1 < n) (hm : 1 < m) (hn' : n < 26) (hm' : m < 10) {L1 L2 : Int} {allow only : Bool}
    {split : List (List Char) → List (List (List Char))} (hs : ∀ f l, l ∈ (split f).flatten ↔ l ∈ f) {H I U : List (List Char)}
    (h : lrParallel fuel n m L1 L2 allow only split = .ok (H, I, U)) {M : Table} (hf : Fits M n m)
    (total : ∀ q < n, ∀ a < m, M q a ≠ .undef) (hh : allow = true ∨ ∃ q < n, ∃ a < m, ∃ w d, M q a = .halt w d) {w q' : Nat} {d : Dir}
    (h1 : M 0 0 = .go w d q') (hw : w ≠ 0) (hq : q' ≠ 0) :
    (∃ k, HaltsAt M init k ∧ (k : Int) < 2 * max L1 L2) ∨ NeverHalts M init ∨ ∃ line ∈ U, ∃ P, ReadsAs n m line P ∧ StandsIn n m M P :=
  (lrParallel_complete hn hm hn' hm' hs h hf total hh h1 hw hq).2

/-- The parallel script comes to its end. -/
theorem C65_parallel_ends {n m : Nat} (hn : 1 < n) (hm : 1 < m) (hn' : n < 26) (hm' : m < 10) (L1 L2 : Int) (allow only : Bool)
    {split : List (List Char) → List (List (List Char))} (hs : ∀ f l, l ∈ (split f).flatten ↔ l ∈ f) :
    ∃ f r, ∀ k, lrParallel (f + k) n m L1 L2 allow only split = .ok r :=
  lrParallel_ends hn hm hn' hm' L1 L2 allow only hs

/-! ### Examples -/

/-- the answer of `lr_enum 2 2 10`: 41 machines, none unknown -/
theorem C65_example : ∃ st, lrEnum 100 2 2 10 false false = .ok st ∧ st.unknown = [] ∧ st.numTotal = 41 ∧ st.numHalt = 15 ∧
    "1RB1LB_1LA--- | Halt 6".toList ∈ st.halt ∧ "1RB---_0LB1RB | Lin_Recur 2 0 <2".toList ∈ st.inf := by
  have h : (match lrEnum 100 2 2 10 false false with
    | .ok st => decide (st.unknown = [] ∧ st.numTotal = 41 ∧ st.numHalt = 15 ∧
        "1RB1LB_1LA--- | Halt 6".toList ∈ st.halt ∧ "1RB---_0LB1RB | Lin_Recur 2 0 <2".toList ∈ st.inf)
    | _ => false) = true := by decide +kernel
  generalize lrEnum 100 2 2 10 false false = r at h
  cases r with
  | ok st => exact ⟨st, rfl, of_decide_eq_true h⟩
  | _ => cases h

/-- the two-state busy beaver -/
def cppBB2 : Table := fun q a => if q = 0 then (if a = 0 then .go 1 .R 1 else .go 1 .L 1) else if a = 0 then .go 1 .L 0 else .halt 1 .R

example : ∃ text : String, ∃ st, lrEnum 100 2 2 10 false false = .ok st ∧ (s!"{text} | Halt {6}").toList ∈ st.halt := by
  obtain ⟨st, h, hu, -⟩ := C65_example
  obtain ⟨text, ht⟩ := C65_all_halting (by omega) (by omega) (by omega) (by omega) h hu (M := cppBB2) (by decide) (by decide)
    (w := 1) (d := .R) (q' := 1) rfl (by decide) (by decide) (k := 6) ⟨by decide, by decide⟩
  exact ⟨text, st, h, ht⟩

example : ∃ H I, lrParallel 100 2 2 2 10 false false (fun l => [l]) = .ok (H, I, []) ∧ H.length = 15 := by
  have h : (match lrParallel 100 2 2 2 10 false false (fun l => [l]) with
    | .ok (H, _, U) => decide (U = [] ∧ H.length = 15)
    | _ => false) = true := by decide +kernel
  generalize lrParallel 100 2 2 2 10 false false (fun l => [l]) = r at h
  cases r with
  | ok st =>
    obtain ⟨H, I, U⟩ := st
    obtain ⟨h1, h2⟩ := of_decide_eq_true h
    exact ⟨H, I, by rw [h1], h2⟩
  | _ => cases h

end Props

import Verif.Lemmas.CppLazy

/-!
# C63: the lazy beaver search of the C++ code

`lb_enum` goes through machines with `n` states and `m` symbols, prints the step counts found, and at the end the lazy
beaver number or "Inconclusive".  `lb_enum_local_parallel.sh` does the same with a short run, chunks and a merge.
-/

namespace Props
open Spec Model.Cpp

/-- The number printed is the lazy beaver number. -/
theorem C63_lazy_beaver {fuel n m : Nat} {maxSteps : Int} {file : Bool} {st : Lazy} {k : Nat} (hn : 2 ≤ n) (hm : 2 ≤ m)
    (h : lbEnum fuel n m maxSteps file = .ok st) (hp : lbPrint maxSteps st = some k) : LazyBeaver n m k := by
  unfold lbPrint at hp
  split at hp
  · next hlt =>
    obtain rfl := Option.some.inj hp
    obtain ⟨h1, h2, h3⟩ := minMissing_spec st.steps
    refine ⟨h1, fun hr => h2 ((lbEnum_steps hn hm h _).2 ⟨by omega, hr⟩), fun j hj hj' => ((lbEnum_steps hn hm h j).1 (h3 j hj hj')).2⟩
  · cases hp

/-- If the answer is "Inconclusive", then every smaller number of steps is attained. -/
theorem C63_inconclusive {fuel n m : Nat} {maxSteps : Int} {file : Bool} {st : Lazy} (hn : 2 ≤ n) (hm : 2 ≤ m)
    (h : lbEnum fuel n m maxSteps file = .ok st) (hp : lbPrint maxSteps st = none) :
    ∀ j : Nat, 1 ≤ j → (j : Int) < maxSteps → RunsExactly n m j := by
  unfold lbPrint at hp
  split at hp
  · cases hp
  · next hlt =>
    obtain ⟨h1, h2, h3⟩ := minMissing_spec st.steps
    exact fun j hj hj' => ((lbEnum_steps hn hm h j).1 (h3 j hj (by omega))).2

/-- The numbers of steps found are exactly those that machines with `n` states and `m` symbols run for, up to the bound. -/
theorem C63_steps_exact {fuel n m : Nat} {maxSteps : Int} {file : Bool} {st : Lazy} (hn : 2 ≤ n) (hm : 2 ≤ m)
    (h : lbEnum fuel n m maxSteps file = .ok st) (k : Nat) : k ∈ st.steps ↔ (k : Int) ≤ maxSteps ∧ RunsExactly n m k := by
  rw [lbEnum_steps hn hm h]
  constructor
  · rintro ⟨h1, h2⟩
    have := runs_pos h2
    exact ⟨by omega, h2⟩
  · rintro ⟨h1, h2⟩
    exact ⟨by omega, h2⟩

/-- The file of examples has one line for each number found, and the machine of the line, read back from its text, has the
right size and halts after exactly that many steps. -/
theorem C63_witness {fuel n m : Nat} {maxSteps : Int} {file : Bool} {st : Lazy} (hn : 2 ≤ n) (hm : 2 ≤ m) (hn' : n < 26) (hm' : m < 10)
    (h : lbEnum fuel n m maxSteps file = .ok st) :
    (st.witness.map Prod.fst).Nodup ∧ (∀ k, k ∈ st.steps ↔ ∃ s, (k, s) ∈ st.witness) ∧
      ∀ k s, (k, s) ∈ st.witness → ∃ tm, readTM s = .ok tm ∧ Fits tm.table n m ∧ HaltsAt tm.table init k := by
  obtain ⟨tr, g1, -, g3, -⟩ := lbEnum_trace hn hm h
  obtain ⟨-, f2, -, -, -, f6⟩ := folds_lazy (by omega) (by omega) g1 g3
  have hc : st.Consistent := f6 ⟨rfl, List.nodup_nil⟩
  refine ⟨?_, fun k => (witness_keys hc k).symm, fun k s hks => ?_⟩
  · rw [hc.1]; exact List.nodup_reverse.2 hc.2
  · rcases f2 k s hks with h | ⟨tm, htm, hw, hh⟩
    · cases h
    · have hgt := g3 tm htm
      obtain ⟨s', e1, e2⟩ := readTM_write hgt.toShaped hn' hm' (by omega) [] (Or.inl rfl)
      rw [hw] at e1
      obtain rfl := Out.ok.inj e1
      obtain ⟨tm', e3, e4, e5⟩ := ofTable_good hgt hn hm
      rw [List.append_nil, e3] at e2
      have et : tm'.table = tm.table := by unfold TM.table; rw [e4]
      exact ⟨tm', e2, shaped_fits e5.toShaped, by rw [et]; exact hh⟩

/-- Every line of the file of machines that have not halted reads as a machine of the right size that is still running
after the bound. -/
theorem C63_nonhalt {fuel n m : Nat} {maxSteps : Int} {st : Lazy} (hn : 2 ≤ n) (hm : 2 ≤ m) (hn' : n < 26) (hm' : m < 10)
    (h : lbEnum fuel n m maxSteps true = .ok st) {s : List Char} (hs : s ∈ st.nonhalt) :
    ∃ tm, readTM s = .ok tm ∧ Fits tm.table n m ∧ ∀ t : Nat, (t : Int) ≤ maxSteps → (run tm.table t init).state ≠ none := by
  obtain ⟨tr, g1, -, g3, -⟩ := lbEnum_trace hn hm h
  obtain ⟨-, -, f3, -, -, -⟩ := folds_lazy (by omega) (by omega) g1 g3
  rcases f3 s hs with h | ⟨tm, htm, hw, hh⟩
  · cases h
  · have hgt := g3 tm htm
    obtain ⟨s', e1, e2⟩ := readTM_write hgt.toShaped hn' hm' (by omega) [] (Or.inl rfl)
    rw [hw] at e1
    obtain rfl := Out.ok.inj e1
    obtain ⟨tm', e3, e4, e5⟩ := ofTable_good hgt hn hm
    rw [List.append_nil, e3] at e2
    have et : tm'.table = tm.table := by unfold TM.table; rw [e4]
    refine ⟨tm', e2, shaped_fits e5.toShaped, fun t ht hc => hh ?_⟩
    rw [et] at hc
    exact run_none_mono (by omega) hc

/-- The search comes to its end, without failing an assertion or leaving an array. -/
theorem C63_ends {n m : Nat} (hn : 2 ≤ n) (hm : 2 ≤ m) (hn' : n < 26) (hm' : m < 10) (maxSteps : Int) (file : Bool) :
    ∃ f st, ∀ k, lbEnum (f + k) n m maxSteps file = .ok st := by
  obtain ⟨f, hf⟩ := enumLoop_ends (n := n) (m := m) (allow := false) (filter := lazyFilter maxSteps file) (lazyRes maxSteps)
    (fun s tm hg => lazyFilter_ok hg (by omega) (by omega) hn' hm' maxSteps file s)
    (fun tm hg => lazyRes_right hg (by omega) (by omega) maxSteps) [TM.empty n m]
    (fun tm htm => by rw [List.mem_singleton.1 htm]; exact empty_good hn hm)
  obtain ⟨st, hst⟩ := hf {}
  exact ⟨f, st, hst⟩

/-- The parallel version: however the machines that have not halted after the short run are distributed to the processes,
the number printed at the end is the lazy beaver number.  A number is printed as soon as a larger number of steps is
attained within one of the two bounds. -/
theorem C63_parallel {fuel n m : Nat} {initSteps maxSteps : Int} {split : List (List Char) → List (List (List Char))} {r : Option Nat}
    (hn : 2 ≤ n) (hm : 2 ≤ m) (hn' : n < 26) (hm' : m < 10) (hs : ∀ l, (split l).flatten.Perm l)
    (h : lbParallel fuel n m initSteps maxSteps split = .ok r) (k : Nat) :
    r = some k ↔ LazyBeaver n m k ∧ ∃ j : Nat, k < j ∧ (j : Int) ≤ max initSteps maxSteps ∧ RunsExactly n m j := by
  unfold lbParallel at h
  obtain ⟨st, h1, h⟩ := bind_ok h
  obtain ⟨parts, h2, h⟩ := bind_ok h
  have hr := Out.ok.inj h
  have steps := parallel_steps hn hm hn' hm' h1 (fun l => (hs st.nonhalt).mem_iff) h2
  obtain ⟨m1, m2⟩ := mergedSteps_spec (st.witness :: parts.map Lazy.witness)
  have mem : ∀ j, j ∈ mergedSteps (st.witness :: parts.map Lazy.witness) ↔ j ≤ max initSteps.toNat maxSteps.toNat ∧ RunsExactly n m j :=
    fun j => (m2 j).trans (steps j)
  rw [← hr]
  unfold mergePrint
  generalize mergedSteps (st.witness :: parts.map Lazy.witness) = l at m1 mem
  -- one step is attained if anything is, and it is the least number there is
  have first : ∀ y ∈ l, l.head? = some 1 := by
    intro y hy
    have hy' := (mem y).1 hy
    have hy1 := runs_pos hy'.2
    have h1m : 1 ∈ l := by
      refine (mem 1).2 ⟨by omega, _, (empty_table n m) ▸ shaped_fits (empty_shaped (n := n) (m := m) (by omega)), ?_, ?_⟩
      · simp [run, Spec.step, init, Instr.next]
      · intro i hi
        have : i = 0 := by omega
        subst this
        simp [run, init]
    cases l with
    | nil => cases h1m
    | cons z l =>
      rcases List.mem_cons.1 h1m with h | h
      · rw [← h]; rfl
      · have h3 := (List.pairwise_cons.1 m1).1 1 h
        have h4 := runs_pos ((mem z).1 (by simp)).2
        omega
  have fwd : ∀ k, (holes l).head? = some k → LazyBeaver n m k ∧ ∃ j : Nat, k < j ∧ (j : Int) ≤ max initSteps maxSteps ∧ RunsExactly n m j := by
    intro k hk
    obtain ⟨g1, ⟨y, hy, g2⟩, x, g3, g4, g5⟩ := holes_spec m1 hk
    have hy' := (mem y).1 hy
    rw [first y hy] at g3
    obtain rfl := Option.some.inj g3
    exact ⟨⟨by omega, fun hr => g1 ((mem k).2 ⟨by omega, hr⟩), fun j hj hj' => ((mem j).1 (g5 j hj hj')).2⟩, y, g2, by omega, hy'.2⟩
  refine ⟨fwd k, ?_⟩
  rintro ⟨⟨a1, a2, a3⟩, j, hj, hjm, hjr⟩
  have hjl : j ∈ l := (mem j).2 ⟨by omega, hjr⟩
  cases hh : holes l with
  | nil => exact absurd ((mem k).1 (holes_nil m1 hh 1 (first j hjl) j hjl k a1 (by omega))).2 a2
  | cons k' rest =>
    obtain ⟨⟨b1, b2, b3⟩, -⟩ := fwd k' (by rw [hh]; rfl)
    show some k' = some k
    rcases Nat.lt_trichotomy k k' with h | h | h
    · exact absurd (b3 k a1 h) a2
    · rw [h]
    · exact absurd (a3 k' b1 h) b2

/-- The parallel version comes to its end: every line of the first file can be read and continued. -/
theorem C63_parallel_ends {n m : Nat} (hn : 2 ≤ n) (hm : 2 ≤ m) (hn' : n < 26) (hm' : m < 10) (initSteps maxSteps : Int)
    {split : List (List Char) → List (List (List Char))} (hs : ∀ l, (split l).flatten.Perm l) :
    ∃ f r, ∀ k, lbParallel (f + k) n m initSteps maxSteps split = .ok r := by
  obtain ⟨f1, st, h1⟩ := C63_ends hn hm hn' hm' initSteps true
  have hst := h1 0
  obtain ⟨tr, g1, -, g3, -⟩ := lbEnum_trace hn hm hst
  obtain ⟨-, -, f3, -, -, -⟩ := folds_lazy (by omega) (by omega) g1 g3
  obtain ⟨f2, parts, h2⟩ := lbChunks_ends hn hm hn' hm' maxSteps (split st.nonhalt) (by
    intro c hc l hl
    rcases f3 l ((hs st.nonhalt).mem_iff.1 (List.mem_flatten.2 ⟨c, hc, hl⟩)) with h | ⟨tm, htm, hw, -⟩
    · cases h
    · exact ⟨tm, g3 tm htm, hw⟩)
  refine ⟨f1 + f2, mergePrint (st.witness :: parts.map Lazy.witness), fun k => ?_⟩
  unfold lbParallel
  rw [show f1 + f2 + k = f1 + (f2 + k) by omega, h1, ok_bind, show f1 + (f2 + k) = f2 + (f1 + k) by omega, h2, ok_bind]

/-! ### Sizes out of range -/

/-- With one state the enumerator uses a state that is not there, and reads behind the end of the table. -/
theorem C63_one_state : lbEnum 10 1 2 8 false = .ub := by decide +kernel

/-- With one symbol the enumerator writes a symbol that is not there, and reads behind the end of a row. -/
theorem C63_one_symbol : lbEnum 20 3 1 8 false = .ub := by decide +kernel

/-- With 26 states or more the program stops with a failed assertion at the first example that it writes. -/
theorem C63_too_large {fuel n m : Nat} {maxSteps : Int} {file : Bool} (hn : 26 ≤ n) (hm : 2 ≤ m) (hs : 1 ≤ maxSteps) :
    lbEnum (fuel + 1) n m maxSteps file = .exit := by
  have hg := empty_good (n := n) (m := m) (by omega) (by omega)
  have hh : HaltsAt (TM.empty n m).table init 1 := by
    rw [empty_table]
    refine ⟨by simp [run, Spec.step, init, Instr.next], fun i hi => ?_⟩
    have : i = 0 := by omega
    subst this
    simp [run, init]
  have hw : (TM.empty n m).write = .exit := by
    unfold TM.write
    rw [if_pos (by show ¬ n < 26; omega)]
  have hf : lazyFilter maxSteps file {} (TM.empty n m) = .exit := by
    rcases lazyFilter_cases hg (by omega) (by omega) maxSteps file {} with ⟨k, hk, -⟩ | ⟨k, -, -, -, e⟩ | ⟨hr, -⟩ | ⟨hr, -⟩
    · cases hk
    · rw [hw] at e; exact e
    · exact absurd (run_none_mono (by omega) hh.1) hr
    · exact absurd (run_none_mono (by omega) hh.1) hr
  unfold lbEnum
  rw [enumLoop, hf]
  rfl

/-! ### Examples -/

/-- two states and two symbols: the number is 7 -/
theorem C63_example : LazyBeaver 2 2 7 := by
  obtain ⟨st, h1, h2⟩ : ∃ st, lbEnum 61 2 2 8 false = .ok st ∧ lbPrint 8 st = some 7 := by
    have : (match lbEnum 61 2 2 8 false with | .ok st => lbPrint 8 st | _ => none) = some 7 := by decide +kernel
    cases h : lbEnum 61 2 2 8 false with
    | ok st => rw [h] at this; exact ⟨st, rfl, this⟩
    | exit => rw [h] at this; cases this
    | ub => rw [h] at this; cases this
    | more => rw [h] at this; cases this
  exact C63_lazy_beaver (by omega) (by omega) h1 h2

/-- a short run, two processes, and the merge: up to 8 steps there is no hole for two states and two symbols -/
example : lbParallel 61 2 2 3 8 (fun l => [l.drop 2, l.take 2]) = .ok none := by decide +kernel

/-- the lines of a short run read as machines that are still running -/
example : ∃ st, lbEnum 61 2 2 3 true = .ok st ∧ st.nonhalt ≠ [] ∧ (3, "1RB---_1LB---".toList) ∈ st.witness := by
  have : (match lbEnum 61 2 2 3 true with
    | .ok st => decide (st.nonhalt ≠ [] ∧ (3, "1RB---_1LB---".toList) ∈ st.witness)
    | _ => false) = true := by decide +kernel
  cases h : lbEnum 61 2 2 3 true with
  | ok st => rw [h] at this; exact ⟨st, rfl, of_decide_eq_true this⟩
  | exit => rw [h] at this; cases this
  | ub => rw [h] at this; cases this
  | more => rw [h] at this; cases this

end Props

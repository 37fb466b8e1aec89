import Verif.Lemmas.RecSums
import Verif.Props.RecursiveStrict

/-!
# C57: the number of steps

Beside the lowered minima (`RecursiveStrict`) one more thing is wrong: `series_sum`, with which the steps of the applications of a
difference rule are summed (`C57_false_steps`, C46).  With both repaired (`repaired`) every report is right, number of steps
included, whatever rules were proved with whatever rules; and so is every report of the code that the two faults have not changed.
-/

set_option Elab.async false

namespace Props
open Spec Model Model.Expr Model.Prover Model.Recursive

/-- The sum without the faults of `series_sum` is the sum of all the values. -/
theorem C57_exact_sums : @SumsRight exactSums := exact_right

section
variable {σ S : Type} [iσ : DecidableEq σ] [iS : DecidableEq S] {T : Table} {M : Machine σ S}

/-- **C57 with any right sums.** The simulator with recursive proofs, minima kept, tells the truth about the machine, number of
steps included, if whatever sums the steps of difference rules sums them rightly. -/
theorem C57_sums_right {mean Means} (h : Stack T σ S M mean Means) (how : Sums) (hs : @SumsRight how) (o : Opts) (n : Nat) :
    RightRec T M mean n (afterWith keep M o n).g.sim ∧ RightSteps T M mean n (afterWith keep M o n) :=
  ⟨rightRec_stack proves_keep h o n (fun _ _ _ => trivial), rightSteps_stack hs proves_keep h o n (fun _ _ _ => trivial)⟩

/-- **C57 with both faults repaired.** With the minima kept and exact sums the simulator with recursive proofs tells the truth about
the machine, number of steps included, for every table, stack of machines, options and number of loops. -/
theorem C57_repaired_right {mean Means} (h : Stack T σ S M mean Means) (o : Opts) (n : Nat) :
    RightRec T M mean n (repaired M o n).g.sim ∧ RightSteps T M mean n (repaired M o n) :=
  C57_sums_right h exactSums exact_right o n

/-- **C57, runs that the two faults have not changed.** If the simulator is where it would be without them, what it reports is
true, number of steps included.  Missing from the full claim: the runs that they do change (`C57_false_halt`,
`C57_false_steps`), and that no exception is raised. -/
theorem C57_agree_steps_partial {mean Means} (h : Stack T σ S M mean Means) (o : Opts) (n : Nat)
    (ha : (rafter M o n).g = (repaired M o n).g) :
    RightRec T M mean n (rafter M o n).g.sim ∧ RightSteps T M mean n (rafter M o n) := by
  obtain ⟨h1, h2⟩ := C57_repaired_right h o n
  rw [← ha] at h1
  exact ⟨h1, fun h' => by rw [ha] at h' ⊢; exact h2.running h', fun h' => by rw [ha] at h' ⊢; exact h2.halted h'⟩

/-- **C57, runs without general rules proved with rules**, number of steps included, if sums are right: the minima do not matter. -/
theorem C57_plain_steps {mean Means} (h : Stack T σ S M mean Means) (how : Sums) (hs : @SumsRight how) (o : Opts) (n : Nat)
    (hn : NoMetaGeneral (afterWith lower M o n).rules) :
    RightRec T M mean n (afterWith lower M o n).g.sim ∧ RightSteps T M mean n (afterWith lower M o n) :=
  ⟨rightRec_stack proves_code h o n (plain_of hn), rightSteps_stack hs proves_code h o n (plain_of hn)⟩
end

/-! ## Examples -/

/-- Ten ones are turned into twos, one after the other with a walk to the right end each time, then back into ones and the last one
is removed, until only one is left. -/
def exNested : Table := tbl [
  [.go 1 .R 1], [.go 1 .R 2], [.go 1 .R 3], [.go 1 .R 4], [.go 1 .R 5], [.go 1 .R 6], [.go 1 .R 7], [.go 1 .R 8], [.go 1 .R 9],
  [.go 1 .R 10],
  [.go 0 .L 11],
  [.go 0 .R 13, .go 2 .R 12, .go 2 .L 11],
  [.go 0 .L 11, .undef, .go 2 .R 12],
  [.go 0 .L 14, .undef, .go 1 .R 13],
  [.undef, .go 0 .L 15],
  [.halt 1 .R, .go 1 .R 16],
  [.go 0 .L 11]]

set_option maxRecDepth 100000 in
theorem exNested_agree : (rafter (simple exNested) defaults 149).g = (repaired (simple exNested) defaults 149).g := by decide +kernel

set_option maxRecDepth 100000 in
theorem exNested_reported : reported (rafter (simple exNested) defaults 149) = (.halt, .num 610) ∧
    kinds (rafter (simple exNested) defaults 149).rules = [(true, false), (true, true), (true, true)] := by decide +kernel

/-- the count of a number reported is the number of steps of the machine -/
theorem count_of {σ S : Type} {T : Table} [DecidableEq σ] [DecidableEq S] {M : Machine σ S} {mean n} {b : Base σ S} {k : Nat}
    (h : RightSteps T M mean n b) (hr : reported b = (.halt, .num k)) : HaltsAt T init k := by
  obtain ⟨h1, h2⟩ := Prod.mk.injEq .. ▸ hr
  obtain ⟨j, hj, hv⟩ := h.halted (Or.inl h1)
  have := hv (fun _ => 0)
  rw [h2, value_num] at this
  have : k = j := by exact_mod_cast this
  rw [this]; exact hj

-- the machine halts after 610 steps, of which most were counted by rules that were proved with a rule
example : HaltsAt exNested init 610 :=
  count_of (C57_agree_steps_partial .simple defaults 149 exNested_agree).2 exNested_reported.1

/-- the 2-state 4-symbol busy beaver `1RB2LA1RA1RA_1LB1LA3RB1RZ` -/
def exBB24 : Table := tbl [[.go 1 .R 1, .go 2 .L 0, .go 1 .R 0, .go 1 .R 0], [.go 1 .L 1, .go 1 .L 0, .go 3 .R 1, .halt 1 .R]]

set_option maxRecDepth 100000 in
theorem exBB24_agree : (rafter (simple exBB24) defaults 300).g = (repaired (simple exBB24) defaults 300).g := by decide +kernel

set_option maxRecDepth 100000 in
theorem exBB24_reported : reported (rafter (simple exBB24) defaults 300) = (.halt, .num 3932964) := by decide +kernel

-- the machine halts after 3 932 964 steps
example : HaltsAt exBB24 init 3932964 := count_of (C57_agree_steps_partial .simple defaults 300 exBB24_agree).2 exBB24_reported

end Props

import Verif.Spec.Recursive
import Verif.Props.Macro
import Verif.Lemmas.Zip
import Verif.Lemmas.SimLimited
import Verif.Lemmas.RecursiveStates

/-!
# C57: what is wrong with `--recursive`

Two machines for which the recursive proof system, with the default options, reports something false.
-/

/-! one proof after the other, to save memory -/
set_option Elab.async false

namespace Props
open Spec Model Model.Prover

/-! ## A rule is applied below its true minimum

`prove_rule` lowers the minima of a general or linear rule as if no rules had been used in its proof (874).  For difference rules
the code says that this "is only safe for basic rules (not meta rules. See Issue 4)" (954). -/

/-- States 0 to 6 write `4^5 2^2`.  A round turns `4^n 2^b` (state 19, head at the right end) into `4^(n-1) 2^(2 b)` if
`b ≥ 3`, because state 9 with 10 to 17 looks ahead for four ones before it moves one of them over and makes two of it.  When
the fours are used up, states 21 to 23 erase the tape and count the ones modulo 3. -/
def c57Halt : Table := tbl [
  [.go 4 .R 1, .undef, .undef, .undef, .undef],
  [.go 4 .R 2, .undef, .undef, .undef, .undef],
  [.go 4 .R 3, .undef, .undef, .undef, .undef],
  [.go 4 .R 4, .undef, .undef, .undef, .undef],
  [.go 4 .R 5, .undef, .undef, .undef, .undef],
  [.go 2 .R 6, .undef, .undef, .undef, .undef],
  [.go 2 .R 19, .undef, .undef, .undef, .undef],
  [.undef, .go 1 .R 7, .go 2 .R 8, .undef, .undef],
  [.go 2 .L 9, .undef, .undef, .undef, .undef],
  [.undef, .go 3 .L 10, .go 2 .L 9, .undef, .undef],
  [.go 0 .R 19, .go 3 .L 11, .undef, .undef, .go 4 .R 19],
  [.go 0 .R 19, .go 3 .L 12, .undef, .undef, .go 4 .R 19],
  [.go 0 .R 19, .go 3 .L 13, .undef, .undef, .go 4 .R 19],
  [.go 0 .R 19, .go 1 .R 14, .undef, .undef, .go 4 .R 19],
  [.undef, .undef, .undef, .go 1 .R 15, .undef],
  [.undef, .undef, .undef, .go 1 .R 16, .undef],
  [.undef, .undef, .undef, .go 1 .R 17, .undef],
  [.undef, .undef, .undef, .go 2 .R 18, .undef],
  [.go 2 .L 9, .undef, .go 2 .R 18, .undef, .undef],
  [.go 2 .L 20, .undef, .go 2 .R 19, .go 2 .R 19, .undef],
  [.go 0 .R 21, .undef, .go 1 .L 20, .undef, .go 1 .R 7],
  [.undef, .go 0 .R 22, .undef, .undef, .undef],
  [.undef, .go 0 .R 23, .halt 0 .R, .undef, .undef],
  [.undef, .go 0 .R 21, .go 0 .R 0, .undef, .undef]]

/-- state 0 on the blank tape -/
def atStart (c : Config) : Prop := Zip.Is ⟨some 0, [], 0, []⟩ c

def zeros (l : List Nat) : Bool := l.all (· == 0)

theorem getD_zeros {l : List Nat} (h : zeros l = true) (i : Nat) : l.getD i 0 = 0 := by
  unfold zeros at h
  rw [List.all_eq_true] at h
  rw [List.getD_eq_getElem?_getD]
  cases hi : l[i]? with
  | none => rfl
  | some a => simpa using h a (List.mem_of_getElem? hi)

theorem atStart_of {z : Zip} {c : Config} (h : z.Is c) (hz : z.st = some 0 ∧ z.head = 0 ∧ zeros z.left = true ∧ zeros z.right = true) :
    atStart c := by
  obtain ⟨h1, h2, h3, h4⟩ := h
  refine ⟨by rw [h1, hz.1], by rw [h2, hz.2.1], fun i => ?_, fun i => ?_⟩
  · rw [h3, getD_zeros hz.2.2.1]; rfl
  · rw [h4, getD_zeros hz.2.2.2]; rfl

set_option maxRecDepth 100000 in
/-- After 4769 steps the tape is blank again and the machine in its start state, so it never halts. -/
theorem c57Halt_never : NeverHalts c57Halt init := by
  refine (recurs_never (P := atStart) (fun _ => True) (fun c h => ?_) (fun c h => ?_) init init_is).1
  · rw [h.1]; simp
  · refine ⟨4769, by omega, atStart_of (Zip.run_is 4769 h) (by decide +kernel), fun _ _ _ _ => trivial⟩

set_option maxRecDepth 100000 in
/-- **C57 is false**: the machine never halts, but with `--recursive` (and otherwise the default options) the simulator reports
after 290 loops that it has halted after 12 659 steps. -/
theorem C57_false_halt : NeverHalts c57Halt init ∧ reported (rafter (simple c57Halt) defaults 290) = (.halt, .num 12659) :=
  ⟨c57Halt_never, by decide +kernel⟩

/-! ## The number of steps of nested rules

The steps of a rule are summed with fractional coefficients and powers of 3, for which `series_sum` is wrong (C46). -/

/-- Three nested loops over runs of equal cells.  The innermost moves a one over with a number of steps linear in the length of the
tape, so the next one makes a quadratic number of steps and the third a cubic one.  The outermost loop makes the tape longer
by four cells; states 0 to 4 count it modulo 5 and halt when the length is 20. -/
def c57Steps : Table := tbl [
  [.go 3 .R 5, .undef, .go 4 .R 1],
  [.go 3 .R 5, .undef, .go 4 .R 2],
  [.go 3 .R 5, .undef, .go 4 .R 3],
  [.go 3 .R 5, .undef, .go 4 .R 4],
  [.halt 1 .R, .undef, .go 4 .R 0],
  [.go 3 .R 6],
  [.go 3 .R 7],
  [.go 3 .R 8],
  [.go 0 .L 9, .undef, .go 3 .R 8, .go 3 .R 8],
  [.undef, .undef, .undef, .go 1 .L 10],
  [.undef, .undef, .undef, .go 1 .L 11],
  [.undef, .undef, .undef, .go 1 .R 12],
  [.go 0 .L 13, .go 1 .R 12, .go 1 .R 12],
  [.undef, .go 2 .L 14],
  [.undef, .go 2 .L 15],
  [.go 0 .R 4, .go 2 .R 16, .go 2 .L 15, .go 1 .R 12, .go 3 .R 8],
  [.go 0 .L 15, .undef, .go 2 .R 16]]

theorem haltsAt_of {T : Table} {c : Config} {n : Nat} (h1 : (Spec.run T (n + 1) c).state = none) (h2 : (Spec.run T n c).state ≠ none) :
    HaltsAt T c (n + 1) := by
  refine ⟨h1, fun m hm hh => h2 ?_⟩
  rw [show n = m + (n - m) by omega, run_add, run_halted hh, hh]

theorem Zip.more {T : Table} {n m : Nat} {z : Zip} (q : Option Nat) (l : List Nat) (a : Nat) (r : List Nat) {c : Config}
    (h : z.Is (Spec.run T n c))
    (e : (fun y : Zip => (y.st, y.left, y.head, y.right)) (Zip.run T m z) = (q, l, a, r)) : Zip.Is ⟨q, l, a, r⟩ (Spec.run T (n + m) c) := by
  have := Zip.run_is (T := T) m h
  rw [← run_add] at this
  generalize Zip.run T m z = y at *
  cases y
  simp only [Prod.mk.injEq] at e
  obtain ⟨rfl, rfl, rfl, rfl⟩ := e
  exact this

set_option maxRecDepth 100000 in
theorem c57Steps_halts : HaltsAt c57Steps init 32653 := by
  have h0 : Zip.Is ⟨some 0, [], 0, []⟩ (Spec.run c57Steps 0 init) := init_is
  have h1 := Zip.more (m := 3000) (some 16) [2, 2, 2, 2, 2, 1, 1, 4, 0] 2 [2, 2, 2, 0] h0 (by decide +kernel)
  have h2 := Zip.more (m := 3000) (some 16) [2, 2, 2, 2, 2, 2, 2, 1, 3, 4, 4, 4, 4, 4, 0] 2 [2, 0] h1 (by decide +kernel)
  have h3 := Zip.more (m := 3000) (some 15) [1, 1, 1, 3, 4, 4, 0] 1 [2, 2, 2, 2, 2, 2, 2, 2, 2, 0] h2 (by decide +kernel)
  have h4 := Zip.more (m := 3000) (some 16) [2, 1, 1, 1, 1, 1, 3, 3, 0] 2 [2, 2, 2, 2, 2, 2, 2, 0] h3 (by decide +kernel)
  have h5 := Zip.more (m := 3000) (some 15) [4, 4, 4, 4, 4, 4, 4, 4, 0] 4 [2, 2, 2, 2, 2, 2, 2, 2, 2, 2, 2, 0] h4 (by decide +kernel)
  have h6 := Zip.more (m := 3000) (some 15) [2, 2, 1, 1, 1, 1, 1, 1, 4, 4, 4, 4, 4, 4, 0] 2 [2, 2, 2, 2, 2, 0] h5 (by decide +kernel)
  have h7 := Zip.more (m := 3000) (some 16) [2, 2, 2, 2, 2, 1, 1, 1, 1, 1, 1, 1, 1, 1, 1, 3, 4, 4, 4, 4, 0] 0 [] h6 (by decide +kernel)
  have h8 := Zip.more (m := 3000) (some 14) [1, 1, 1, 1, 1, 1, 1, 3, 3, 3, 3, 3, 3, 3, 3, 3, 4, 4, 0] 1 [2, 0] h7 (by decide +kernel)
  have h9 := Zip.more (m := 3000) (some 15) [2, 2, 1, 1, 1, 1, 3, 3, 3, 3, 3, 3, 3, 4, 0] 2 [2, 2, 2, 2, 2, 0] h8 (by decide +kernel)
  have h10 := Zip.more (m := 3000) (some 15) [2, 2, 2, 2, 2, 2, 1, 1, 3, 3, 3, 3, 3, 3, 3, 3, 0] 2 [2, 2, 2, 0] h9 (by decide +kernel)
  refine haltsAt_of (n := 32652) ?_ ?_
  · exact (Zip.more (m := 2653) none [1, 4, 4, 4, 4, 4, 4, 4, 4, 4, 4, 4, 4, 4, 4, 4, 4, 4, 4, 4, 4, 0] 0 [] h10 (by decide +kernel)).1
  · have := (Zip.run_is (T := c57Steps) 2652 h10).1
    rw [← run_add] at this
    rw [show 32652 = 30000 + 2652 from rfl, this]
    decide +kernel

/-- the next `m` loops -/
theorem rafter_more {σ S : Type} [DecidableEq σ] [DecidableEq S] {M : Machine σ S} {o : Opts} {n m : Nat} {b c : Recursive.Base σ S}
    (h : rafter M o n = b) (e : (Recursive.Base.step M o)^[m] b = c) : rafter M o (n + m) = c := by
  unfold rafter at *
  rw [Nat.add_comm, Function.iterate_add_apply, h, e]

set_option maxRecDepth 1000000 in
theorem c57Steps_540 : rafter (simple c57Steps) defaults 540 = c57At540 := by decide +kernel

set_option maxRecDepth 1000000 in
theorem c57Steps_1080 : rafter (simple c57Steps) defaults 1080 = c57At1080 :=
  rafter_more (m := 540) c57Steps_540 (by decide +kernel)

set_option maxRecDepth 1000000 in
theorem c57Steps_1620 : rafter (simple c57Steps) defaults 1620 = c57At1620 :=
  rafter_more (m := 540) c57Steps_1080 (by decide +kernel)

set_option maxRecDepth 1000000 in
theorem c57Steps_1800 : rafter (simple c57Steps) defaults 1800 = c57At1800 :=
  rafter_more (m := 180) c57Steps_1620 (by decide +kernel)

set_option maxRecDepth 1000000 in
theorem c57Steps_1980 : rafter (simple c57Steps) defaults 1980 = c57At1980 :=
  rafter_more (m := 180) c57Steps_1800 (by decide +kernel)

set_option maxRecDepth 1000000 in
/-- **C57 is false for the number of steps**: the machine halts after 32 653 steps, the simulator with `--recursive` reports
that it has halted after 32 628. -/
theorem C57_false_steps : HaltsAt c57Steps init 32653 ∧ reported (rafter (simple c57Steps) defaults 2160) = (.halt, .num 32628) := by
  refine ⟨c57Steps_halts, ?_⟩
  rw [rafter_more (m := 180) c57Steps_1980 rfl]
  decide +kernel

end Props

import Verif.Lemmas.CTL
import Verif.Props.Simulator

/-!
# C21-C24: closed tape language deciders

`testN M cutoff fuel` is `test_CTL` of `CTLN.py` run on the machine stack `M`; `fuel` bounds the number of
rounds of its `while` loop, so `testN ... = true` says that Python's loop ends with `True` within that many
rounds.  All theorems hold for every `fuel`.
-/

namespace Props
open Spec Model Model.CTL

variable {σ S : Type} [DecidableEq σ] [DecidableEq S]

/-- A test on machine stacks is sound for the machine `T`: success on any of the four stacks that
`test_CTL` builds from it (block size `k` ≠ 1 or not, back symbol or not), means that `T` never halts on
the blank tape. -/
def SoundFor (test : ∀ {σ S : Type} [DecidableEq σ] [DecidableEq S], Machine σ S → Bool) (T : Table)
    (k off maxBlock maxBack : Nat) : Prop :=
  (test (simple T) = true → NeverHalts T init) ∧
  (test (block (simple T) k off maxBlock) = true → NeverHalts T init) ∧
  (test (back (simple T) maxBack) = true → NeverHalts T init) ∧
  (test (back (block (simple T) k off maxBlock) maxBack) = true → NeverHalts T init)

theorem soundFor_of (test : ∀ {σ S : Type} [DecidableEq σ] [DecidableEq S], Machine σ S → Bool) (T : Table)
    (key : ∀ {σ S : Type} [DecidableEq σ] [DecidableEq S] {M : Machine σ S} {Den TDen hs},
      Follows T M Den TDen hs → Den (initDC M) init → test M = true → NeverHalts T init)
    (k off maxBlock maxBack : Nat) (hoff : off < k) : SoundFor test T k off maxBlock maxBack := by
  have hk : 0 < k := by omega
  have F1 := simple_follows T
  have F2 := block_follows F1 (simple_shift _) hk off maxBlock 0
  exact ⟨key F1 (simple_init T), key F2 (block_init (simple_init T) hk hoff),
    key (back_follows F1 (simple_shift _) maxBack) (back_init (simple_init T) maxBack),
    key (back_follows F2 (block_shift (simple_shift _) hk 0) maxBack)
      (back_init (block_init (simple_init T) hk hoff) maxBack)⟩

/-- **C21.** CTL1 (`A*`) never claims a halting machine. -/
theorem C21_ctl1_sound (T : Table) (k off maxBlock maxBack : Nat) (hoff : off < k) (cutoff fuel : Nat) :
    SoundFor (fun M => test1 M cutoff fuel) T k off maxBlock maxBack :=
  soundFor_of _ T (fun F hi h => testCTL_sound F hi _ cutoff fuel
    (fun s cfg _ hw hd hden hc => ctl1_sound F s cfg hw hd hden fuel hc) h) k off maxBlock maxBack hoff

/-- **C22.** CTL2 (`A* B`) never claims a halting machine. -/
theorem C22_ctl2_sound (T : Table) (k off maxBlock maxBack : Nat) (hoff : off < k) (cutoff fuel : Nat) :
    SoundFor (fun M => test2 M cutoff fuel) T k off maxBlock maxBack :=
  soundFor_of _ T (fun F hi h => testCTL_sound F hi _ cutoff fuel
    (fun s cfg _ hw hd hden hc => ctl2_sound F s cfg hw hd hden fuel hc) h) k off maxBlock maxBack hoff

/-- **C23.** CTL3 (`A B*`) never claims a halting machine. -/
theorem C23_ctl3_sound (T : Table) (k off maxBlock maxBack : Nat) (hoff : off < k) (cutoff fuel : Nat) :
    SoundFor (fun M => test3 M cutoff fuel) T k off maxBlock maxBack :=
  soundFor_of _ T (fun F hi h => testCTL_sound F hi _ cutoff fuel
    (fun s cfg _ hw hd hden hc => ctl3_sound F s cfg hw hd hden fuel hc) h) k off maxBlock maxBack hoff

/-- The full claim for CTL4. -/
def C24_claim : Prop :=
  ∀ (T : Table) (k off maxBlock maxBack cutoff fuel : Nat), off < k →
    SoundFor (fun M => test4 M cutoff fuel) T k off maxBlock maxBack

/-- A half tape has at most two finite runs (the infinite run is its last entry), or an outermost finite
run of length at most 2. -/
def shortEnd (h : List (Blk σ Nat)) : Bool :=
  decide (h.length ≤ 3) || (match h.dropLast.getLast? with
    | some b => !longer b 2
    | none => true)

/-- Both sides of the tape at the cutoff have short ends. -/
def ShortEnds (M : Machine σ S) (cutoff : Nat) : Bool :=
  let s := SimSt.seek M cutoff (SimSt.init natOps M)
  shortEnd (s.tape.half .L) && shortEnd (s.tape.half .R)

/-- **C24 (partial).** CTL4 (`A* B C`) never claims a halting machine, provided that the tape at the cutoff
has short ends.  Missing: tapes with a side of three or more runs of which the outermost is longer than 2;
there the claim is false, see `C24_claim_false`. -/
theorem C24_ctl4_sound_partial (T : Table) (k off maxBlock maxBack : Nat) (hoff : off < k) (cutoff fuel : Nat) :
    SoundFor (fun M => ShortEnds M cutoff && test4 M cutoff fuel) T k off maxBlock maxBack := by
  refine soundFor_of _ T (fun F hi h => ?_) k off maxBlock maxBack hoff
  rw [Bool.and_eq_true] at h
  refine testCTL_sound F hi _ cutoff fuel (fun s cfg hs hw hd hden hc =>
    ctl4_sound F s cfg hw hd hden (fun d => ?_) fuel hc) h.2
  have h1 := h.1
  unfold ShortEnds at h1
  rw [← hs] at h1
  rw [Bool.and_eq_true] at h1
  have key : shortEnd (s.tape.half d) = true := by
    cases d
    · exact h1.1
    · exact h1.2
  unfold shortEnd at key
  rw [Bool.or_eq_true, decide_eq_true_eq] at key
  refine key.imp id (fun h2 b hb => ?_)
  rw [hb] at h2
  simpa using h2

/-- Writes `1 1 1 2 3`, walks back left, and halts on the third 1. -/
def c24T : Table := tbl [
  [.go 1 .R 1], [.go 1 .R 2], [.go 1 .R 3], [.go 2 .R 4], [.go 3 .R 5], [.go 0 .L 6],
  [.undef, .go 1 .L 7, .go 2 .L 6, .go 3 .L 6], [.undef, .go 1 .L 8], [.go 0 .L 8, .halt 1 .R]]

/-- CTL4 claims that a machine that halts after 11 steps runs forever. -/
theorem C24_claim_false : ¬ C24_claim := by
  intro h
  have h1 := (h c24T 1 0 0 0 6 10 (by decide)).1 (by decide +kernel)
  exact absurd (h1 11) (by decide +kernel)

/-! ## The deciders do succeed -/

/-- a machine bouncing over a growing block of ones, `1RB1LA_1LA1RB` -/
def bouncer2 : Table := tbl [[.go 1 .R 1, .go 1 .L 0], [.go 1 .L 0, .go 1 .R 1]]

example : test1 (simple bouncer2) 10 20 = true := by decide +kernel
example : test1 (block (simple bouncer2) 2 1 100) 10 20 = true := by decide +kernel
example : test1 (back (simple bouncer2) 100) 10 20 = true := by decide +kernel
example : test1 (back (block (simple bouncer2) 2 1 100) 100) 10 20 = true := by decide +kernel
example : test2 (simple bouncer2) 10 20 = true := by decide +kernel
example : test2 (block (simple bouncer2) 2 1 100) 10 20 = true := by decide +kernel
example : test2 (back (simple bouncer2) 100) 10 20 = true := by decide +kernel
example : test2 (back (block (simple bouncer2) 2 1 100) 100) 10 20 = true := by decide +kernel
example : test3 (simple bouncer2) 10 20 = true := by decide +kernel
example : test3 (block (simple bouncer2) 2 1 100) 10 20 = true := by decide +kernel
example : test3 (back (simple bouncer2) 100) 10 20 = true := by decide +kernel
example : test3 (back (block (simple bouncer2) 2 1 100) 100) 10 20 = true := by decide +kernel
example : test4 (simple bouncer2) 10 20 = true := by decide +kernel
example : test4 (block (simple bouncer2) 2 1 100) 10 20 = true := by decide +kernel
example : test4 (back (simple bouncer2) 100) 10 20 = true := by decide +kernel
example : test4 (back (block (simple bouncer2) 2 1 100) 100) 10 20 = true := by decide +kernel
example : ShortEnds (back (block (simple bouncer2) 2 1 100) 100) 10 = true := by decide +kernel
-- and fail on a machine that halts
example : test1 (simple exBB2) 3 20 = false ∧ test2 (simple exBB2) 3 20 = false ∧
    test3 (simple exBB2) 3 20 = false ∧ test4 (simple exBB2) 3 20 = false := by decide +kernel

end Props

import Verif.Lemmas.BlockFinder2
import Verif.Props.Prover

/-!
# C56: the automatic search for a block size is harmless

The theorems hold for every machine, all parameters, all limits of the macro machines and whatever the floating point division
`quot` does.
-/

namespace Props
open Spec Model Model.Prover Model.BlockFinder

theorem nested_ok (T : Table) {k : Nat} (hk : 0 < k) (maxBlock maxBack : Nat) :
    ∃ Den TDen hs, Follows T (back (block (simple T) k 0 maxBlock) maxBack) Den TDen hs ∧
      Den (initDC (back (block (simple T) k 0 maxBlock) maxBack)) Spec.init :=
  ⟨_, _, _, back_follows (block_follows (simple_follows T) (simple_shift _) hk 0 maxBlock 0) (block_shift (simple_shift _) hk 0)
    maxBack, back_init (block_init (simple_init T) hk hk) maxBack⟩

theorem multLoop_out (T : Table) (maxBlock maxBack : Nat) (quot : Nat → Nat → Rat) (p : Params) (hp : p.multLoops ≠ 0)
    {opt : Nat} (ho : 1 ≤ opt) (fuel mult optMult : Nat) (best : Rat) (hm : 1 ≤ mult) (hom : 1 ≤ optMult)
    (hall : p.allows (optMult * opt) = true) :
    multLoop T maxBlock maxBack quot p opt fuel mult optMult best = .unfinished ∨
    ∃ k, multLoop T maxBlock maxBack quot p opt fuel mult optMult best = .size k ∧ 1 ≤ k ∧ p.allows k = true := by
  induction fuel generalizing mult optMult best with
  | zero => exact Or.inl rfl
  | succ fuel ih =>
    unfold multLoop
    by_cases hc : mult ≤ optMult + p.maxBlockMult ∧ p.allows (mult * opt) = true
    · have hpos : 0 < mult * opt := Nat.mul_pos hm ho
      obtain ⟨Den, TDen, hs, F, hi⟩ := nested_ok T hpos maxBlock maxBack
      have hsafe : (Stat.run (back (block (simple T) (mult * opt) 0 maxBlock) maxBack) p.multLoops).sim.op ≠ .raised := by
        rw [Stat.run_sim]
        obtain ⟨m, e, -⟩ := loopSeek_done F hi p.multLoops
        rw [e]; exact (after_ok F hi m).1.safe
      have hmacr := macr_pos F hi hp
      rw [if_pos hc, if_neg (by omega)]
      simp only [hsafe, if_false]
      split
      · exact Or.inr ⟨_, rfl, hpos, hc.2⟩
      · rename_i hr
        rw [if_neg (hmacr (by simpa using hr))]
        split
        · exact ih _ _ _ (by omega) hm hc.2
        · exact ih _ _ _ (by omega) hom hall
    · rw [if_neg hc]
      exact Or.inr ⟨_, rfl, Nat.mul_pos hom ho, hall⟩

/-- the search reaches the second phase with a size allowed by the limit, or stops with size 1 -/
theorem blockFinder_cases (T : Table) (maxBlock maxBack : Nat) (quot : Nat → Nat → Rat) (p : Params) :
    (∀ fuel, blockFinder T maxBlock maxBack quot p fuel = .size 1) ∨
    ∃ opt, 1 ≤ opt ∧ p.allows opt = true ∧
      ∀ fuel, blockFinder T maxBlock maxBack quot p fuel = chooseMult T maxBlock maxBack quot p fuel opt := by
  by_cases hc : p.compressionLoops = 0
  · refine Or.inr ⟨1, le_rfl, allows_one p, fun fuel => ?_⟩
    unfold blockFinder
    rw [if_neg (by simpa using hc)]
  · have F := simple_follows T
    have hi := simple_init T
    have e0 : SimSt.init natOps (simple T) = SimSt.after (simple T) 0 := rfl
    have hw := worstLoop_spec F hi p.compressionLoops 0 (tapeLen (SimSt.after (simple T) 0).tape) 0
      (fun j hj => by obtain rfl : j = 0 := by omega
                      rfl) le_rfl rfl
    rcases hw with hw | ⟨w, hw, hrun⟩
    · left
      intro fuel
      unfold blockFinder
      rw [if_pos hc]
      simp only
      rw [e0, hw]
    · right
      obtain ⟨m, e, h1, h2, h3⟩ := loopSeek_done F hi w
      have hmw : m = w := by
        have := hrun m h2
        by_contra hne
        exact h1 ⟨by omega, this⟩
      subst hmw
      obtain ⟨tape, ht⟩ := uncompress_ok (after_ok F hi m).1.wf
      obtain ⟨o1, o2, o3, -, -⟩ := optSize_spec p tape
      refine ⟨(optSize p tape).2, o2, o3, fun fuel => ?_⟩
      unfold blockFinder
      rw [if_pos hc]
      simp only
      rw [show worstLoop (simple T) p.compressionLoops (SimSt.init natOps (simple T))
        (tapeLen (SimSt.init natOps (simple T)).tape) 0 = _ from hw]
      simp only
      rw [e, if_neg (after_ok F hi m).1.safe, if_neg (by simp), ht]
      simp only
      rw [if_neg (by omega)]

/-- **C56, the search.** The search ends without an exception (no failed assertion, no division by zero, no negative number in
an unsigned field) with a positive block size, within the limit on block sizes if there is one and no fixed multiple is
asked for. -/
theorem C56_search (T : Table) (maxBlock maxBack : Nat) (quot : Nat → Nat → Rat) (p : Params) :
    ∃ k fuel, (∀ fuel', fuel ≤ fuel' → blockFinder T maxBlock maxBack quot p fuel' = .size k) ∧ 1 ≤ k ∧
      (p.maxBlockSize ≠ 0 → p.blockMult = 0 → k ≤ p.maxBlockSize) ∧ (p.blockMult ≠ 0 → k = 1 ∨ p.blockMult ∣ k) := by
  have lim : ∀ k, p.allows k = true → p.maxBlockSize ≠ 0 → k ≤ p.maxBlockSize := by
    intro k hk h
    unfold Params.allows at hk
    simpa [h] using hk
  rcases blockFinder_cases T maxBlock maxBack quot p with h | ⟨opt, ho, ha, h⟩
  · exact ⟨1, 0, fun f _ => h f, le_rfl, fun h1 _ => by omega, fun _ => Or.inl rfl⟩
  · by_cases hb : p.blockMult = 0
    · by_cases hl : p.multLoops = 0
      · refine ⟨opt, 0, fun f _ => ?_, ho, fun h1 _ => lim opt ha h1, fun h => absurd hb h⟩
        rw [h f]; unfold chooseMult; rw [if_neg (by simpa using hb), if_pos hl]
      · obtain ⟨f, hf⟩ := multLoop_ends T maxBlock maxBack quot p opt
        have hall : ∀ d, multLoop T maxBlock maxBack quot p opt (f + d) 1 1 0 =
            multLoop T maxBlock maxBack quot p opt f 1 1 0 := by
          intro d
          induction d with
          | zero => rfl
          | succ d ih => rw [← Nat.add_assoc, multLoop_mono _ _ _ _ _ _ _ _ _ _ (by rw [ih]; exact hf), ih]
        rcases multLoop_out T maxBlock maxBack quot p hl ho f 1 1 0 le_rfl le_rfl (by rwa [Nat.one_mul]) with hu | ⟨k, hk, k1, k2⟩
        · exact absurd hu hf
        · refine ⟨k, f, fun f' hf' => ?_, k1, fun h1 _ => lim k k2 h1, fun h => absurd hb h⟩
          rw [h f']; unfold chooseMult
          rw [if_neg (by simpa using hb), if_neg hl, ← hk, ← hall (f' - f), Nat.add_sub_cancel' hf']
    · refine ⟨p.blockMult * opt, 0, fun f _ => ?_, Nat.mul_pos (by omega) ho, fun _ h => absurd h hb,
        fun _ => Or.inr (Nat.dvd_mul_right _ _)⟩
      rw [h f]; unfold chooseMult; rw [if_pos hb]

/-- **C56, the choice.** The first phase takes the smallest of the allowed block sizes (below half the length of the tape) with
the best estimated compression. -/
theorem C56_best_compression {σ : Type} [DecidableEq σ] (p : Params) (tape : List σ) :
    let k := (optSize p tape).2
    1 ≤ k ∧ (p.maxBlockSize ≠ 0 → k ≤ p.maxBlockSize) ∧ (tape.length / 2 ≤ 1 → k = 1) ∧
    (1 < tape.length / 2 → k < tape.length / 2 ∧
      ∀ b, 1 ≤ b → b < tape.length / 2 → (p.maxBlockSize ≠ 0 → b ≤ p.maxBlockSize) →
        efficiency tape k ≤ efficiency tape b ∧ (b < k → efficiency tape k < efficiency tape b)) := by
  obtain ⟨-, h1, h2, h3, h4⟩ := optSize_spec p tape
  have al : ∀ b, p.allows b = true ↔ (p.maxBlockSize ≠ 0 → b ≤ p.maxBlockSize) := by
    intro b
    unfold Params.allows
    simp only [Bool.or_eq_true, decide_eq_true_eq]
    omega
  refine ⟨h1, (al _).1 h2, h3, fun h => ⟨(h4 h).1, fun b b1 b2 b3 => (h4 h).2 b b1 b2 ((al b).2 b3)⟩⟩

theorem blockFinder_pos {T : Table} {maxBlock maxBack : Nat} {quot : Nat → Nat → Rat} {p : Params} {fuel k : Nat}
    (h : blockFinder T maxBlock maxBack quot p fuel = .size k) : 0 < k := by
  rcases blockFinder_cases T maxBlock maxBack quot p with hc | ⟨opt, ho, ha, hc⟩
  · rw [hc fuel] at h; injection h with h; omega
  · rw [hc fuel] at h
    unfold chooseMult at h
    split at h
    · injection h with h; rw [← h]; exact Nat.mul_pos (by omega) ho
    · split at h
      · injection h with h; omega
      · rename_i hl
        rcases multLoop_out T maxBlock maxBack quot p hl ho fuel 1 1 0 le_rfl le_rfl (by rwa [Nat.one_mul]) with hu | ⟨k', hk, k1, -⟩
        · rw [hu] at h; cases h
        · rw [hk] at h; injection h with h; omega

/-- **C56.** With the block size the search returns, the simulator over the block machine and over the back-symbol machine on
top of it, without or with the proof system, is exact after any number of loops: it does not raise, while running it shows the
base machine after `step_num` steps with its score, and when it says that the machine halts then the base machine halts at exactly
that step with that score. -/
theorem C56_simulation_exact (T : Table) (maxBlock maxBack : Nat) (quot : Nat → Nat → Rat) (p : Params) (fuel k : Nat)
    (h : blockFinder T maxBlock maxBack quot p fuel = .size k) (o : Opts) (ho : o.maxReps ≠ 0) (n : Nat) :
    let B := block (simple T) k 0 maxBlock
    let N := back (block (simple T) k 0 maxBlock) maxBack
    ExactSim T B (blockFlat k 0) (SimSt.after B n) ∧ ExactSim T B (blockFlat k 0) (pafter B o n).sim ∧
    ExactSim T N (fun c => blockFlat k 0 (backFlat c)) (SimSt.after N n) ∧
    ExactSim T N (fun c => blockFlat k 0 (backFlat c)) (pafter N o n).sim := by
  have hk := blockFinder_pos h
  have S1 := Stack.block (T := T) k 0 maxBlock hk
  have S2 := Stack.nested (T := T) k 0 maxBlock maxBack hk
  exact ⟨stack_exact S1 n, C49_run_exact S1 o ho n, stack_exact S2 n, C49_run_exact S2 o ho n⟩

/-- The infinite verdicts of the simulator with proof system. -/
theorem stack_infinite {T : Table} {σ S : Type} [DecidableEq σ] [DecidableEq S] {M : Machine σ S}
    {mean : DC σ S → DC Nat (Option Nat)} {Means : DC σ S → Config → Prop} (h : Stack T σ S M mean Means)
    (o : Opts) (ho : o.maxReps ≠ 0) (n : Nat) (hop : (pafter M o n).sim.op = .infRepeat)
    (hor : (pafter M o n).sim.infReason ≠ some .macroStep ∨ FollowsInf T M Means) : NeverHalts T init := by
  obtain ⟨⟨TDen, hs, F⟩, hi, -⟩ := stack_ok h
  cases tracks_of h o ho n with
  | same m h1 h2 =>
    have := (after_ok F hi m).1.inf (by rw [← h1.op]; exact hop)
    rcases this with h3 | h3
    · exact h3.2.1
    · rcases hor with hor | hor
      · rw [h1.reason] at hor; exact absurd h3.1 hor
      · exact (h3.2 hor).1
  | proof m h1 h2 h3 h4 => exact (loops_forever F (after_ok F hi m).1 h4).1

/-- **C56, infinite verdicts.** With the block size the search returns, an infinite verdict means that the base machine never
halts: over the block machine always; over the back-symbol machine on top of it when it comes from a chain step or from the proof
system, or if the block machine never gives up.  (What is missing, in-place repeats after giving up, is false: see
`C05_claim_false`.) -/
theorem C56_infinite_partial (T : Table) (maxBlock maxBack : Nat) (quot : Nat → Nat → Rat) (p : Params) (fuel k : Nat)
    (h : blockFinder T maxBlock maxBack quot p fuel = .size k) (o : Opts) (ho : o.maxReps ≠ 0) (n : Nat) :
    let B := block (simple T) k 0 maxBlock
    let N := back (block (simple T) k 0 maxBlock) maxBack
    ((pafter B o n).sim.op = .infRepeat → NeverHalts T init) ∧
    ((pafter N o n).sim.op = .infRepeat → (pafter N o n).sim.infReason ≠ some .macroStep ∨
      (∀ c cfg, blockValid k c → Represents (blockFlat k 0 c) cfg → (B.trans c.front c.st c.dir).cond ≠ .gaveUp) →
      NeverHalts T init) := by
  have hk := blockFinder_pos h
  have F1 := simple_follows T
  have I2 := block_inf F1 (simple_noGiveUp T) (simple_inf T) hk 0 maxBlock 0
  refine ⟨fun hop => stack_infinite (Stack.block k 0 maxBlock hk) o ho n hop (Or.inr I2), fun hop hor => ?_⟩
  refine stack_infinite (Stack.nested k 0 maxBlock maxBack hk) o ho n hop (hor.imp id fun hg => ?_)
  exact back_inf (block_follows F1 (simple_shift _) hk 0 maxBlock 0) (fun c cfg h => hg c cfg h.1 h.2) I2 maxBack

/-- writes `12` again and again -/
def exPattern : Table := tbl [[.go 1 .R 1], [.go 2 .R 0]]

-- the first phase finds the period of the tape; a fixed multiple; both phases on a busy beaver
example : blockFinder exPattern 100 100 (fun a b => a / b) ⟨20, 0, 2, 0, 0⟩ 0 = .size 2 := by decide +kernel
example : blockFinder exPattern 100 100 (fun a b => a / b) ⟨20, 10, 2, 0, 3⟩ 0 = .size 6 := by decide +kernel
example : blockFinder exBB3 100 100 (fun a b => a / b) ⟨5, 5, 2, 0, 0⟩ 9 = .size 2 := by decide +kernel
example : optSize ⟨20, 0, 2, 0, 0⟩ [1, 2, 3, 1, 2, 3, 1, 2, 3, 1, 2, 3, 4] = (4, 3) := by decide
example : optSize ⟨20, 0, 2, 2, 0⟩ [1, 2, 3, 1, 2, 3, 1, 2, 3, 1, 2, 3, 4] = (13, 1) := by decide

end Props

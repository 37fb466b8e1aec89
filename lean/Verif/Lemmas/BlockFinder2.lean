import Verif.Lemmas.BlockFinder
import Mathlib.Data.Finset.Card
import Mathlib.Data.Finset.Prod
import Mathlib.Tactic.Linarith

/-!
# Lemmas on the block size search: it ends

The number of base steps of a macro step is bounded whatever the block size is, so the quotients take finitely many values.
-/

namespace Model.BlockFinder
open Spec Model

variable {σ S : Type}

section
variable [DecidableEq σ] [DecidableEq S]

/-! ## Bounds on the number of steps -/

theorem limLoop_steps {M : Machine σ S} {C : Nat} (hM : ∀ a q d, (M.trans a q d).steps ≤ C) (maxLoops k : Nat)
    (s : LimLoop σ S) (h1 : s.steps ≤ s.loops * C) (h2 : s.loops ≤ maxLoops) :
    (limLoop M maxLoops k s).steps ≤ (maxLoops + 1) * C := by
  induction k generalizing s with
  | zero => exact Nat.zero_le _
  | succ k ih =>
    unfold limLoop
    have hb : ∀ t : Trans σ S, t.steps ≤ C → s.steps + t.steps ≤ (s.loops + 1) * C := by
      intro t ht; rw [Nat.add_mul]; omega
    have hc : (s.loops + 1) * C ≤ (maxLoops + 1) * C := Nat.mul_le_mul_right _ (by omega)
    cases hi : limIter M maxLoops s with
    | inl s' =>
      simp only
      unfold limIter at hi
      cases hg : Py.get s.tape s.pos with
      | none => rw [hg] at hi; simp at hi
      | some a =>
        rw [hg] at hi
        simp only at hi
        have := hb _ (hM a s.st s.dir)
        split at hi
        · cases hi
        · split at hi
          · cases hi
          · split at hi
            · cases hi
            · split at hi
              · cases hi
              · split at hi
                · cases hi
                · split at hi
                  · cases hi
                  · injection hi with hi
                    subst hi
                    exact ih _ this (by simp only; omega)
    | inr t =>
      simp only
      unfold limIter at hi
      cases hg : Py.get s.tape s.pos with
      | none => rw [hg] at hi; injection hi with hi; subst hi; exact Nat.zero_le _
      | some a =>
        rw [hg] at hi
        simp only at hi
        have := hb _ (hM a s.st s.dir)
        split at hi
        · injection hi with hi; subst hi; exact Nat.zero_le _
        · split at hi
          · injection hi with hi; subst hi; exact Nat.zero_le _
          · split at hi
            · injection hi with hi; subst hi; simp only; omega
            · split at hi
              · injection hi with hi; subst hi; simp only; omega
              · split at hi
                · injection hi with hi; subst hi; simp only; omega
                · split at hi
                  · injection hi with hi; subst hi; simp only; omega
                  · cases hi

theorem simLimited_steps {M : Machine σ S} {C : Nat} (hM : ∀ a q d, (M.trans a q d).steps ≤ C) (st : S) (tape : List σ)
    (pos : Int) (d : Dir) (maxLoops : Nat) : (simLimited M st tape pos d maxLoops).steps ≤ (maxLoops + 1) * C :=
  limLoop_steps hM maxLoops _ _ (Nat.zero_le _) (Nat.zero_le _)

theorem simple_steps (T : Table) (a : Nat) (q : Option Nat) (d : Dir) : ((simple T).trans a q d).steps ≤ 1 := by
  cases q with
  | none => exact Nat.zero_le _
  | some q =>
    simp only [simple]
    split <;> exact le_rfl

theorem block_steps {M : Machine σ S} {C : Nat} (hM : ∀ a q d, (M.trans a q d).steps ≤ C) (k off maxSim : Nat)
    (a : List σ) (q : BSt S) (d : Dir) : ((block M k off maxSim).trans a q d).steps ≤ (maxSim + 1) * C := by
  cases q with
  | offset s o => exact simLimited_steps hM _ _ _ _ _
  | plain s => cases d <;> exact simLimited_steps hM _ _ _ _ _

theorem back_steps {M : Machine σ S} {C : Nat} (hM : ∀ a q d, (M.trans a q d).steps ≤ C) (maxSim : Nat)
    (a : σ) (q : S × σ) (d : Dir) : ((back M maxSim).trans a q d).steps ≤ (maxSim + 1) * C := by
  cases d with
  | L =>
    have := simLimited_steps hM q.1 [a, q.2] 0 .L maxSim
    simp only [back]
    split
    · split <;> exact this
    · exact Nat.zero_le _
  | R =>
    have := simLimited_steps hM q.1 [q.2, a] 1 .R maxSim
    simp only [back]
    split
    · split <;> exact this
    · exact Nat.zero_le _

end

/-! ## Bounds on the run lengths -/

/-- the number of symbols in finite runs -/
def fin (h : List (Blk σ Nat)) : Nat := (h.map fun b => b.num.getD 0).sum

theorem fin_pop {h h' : List (Blk σ Nat)} (e : ChainTape.popOne natOps h = some h') : fin h' ≤ fin h := by
  cases h with
  | nil => cases e
  | cons b rest =>
    obtain ⟨a, n⟩ := b
    cases n with
    | none => injection e with e; subst e; exact le_rfl
    | some n =>
      simp only [ChainTape.popOne] at e
      split at e
      · injection e with e; subst e; simp [fin]
      · injection e with e; subst e
        show (n - 1) + fin rest ≤ n + fin rest
        omega

theorem fin_push [DecidableEq σ] {h h' : List (Blk σ Nat)} {a : σ} {n : Nat} (e : ChainTape.push natOps a n h = some h') :
    fin h' ≤ fin h + n := by
  cases h with
  | nil => cases e
  | cons b rest =>
    obtain ⟨c, m⟩ := b
    simp only [ChainTape.push, natOps] at e
    split at e
    · cases m with
      | none => injection e with e; subst e; simp
      | some m => injection e with e; subst e; simp [fin]; omega
    · injection e with e; subst e; simp [fin]; omega

def finT (t : ChainTape σ Nat) : Nat := fin t.left + fin t.right

theorem finT_half (t : ChainTape σ Nat) (d : Dir) : finT t = fin (t.half d) + fin (t.half d.other) := by
  cases d
  · rfl
  · exact Nat.add_comm _ _

theorem finT_set (t : ChainTape σ Nat) (d : Dir) (h : List (Blk σ Nat)) :
    finT (t.setHalf d h) = fin h + fin (t.half d.other) := by
  cases d
  · rfl
  · exact Nat.add_comm _ _

variable [DecidableEq σ] [DecidableEq S]

theorem finT_single {t t' : ChainTape σ Nat} {a : σ} {d : Dir} (e : t.singleMove natOps a d = some t') :
    finT t' ≤ finT t + 1 := by
  unfold ChainTape.singleMove at e
  simp only [Option.bind_eq_bind, Option.bind_eq_some_iff, Option.pure_def, Option.some.injEq] at e
  obtain ⟨h, h1, h2, h3, rfl⟩ := e
  have e1 := fin_pop h1
  have e2 := fin_push h3
  have e3 := finT_set t t.dir h
  have e4 := finT_half t t.dir
  have e5 := finT_half (t.setHalf t.dir h) d.other
  have e6 := finT_set (t.setHalf t.dir h) d.other h2
  show finT ((t.setHalf t.dir h).setHalf d.other h2) ≤ _
  simp only [natOps, id] at e2
  omega

theorem finT_chain {t t' : ChainTape σ Nat} {a : σ} {n : Nat} (e : t.chainMove natOps a = some (t', some n)) :
    finT t' ≤ finT t ∧ n ≤ finT t := by
  unfold ChainTape.chainMove at e
  have e4 := finT_half t t.dir
  cases hh : t.half t.dir with
  | nil => rw [hh] at e; cases e
  | cons b rest =>
    rw [hh] at e e4
    obtain ⟨c, m⟩ := b
    cases m with
    | none => simp at e
    | some m =>
      simp only at e
      split at e
      · cases e
      · rename_i h hp
        simp only [Option.some.injEq, Prod.mk.injEq] at e
        obtain ⟨rfl, rfl⟩ := e
        have e2 := fin_push hp
        have e3 := finT_set t t.dir rest
        have e5 := finT_half (t.setHalf t.dir rest) t.dir.other
        have e6 := finT_set (t.setHalf t.dir rest) t.dir.other h
        have e8 : (t.setHalf t.dir rest).dir = t.dir := ChainTape.dir_setHalf _ _ _
        rw [e8] at e2 ⊢
        have e7 : fin (⟨c, some m⟩ :: rest) = m + fin rest := rfl
        omega

theorem macroStep_bound {M : Machine σ S} {C : Nat} (hM : ∀ a q d, (M.trans a q d).steps ≤ C) (s : SimSt σ S Nat) :
    finT (s.macroStep natOps M).tape ≤ finT s.tape + 1 ∧ (s.macroStep natOps M).steps ≤ s.steps + C * (finT s.tape + 1) := by
  have h0 : s.steps ≤ s.steps + C * (finT s.tape + 1) := Nat.le_add_right _ _
  unfold SimSt.macroStep
  split
  · exact ⟨Nat.le_succ _, h0⟩
  · rename_i a ha
    have hC := hM a s.st s.dir
    simp only
    split
    · exact ⟨Nat.le_succ _, h0⟩
    · split
      · exact ⟨Nat.le_succ _, h0⟩
      · split
        · split
          · exact ⟨Nat.le_succ _, h0⟩
          · rename_i t ht
            refine ⟨?_, h0⟩
            have : t = s.tape := by
              unfold ChainTape.chainMove at ht
              split at ht
              · cases ht
              · split at ht
                · simp only [Option.some.injEq, Prod.mk.injEq, and_true] at ht; exact ht.symm
                · simp only at ht
                  split at ht
                  · cases ht
                  · simp at ht
            simp only [this]; exact Nat.le_succ _
          · rename_i t n ht
            obtain ⟨e1, e2⟩ := finT_chain ht
            refine ⟨by simp only; omega, ?_⟩
            simp only [natOps, id]
            exact Nat.add_le_add_left (Nat.mul_le_mul hC (by omega)) _
        · split
          · split
            · exact ⟨Nat.le_succ _, h0⟩
            · rename_i t ht
              refine ⟨finT_single ht, ?_⟩
              simp only [natOps, id]
              refine Nat.add_le_add_left (le_trans hC ?_) _
              exact Nat.le_mul_of_pos_right _ (Nat.succ_pos _)
          · exact ⟨Nat.le_succ _, h0⟩

theorem step_bound {M : Machine σ S} {C : Nat} (hM : ∀ a q d, (M.trans a q d).steps ≤ C) (s : SimSt σ S Nat) :
    finT (s.step natOps M).tape ≤ finT s.tape + 1 ∧ (s.step natOps M).steps ≤ s.steps + C * (finT s.tape + 1) := by
  unfold SimSt.step
  split
  · exact ⟨Nat.le_succ _, Nat.le_add_right _ _⟩
  · exact macroStep_bound hM { s with loops := s.loops + 1 }

theorem Stat.step_bound {M : Machine σ S} {C : Nat} (hM : ∀ a q d, (M.trans a q d).steps ≤ C) (x : Stat σ S) :
    finT (x.step M).sim.tape ≤ finT x.sim.tape + 1 ∧
    (x.step M).chain + (x.step M).macr ≤ x.chain + x.macr + C * (finT x.sim.tape + 1) := by
  have h := BlockFinder.step_bound hM x.sim
  rw [Stat.step_sim]
  refine ⟨h.1, ?_⟩
  unfold Stat.step
  simp only
  split
  · exact Nat.le_add_right _ _
  · split <;> simp only <;> omega

theorem Stat.go_bound {M : Machine σ S} {C : Nat} (hM : ∀ a q d, (M.trans a q d).steps ≤ C) (cutoff k n : Nat)
    (x : Stat σ S) (h1 : finT x.sim.tape ≤ n) (h2 : x.chain + x.macr ≤ C * (n * n)) :
    let y := Stat.loopSeekGo M cutoff k x
    y.chain + y.macr ≤ C * ((n + k) * (n + k)) := by
  induction k generalizing x n with
  | zero => exact h2
  | succ k ih =>
    simp only
    unfold Stat.loopSeekGo
    split
    · obtain ⟨a, b⟩ := Stat.step_bound hM x
      have := ih (n + 1) (x.step M) (by omega) (by
        have e : C * (finT x.sim.tape + 1) ≤ C * (n + 1) := Nat.mul_le_mul_left _ (by omega)
        have e2 : C * ((n + 1) * (n + 1)) = C * (n * n) + C * (n + 1) + C * n := by ring
        omega)
      rw [show n + (k + 1) = n + 1 + k by omega]
      exact this
    · refine le_trans h2 (Nat.mul_le_mul_left _ (Nat.mul_le_mul ?_ ?_)) <;> omega

/-- The statistics after `cutoff` loops are bounded, whatever the block size is. -/
theorem Stat.run_bound (T : Table) (k maxBlock maxBack cutoff : Nat) :
    let x := Stat.run (back (block (simple T) k 0 maxBlock) maxBack) cutoff
    x.chain + x.macr ≤ (maxBack + 1) * ((maxBlock + 1) * 1) * (cutoff * cutoff) := by
  have := Stat.go_bound (M := back (block (simple T) k 0 maxBlock) maxBack)
    (back_steps (block_steps (simple_steps T) k 0 maxBlock) maxBack) cutoff cutoff 0
    ⟨SimSt.init natOps (back (block (simple T) k 0 maxBlock) maxBack), 0, 0⟩ (by simp [SimSt.init, ChainTape.init, finT, fin]) (Nat.zero_le _)
  simp only [Nat.zero_add] at this
  exact this

/-! ## The loop over the multiples ends -/

theorem multLoop_ends (T : Table) (maxBlock maxBack : Nat) (quot : Nat → Nat → Rat) (p : Params) (opt : Nat) :
    ∃ fuel, multLoop T maxBlock maxBack quot p opt fuel 1 1 0 ≠ .unfinished := by
  let B := (maxBack + 1) * ((maxBlock + 1) * 1) * (p.multLoops * p.multLoops)
  let V : Finset Rat := ((Finset.range (B + 1)) ×ˢ (Finset.range (B + 1))).image fun q => quot q.1 q.2
  have key : ∀ c d mult optMult (best : Rat), 0 ≤ best → (V.filter (best < ·)).card ≤ c →
      optMult + p.maxBlockMult + 1 - mult ≤ d →
      ∃ fuel, multLoop T maxBlock maxBack quot p opt fuel mult optMult best ≠ .unfinished := by
    intro c
    induction c using Nat.strong_induction_on with
    | _ c ihc =>
      intro d
      induction d with
      | zero =>
        intro mult optMult best h0 hc hd
        refine ⟨1, ?_⟩
        unfold multLoop
        rw [if_neg (by rintro ⟨h, -⟩; omega)]
        simp
      | succ d ihd =>
        intro mult optMult best h0 hc hd
        by_cases hle : optMult + p.maxBlockMult + 1 - mult ≤ d
        · exact ihd mult optMult best h0 hc hle
        obtain ⟨f, hf⟩ := ihd (mult + 1) optMult best h0 hc (by omega)
        have hnext : ∀ x : Rat, x ∈ V → x > 2 * best →
            ∃ fuel, multLoop T maxBlock maxBack quot p opt fuel (mult + 1) mult x ≠ .unfinished := by
          intro x hx hgt
          have hlt : best < x := lt_of_le_of_lt (by linarith) hgt
          refine ihc _ ?_ _ (mult + 1) mult x (by linarith) le_rfl le_rfl
          have : V.filter (x < ·) ⊂ V.filter (best < ·) := by
            rw [Finset.ssubset_iff_of_subset]
            · exact ⟨x, Finset.mem_filter.2 ⟨hx, hlt⟩, fun h => lt_irrefl _ (Finset.mem_filter.1 h).2⟩
            · intro y hy
              rw [Finset.mem_filter] at hy ⊢
              exact ⟨hy.1, lt_trans hlt hy.2⟩
          have := Finset.card_lt_card this
          omega
        by_cases hc1 : mult ≤ optMult + p.maxBlockMult ∧ p.allows (mult * opt) = true
        · have hB := Stat.run_bound T (mult * opt) maxBlock maxBack p.multLoops
          simp only at hB
          generalize hx : Stat.run (back (block (simple T) (mult * opt) 0 maxBlock) maxBack) p.multLoops = x at hB
          by_cases hgt : quot x.chain x.macr > 2 * best
          · obtain ⟨f', hf'⟩ := hnext (quot x.chain x.macr)
              (Finset.mem_image.2 ⟨(x.chain, x.macr), by
                rw [Finset.mem_product, Finset.mem_range, Finset.mem_range]
                constructor <;> simp only [B] <;> omega, rfl⟩) hgt
            refine ⟨f' + 1, ?_⟩
            unfold multLoop
            rw [if_pos hc1, hx]
            simp only [hgt, if_true]
            split
            · simp
            · split
              · simp
              · split
                · simp
                · split
                  · simp
                  · exact hf'
          · refine ⟨f + 1, ?_⟩
            unfold multLoop
            rw [if_pos hc1, hx]
            simp only [hgt, if_false]
            split
            · simp
            · split
              · simp
              · split
                · simp
                · split
                  · simp
                  · exact hf
        · refine ⟨1, ?_⟩
          unfold multLoop
          rw [if_neg hc1]
          simp
  exact key _ _ 1 1 0 le_rfl le_rfl le_rfl

theorem multLoop_mono (T : Table) (maxBlock maxBack : Nat) (quot : Nat → Nat → Rat) (p : Params) (opt : Nat)
    (f m om : Nat) (b : Rat) (h : multLoop T maxBlock maxBack quot p opt f m om b ≠ .unfinished) :
    multLoop T maxBlock maxBack quot p opt (f + 1) m om b = multLoop T maxBlock maxBack quot p opt f m om b := by
  induction f generalizing m om b with
  | zero => exact absurd rfl h
  | succ f ih =>
    unfold multLoop at h
    conv_lhs => unfold multLoop
    conv_rhs => unfold multLoop
    by_cases h1 : m ≤ om + p.maxBlockMult ∧ p.allows (m * opt) = true
    · rw [if_pos h1] at h ⊢
      rw [if_pos h1]
      by_cases h2 : m * opt = 0
      · simp only [h2, if_true]
      · simp only [h2, if_false] at h ⊢
        split
        · rfl
        · rename_i g1
          rw [if_neg g1] at h
          split
          · rfl
          · rename_i g2
            rw [if_neg g2] at h
            split
            · rfl
            · rename_i g3
              rw [if_neg g3] at h
              split
              · rename_i g4
                rw [if_pos g4] at h
                exact ih _ _ _ h
              · rename_i g4
                rw [if_neg g4] at h
                exact ih _ _ _ h
    · rw [if_neg h1, if_neg h1]

end Model.BlockFinder

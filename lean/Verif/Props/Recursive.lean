import Verif.Lemmas.RecBase
import Verif.Props.Prover

/-!
# C57: what is right about `--recursive`

The claim is false in general (`RecursiveLimits`): a general rule may be applied below the minima its proof needs if rules were
used in that proof, and the number of steps may be wrong.  Everything else is right.
-/

namespace Props
open Spec Model Model.Expr Model.Prover Model.Recursive

section
variable {σ S : Type}

theorem numbers_half {y : Nat → Int} {h : List (Blk σ V)} {u : List (Blk σ Nat)} (hp : Pos h) (hu : HalfIs y h u) :
    h = u.map (fun b => ⟨b.sym, b.num.map (fun n => .num n)⟩) := by
  induction hu with
  | nil => rfl
  | @cons a b h u h1 h2 ih =>
    rw [pos_cons] at hp
    rw [List.map_cons, ← ih hp.2]
    congr 1
    obtain ⟨as, an⟩ := a
    obtain ⟨bs, bn⟩ := b
    obtain ⟨h1, h3⟩ := h1
    simp only at h1
    subst h1
    cases an with
    | none => have := numIs_none h3; simp only at this; subst this; rfl
    | some v =>
      obtain ⟨k, -, rfl⟩ := hp.1 v rfl
      obtain ⟨n, e, hn⟩ := numIs_some h3
      simp only at e
      subst e
      rw [value_num] at hn
      subst hn; rfl

theorem numbers_of {y : Nat → Int} {t : ChainTape σ V} {u : ChainTape σ Nat} (hp : PosT t) (hu : TapeIs y t u) : t = numbers u := by
  have h1 := numbers_half (hp .L) hu.left
  have h2 := numbers_half (hp .R) hu.right
  have h3 := hu.dir
  cases t
  unfold numbers
  simp only at h3
  subst h3
  congr 1

variable [iσ : DecidableEq σ] [iS : DecidableEq S] {T : Table} {M : Machine σ S}

theorem rightRec_of [Sums] {P adj} (hP : Proves P adj) {Den TDen hs} {mean : DC σ S → DC Nat (Option Nat)}
    (F : Follows T M Den TDen hs) (hi : Den (initDC M) init) (SC : Scored M TDen)
    (hz : M.evalSym M.initSym = 0)
    (h1 : ∀ c cfg, Den c cfg → Represents (mean c) cfg) (h2 : ∀ c tp, TDen c tp → RepresentsTape (mean c) tp)
    (h3 : ∀ c cfg, Den c cfg → TDen c cfg.tape) (o : Opts) (n : Nat) (hp : AllRules P (afterWith adj M o n).rules) :
    RightRec T M mean n (afterWith adj M o n).g.sim := by
  have H := binv_after (TDen := TDen) (y := fun _ => 0) (fun _ => le_refl _) hP F hi o n hp
  generalize (afterWith adj M o n) = b at H
  have hscore : ∀ u tp, TapeIs (fun _ => 0) b.g.sim.tape u → TDen (tapeDC M.initSym u b.g.sim.st) tp →
      b.g.sim.nonzeros valOps M = .num (Set.ncard {p : Int | tp p ≠ 0}) := by
    intro u tp hu htp
    obtain ⟨x, y, hxy, hx, hy⟩ := tape_score M.evalSym hz H.ends H.pos hu (M.evalSt b.g.sim.st)
    rw [SC _ tp x y htp hx hy]
    exact hxy
  refine ⟨fun h => ?_, fun h => ?_, fun h hr => ?_⟩
  · rcases h with h | h
    · obtain ⟨-, -, hinv⟩ := H.running h
      obtain ⟨u, k, hu, hk, hd, hs, -⟩ := hinv.run
      exact ⟨k, u, numbers_of H.pos hu, h1 _ _ hd, hscore u _ hu (h3 _ _ hd), fun _ => ⟨hk, hs⟩⟩
    · obtain ⟨u, k, hu, hd, -⟩ := H.gave h
      exact ⟨k, u, numbers_of H.pos hu, h1 _ _ hd, hscore u _ hu (h3 _ _ hd), fun h' => by rw [h] at h'; cases h'⟩
  · obtain ⟨u, k, hu, hh, hd, hc, -⟩ := H.halt h
    exact ⟨k, u, numbers_of H.pos hu, hh, h2 _ _ hd, hscore u _ hu hd, hc⟩
  · rcases H.inf h with ⟨h', -⟩ | ⟨-, h'⟩
    · exact absurd h' hr
    · exact h'

omit iσ iS in
theorem rec_haltsAt_unique {M : Table} {c : Config} {j k : Nat} (h : HaltsAt M c j) (h' : HaltsAt M c k) : j = k := by
  rcases Nat.lt_trichotomy j k with hl | hl | hl
  · exact absurd h.1 (h'.2 j hl)
  · exact hl
  · exact absurd h'.1 (h.2 k hl)

/-- the number of steps, if sums are right -/
theorem rightSteps_of [Sums] (hS : SumsRight) {P adj} (hP : Proves P adj) {Den TDen hs} {mean : DC σ S → DC Nat (Option Nat)}
    (F : Follows T M Den TDen hs) (hi : Den (initDC M) init) (h1 : ∀ c cfg, Den c cfg → Represents (mean c) cfg) (o : Opts) (n : Nat)
    (hp : AllRules P (afterWith adj M o n).rules) : RightSteps T M mean n (afterWith adj M o n) := by
  have H : ∀ ρ : Nat → Nat, _ := fun ρ => binv_after (TDen := TDen) (y := fun x => (ρ x : Int)) (fun x => by simp) hP F hi o n hp
  generalize (afterWith adj M o n) = b at H
  have hq : ∀ (ρ : Nat → Nat) w, Val.value (qy (fun x => (ρ x : Int))) w = Val.value (fun x => (ρ x : ℚ)) w := by
    intro ρ w
    congr 1
  refine ⟨fun h ρ => ?_, fun h => ?_⟩
  · rcases h with h | h
    · obtain ⟨-, -, hinv⟩ := (H ρ).running h
      obtain ⟨u, k, hu, hk, hd, hs, hw⟩ := hinv.run
      exact ⟨k, u, numbers_of (H ρ).pos hu, h1 _ _ hd, by rw [← hq, stepNum_value]; exact hw hS, fun _ => ⟨hk, hs⟩⟩
    · obtain ⟨u, k, hu, hd, hw⟩ := (H ρ).gave h
      exact ⟨k, u, numbers_of (H ρ).pos hu, h1 _ _ hd, by rw [← hq]; exact hw hS, fun h' => by rw [h] at h'; cases h'⟩
  · obtain ⟨-, k, -, hh, -⟩ := (H fun _ => 0).halt h
    refine ⟨k, hh, fun ρ => ?_⟩
    obtain ⟨-, j, -, hj, -, -, hw⟩ := (H ρ).halt h
    rw [← hq, hw hS, rec_haltsAt_unique hh hj]

theorem inf_of [Sums] {P adj} (hP : Proves P adj) {Den TDen hs} (F : Follows T M Den TDen hs) (hi : Den (initDC M) init)
    (FI : FollowsInf T M Den) (o : Opts) (n : Nat) (hp : AllRules P (afterWith adj M o n).rules)
    (h : (afterWith adj M o n).g.sim.op = .infRepeat) : NeverHalts T init := by
  rcases (binv_after (TDen := TDen) (y := fun _ => 0) (fun _ => le_refl _) hP F hi o n hp).inf h with ⟨-, h'⟩ | ⟨-, h', -⟩
  · exact h' FI
  · exact h'

/-- the simulator over each stack of machines -/
theorem rightRec_stack [Sums] {P adj} (hP : Proves P adj) {mean Means} (h : Stack T σ S M mean Means) (o : Opts) (n : Nat)
    (hp : AllRules P (afterWith adj M o n).rules) : RightRec T M mean n (afterWith adj M o n).g.sim := by
  cases h with
  | simple =>
    exact rightRec_of hP (simple_follows T) (simple_init T) (simple_scored T) rfl (fun _ _ h => h) (fun _ _ h => h)
      (fun _ _ h => represents_tape h) o n hp
  | block k off maxSim hoff =>
    have hk : 0 < k := by omega
    have F2 := block_follows (simple_follows T) (simple_shift _) hk off maxSim 0
    exact rightRec_of hP F2 (block_init (simple_init T) hk hoff) (block_scored (simple_scored T) hk off maxSim 0)
      (block_zero rfl k off maxSim) (fun _ _ h => h.2) (fun _ _ h => h.2) (fun _ _ h => ⟨h.1, represents_tape h.2⟩) o n hp
  | back maxSim =>
    obtain rfl : iσ = instDecidableEqNat := Subsingleton.elim _ _
    exact rightRec_of hP (back_follows (simple_follows T) (simple_shift _) maxSim) (back_init (simple_init T) maxSim)
      (back_scored (simple_scored T) maxSim) rfl (fun _ _ h => h) (fun _ _ h => h) (fun _ _ h => represents_tape h) o n hp
  | nested k off maxBlock maxBack hoff =>
    obtain rfl : iσ = (fun a b => instDecidableEqList a b) := Subsingleton.elim _ _
    have hk : 0 < k := by omega
    have F2 := block_follows (simple_follows T) (simple_shift _) hk off maxBlock 0
    exact rightRec_of hP (back_follows F2 (block_shift (simple_shift _) hk 0) maxBack)
      (back_init (block_init (simple_init T) hk hoff) maxBack)
      (back_scored (block_scored (simple_scored T) hk off maxBlock 0) maxBack)
      (block_zero rfl k off maxBlock) (fun _ _ h => h.2) (fun _ _ h => h.2)
      (fun _ _ h => ⟨h.1, represents_tape h.2⟩) o n hp

/-- the number of steps over each stack of machines -/
theorem rightSteps_stack [Sums] (hS : SumsRight) {P adj} (hP : Proves P adj) {mean Means} (h : Stack T σ S M mean Means) (o : Opts)
    (n : Nat) (hp : AllRules P (afterWith adj M o n).rules) : RightSteps T M mean n (afterWith adj M o n) := by
  cases h with
  | simple => exact rightSteps_of hS hP (simple_follows T) (simple_init T) (fun _ _ h => h) o n hp
  | block k off maxSim hoff =>
    have hk : 0 < k := by omega
    have F2 := block_follows (simple_follows T) (simple_shift _) hk off maxSim 0
    exact rightSteps_of hS hP F2 (block_init (simple_init T) hk hoff) (fun _ _ h => h.2) o n hp
  | back maxSim =>
    obtain rfl : iσ = instDecidableEqNat := Subsingleton.elim _ _
    exact rightSteps_of hS hP (back_follows (simple_follows T) (simple_shift _) maxSim) (back_init (simple_init T) maxSim)
      (fun _ _ h => h) o n hp
  | nested k off maxBlock maxBack hoff =>
    obtain rfl : iσ = (fun a b => instDecidableEqList a b) := Subsingleton.elim _ _
    have hk : 0 < k := by omega
    have F2 := block_follows (simple_follows T) (simple_shift _) hk off maxBlock 0
    exact rightSteps_of hS hP (back_follows F2 (block_shift (simple_shift _) hk 0) maxBack)
      (back_init (block_init (simple_init T) hk hoff) maxBack) (fun _ _ h => h.2) o n hp

/-- no general rule was proved with the help of rules -/
def NoMetaGeneral (rs : Rules σ S) : Prop := ∀ key r, Py.dget rs key = some (.gen r) → r.isMeta = false

theorem plain_of {rs : Rules σ S} (h : NoMetaGeneral rs) : AllRules PlainRule rs := by
  intro key r hr
  cases r with
  | diff r => trivial
  | gen r => exact h key r hr

/-- **C57, what is right.** As long as no general (or linear) rule has been proved with the help of other rules, the simulator with
recursive proofs tells the truth about the machine, whatever difference rules have been proved with the help of other rules:
the configuration and score shown are reached, the machine halts if it is said to, with that tape, score and cell, and it runs
forever if it is said to, visiting the reported states.  Missing from the full claim: general rules proved with rules
(`C57_false_halt`), the number of steps (`C57_false_steps`), and that no exception is raised. -/
theorem C57_recursive_right_partial {mean Means} (h : Stack T σ S M mean Means) (o : Opts) (n : Nat)
    (hn : NoMetaGeneral (rafter M o n).rules) : RightRec T M mean n (rafter M o n).g.sim :=
  rightRec_stack proves_code h o n (plain_of hn)

end

theorem inf_stacks [Sums] (T : Table) (k off maxBlock maxBack : Nat) (hoff : off < k) (o : Opts) (n : Nat) {adj : Nat → Mins → Mins}
    {P : ∀ {σ : Type}, Recursive.Rule σ → Prop} (hP : ∀ {σ : Type}, Proves (σ := σ) P adj) :
    (AllRules P (afterWith adj (simple T) o n).rules → (afterWith adj (simple T) o n).g.sim.op = .infRepeat → NeverHalts T init) ∧
    (AllRules P (afterWith adj (block (simple T) k off maxBlock) o n).rules →
      (afterWith adj (block (simple T) k off maxBlock) o n).g.sim.op = .infRepeat → NeverHalts T init) ∧
    (AllRules P (afterWith adj (back (simple T) maxBack) o n).rules →
      (afterWith adj (back (simple T) maxBack) o n).g.sim.op = .infRepeat → NeverHalts T init) ∧
    (AllRules P (afterWith adj (back (block (simple T) k off maxBlock) maxBack) o n).rules →
      (afterWith adj (back (block (simple T) k off maxBlock) maxBack) o n).g.sim.op = .infRepeat →
      (∀ c cfg, blockValid k c → Represents (blockFlat k 0 c) cfg →
        ((block (simple T) k off maxBlock).trans c.front c.st c.dir).cond ≠ .gaveUp) → NeverHalts T init) := by
  have hk : 0 < k := by omega
  have F1 := simple_follows T
  have F2 := block_follows F1 (simple_shift _) hk off maxBlock 0
  have I2 := block_inf F1 (simple_noGiveUp T) (simple_inf T) hk off maxBlock 0
  exact ⟨fun hn => inf_of hP F1 (simple_init T) (simple_inf T) o n hn,
    fun hn => inf_of hP F2 (block_init (simple_init T) hk hoff) I2 o n hn,
    fun hn => inf_of hP (back_follows F1 (simple_shift _) maxBack) (back_init (simple_init T) maxBack)
      (back_inf F1 (simple_noGiveUp T) (simple_inf T) maxBack) o n hn,
    fun hn h ho => inf_of hP (back_follows F2 (block_shift (simple_shift _) hk 0) maxBack)
      (back_init (block_init (simple_init T) hk hoff) maxBack)
      (back_inf F2 (fun c cfg h => ho c cfg h.1 h.2) I2 maxBack) o n hn h⟩

/-- **C57, infinite verdicts.** Over a plain, block or back-symbol machine every infinite verdict is right, for whichever reason.
Over the nested stack this holds if the block machine never gives up (see C05); a general rule proved with rules is again
excluded. -/
theorem C57_infinite_partial (T : Table) (k off maxBlock maxBack : Nat) (hoff : off < k) (o : Opts) (n : Nat) :
    (NoMetaGeneral (rafter (simple T) o n).rules → (rafter (simple T) o n).g.sim.op = .infRepeat → NeverHalts T init) ∧
    (NoMetaGeneral (rafter (block (simple T) k off maxBlock) o n).rules →
      (rafter (block (simple T) k off maxBlock) o n).g.sim.op = .infRepeat → NeverHalts T init) ∧
    (NoMetaGeneral (rafter (back (simple T) maxBack) o n).rules →
      (rafter (back (simple T) maxBack) o n).g.sim.op = .infRepeat → NeverHalts T init) ∧
    (NoMetaGeneral (rafter (back (block (simple T) k off maxBlock) maxBack) o n).rules →
      (rafter (back (block (simple T) k off maxBlock) maxBack) o n).g.sim.op = .infRepeat →
      (∀ c cfg, blockValid k c → Represents (blockFlat k 0 c) cfg →
        ((block (simple T) k off maxBlock).trans c.front c.st c.dir).cond ≠ .gaveUp) → NeverHalts T init) := by
  obtain ⟨h1, h2, h3, h4⟩ := inf_stacks T k off maxBlock maxBack hoff o n (P := PlainRule) proves_code
  exact ⟨fun hn => h1 (plain_of hn), fun hn => h2 (plain_of hn), fun hn => h3 (plain_of hn), fun hn => h4 (plain_of hn)⟩

/-- `1RB0RC_1RC1RA_1LA0LC` -/
def exRec : Table := tbl [[.go 1 .R 1, .go 0 .R 2], [.go 1 .R 2, .go 1 .R 0], [.go 1 .L 0, .go 0 .L 2]]

/-- the kinds of rules: is it a difference rule, and was it proved with rules? -/
def kinds {σ S : Type} (rs : Rules σ S) : List (Bool × Bool) :=
  rs.map (fun r => match r.2 with | .diff r => (true, r.isMeta) | .gen r => (false, r.isMeta))

-- the machine is shown to run forever by a difference rule that was proved with another rule
set_option maxRecDepth 100000 in
example : let b := rafter (simple exRec) defaults 41
    (b.g.sim.op, b.g.sim.infReason, kinds b.rules) = (.infRepeat, some .proofSystem, [(true, false), (true, true)]) := by decide +kernel

theorem noMeta_of {σ S : Type} [DecidableEq σ] [DecidableEq S] {rs : Rules σ S} (h : (false, true) ∉ kinds rs) : NoMetaGeneral rs := by
  intro key r hr
  by_contra hm
  have hm : r.isMeta = true := by simpa using hm
  have : ∃ e ∈ rs, e.2 = .gen r := by
    unfold Py.dget at hr
    cases hf : rs.find? (fun e => e.1 == key) with
    | none => rw [hf] at hr; cases hr
    | some e => rw [hf] at hr; exact ⟨e, List.mem_of_find?_eq_some hf, by simpa using hr⟩
  obtain ⟨e, he, h2⟩ := this
  exact h (List.mem_map.2 ⟨e, he, by simp [h2, hm]⟩)

set_option maxRecDepth 100000 in
theorem exRec_plain : NoMetaGeneral (rafter (simple exRec) defaults 41).rules := noMeta_of (by decide +kernel)

set_option maxRecDepth 100000 in
example : NeverHalts exRec init := by
  refine (C57_infinite_partial exRec 1 0 0 0 (by omega) defaults 41).1 exRec_plain ?_
  decide +kernel

end Props

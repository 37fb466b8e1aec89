import Verif.Lemmas.RecLinear
import Verif.Props.RecursiveStrict

/-!
# C82: the simulator with `--recursive --exp-linear-rules`

Whole runs of the simulator in which linear rules are applied with all their repetitions at once.
-/

set_option Elab.async false

namespace Props
open Spec Model Model.Expr Model.Prover Model.Recursive Model.Linear Model.RecLinear Model.RuleFunc

/-! ## The rule that is applied -/

theorem mult_again {m m' coef const : Int} (h : (Mult.new m coef const).map (·.min) = .ok m') :
    Mult.new m' coef const = Mult.new m coef const := by
  unfold Mult.new at h ⊢
  split at h
  · next hc =>
    rw [if_pos hc, if_pos hc]
    unfold Mult.computeMin at h ⊢
    by_cases h0 : const ≥ 0
    · simp only [if_pos h0] at h ⊢
      cases h; rfl
    · simp only [if_neg h0] at h ⊢
      split at h
      · cases h
      · next k hk =>
        split at hk
        · cases hk
        · next nd hd =>
          cases hk
          have hm : m' = if nd > m then nd else m := by cases h; rfl
          have e : (if nd > m' then nd else m') = m' := by rw [hm]; split <;> simp_all
          simp only [e, ← hm]
  · cases h

theorem tryLinear_gen : ∀ (vars : List (Option (Nat × Int))) (result : List (Option V)), vars.length = result.length →
    (Recursive.tryLinear vars result = .fail → genFuncs vars result = .fail) ∧
    (Recursive.tryLinear vars result = .raise → genFuncs vars result = .raise) ∧
    ∀ vars', Recursive.tryLinear vars result = .ok vars' →
      genFuncs vars' result = genFuncs vars result ∧ ∃ fs, genFuncs vars result = .ok fs
  | [], [], _ => ⟨(fun h => by cases h), (fun h => by cases h), fun v h => by cases h; exact ⟨rfl, [], rfl⟩⟩
  | [], _ :: _, h => by cases h
  | _ :: _, [], h => by cases h
  | none :: vs, r :: rs, hl => by
    obtain ⟨h1, h2, h3⟩ := tryLinear_gen vs rs (by simpa using hl)
    simp only [Recursive.tryLinear, genFuncs]
    cases ht : Recursive.tryLinear vs rs with
    | fail => rw [h1 ht]; simp
    | raise => rw [h2 ht]; simp
    | ok l =>
      obtain ⟨h4, fs, h5⟩ := h3 l ht
      rw [h5]
      refine ⟨(fun h => by cases h), (fun h => by cases h), fun v h => ?_⟩
      cases h
      simp [genFuncs, h4, h5]
  | some (x, m) :: vs, r :: rs, hl => by
    obtain ⟨h1, h2, h3⟩ := tryLinear_gen vs rs (by simpa using hl)
    simp only [Recursive.tryLinear, genFuncs]
    cases r with
    | none => simp
    | some v =>
      simp only
      by_cases hv : v.variables ≠ [x]
      · simp [hv]
      simp only [if_neg hv]
      cases hs : Recursive.strictlyLinear v with
      | none => simp
      | some p =>
        obtain ⟨x', coef, const⟩ := p
        simp only
        have key : (∃ e, (if coef = 1 then .ok m else (Mult.new m coef const).map (·.min) : Except Err Int) = .error e ∧
              ∃ e', mkFunc m coef const = .error e') ∨
            ∃ m', (if coef = 1 then .ok m else (Mult.new m coef const).map (·.min) : Except Err Int) = .ok m' ∧
              mkFunc m' coef const = mkFunc m coef const ∧ ∃ f, mkFunc m coef const = .ok f := by
          unfold mkFunc
          by_cases hc : coef = 1
          · right
            simp only [if_pos hc]
            refine ⟨m, rfl, rfl, ?_⟩
            by_cases h0 : const < 0
            · rw [if_pos h0]
              unfold Subtract.new
              rw [if_pos (by omega)]
              exact ⟨_, rfl⟩
            · rw [if_neg h0]
              unfold Add.new
              rw [if_pos (by omega)]
              exact ⟨_, rfl⟩
          · simp only [if_neg hc]
            cases hm : Mult.new m coef const with
            | error e => left; exact ⟨e, rfl, e, rfl⟩
            | ok f =>
              right
              refine ⟨f.min, rfl, ?_, _, rfl⟩
              rw [mult_again (m := m) (by rw [hm]; rfl), hm]
        rcases key with ⟨e, h4, e', h5⟩ | ⟨m', h4, h5, f, h6⟩
        · rw [h4, h5]; simp
        · rw [h4, h6]
          simp only
          cases ht : Recursive.tryLinear vs rs with
          | fail => rw [h1 ht]; simp
          | raise => rw [h2 ht]; simp
          | ok l =>
            obtain ⟨h7, fs, h8⟩ := h3 l ht
            rw [h8]
            refine ⟨(fun h => by cases h), (fun h => by cases h), fun w h => ?_⟩
            cases h
            simp [genFuncs, h7, h8, hv, hs, h5, h6]

/-- **C82, the stored rule.** The linear rule made from the stored rule, whose minima have been raised, is the linear rule made
when the rule was proved; and a rule stored as a general rule gives none. -/
theorem C82_rule_kept (vars : List (Option (Nat × Int))) (result : List (Option V)) (states : List Nat) (hl : vars.length = result.length) :
    (Recursive.tryLinear vars result = .fail → tryGen vars result states = .fail) ∧
    ∀ vars', Recursive.tryLinear vars result = .ok vars' →
      tryGen vars' result states = tryGen vars result states ∧ ∃ r, tryGen vars result states = .ok r := by
  obtain ⟨h1, -, h3⟩ := tryLinear_gen vars result hl
  unfold tryGen
  refine ⟨fun h => by rw [h1 h], fun v h => ?_⟩
  obtain ⟨h4, fs, h5⟩ := h3 v h
  rw [h4, h5]
  exact ⟨rfl, _, rfl⟩

/-! ## Whole runs -/

/-- the sums of the code are not right -/
theorem code_sums_wrong : ¬ SumsRight := by
  intro h
  have e : (Series.seriesSum (.expr ⟨[⟨[⟨7, 3⟩], 2⟩], 0⟩) 7 (.num 3) : Except Err W) = .ok (.num 36) := by decide +kernel
  have := h _ _ _ _ e (fun _ => 0) 3 (by simp [Val.value])
  simp [Val.value, Expr.value, Finset.sum_range_succ, Term.value, monomial] at this
  norm_num at this

section
variable {σ S : Type} [iσ : DecidableEq σ] [iS : DecidableEq S] {T : Table} {M : Machine σ S}

theorem rightLin_of [Sums] (hS : ¬ SumsRight) (mt : Bool) {P adj} (hP : Proves P adj) {Den TDen hs} {mean : DC σ S → DC Nat (Option Nat)}
    (F : Follows T M Den TDen hs) (hi : Den (initDC M) init) (SC : Scored M TDen)
    (hz : M.evalSym M.initSym = 0)
    (h1 : ∀ c cfg, Den c cfg → Represents (mean c) cfg) (h2 : ∀ c tp, TDen c tp → RepresentsTape (mean c) tp)
    (h3 : ∀ c cfg, Den c cfg → TDen c cfg.tape) (o : Opts) (n : Nat) (hp : AllRules P (linearAfter adj tidy mt M o n).rules) :
    RightLin T M mean n (linearAfter adj tidy mt M o n).g.sim := by
  have H := linBinv_after (TDen := TDen) (y := fun _ => 0) (fun _ => le_refl _) hS hP F hi o n hp
  generalize (linearAfter adj tidy mt M o n) = b at H
  have hscore : ∀ u tp, TapeIs (fun _ => 0) b.g.sim.tape u → TDen (tapeDC M.initSym u b.g.sim.st) tp →
      b.g.sim.nonzeros valOps M = .num (Set.ncard {p : Int | tp p ≠ 0}) := by
    intro u tp hu htp
    obtain ⟨x, y, hxy, hx, hy⟩ := tape_score M.evalSym hz H.ends H.pos hu (M.evalSt b.g.sim.st)
    rw [SC _ tp x y htp hx hy]
    exact hxy
  refine ⟨fun h => ?_, fun h => ?_, fun h hr => ?_⟩
  · rcases h with h | h
    · obtain ⟨-, -, hinv⟩ := H.running h
      obtain ⟨u, k, hu, hk, hd, -, -⟩ := hinv.run
      exact ⟨k, u, numbers_of H.pos hu, h1 _ _ hd, hscore u _ hu (h3 _ _ hd), fun _ => hk⟩
    · obtain ⟨u, k, hu, hd, -⟩ := H.gave h
      exact ⟨k, u, numbers_of H.pos hu, h1 _ _ hd, hscore u _ hu (h3 _ _ hd), fun h' => by rw [h] at h'; cases h'⟩
  · obtain ⟨u, k, hu, hh, hd, hc, -⟩ := H.halt h
    exact ⟨k, u, numbers_of H.pos hu, hh, h2 _ _ hd, hscore u _ hu hd, hc⟩
  · rcases H.inf h with ⟨h', -⟩ | ⟨-, h'⟩
    · exact absurd h' hr
    · exact h'

theorem linInf_of [Sums] (hS : ¬ SumsRight) (mt : Bool) {P adj} (hP : Proves P adj) {Den TDen hs} (F : Follows T M Den TDen hs) (hi : Den (initDC M) init)
    (FI : FollowsInf T M Den) (o : Opts) (n : Nat) (hp : AllRules P (linearAfter adj tidy mt M o n).rules)
    (h : (linearAfter adj tidy mt M o n).g.sim.op = .infRepeat) : NeverHalts T init := by
  rcases (linBinv_after (TDen := TDen) (y := fun _ => 0) (fun _ => le_refl _) hS hP F hi o n hp).inf h with ⟨-, h'⟩ | ⟨-, h', -⟩
  · exact h' FI
  · exact h'

/-- the simulator over each stack of machines -/
theorem rightLin_stack [Sums] (hS : ¬ SumsRight) (mt : Bool) {P adj} (hP : Proves P adj) {mean Means} (h : Stack T σ S M mean Means) (o : Opts) (n : Nat)
    (hp : AllRules P (linearAfter adj tidy mt M o n).rules) : RightLin T M mean n (linearAfter adj tidy mt M o n).g.sim := by
  cases h with
  | simple =>
    exact rightLin_of hS mt hP (simple_follows T) (simple_init T) (simple_scored T) rfl (fun _ _ h => h) (fun _ _ h => h)
      (fun _ _ h => represents_tape h) o n hp
  | block k off maxSim hoff =>
    have hk : 0 < k := by omega
    have F2 := block_follows (simple_follows T) (simple_shift _) hk off maxSim 0
    exact rightLin_of hS mt hP F2 (block_init (simple_init T) hk hoff) (block_scored (simple_scored T) hk off maxSim 0)
      (block_zero rfl k off maxSim) (fun _ _ h => h.2) (fun _ _ h => h.2) (fun _ _ h => ⟨h.1, represents_tape h.2⟩) o n hp
  | back maxSim =>
    obtain rfl : iσ = instDecidableEqNat := Subsingleton.elim _ _
    exact rightLin_of hS mt hP (back_follows (simple_follows T) (simple_shift _) maxSim) (back_init (simple_init T) maxSim)
      (back_scored (simple_scored T) maxSim) rfl (fun _ _ h => h) (fun _ _ h => h) (fun _ _ h => represents_tape h) o n hp
  | nested k off maxBlock maxBack hoff =>
    obtain rfl : iσ = (fun a b => instDecidableEqList a b) := Subsingleton.elim _ _
    have hk : 0 < k := by omega
    have F2 := block_follows (simple_follows T) (simple_shift _) hk off maxBlock 0
    exact rightLin_of hS mt hP (back_follows F2 (block_shift (simple_shift _) hk 0) maxBack)
      (back_init (block_init (simple_init T) hk hoff) maxBack)
      (back_scored (block_scored (simple_scored T) hk off maxBlock 0) maxBack)
      (block_zero rfl k off maxBlock) (fun _ _ h => h.2) (fun _ _ h => h.2)
      (fun _ _ h => ⟨h.1, represents_tape h.2⟩) o n hp

omit iσ iS in
/-- **C82, what is changed.** The simulator of the code is `linearAfter` with minima lowered and blocks left as they are; `linkept`
differs from it in these two points only. -/
theorem C82_code [DecidableEq σ] [DecidableEq S] (metaRules : Bool) (M : Machine σ S) (o : Opts) (n : Nat) :
    linafter metaRules M o n = linearAfter lower leave metaRules M o n ∧ linkept metaRules M o n = linearAfter keep tidy metaRules M o n :=
  ⟨rfl, rfl⟩

/-- **C82 with the minima kept and empty blocks removed.** If a rule proved with rules is only applied at or above the exponents of
its proof, and blocks of exponent 0 are removed after a linear rule has been applied, the simulator that applies linear rules at once
tells the truth about the machine, for every table, stack of machines, options and number of loops. -/
theorem C82_kept_right {mean Means} (h : Stack T σ S M mean Means) (metaRules : Bool) (o : Opts) (n : Nat) :
    RightLin T M mean n (linkept metaRules M o n).g.sim :=
  rightLin_stack code_sums_wrong metaRules proves_keep h o n (fun _ _ _ => trivial)

/-- **C82, runs that neither of the two has changed.** If the simulator is where it would be had the minima been kept and blocks of
exponent 0 been removed, what it reports is true.  Missing from the full claim: runs in which a rule proved with rules was applied
below the exponents of its proof (`C82_false_halt`), runs with an empty block on the tape, proofs in which linear rules are applied,
and that no exception is raised. -/
theorem C82_agree_partial {mean Means} (h : Stack T σ S M mean Means) (metaRules : Bool) (o : Opts) (n : Nat)
    (ha : (linafter metaRules M o n).g.sim = (linkept metaRules M o n).g.sim) : RightLin T M mean n (linafter metaRules M o n).g.sim := by
  rw [ha]; exact C82_kept_right h metaRules o n
end

/-- **C82, infinite verdicts** with the minima kept and empty blocks removed, for whichever reason. -/
theorem C82_kept_infinite (T : Table) (k off maxBlock maxBack : Nat) (hoff : off < k) (metaRules : Bool) (o : Opts) (n : Nat) :
    ((linkept metaRules (simple T) o n).g.sim.op = .infRepeat → NeverHalts T init) ∧
    ((linkept metaRules (block (simple T) k off maxBlock) o n).g.sim.op = .infRepeat → NeverHalts T init) ∧
    ((linkept metaRules (back (simple T) maxBack) o n).g.sim.op = .infRepeat → NeverHalts T init) ∧
    ((linkept metaRules (back (block (simple T) k off maxBlock) maxBack) o n).g.sim.op = .infRepeat →
      (∀ c cfg, blockValid k c → Represents (blockFlat k 0 c) cfg →
        ((block (simple T) k off maxBlock).trans c.front c.st c.dir).cond ≠ .gaveUp) → NeverHalts T init) := by
  have hk : 0 < k := by omega
  have F1 := simple_follows T
  have F2 := block_follows F1 (simple_shift _) hk off maxBlock 0
  have I2 := block_inf F1 (simple_noGiveUp T) (simple_inf T) hk off maxBlock 0
  exact ⟨linInf_of code_sums_wrong metaRules proves_keep F1 (simple_init T) (simple_inf T) o n (fun _ _ _ => trivial),
    linInf_of code_sums_wrong metaRules proves_keep F2 (block_init (simple_init T) hk hoff) I2 o n (fun _ _ _ => trivial),
    linInf_of code_sums_wrong metaRules proves_keep (back_follows F1 (simple_shift _) maxBack) (back_init (simple_init T) maxBack)
      (back_inf F1 (simple_noGiveUp T) (simple_inf T) maxBack) o n (fun _ _ _ => trivial),
    fun h ho => linInf_of code_sums_wrong metaRules proves_keep (back_follows F2 (block_shift (simple_shift _) hk 0) maxBack)
      (back_init (block_init (simple_init T) hk hoff) maxBack)
      (back_inf F2 (fun c cfg h => ho c cfg h.1 h.2) I2 maxBack) o n (fun _ _ _ => trivial) h⟩

/-! ## The lowered minima -/

set_option maxRecDepth 100000 in
/-- **C82 is false for whole runs.** The machine of `C57_false_halt`, which never halts, is reported to halt: a linear rule is applied
below the exponents of its proof.  With the minima kept it is not. -/
theorem C82_false_halt : ((linafter false (simple c57Halt) defaults 290).g.sim.op = .halt ∧ NeverHalts c57Halt init) ∧
    (linkept false (simple c57Halt) defaults 290).g.sim.op = .running := by
  refine ⟨⟨by decide +kernel, C57_false_halt.1⟩, by decide +kernel⟩

/-! ## Examples -/

/-- States 0 to 6 write `3^6 1`.  A round turns `3^(n+1) 1^b` into `3^n 1^(2 b + 1)`, until no 3 is left. -/
def exDouble : Table := tbl [
  [.go 3 .R 1], [.go 3 .R 2], [.go 3 .R 3], [.go 3 .R 4], [.go 3 .R 5], [.go 3 .R 6], [.go 1 .L 7],
  [.halt 1 .R, .go 2 .R 8, .go 2 .L 7, .go 1 .R 9],
  [.go 2 .L 7, .undef, .go 2 .R 8],
  [.go 0 .L 7, .go 1 .R 9, .go 1 .R 9]]

/-- the linear rules among the proved rules: whether they apply forever -/
def linears (rs : Rules Nat (Option Nat)) : List Bool :=
  rs.filterMap (fun e => match e.2 with
    | .diff _ => none
    | .gen r => match tryGen r.vars r.result r.states with
      | .ok lr => some lr.infinite
      | _ => none)

-- a linear rule that does not apply forever is proved and applied; neither the lowered minima nor empty blocks change the run
set_option maxRecDepth 100000 in
theorem exDouble_agree : (linafter false (simple exDouble) defaults 79).g.sim = (linkept false (simple exDouble) defaults 79).g.sim := by
  decide +kernel

set_option maxRecDepth 100000 in
example : let b := linafter false (simple exDouble) defaults 79
    (b.g.sim.op, linears b.rules, b.g.sim.nonzeros valOps (simple exDouble)) = (.halt, [false], .num 191) := by decide +kernel

set_option maxRecDepth 100000 in
example : ∃ k, HaltsAt exDouble init k ∧ score (run exDouble k init) = 191 := by
  obtain ⟨k, u, -, h1, -, h2, -⟩ := (C82_agree_partial .simple false defaults 79 exDouble_agree).halted (Or.inl (by decide +kernel))
  refine ⟨k, h1, ?_⟩
  have h3 : (linafter false (simple exDouble) defaults 79).g.sim.nonzeros valOps (simple exDouble) = .num 191 := by decide +kernel
  rw [h3] at h2
  simp only [Val.num.injEq] at h2
  omega

-- a linear rule that applies forever
set_option maxRecDepth 100000 in
theorem exGeneral_lin : (linafter false (simple exGeneral) defaults 76).g.sim = (linkept false (simple exGeneral) defaults 76).g.sim := by
  decide +kernel

set_option maxRecDepth 100000 in
example : NeverHalts exGeneral init ∧ linears (linafter false (simple exGeneral) defaults 76).rules = [true] :=
  ⟨((C82_agree_partial .simple false defaults 76 exGeneral_lin).infinite (by decide +kernel) (by decide +kernel)).1, by decide +kernel⟩

-- raising the minimum of x -> 2 x - 6 from 1 to 6 does not change the linear rule
example : Recursive.tryLinear [some (0, 1)] [some (.expr ⟨[⟨[⟨0, 1⟩], 2⟩], -6⟩)] = .ok [some (0, 6)] := by decide +kernel

end Props

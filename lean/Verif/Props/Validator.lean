import Verif.Lemmas.ValidatorStrict

/-!
# C61: what the rule validator accepts is true

`Spec.Validator.Holds tm init final` (in `Verif/Spec/Validator.lean`) says what a rule means.  The code is
`validate debug` or `validate release`; `validate strict` is the same with a check for captured variables.
-/

namespace Props
open Model.Validator
open Spec.Validator

/-- If the validator accepts a rule set without `Admit`, and no variable was captured on the way and no number overflowed, every
rule of the set is true of the machine: for all values of the variables and all contents of the rest of the tape.

Partial: the code has neither check (`C61_capture_false`, `C61_rename_false`, `C61_release_false`). -/
theorem C61_sound_partial (rs : RuleSet) (fuel : Nat) (hn : ∀ r ∈ rs.rules, NoAdmit r)
    (h : validate strict fuel rs = .ok ()) : ∀ r ∈ rs.rules, Holds rs.tm r.init r.final :=
  validateRules_ok rfl rfl rs.rules [] (by intro r hr; cases hr) hn h

/-- The check for captured variables changes nothing else: with it the validator says the same, or reports a capture. -/
theorem C61_strict_same (rs : RuleSet) (fuel : Nat) :
    validate strict fuel rs = .capture ∨ validate strict fuel rs = validate debug fuel rs := by
  rcases validateRules_ref (c := true) (p := false) (t := false) (m := strict) (m' := debug)
    ⟨.inr ⟨rfl, rfl⟩, .inl rfl⟩ (n := fuel) (.inl rfl) rs.tm rs.rules [] with ⟨_, h⟩ | ⟨h, _⟩ | ⟨h, _⟩ | h
  · exact .inl h
  · cases h
  · cases h
  · exact .inr h

/-- A release build differs from a debug build only where the debug build panics. -/
theorem C61_release_same (rs : RuleSet) (fuel : Nat) :
    validate debug fuel rs = .panic ∨ validate debug fuel rs = validate release fuel rs := by
  rcases validateRules_ref (c := false) (p := true) (t := false) (m := debug) (m' := release)
    ⟨.inl rfl, .inr ⟨rfl, rfl⟩⟩ (n := fuel) (.inl rfl) rs.tm rs.rules [] with ⟨h, _⟩ | ⟨_, h⟩ | ⟨h, _⟩ | h
  · cases h
  · exact .inl h
  · cases h
  · exact .inr h

/-- The bound is only a bound: once it suffices, the answer no longer depends on it. -/
theorem C61_fuel (m : Mode) (rs : RuleSet) (fuel fuel' : Nat) (hf : fuel ≤ fuel') (h : validate m fuel rs ≠ .timeout) :
    validate m fuel' rs = validate m fuel rs := by
  rcases validateRules_ref (c := false) (p := false) (t := true) (m := m) (m' := m)
    ⟨.inl rfl, .inl rfl⟩ (.inr ⟨rfl, hf⟩) rs.tm rs.rules [] with ⟨h, _⟩ | ⟨h, _⟩ | ⟨_, g⟩ | g
  · cases h
  · cases h
  · exact absurd g h
  · exact g.symm

/-- Rule sets without functions: what a debug build accepts is true. -/
theorem C61_plain_sound (rs : RuleSet) (fuel : Nat) (hp : ∀ r ∈ rs.rules, r.Plain) (hn : ∀ r ∈ rs.rules, NoAdmit r)
    (h : validate debug fuel rs = .ok ()) : ∀ r ∈ rs.rules, Holds rs.tm r.init r.final := by
  rcases C61_strict_same rs fuel with g | g
  · have := validateRules_good strict fuel rs.tm rs.rules (prev := []) (by intro r hr; cases hr) hp
    change Good _ (validate strict fuel rs) at this
    rw [g] at this
    exact this.elim
  · exact C61_sound_partial rs fuel hn (g.trans h)

/-! ### The machine runs as the rule says: a corollary about whole runs -/

/-- If the last rule goes from the blank tape to a halted configuration, the machine halts. -/
theorem C61_halts (rs : RuleSet) (fuel : Nat) (hn : ∀ r ∈ rs.rules, NoAdmit r) (h : validate strict fuel rs = .ok ())
    (r : Rule) (hr : r ∈ rs.rules) (hi : r.init = Config.new) (hf : r.final.state = none) :
    ∃ n c, Steps rs.tm n Spec.init c ∧ c.state = none := by
  obtain ⟨n, c, h1, h2⟩ := C61_sound_partial rs fuel hn h r hr (fun _ => 0) (fun _ => 0) (fun _ => 0) Spec.init (by
    rw [hi]
    refine ⟨rfl, 0, fun i => ?_, fun i => ?_, rfl⟩ <;>
      simp [Config.new, Spec.init, fill, fillBlock])
  exact ⟨n, c, h1, h2.1.trans hf⟩

/-! ### Examples: the rule sets of the tests -/

namespace ValidatorEx
open Spec (Dir)

/-- `c·x + k` -/
def lin (c x k : Nat) : CountExpr := .sum ⟨[(x, c)], k⟩
def num (k : Nat) : CountExpr := .sum ⟨[], k⟩
def blk (s : List Nat) (e : CountExpr) : Block := ⟨s, .fin e⟩
def zeros : Block := ⟨[0], .inf⟩
/-- `l A>`; the left half is written nearest block first -/
def cfgR (l : List Block) (q : Nat) (r : List Block) : Config := ⟨l, r, some q, .R⟩
def cfgL (l : List Block) (q : Nat) (r : List Block) : Config := ⟨l, r, some q, .L⟩
def self : Subst := [(0, .ofVar 0)]
def chainRule (i f : Config) (k : Nat) : Rule := ⟨i, f, .inductive [] [.induct self, .tmSteps k]⟩
/-- `chain_step` (287-289) -/
def chain (r : Nat) (e : CountExpr) : ProofStep := .rule r [(0, e)]

/-- `1RB0LB1LA_2LC2LB2LB_2RC2RA0LC` with the three rules of `test_validate_rule_level1` (387-418); `n` = 0, `a` = 1 -/
def level1 : RuleSet where
  tm := [[.to 1 .R (some 1), .to 0 .L (some 1), .to 1 .L (some 0)], [.to 2 .L (some 2), .to 2 .L (some 1), .to 2 .L (some 1)],
    [.to 2 .R (some 2), .to 2 .R (some 0), .to 0 .L (some 2)]]
  rules := [
    chainRule (cfgR [] 2 [blk [0] (lin 1 0 0)]) (cfgR [blk [2] (lin 1 0 0)] 2 []) 1,
    chainRule (cfgL [blk [2] (lin 1 0 0)] 2 []) (cfgL [] 2 [blk [0] (lin 1 0 0)]) 1,
    ⟨cfgL [zeros] 2 [blk [0] (lin 1 1 0), blk [2] (lin 1 0 0)], cfgL [zeros] 2 [blk [0] (.sum ⟨[(0, 2), (1, 1)], 0⟩)],
      .inductive [] [.tmSteps 1, chain 0 (lin 1 1 0), .tmSteps 1, chain 1 (lin 1 1 1),
        .induct [(1, lin 1 1 2), (0, .ofVar 0)]]⟩]

theorem level1_accepted : validate debug 20 level1 = .ok () := by decide +kernel

example : ∀ r ∈ level1.rules, Holds level1.tm r.init r.final :=
  C61_plain_sound level1 20 (by
    intro r hr
    simp only [level1, List.mem_cons, List.not_mem_nil, or_false] at hr
    rcases hr with rfl | rfl | rfl <;>
      simp [Rule.Plain, Config.Plain, HalfTape.Plain, chainRule, cfgR, cfgL, blk, Count.Plain, CountExpr.Plain, lin, zeros,
        ProofStep.Plain, Subst.Plain, self, chain, CountExpr.ofVar]
    rintro a b (⟨rfl, rfl⟩ | ⟨rfl, rfl⟩) <;> trivial)
    (by
      intro r hr
      simp only [level1, List.mem_cons, List.not_mem_nil, or_false] at hr
      rcases hr with rfl | rfl | rfl <;> simp [NoAdmit, chainRule, chain])
    level1_accepted

/-- a wrong rule is not accepted: `0^inf <C 0^a 2^n` does not become `0^inf <C 0^{a+3n}` with the same proof -/
example : validate debug 20 { level1 with rules := level1.rules.take 2 ++
    [⟨cfgL [zeros] 2 [blk [0] (lin 1 1 0), blk [2] (lin 1 0 0)], cfgL [zeros] 2 [blk [0] (.sum ⟨[(0, 3), (1, 1)], 0⟩)],
      .inductive [] [.tmSteps 1, chain 0 (lin 1 1 0), .tmSteps 1, chain 1 (lin 1 1 1),
        .induct [(1, lin 1 1 2), (0, .ofVar 0)]]⟩] } = .err := by decide +kernel

/-- `λz.2z+4`, repeated -/
def grow (n b : CountExpr) : CountExpr := .iter 3 (lin 2 3 4) n b

/-- `1RB0RC_0LC---_1RD1RC_0LE1RA_1RD1LE` with the rules of `test_bouncer` (470-562); the last one from `0^inf 1^a A> 0^inf`
instead of the blank tape.  `n` = 0, `a` = 1, `z` = 3 -/
def bouncer : RuleSet where
  tm := [[.to 1 .R (some 1), .to 0 .R (some 2)], [.to 0 .L (some 2), .undef], [.to 1 .R (some 3), .to 1 .R (some 2)],
    [.to 0 .L (some 4), .to 1 .R (some 0)], [.to 1 .R (some 3), .to 1 .L (some 4)]]
  rules := [
    chainRule (cfgR [] 2 [blk [1] (lin 1 0 0)]) (cfgR [blk [1] (lin 1 0 0)] 2 []) 1,
    chainRule (cfgL [blk [1] (lin 1 0 0)] 4 []) (cfgL [] 4 [blk [1] (lin 1 0 0)]) 1,
    ⟨cfgR [blk [1] (lin 1 1 0), zeros] 0 [blk [1] (lin 1 0 0), zeros],
      cfgR [blk [1] (.sum ⟨[(0, 2), (1, 1)], 0⟩), zeros] 0 [zeros],
      .inductive [] [.tmSteps 1, chain 0 (lin 1 0 0), .tmSteps 2, chain 1 (lin 1 0 1), .tmSteps 2,
        .induct [(1, lin 1 1 2), (0, .ofVar 0)]]⟩,
    ⟨cfgR [blk [1] (lin 1 1 0), zeros] 0 [zeros], cfgR [blk [1] (lin 2 1 4), zeros] 0 [zeros],
      .simple [.tmSteps 5, chain 1 (lin 1 1 2), .tmSteps 2, .rule 2 [(1, num 2), (0, lin 1 1 1)]]⟩,
    ⟨cfgR [blk [1] (lin 1 1 0), zeros] 0 [zeros], cfgR [blk [1] (grow (lin 1 0 0) (lin 1 1 0)), zeros] 0 [zeros],
      .inductive [] [.induct self, .rule 3 [(1, grow (lin 1 0 0) (lin 1 1 0))]]⟩]

theorem bouncer_accepted : validate strict 20 bouncer = .ok () := by decide +kernel

/-- A true rule with a function: `0^inf 1^a A> 0^inf → 0^inf 1^{(λz.2z+4)^n a} A> 0^inf`. -/
example : ∀ r ∈ bouncer.rules, Holds bouncer.tm r.init r.final :=
  C61_sound_partial bouncer 20 (by
    intro r hr
    simp only [bouncer, List.mem_cons, List.not_mem_nil, or_false] at hr
    rcases hr with rfl | rfl | rfl | rfl | rfl <;> simp [NoAdmit, chainRule, chain]) bouncer_accepted

example : value (fun x => if x = 0 then 3 else 1) (grow (lin 1 0 0) (lin 1 1 0)) = 36 := by decide

/-- `1RB1LB_1LA1RZ`, `test_validate_rule_simple` (348-360) -/
def bb2 : RuleSet where
  tm := [[.to 1 .R (some 1), .to 1 .L (some 1)], [.to 1 .L (some 0), .to 1 .R none]]
  rules := [⟨Config.new, ⟨[blk [1] (num 2), zeros], [blk [1] (num 2), zeros], none, .R⟩, .simple [.tmSteps 6]⟩]

example : ∃ n c, Steps bb2.tm n Spec.init c ∧ c.state = none :=
  C61_halts bb2 20 (by intro r hr; simp only [bb2, List.mem_singleton] at hr; subst hr; simp [NoAdmit])
    (by decide +kernel) _ (List.mem_singleton.2 rfl) rfl rfl

end ValidatorEx

/-! ### What the code accepts although it is false -/

/-- `(prepend [0])^n` in front of ones -/
theorem zeros_ones (n i : Nat) : (prepend [0])^[n] (fun _ => 1) i = if i < n then 0 else 1 := by
  induction n generalizing i with
  | zero => rfl
  | succ n ih =>
    rw [Function.iterate_succ_apply']
    cases i with
    | zero => simp [prepend_one_zero]
    | succ i => rw [prepend_one_succ, ih]; simp

/-- A halted machine does not change its tape. -/
theorem not_holds_halted (tm : TM) (v : Nat → Nat) (l l' : HalfTape) (a b : Nat)
    (h : ∀ t, fill v l t = (prepend [0])^[a] t) (h' : ∀ t, fill v l' t = (prepend [0])^[b] t) (hab : a ≠ b) :
    ¬ Holds tm ⟨l, [], none, .R⟩ ⟨l', [], none, .R⟩ := by
  intro hh
  obtain ⟨n, c', h1, h2, p, h3, h4, h5⟩ := hh v (fun _ => 1) (fun _ => 0)
    ⟨none, 0, fun i => if i < 0 then (prepend [0])^[a] (fun _ => 1) (-1 - i).toNat else 0⟩
    ⟨rfl, 0, fun i => by
      simp only [fill, List.foldr_nil]
      rw [if_neg (by omega)], fun i => by
      rw [h]
      simp only
      rw [if_pos (by omega)]
      rw [show (-1 - ((0 : Int) - 1 - (i : Int))).toNat = i by omega], rfl⟩
  cases n with
  | succ n => obtain ⟨q, g, _⟩ := h1; cases g
  | zero =>
    have h1 : c' = _ := h1
    subst h1
    simp only at h5
    subst h5
    have key : ∀ i : Nat, (prepend [0])^[a] (fun _ => 1) i = (prepend [0])^[b] (fun _ => 1) i := by
      intro i
      have := h4 i
      rw [h'] at this
      simp only at this
      rw [if_pos (by omega), show (-1 - ((0 : Int) - 1 - (i : Int))).toNat = i by omega] at this
      exact this
    rcases Nat.lt_or_gt_of_ne hab with g | g
    · have := key a; rw [zeros_ones, zeros_ones, if_neg (by omega), if_pos g] at this; cases this
    · have := key b; rw [zeros_ones, zeros_ones, if_pos g, if_neg (by omega)] at this; cases this

namespace ValidatorEx

/-- `0^e Z>` -/
def haltCfg (e : CountExpr) : Config := ⟨[blk [0] e], [], none, .R⟩

theorem not_holds_haltCfg (tm : TM) (v : Nat → Nat) (e e' : CountExpr) (h : value v e ≠ value v e') :
    ¬ Holds tm (haltCfg e) (haltCfg e') :=
  not_holds_halted tm v _ _ _ _ (fun _ => rfl) (fun _ => rfl) h

/-- Rule 0: `0^{y+z} Z> → 0^{(λx.x+y)^1 z} Z>`, nothing to do.  Rule 1: `0^{x+z} Z> → 0^{2z} Z>` by rule 0 with `y := x`:
the free `x` gets below `λx`.  `x` = 1, `y` = 2, `z` = 3. -/
def captureRules (tm : TM) : RuleSet where
  tm := tm
  rules := [
    ⟨haltCfg (.sum ⟨[(2, 1), (3, 1)], 0⟩), haltCfg (.iter 1 (.sum ⟨[(1, 1), (2, 1)], 0⟩) (num 1) (lin 1 3 0)), .simple []⟩,
    ⟨haltCfg (.sum ⟨[(1, 1), (3, 1)], 0⟩), haltCfg (lin 2 3 0), .simple [.rule 0 [(2, .ofVar 1)]]⟩]

/-- `0^{(λx.2x)^n a} Z> → 0^{(λy.x+y)^n a} Z>`: the two functions count as equal because renaming `y` to `x` makes the free `x`
a bound one.  `x` = 1, `y` = 2, `a` = 3. -/
def renameRules (tm : TM) : RuleSet where
  tm := tm
  rules := [⟨haltCfg (.iter 1 (lin 2 1 0) (lin 1 0 0) (lin 1 3 0)),
    haltCfg (.iter 2 (.sum ⟨[(1, 1), (2, 1)], 0⟩) (lin 1 0 0) (lin 1 3 0)), .simple []⟩]

/-- `0^a 0^b Z> → 0^c Z>` -/
def mergeRule (a b c : Nat) : Rule := ⟨⟨[blk [0] (num a), blk [0] (num b)], [], none, .R⟩, haltCfg (num c), .simple []⟩

theorem mergeRule_false (tm : TM) (a b c : Nat) (h : a + b ≠ c) : ¬ Holds tm (mergeRule a b c).init (mergeRule a b c).final := by
  refine not_holds_halted tm (fun _ => 0) _ _ (a + b) c (fun t => ?_) (fun t => ?_) h
  · rw [Function.iterate_add_apply]
    simp only [fill, fillBlock, blk, num, value, sumValue, List.foldr, List.map_nil, List.sum_nil, Nat.add_zero]
  · simp only [fill, fillBlock, blk, num, value, sumValue, List.foldr, List.map_nil, List.sum_nil, Nat.add_zero]

/-- `0^{2^63} 0^{2^63+1} Z> → 0 Z>` -/
def wrapRules (tm : TM) : RuleSet where
  tm := tm
  rules := [mergeRule (2 ^ 63) (2 ^ 63 + 1) 1]

/-- `0^1 Z> → 0^2 Z>`, admitted -/
def admitRules (tm : TM) : RuleSet where
  tm := tm
  rules := [⟨haltCfg (num 1), haltCfg (num 2), .simple [.admit]⟩]

/-- `A> 0^inf → A> 00^inf` -/
def loopRules (tm : TM) : RuleSet where
  tm := tm
  rules := [⟨⟨[], [zeros], some 0, .R⟩, ⟨[], [⟨[0, 0], .inf⟩], some 0, .R⟩, .simple []⟩]

end ValidatorEx

open ValidatorEx

/-- The code lets a substitution capture a variable: for every machine it accepts a set of two rules, without `Admit`, in which
the second one is false. -/
theorem C61_capture_false (tm : TM) : validate debug 10 (captureRules tm) = .ok () ∧
    (∀ r ∈ (captureRules tm).rules, NoAdmit r) ∧
    ∃ r ∈ (captureRules tm).rules, ¬ Holds tm r.init r.final := by
  refine ⟨rfl, ?_, _, List.mem_cons_of_mem _ (List.mem_singleton.2 rfl), ?_⟩
  · intro r hr
    simp only [captureRules, List.mem_cons, List.not_mem_nil, or_false] at hr
    rcases hr with rfl | rfl <;> simp [NoAdmit]
  · exact not_holds_haltCfg tm (fun x => if x = 1 then 1 else 0) _ _ (by decide)

/-- The code renames a bound variable to one that occurs free: for every machine it accepts a false rule. -/
theorem C61_rename_false (tm : TM) : validate debug 10 (renameRules tm) = .ok () ∧
    (∀ r ∈ (renameRules tm).rules, NoAdmit r) ∧
    ∃ r ∈ (renameRules tm).rules, ¬ Holds tm r.init r.final := by
  refine ⟨rfl, ?_, _, List.mem_singleton.2 rfl, ?_⟩
  · intro r hr
    simp only [renameRules, List.mem_singleton] at hr
    subst hr; simp [NoAdmit]
  · exact not_holds_haltCfg tm (fun x => if x = 1 then 0 else 1) _ _ (by decide)

/-- In a release build numbers wrap around: for every machine it accepts a false rule, without functions. -/
theorem C61_release_false (tm : TM) : validate release 10 (wrapRules tm) = .ok () ∧
    validate debug 10 (wrapRules tm) = .panic ∧
    (∀ r ∈ (wrapRules tm).rules, NoAdmit r) ∧
    ∃ r ∈ (wrapRules tm).rules, ¬ Holds tm r.init r.final := by
  refine ⟨rfl, rfl, ?_, _, List.mem_singleton.2 rfl, ?_⟩
  · intro r hr
    simp only [wrapRules, List.mem_singleton] at hr
    subst hr; simp [NoAdmit, mergeRule]
  · exact mergeRule_false tm _ _ _ (by decide)

/-- `Admit` ends the check of a proof: for every machine a false rule is accepted. -/
theorem C61_admit_false (tm : TM) : validate debug 10 (admitRules tm) = .ok () ∧
    ∃ r ∈ (admitRules tm).rules, ¬ Holds tm r.init r.final :=
  ⟨rfl, _, List.mem_singleton.2 rfl, not_holds_haltCfg tm (fun _ => 0) _ _ (by decide)⟩

/-- The validator need not end: `A> 0^inf → A> 00^inf` (true in zero steps) is compared forever. -/
theorem C61_diverges (m : Mode) (tm : TM) (fuel : Nat) : validate m fuel (loopRules tm) = .timeout := by
  have key : ∀ k, HalfTape.strip m fuel k [zeros] [⟨[0, 0], .inf⟩] = .timeout ∧
      HalfTape.strip m fuel k [zeros] [blk [0] (num 1), ⟨[0, 0], .inf⟩] = .timeout := by
    intro k
    induction k with
    | zero => exact ⟨rfl, rfl⟩
    | succ k ih => exact ⟨ih.2, ih.1⟩
  have e : HalfTape.replace m fuel [zeros] [⟨[0, 0], .inf⟩] [] = .timeout := by
    show (HalfTape.strip m fuel fuel [zeros] [⟨[0, 0], .inf⟩] >>= fun rest => Run.ok ([] ++ rest)) = .timeout
    rw [(key fuel).1]; rfl
  have e0 : HalfTape.equivalent m fuel [] [] = .ok true := by
    cases fuel <;> rfl
  show (((HalfTape.equivalent m fuel [] [] >>= fun l =>
    if l then HalfTape.equivalent m fuel [zeros] [⟨[0, 0], .inf⟩] else .ok false) >>= fun e =>
      if e then Run.ok () else .err) >>= fun _ => Run.ok ()) = .timeout
  rw [e0]
  show ((HalfTape.equivalent m fuel [zeros] [⟨[0, 0], .inf⟩] >>= fun e => if e then Run.ok () else .err) >>=
    fun _ => Run.ok ()) = .timeout
  unfold HalfTape.equivalent
  rw [e]; rfl

end Props

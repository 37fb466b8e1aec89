import Verif.Props.Recursive
import Verif.Props.RecursiveLimits

/-!
# C57: general rules proved with rules

`prove_rule` lowers the minima of a general rule below the exponents of its proof, which is wrong if rules were used in the proof
(`C57_false_halt`).  This is all that is wrong, step counts aside: without the lowering (`kept`) every report is right, whatever
rules were proved with whatever rules, and so is every report of the code that the lowering has not changed.
-/

set_option Elab.async false

namespace Props
open Spec Model Model.Expr Model.Prover Model.Recursive

section
variable {σ S : Type} [iσ : DecidableEq σ] [iS : DecidableEq S] {T : Table} {M : Machine σ S}

/-- **C57 with the minima kept.** If a general rule proved with rules is only applied at or above the exponents of its proof, the
simulator with recursive proofs tells the truth about the machine, step counts aside, for every table, stack of machines, options
and number of loops. -/
theorem C57_kept_right {mean Means} (h : Stack T σ S M mean Means) (o : Opts) (n : Nat) : RightRec T M mean n (kept M o n).g.sim :=
  rightRec_stack proves_keep h o n (fun _ _ _ => trivial)

/-- **C57, runs that the lowered minima have not changed.** If the simulator is where it would be had the minima been kept, what it
reports is true.  Missing from the full claim: runs in which a general rule proved with rules was applied below the exponents
of its proof (`C57_false_halt`), the number of steps (`C57_false_steps`), and that no exception is raised. -/
theorem C57_agree_partial {mean Means} (h : Stack T σ S M mean Means) (o : Opts) (n : Nat)
    (ha : (rafter M o n).g.sim = (kept M o n).g.sim) : RightRec T M mean n (rafter M o n).g.sim := by
  rw [ha]; exact C57_kept_right h o n
end

/-- **C57 with the minima kept, infinite verdicts**, for whichever reason. -/
theorem C57_kept_infinite (T : Table) (k off maxBlock maxBack : Nat) (hoff : off < k) (o : Opts) (n : Nat) :
    ((kept (simple T) o n).g.sim.op = .infRepeat → NeverHalts T init) ∧
    ((kept (block (simple T) k off maxBlock) o n).g.sim.op = .infRepeat → NeverHalts T init) ∧
    ((kept (back (simple T) maxBack) o n).g.sim.op = .infRepeat → NeverHalts T init) ∧
    ((kept (back (block (simple T) k off maxBlock) maxBack) o n).g.sim.op = .infRepeat →
      (∀ c cfg, blockValid k c → Represents (blockFlat k 0 c) cfg →
        ((block (simple T) k off maxBlock).trans c.front c.st c.dir).cond ≠ .gaveUp) → NeverHalts T init) := by
  obtain ⟨h1, h2, h3, h4⟩ := inf_stacks T k off maxBlock maxBack hoff o n (P := fun _ => True) proves_keep
  exact ⟨h1 (fun _ _ _ => trivial), h2 (fun _ _ _ => trivial), h3 (fun _ _ _ => trivial), h4 (fun _ _ _ => trivial)⟩

/-! ## Without general rules proved with rules nothing changes -/

section
variable {σ S : Type} [DecidableEq σ] [DecidableEq S] {M : Machine σ S}

omit [DecidableEq σ] [DecidableEq S] in
theorem mkGen_meta {init : ChainTape σ V} {mins : Mins} {g : Sim σ S} {r : Recursive.GenRule} (hm : g.ruleMoves > 0)
    (h : Recursive.mkGen init mins g = some r) : r.isMeta = true := by
  unfold Recursive.mkGen at h
  split at h
  · cases h
  split at h
  · split at h
    · cases h
    simp only at h
    split at h
    · cases h
    · cases h; simpa using hm
    · cases h; simpa using hm
  · cases h

theorem prove_agree {o : Opts} {rs : Rules σ S} {key : Strip σ S} {st : S} {tape : ChainTape σ V} {delta : Int} {nv nv' : Nat}
    {out : Out (Recursive.Rule σ)} (h : proveWith lower M o rs key st tape delta nv = (out, nv')) (hr : out ≠ .raise)
    (hp : ∀ r, out = .ok r → PlainRule r) : proveWith keep M o rs key st tape delta nv = (out, nv') := by
  unfold proveWith at h ⊢
  split at h
  · exact h
  next l ml nv1 e1 =>
  simp only at h ⊢
  split at h
  · exact h
  next r mr nv2 e2 =>
  split at h
  · exact h
  · exact h
  next g mins hg =>
  split at h
  · next hk => rw [if_pos hk]; exact h
  next hk =>
  rw [if_neg hk]
  split at h
  · next dl cl dr cr d1 d2 =>
    split at h
    · next hc => rw [if_pos hc]; exact h
    next hc =>
    rw [if_neg hc]
    by_cases hm : g.ruleMoves > 0
    · exfalso
      split at h
      · next r' hr' =>
        cases h
        have := hp _ rfl
        have h2 := mkGen_meta hm hr'
        rw [show r'.isMeta = false from this] at h2
        cases h2
      · cases h; exact hr rfl
    · unfold keep
      rw [if_neg hm]
      exact h
  · exact h

theorem log_agree {o : Opts} {b b' : Base σ S} {loop : Nat} {out : Out (Recursive.Res σ)} (h : logWith lower M o b loop = (b', out))
    (hr : out ≠ .raise) (hp : AllRules PlainRule b'.rules) : logWith keep M o b loop = (b', out) := by
  unfold logWith at h ⊢
  simp only at h ⊢
  split at h
  · exact h
  · split at h
    · next ht =>
      rw [if_pos ht]
      cases hpr : proveWith lower M o b.rules (strip valIsOne b.g.sim.st b.g.sim.tape) b.g.sim.st b.g.sim.tape
          ((loop : Int) - (((Py.dget b.past (strip valIsOne b.g.sim.st b.g.sim.tape)).getD ⟨none, none⟩).log loop).1.lastLoop.getD 0)
          b.g.nv with
      | mk p nv =>
        rw [hpr] at h
        rw [prove_agree hpr ?_ ?_]
        · exact h
        · rintro rfl
          simp only at h
          cases h; exact hr rfl
        · rintro r rfl
          simp only at h
          cases h
          exact hp (strip valIsOne b.g.sim.st b.g.sim.tape) r (by simp [Py.dget_dset])
    · next ht => rw [if_neg ht]; exact h

theorem step_raised {adj : Nat → Mins → Mins} {o : Opts} {b : Base σ S} (h : b.g.sim.op = .raised) : stepWith adj M o b = b := by
  unfold stepWith
  rw [if_pos (by rw [h]; simp)]

theorem step_agree {o : Opts} {b : Base σ S} (hp : AllRules PlainRule (stepWith lower M o b).rules) :
    stepWith keep M o b = stepWith lower M o b ∨ (stepWith lower M o b).g.sim.op = .raised := by
  by_cases hop : b.g.sim.op ≠ .running
  · left; unfold stepWith; rw [if_pos hop, if_pos hop]
  unfold stepWith at hp ⊢
  rw [if_neg hop] at hp
  rw [if_neg hop, if_neg hop]
  simp only at hp ⊢
  generalize hl : logWith lower M o { b with g := { b.g with sim := { b.g.sim with loops := b.g.sim.loops + 1 } } } b.g.sim.loops = p at hp ⊢
  obtain ⟨b', out⟩ := p
  cases out with
  | raise => right; rfl
  | fail =>
    left
    rw [log_agree hl (by simp) hp]
  | ok res =>
    left
    rw [log_agree hl (by simp) (by cases res <;> exact hp)]

/-- **The runs of `C57_recursive_right_partial` are among those of `C57_agree_partial`**: as long as no general rule has been proved
with the help of rules and no exception has been raised, keeping the minima changes nothing. -/
theorem C57_plain_agree (M : Machine σ S) (o : Opts) : ∀ n, NoMetaGeneral (rafter M o n).rules →
    kept M o n = rafter M o n ∨ (rafter M o n).g.sim.op = .raised := by
  intro n
  induction n with
  | zero => intro _; exact Or.inl rfl
  | succ n ih =>
    intro h
    have e1 : rafter M o (n + 1) = stepWith lower M o (rafter M o n) := by
      unfold rafter; rw [Function.iterate_succ_apply']; rfl
    have e2 : kept M o (n + 1) = stepWith keep M o (kept M o n) := by
      unfold kept afterWith; rw [Function.iterate_succ_apply']
    rw [e1] at h ⊢
    rw [e2]
    have hp := plain_of h
    have hprev : NoMetaGeneral (rafter M o n).rules := fun key r hr => step_rules (P := PlainRule) o hp key _ hr
    rcases ih hprev with e | e
    · rw [e]; exact step_agree hp
    · right; rw [step_raised e]; exact e
end

/-! ## Examples -/

/-- `1RB2RB1LA_1LB2RB0LA` -/
def exGeneral : Table := tbl [[.go 1 .R 1, .go 2 .R 1, .go 1 .L 0], [.go 1 .L 1, .go 2 .R 1, .go 0 .L 0]]

-- the machine is shown to run forever by a general rule that was proved with another rule, with or without lowered minima
set_option maxRecDepth 100000 in
theorem exGeneral_agree : (rafter (simple exGeneral) defaults 76).g.sim = (kept (simple exGeneral) defaults 76).g.sim := by decide +kernel

set_option maxRecDepth 100000 in
example : let b := rafter (simple exGeneral) defaults 76
    (b.g.sim.op, b.g.sim.infReason, kinds b.rules) = (.infRepeat, some .proofSystem, [(true, false), (false, true)]) := by decide +kernel

set_option maxRecDepth 100000 in
example : NeverHalts exGeneral init :=
  ((C57_agree_partial .simple defaults 76 exGeneral_agree).infinite (by decide +kernel) (by decide +kernel)).1

set_option maxRecDepth 100000 in
/-- The machine of `C57_false_halt`, which never halts, is not reported to halt if the minima are kept. -/
theorem C57_kept_running : (rafter (simple c57Halt) defaults 290).g.sim.op = .halt ∧
    (kept (simple c57Halt) defaults 290).g.sim.op = .running := by decide +kernel

end Props

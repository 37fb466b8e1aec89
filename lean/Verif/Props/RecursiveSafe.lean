import Verif.Lemmas.RecSafeSums
import Verif.Props.RecursiveSteps

/-!
# C57: exceptions of `--recursive`

Only one thing in the proof system can raise an exception (besides a limit of 0 applications of a general rule): `series_sum`,
asked to sum a fourth or higher power.
-/

namespace Props
open Spec Model Model.Expr Model.Prover Model.Recursive

section
variable {σ S : Type} [iσ : DecidableEq σ] [iS : DecidableEq S] {T : Table} {M : Machine σ S}

theorem safe_stack [Sums] (hS : SumsTotal) {P adj} (hadj : KeepsMins adj) (hP : Proves P adj) {mean Means} (h : Stack T σ S M mean Means)
    {o : Opts} (ho : o.maxReps ≠ 0) (n : Nat) (hp : AllRules P (afterWith adj M o n).rules) : (afterWith adj M o n).g.sim.op ≠ .raised := by
  cases h with
  | simple => exact (base_safe hS hadj hP (simple_follows T) (simple_init T) ho n hp).1
  | block k off maxSim hoff =>
    have hk : 0 < k := by omega
    have F2 := block_follows (simple_follows T) (simple_shift _) hk off maxSim 0
    exact (base_safe hS hadj hP F2 (block_init (simple_init T) hk hoff) ho n hp).1
  | back maxSim =>
    obtain rfl : iσ = instDecidableEqNat := Subsingleton.elim _ _
    exact (base_safe hS hadj hP (back_follows (simple_follows T) (simple_shift _) maxSim) (back_init (simple_init T) maxSim) ho n hp).1
  | nested k off maxBlock maxBack hoff =>
    obtain rfl : iσ = (fun a b => instDecidableEqList a b) := Subsingleton.elim _ _
    have hk : 0 < k := by omega
    have F2 := block_follows (simple_follows T) (simple_shift _) hk off maxBlock 0
    exact (base_safe hS hadj hP (back_follows F2 (block_shift (simple_shift _) hk 0) maxBack)
      (back_init (block_init (simple_init T) hk hoff) maxBack) ho n hp).1

/-- **`series_sum` refuses only fourth and higher powers.** -/
theorem C57_sum_accepts {each : W} {k : Nat} (h : LowPower each k) (N : W) : ∃ t, Series.seriesSum each k N = .ok t := code_refuses h

/-- **With the minima kept, only a refused sum raises an exception**: the simulator that goes on with 0 in place of a refused sum
never raises one, and as long as the simulator has not raised one the two are in the same state.  So it is for the code's sums and for
the exact ones. -/
theorem C57_kept_exceptions {mean Means} (h : Stack T σ S M mean Means) (o : Opts) (ho : o.maxReps ≠ 0) (n : Nat) (how : Sums)
    (hh : how = codeSums ∨ how = exactSums) :
    (@afterWith _ _ _ _ (withDefault how) keep M o n).g.sim.op ≠ .raised ∧
    (@afterWith _ _ _ _ how keep M o n = @afterWith _ _ _ _ (withDefault how) keep M o n ∨
      (@afterWith _ _ _ _ how keep M o n).g.sim.op = .raised) := by
  have hn : SumsNormal how := by
    rcases hh with rfl | rfl
    · exact code_normal
    · exact exact_normal
  exact ⟨@safe_stack _ _ _ _ _ _ (withDefault how) (default_total hn) _ _ keepsMins_keep proves_keep _ _ h _ ho n (fun _ _ _ => trivial),
    after_default o n⟩

/-- **The code, as long as no general rule has been proved with the help of rules: only a refused sum raises an exception.** -/
theorem C57_exceptions_partial {mean Means} (h : Stack T σ S M mean Means) (o : Opts) (ho : o.maxReps ≠ 0) (n : Nat)
    (hn : NoMetaGeneral (patched M o n).rules) :
    (patched M o n).g.sim.op ≠ .raised ∧ (rafter M o n = patched M o n ∨ (rafter M o n).g.sim.op = .raised) :=
  ⟨@safe_stack _ _ _ _ _ _ (withDefault codeSums) (default_total code_normal) _ _ keepsMins_lower proves_code _ _ h _ ho n (plain_of hn),
    after_default (how := codeSums) (adj := lower) o n⟩

end

/-! ## Examples -/

-- a cube is summed, a fourth power is not
example : (LowPower (.expr ⟨[⟨[⟨0, 3⟩], 1⟩], 0⟩) 0) ∧ Series.seriesSum (.expr ⟨[⟨[⟨0, 4⟩], 1⟩], 0⟩) 0 (.num 5) = .error .notImplemented := by
  refine ⟨?_, by decide +kernel⟩
  intro t ht v hv _
  simp only [List.mem_singleton] at ht
  subst ht
  simp only [List.mem_singleton] at hv
  subst hv
  exact le_refl 3

-- a run with difference rules proved with rules, to its end
set_option maxRecDepth 100000 in
example : (patched (simple exNested) defaults 149).g.sim.op ≠ .raised ∧ rafter (simple exNested) defaults 149 = patched (simple exNested) defaults 149 := by
  have hn : NoMetaGeneral (patched (simple exNested) defaults 149).rules := noMeta_of (by decide +kernel)
  obtain ⟨h1, h2⟩ := C57_exceptions_partial (Stack.simple (T := exNested)) defaults (by decide) 149 hn
  refine ⟨h1, h2.resolve_right ?_⟩
  decide +kernel

set_option maxRecDepth 100000 in
/-- **The limit must not be 0**: with `--max-num-reps=0` a general rule raises an exception (1337-1338). -/
theorem C57_exception_limit : (rafter (simple exGeneral) { defaults with maxReps := 0 } 76).g.sim.op = .raised := by decide +kernel

end Props

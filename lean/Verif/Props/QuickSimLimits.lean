import Verif.Props.QuickSim
import Verif.Props.PipelineLimits

/-!
# C68: a machine that halts may be reported as infinite

The machine of `C54_limits_false`; blocks give up after 10 000 steps.
-/

namespace Props
open Spec Model Model.Prover Model.QuickSim

/-- block size and limit of steps in a block are given -/
def c68Opts : Model.QuickSim.Options := { Model.QuickSim.Options.default with blockSize := 5, maxStepsInBlock := 10000 }

/-- **C68 is false without its hypothesis**: the machine halts after 10 132 steps; with `--block-size=5` and
`--max-steps-in-block=10000` the program says that it is infinite. -/
theorem C68_limits_false : HaltsAt c54T init 10132 ∧ ∃ r s, quickSim c54T c68Opts quickEnv = .done r ∧
    r.verdict = .infinite .macroStep s := by
  refine ⟨c54T_halts, ?_⟩
  have h : quickSim c54T c68Opts quickEnv = simulate (back c54Block 1000) c68Opts 500 := by
    rw [← c54Block_eq]
    unfold quickSim Model.QuickSim.size
    simp [c68Opts, Model.QuickSim.Options.default, quickEnv]
  rw [h]
  have h2 : (match simulate (back c54Block 1000) c68Opts 500 with
      | .done r => (match r.verdict with
        | .infinite .macroStep _ => true
        | _ => false)
      | _ => false) = true := by decide +kernel
  cases hs : simulate (back c54Block 1000) c68Opts 500 with
  | raised => rw [hs] at h2; cases h2
  | unfinished => rw [hs] at h2; cases h2
  | done r =>
    rw [hs] at h2
    simp only at h2
    split at h2
    · rename_i s hv
      exact ⟨r, s, rfl, hv⟩
    · cases h2

end Props

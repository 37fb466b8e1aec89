import Verif.Model.Recursive
import Verif.Spec.Prover
import Verif.Spec.Recur

/-! # Specification: runs of the simulator with `--recursive` -/

namespace Spec
open Model Model.Prover

/-- the simulator with the recursive proof system after `n` loops -/
def rafter {σ S : Type} [DecidableEq σ] [DecidableEq S] (M : Machine σ S) (o : Opts) (n : Nat) : Recursive.Base σ S :=
  (Recursive.Base.step M o)^[n] (Recursive.Base.init M)

/-- what the simulator reports: its verdict and the number of steps -/
def reported {σ S : Type} (b : Recursive.Base σ S) := (b.g.sim.op, b.g.stepNum)

/-- the tape with these run lengths, as the simulator keeps it -/
def numbers {σ : Type} (u : ChainTape σ Nat) : ChainTape σ V :=
  let half := List.map (fun b : Blk σ Nat => (⟨b.sym, b.num.map (fun n => .num n)⟩ : Blk σ V))
  ⟨u.dir, half u.left, half u.right⟩

/-- What a simulator state with recursive proofs must tell about the base machine `T` started on the blank tape, step counts
aside; `mean` translates the macro configuration into a configuration of the base machine. -/
structure RightRec {σ S : Type} (T : Table) (M : Machine σ S) (mean : DC σ S → DC Nat (Option Nat)) (n : Nat) (s : SimSt σ S V) :
    Prop where
  /-- not halted after `n` loops: the machine passes through the configuration shown (after at least `n` steps, having visited
  exactly the states recorded, if the simulator is still running) -/
  running : s.op = .running ∨ s.op = .gaveUp → ∃ k u, s.tape = numbers u ∧
    Represents (mean (tapeDC M.initSym u s.st)) (run T k init) ∧ s.nonzeros valOps M = .num (score (run T k init)) ∧
    (s.op = .running → n ≤ k ∧ ∀ q, q ∈ s.seen.map (·.1) ↔ ∃ j, j < k ∧ VisitedAt T init q j)
  /-- halted: the machine halts, with the tape and the score shown; `UNDEFINED` is reported exactly if the executed table cell is
  undefined, and the reported cell is the executed one -/
  halted : s.op = .halt ∨ s.op = .undefined → ∃ k u, s.tape = numbers u ∧ HaltsAt T init k ∧
    RepresentsTape (mean (tapeDC M.initSym u s.st)) (run T k init).tape ∧ s.nonzeros valOps M = .num (score (run T k init)) ∧
    ∃ a q, s.cell = some (a, q) ∧ (run T (k - 1) init).state = some q ∧ (run T (k - 1) init).scanned = a ∧
      (s.op = .undefined ↔ T q a = .undef)
  /-- infinite, by a rule or a chain step: the machine never halts and visits exactly the reported states again and again -/
  infinite : s.op = .infRepeat → s.infReason ≠ some .macroStep →
    NeverHalts T init ∧ ∀ q, VisitedForever T init q ↔ q ∈ s.recur

end Spec

import Verif.Model.Simulator
import Verif.Spec.Chain

/-! # Specification: which base configuration a macro machine configuration means -/

namespace Model
open Spec

variable {σ S : Type}

/-- the initial configuration of a machine -/
def initDC {σ S : Type} (M : Machine σ S) : DC σ S :=
  { st := M.initSt, dir := M.initDir, side := fun _ _ => M.initSym }

/-- the half tapes without the front symbol -/
def DC.rest (c : DC σ S) (d : Dir) : Nat → σ :=
  if d = c.dir then fun i => c.side d (i + 1) else c.side d

def BSt.base : BSt S → S
  | .plain s => s
  | .offset s _ => s

/-- The configuration of the base machine meant by a configuration of the block machine. -/
def blockFlat (k : Nat) (dflt : σ) (c : DC (List σ) (BSt S)) : DC σ S :=
  match c.st with
  | .plain s => flatten k dflt s c
  | .offset s off => window c.front off c.dir s (flatStream k dflt .L (DC.rest c .L))
      (flatStream k dflt .R (DC.rest c .R))

/-- All macro symbols are blocks of size `k`, and a start offset is inside its block. -/
def blockValid (k : Nat) (c : DC (List σ) (BSt S)) : Prop :=
  (∀ d i, (c.side d i).length = k) ∧ ∀ s off, c.st = .offset s off → off < k

/-- The configuration of the base machine meant by a configuration of the back-symbol machine. -/
def backFlat (c : DC σ (S × σ)) : DC σ S := unback c.st.1 c.st.2 c

/-- the configuration of a simulator, given the blank symbol -/
def SimSt.dc (blank : σ) (s : SimSt σ S Nat) : DC σ S :=
  { st := s.st, dir := s.tape.dir, side := fun d => unroll blank (s.tape.half d) }

/-- The values of a stream, almost all zero, add up to `n`. -/
def Cnt {σ : Type} (ev : σ → Nat) (s : Nat → σ) (n : Nat) : Prop :=
  ∃ N, (∀ i, N ≤ i → ev (s i) = 0) ∧ n = ((List.range N).map (fun i => ev (s i))).sum

/-- the simulator after `n` calls of `step` -/
def SimSt.after [DecidableEq σ] [DecidableEq S] (M : Machine σ S) (n : Nat) : SimSt σ S Nat :=
  (SimSt.step natOps M)^[n] (SimSt.init natOps M)

end Model

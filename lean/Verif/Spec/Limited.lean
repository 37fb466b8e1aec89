import Verif.Model.Limited
import Verif.Spec.Prover

/-!
# Specification: what a limited rule says

A limited rule speaks about the part of the tape near the head.  Beyond that part the tape may be anything.
-/

namespace Spec
open Model Model.Expr Model.Prover

/-- The symbols of these blocks, then `rest`. -/
def unrollOn {σ : Type} (rest : Nat → σ) : List (Blk σ Nat) → Nat → σ
  | [] => rest
  | ⟨a, none⟩ :: _ => fun _ => a
  | ⟨a, some n⟩ :: bs => pre (List.replicate n a) (unrollOn rest bs)

/-- the configuration with this chain tape near the head and `rest d` beyond it -/
def zoneDC {σ S : Type} (rest : Dir → Nat → σ) (t : ChainTape σ Nat) (st : S) : DC σ S :=
  { st := st, dir := t.dir, side := fun d => unrollOn (rest d) (t.half d) }

/-- A rule about the part of the tape near the head is sound in every surrounding: for all values `y ≥ 0` of its variables,
all `rest` beyond this part, and all base configurations `cfg` this means, the base machine makes exactly `r.steps` steps to
the configuration with the run lengths `r.init` plus `r.diff` near the head, the same `rest` beyond it, and the same macro
state. -/
def LimSound {σ S : Type} (T : Table) (Means : DC σ S → Config → Prop) (st : S) (r : DiffRule σ) : Prop :=
  ∀ y : Nat → Int, (∀ x, 0 ≤ y x) → ∀ t, TapeIs y r.init t → ∀ rest cfg, Means (zoneDC rest t st) cfg →
    ∃ t', ∃ n : Nat, TapePlus y r.init r.diff t' ∧ (∀ d, ∀ b ∈ t'.half d, b.num ≠ some 0) ∧ 0 < n ∧
      (n : Int) = Val.value y r.steps ∧ Means (zoneDC rest t' st) (run T n cfg) ∧ SeenIs T cfg n y r.seen

/-- Two blocks look the same to the proof system: the same symbol, and both once, both infinitely often or both any other
number of times. -/
def SameKind {σ : Type} (a b : Blk σ Nat) : Prop :=
  a.sym = b.sym ∧ (a.num = some 1 ↔ b.num = some 1) ∧ (a.num = none ↔ b.num = none)

/-- Two tapes look the same to the proof system. -/
def SameKinds {σ : Type} (u v : ChainTape σ Nat) : Prop :=
  u.dir = v.dir ∧ ∀ d, List.Forall₂ SameKind (u.half d) (v.half d)

/-- What an application of the limited rule `r` to the tape `u`, meaning `cfg`, must report:
* the tape, the number of steps and the last visits the base machine reaches, such that the rule speaks about the new tape
  no more;
* or that the base machine never halts and visits exactly the given states again and again;
* or nothing, if the rule does not speak about `u`. -/
def LimApplySound {σ S : Type} (T : Table) (blank : σ) (Means : DC σ S → Config → Prop) (st : S) (u : ChainTape σ Nat)
    (cfg : Config) (r : LimRule σ) : Out (Res σ) → Prop
  | .raise => False
  | .fail => ¬ DiffCovers r.rule (cut r.dist u)
  | .ok (.inf states) => NeverHalts T cfg ∧ ∀ q, VisitedForever T cfg q ↔ q ∈ states
  | .ok (.apply u' n seen) => WFTape blank u' ∧ u'.dir = u.dir ∧ 0 < n ∧ Means (tapeDC blank u' st) (run T n cfg) ∧
      (∀ q k, Py.dget seen q = some k ↔ LastSeen T cfg n q k) ∧ ¬ DiffCovers r.rule (cut r.dist u')

/-- the simulator with limited rules after `n` loops -/
def lafter {σ S : Type} [DecidableEq σ] [DecidableEq S] (M : Machine σ S) (o : Opts) (ord : Order σ) (n : Nat) : LSim σ S :=
  (LSim.step M o ord)^[n] (LSim.init M)

end Spec

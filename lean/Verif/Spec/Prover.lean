import Verif.Model.Prover
import Verif.Spec.Expr
import Verif.Spec.Stack

/-!
# Specification: what a proven rule says

A rule speaks about tapes whose run lengths are expressions.  `TapeIs y t u` says that the tape `u` of numbers is the tape
`t` of expressions with its variables set by `y`.
-/

namespace Spec
open Model Model.Expr Model.Prover

def NumIs (y : Nat → Int) : Option V → Option Nat → Prop
  | none, none => True
  | some v, some n => Val.value y v = n
  | _, _ => False

def HalfIs {σ : Type} (y : Nat → Int) (t : List (Blk σ V)) (u : List (Blk σ Nat)) : Prop :=
  List.Forall₂ (fun a b => a.sym = b.sym ∧ NumIs y a.num b.num) t u

structure TapeIs {σ : Type} (y : Nat → Int) (t : ChainTape σ V) (u : ChainTape σ Nat) : Prop where
  dir : t.dir = u.dir
  left : HalfIs y t.left u.left
  right : HalfIs y t.right u.right

/-- `u` is the half tape `t` plus the differences `d`. -/
def HalfPlus {σ : Type} (y : Nat → Int) : List (Blk σ V) → List (Blk σ V) → List (Blk σ Nat) → Prop
  | a :: t, d :: ds, b :: u => a.sym = b.sym ∧ HalfPlus y t ds u ∧
      match a.num, d.num, b.num with
      | none, none, none => True
      | some v, some w, some n => Val.value y v + Val.value y w = n
      | _, _, _ => False
  | [], [], [] => True
  | _, _, _ => False

structure TapePlus {σ : Type} (y : Nat → Int) (t d : ChainTape σ V) (u : ChainTape σ Nat) : Prop where
  dir : t.dir = u.dir
  left : HalfPlus y t.left d.left u.left
  right : HalfPlus y t.right d.right u.right

/-- From `c` to `c'` the simulation makes so many steps and visits these states last at these steps (any other state not
at all); it keeps running and returns to the same state and direction. -/
structure Reaches {σ S : Type} (y : Nat → Int) (steps : V) (seen : List (Nat × V)) (c c' : SimSt σ S Nat) : Prop where
  op : c'.op = .running
  st : c'.st = c.st
  dir : c'.dir = c.dir
  steps : (c'.steps : Int) = c.steps + Val.value y steps
  seen : ∀ q, (∀ v, Py.dget seen q = some v → ∃ n : Nat, Py.dget c'.seen q = some n ∧
      (n : Int) = c.steps + Val.value y v ∧ c.steps ≤ n) ∧
    (Py.dget seen q = none → Py.dget c'.seen q = Py.dget c.seen q)
  reason : c'.infReason = c.infReason
  recur : c'.recur = c.recur
  le : c.steps ≤ c'.steps

/-- The simulation `c'` has the tape, steps and visits that were computed from `c`; nothing else has changed. -/
structure Lands {σ S : Type} (c c' : SimSt σ S Nat) (tape : ChainTape σ Nat) (steps : Nat) (seen : List (Nat × Nat)) :
    Prop where
  op : c'.op = .running
  st : c'.st = c.st
  dir : c'.dir = c.dir
  tape : c'.tape = tape
  steps : c'.steps = c.steps + steps
  seen : ∀ q, Py.dget c'.seen q =
    match Py.dget seen q with
    | some n => some (c.steps + n)
    | none => Py.dget c.seen q
  reason : c'.infReason = c.infReason
  recur : c'.recur = c.recur

/-- The two simulators are in the same state, except for their number of loops and the order in which visits are stored. -/
structure SameSim {σ S : Type} (c s : SimSt σ S Nat) : Prop where
  tape : s.tape = c.tape
  st : s.st = c.st
  dir : s.dir = c.dir
  steps : s.steps = c.steps
  op : s.op = c.op
  seen : ∀ q, Py.dget s.seen q = Py.dget c.seen q
  cell : s.op = .halt ∨ s.op = .undefined → s.cell = c.cell
  reason : s.infReason = c.infReason
  recur : s.recur = c.recur

/-- Every `k` steps of the simulation from `c` it is still running and has visited all of these states again and no
others. -/
def Loops {σ S : Type} [DecidableEq σ] [DecidableEq S] (M : Machine σ S) (c : SimSt σ S Nat) (states : List Nat) : Prop :=
  ∃ k, 1 ≤ k ∧ ∀ i,
    let a := (SimSt.step natOps M)^[k * i] c
    let b := (SimSt.step natOps M)^[k * (i + 1)] c
    b.op = .running ∧ a.steps ≤ b.steps ∧ b.infReason = c.infReason ∧ b.recur = c.recur ∧
    (∀ q ∈ states, ∃ n, Py.dget b.seen q = some n ∧ a.steps ≤ n) ∧
    ∀ q, q ∉ states → Py.dget b.seen q = Py.dget a.seen q

/-- the simulator with proof system after `n` loops -/
def pafter {σ S : Type} [DecidableEq σ] [DecidableEq S] (M : Machine σ S) (o : Opts) (n : Nat) : PSim σ S :=
  (PSim.step M o)^[n] (PSim.init M)

/-- The simulator `s` with the proof system, after `n` of its loops, is where the simulator without proof system is after
some number `m ≥ n` of loops; or it has stopped with the verdict of the proof system, and the simulator without proof system
from there on visits exactly the reported states again and again. -/
inductive Tracks {σ S : Type} [DecidableEq σ] [DecidableEq S] (M : Machine σ S) (n : Nat) (s : SimSt σ S Nat) : Prop
  | same (m : Nat) : SameSim (SimSt.after M m) s → (s.op = .running → n ≤ m) → Tracks M n s
  | proof (m : Nat) : s.op = .infRepeat → s.infReason = some .proofSystem →
      SameSim (SimSt.after M m) { s with op := .running, infReason := none, recur := [] } → Loops M (SimSt.after M m) s.recur →
      Tracks M n s

/-! ## What a rule means for the base machine -/

/-- the configuration with this chain tape -/
def tapeDC {σ S : Type} (blank : σ) (t : ChainTape σ Nat) (st : S) : DC σ S :=
  { st := st, dir := t.dir, side := fun d => unroll blank (t.half d) }

/-- The stacks built by the tools over the base machine `T`: the machine, the base configuration `mean c` of a macro
configuration `c`, and when a macro configuration means a base configuration. -/
inductive Stack (T : Table) : (σ S : Type) → Machine σ S → (DC σ S → DC Nat (Option Nat)) → (DC σ S → Config → Prop) → Prop
  | simple : Stack T Nat (Option Nat) (simple T) id Represents
  | block (k off maxSim : Nat) : off < k → Stack T (List Nat) (BSt (Option Nat)) (block (simple T) k off maxSim) (blockFlat k 0)
      (fun c cfg => blockValid k c ∧ Represents (blockFlat k 0 c) cfg)
  | back (maxSim : Nat) : Stack T Nat (Option Nat × Nat) (back (simple T) maxSim) backFlat
      (fun c cfg => Represents (backFlat c) cfg)
  | nested (k off maxBlock maxBack : Nat) : off < k → Stack T (List Nat) (BSt (Option Nat) × List Nat)
      (back (block (simple T) k off maxBlock) maxBack) (fun c => blockFlat k 0 (backFlat c))
      (fun c cfg => blockValid k (backFlat c) ∧ Represents (blockFlat k 0 (backFlat c)) cfg)

/-- Every half tape is well formed: positive run lengths, then blanks. -/
def WFTape {σ : Type} (blank : σ) (t : ChainTape σ Nat) : Prop := ∀ d, WFHalf blank (t.half d)

/-- The expressions `seen` give the last visits of all states visited in the first `n` steps. -/
def SeenIs (T : Table) (cfg : Config) (n : Nat) (y : Nat → Int) (seen : List (Nat × V)) : Prop :=
  ∀ q, (∀ v, Py.dget seen q = some v → ∃ k : Nat, (k : Int) = Val.value y v ∧ LastSeen T cfg n q k) ∧
    (Py.dget seen q = none → ∀ k, k < n → ¬ VisitedAt T cfg q k)

/-- The smallest value of an expression `x + c` for `x ≥ 0`. -/
def least : V → Int
  | .num k => k
  | .expr e => e.const

/-- Every run length of `u` is at or above the minimum given by `t`. -/
def AtLeast {σ : Type} (t : ChainTape σ V) (u : ChainTape σ Nat) : Prop :=
  ∀ d, List.Forall₂ (fun a b => ∀ v, a.num = some v → ∃ n : Nat, b.num = some n ∧ least v ≤ n) (t.half d) (u.half d)

/-- `u` is a configuration the difference rule speaks about. -/
def DiffCovers {σ : Type} (r : DiffRule σ) (u : ChainTape σ Nat) : Prop :=
  ∃ y : Nat → Int, (∀ x, 0 ≤ y x) ∧ TapeIs y r.init u

/-- A difference rule proved for the shape of `tape`: it speaks about every tape of this shape with run lengths at or above
the minima.  For all values `y ≥ 0` of its variables, from the tape with the run lengths `r.init` the base machine makes
exactly `r.steps` steps to the tape with the run lengths `r.init` plus `r.diff`, in the same macro state. -/
structure DiffSound {σ S : Type} (T : Table) (blank : σ) (Means : DC σ S → Config → Prop) (st : S) (tape : ChainTape σ Nat)
    (r : DiffRule σ) : Prop where
  covers : ∀ u, WFTape blank u → strip natIsOne st u = strip natIsOne st tape → AtLeast r.init u → DiffCovers r u
  sound : ∀ y : Nat → Int, (∀ x, 0 ≤ y x) → ∀ u, WFTape blank u → TapeIs y r.init u → ∀ cfg, Means (tapeDC blank u st) cfg →
    ∃ u', ∃ n : Nat, WFTape blank u' ∧ TapePlus y r.init r.diff u' ∧ 0 < n ∧ (n : Int) = Val.value y r.steps ∧
      Means (tapeDC blank u' st) (run T n cfg) ∧ SeenIs T cfg n y r.seen

/-- the run lengths of a tape, left half first -/
def lengths {σ : Type} (u : ChainTape σ Nat) : List (Option Nat) := (u.left ++ u.right).map (·.num)

/-- the symbols of the runs of a tape -/
def symbols {σ : Type} (u : ChainTape σ Nat) : Dir × List σ × List σ := (u.dir, u.left.map (·.sym), u.right.map (·.sym))

/-- `y` gives the variables of a general rule the values of the run lengths, all at or above the minima. -/
def VarsFit (y : Nat → Int) (vars : List (Option (Nat × Int))) (ls : List (Option Nat)) : Prop :=
  List.Forall₂ (fun v l => ∀ x m, v = some (x, m) → ∃ n : Nat, l = some n ∧ y x = n ∧ m ≤ (n : Int)) vars ls

/-- Every run length is at or above the minimum of its variable. -/
def GenCovers {σ : Type} (r : GenRule) (u : ChainTape σ Nat) : Prop :=
  List.Forall₂ (fun v l => ∀ x m, v = some (x, m) → ∃ n : Nat, l = some n ∧ m ≤ (n : Int)) r.vars (lengths u)

/-- A general rule proved for the shape of `tape`: every tape of this shape with all run lengths at or above the minima gives
values to the variables of the rule, and for all values the variables can get in this way, the base machine makes exactly
`r.steps` steps to the tape with the same symbols and the run lengths `r.result`, in the same macro state. -/
structure GenSound {σ S : Type} (T : Table) (blank : σ) (Means : DC σ S → Config → Prop) (st : S) (tape : ChainTape σ Nat)
    (r : GenRule) : Prop where
  covers : ∀ u, WFTape blank u → strip natIsOne st u = strip natIsOne st tape → GenCovers r u →
    ∃ y : Nat → Int, VarsFit y r.vars (lengths u)
  sound : ∀ u, WFTape blank u → strip natIsOne st u = strip natIsOne st tape → ∀ y : Nat → Int, VarsFit y r.vars (lengths u) →
    ∀ cfg, Means (tapeDC blank u st) cfg →
    ∃ u', ∃ n : Nat, WFTape blank u' ∧ symbols u' = symbols u ∧ List.Forall₂ (NumIs y) r.result (lengths u') ∧ 0 < n ∧
      (n : Int) = Val.value y r.steps ∧ Means (tapeDC blank u' st) (run T n cfg) ∧ SeenIs T cfg n y r.seen

def RuleSound {σ S : Type} (T : Table) (blank : σ) (Means : DC σ S → Config → Prop) (st : S) (tape : ChainTape σ Nat) :
    Rule σ → Prop
  | .diff r => DiffSound T blank Means st tape r
  | .gen r => GenSound T blank Means st tape r

/-- `u` is a configuration the rule speaks about. -/
def Covers {σ : Type} : Rule σ → ChainTape σ Nat → Prop
  | .diff r, u => DiffCovers r u
  | .gen r, u => GenCovers r u

/-- What an application of the rule `r` to the tape `u`, meaning `cfg`, must report:
* the tape, the number of steps and the last visits the base machine reaches, such that the rule speaks about the new tape
  no more (a general rule may also have been applied `maxReps` times);
* or that the base machine never halts and visits exactly the given states again and again;
* or nothing, if the rule does not speak about `u`. -/
def ApplySound {σ S : Type} (T : Table) (blank : σ) (Means : DC σ S → Config → Prop) (o : Opts) (st : S) (u : ChainTape σ Nat)
    (cfg : Config) (r : Rule σ) : Out (Res σ) → Prop
  | .raise => o.maxReps = 0
  | .fail => ¬ Covers r u
  | .ok (.inf states) => NeverHalts T cfg ∧ ∀ q, VisitedForever T cfg q ↔ q ∈ states
  | .ok (.apply u' n seen) => WFTape blank u' ∧ 0 < n ∧ Means (tapeDC blank u' st) (run T n cfg) ∧
      (∀ q k, Py.dget seen q = some k ↔ LastSeen T cfg n q k) ∧
      (¬ Covers r u' ∨ (∃ g, r = .gen g) ∧ o.maxReps ≤ n)

end Spec

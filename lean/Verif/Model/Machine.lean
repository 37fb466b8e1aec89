import Verif.Model.Py
import Verif.Model.Dict
import Verif.Spec.TM

/-!
# Model of `Code/Macro/Turing_Machine.py`

A machine is modelled by its `get_trans_object` function.  Exceptions are modelled by the extra
condition `raised`.  Not modelled: `condition_details` beyond its first entry (the others are only
printed), `num_states`/`num_symbols`/`max_steps` of macro machines (never read), the transition cache
(modelled separately in `Model/Cache.lean`).
-/

namespace Model
open Spec (Dir Instr Table)

/-- Conditions (30-36), and `raised` for a Python exception -/
inductive Cond
  | running | halt | undefined | infRepeat | gaveUp | raised
  deriving DecidableEq, Repr

/-- `Transition` (49-63).  `seen` is `states_last_seen`, a dictionary from base states to step
offsets; `cell` is the first entry of `condition_details` for HALT and UNDEFINED: the symbol and state
of the base machine's halting cell. -/
structure Trans (σ S : Type) where
  cond : Cond
  sym : σ
  st : S
  dir : Dir
  steps : Nat
  seen : List (Nat × Nat)
  cell : Option (Nat × Nat)
  deriving DecidableEq, Repr

/-- What the simulator uses of a machine. -/
structure Machine (σ S : Type) where
  /-- `get_trans_object` -/
  trans : σ → S → Dir → Trans σ S
  initSym : σ
  initSt : S
  initDir : Dir
  /-- `eval_symbol` -/
  evalSym : σ → Nat
  /-- `eval_state` -/
  evalSt : S → Nat

/-- The value returned when Python raises; only its condition matters. -/
def Trans.raise {σ S : Type} (sym : σ) (st : S) (d : Dir) : Trans σ S :=
  { cond := .raised, sym := sym, st := st, dir := d, steps := 0, seen := [], cell := none }

section SimLimited
variable {σ S : Type} [DecidableEq σ] [DecidableEq S]

/-- local variables of `sim_limited` (96-109) -/
structure LimLoop (σ S : Type) where
  st : S
  dir : Dir
  pos : Int
  tape : List σ
  steps : Nat
  loops : Nat
  seen : List (Nat × Nat)
  old : Option (S × Dir × Int × List σ)
  nextSave : Nat

/-- `for state, base_last_seen in trans.states_last_seen.items(): states_last_seen[state] = ...`
(115-116) -/
def mergeSeen (seen : List (Nat × Nat)) (offset : Nat) (new : List (Nat × Nat)) : List (Nat × Nat) :=
  new.foldl (fun d e => Py.dset d e.1 (offset + e.2)) seen

/-- one iteration of the loop of `sim_limited` (112-155): go on, or return a transition -/
def limIter (M : Machine σ S) (maxLoops : Nat) (s : LimLoop σ S) :
    LimLoop σ S ⊕ Trans (List σ) S :=
  match Py.get s.tape s.pos with
  | none => .inr (Trans.raise s.tape s.st s.dir)     -- IndexError
  | some symbol =>
    let t := M.trans symbol s.st s.dir
    if t.cond = .raised then .inr (Trans.raise s.tape s.st s.dir)
    else
      match Py.set s.tape s.pos t.sym with
      | none => .inr (Trans.raise s.tape s.st s.dir)
      | some tape =>
        let seen := mergeSeen s.seen s.steps t.seen
        let steps := s.steps + t.steps
        let loops := s.loops + 1
        let pos := s.pos + t.dir.delta
        let ret := fun (c : Cond) (cell : Option (Nat × Nat)) =>
          ({ cond := c, sym := tape, st := t.st, dir := t.dir, steps := steps, seen := seen
             cell := cell } : Trans (List σ) S)
        if s.old = some (t.st, t.dir, pos, tape) then .inr (ret .infRepeat none)
        else
          let save := decide (loops ≥ s.nextSave)
          if loops > maxLoops then .inr (ret .gaveUp none)
          else if t.cond ≠ .running then .inr (ret t.cond t.cell)
          else if ¬ (0 ≤ pos ∧ pos < tape.length) then .inr (ret .running none)
          else .inl
            { st := t.st, dir := t.dir, pos := pos, tape := tape, steps := steps, loops := loops
              seen := seen
              old := if save then some (t.st, t.dir, pos, tape) else s.old
              nextSave := if save then s.nextSave * 2 else s.nextSave }

/-- the loop (111-155).  It ends when `num_loops > max_loops`, so `max_loops + 1` iterations are
enough. -/
def limLoop (M : Machine σ S) (maxLoops : Nat) : Nat → LimLoop σ S → Trans (List σ) S
  | 0, s => Trans.raise s.tape s.st s.dir
  | k + 1, s =>
    match limIter M maxLoops s with
    | .inl s' => limLoop M maxLoops k s'
    | .inr t => t

/-- `sim_limited` (93-163).  `symbol_out` of the result is the whole segment. -/
def simLimited (M : Machine σ S) (st : S) (startTape : List σ) (pos : Int) (dir : Dir)
    (maxLoops : Nat) : Trans (List σ) S :=
  limLoop M maxLoops (maxLoops + 1)
    { st := st, dir := dir, pos := pos, tape := startTape, steps := 0, loops := 0, seen := []
      old := none, nextSave := 128 }

end SimLimited

/-- `Simple_Machine` (255-293) with the transitions built by `tm_from_quintuples` (295-335).
The table is total; the state `none` is `Simple_Machine_State(-1)`, which is never looked up. -/
def simple (T : Table) : Machine Nat (Option Nat) where
  trans := fun a st d =>
    match st with
    | none => Trans.raise a st d
    | some q =>
      match T q a with
      | .undef => { cond := .undefined, sym := 1, st := none, dir := .R, steps := 1, seen := [(q, 0)]
                    cell := some (a, q) }
      | .halt w d' => { cond := .halt, sym := w, st := none, dir := d', steps := 1, seen := [(q, 0)]
                        cell := some (a, q) }
      | .go w d' q' => { cond := .running, sym := w, st := some q', dir := d', steps := 1
                         seen := [(q, 0)], cell := none }
  initSym := 0
  initSt := some 0
  initDir := .R
  evalSym := fun a => if a ≠ 0 then 1 else 0
  evalSt := fun _ => 0

/-- States of a block machine: base states, and `OffsetStartState` (346-351) -/
inductive BSt (S : Type)
  | plain (s : S)
  | offset (s : S) (off : Nat)
  deriving DecidableEq, Repr

/-- wrap the state of a result of `sim_limited` over the base machine -/
def Trans.mapSt {σ S S' : Type} (t : Trans σ S) (f : S → S') : Trans σ S' :=
  { cond := t.cond, sym := t.sym, st := f t.st, dir := t.dir, steps := t.steps, seen := t.seen
    cell := t.cell }

/-- `Block_Macro_Machine` (353-417).  `offset = 0` stands for no offset (`if offset:`).  The
constructor asserts `0 < block_size` and `0 < offset < block_size`. -/
def block {σ S : Type} [DecidableEq σ] [DecidableEq S] (M : Machine σ S) (k offset maxSim : Nat) :
    Machine (List σ) (BSt S) where
  trans := fun sym st d =>
    match st with
    | .offset s off => (simLimited M s sym off d maxSim).mapSt .plain
    | .plain s =>
      match d with
      | .R => (simLimited M s sym 0 .R maxSim).mapSt .plain
      | .L => (simLimited M s sym ((k : Int) - 1) .L maxSim).mapSt .plain
  initSym := List.replicate k M.initSym
  initSt := if offset ≠ 0 then .offset M.initSt offset else .plain M.initSt
  initDir := M.initDir
  evalSym := fun sym => (sym.map M.evalSym).sum
  evalSt := fun st => match st with
    | .plain s => M.evalSt s
    | .offset s _ => M.evalSt s

/-- `Backsymbol_Macro_Machine` (449-515); a state is (`base_state`, `back_symbol`) -/
def back {σ S : Type} [DecidableEq σ] [DecidableEq S] (M : Machine σ S) (maxSim : Nat) :
    Machine σ (S × σ) where
  trans := fun sym st d =>
    let t := match d with
      | .R => simLimited M st.1 [st.2, sym] 1 .R maxSim
      | .L => simLimited M st.1 [sym, st.2] 0 .L maxSim
    match t.sym with
    | [x, y] =>
      match t.dir with
      | .R => { cond := t.cond, sym := x, st := (t.st, y), dir := t.dir, steps := t.steps
                seen := t.seen, cell := t.cell }
      | .L => { cond := t.cond, sym := y, st := (t.st, x), dir := t.dir, steps := t.steps
                seen := t.seen, cell := t.cell }
    | _ => Trans.raise sym st d    -- unpacking error, impossible
  initSym := M.initSym
  initSt := (M.initSt, M.initSym)
  initDir := M.initDir
  evalSym := M.evalSym
  evalSt := fun st => M.evalSt st.1 + M.evalSym st.2

end Model

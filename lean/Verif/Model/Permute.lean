import Verif.Model.Table
import Verif.Model.Direct

/-!
# Model of `Code/TNF.py`, `Code/LNF.py` and `Code/Permute.py`

`none` stands for a Python exception.
-/

namespace Model.Permute
open Spec (Dir Instr Table)
open Model.IO

/-- `{old: new for (new, old) in enumerate(order)}[x]` (TNF.py 18-19): a later entry overwrites an earlier one;
`none` = KeyError -/
def old2new (order : List Nat) (x : Int) : Option Nat :=
  ((order.zipIdx.reverse).find? fun p => decide ((p.1 : Int) = x)).map (·.2)

/-- `for i, x in enumerate(xs): l[i] = f(x, l[i])`; `none` = IndexError, or `f` raises -/
def enumModify {α β : Type} (f : α → β → Option β) : Nat → List α → List β → Option (List β)
  | _, [], l => some l
  | i, x :: xs, l =>
    match l[i]? with
    | none => none
    | some b =>
      match f x b with
      | none => none
      | some b' => enumModify f (i + 1) xs (l.set i b')

/-- `other_dir` (Turing_Machine.py 41-46): asserts that the direction is left or right -/
def otherDir (d : Int) : Option Int := if d = 0 then some 1 else if d = 1 then some 0 else none

/-- one new transition (TNF.py 25-51) -/
def permuteTrans (so syo : List Nat) (swap : Bool) (t : BTrans) : Option BTrans :=
  match t.cond with
  | .running =>
    match (if swap then otherDir t.dir else some t.dir), old2new syo t.sym, old2new so t.st with
    | some d, some a, some q => some { cond := .running, sym := a, dir := d, st := q }
    | _, _, _ => none
  | c => some { cond := c, sym := 1, dir := 1, st := -1 }

/-- one row: the inner loop (22-51) -/
def permuteRow (m : SM) (so syo : List Nat) (swap : Bool) (q : Nat) (row : List BTrans) : Option (List BTrans) :=
  enumModify (fun a _ => ((m.rows[q]?).bind (·[a]?)).bind (permuteTrans so syo swap)) 0 syo row

/-- `permute_table` (17-52).  `new_tm` starts as a copy of the old machine. -/
def permuteTable (m : SM) (so syo : List Nat) (swap : Bool) : Option SM :=
  (enumModify (permuteRow m so syo swap) 0 so m.rows).map fun rows => { m with rows := rows }

/-! ## Tree normal form -/

/-- The order found so far and the set of numbers that are not in it yet (55-58) -/
structure Order where
  order : List Nat
  unordered : List Nat
  deriving DecidableEq, Repr

/-- `[0]` and `set(range(n)) - {0}` (55-58) -/
def Order.start (n : Nat) : Order := { order := [0], unordered := (List.range n).filter (· ≠ 0) }

/-- "if x in unordered: order.append(x); unordered.remove(x)" (70-76) -/
def Order.note (o : Order) (x : Nat) : Order :=
  if x ∈ o.unordered then { order := o.order ++ [x], unordered := o.unordered.erase x } else o

/-- the same for a state, where -1 (here `none`) is in no set -/
def Order.noteState (o : Order) : Option Nat → Order
  | none => o
  | some q => o.note q

/-- "if len(unordered) == 1: order.append(unordered.pop())" (78-81) -/
def Order.lone (o : Order) : Order :=
  match o.unordered with
  | [x] => { order := o.order ++ [x], unordered := [] }
  | _ => o

/-- What the search for the orders ends with -/
inductive Search
  | fuel                                  -- the bound on the iterations was too small (never happens)
  | raised
  | failed                                -- `return None`
  | found (so syo : List Nat)
  deriving DecidableEq, Repr

/-- the loop (63-81) -/
def tnfLoop (T : Table) (maxSteps : Int) : Nat → DirectSim → Order → Order → Search
  | 0, _, _, _ => .fuel
  | fuel + 1, sim, o, p =>
    if o.unordered.isEmpty && p.unordered.isEmpty then .found o.order p.order
    else if (sim.stepNum : Int) > maxSteps ∨ sim.halted then .failed
    else
      match sim.step T with
      | none => .raised
      | some sim =>
        match sim.tape.read with
        | none => .raised
        | some a => tnfLoop T maxSteps fuel sim (o.noteState sim.state).lone (p.note a).lone

/-- the result of `to_TNF`: an exception, `None` or a machine -/
inductive Tnf
  | fuel | raised | failed
  | ok (m : SM)
  deriving DecidableEq, Repr

/-- `to_TNF` (54-83).  The initial state and symbol are 0, as in every machine read from a file. -/
def toTNF (m : SM) (maxSteps : Int) : Tnf :=
  match (m.rows[0]?).bind (·[0]?) with
  | none => .raised
  | some t0 =>
    match tnfLoop m.table maxSteps (maxSteps.toNat + 3) DirectSim.new (Order.start m.nStates) (Order.start m.nSyms) with
    | .fuel => .fuel
    | .raised => .raised
    | .failed => .failed
    | .found so syo =>
      match permuteTable m so syo (decide (t0.dir = 0)) with
      | none => .raised
      | some m' => .ok m'

/-! ## Start states (`Permute.py`) -/

/-- `try_tnf` (13-18) -/
def tryTNF (m : SM) (maxSteps : Int) : Option SM :=
  match toTNF m maxSteps with
  | .ok m' => some m'
  | .failed => some m
  | _ => none

/-- `state_order` (25-27): 0 and `i` exchanged -/
def swapOrder (n i : Nat) : List Nat := ((List.range n).set i 0).set 0 i

/-- `permute_start_state` (20-29): the list of all machines that it yields -/
def permuteStartState (m : SM) (maxSteps : Int) : Option (List SM) :=
  Py.mapO (fun i => (permuteTable m (swapOrder m.nStates i) (List.range m.nSyms) false).bind (tryTNF · maxSteps))
    (List.range m.nStates)

/-! ## Lexical normal form -/

/-- A machine with its initial state and initial symbol -/
structure Started where
  tm : SM
  state : Nat
  sym : Nat
  deriving DecidableEq, Repr

/-- `permute` (LNF.py 13-27).  The first `trans_table[state_order[0]][0]` uses symbol 0, not
`symbol_order[0]`.  `list.index` raises if 0 is missing. -/
def lnfPermute (m : SM) (so syo : List Nat) : Option Started :=
  ((so[0]?).bind fun q => (m.rows[q]?).bind (·[0]?)).bind fun t =>
    (permuteTable m so syo (decide (t.dir = 1))).bind fun m' =>
      match so.idxOf? 0, syo.idxOf? 0 with
      | some q, some a => some { tm := m', state := q, sym := a }
      | _, _ => none

/-- `iter_perms` (30-36): the list of everything that it yields -/
def iterPerms : Nat → List Nat → List (List Nat)
  | 0, xs => [xs]
  | fuel + 1, xs =>
    if xs.length ≤ 1 then [xs]
    else (List.range xs.length).flatMap fun i =>
      match xs[i]? with
      | none => []
      | some x => (iterPerms fuel (xs.eraseIdx i)).map (x :: ·)

/-- `list(iter_perms(list(range(n))))`: the recursion depth is at most the length of the list -/
def perms (n : Nat) : List (List Nat) := iterPerms n (List.range n)

/-- `brute_lnf` (39-51): one pass of the inner body -/
def lnfTry (m : SM) (best : Started × List Char) (o : List Nat × List Nat) : Option (Started × List Char) :=
  (lnfPermute m o.1 o.2).bind fun p =>
    p.tm.toStr.map fun s => if s < best.2 then (p, s) else best

/-- the loops -/
def lnfLoop (m : SM) : List (List Nat × List Nat) → Started × List Char → Option (Started × List Char)
  | [], best => some best
  | o :: os, best => (lnfTry m best o).bind (lnfLoop m os)

/-- `brute_lnf` (39-51) -/
def bruteLnf (m : SM) : Option Started :=
  m.toStr.bind fun s =>
    (lnfLoop m ((perms m.nStates).flatMap fun so => (perms m.nSyms).map fun syo => (so, syo))
      ({ tm := m, state := 0, sym := 0 }, s)).map (·.1)

end Model.Permute

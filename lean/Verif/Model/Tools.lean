import Verif.Model.Permute
import Verif.Model.Records

/-!
# Model of `Code/Zero_Reflexive.py`, `Code/Adjacent.py` and `Code/Count.py`

`none` stands for a Python exception.  Not modelled: command lines, opening files, printing progress.
-/

namespace Model.Tools
open Model.IO

/-! ## `Zero_Reflexive.py` -/

/-- `is_zero_reflexive` (9-16): the loop over the states; `tm.init_symbol` is 0 -/
def zeroReflexiveLoop (m : SM) : List Nat → Option Bool
  | [] => some false
  | q :: qs =>
    match (m.rows[q]?).bind (·[0]?) with
    | none => none
    | some t => if (q : Int) = t.st ∨ t.cond = .undefined then some true else zeroReflexiveLoop m qs

/-- `is_zero_reflexive` (9-16) -/
def isZeroReflexive (m : SM) : Option Bool := zeroReflexiveLoop m (List.range m.nStates)

/-- The loop of `main` (32-42): the records written to the two files; `none` if a test raises. -/
def zrLoop : List SM → List SM → List SM → Option (List SM × List SM)
  | [], zr, nzr => some (zr, nzr)
  | m :: ms, zr, nzr =>
    match isZeroReflexive m with
    | none => none
    | some true => zrLoop ms (zr ++ [m]) nzr
    | some false => zrLoop ms zr (nzr ++ [m])

/-- `main` (26-44): the contents of the two files at the end, and whether the last line raises (the percentage of an empty
input is a division by zero). -/
def zrMain (recs : List SM) : Option ((List SM × List SM) × Bool) :=
  (zrLoop recs [] []).map fun r => (r, recs.isEmpty)

/-! ## `Adjacent.py` -/

/-- `Transition.equals` (`Turing_Machine.py` 84-90) -/
def transEquals (t u : BTrans) : Bool := t.cond = u.cond && t.sym = u.sym && t.st = u.st && t.dir = u.dir

/-- the transitions tried (20-26), in order -/
def newTransitions (m : SM) : List BTrans :=
  (List.range m.nStates).flatMap fun q' : Nat => (List.range m.nSyms).flatMap fun w : Nat =>
    (List.range 2).map fun d : Nat => { cond := .running, sym := w, dir := d, st := q' }

/-- `enum_cell` (16-29): the machines at the moments they are yielded (Python yields one object, which it changes in
between; its users write it out at once) -/
def enumCell (m : SM) (q a : Nat) : Option (List SM) :=
  match (m.rows[q]?).bind (·[a]?) with
  | none => none
  | some old =>
    some (((newTransitions m).filter fun t => !transEquals old t).map fun t =>
      { m with rows := m.rows.modify q (·.set a t) })

/-- `adjacent` (31-37) -/
def adjacent (m : SM) : Option (List SM) :=
  (Py.mapO (fun q => (Py.mapO (fun a =>
    match (m.rows[q]?).bind (·[a]?) with
    | none => none
    | some t => if t.cond = .running then enumCell m q a else some []) (List.range m.nSyms)).map List.flatten)
    (List.range m.nStates)).map List.flatten

/-- `write_adjacent` (40-43): the machines written -/
def writeAdjacent (m : SM) (maxSteps : Int) : Option (List SM) :=
  match adjacent m with
  | none => none
  | some ms => (Py.mapO (fun m => Permute.permuteStartState m maxSteps) (m :: ms)).map List.flatten

/-! ## `Count.py` -/

/-- the recursion of `fact2` (20-26) once the assertion holds; `d` is `n - m` -/
def fact2Loop : Nat → Int → Int
  | 0, _ => 1
  | d + 1, n => n * fact2Loop d (n - 1)

/-- `fact2` (20-26); if the assertion holds at first it holds in the recursive calls -/
def fact2 (n m : Int) : Option Int := if n ≥ m ∧ m ≥ 0 then some (fact2Loop (n - m).toNat n) else none

/-- the variables of the loop of `count` (33-36) -/
structure CountSt where
  numUndefs : Nat
  hasHalt : Bool
  maxSymbol : Int
  maxState : Int

/-- the body of the loop (42-49) -/
def CountSt.add (s : CountSt) (t : BTrans) : CountSt :=
  match t.cond with
  | .undefined => { s with numUndefs := s.numUndefs + 1 }
  | .halt => { s with hasHalt := true }
  | .running => { s with maxSymbol := max s.maxSymbol t.sym, maxState := max s.maxState t.st }

/-- the factor for the undefined transitions (55-67) -/
def countMult (n k : Nat) (hasHalt allowNoHalt : Bool) (numUndefs : Nat) : Int :=
  if hasHalt then (2 * n * k) ^ numUndefs
  else
    (if numUndefs ≥ 1 then (numUndefs : Int) * (2 * n * k) ^ (numUndefs - 1) else 0) +
      (if allowNoHalt then (2 * n * k) ^ numUndefs else 0)

/-- `count` (29-68) -/
def count (m : SM) (allowNoHalt : Bool) : Option Int :=
  match m.cells with
  | none => none
  | some cells =>
    let s := cells.foldl CountSt.add { numUndefs := 0, hasHalt := false, maxSymbol := 0, maxState := 0 }
    match fact2 ((m.nSyms : Int) - 2) (m.nSyms - (s.maxSymbol + 1)),
        fact2 ((m.nStates : Int) - 2) (m.nStates - (s.maxState + 1)) with
    | some a, some b => some (a * b * countMult m.nStates m.nSyms s.hasHalt allowNoHalt s.numUndefs)
    | _, _ => none

/-- `main` (77-83): the total -/
def countAll (ms : List SM) (allowNoHalt : Bool) : Option Int := (Py.mapO (count · allowNoHalt) ms).map List.sum

end Model.Tools

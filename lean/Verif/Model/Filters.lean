import Verif.Spec.TM

/-!
# Models of `Code/Reverse_Engineer_Filter.py` and `Code/Backtracking_Filter.py`

A machine is a table together with the numbers of states and symbols; only the cells in that range
exist.  Lists built by appending inside loops over states and symbols are list comprehensions here,
in the same order.
-/

namespace Model
open Spec (Dir Instr Table)

/-- All cells `(state, symbol)` in the order of the loops
`for state in range(num_states): for symbol in range(num_symbols)`. -/
def cells (nS nK : Nat) : List (Nat × Nat) :=
  (List.range nS).flatMap fun q => (List.range nK).map fun a => (q, a)

/-- A table cell that stops the machine (`HALT` or `UNDEFINED`). -/
def haltCell (M : Table) (c : Nat × Nat) : Bool := (M c.1 c.2).next.isNone

/-- `halts` (Reverse_Engineer_Filter.py:31-32, Backtracking_Filter.py:35-37) -/
def halts (M : Table) (nS nK : Nat) : List (Nat × Nat) := (cells nS nK).filter (haltCell M)

/-- `to_state[q]` (Reverse_Engineer_Filter.py:35, Backtracking_Filter.py:40): addresses of running
transitions into `q` -/
def toState (M : Table) (nS nK q : Nat) : List (Nat × Nat) :=
  (cells nS nK).filter fun c => (M c.1 c.2).next == some q

/-- `to_symbol[a]` (Reverse_Engineer_Filter.py:36): addresses of running transitions writing `a` -/
def toSymbol (M : Table) (nS nK a : Nat) : List (Nat × Nat) :=
  (cells nS nK).filter fun c => (M c.1 c.2).next.isSome && (M c.1 c.2).write == a

namespace RevEng

/-- `same_direction` (42-54); `none` = IndexError from `to_state[halt_state][0]` -/
def sameDirection (M : Table) (nS nK hq ha : Nat) : Option Bool :=
  match toState M nS nK hq with
  | [] => none
  | c0 :: rest =>
    let d := (M c0.1 c0.2).dir
    some (((c0 :: rest).all fun c => (M c.1 c.2).dir == d)
      && ((toSymbol M nS nK ha).all fun c => (M c.1 c.2).dir == d))

/-- `cannot_reach_halt` (39-69) -/
def cannotReachHalt (M : Table) (nS nK hq ha : Nat) : Option Bool :=
  if (toState M nS nK hq).length = 0 ∧ (hq, ha) ≠ (0, 0) then some true
  else if ha ≠ 0 then
    if (toSymbol M nS nK ha).length = 0 then some true
    else sameDirection M nS nK hq ha
  else some false

/-- `is_infinite` (71-81): the loop over `halts` with its early return -/
def isInfinite (M : Table) (nS nK : Nat) : Option Bool :=
  go (halts M nS nK)
where
  go : List (Nat × Nat) → Option Bool
    | [] => some true
    | h :: hs => (cannotReachHalt M nS nK h.1 h.2).bind fun b => if b then go hs else some false

end RevEng

namespace Backtrack

/-- `dir_to_symbol[symbol][dir]` (29-31, 43): `0` on both sides, otherwise a running transition
writes `symbol` while moving away from that side. -/
def dirToSymbol (M : Table) (nS nK : Nat) (sym : Nat) (side : Dir) : Bool :=
  sym == 0 || (cells nS nK).any fun c =>
    (M c.1 c.2).next.isSome && (M c.1 c.2).write == sym && (M c.1 c.2).dir.other == side

/-- `Partial_Config` (46-50); `left = dir[0]`, `right = dir[1]`, nearest cell first -/
structure PC where
  left : List Nat
  right : List Nat
  current : Nat
  state : Nat
  deriving DecidableEq, Repr

def PC.side (p : PC) : Dir → List Nat
  | .L => p.left
  | .R => p.right

/-- `applies` (55-61) -/
def PC.applies (p : PC) (i : Instr) : Bool :=
  match p.side i.dir.other with
  | [] => true
  | s :: _ => s == i.write

/-- `apply_trans` (63-77) -/
def PC.applyTrans (p : PC) (addr : Nat × Nat) (i : Instr) : PC :=
  match i.dir with
  | .L => { left := p.current :: p.left, right := p.right.drop 1, current := addr.2, state := addr.1 }
  | .R => { left := p.left.drop 1, right := p.current :: p.right, current := addr.2, state := addr.1 }

/-- `is_init_config` (79-88) -/
def isInitConfig (p : PC) : Bool :=
  p.current == 0 && p.state == 0 && p.left.all (· == 0) && p.right.all (· == 0)

/-- `is_possible_config` (90-97) -/
def isPossibleConfig (M : Table) (nS nK : Nat) (p : PC) : Bool :=
  (p.left.all fun s => dirToSymbol M nS nK s .L) && (p.right.all fun s => dirToSymbol M nS nK s .R)

structure Result where
  success : Bool
  halted : Bool
  maxSteps : Nat
  maxWidth : Nat
  numNodes : Nat
  deriving DecidableEq, Repr

/-- `merge` (107-112) -/
def Result.merge (a b : Result) : Result :=
  { success := a.success && b.success
    halted := a.halted || b.halted
    maxSteps := max a.maxSteps b.maxSteps
    maxWidth := max a.maxWidth b.maxWidth
    numNodes := a.numNodes + b.numNodes }

/-- Inner loop over `to_state[config.state]` (127-139).  `none` = the initial configuration was
found (early return). -/
def expandOne (M : Table) (nS nK : Nat) (p : PC) : List (Nat × Nat) → List PC → Option (List PC)
  | [], acc => some acc
  | c :: cs, acc =>
    if p.applies (M c.1 c.2) then
      let prev := p.applyTrans c (M c.1 c.2)
      if isInitConfig prev then none
      else if isPossibleConfig M nS nK prev then expandOne M nS nK p cs (acc ++ [prev])
      else expandOne M nS nK p cs acc
    else expandOne M nS nK p cs acc

/-- Loop over `pos_configs` (124-139): number of nodes and the new list, `none` on early return -/
def expandAll (M : Table) (nS nK : Nat) : List PC → Nat → List PC → Nat × Option (List PC)
  | [], nodes, acc => (nodes, some acc)
  | p :: ps, nodes, acc =>
    match expandOne M nS nK p (toState M nS nK p.state) acc with
    | none => (nodes + 1, none)
    | some acc' => expandAll M nS nK ps (nodes + 1) acc'

/-- `for i in range(steps)` (122-150); `k` iterations are left, `i` is the next index -/
def singleLoop (M : Table) (nS nK maxWidth : Nat) :
    (k i : Nat) → List PC → (widthSeen nodes : Nat) → Result
  | 0, i, _, w, nodes =>
    { success := false, halted := false, maxSteps := i, maxWidth := w, numNodes := nodes }
  | k + 1, i, ps, w, nodes =>
    match expandAll M nS nK ps nodes [] with
    | (nodes', none) =>
      { success := false, halted := true, maxSteps := i + 1, maxWidth := w, numNodes := nodes' }
    | (nodes', some ps') =>
      let w' := max w ps'.length
      if ps'.length = 0 then
        { success := true, halted := false, maxSteps := i + 1, maxWidth := w', numNodes := nodes' }
      else if w' > maxWidth then
        { success := false, halted := false, maxSteps := i + 1, maxWidth := w', numNodes := nodes' }
      else singleLoop M nS nK maxWidth k (i + 1) ps' w' nodes'

/-- `backtrack_single_halt` (114-150).  With `steps = 0` the loop variable `i` is unbound at
line 149 and Python raises (`none`). -/
def singleHalt (M : Table) (nS nK hq ha steps maxWidth : Nat) : Option Result :=
  if steps = 0 then none
  else some (singleLoop M nS nK maxWidth steps 0 [{ left := [], right := [], current := ha, state := hq }] 1 0)

/-- the check at lines 160-168: does `hq` have a transition to itself? -/
def hasSelfLoop (M : Table) (nK hq : Nat) : Bool :=
  (List.range nK).any fun a => (M hq a).next == some hq

/-- `backtrack_ttable` (152-183).  Outer `none` = exception, inner `none` = Python `None`. -/
def ttable (M : Table) (nS nK steps maxWidth : Nat) : Option (Option Result) :=
  go (halts M nS nK) none
where
  go : List (Nat × Nat) → Option Result → Option (Option Result)
    | [], comb => some comb
    | h :: hs, comb =>
      if hasSelfLoop M nK h.1 then
        some (some { success := false, halted := false, maxSteps := 0, maxWidth := 0, numNodes := 0 })
      else
        (singleHalt M nS nK h.1 h.2 steps maxWidth).bind fun r =>
          if !r.success then some (some r)
          else go hs (some (match comb with | none => r | some c => c.merge r))

end Backtrack
end Model

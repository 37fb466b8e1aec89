import Verif.Model.Machine

/-!
# Model of `Code/CPS.py` (the closed position set filter)

Sets are lists in insertion order; the order in which Python iterates over a set is a parameter
(`ordC`, `ordB`), because it is determined by hashes and has an influence on how the step budget is
spent.  The protobuf message `result` is represented by the fields of the state that it mirrors.  A Python
exception (`KeyError`) is `none`.
-/

namespace Model.CPS
open Spec (Dir)

/-- `xs[s:e]` -/
def pySlice {α : Type} (xs : List α) (s e : Int) : List α :=
  let n : Int := xs.length
  let clamp := fun (i : Int) => (if i < 0 then max 0 (i + n) else min i n).toNat
  (xs.drop (clamp s)).take (clamp e - clamp s)

/-- `Config` (34-80); the block size is a parameter of the functions -/
structure Cfg (σ S : Type) where
  st : S
  dir : Dir
  window : List σ
  pos : Int
  deriving DecidableEq, Repr

variable {σ S : Type}

/-- `Config.__init__` without a position (37-49): "TM should have block_size symbols in front of it." -/
def Cfg.new (k : Nat) (st : S) (dir : Dir) (window : List σ) : Cfg σ S :=
  { st := st, dir := dir, window := window
    pos := match dir with
      | .L => (k : Int) - 1
      | .R => (window.length : Int) - k }

/-- `Config.get_block` (51-57) -/
def Cfg.getBlock (k : Nat) (c : Cfg σ S) (d : Dir) (index : Nat) : List σ :=
  let start : Int := index * k
  let stop : Int := (index + 1) * k
  match d with
  | .L => pySlice c.window start stop
  | .R => pySlice c.window (c.window.length - stop) (c.window.length - start)

/-- `Config.shift_front` (59-64) -/
def Cfg.shiftFront (k : Nat) (c : Cfg σ S) (newFront : List σ) : Cfg σ S :=
  match c.dir with
  | .L => Cfg.new k c.st .L (newFront ++ pySlice c.window 0 ((c.window.length : Int) - k))
  | .R => Cfg.new k c.st .R (pySlice c.window k c.window.length ++ newFront)

/-- `continuations[dir]`: a dictionary from blocks to sets of blocks -/
abbrev Conts (σ : Type) := List (List σ × List (List σ))

/-- `ClosedGraphSim` (83-112) -/
structure CGS (σ S : Type) where
  todo : List (Cfg σ S)
  trans : List (Cfg σ S × Trans (List σ) S)
  contL : Conts σ
  contR : Conts σ
  iters : Nat
  configs : Nat
  edges : Nat
  steps : Nat
  infLoop : Bool

/-- limits -/
structure Lim where
  steps : Nat
  iters : Nat
  configs : Nat
  edges : Nat

def CGS.cont (g : CGS σ S) (d : Dir) : Conts σ :=
  match d with
  | .L => g.contL
  | .R => g.contR

def CGS.setCont (g : CGS σ S) (d : Dir) (c : Conts σ) : CGS σ S :=
  match d with
  | .L => { g with contL := c }
  | .R => { g with contR := c }

section
variable [DecidableEq σ] [DecidableEq S]

/-- `self.continuations[dir][src]` -/
def CGS.dsts (g : CGS σ S) (d : Dir) (src : List σ) : List (List σ) := (Py.dget (g.cont d) src).getD []

/-- `__init__` (84-112) -/
def CGS.init (M : Machine σ S) (k w : Nat) : CGS σ S :=
  let blank := List.replicate k M.initSym
  { todo := [Cfg.new k M.initSt .R (List.replicate w M.initSym)], trans := []
    contL := [(blank, [blank])], contR := [(blank, [blank])]
    iters := 0, configs := 0, edges := 0, steps := 0, infLoop := false }

/-- `add_edge` (224-230) -/
def CGS.addEdge (g : CGS σ S) (d : Dir) (src dst : List σ) : CGS σ S × Bool :=
  if dst ∉ g.dsts d src then
    let g := g.setCont d (Py.dset (g.cont d) src (g.dsts d src ++ [dst]))
    ({ g with edges := g.edges + 1 }, true)
  else (g, false)

/-- `add_config` (232-239) -/
def CGS.addConfig (g : CGS σ S) (c : Cfg σ S) : CGS σ S × Bool :=
  if (Py.dget g.trans c).isNone ∧ c ∉ g.todo then
    ({ g with todo := g.todo ++ [c], configs := g.configs + 1 }, true)
  else (g, false)

/-- the new configuration of `sim_config` (167-177) -/
def postConfig (t : Trans (List σ) S) : Cfg σ S :=
  { st := t.st, dir := t.dir, window := t.sym
    pos := match t.dir with
      | .L => -1
      | .R => t.sym.length }

/-- `sim_config` (157-184).  `max_loops` may become negative in Python, where it then has the same effect
as 0. -/
def CGS.simConfig (M : Machine σ S) (lim : Lim) (g : CGS σ S) (c : Cfg σ S) : CGS σ S × Cond :=
  let t := simLimited M c.st c.window c.pos c.dir (lim.steps - g.steps)
  ({ g with
      infLoop := g.infLoop || decide (t.cond = .infRepeat)
      trans := Py.dset g.trans c t
      steps := g.steps + t.steps }, t.cond)

/-- add edges from `src` to all of `dsts`; was anything added? (209-211) -/
def CGS.addEdges (g : CGS σ S) (d : Dir) (src : List σ) (dsts : List (List σ)) : CGS σ S × Bool :=
  dsts.foldl (fun (p : CGS σ S × Bool) dst =>
    let q := p.1.addEdge d src dst
    (q.1, p.2 || q.2)) (g, false)

/-- add the configurations for all of `fronts` (215-219) -/
def CGS.addFronts (k : Nat) (g : CGS σ S) (c : Cfg σ S) (fronts : List (List σ)) : CGS σ S × Bool :=
  fronts.foldl (fun (p : CGS σ S × Bool) f =>
    let q := p.1.addConfig (c.shiftFront k f)
    (q.1, p.2 || q.2)) (g, false)

/-- `update_set` (186-222) -/
def CGS.updateSet (k : Nat) (ordB : List (List σ) → List (List σ)) (g : CGS σ S) (old : Cfg σ S) :
    Option (CGS σ S × Bool) :=
  match Py.dget g.trans old with
  | none => none     -- KeyError
  | some t =>
    if t.cond = .running then
      let new := postConfig t
      let behind := t.dir.other
      let furthest := new.getBlock k behind 0
      let second := new.getBlock k behind 1
      let (g, m1) := g.addEdge behind second furthest
      let (g, m2) := g.addEdges behind furthest (ordB (g.dsts behind (old.getBlock k behind 0)))
      let (g, m3) := g.addFronts k new (ordB (g.dsts t.dir (old.getBlock k t.dir 0)))
      some (g, m1 || m2 || m3)
    else some (g, false)

/-- what a loop of `run` did -/
inductive Out (α : Type)
  | go (a : α)       -- carry on
  | fail (a : α)     -- `success = False; return`
  | raise            -- exception

/-- `for config in configs` (125-139) -/
def CGS.simAll (M : Machine σ S) (k : Nat) (lim : Lim) (ordB : List (List σ) → List (List σ)) :
    List (Cfg σ S) → CGS σ S → Out (CGS σ S)
  | [], g => .go g
  | c :: cs, g =>
    let (g, cond) := g.simConfig M lim c
    if cond = .raised then .raise
    else if cond = .running then
      match g.updateSet k ordB c with
      | none => .raise
      | some (g, _) => CGS.simAll M k lim ordB cs g
    else if cond ≠ .infRepeat then .fail g
    else CGS.simAll M k lim ordB cs g

/-- `while self.todo_configs` (119-139); the first argument bounds the number of rounds -/
def CGS.simTodo (M : Machine σ S) (k : Nat) (lim : Lim) (ordC : List (Cfg σ S) → List (Cfg σ S))
    (ordB : List (List σ) → List (List σ)) : Nat → CGS σ S → Out (CGS σ S)
  | 0, _ => .raise
  | fuel + 1, g =>
    if g.todo = [] then .go g
    else match CGS.simAll M k lim ordB (ordC g.todo) { g with todo := [] } with
      | .go g => CGS.simTodo M k lim ordC ordB fuel g
      | r => r

/-- "Re-examine self.transitions to see if any have grown." (141-146) -/
def CGS.recheck (k : Nat) (ordB : List (List σ) → List (List σ)) :
    List (Cfg σ S) → CGS σ S → Bool → Option (CGS σ S × Bool)
  | [], g, m => some (g, m)
  | c :: cs, g, m =>
    match g.updateSet k ordB c with
    | none => none
    | some (g, m') => CGS.recheck k ordB cs g (m || m')

/-- `run` (115-155): the final state and `result.success`.  Each simulation takes at least one step and
fails when the budget is used up, so that the inner loop is executed at most `max_steps + 2` times; the
outer one is executed at most `max(max_iters, 1)` times. -/
def CGS.runLoop (M : Machine σ S) (k : Nat) (lim : Lim) (ordC : List (Cfg σ S) → List (Cfg σ S))
    (ordB : List (List σ) → List (List σ)) : Nat → CGS σ S → Option (CGS σ S × Bool)
  | 0, _ => none
  | fuel + 1, g =>
    let g := { g with iters := g.iters + 1 }
    match CGS.simTodo M k lim ordC ordB (lim.steps + 2) g with
    | .raise => none
    | .fail g => some (g, false)
    | .go g =>
      match CGS.recheck k ordB (ordC (g.trans.map (·.1))) g false with
      | none => none
      | some (g, modified) =>
        if ¬ modified then some (g, true)
        else if g.iters ≥ lim.iters ∨ g.configs ≥ lim.configs ∨ g.edges ≥ lim.edges then some (g, false)
        else CGS.runLoop M k lim ordC ordB fuel g

def CGS.run (M : Machine σ S) (k w : Nat) (lim : Lim) (ordC : List (Cfg σ S) → List (Cfg σ S))
    (ordB : List (List σ) → List (List σ)) : Option (CGS σ S × Bool) :=
  CGS.runLoop M k lim ordC ordB (lim.iters + 1) (CGS.init M k w)

/-- the (block size, window size) pairs that `filter_all` of `Code/CPS_Filter.py` tries, in order (33-50).
`maxWindow = 0` stands for `--max-window-size` not given. -/
def filterSizes (minBlock maxBlock maxWindow : Nat) : List (Nat × Nat) :=
  if maxWindow = 0 then
    (List.range' minBlock (maxBlock + 1 - minBlock)).map fun k => (k, 3 * k)
  else
    (List.range' 2 (maxWindow + 1 - 2)).flatMap fun w => (List.range' 1 (w / 2)).map fun k => (k, w)

/-- `filter_all` of `Code/CPS_Filter.py` (22-52): `info.result.success` at the end (`none`: exception).
`filter` clears the result each time, so that the last run decides. -/
def filterAll (M : Machine σ S) (lim : Lim) (ordC : List (Cfg σ S) → List (Cfg σ S))
    (ordB : List (List σ) → List (List σ)) : List (Nat × Nat) → Option Bool
  | [] => some false
  | (k, w) :: rest =>
    match CGS.run M k w lim ordC ordB with
    | none => none
    | some (_, true) => some true
    | some (_, false) => filterAll M lim ordC ordB rest

end
end Model.CPS

import Verif.Model.Direct
import Verif.Model.Dict

/-!
# Model of `Code/Lin_Recur_Detect.py`
-/

namespace Model.LinRecur
open Spec (Dir Instr Table)

/-- `in_range` (17-18) -/
def inRange (t : DirectTape Nat) (pos : Int) : Bool :=
  decide (t.posLeftmost ≤ pos) && decide (pos ≤ t.posRightmost)

/-- the loop of `are_half_tapes_equal` (23-29); `none` = the bound on the number of iterations was
too small (it never is, see `halfTapesEqual_spec`) or Python raises -/
def halfGo (t1 t2 : DirectTape Nat) (dirOffset : Int) : Nat → Int → Int → Option Bool
  | fuel, pos1, pos2 =>
    if inRange t1 pos1 || inRange t2 pos2 then
      match fuel with
      | 0 => none
      | fuel + 1 =>
        match t1.readPos pos1, t2.readPos pos2 with
        | some a, some b =>
          if a ≠ b then some false else halfGo t1 t2 dirOffset fuel (pos1 + dirOffset) (pos2 + dirOffset)
        | _, _ => none
    else some true

/-- `are_half_tapes_equal` (20-29), with a bound on the number of iterations -/
def halfTapesEqual (t1 : DirectTape Nat) (start1 : Int) (t2 : DirectTape Nat) (start2 : Int)
    (dirOffset : Int) : Option Bool :=
  halfGo t1 t2 dirOffset
    (if dirOffset > 0 then
      (t1.posRightmost - start1 + 1).toNat + (t2.posRightmost - start2 + 1).toNat
     else (start1 - t1.posLeftmost + 1).toNat + (start2 - t2.posLeftmost + 1).toNat)
    start1 start2

/-- `are_sections_equal` (31-36): `k` positions left, starting at `pos` -/
def sectionsGo (t1 t2 : DirectTape Nat) (offset : Int) : Nat → Int → Option Bool
  | 0, _ => some true
  | k + 1, pos =>
    match t1.readPos pos, t2.readPos (pos + offset) with
    | some a, some b => if a ≠ b then some false else sectionsGo t1 t2 offset k (pos + 1)
    | _, _ => none

def sectionsEqual (t1 t2 : DirectTape Nat) (left right offset : Int) : Option Bool :=
  sectionsGo t1 t2 offset (right + 1 - left).toNat left

/-- The comparison made when the state is the initial one again
(72-88 in `lin_detect_not_min`, 125-139 in `check_recur`) -/
def compare (initTape tape : DirectTape Nat) (initPos mostLeft mostRight : Int) : Option Bool :=
  let offset := tape.position - initPos
  if offset > 0 then halfTapesEqual initTape mostLeft tape (mostLeft + offset) 1
  else if offset < 0 then halfTapesEqual initTape mostRight tape (mostRight + offset) (-1)
  else sectionsEqual initTape tape mostLeft mostRight offset

/-- local variables of the inner loop of `lin_detect_not_min` -/
structure Loop where
  sim : DirectSim
  /-- `states_last_seen`; the key `none` stands for `HALT_STATE` -/
  lastSeen : List (Option Nat × Nat)
  /-- `states_used` -/
  used : List (Option Nat)
  mostLeft : Int
  mostRight : Int
  deriving Repr, DecidableEq

inductive InnerOut
  | halted (s : DirectSim)
  | found (st : Loop) (offset : Int)
  | reset (st : Loop)
  | raise
  deriving Repr, DecidableEq

/-- inner loop of `lin_detect_not_min` (59-88); at most `steps_reset - step_num` iterations -/
def inner (M : Table) (initTape : DirectTape Nat) (initPos : Int) (initState : Option Nat)
    (stepsReset : Nat) : Nat → Loop → InnerOut
  | 0, st => .reset st
  | k + 1, st =>
    if st.sim.stepNum < stepsReset then
      let lastSeen := Py.dset st.lastSeen st.sim.state st.sim.stepNum
      let used := Py.sadd st.used st.sim.state
      match DirectSim.step M st.sim with
      | none => .raise
      | some sim =>
        if sim.halted then .halted sim
        else
          let st' : Loop :=
            { sim := sim, lastSeen := lastSeen, used := used
              mostLeft := min st.mostLeft sim.tape.position
              mostRight := max st.mostRight sim.tape.position }
          if sim.state = initState then
            match compare initTape sim.tape initPos st'.mostLeft st'.mostRight with
            | none => .raise
            | some true => .found st' (sim.tape.position - initPos)
            | some false => inner M initTape initPos initState stepsReset k st'
          else inner M initTape initPos initState stepsReset k st'
    else .reset st

/-- one round of the loop in `Halting_Lib.set_inf_recur` (Halting_Lib.py:183-187); the accumulator is
`q_state`, `q_last_seen`, with `none` for the initial values `None`, `-1` -/
def quasiStep (ignore : List (Option Nat)) (acc : Option (Option Nat × Nat)) (e : Option Nat × Nat) :
    Option (Option Nat × Nat) :=
  if e.1 ∈ ignore then acc
  else match acc with
    | none => some e
    | some r => if e.2 > r.2 then some e else some r

/-- the quasihalt part computed by `Halting_Lib.set_inf_recur` (Halting_Lib.py:181-200): the state
outside `states_to_ignore` seen last, and one more than the time it was last seen -/
def quasihalt (ignore : List (Option Nat)) (lastSeen : List (Option Nat × Nat)) :
    Option (Option Nat × Nat) :=
  (lastSeen.foldl (quasiStep ignore) none).map fun r => (r.1, r.2 + 1)

/-- What `lin_detect_not_min` writes into `result` and `bb_status` -/
inductive Outcome
  /-- `set_halting` with steps and (score, from_state, from_symbol) -/
  | halting (steps : Nat) (info : Option (Nat × Nat × Nat))
  /-- success with start step, period, offset, the states used in the period and the quasihalt data -/
  | recur (start period : Nat) (offset : Int) (used : List (Option Nat))
      (quasi : Option (Option Nat × Nat))
  | unknown
  | raise
  deriving Repr, DecidableEq

/-- outer loop of `lin_detect_not_min` (48-107).  `fuel` bounds the number of rounds of Brent's
algorithm (with `max_steps = 0` the loop need not end): `none` = not finished yet. -/
def outer (M : Table) (maxSteps : Nat) :
    Nat → DirectSim → List (Option Nat × Nat) → Option Nat → Option Outcome
  | 0, _, _, _ => none
  | fuel + 1, sim, lastSeen, reset =>
    if maxSteps = 0 ∨ sim.stepNum < maxSteps then
      match inner M sim.tape.copy sim.tape.position sim.state (2 * sim.stepNum)
          (2 * sim.stepNum - sim.stepNum)
          { sim := sim, lastSeen := lastSeen, used := [], mostLeft := sim.tape.position
            mostRight := sim.tape.position } with
      | .halted s => some (.halting s.stepNum s.haltInfo)
      | .found st offset =>
        some (.recur sim.stepNum (st.sim.stepNum - sim.stepNum) offset st.used
          (quasihalt st.used st.lastSeen))
      | .reset st => outer M maxSteps fuel st.sim st.lastSeen (some (2 * sim.stepNum))
      | .raise => some .raise
    else
      match reset with
      | none => some .raise            -- `steps_reset` is unbound (line 104)
      | some r => if sim.stepNum = r then some .unknown else some .raise

/-- `lin_detect_not_min` (38-107) on a fresh `result` -/
def detect (M : Table) (maxSteps fuel : Nat) : Option Outcome :=
  match DirectSim.step M DirectSim.new with
  | none => some .raise
  | some sim =>
    outer M maxSteps fuel sim [(DirectSim.new.state, DirectSim.new.stepNum)] none

/-- the loop of `check_recur` (120-123) -/
def periodLoop (M : Table) : Nat → DirectSim → Int → Int → Option (DirectSim × Int × Int)
  | 0, sim, l, r => some (sim, l, r)
  | k + 1, sim, l, r =>
    (DirectSim.step M sim).bind fun sim' =>
      periodLoop M k sim' (min l sim'.tape.position) (max r sim'.tape.position)

/-- `check_recur` (110-143) -/
def checkRecur (M : Table) (initStep period : Nat) : Option Bool :=
  (DirectSim.seek M initStep DirectSim.new).bind fun sim =>
    (periodLoop M period sim sim.tape.position sim.tape.position).bind fun (sim', l, r) =>
      if sim'.state = sim.state then compare sim.tape.copy sim'.tape sim.tape.position l r
      else some false

/-- the loop of `period_search` (153-160); `low` and `high` get closer in every round -/
def searchGo (M : Table) (period : Nat) : Nat → Int → Int → Option Int
  | 0, _, high => some high
  | k + 1, low, high =>
    if high - low > 1 then
      let mid := (high + low) / 2
      match checkRecur M mid.toNat period with
      | none => none
      | some true => searchGo M period k low mid
      | some false => searchGo M period k mid high
    else some high

/-- `period_search` (149-160) -/
def periodSearch (M : Table) (initStep period : Nat) : Option Int :=
  searchGo M period (initStep + 1) (-1) initStep

/-- `filter` (163-178): the second search replaces the start step -/
def filter (M : Table) (maxSteps : Nat) (findMin : Bool) (fuel : Nat) : Option Outcome :=
  match detect M maxSteps fuel with
  | some (.recur start period offset used quasi) =>
    if findMin then
      match periodSearch M start period with
      | some s => some (.recur s.toNat period offset used quasi)
      | none => some .raise
    else some (.recur start period offset used quasi)
  | o => o

end Model.LinRecur

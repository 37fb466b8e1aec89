import Verif.Model.Cpp

/-!
# Model of the linear recurrence detector of the C++ code (`cpp/src/lin_recur.cpp`)
-/

namespace Model.Cpp

/-- the loop of `are_half_tapes_equal` (lin_recur.cpp 18-24), at most the given number of rounds -/
def halfGo (t1 t2 : Tape) (d : Int) : Nat → Int → Int → Out Bool
  | fuel, p1, p2 =>
    if t1.inRange p1 || t2.inRange p2 then
      match fuel with
      | 0 => .more
      | fuel + 1 => if t1.readAt p1 ≠ t2.readAt p2 then .ok false else halfGo t1 t2 d fuel (p1 + d) (p2 + d)
    else .ok true

/-- `are_half_tapes_equal` (lin_recur.cpp 13-27): in each round one of the positions is inside of its vector -/
def halfEqual (t1 : Tape) (p1 : Int) (t2 : Tape) (p2 : Int) (d : Int) : Out Bool :=
  halfGo t1 t2 d (t1.cells.length + t2.cells.length) p1 p2

/-- the loop of `are_sections_equal` (lin_recur.cpp 32-36) with the given number of rounds -/
def sectionsGo (t1 t2 : Tape) : Nat → Int → Bool
  | 0, _ => true
  | k + 1, pos => if t1.readAt pos ≠ t2.readAt pos then false else sectionsGo t1 t2 k (pos + 1)

/-- `are_sections_equal` (lin_recur.cpp 29-38) -/
def sectionsEqual (t1 t2 : Tape) (left right : Int) : Bool := sectionsGo t1 t2 (right + 1 - left).toNat left

/-- `LinRecurResult` (lin_recur.h 10-20).  `maxRef` has no value if the loop is never entered. -/
structure LinRecur where
  isHalted : Bool
  isLinRecurrent : Bool
  start : Nat
  period : Nat
  offset : Int
  lastState : Option Int
  lastSymbol : Option Nat
  maxRef : Option Nat
  stepsRun : Nat
deriving DecidableEq, Repr

/-- `success` (lin_recur.cpp 68-89) -/
def lrCompare (initTape tape : Tape) (initPos left right : Int) : Out Bool :=
  let offset := tape.position - initPos
  if offset > 0 then halfEqual initTape left tape (left + offset) 1
  else if offset < 0 then halfEqual initTape right tape (right + offset) (-1)
  else .ok (sectionsEqual initTape tape left right)

/-- How the inner loop ends: a result, or at `steps_reset` -/
inductive LrInner where
  | result (r : LinRecur)
  | reset (s : Sim)
deriving DecidableEq, Repr

/-- the inner loop (lin_recur.cpp 57-97); `init` is the simulator at its beginning, `k` the number of rounds
(`steps_reset - step_num`: each round that does not return increases `step_num` by one) -/
def lrInner (tm : TM) (init : Sim) : Nat → Sim → Int → Int → Out LrInner
  | 0, s, _, _ => .ok (.reset s)
  | k + 1, s, left, right => do
    let s ← step tm s
    if s.isHalted then .ok (.result ⟨true, false, 0, 0, 0, s.lastState, s.lastSymbol, some init.stepNum, s.stepNum⟩)
    else do
      let left := min left s.tape.position
      let right := max right s.tape.position
      if s.state = init.state then do
        let offset := s.tape.position - init.tape.position
        let success ← lrCompare init.tape s.tape init.tape.position left right
        if success then
          .ok (.result ⟨false, true, init.stepNum, s.stepNum - init.stepNum, offset, some 0, some 0, some init.stepNum, s.stepNum⟩)
        else lrInner tm init k s left right
      else lrInner tm init k s left right

/-- the outer loop (lin_recur.cpp 48-101), at most the given number of rounds -/
def lrOuter (tm : TM) (maxSteps : Int) : Nat → Sim → Option Nat → Out LinRecur
  | fuel, s, ref =>
    if (s.stepNum : Int) < maxSteps then
      match fuel with
      | 0 => .more
      | fuel + 1 => do
        let r ← lrInner tm s (2 * s.stepNum - s.stepNum) s s.tape.position s.tape.position
        match r with
        | .result r => .ok r
        | .reset s' => lrOuter tm maxSteps fuel s' (some s.stepNum)
    else .ok ⟨false, false, 0, 0, 0, some 0, some 0, ref, s.stepNum⟩

/-- `LinRecurDetect` (lin_recur.cpp 42-102): the number of steps grows in each round of the outer loop -/
def lrDetect (tm : TM) (maxSteps : Int) : Out LinRecur := do
  let s ← step tm Sim.new
  lrOuter tm maxSteps maxSteps.toNat s none

end Model.Cpp

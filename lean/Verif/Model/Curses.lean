import Verif.Model.Visual

/-!
# Model of `Code/Curses_Sim.py`

The screen and the pad of the curses library are functions from lines and columns to cells.  What is assumed of the
library: a pad that is enlarged keeps its cells and gets background cells; `refresh` copies the part of the pad that
exists and leaves the rest of the screen as it was; `addstr` raises an exception when it writes the lower right cell
of the pad (documentation of the Python module `curses`).  Pads have no maximal size here.  Logging is not modelled.
-/

namespace Model.Curses
open Spec (Table)
open Spec.Visual (Cell)

/-- Exceptions: list index, curses.error, AssertionError, AttributeError -/
inductive Exn
  | index | curses | assertion | attribute
  deriving DecidableEq, Repr

/-- `LINES`, `COLS` of the screen and `--buffer-size` -/
structure Env where
  lines : Nat
  cols : Nat
  bs : Nat
  deriving DecidableEq, Repr

/-- `VisSim` (16-32), with the pad and the screen -/
structure Vis where
  sim : DirectSim
  pad : Nat → Nat → Cell
  height : Nat
  width : Nat
  offset : Int
  curLine : Int
  curPos : Int
  screen : Nat → Nat → Cell

/-- A cell of the background (31-35, 62-63): a space in colour pair 1 -/
def background : Cell := ⟨' ', 1⟩

/-- `self.pad.resize` -/
def Vis.resize (v : Vis) (h w : Nat) : Vis :=
  { v with pad := fun r c => if r < v.height ∧ c < v.width then v.pad r c else background
           height := h
           width := w }

/-- `reset_sim` (30-35) -/
def Vis.reset (v : Vis) : Vis := { v with sim := DirectSim.new, pad := fun _ _ => background }

/-- `self.pad.addstr(line, col, text, attr)` for a text of one character -/
def Vis.addstr (v : Vis) (line : Nat) (col : Int) (x : Cell) : Except Exn Vis :=
  if col < 0 ∨ (v.width : Int) ≤ col ∨ v.height ≤ line then .error .curses
  else if line + 1 = v.height ∧ col + 1 = v.width then .error .curses
  else .ok { v with pad := fun r c => if r = line ∧ (c : Int) = col then x else v.pad r c }

/-- `STATES[state]` (14), the state is -1 after halting -/
def stateChar : Option Nat → Option Char
  | none => Py.get Py.uppercase (-1)
  | some q => Py.uppercase[q]?

/-- The loop of `write_tape` (117-128) -/
def writeCols (tape : DirectTape Nat) (state : Option Nat) (line : Nat) : List Int → Vis → Except Exn Vis
  | [], v => .ok v
  | col :: cols, v =>
    let pos := col - v.offset
    match tape.readPos pos with
    | none => .error .index
    | some a =>
      match (if pos = tape.position then stateChar state else some ' ') with
      | none => .error .index
      | some ch =>
        match v.addstr line col ⟨ch, a + 1⟩ with
        | .ok v' => writeCols tape state line cols v'
        | .error e => .error e

/-- `write_tape` (109-128) -/
def Vis.writeTape (v : Vis) (line : Nat) (tape : DirectTape Nat) (state : Option Nat) : Except Exn Vis :=
  let posMin := tape.position - tape.index
  let posMax := posMin + tape.tape.length
  let colMin := max (posMin + v.offset) 0
  let colMax := min (posMax + v.offset) (v.width - 1)
  writeCols tape state line (Visual.range colMin (colMax + 1)) v

/-- The loop of `expand_pad` (104-107); the first argument bounds the number of rounds (the distance of `step_num` to
`pad_height` is the loop variant). -/
def expandLoop (M : Table) : Nat → Vis → Except Exn Vis
  | 0, v => .ok v
  | n + 1, v =>
    if !v.sim.halted && decide (v.sim.stepNum < v.height) then
      match v.writeTape v.sim.stepNum v.sim.tape v.sim.state with
      | .error e => .error e
      | .ok v' =>
        match v'.sim.step M with
        | none => .error .index
        | some s => expandLoop M n { v' with sim := s }
    else .ok v

/-- `expand_pad` (89-107) -/
def Vis.expandPad (M : Table) (v : Vis) (h w : Nat) : Except Exn Vis :=
  let v1 := v.resize h w
  let v2 := if v.width ≠ w then { v1.reset with offset := ((w / 2 : Nat) : Int) } else v1
  expandLoop M (h - v2.sim.stepNum) v2

/-- `draw` (75-87) -/
def Vis.draw (e : Env) (v : Vis) : Except Exn Vis :=
  let leftCol := v.curPos - ((e.cols / 2 : Nat) : Int) + v.offset
  if 0 ≤ v.curLine ∧ v.curLine ≤ v.height ∧ 0 ≤ leftCol ∧ leftCol ≤ v.width then
    .ok { v with screen := fun r c =>
            if r < e.lines ∧ c < e.cols ∧ v.curLine + r < v.height ∧ leftCol + c < v.width then
              v.pad (v.curLine + r).toNat (leftCol + c).toNat
            else v.screen r c }
  else .error .assertion

/-- The pad after `newpad(1, 1)` (60-63); `cur_line` and `cur_pos` are set before they are used (71-72), `sim` and
`pos_offset` by `expand_pad`. -/
def Vis.empty (screen : Nat → Nat → Cell) : Vis :=
  { sim := DirectSim.new, pad := fun _ _ => background, height := 1, width := 1, offset := 0,
    curLine := 0, curPos := 0, screen := screen }

/-- `init_pad` (45-73).  With a buffer size of 0 or 1 the width of the pad does not change and `self.sim` is never set. -/
def initPad (M : Table) (e : Env) (screen : Nat → Nat → Cell) : Except Exn Vis :=
  if e.bs ≤ 1 then .error .attribute
  else
    match (Vis.empty screen).expandPad M e.bs e.bs with
    | .error x => .error x
    | .ok v' => v'.draw e

/-- The loop of `move_vert` (135-136), at most `fuel` rounds; `none` = not finished -/
def vertLoop (M : Table) (e : Env) : Nat → Vis → Option (Except Exn Vis)
  | fuel, v =>
    if v.curLine + e.lines > v.sim.stepNum then
      match fuel with
      | 0 => none
      | f + 1 =>
        match v.expandPad M (v.height + e.bs) v.width with
        | .error x => some (.error x)
        | .ok v' => vertLoop M e f v'
    else some (.ok v)

/-- `move_vert` (130-137) -/
def moveVert (M : Table) (e : Env) (fuel : Nat) (v : Vis) (d : Int) : Option (Except Exn Vis) :=
  let line := if v.curLine + d < 0 then 0 else v.curLine + d
  (vertLoop M e fuel { v with curLine := line }).map fun r => r.bind (·.draw e)

/-- The loop of `move_hor` (141-143) -/
def horLoop (M : Table) (e : Env) : Nat → Vis → Option (Except Exn Vis)
  | fuel, v =>
    if v.curPos + v.offset - e.cols < 0 ∨ v.curPos + v.offset + v.curPos > v.width then
      match fuel with
      | 0 => none
      | f + 1 =>
        match v.expandPad M v.height (v.width + e.bs) with
        | .error x => some (.error x)
        | .ok v' => horLoop M e f v'
    else some (.ok v)

/-- `move_hor` (139-144) -/
def moveHor (M : Table) (e : Env) (fuel : Nat) (v : Vis) (d : Int) : Option (Except Exn Vis) :=
  (horLoop M e fuel { v with curPos := v.curPos + d }).map fun r => r.bind (·.draw e)

/-- The keys (148-181); `quit` ends the loop -/
inductive Key
  | down | up | pageDown | pageUp | top | right | left | center | other
  deriving DecidableEq, Repr

/-- One round of `input_loop` (149-181) -/
def press (M : Table) (e : Env) (fuel : Nat) (v : Vis) : Key → Option (Except Exn Vis)
  | .down => moveVert M e fuel v 1
  | .up => moveVert M e fuel v (-1)
  | .pageDown => moveVert M e fuel v e.lines
  | .pageUp => moveVert M e fuel v (-(e.lines : Int))
  | .top => moveVert M e fuel v (-v.curLine)
  | .right => moveHor M e fuel v 1
  | .left => moveHor M e fuel v (-1)
  | .center => moveHor M e fuel v (-v.curPos)
  | .other => some (.ok v)

/-- The keys pressed before `q` -/
def inputLoop (M : Table) (e : Env) (fuel : Nat) : List Key → Vis → Option (Except Exn Vis)
  | [], v => some (.ok v)
  | k :: ks, v =>
    match press M e fuel v k with
    | some (.ok v') => inputLoop M e fuel ks v'
    | r => r

/-- `sim` (183-188) -/
def sim (M : Table) (e : Env) (fuel : Nat) (screen : Nat → Nat → Cell) (keys : List Key) : Option (Except Exn Vis) :=
  match initPad M e screen with
  | .error x => some (.error x)
  | .ok v => inputLoop M e fuel keys v

end Model.Curses

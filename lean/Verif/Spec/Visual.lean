import Verif.Spec.TM

/-!
# Specification: start configurations as text, and what a terminal shows

Nothing here refers to the simulators.
-/

namespace Spec.Visual

/-! ## The language of start configurations, for example `1 23^8 21 <B 0^6 12^7 1` -/

/-- `12^7`: a word of digits and how often it is repeated (once if there is no number) -/
structure Run where
  base : List Nat
  exp : Option Nat
  deriving DecidableEq, Repr

/-- The symbols it stands for -/
def Run.syms (r : Run) : List Nat := (List.replicate (r.exp.getD 1) r.base).flatten

/-- It can be written down: the word is not empty and of digits. -/
def Run.Ok (r : Run) : Prop := r.base ≠ [] ∧ ∀ a ∈ r.base, a < 10

/-- Its text -/
def Run.text (r : Run) : List Char :=
  r.base.map (fun a => Char.ofNat (48 + a)) ++
    match r.exp with
    | none => []
    | some n => '^' :: Nat.toDigits 10 n

/-- A configuration: what is left of the head, the state and where the head looks, what is right of it. -/
structure Start where
  left : List Run
  dir : Dir
  state : Nat
  right : List Run
  deriving DecidableEq, Repr

/-- The letter of a state: `A` to `Z`, then `a` to `z` -/
def letter (q : Nat) : Char := if q < 26 then Char.ofNat (65 + q) else Char.ofNat (97 + (q - 26))

def Start.Ok (s : Start) : Prop := (∀ r ∈ s.left, r.Ok) ∧ (∀ r ∈ s.right, r.Ok) ∧ s.state < 52

/-- The words of the text: `<B` looks at the symbol to its left, `B>` at the one to its right. -/
def Start.words (s : Start) : List (List Char) :=
  s.left.map Run.text ++
    (match s.dir with
     | .L => ['<', letter s.state]
     | .R => [letter s.state, '>']) :: s.right.map Run.text

/-- The words with a space between two of them -/
def spaced : List (List Char) → List Char
  | [] => []
  | [w] => w
  | w :: ws => w ++ ' ' :: spaced ws

def Start.text (s : Start) : List Char := spaced s.words

/-- The tape that has the first list left of position 0 and the second one from position 0 on -/
def twoSided (l r : List Nat) (p : Int) : Nat :=
  if 0 ≤ p then r.getD p.toNat 0 else l.reverse.getD (-p - 1).toNat 0

/-- The configuration it means: the head is at position 0 of the tape. -/
def Start.config (s : Start) : Config :=
  let l := (s.left.map Run.syms).flatten
  let r := (s.right.map Run.syms).flatten
  { state := some s.state
    pos := 0
    tape := fun p => twoSided l r (match s.dir with | .L => p - 1 | .R => p) }

/-- The first and the last cell that the text describes (the cell of the head is always one of them). -/
def Start.lo (s : Start) : Int :=
  let n := ((s.left.map Run.syms).flatten).length
  match s.dir with
  | .L => -((n - 1 : Nat) : Int)
  | .R => -(n : Int)

def Start.hi (s : Start) : Int :=
  let n := ((s.right.map Run.syms).flatten).length
  match s.dir with
  | .L => n
  | .R => ((n - 1 : Nat) : Int)

/-! ## A terminal -/

/-- A place of the screen: a character and the colour behind it (by its code, 49 is the default) -/
structure Cell where
  ch : Char
  bg : Nat
  deriving DecidableEq, Repr

/-- Reading of a control sequence `ESC [ n ; n ; n m` -/
inductive Mode
  | plain
  | esc
  | csi (done : List Nat) (cur : Nat)
  deriving DecidableEq, Repr

/-- Set an attribute: 0 resets, 40 to 49 choose the background; others do not concern the background. -/
def setAttr (bg code : Nat) : Nat := if code = 0 then 49 else if 40 ≤ code ∧ code ≤ 49 then code else bg

/-- One character arrives. -/
def receive (m : Mode) (bg : Nat) (c : Char) : Mode × Nat × List Cell :=
  match m with
  | .plain => if c = Char.ofNat 27 then (.esc, bg, []) else (.plain, bg, [⟨c, bg⟩])
  | .esc => if c = '[' then (.csi [] 0, bg, []) else (.plain, bg, [])
  | .csi done cur =>
    if '0' ≤ c ∧ c ≤ '9' then (.csi done (10 * cur + (c.toNat - 48)), bg, [])
    else if c = ';' then (.csi (done ++ [cur]) 0, bg, [])
    else if c = 'm' then (.plain, (done ++ [cur]).foldl setAttr bg, [])
    else (.plain, bg, [])

/-- What is shown for a text that arrives -/
def shown : Mode → Nat → List Char → List Cell
  | _, _, [] => []
  | m, bg, c :: cs => (receive m bg c).2.2 ++ shown (receive m bg c).1 (receive m bg c).2.1 cs

/-- Text in the default colour -/
def plainText (s : List Char) : List Cell := s.map fun c => ⟨c, 49⟩

/-! ## The picture of a configuration -/

/-- The colours of the symbols: default, red, green, blue, cyan, yellow, magenta -/
def colour (a : Nat) : Nat := ([49, 41, 42, 44, 46, 43, 45] : List Nat).getD a 49

/-- A position in the picture: the colour is that of the symbol, and the head is shown by the letter of the state
(`!` after halting). -/
def look (c : Config) (p : Int) : Cell :=
  ⟨if p = c.pos then (match c.state with | some q => letter q | none => '!') else ' ', colour (c.tape p)⟩

/-- The integers `lo, …, hi` -/
def interval (lo hi : Int) : List Int := (List.range (hi - lo + 1).toNat).map fun (i : Nat) => lo + i

/-- A number right-aligned in `w` places -/
def aligned (w n : Nat) : List Char :=
  List.replicate (w - (Nat.toDigits 10 n).length) ' ' ++ Nat.toDigits 10 n

/-- The line for a configuration at time `n`: the time, the positions `lo` to `hi`, the name of the state and the symbol
below the head in its colour -/
def line (n : Nat) (lo hi : Int) (name : List Char) (c : Config) : List Cell :=
  plainText (aligned 10 n ++ [':', ' ']) ++ (interval lo hi).map (look c) ++ plainText (name ++ [' ']) ++
    (aligned 2 (c.tape c.pos)).map (fun ch => ⟨ch, colour (c.tape c.pos)⟩) ++ plainText ['\n']

/-! ## The lines of a run -/

/-- The options: `--print` has an `a`, an `l`, an `r`; `--relative`; `--print-width`; and the names of the
states of the machine as `f"{...:4}"` writes them (they depend on the reader of the machine). -/
structure Opts where
  a : Bool
  l : Bool
  r : Bool
  relative : Bool
  width : Int
  names : List (List Char)

/-- What must hold for a configuration to be drawn -/
structure Fits (names : List (List Char)) (c : Config) : Prop where
  syms : ∀ p, c.tape p < 7
  state : ∀ q, c.state = some q → q < 52 ∧ q < names.length

/-- the name of the state shown -/
def nameOf (names : List (List Char)) : Option Nat → List Char
  | none => ['H', 'A', 'L', 'T']
  | some q => names.getD q []

/-- the positions of a line -/
def bounds (o : Opts) (c : Config) : Int × Int :=
  let half := o.width / 2 - 10
  if o.relative then (c.pos - half, c.pos + half) else (-half, half)

/-- at time `k` the head is on the leftmost cell so far (the cells from `lo` on count from the start) -/
def Leftmost (M : Table) (c0 : Config) (lo : Int) (k : Nat) : Prop :=
  (run M k c0).pos ≤ lo ∧ ∀ j ≤ k, (run M k c0).pos ≤ (run M j c0).pos

/-- the same at the right -/
def Rightmost (M : Table) (c0 : Config) (hi : Int) (k : Nat) : Prop :=
  hi ≤ (run M k c0).pos ∧ ∀ j ≤ k, (run M j c0).pos ≤ (run M k c0).pos

/-- a line is asked for -/
def Wanted (o : Opts) (M : Table) (c0 : Config) (lo hi : Int) (k : Nat) : Prop :=
  o.a = true ∨ (o.l = true ∧ Leftmost M c0 lo k) ∨ (o.r = true ∧ Rightmost M c0 hi k)

open Classical in
/-- what is shown for time `k` -/
noncomputable def shownAt (o : Opts) (M : Table) (c0 : Config) (lo hi : Int) (k : Nat) : List Cell :=
  if Wanted o M c0 lo hi k then
    line k (bounds o (run M k c0)).1 (bounds o (run M k c0)).2 (nameOf o.names (run M k c0).state) (run M k c0)
  else []

/-- the message at the end -/
def message (n : Nat) : List Char := "TM Halted on step ".toList ++ Nat.toDigits 10 n ++ ['\n']

end Spec.Visual

namespace Spec.Visual

/-- A position in the picture of the curses simulator: symbol `a` has colour pair `a + 1`. -/
def pairLook (c : Config) (p : Int) : Cell :=
  ⟨if p = c.pos then (match c.state with | some q => letter q | none => '!') else ' ', c.tape p + 1⟩

end Spec.Visual

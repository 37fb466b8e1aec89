import Verif.Model.Simulator

/-!
# Model of the closed tape language filters `CTL1.py` … `CTL4.py`

The four files share their structure: simulate for a while, describe the tape by sets of symbols, and
close a table from (state, direction) to such sets under all transitions.  A `CTL_Table` is a dictionary
whose `__getitem__` creates empty entries; here every entry has three sets per side, of which CTL1 uses
the first and CTL2/CTL3 the first two.

Sets are lists without order significance; the order in which Python iterates over a set does not matter
for anything modelled here.  Python lists of a half tape have the nearest block last, here it is first.
`CTL` of CTL1 and CTL2 has a time limit `end_time`, which `test_CTL` does not use; CTL3 and CTL4 have none.
The number of rounds is bounded by `fuel`: running out of it returns `false`, as running out of time does.
That the loops end without any limit, so that `fuel` does not matter once it is large, is C85.
-/

namespace Model.CTL
open Spec (Dir)

/-- which of the sets of one side -/
inductive Slot
  | A | B | C
  deriving DecidableEq, Repr

/-- the sets of one side -/
structure Side (σ : Type) where
  a : List σ
  b : List σ
  c : List σ
  deriving DecidableEq, Repr

/-- a table entry -/
structure Sets (σ : Type) where
  l : Side σ
  r : Side σ
  deriving DecidableEq, Repr

def Side.get {σ : Type} (s : Side σ) : Slot → List σ
  | .A => s.a
  | .B => s.b
  | .C => s.c

def Sets.side {σ : Type} (s : Sets σ) : Dir → Side σ
  | .L => s.l
  | .R => s.r

/-- `entry[d][slot]` -/
def Sets.get {σ : Type} (s : Sets σ) (d : Dir) (k : Slot) : List σ := (s.side d).get k

/-- `(set(), set(), ...)` -/
def Sets.empty {σ : Type} : Sets σ := ⟨⟨[], [], []⟩, ⟨[], [], []⟩⟩

variable {σ S : Type} [DecidableEq σ] [DecidableEq S]

/-- `set.update` -/
def union (s xs : List σ) : List σ := xs.foldl Py.sadd s

def Side.add (s : Side σ) (k : Slot) (xs : List σ) : Side σ :=
  match k with
  | .A => { s with a := union s.a xs }
  | .B => { s with b := union s.b xs }
  | .C => { s with c := union s.c xs }

def Sets.add (s : Sets σ) (d : Dir) (k : Slot) (xs : List σ) : Sets σ :=
  match d with
  | .L => { s with l := s.l.add k xs }
  | .R => { s with r := s.r.add k xs }

/-- `CTL_Table` -/
abbrev Tab (σ S : Type) := List ((S × Dir) × Sets σ)

/-- `table[key][d][slot].update(xs)`, creating the entry if needed -/
def upd (t : Tab σ S) (key : S × Dir) (d : Dir) (k : Slot) (xs : List σ) : Tab σ S :=
  Py.dset t key (((Py.dget t key).getD Sets.empty).add d k xs)

/-- set equality -/
def setEq (s t : List σ) : Bool := s.all (· ∈ t) && t.all (· ∈ s)

def Side.eqv (s t : Side σ) : Bool := setEq s.a t.a && setEq s.b t.b && setEq s.c t.c

/-- dictionary equality -/
def tabEq (t u : Tab σ S) : Bool :=
  t.all (fun e => match Py.dget u e.1 with
    | none => false
    | some v => e.2.l.eqv v.l && e.2.r.eqv v.r) &&
  u.all (fun e => (Py.dget t e.1).isSome)

/-- update all given slots of both sides -/
def updAll (t : Tab σ S) (key : S × Dir) (old : Sets σ) (ds : List Dir) (ks : List Slot) : Tab σ S :=
  ds.foldl (fun t d => ks.foldl (fun t k => upd t key d k (old.get d k)) t) t

/-- "Make new_table complete by unioning it with table" -/
def complete (new table : Tab σ S) (ks : List Slot) : Tab σ S :=
  table.foldl (fun t e => updAll t e.1 e.2 [.L, .R] ks) new

/-- the main loop `while table != new_table` with one round given by `round` (`none` = `return False`) -/
def loop (round : Tab σ S → Option (Tab σ S)) (ks : List Slot) : Nat → Tab σ S → Bool
  | 0, _ => false
  | fuel + 1, table =>
    match round table with
    | none => false
    | some new =>
      let new := complete new table ks
      if tabEq table new then true else loop round ks fuel new

/-- look a transition up; `none` unless it is RUNNING -/
def runTrans (M : Machine σ S) (symb : σ) (key : S × Dir) : Option (Trans σ S) :=
  let t := M.trans symb key.1 key.2
  if t.cond ≠ .running then none else some t

/-! ## CTL1 -/

/-- a symbol of A in `CTL` (CTL1.py 51-67) -/
def ctl1A (M : Machine σ S) (key : S × Dir) (old : Sets σ) (new : Tab σ S) (symb : σ) :
    Option (Tab σ S) := do
  let t ← runTrans M symb key
  let new := updAll new (t.st, t.dir) old [.L, .R] [.A]
  pure (upd new (t.st, t.dir) t.dir.other .A [t.sym])

/-- the blank symbol (CTL1.py 68-76) -/
def ctl1Blank (M : Machine σ S) (key : S × Dir) (old : Sets σ) (new : Tab σ S) : Option (Tab σ S) := do
  let t ← runTrans M M.initSym key
  let new := upd new (t.st, t.dir) key.2.other .A (old.get key.2.other .A)
  pure (upd new (t.st, t.dir) t.dir.other .A [t.sym])

/-- one round of `CTL` (CTL1.py 47-76) -/
def ctl1Round (M : Machine σ S) (table : Tab σ S) : Option (Tab σ S) :=
  table.foldlM (fun new e => do
    let new ← (e.2.get e.1.2 .A).foldlM (ctl1A M e.1 e.2) new
    ctl1Blank M e.1 e.2 new) []

/-- symbols of a half tape, nearest first (CTL1.py 105-106; `block.num != "Inf"` is always true, so the
blank is included) -/
def ctl1Tape (h : List (Blk σ Nat)) : List σ := h.map (·.sym)

/-- `CTL` (CTL1.py 26-79) -/
def ctl1 (M : Machine σ S) (s : SimSt σ S Nat) (fuel : Nat) : Bool :=
  let key := (s.st, s.dir)
  let t := upd [] key .L .A (ctl1Tape (s.tape.half .L))
  let t := upd t key .R .A (ctl1Tape (s.tape.half .R))
  loop (ctl1Round M) [.A] fuel t

/-- `test_CTL` after the machine is built: simulate, then run a CTL -/
def testCTL (ctl : SimSt σ S Nat → Nat → Bool) (M : Machine σ S) (cutoff fuel : Nat) : Bool :=
  let s := SimSt.seek M cutoff (SimSt.init natOps M)
  if s.op ≠ .running then false else ctl s fuel

/-- `test_CTL` (CTL1.py 87-108) -/
def test1 (M : Machine σ S) (cutoff fuel : Nat) : Bool := testCTL (ctl1 M) M cutoff fuel

/-! ## CTL2 -/

/-- a symbol of A (CTL2.py 54-67) -/
def ctl2A (M : Machine σ S) (key : S × Dir) (old : Sets σ) (new : Tab σ S) (symb : σ) :
    Option (Tab σ S) := do
  let t ← runTrans M symb key
  let new := updAll new (t.st, t.dir) old [.L, .R] [.A, .B]
  pure (upd new (t.st, t.dir) t.dir.other .A [t.sym])

/-- a symbol of B (CTL2.py 69-84) -/
def ctl2B (M : Machine σ S) (key : S × Dir) (old : Sets σ) (new : Tab σ S) (symb : σ) :
    Option (Tab σ S) := do
  let t ← runTrans M symb key
  let new := updAll new (t.st, t.dir) old [key.2.other] [.A, .B]
  if t.dir = key.2 then
    let new := upd new (t.st, t.dir) t.dir.other .A [t.sym]
    pure (upd new (t.st, t.dir) t.dir .B [M.initSym])
  else
    pure (upd new (t.st, t.dir) t.dir.other .B [t.sym])

/-- one round (CTL2.py 50-84) -/
def ctl2Round (M : Machine σ S) (table : Tab σ S) : Option (Tab σ S) :=
  table.foldlM (fun new e => do
    let new ← (e.2.get e.1.2 .A).foldlM (ctl2A M e.1 e.2) new
    (e.2.get e.1.2 .B).foldlM (ctl2B M e.1 e.2) new) []

/-- `tape[d]` (CTL2.py 117-122): the symbols of the finite runs, nearest first, and the symbol of the
outermost run once more if it is longer than 1.  The last entry of the half tape is the infinite run. -/
def ctl2Tape (h : List (Blk σ Nat)) : List σ :=
  let blocks := h.dropLast
  let extra := match blocks.getLast? with
    | some b => (match b.num with
      | none => [b.sym]
      | some n => if n > 1 then [b.sym] else [])
    | none => []
  blocks.map (·.sym) ++ extra

/-- the initial sets of one side (CTL2.py 31-38) -/
def ctl2Init (M : Machine σ S) (key : S × Dir) (d : Dir) (tape : List σ) (t : Tab σ S) : Tab σ S :=
  let t := upd t key d .A tape.dropLast
  match tape.getLast? with
  | none => upd t key d .B [M.initSym]
  | some x => upd t key d .B [x]

/-- `CTL` (CTL2.py 26-90) -/
def ctl2 (M : Machine σ S) (s : SimSt σ S Nat) (fuel : Nat) : Bool :=
  let key := (s.st, s.dir)
  let t := ctl2Init M key .L (ctl2Tape (s.tape.half .L)) []
  let t := ctl2Init M key .R (ctl2Tape (s.tape.half .R)) t
  loop (ctl2Round M) [.A, .B] fuel t

/-- `test_CTL` (CTL2.py 98-124) -/
def test2 (M : Machine σ S) (cutoff fuel : Nat) : Bool := testCTL (ctl2 M) M cutoff fuel

/-! ## CTL3 -/

/-- is the run longer than `n` (an infinite one is) -/
def longer (b : Blk σ Nat) (n : Nat) : Bool :=
  match b.num with
  | none => true
  | some m => decide (m > n)

/-- a symbol of A (CTL3.py 40-61) -/
def ctl3A (M : Machine σ S) (key : S × Dir) (old : Sets σ) (new : Tab σ S) (symb : σ) :
    Option (Tab σ S) := do
  let t ← runTrans M symb key
  let k := (t.st, t.dir)
  if t.dir ≠ key.2 then
    let new := upd new k t.dir .A (old.get t.dir .A)
    let new := upd new k t.dir .B (old.get t.dir .B)
    let new := upd new k t.dir.other .A [t.sym]
    pure (upd new k t.dir.other .B (old.get t.dir.other .B))
  else
    let new := upd new k t.dir .A (old.get t.dir .B)
    let new := upd new k t.dir .A [M.initSym]
    let new := upd new k t.dir .B (old.get t.dir .B)
    let new := upd new k t.dir.other .A [t.sym]
    let new := upd new k t.dir.other .B (old.get t.dir.other .A)
    pure (upd new k t.dir.other .B (old.get t.dir.other .B))

/-- one round (CTL3.py 38-61) -/
def ctl3Round (M : Machine σ S) (table : Tab σ S) : Option (Tab σ S) :=
  table.foldlM (fun new e => (e.2.get e.1.2 .A).foldlM (ctl3A M e.1 e.2) new) []

/-- the initial sets of one side (CTL3.py 90-100).  The test `sim.tape.tape[d][-1] != "Inf"` compares an
object with a string and is always true. -/
def ctl3Side (h : List (Blk σ Nat)) : Option (Side σ) :=
  match h with
  | [] => none      -- IndexError
  | top :: rest =>
    let b := rest.dropLast.map (·.sym)
    some ⟨[top.sym], if longer top 1 then Py.sadd b top.sym else b, []⟩

/-- `CTL` (CTL3.py 20-65) and the end of `test_CTL` -/
def ctl3 (M : Machine σ S) (s : SimSt σ S Nat) (fuel : Nat) : Bool :=
  match ctl3Side (s.tape.half .L), ctl3Side (s.tape.half .R) with
  | some l, some r => loop (ctl3Round M) [.A, .B] fuel [((s.st, s.dir), ⟨l, r⟩)]
  | _, _ => false

/-- `test_CTL` (CTL3.py 73-102) -/
def test3 (M : Machine σ S) (cutoff fuel : Nat) : Bool := testCTL (ctl3 M) M cutoff fuel

/-! ## CTL4 -/

/-- a symbol of A (CTL4.py 40-53) -/
def ctl4A (M : Machine σ S) (key : S × Dir) (old : Sets σ) (new : Tab σ S) (symb : σ) :
    Option (Tab σ S) := do
  let t ← runTrans M symb key
  let new := updAll new (t.st, t.dir) old [.L, .R] [.A, .B, .C]
  pure (upd new (t.st, t.dir) t.dir.other .A [t.sym])

/-- a symbol of B (CTL4.py 54-72) -/
def ctl4B (M : Machine σ S) (key : S × Dir) (old : Sets σ) (new : Tab σ S) (symb : σ) :
    Option (Tab σ S) := do
  let t ← runTrans M symb key
  let k := (t.st, t.dir)
  let new := updAll new k old [key.2.other] [.A, .B, .C]
  if t.dir = key.2 then
    let new := upd new k t.dir.other .A [t.sym]
    let new := upd new k t.dir .B (old.get t.dir .C)
    pure (upd new k t.dir .C [M.initSym])
  else
    let new := upd new k t.dir.other .B [t.sym]
    pure (upd new k t.dir.other .C (old.get t.dir.other .C))

/-- one round (CTL4.py 36-72) -/
def ctl4Round (M : Machine σ S) (table : Tab σ S) : Option (Tab σ S) :=
  table.foldlM (fun new e => do
    let new ← (e.2.get e.1.2 .A).foldlM (ctl4A M e.1 e.2) new
    (e.2.get e.1.2 .B).foldlM (ctl4B M e.1 e.2) new) []

/-- `if len(sim.tape.tape[d]) >= 3: A.add(sim.tape.tape[d][2].symbol)` (CTL4.py 115-116) -/
def addFirst (a : List σ) : List (Blk σ Nat) → List σ
  | [] => a
  | b2 :: _ => Py.sadd a b2.sym

/-- the initial sets of one side (CTL4.py 102-134) on the Python list of the half tape, i.e. with the
infinite run first -/
def ctl4Side (p : List (Blk σ Nat)) : Option (Side σ) :=
  let a := (p.drop 2).map (·.sym)
  match p with
  | [] => none     -- IndexError
  | [b0] => some ⟨a, [b0.sym], [b0.sym]⟩
  | b0 :: b1 :: rest =>
    if rest ≠ [] ∨ longer b1 1 then
      if longer b1 1 then
        let a := addFirst a rest
        match Py.get p (-2) with
        | none => none
        | some bm2 => some ⟨if longer bm2 2 then Py.sadd a b1.sym else a, [b1.sym], [b1.sym]⟩
      else
        match rest with
        | [] => none
        | b2 :: _ =>
          match Py.get p (-3) with
          | none => none
          | some bm3 => some ⟨if longer bm3 1 then Py.sadd a b2.sym else a, [b2.sym], [b1.sym]⟩
    else some ⟨a, [b1.sym], [b0.sym]⟩

/-- `CTL` (CTL4.py 20-76) and the end of `test_CTL` -/
def ctl4 (M : Machine σ S) (s : SimSt σ S Nat) (fuel : Nat) : Bool :=
  match ctl4Side (s.tape.half .L).reverse, ctl4Side (s.tape.half .R).reverse with
  | some l, some r => loop (ctl4Round M) [.A, .B, .C] fuel [((s.st, s.dir), ⟨l, r⟩)]
  | _, _ => false

/-- `test_CTL` (CTL4.py 84-136) -/
def test4 (M : Machine σ S) (cutoff fuel : Nat) : Bool := testCTL (ctl4 M) M cutoff fuel

end Model.CTL

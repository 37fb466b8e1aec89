import Verif.Spec.TM

/-!
# Specification: what it means for a macro machine to follow the base machine

A *directed configuration* is a position between two cells of a (macro) tape: a state, the side that
will be read next, and the two half tapes as streams, nearest symbol first.
-/

namespace Spec

/-- Put a symbol in front of a stream. -/
def cons {σ : Type} (a : σ) (s : Nat → σ) : Nat → σ
  | 0 => a
  | i + 1 => s i

/-- Put a list in front of a stream. -/
def pre {σ : Type} (l : List σ) (s : Nat → σ) : Nat → σ := l.foldr cons s

structure DC (σ S : Type) where
  st : S
  dir : Dir
  side : Dir → Nat → σ

/-- The symbol read next. -/
def DC.front {σ S : Type} (c : DC σ S) : σ := c.side c.dir 0

/-- Read the front symbol, leave `sym` behind the head, which now faces `dir`. -/
def DC.move {σ S : Type} (c : DC σ S) (sym : σ) (st : S) (dir : Dir) : DC σ S :=
  { st := st, dir := dir
    side := fun d =>
      let rest : Nat → σ := if d = c.dir then fun i => c.side d (i + 1) else c.side d
      if d = dir.other then cons sym rest else rest }

/-- The streams of `c` are the two halves of `tape`, cut before cell `b`. -/
def Halves {S : Type} (c : DC Nat S) (tape : Int → Nat) (b : Int) : Prop :=
  (∀ i : Nat, c.side .L i = tape (b - 1 - i)) ∧ (∀ i : Nat, c.side .R i = tape (b + i))

/-- `c` represents the running configuration `cfg` of the base machine: facing right, the head is on
the first cell of the right half; facing left, on the first cell of the left half. -/
def Represents (c : DC Nat (Option Nat)) (cfg : Config) : Prop :=
  ∃ b, Halves c cfg.tape b ∧ c.st = cfg.state ∧ cfg.state ≠ none ∧
    cfg.pos = (match c.dir with | .R => b | .L => b - 1)

/-- Only the tape contents: `c` represents `tape`, wherever the head is. -/
def RepresentsTape {S : Type} (c : DC Nat S) (tape : Int → Nat) : Prop := ∃ b, Halves c tape b

/-- The finite segment `seg` of a tape, entered in direction `dir` with the head at index `pos`, between
the half tapes `l` and `r`.  Index `-1` facing left and index `seg.length` facing right mean that the
head has left the segment. -/
def window {σ S : Type} (seg : List σ) (pos : Int) (dir : Dir) (st : S) (l r : Nat → σ) : DC σ S :=
  let cut : Nat := (match dir with | .R => pos | .L => pos + 1).toNat
  { st := st, dir := dir
    side := fun d => match d with
      | .L => pre (seg.take cut).reverse l
      | .R => pre (seg.drop cut) r }

/-- The stream of base symbols in a half tape of blocks of size `k`: on the left side, the nearest
base symbol is the last one of the nearest block. -/
def flatStream {σ : Type} (k : Nat) (dflt : σ) (d : Dir) (blocks : Nat → List σ) (i : Nat) : σ :=
  match d with
  | .R => (blocks (i / k)).getD (i % k) dflt
  | .L => (blocks (i / k)).reverse.getD (i % k) dflt

/-- The configuration of the base machine meant by a configuration over blocks of size `k`. -/
def flatten {σ S S' : Type} (k : Nat) (dflt : σ) (st : S') (c : DC (List σ) S) : DC σ S' :=
  { st := st, dir := c.dir, side := fun d => flatStream k dflt d (c.side d) }

/-- The configuration of the base machine meant by a configuration with a back symbol: the back symbol
is the cell just behind the head. -/
def unback {σ S S' : Type} (st : S') (back : σ) (c : DC σ S) : DC σ S' :=
  { st := st, dir := c.dir
    side := fun d => if d = c.dir then c.side d else cons back (c.side d) }

end Spec

import Verif.Spec.TM
import Verif.Spec.Print

/-!
# Specification: certificates of closed position sets

A certificate is a text `Result n a b a b ... m a b ... c w w ...`: the number of pairs of blocks for the left
half of the tape and these pairs, the same for the right half, the number of windows and the windows.  Here is
how to read it, and which configurations of the machine it describes.
-/

namespace Spec.CPSCert
open Spec

/-- a piece of tape -/
abbrev Block := List Nat

/-- a piece of tape with the head: on the last cell of `left` if it faces left, on the first cell of `right` if it
faces right -/
structure Window where
  left : Block
  state : Nat
  dir : Dir
  right : Block
  deriving DecidableEq, Repr

structure Cert where
  /-- which block may follow which, going away from the window to the left -/
  left : List (Block × Block)
  /-- the same to the right -/
  right : List (Block × Block)
  windows : List Window
  deriving DecidableEq, Repr

/-! ## Reading -/

def readBlock (s : List Char) : Option Block := s.mapM fun c => "0123456789".toList.idxOf? c

def readNumber (s : List Char) : Option Nat :=
  (readBlock s).map fun ds => ds.foldl (fun n d => 10 * n + d) 0

/-- `00<A1` or `00A>1`; a state has one of 70 names -/
def readWindow (s : List Char) : Option Window :=
  match s.span (fun c => c ≠ '<' ∧ c ≠ '>') with
  | (l, '<' :: q :: r) => do
    return ⟨← readBlock l, ← Spec.Print.stateNames.idxOf? q, .L, ← readBlock r⟩
  | (l, '>' :: r) => do
    return ⟨← readBlock l.dropLast, ← Spec.Print.stateNames.idxOf? (← l.getLast?), .R, ← readBlock r⟩
  | _ => none

/-- `n` pairs of blocks; what is left -/
def readPairs : Nat → List (List Char) → Option (List (Block × Block) × List (List Char))
  | 0, ws => some ([], ws)
  | n + 1, a :: b :: ws => do
    let x ← readBlock a
    let y ← readBlock b
    let (es, rest) ← readPairs n ws
    return ((x, y) :: es, rest)
  | _, _ => none

/-- a number and that many pairs of blocks -/
def readEdges : List (List Char) → Option (List (Block × Block) × List (List Char))
  | n :: ws => do readPairs (← readNumber n) ws
  | [] => none

/-- a number and that many windows, and nothing else -/
def readWindows : List (List Char) → Option (List Window)
  | n :: ws => do if ws.length = (← readNumber n) then ws.mapM readWindow else none
  | [] => none

def readCert (text : List Char) : Option Cert :=
  match text.splitOn ' ' with
  | w :: ws =>
    if w = "Result".toList then do
      let (l, ws) ← readEdges ws
      let (r, ws) ← readEdges ws
      return ⟨l, r, ← readWindows ws⟩
    else none
  | [] => none

/-! ## Meaning -/

/-- a walk along pairs of blocks of size `k`: block number 0 is `b` -/
def Walk (E : List (Block × Block)) (k : Nat) (b : Block) (f : Nat → Block) : Prop :=
  f 0 = b ∧ ∀ i, (f i, f (i + 1)) ∈ E ∧ (f (i + 1)).length = k

/-- A configuration is described if its tape is one of the windows, with the head as shown there, and on both
sides blocks that may follow each other, beginning with the outermost block of the window. -/
def Describes (C : Cert) (k : Nat) (cfg : Config) : Prop :=
  ∃ win ∈ C.windows, ∃ (p : Int) (f g : Nat → Block),
    cfg.state = some win.state ∧
    cfg.pos = (match win.dir with | .L => p + win.left.length - 1 | .R => p + win.left.length) ∧
    (∀ i, (h : i < (win.left ++ win.right).length) → cfg.tape (p + i) = (win.left ++ win.right)[i]) ∧
    Walk C.left k ((win.left ++ win.right).take k) f ∧
    (∀ i j, j < k → (f (i + 1))[j]? = some (cfg.tape (p - (i + 1) * k + j))) ∧
    Walk C.right k ((win.left ++ win.right).drop ((win.left ++ win.right).length - k)) g ∧
    (∀ i j, j < k → (g (i + 1))[j]? = some (cfg.tape (p + (win.left ++ win.right).length + i * k + j)))

/-- The certificate is an inductive invariant: it describes the blank tape, and from everything it describes, the
machine comes to something it describes, after one step or more, or runs for ever inside a window. -/
def Proves (C : Cert) (k : Nat) (T : Table) : Prop :=
  Describes C k init ∧
    ∀ cfg, Describes C k cfg → NeverHalts T cfg ∨ ∃ m, 0 < m ∧ Describes C k (run T m cfg)

/-- the machine writes one-digit symbols and its states have different names -/
def Printable (T : Table) : Prop := ∀ q a s d q', T q a = .go s d q' → s < 10 ∧ q' < 70

end Spec.CPSCert

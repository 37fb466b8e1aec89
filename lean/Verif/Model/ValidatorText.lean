import Verif.Model.Validator
import Verif.Model.Str

/-!
# Model of reading and printing in the rule validator (`rust/src/tm.rs`, `count_expr.rs`, `config.rs`)

* Texts are lists of characters.  `\d` in the `regex` crate also matches decimal digits outside of ASCII, and reading the
  number then panics; here `\d` is `[0-9]`.
* Half tapes are nearest block and symbol first, as in `Model/Validator.lean`.
* Every error value is `err`; the first failure in the order of evaluation decides between `err` and `panic`.
-/

namespace Model.Validator
open Spec (Dir)

/-- `str::len`: the number of bytes -/
def byteLen (s : List Char) : Nat := (s.map fun c => c.utf8Size).sum

/-- `.map(f).collect::<Result<Vec<_>, _>>()`, and a loop with `?` -/
def mapR {α β : Type} (f : α → Run β) : List α → Run (List β)
  | [] => .ok []
  | a :: l => do
    let b ← f a
    let r ← mapR f l
    .ok (b :: r)

/-! ### Regular expressions

The `regex` crate: leftmost match, and among these the first in the order of a backtracking search. -/

inductive Re where
  | bos
  | eos
  | chr (p : Char → Bool)
  | star (p : Char → Bool)
  | plus (p : Char → Bool)
  | seq (a b : Re)
  | alt (a b : Re)
  | opt (a : Re)
  | cap (k : Nat) (a : Re)

/-- state of a search: at the start of the text?, the rest of the text, the groups matched (latest first) -/
structure ReSt where
  start : Bool
  rest : List Char
  caps : List (Nat × List Char)
deriving DecidableEq, Repr

/-- what may remain after characters with property `p`; the shortest remainder first -/
def starRests (p : Char → Bool) : List Char → List (List Char)
  | [] => [[]]
  | c :: s => if p c then starRests p s ++ [c :: s] else [c :: s]

/-- all matches at the present position, in the order of preference -/
def Re.run : Re → ReSt → List ReSt
  | .bos, t => if t.start then [t] else []
  | .eos, t => if t.rest = [] then [t] else []
  | .chr p, t => match t.rest with
    | [] => []
    | c :: s => if p c then [⟨false, s, t.caps⟩] else []
  | .star p, t => (starRests p t.rest).map fun s => ⟨t.start && s.length == t.rest.length, s, t.caps⟩
  | .plus p, t => match t.rest with
    | [] => []
    | c :: s => if p c then (starRests p s).map fun s => ⟨false, s, t.caps⟩ else []
  | .seq a b, t => (a.run t).flatMap b.run
  | .alt a b, t => a.run t ++ b.run t
  | .opt a, t => a.run t ++ [t]
  | .cap k a, t => (a.run t).map fun u => ⟨u.start, u.rest, (k, t.rest.take (t.rest.length - u.rest.length)) :: u.caps⟩

/-- `captures`: the groups of the first match from the left -/
def Re.search (r : Re) : Bool → List Char → Option (List (Nat × List Char))
  | b, [] => (r.run ⟨b, [], []⟩).head?.map ReSt.caps
  | b, c :: s => match (r.run ⟨b, c :: s, []⟩).head? with
    | some t => some t.caps
    | none => r.search false s

def isDigit (c : Char) : Bool := '0' ≤ c && c ≤ '9'
def isLower (c : Char) : Bool := 'a' ≤ c && c ≤ 'z'
/-- `.` matches everything but a line feed -/
def isDot (c : Char) : Bool := c != '\n'

/-! ### `tm.rs` -/

/-- `Display for State` (105-112) for states below 191 -/
def showState : Option Nat → List Char
  | none => ['Z']
  | some q => [Char.ofNat (65 + q)]

/-- `FromStr for State` (153-173); a character below `A` underflows -/
def readState (m : Mode) : List Char → Run (Option Nat)
  | [c] =>
    if c.utf8Size ≠ 1 then .err
    else if c = 'Z' then .ok none
    else if c.toNat < 65 then (if m.wrap then .err else .panic)
    else if c.toNat - 65 < 26 then .ok (some (c.toNat - 65)) else .err
  | _ => .err

/-- `Display for Dir` (96-103) -/
def showDir : Dir → Char
  | .L => 'L'
  | .R => 'R'

/-- `FromStr for Dir` (141-151) -/
def readDir (c : Char) : Run Dir := if c = 'L' then .ok .L else if c = 'R' then .ok .R else .err

/-- `Display for Transition` (114-123) -/
def showTrans : Trans → List Char
  | .undef => ['-', '-', '-']
  | .to a d q => Nat.toDigits 10 a ++ showDir d :: showState q

/-- `FromStr for Transition` (175-192).  Slicing inside of a character panics. -/
def readTrans (m : Mode) (s : List Char) : Run Trans :=
  if byteLen s ≠ 3 then .err
  else if s = ['-', '-', '-'] then .ok .undef
  else match s with
    | [a, d, q] =>
      if isDigit a then do
        let d ← readDir d
        let q ← readState m [q]
        .ok (.to (a.toNat - 48) d q)
      else .panic
    | _ => .panic

/-- `chars.chunks(3)` -/
def chunks3 : List Char → List (List Char)
  | [] => []
  | [a] => [[a]]
  | [a, b] => [[a, b]]
  | a :: b :: c :: s => [a, b, c] :: chunks3 s

/-- `Display for TM` (125-138) -/
def showTM (tm : TM) : List Char := Py.join '_' (tm.map fun row => (row.map showTrans).flatten)

/-- `FromStr for TM` (194-216) -/
def readTM (m : Mode) (s : List Char) : Run TM := mapR (fun r => mapR (readTrans m) (chunks3 r)) (Py.split '_' s)

/-! ### `count_expr.rs` -/

/-- `VAR_NAMES` (661) -/
def varNames : List Char := ['n', 'a', 'b', 'c', 'd', 'e', 'f', 'g', 'h', 'i', 'j', 'k', 'l', 'm', 'o', 'p', 'q', 'r', 's', 't',
  'u', 'v', 'w', 'x', 'y', 'z']

/-- `Display for Variable` (662-670) -/
def showVar (x : Nat) : List Char :=
  match varNames[x]? with
  | some c => [c]
  | none => ['<', 'x'] ++ Nat.toDigits 10 x ++ ['>']

/-- `FromStr for Variable` (730-744) -/
def readVar : List Char → Run Nat
  | [c] => match varNames.idxOf? c with
    | some x => .ok x
    | none => .err
  | _ => .err

/-- `u64::from_str(..).unwrap()` of digits -/
def readNum (s : List Char) : Run Nat := if Nat.ofDigitChars 10 s 0 < 2 ^ 64 then .ok (Nat.ofDigitChars 10 s 0) else .panic

/-- `Display for VarSum` (672-694) -/
def showSum (s : VarSum) : List Char :=
  let terms := s.vars.map (fun p => if p.2 ≠ 1 then Nat.toDigits 10 p.2 ++ showVar p.1 else showVar p.1) ++
    (if s.const ≠ 0 then [Nat.toDigits 10 s.const] else [])
  if terms = [] then ['0'] else Py.join '+' terms

/-- `^(?P<coef>\d+)?(?P<var>[a-z])|(?P<const>\d+)$` (754) with coef = 0, var = 1, const = 2.  The alternatives are
`^(?P<coef>\d+)?(?P<var>[a-z])` and `(?P<const>\d+)$`. -/
def reCount : Re :=
  .alt (.seq .bos (.seq (.opt (.cap 0 (.plus isDigit))) (.cap 1 (.chr isLower)))) (.seq (.cap 2 (.plus isDigit)) .eos)

/-- one round of the loop of `FromStr for VarSum` (752-768) -/
def readPart (m : Mode) (part : List Char) (acc : VarSum) : Run VarSum :=
  match reCount.search true part with
  | none => .err
  | some caps =>
    match caps.lookup 1 with
    | some v => do
      let x ← readVar v
      let c ← (match caps.lookup 0 with | some s => readNum s | none => .ok 1)
      let p ← (VarSum.ofVar x).mul m c
      acc.add m p
    | none => match caps.lookup 2 with
      | some s => do
        let k ← readNum s
        acc.add m (.ofNat k)
      | none => .panic

def readParts (m : Mode) : List (List Char) → VarSum → Run VarSum
  | [], acc => .ok acc
  | p :: l, acc => do
    let acc ← readPart m p acc
    readParts m l acc

/-- `FromStr for VarSum` (746-771), `CountExpr` (773-780) -/
def readSum (m : Mode) (s : List Char) : Run VarSum := readParts m (Py.split '+' s) (.ofNat 0)

/-- `FromStr for CountOrInf` (782-791) -/
def readCount (m : Mode) (s : List Char) : Run Count :=
  if s = ['i', 'n', 'f'] then .ok .inf
  else do
    let e ← readSum m s
    .ok (.fin (.sum e))

/-- `Display` for `CountExpr`, `RecursiveExpr` and `Function` (696-719) -/
def showExpr : CountExpr → List Char
  | .sum s => showSum s
  | .iter x f n b =>
    let func := 'λ' :: showVar x ++ '.' :: showExpr f
    if n = .ofNat 1 then '(' :: func ++ ' ' :: showExpr b ++ [')']
    else ['(', '('] ++ func ++ [')', '^'] ++ showExpr n ++ ' ' :: showExpr b ++ [')']

/-- `Display for CountOrInf` (721-728) -/
def showCount : Count → List Char
  | .fin e => showExpr e
  | .inf => ['i', 'n', 'f']

/-! ### `config.rs` -/

/-- the symbols of a block in the order of the text: reversed on the left of the head -/
def orient {α : Type} (d : Dir) (l : List α) : List α := match d with | .L => l.reverse | .R => l

/-- `RepBlock::to_string` (53-63) -/
def showBlock (d : Dir) (b : Block) : List Char :=
  let syms := (orient d (b.symbols.map (Nat.toDigits 10))).flatten
  if b.rep = .fin (.ofNat 1) then syms else syms ++ '^' :: showCount b.rep

/-- `^(?P<symbols>[0-9]+)(\^(?P<rep>.+))?$` (67) with symbols = 0, rep = 1 -/
def reBlock : Re :=
  .seq .bos (.seq (.cap 0 (.plus isDigit)) (.seq (.opt (.seq (.chr (· == '^')) (.cap 1 (.plus isDot)))) .eos))

/-- `RepBlock::from_str` (66-86) -/
def readBlock (m : Mode) (d : Dir) (s : List Char) : Run Block :=
  match reBlock.search true s with
  | none => .err
  | some caps =>
    let syms := orient d (((caps.lookup 0).getD []).map fun c => c.toNat - 48)
    match caps.lookup 1 with
    | none => .ok ⟨syms, .fin (.ofNat 1)⟩
    | some r => do
      let rep ← readCount m r
      .ok ⟨syms, rep⟩

/-- `HalfTape::to_string` (252-258) -/
def showHalf (d : Dir) (t : HalfTape) : List Char := Py.join ' ' (orient d (t.map (showBlock d)))

/-- `HalfTape::from_str` (260-270): the block farthest from the head is read first -/
def readHalf (m : Mode) (d : Dir) (s : List Char) : Run HalfTape := do
  let words := (Py.split ' ' s).filter fun w => !w.isEmpty
  let t ← mapR (readBlock m d) (match d with | .L => words | .R => words.reverse)
  .ok t.reverse

/-- `Display for Config` (372-382) -/
def showConfig (c : Config) : List Char :=
  showHalf .L c.left ++
  (match c.dir with
    | .L => [' ', '<'] ++ showState c.state ++ [' ']
    | .R => ' ' :: showState c.state ++ ['>', ' ']) ++
  showHalf .R c.right

/-- `^((?P<tape_left>.*) +)?(<(?P<head_left>.)|(?P<head_right>.)>)( +(?P<tape_right>.*))?$` (388) with tape_left = 0,
head_left = 1, head_right = 2, tape_right = 3 -/
def reConfig : Re :=
  .seq .bos (.seq (.opt (.seq (.cap 0 (.star isDot)) (.plus (· == ' '))))
    (.seq (.alt (.seq (.chr (· == '<')) (.cap 1 (.chr isDot))) (.seq (.cap 2 (.chr isDot)) (.chr (· == '>'))))
      (.seq (.opt (.seq (.plus (· == ' ')) (.cap 3 (.star isDot)))) .eos)))

/-- `FromStr for Config` (384-413) -/
def readConfig (m : Mode) (s : List Char) : Run Config :=
  match reConfig.search true s with
  | none => .err
  | some caps => do
    let (q, d) ← (match caps.lookup 1 with
      | some h => do
        let q ← readState m h
        .ok (q, Dir.L)
      | none => match caps.lookup 2 with
        | some h => do
          let q ← readState m h
          .ok (q, Dir.R)
        | none => .panic)
    let l ← readHalf m .L ((caps.lookup 0).getD [])
    let r ← readHalf m .R ((caps.lookup 3).getD [])
    .ok ⟨l, r, q, d⟩

end Model.Validator

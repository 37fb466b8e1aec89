import Verif.Model.CPS
import Verif.Model.Print

/-!
# Model of the certificate that `Code/CPS.py --savask-cert` prints (275-294)

`list.sort` and `sorted` are insertion into a sorted list; Python compares tuples and strings item by item.
Indexing `STATES` beyond its end raises (`none`).
-/

namespace Model.CPS
open Spec (Dir)

/-- `block_to_str` (31-32) -/
def blockStr (b : List Nat) : List Char := b.flatMap fun a => Nat.toDigits 10 a

/-- `str(state)` (`Macro/Turing_Machine.py` 249-250); the state after halting is -1 -/
def stateStr : Option Nat → Option Char
  | none => Model.Print.STATES.getLast?
  | some q => Model.Print.STATES[q]?

/-- `str(config).replace(" ", "")` (67-73, 290) -/
def Cfg.text (c : Cfg Nat (Option Nat)) : Option (List Char) :=
  match stateStr c.st with
  | none => none
  | some q => some (match c.dir with
    | .L => blockStr (pySlice c.window 0 (c.pos + 1)) ++ '<' :: q :: blockStr (pySlice c.window (c.pos + 1) c.window.length)
    | .R => blockStr (pySlice c.window 0 c.pos) ++ q :: '>' :: blockStr (pySlice c.window c.pos c.window.length))

/-- `a <= b` for tuples and strings, from `<` on items -/
def seqLe {α : Type} [DecidableEq α] (lt : α → α → Bool) : List α → List α → Bool
  | [], _ => true
  | _ :: _, [] => false
  | a :: as, b :: bs => if a = b then seqLe lt as bs else lt a b

/-- insert before the first item that is not smaller -/
def insertBy {α : Type} (le : α → α → Bool) (x : α) : List α → List α
  | [] => [x]
  | y :: ys => if le x y then x :: y :: ys else y :: insertBy le x ys

/-- `sorted(xs)` -/
def sortBy {α : Type} (le : α → α → Bool) : List α → List α
  | [] => []
  | x :: xs => insertBy le x (sortBy le xs)

/-- `(src, dst) <= (src', dst')` -/
def edgeLe (a b : List Nat × List Nat) : Bool :=
  if a.1 = b.1 then seqLe (fun x y => decide (x < y)) a.2 b.2 else seqLe (fun x y => decide (x < y)) a.1 b.1

/-- `edges[dir]`, sorted (281-287) -/
def CGS.edgeList (g : CGS Nat (Option Nat)) (d : Dir) : List (List Nat × List Nat) :=
  sortBy edgeLe ((g.cont d).flatMap fun e => e.2.map fun dst => (e.1, dst))

/-- `edges_str[dir]` (288-289) -/
def edgesStr (es : List (List Nat × List Nat)) : List Char :=
  Py.join ' ' (es.map fun e => blockStr e.1 ++ ' ' :: blockStr e.2)

/-- `configs` (290-291) -/
def CGS.configTexts (g : CGS Nat (Option Nat)) : Option (List (List Char)) :=
  (Py.mapO (fun e => e.1.text) g.trans).map (sortBy (seqLe fun x y => decide (x.toNat < y.toNat)))

/-- `savask_cert` (275-294) -/
def savaskCert (g : CGS Nat (Option Nat)) (success : Bool) : Option (List Char) :=
  if ¬ success then some ['N', 'o', 't', 'h', 'i', 'n', 'g']
  else
    match g.configTexts with
    | none => none
    | some configs =>
      some (['R', 'e', 's', 'u', 'l', 't'] ++ ' ' :: Nat.toDigits 10 (g.edgeList .L).length ++
        ' ' :: edgesStr (g.edgeList .L) ++ ' ' :: Nat.toDigits 10 (g.edgeList .R).length ++
        ' ' :: edgesStr (g.edgeList .R) ++ ' ' :: Nat.toDigits 10 configs.length ++ ' ' :: Py.join ' ' configs)

end Model.CPS

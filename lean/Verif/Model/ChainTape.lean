import Verif.Spec.TM

/-!
# Model of `Code/Macro/Tape.py`

Python keeps each half tape as a list whose *last* element is nearest to the head; here the nearest
block comes first.  The numbers are polymorphic (Python ints, `Exp_Int` and algebraic expressions all
flow through this code), through the operations the code uses.  `num = none` is `INF`.  The `id` field of
`Repeated_Symbol` is only used by limited rules, see `Model/Limited.lean`.
-/

namespace Model
open Spec (Dir)

/-- the operations on numbers used by the tape and the simulator -/
structure NumOps (ν : Type) where
  ofNat : Nat → ν
  add : ν → ν → ν
  sub : ν → ν → ν
  mul : ν → ν → ν
  isZero : ν → Bool

def natOps : NumOps Nat where
  ofNat := id
  add := (· + ·)
  sub := (· - ·)
  mul := (· * ·)
  isZero := (· == 0)

/-- `Repeated_Symbol` (23-51) -/
structure Blk (σ ν : Type) where
  sym : σ
  num : Option ν
  deriving DecidableEq, Repr

/-- `Chain_Tape` (53-167) -/
structure ChainTape (σ ν : Type) where
  dir : Dir
  left : List (Blk σ ν)
  right : List (Blk σ ν)
  deriving DecidableEq, Repr

namespace ChainTape
variable {σ ν : Type}

/-- `self.tape[d]` -/
def half (t : ChainTape σ ν) : Dir → List (Blk σ ν)
  | .L => t.left
  | .R => t.right

def setHalf (t : ChainTape σ ν) (d : Dir) (h : List (Blk σ ν)) : ChainTape σ ν :=
  match d with
  | .L => { t with left := h }
  | .R => { t with right := h }

/-- `Chain_Tape.init` (57-62) -/
def init (initSym : σ) (dir : Dir) : ChainTape σ ν :=
  { dir := dir, left := [⟨initSym, none⟩], right := [⟨initSym, none⟩] }

/-- `get_top_symbol` (122-124); `none` = IndexError -/
def topSymbol (t : ChainTape σ ν) : Option σ := (t.half t.dir).head?.map (·.sym)

/-- delete one symbol (129-136) -/
def popOne (N : NumOps ν) : List (Blk σ ν) → Option (List (Blk σ ν))
  | [] => none
  | b :: rest =>
    match b.num with
    | none => some (b :: rest)
    | some n =>
      let n' := N.sub n (N.ofNat 1)
      if N.isZero n' then some rest else some (⟨b.sym, some n'⟩ :: rest)

/-- push `num` copies of a symbol (138-146 with `num = 1`, 160-166) -/
def push [DecidableEq σ] (N : NumOps ν) (sym : σ) (num : ν) : List (Blk σ ν) → Option (List (Blk σ ν))
  | [] => none
  | top :: rest =>
    if top.sym = sym then
      match top.num with
      | none => some (top :: rest)
      | some n => some (⟨top.sym, some (N.add n num)⟩ :: rest)
    else some (⟨sym, some num⟩ :: top :: rest)

/-- `apply_single_move` (126-148) -/
def singleMove [DecidableEq σ] (N : NumOps ν) (t : ChainTape σ ν) (newSym : σ) (newDir : Dir) :
    Option (ChainTape σ ν) := do
  let h ← popOne N (t.half t.dir)
  let t := t.setHalf t.dir h
  let h ← push N newSym (N.ofNat 1) (t.half newDir.other)
  let t := t.setHalf newDir.other h
  pure { t with dir := newDir }

/-- `apply_chain_move` (150-167): the new tape and the number of symbols replaced (`none` = INF) -/
def chainMove [DecidableEq σ] (N : NumOps ν) (t : ChainTape σ ν) (newSym : σ) :
    Option (ChainTape σ ν × Option ν) :=
  match t.half t.dir with
  | [] => none
  | b :: rest =>
    match b.num with
    | none => some (t, none)
    | some n =>
      let t := t.setHalf t.dir rest
      match push N newSym n (t.half t.dir.other) with
      | none => none
      | some h => some (t.setHalf t.dir.other h, some n)

/-- the contribution of one half tape to `get_nonzeros` -/
def halfNonzeros (N : NumOps ν) (ev : σ → Nat) (h : List (Blk σ ν)) (n : ν) : ν :=
  h.foldl (fun n b => match b.num with
    | none => n
    | some k => N.add n (N.mul (N.ofNat (ev b.sym)) k)) n

/-- `get_nonzeros` (110-117) -/
def nonzeros (N : NumOps ν) (ev : σ → Nat) (stateValue : Nat) (t : ChainTape σ ν) : ν :=
  halfNonzeros N ev t.right (halfNonzeros N ev t.left (N.ofNat stateValue))

end ChainTape
end Model

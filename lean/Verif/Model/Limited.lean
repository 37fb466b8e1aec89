import Verif.Model.Prover

/-!
# Model of the option `--limited-rules` (`Code/Macro/Proof_System.py`)

A `Limited_Diff_Rule` (378-411) is a difference rule cut down to the blocks touched during its proof; it is tried on every tape
with the same blocks near the head, whatever is farther away.  The other options are as in `Model/Prover.lean`.

* The field `id` of a block (`Tape.py`, 23-51) is only set in a proof.  Here the `id`s of a half tape are a list beside it.
* `list(set(list_left) & set(list_right))` (653) goes through the rules in an arbitrary order; here the order is a parameter
  of the prover.  Two rule objects are the same here if all their fields are, among them the unique number.
* General rules are stored but never looked up under this option (640-671), so they are not stored here.
-/

namespace Model.Prover
open Spec (Dir)
open Model.Expr
variable {σ S ν : Type}

/-- one value for each side of the head -/
structure Sides (α : Type) where
  left : α
  right : α
deriving DecidableEq, Repr

def Sides.get {α : Type} (s : Sides α) : Dir → α
  | .L => s.left
  | .R => s.right

def Sides.set {α : Type} (s : Sides α) (d : Dir) (a : α) : Sides α :=
  match d with
  | .L => { s with left := a }
  | .R => { s with right := a }

/-- the `id`s of the blocks -/
abbrev Ids := Sides (List (Option Nat))

/-- `apply_single_move` deletes one symbol (`Tape.py`, 129-136) -/
def popIds (N : NumOps ν) (h : List (Blk σ ν)) (ids : List (Option Nat)) : List (Option Nat) :=
  match h with
  | [] => ids
  | b :: _ =>
    match b.num with
    | none => ids
    | some n => if N.isZero (N.sub n (N.ofNat 1)) then ids.tail else ids

/-- symbols are pushed: a new block has no `id` (`Tape.py`, 138-146, 160-166) -/
def pushIds [DecidableEq σ] (sym : σ) (h : List (Blk σ ν)) (ids : List (Option Nat)) : List (Option Nat) :=
  match h with
  | [] => ids
  | top :: _ => if top.sym = sym then ids else none :: ids

/-- The `id`s after `step` of the simulator (`Simulator.py`, 176-217; see `SimSt.macroStep`). -/
def stepIds [DecidableEq σ] [DecidableEq S] (N : NumOps ν) (M : Machine σ S) (s : SimSt σ S ν) (ids : Ids) : Ids :=
  let d := s.tape.dir
  match s.tape.half d with
  | [] => ids
  | b :: rest =>
    let t := M.trans b.sym s.st s.dir
    if t.cond = .raised then ids
    else if t.cond = .infRepeat then ids
    else if t.st = s.st ∧ t.dir = s.dir ∧ t.cond = .running then
      match b.num with
      | none => ids
      | some _ =>
        let ids := ids.set d (ids.get d).tail
        ids.set d.other (pushIds t.sym ((s.tape.setHalf d rest).half d.other) (ids.get d.other))
    else if t.cond ≠ .gaveUp then
      let ids := ids.set d (popIds N (b :: rest) (ids.get d))
      match ChainTape.popOne N (b :: rest) with
      | none => ids
      | some h => ids.set t.dir.other (pushIds t.sym ((s.tape.setHalf d h).half t.dir.other) (ids.get t.dir.other))
    else ids

/-- `max_offset_touched[d] = max(max_offset_touched[d], id)` if there is an `id` (796-800, 804-807) -/
def touch (t : Sides Nat) (d : Dir) (ids : List (Option Nat)) : Sides Nat :=
  match ids with
  | some i :: _ => t.set d (max (t.get d) i)
  | _ => t

/-- The loop 778-833 with the `id`s and `max_offset_touched`; see `genLoop`. -/
def genLoopL [DecidableEq σ] [DecidableEq S] (M : Machine σ S) :
    Nat → SimSt σ S V → List (Nat × Option Int) → Ids → Sides Nat →
      Out (SimSt σ S V × List (Nat × Option Int) × Sides Nat)
  | 0, s, mins, _, t => .ok (s, mins, t)
  | k + 1, s, mins, ids, t =>
    match s.tape.half s.tape.dir with
    | [] => .raise
    | b :: _ =>
      if belowMin b.num then .fail
      else
        let t := touch t s.tape.dir (ids.get s.tape.dir)
        let ids := stepIds valOps M s ids
        let s := s.step valOps M
        if s.op = .raised then .raise
        else if s.op ≠ .running then .fail
        else
          let back := s.tape.dir.other
          match s.tape.half back with
          | [] => .raise
          | _ :: _ =>
            let t := touch t back (ids.get back)
            match updMins (s.tape.left ++ s.tape.right) mins with
            | .raise => .raise
            | .fail => .fail
            | .ok mins => genLoopL M k s mins ids t

/-- the `id`s at the start of a proof (753-759): the nearest block has number 1 -/
def startIds (n : Nat) : List (Option Nat) := (List.range n).map (fun i => some (i + 1))

/-- `l[-k:]` of a list that is farthest first, as here nearest first (`l[-0:]` is all of `l`) -/
def takeL {α : Type} (k : Nat) (l : List α) : List α := if k = 0 then l else l.take k

/-- `l[:-k]`, likewise (`l[:-0]` is empty) -/
def dropL {α : Type} (k : Nat) (l : List α) : List α := if k = 0 then [] else l.drop k

/-- both half tapes cut (990-994, 1050-1051) -/
def cut (d : Sides Nat) (t : ChainTape σ ν) : ChainTape σ ν :=
  { t with left := takeL d.left t.left, right := takeL d.right t.right }

/-- `Limited_Diff_Rule` (378-411) -/
structure LimRule (σ : Type) where
  rule : DiffRule σ
  dist : Sides Nat
  num : Nat
deriving DecidableEq, Repr

inductive LRule (σ : Type) where
  | lim (r : LimRule σ)
  | gen (r : GenRule)
deriving DecidableEq, Repr

/-- `prove_rule` (712-1016) with `limited_rules`; see `proveRule`.  `num` is `num_rules`. -/
def proveRuleL [DecidableEq σ] [DecidableEq S] (M : Machine σ S) (key : Strip σ S) (st : S) (tape : ChainTape σ Nat)
    (delta : Int) (num nv : Nat) : Out (LRule σ) × Nat :=
  match genHalf tape.left nv with
  | none => (.raise, nv)
  | some (l, ml, nv) =>
    match genHalf tape.right nv with
    | none => (.raise, nv)
    | some (r, mr, nv) =>
      let init : ChainTape σ V := ⟨tape.dir, l, r⟩
      let s : SimSt σ S V :=
        { tape := init, st := st, dir := tape.dir, steps := .expr ⟨[], 0⟩, loops := 0, seen := [], op := .running
          cell := none, infReason := none, recur := [] }
      match genLoopL M delta.toNat s (ml ++ mr) ⟨startIds l.length, startIds r.length⟩ ⟨0, 0⟩ with
      | .raise => (.raise, nv)
      | .fail => (.fail, nv)
      | .ok (s, mins, dist) =>
        if strip valIsOne s.st s.tape ≠ key then (.fail, nv)
        else match diffHalf s.tape.left init.left, diffHalf s.tape.right init.right with
          | some (dl, cl), some (dr, cr) =>
            if cl && cr then
              match mkDiff init { s.tape with left := dl, right := dr } mins s with
              | some r => (.ok (.lim ⟨{ r with init := cut dist r.init, diff := cut dist r.diff }, dist, num⟩), nv)
              | none => (.raise, nv)
            else
              match mkGen init mins s with
              | some r => (.ok (.gen r), nv)
              | none => (.raise, nv)
          | _, _ => (.raise, nv)

/-- `apply_rule` of a limited rule (1042-1066); `k` is the fresh variable of line 1191. -/
def applyLim (r : LimRule σ) (tape : ChainTape σ Nat) (k : Nat) : Out (Res σ) :=
  match applyDiff r.rule (cut r.dist tape) k with
  | .raise => .raise
  | .fail => .fail
  | .ok (.inf states) => .ok (.inf states)
  | .ok (.apply t steps seen) =>
    .ok (.apply { t with left := t.left ++ dropL r.dist.left tape.left, right := t.right ++ dropL r.dist.right tape.right }
      steps seen)

/-- The keys under which limited rules are stored (647, 652, 677-680); `none` is the block in front of the stripped tape. -/
structure LKey (σ S : Type) where
  side : Dir
  st : S
  dir : Dir
  syms : List (Option (Info σ))
  dist : Nat
deriving DecidableEq, Repr

def Strip.side (k : Strip σ S) : Dir → List (Info σ)
  | .L => k.left
  | .R => k.right

/-- the stripped half tape with the block in front of it (643, 648, 677, 680) -/
def padded (k : Strip σ S) (d : Dir) : List (Option (Info σ)) := (k.side d).map some ++ [none]

/-- the key of a new rule on one side (678, 681) -/
def ruleKey (k : Strip σ S) (d : Dir) (dist : Nat) : LKey σ S := ⟨d, k.st, k.dir, takeL dist (padded k d), dist⟩

/-- the keys to look up on one side (644, 649) -/
def lookupKeys (k : Strip σ S) (d : Dir) : List (LKey σ S) :=
  (List.range (padded k d).length).map (fun i => ⟨d, k.st, k.dir, (padded k d).take (i + 1), i + 1⟩)

/-- the dictionary `rules` of limited rules -/
abbrev LRules (σ S : Type) := List (LKey σ S × List (LimRule σ))

variable [DecidableEq σ] [DecidableEq S]

/-- `list_left`, `list_right` (646, 651) -/
def candidates (rules : LRules σ S) (k : Strip σ S) (d : Dir) : List (LimRule σ) :=
  (lookupKeys k d).flatMap (fun key => (Py.dget rules key).getD [])

/-- `self.rules[key].append(rule)` or a new list (685-694) -/
def addUnder (rules : LRules σ S) (key : LKey σ S) (r : LimRule σ) : LRules σ S :=
  Py.dset rules key ((Py.dget rules key).getD [] ++ [r])

/-- the loop 655-671: the first rule that applies -/
def tryRules (tape : ChainTape σ Nat) : List (LimRule σ) → Nat → Out (Res σ) × Nat
  | [], nv => (.fail, nv)
  | r :: rs, nv =>
    match applyLim r tape nv with
    | .raise => (.raise, nv + 1)
    | .fail => tryRules tape rs (nv + 1)
    | .ok res => (.ok res, nv + 1)

/-- `Proof_System` (486-523); `num` is `num_rules`, `nv` the class counter `Variable.num_vars`. -/
structure LProver (σ S : Type) where
  past : List (Strip σ S × Past)
  rules : LRules σ S
  num : Nat
  nv : Nat
deriving DecidableEq, Repr

def LProver.init : LProver σ S := ⟨[], [], 0, 0⟩

/-- `log_and_apply` (572-616) after no rule applied: log the configuration and prove a rule if it is time (594-616). -/
def logAndProveL (M : Machine σ S) (o : Opts) (p : LProver σ S) (key : Strip σ S)
    (st : S) (tape : ChainTape σ Nat) (loop : Nat) : LProver σ S × Out (Res σ) :=
  let past := (Py.dget p.past key).getD ⟨none, none⟩
  let (past', try') := past.log loop
  let p := { p with past := Py.dset p.past key past' }
  if try' then
    match proveRuleL M key st tape ((loop : Int) - past'.lastLoop.getD 0) p.num p.nv with
    | (.raise, nv) => ({ p with nv := nv }, .raise)
    | (.fail, nv) => ({ p with nv := nv }, .fail)
    | (.ok (.lim r), nv) =>
      -- `add_rule` (673-710)
      let rules := addUnder (addUnder p.rules (ruleKey key .L r.dist.left) r) (ruleKey key .R r.dist.right) r
      (⟨[(key, { past' with lastLoop := none })], rules, p.num + 1, nv + 1⟩, applyLim r tape nv)
    | (.ok (.gen r), nv) =>
      (⟨[(key, { past' with lastLoop := none })], p.rules, p.num + 1, nv⟩, applyGen o r tape)
  else if p.past.length > o.maxConfigs then ({ p with past := [] }, .fail)
  else (p, .fail)

/-- the order in which the candidates are tried in each loop -/
abbrev Order (σ : Type) := Nat → List (LimRule σ) → List (LimRule σ)

/-- `log_and_apply` (572-616) with `try_apply_a_limited_rule` (640-671); `.fail` is `NOTHING_TO_DO`. -/
def logAndApplyL (M : Machine σ S) (o : Opts) (ord : Order σ) (p : LProver σ S) (st : S)
    (tape : ChainTape σ Nat) (loop : Nat) : LProver σ S × Out (Res σ) :=
  let key := strip natIsOne st tape
  let rights := candidates p.rules key .R
  match tryRules tape (ord loop ((candidates p.rules key .L).filter (· ∈ rights))) p.nv with
  | (.raise, nv) => ({ p with nv := nv }, .raise)
  | (.ok res, nv) => ({ p with past := [], nv := nv }, .ok res)
  | (.fail, nv) => logAndProveL M o { p with nv := nv } key st tape loop

/-- `Simulator` with its `prover`; `seenOk` is false once `states_last_seen` has been set to `None` (168-170). -/
structure LSim (σ S : Type) where
  sim : SimSt σ S Nat
  prover : LProver σ S
  seenOk : Bool
deriving DecidableEq, Repr

def LSim.init (M : Machine σ S) : LSim σ S := ⟨SimSt.init natOps M, LProver.init, true⟩

/-- `step` (129-219) -/
def LSim.step (M : Machine σ S) (o : Opts) (ord : Order σ) (p : LSim σ S) : LSim σ S :=
  if p.sim.op ≠ .running then p
  else
    let s := { p.sim with loops := p.sim.loops + 1 }
    match logAndApplyL M o ord p.prover s.st s.tape p.sim.loops with
    | (pr, .raise) => { p with sim := s.raise, prover := pr }
    | (pr, .fail) => { p with sim := s.macroStep natOps M, prover := pr }
    | (pr, .ok (.inf states)) =>
      { p with sim := { s with op := .infRepeat, infReason := some .proofSystem, recur := states }, prover := pr }
    | (pr, .ok (.apply tape steps seen)) =>
      { sim := { s with tape := tape, seen := SimSt.addSeen natOps s.seen s.steps seen, steps := s.steps + steps }
        prover := pr
        seenOk := p.seenOk && !seen.isEmpty }

end Model.Prover

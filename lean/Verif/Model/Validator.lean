import Verif.Spec.TM

/-!
# Model of the rule validator (`rust/src/count_expr.rs`, `config.rs`, `tm.rs`, `validator.rs`)

The validator checks hand-written proofs of rules such as `0^n <C → <C 1^n` about a given machine: each rule has an initial
and a final configuration with variables in the run lengths, and a proof made of machine steps, uses of earlier rules and,
in an inductive proof, uses of the rule itself.

* Blocks of a half tape and the symbols of a block are nearest to the head *first* (Rust: last).
* A `BTreeMap` is the list of its entries in increasing order of the keys; a `HashMap` is a list of entries with distinct keys.
* Counts are `u64`: what happens at an overflow is the parameter `Mode.wrap` (`false`: panic, as in debug builds and in
  `cargo test`; `true`: arithmetic modulo `2^64`, as in release builds).
* `Mode.strict` is not in the code: with it, a substitution that puts a free variable below a `λ` with the same name, or
  renames a bound variable to one that is free below it, stops with `capture`.  The code is `strict := false`.
* Loops and recursions that need not end take a bound (`fuel`); `timeout` = not ended within the bound.
* Error values are only printed; here every error is `err`.
-/

namespace Model.Validator
open Spec (Dir)

/-- Outcome of a computation: a value, an error value (`Err`, `None`), a panic; a capture (only in strict mode); not ended. -/
inductive Run (α : Type) where
  | ok (a : α)
  | err
  | panic
  | capture
  | timeout
deriving DecidableEq, Repr

namespace Run
variable {α β : Type}

def bind : Run α → (α → Run β) → Run β
  | .ok a, f => f a
  | .err, _ => .err
  | .panic, _ => .panic
  | .capture, _ => .capture
  | .timeout, _ => .timeout

instance : Monad Run where
  pure := .ok
  bind := Run.bind

/-- use of a `Result` or `Option` as a value -/
def try? : Run α → Run (Option α)
  | .ok a => .ok (some a)
  | .err => .ok none
  | .panic => .panic
  | .capture => .capture
  | .timeout => .timeout

end Run

structure Mode where
  wrap : Bool
  strict : Bool
deriving DecidableEq, Repr

/-- the result of an operation on `u64` with exact value `n` -/
def u64 (m : Mode) (n : Nat) : Run Nat :=
  if n < 2 ^ 64 then .ok n else if m.wrap then .ok (n % 2 ^ 64) else .panic

/-! ### `count_expr.rs` -/

/-- `VarSum` (18-23): a sum of multiples of variables and a constant. -/
structure VarSum where
  vars : List (Nat × Nat)
  const : Nat
deriving DecidableEq, Repr

/-- `CountExpr` (45-52) with `RecursiveExpr` (36-41) and `Function` (27-31): `iter x f n b` is `(λx.f)^n b`. -/
inductive CountExpr where
  | sum (s : VarSum)
  | iter (x : Nat) (f n b : CountExpr)
deriving DecidableEq, Repr

/-- `CountOrInf` (55-59) -/
inductive Count where
  | fin (e : CountExpr)
  | inf
deriving DecidableEq, Repr

/-- `VarSubst` (14-15) -/
abbrev Subst := List (Nat × CountExpr)

/-- `VarSubst::get` (86-89) -/
def Subst.get (σ : Subst) (x : Nat) : Option CountExpr := σ.lookup x

/-- `VarSubst::without` (96-102) -/
def Subst.without (σ : Subst) (x : Nat) : Subst := σ.filter fun p => p.1 != x

/-- `From<CountType> for VarSum` (612-620) -/
def VarSum.ofNat (n : Nat) : VarSum := ⟨[], n⟩

/-- `From<Variable> for VarSum` (622-630) -/
def VarSum.ofVar (x : Nat) : VarSum := ⟨[(x, 1)], 0⟩

/-- `From<CountType> for CountExpr` (632-637) -/
def CountExpr.ofNat (n : Nat) : CountExpr := .sum (.ofNat n)

/-- `From<Variable> for CountExpr` (639-644) -/
def CountExpr.ofVar (x : Nat) : CountExpr := .sum (.ofVar x)

/-- `CountExpr::var_plus` (416-423) -/
def CountExpr.varPlus (x n : Nat) : CountExpr := .sum ⟨[(x, 1)], n⟩

namespace VarSum

/-- `entry(x).and_modify(|c| *c += count).or_insert(count)` (575-578) -/
def addVar (m : Mode) (x c : Nat) : List (Nat × Nat) → Run (List (Nat × Nat))
  | [] => .ok [(x, c)]
  | (y, d) :: l =>
    if y = x then do
      let s ← u64 m (d + c)
      .ok ((y, s) :: l)
    else if x < y then .ok ((x, c) :: (y, d) :: l)
    else do
      let r ← addVar m x c l
      .ok ((y, d) :: r)

/-- the loop of `AddAssign` (574-579) -/
def addVars (m : Mode) : List (Nat × Nat) → List (Nat × Nat) → Run (List (Nat × Nat))
  | l, [] => .ok l
  | l, (x, c) :: r => do
    let l ← addVar m x c l
    addVars m l r

/-- `AddAssign`, `Add` (571-591) -/
def add (m : Mode) (a b : VarSum) : Run VarSum := do
  let k ← u64 m (a.const + b.const)
  let l ← addVars m a.vars b.vars
  .ok ⟨l, k⟩

def mulVars (m : Mode) (n : Nat) : List (Nat × Nat) → Run (List (Nat × Nat))
  | [] => .ok []
  | (x, c) :: l => do
    let p ← u64 m (c * n)
    let r ← mulVars m n l
    .ok ((x, p) :: r)

/-- `Mul<CountType>` (593-610) -/
def mul (m : Mode) (a : VarSum) (n : Nat) : Run VarSum :=
  if n = 0 then .ok (ofNat 0)
  else if n = 1 then .ok a
  else do
    let l ← mulVars m n a.vars
    let k ← u64 m (a.const * n)
    .ok ⟨l, k⟩

/-- `is_zero`, `is_const` (130-138) -/
def isZero (a : VarSum) : Bool := a.const == 0 && a.vars.isEmpty

/-- `decrement` (140-146) -/
def decrement (a : VarSum) : Option VarSum := if a.const = 0 then none else some ⟨a.vars, a.const - 1⟩

/-- `free_vars` (148-150) -/
def freeVars (a : VarSum) : List Nat := a.vars.map Prod.fst

/-- `BTreeMap::remove` -/
def remove (x : Nat) : List (Nat × Nat) → Option (Nat × List (Nat × Nat))
  | [] => none
  | (y, d) :: l => if y = x then some (d, l) else (remove x l).map fun p => (p.1, (y, d) :: p.2)

/-- `BTreeMap::insert` of a key that is not there -/
def insert (x c : Nat) : List (Nat × Nat) → List (Nat × Nat)
  | [] => [(x, c)]
  | (y, d) :: l => if x < y then (x, c) :: (y, d) :: l else (y, d) :: insert x c l

/-- the loop of `checked_sub` (210-216) -/
def subVars : List (Nat × Nat) → List (Nat × Nat) → Option (List (Nat × Nat))
  | l, [] => some l
  | l, (x, c) :: r =>
    match remove x l with
    | none => none
    | some (d, l) => if d < c then none else subVars (if d - c > 0 then insert x (d - c) l else l) r

/-- `checked_sub` (205-221) -/
def checkedSub (a b : VarSum) : Option VarSum :=
  if a.const < b.const then none else (subVars a.vars b.vars).map fun l => ⟨l, a.const - b.const⟩

/-- `normalize` (223-228) -/
def normalize (a : VarSum) : VarSum := ⟨a.vars.filter fun p => p.2 != 0, a.const⟩

end VarSum

namespace CountExpr

/-- `free_vars` of `CountExpr` (439-444) and `RecursiveExpr` (308-313): bound variables are counted as free. -/
def freeVars : CountExpr → List Nat
  | .sum s => s.freeVars
  | .iter _ f n b => f.freeVars ++ n.freeVars ++ b.freeVars

/-- the variables that really occur free (not in the code; for strict mode) -/
def fv : CountExpr → List Nat
  | .sum s => s.freeVars
  | .iter x f n b => f.fv.filter (· != x) ++ n.fv ++ b.fv

end CountExpr

/-- first loop of `VarSum::subst` (157-173): the sum of the substituted sums, and the recursive substitutions in order -/
def VarSum.substLoop (m : Mode) (σ : Subst) :
    List (Nat × Nat) → VarSum → List (Nat × Nat × CountExpr) → Run (VarSum × List (Nat × Nat × CountExpr))
  | [], acc, rs => .ok (acc, rs.reverse)
  | (x, c) :: l, acc, rs =>
    match σ.get x with
    | some (.sum s) => do
      let p ← s.mul m c
      let acc ← acc.add m p
      substLoop m σ l acc rs
    | none => do
      let p ← (VarSum.ofVar x).mul m c
      let acc ← acc.add m p
      substLoop m σ l acc rs
    | some (.iter y f n b) => substLoop m σ l acc ((x, c, .iter y f n b) :: rs)

/-- second loop (175-180) -/
def VarSum.substBound (m : Mode) : List (Nat × Nat × CountExpr) → VarSum → Run VarSum
  | [], acc => .ok acc
  | (x, c, _) :: l, acc =>
    if acc.freeVars.contains x then .panic
    else do
      let p ← (VarSum.ofVar x).mul m c
      let acc ← acc.add m p
      substBound m l acc

/-- third loop (183-201) -/
def VarSum.substApply : List (Nat × Nat × CountExpr) → CountExpr → Run CountExpr
  | [], e => .ok e
  | (x, _, r) :: l, e =>
    if e.freeVars.contains x then
      if e = CountExpr.ofVar x then .ok r
      else substApply l (.iter x e (.ofNat 1) r)
    else .panic

/-- a later bound variable occurs in an earlier substituted expression (or is the earlier variable, which cannot be) (strict
mode) -/
def VarSum.clash : List (Nat × Nat × CountExpr) → Bool
  | [] => false
  | (x, _, r) :: l => (l.any fun p => p.1 == x || r.fv.contains p.1) || clash l

/-- `VarSum::subst` (152-203) -/
def VarSum.subst (m : Mode) (σ : Subst) (s : VarSum) : Run CountExpr := do
  let p ← VarSum.substLoop m σ s.vars (.ofNat s.const) []
  if m.strict && VarSum.clash p.2 then .capture
  else do
    let acc ← VarSum.substBound m p.2 p.1
    VarSum.substApply p.2 (.sum acc)

namespace CountExpr

/-- substituting in `f` puts a free `x` below `λx` (strict mode) -/
def captures (x : Nat) (σ : Subst) (f : CountExpr) : Bool :=
  f.fv.any fun y => match σ.get y with | some e => e.fv.contains x | none => false

/-- `subst` of `CountExpr` (446-451) and `RecursiveExpr` (315-329) -/
def subst (m : Mode) : CountExpr → Subst → Run CountExpr
  | .sum s, σ => s.subst m σ
  | .iter x f n b, σ =>
    if m.strict && captures x (σ.without x) f then .capture
    else do
      let f ← f.subst m (σ.without x)
      let n ← n.subst m σ
      let b ← b.subst m σ
      .ok (.iter x f n b)

/-- `is_zero` (425-430) -/
def isZero : CountExpr → Bool
  | .sum s => s.isZero
  | .iter .. => false

/-- `decrement` (432-437) -/
def decrement : CountExpr → Option CountExpr
  | .sum s => s.decrement.map .sum
  | .iter .. => none

/-- `normalize` of `CountExpr` (489-494), `Function` (289-294) and `RecursiveExpr` (331-355) -/
def normalize (m : Mode) : CountExpr → Run CountExpr
  | .sum s => .ok (.sum s.normalize)
  | .iter x f n b => do
    let f' ← f.normalize m
    let n' ← n.normalize m
    let b' ← b.normalize m
    if n'.isZero then .ok b'
    else if f' = ofVar x then .ok b'
    else if n' = ofNat 1 then f.subst m [(x, b')]
    else .ok (.iter x f' n' b')

/-- `checked_sub` (470-487), given `known_equal` -/
def checkedSubBy (m : Mode) (ke : CountExpr → CountExpr → Run Bool) (a b : CountExpr) : Run (Option CountExpr) := do
  let a ← a.normalize m
  let b ← b.normalize m
  let e ← ke a b
  if e then .ok (some (ofNat 0))
  else match a, b with
    | .sum s, .sum t => .ok ((s.checkedSub t).map .sum)
    | _, _ => .ok none

/-- `known_equal` of `CountExpr` (496-509), `Function` (296-304) and `RecursiveExpr` (357-386) -/
def knownEqual (m : Mode) : Nat → CountExpr → CountExpr → Run Bool
  | 0, _, _ => .timeout
  | _ + 1, .sum s, .sum t => .ok (s == t)
  | k + 1, .iter x f n b, .iter y g p c =>
    if m.strict && (x != y && g.fv.contains x) then .capture
    else do
      let g' ← g.subst m [(y, ofVar x)]
      let e ← knownEqual m k f g'
      if e then do
        let d ← checkedSubBy m (knownEqual m k) n p
        match d with
        | some d => do
          let l ← (CountExpr.iter x f d b).normalize m
          knownEqual m k l c
        | none => do
          let d ← checkedSubBy m (knownEqual m k) p n
          match d with
          | some d => do
            let r ← (CountExpr.iter y g d c).normalize m
            knownEqual m k b r
          | none => .ok false
      else .ok false
  | _ + 1, _, _ => .ok false

/-- `checked_sub` (470-487) -/
def checkedSub (m : Mode) (fuel : Nat) : CountExpr → CountExpr → Run (Option CountExpr) :=
  checkedSubBy m (knownEqual m fuel)

/-- `Variable::new_unused` (112-120), searching upwards from `k` with at most `n` further tries -/
def newUnused (used : List Nat) : Nat → Nat → Nat
  | 0, k => k
  | n + 1, k => if used.contains k then newUnused used n (k + 1) else k

/-- `RecursiveExpr::add_var_sum` (388-412).  Among `used.length + 1` numbers one is not used, so the search ends there. -/
def addVarSum (m : Mode) (r : CountExpr) (s : VarSum) : Run CountExpr := do
  let used := r.freeVars ++ s.freeVars
  let x := newUnused used used.length 0
  let body ← s.add m (.ofVar x)
  .ok (.iter x (.sum body) (.ofNat 1) r)

/-- `checked_add` (453-468) -/
def checkedAdd (m : Mode) : CountExpr → CountExpr → Run (Option CountExpr)
  | .sum s, .sum t => do
    let r ← s.add m t
    .ok (some (.sum r))
  | .sum s, .iter x f n b => do
    let r ← addVarSum m (.iter x f n b) s
    .ok (some r)
  | .iter x f n b, .sum s => do
    let r ← addVarSum m (.iter x f n b) s
    .ok (some r)
  | .iter .., .iter .. => .ok none

end CountExpr

namespace Count

/-- `is_zero` (513-518) -/
def isZero : Count → Bool
  | .fin e => e.isZero
  | .inf => false

/-- `decrement` (520-525) -/
def decrement : Count → Option Count
  | .fin e => e.decrement.map .fin
  | .inf => some .inf

/-- `subst` (534-539) -/
def subst (m : Mode) (σ : Subst) : Count → Run Count
  | .fin e => do
    let e ← e.subst m σ
    .ok (.fin e)
  | .inf => .ok .inf

/-- `checked_add` (541-549) -/
def checkedAdd (m : Mode) : Count → Count → Run (Option Count)
  | .fin a, .fin b => do
    let r ← a.checkedAdd m b
    .ok (r.map .fin)
  | _, _ => .ok (some .inf)

/-- `checked_sub` (551-568) -/
def checkedSub (m : Mode) (fuel : Nat) : Count → Count → Run (Option Count)
  | .fin a, .fin b => do
    let r ← a.checkedSub m fuel b
    .ok (r.map .fin)
  | .inf, .fin _ => .ok (some .inf)
  | .inf, .inf => .ok (some (.fin (.ofNat 0)))
  | .fin _, .inf => .ok none

end Count

/-! ### `tm.rs` -/

/-- `Transition` (27-35); state `none` = `Halt` -/
inductive Trans where
  | undef
  | to (symbol : Nat) (dir : Dir) (state : Option Nat)
deriving DecidableEq, Repr

/-- `TM` (37-40) -/
abbrev TM := List (List Trans)

/-- `TM::trans` (89-92): indexing panics outside of the table -/
def TM.trans (tm : TM) (q a : Nat) : Run Trans :=
  match tm[q]? with
  | none => .panic
  | some row => match row[a]? with
    | none => .panic
    | some t => .ok t

/-! ### `config.rs` -/

/-- `RepBlock` (15-20) -/
structure Block where
  symbols : List Nat
  rep : Count
deriving DecidableEq, Repr

/-- `HalfTape` (22-23) -/
abbrev HalfTape := List Block

/-- `Config` (27-32) -/
structure Config where
  left : HalfTape
  right : HalfTape
  state : Option Nat
  dir : Dir
deriving DecidableEq, Repr

namespace HalfTape

/-- `push_symbol` (89-98) -/
def push (a : Nat) (t : HalfTape) : HalfTape := ⟨[a], .fin (.ofNat 1)⟩ :: t

/-- `normalize` (152-171).  The farthest block is handled first. -/
def normalize (m : Mode) : HalfTape → Run HalfTape
  | [] => .ok []
  | b :: t => do
    let r ← normalize m t
    if b.symbols.isEmpty || b.rep.isZero then .ok r
    else match r with
      | [] => .ok [b]
      | l :: r =>
        if l.symbols = b.symbols then do
          let n ← l.rep.checkedAdd m b.rep
          match n with
          | some n => .ok (⟨l.symbols, n⟩ :: r)
          | none => .ok (b :: l :: r)
        else .ok (b :: l :: r)

/-- `pop_symbol` (100-141); `err` = `None` -/
def pop (m : Mode) (t : HalfTape) : Run (Nat × HalfTape) := do
  let t ← normalize m t
  match t with
  | [] => .err
  | b :: t =>
    match b.rep.decrement, b.symbols with
    | none, _ => .err
    | some _, [] => .panic
    | some d, a :: s =>
      let t := if d.isZero then t else ⟨b.symbols, d⟩ :: t
      .ok (a, if s.isEmpty then t else ⟨s, .fin (.ofNat 1)⟩ :: t)

/-- `subst` (143-150) -/
def subst (m : Mode) (σ : Subst) : HalfTape → Run HalfTape
  | [] => .ok []
  | b :: t => do
    let n ← b.rep.subst m σ
    let t ← subst m σ t
    .ok (⟨b.symbols, n⟩ :: t)

/-- the loop of `replace` (177-224): remove `sub` from the top of `cur` -/
def strip (m : Mode) (fuel : Nat) : Nat → HalfTape → HalfTape → Run HalfTape
  | _, cur, [] => .ok cur
  | 0, _, _ :: _ => .timeout
  | _ + 1, [], _ :: _ => .err
  | k + 1, c :: cur, s :: sub =>
    if c.symbols = s.symbols then do
      let d ← c.rep.checkedSub m fuel s.rep
      match d with
      | some d => strip m fuel k (if d.isZero then cur else ⟨c.symbols, d⟩ :: cur) sub
      | none => .err
    else do
      let p ← (pop m (c :: cur)).try?
      let q ← (pop m (s :: sub)).try?
      match p, q with
      | some (a, cur), some (b, sub) => if a ≠ b then .err else strip m fuel k cur sub
      | _, _ => .err

/-- `replace` (173-237) -/
def replace (m : Mode) (fuel : Nat) (t old new : HalfTape) : Run HalfTape := do
  let cur ← normalize m t
  let sub ← normalize m old
  let rest ← strip m fuel fuel cur sub
  .ok (new ++ rest)

/-- `equivalent_to` (239-248) -/
def equivalent (m : Mode) (fuel : Nat) (t other : HalfTape) : Run Bool := do
  let r ← (replace m fuel t other []).try?
  match r with
  | some r => .ok r.isEmpty
  | none => .ok false

end HalfTape

namespace Config

/-- `Config::new` (273-292) -/
def new : Config := ⟨[⟨[0], .inf⟩], [⟨[0], .inf⟩], some 0, .R⟩

/-- `front_tape` (362-365) -/
def front (c : Config) : HalfTape := match c.dir with | .L => c.left | .R => c.right

/-- `step` (295-315) -/
def step (m : Mode) (tm : TM) (c : Config) : Run Config := do
  let p ← c.front.pop m
  let left := match c.dir with | .L => p.2 | .R => c.left
  let right := match c.dir with | .L => c.right | .R => p.2
  match c.state with
  | none => .err
  | some q => do
    let t ← tm.trans q p.1
    match t with
    | .undef => .err
    | .to w .L s => .ok ⟨left, right.push w, s, .L⟩
    | .to w .R s => .ok ⟨left.push w, right, s, .R⟩

/-- `step_n` (317-326) -/
def stepN (m : Mode) (tm : TM) : Nat → Config → Run Config
  | 0, c => .ok c
  | n + 1, c => do
    let c ← c.step m tm
    stepN m tm n c

/-- `subst` (328-337) -/
def subst (m : Mode) (σ : Subst) (c : Config) : Run Config := do
  let l ← c.left.subst m σ
  let r ← c.right.subst m σ
  .ok ⟨l, r, c.state, c.dir⟩

/-- `replace` (339-353) -/
def replace (m : Mode) (fuel : Nat) (c old new : Config) : Run Config :=
  if c.state = old.state ∧ c.dir = old.dir then do
    let l ← c.left.replace m fuel old.left new.left
    let r ← c.right.replace m fuel old.right new.right
    .ok ⟨l, r, new.state, new.dir⟩
  else .err

/-- `equivalent_to` (355-360) -/
def equivalent (m : Mode) (fuel : Nat) (c other : Config) : Run Bool :=
  if c.state = other.state ∧ c.dir = other.dir then do
    let l ← c.left.equivalent m fuel other.left
    if l then c.right.equivalent m fuel other.right else .ok false
  else .ok false

end Config

/-! ### `validator.rs` -/

/-- `ProofStep` (15-28) -/
inductive ProofStep where
  | tmSteps (n : Nat)
  | rule (id : Nat) (σ : Subst)
  | induct (σ : Subst)
  | admit
deriving DecidableEq, Repr

/-- `Proof` (30-41) -/
inductive Proof where
  | simple (steps : List ProofStep)
  | inductive (base step : List ProofStep)
deriving DecidableEq, Repr

/-- `Rule` (43-48) -/
structure Rule where
  init : Config
  final : Config
  proof : Proof
deriving DecidableEq, Repr

/-- `RuleSet` (50-56) -/
structure RuleSet where
  tm : TM
  rules : List Rule
deriving DecidableEq, Repr

/-- `INDUCTION_VAR` (13) -/
abbrev inductionVar : Nat := 0

/-- `try_apply_rule` (112-128) -/
def tryApply (m : Mode) (fuel : Nat) (c : Config) (r : Rule) (σ : Subst) : Run Config := do
  let i ← r.init.subst m σ
  let f ← r.final.subst m σ
  c.replace m fuel i f

/-- `apply_proof_step` (130-172) -/
def applyStep (m : Mode) (fuel : Nat) (tm : TM) (c : Config) (prev : List Rule) (ind : Option Rule) :
    ProofStep → Run Config
  | .tmSteps n => c.stepN m tm n
  | .rule id σ =>
    match prev[id]? with
    | none => .err
    | some r => tryApply m fuel c r σ
  | .induct σ =>
    match ind with
    | none => .err
    | some r =>
      if σ.get inductionVar ≠ some (.varPlus inductionVar 0) then .err else tryApply m fuel c r σ
  | .admit => .ok c

/-- `validate_proof` (174-201) -/
def validateProof (m : Mode) (fuel : Nat) (tm : TM) (prev : List Rule) (ind : Option Rule) (final : Config) :
    List ProofStep → Config → Run Unit
  | [], c => do
    let e ← c.equivalent m fuel final
    if e then .ok () else .err
  | .admit :: _, _ => .ok ()
  | s :: l, c => do
    let c ← applyStep m fuel tm c prev ind s
    validateProof m fuel tm prev ind final l c

/-- `validate_rule` (203-245) -/
def validateRule (m : Mode) (fuel : Nat) (tm : TM) (r : Rule) (prev : List Rule) : Run Unit :=
  match r.proof with
  | .simple p => validateProof m fuel tm prev none r.final p r.init
  | .inductive p q => do
    let i ← r.init.subst m [(inductionVar, .ofNat 0)]
    let f ← r.final.subst m [(inductionVar, .ofNat 0)]
    validateProof m fuel tm prev none f p i
    let i ← r.init.subst m [(inductionVar, .varPlus inductionVar 1)]
    let f ← r.final.subst m [(inductionVar, .varPlus inductionVar 1)]
    validateProof m fuel tm prev (some r) f q i

def validateRules (m : Mode) (fuel : Nat) (tm : TM) : List Rule → List Rule → Run Unit
  | _, [] => .ok ()
  | prev, r :: l => do
    validateRule m fuel tm r prev
    validateRules m fuel tm (prev ++ [r]) l

/-- `validate_rule_set` (247-254) -/
def validate (m : Mode) (fuel : Nat) (rs : RuleSet) : Run Unit := validateRules m fuel rs.tm [] rs.rules

/-- the code in a debug build -/
def debug : Mode := ⟨false, false⟩

/-- the code in a release build -/
def release : Mode := ⟨true, false⟩

/-- a debug build that stops when a variable would be captured -/
def strict : Mode := ⟨false, true⟩

end Model.Validator

import Verif.Model.ExpInt
import Mathlib.Algebra.Order.Ring.Rat
import Mathlib.Algebra.Order.Ring.Abs

/-!
# Model of the comparisons of `Code/Exp_Int.py`

Sign and tower value of `ExpInt`s (157-181, 295-326) and the comparisons made with them (466-507).  In Python both are computed when
an object is created; here they are functions of the object.  Logarithms and floating-point sums are a parameter (`Logs`).
With it, the remaining parameters of `Model.ExpInt` are given: the order of sorting, the exceptions of `ExpInt.__init__`, and the
comparison of an `ExpInt` with a number in `exp_mod`.
-/

namespace Model.ExpInt

/-- What is computed in floating point. -/
structure Logs where
  /-- `prec_add(prec_mult(exponent, log10(base)), log10(abs(coef)))` (178-179) -/
  log : (exponent base : Int) → (coef : Nat) → ℚ
  /-- `prec_add(top, -log10(denom))` (325) -/
  lower : ℚ → Int → ℚ

/-- `(height, top)`, standing for about `10^10^...^top` with `height` tens -/
abbrev Tower := Nat × ℚ

/-- Python's comparison of tuples -/
def Tower.lt (a b : Tower) : Bool := a.1 < b.1 || (a.1 == b.1 && decide (a.2 < b.2))

/-- `max` of two tuples -/
def Tower.max (a b : Tower) : Tower := if Tower.lt a b then b else a

/-- how an `ExpInt` gets sign and tower value from those of its terms (308-326): the largest towers of positive and of
negative terms -/
def combine (L : Logs) (pos neg : Tower) (d : Int) : Except Err (Int × Tower) :=
  if pos = neg then .error .expInt
  else
    let t := Tower.max pos neg
    let s : Int := if Tower.lt pos neg then -1 else 1
    if d ≠ 1 then
      if t.1 = 0 then .error .assertion
      else if t.1 = 1 then .ok (s, (1, L.lower t.2 d))
      else .ok (s, t)
    else .ok (s, t)

def isInt : Num → Bool
  | .int _ => true
  | .exp _ _ _ => false

mutual
/-- `sign` (112-116) and `tower_value` (102-110) of a number, with `ExpInt.eval` (295-326) -/
def info (L : Logs) : Num → Except Err (Int × Tower)
  | .int z => .ok (z.sign, (0, (z.natAbs : ℚ)))
  | .exp ts c d =>
    match evalSum ts with
    | some s => .ok (((s + c).fdiv d).sign, (0, (((s + c).fdiv d).natAbs : ℚ)))
    | none =>
      match towers L ts with
      | .error e => .error e
      | .ok (pos, neg) => combine L pos neg d
/-- the largest tower values of the positive and of the negative terms (308-311) -/
def towers (L : Logs) : List ETerm → Except Err (Tower × Tower)
  | [] => .ok ((0, 0), (0, 0))
  | t :: ts =>
    match infoT L t with
    | .error e => .error e
    | .ok (s, w) =>
      match towers L ts with
      | .error e => .error e
      | .ok (pos, neg) =>
        if 0 < s then .ok (Tower.max w pos, neg)
        else if s < 0 then .ok (pos, Tower.max w neg)
        else .ok (pos, neg)
/-- sign and tower value of a term: `ExpTerm.__init__` and `eval` (139, 157-181) -/
def infoT (L : Logs) : ETerm → Except Err (Int × Tower)
  | .mk b c e =>
    match tryEval e with
    | some k =>
      if k = 0 then (if isInt e then .error .assertion else .ok (c.sign, (1, 0)))
      else if k < 0 then .error .value
      else if k < 1000 then .ok (c.sign, (0, ((c * b ^ k.toNat).natAbs : ℚ)))
      else .ok (c.sign, (1, |L.log k b c.natAbs|))
    | none =>
      match info L e with
      | .error x => .error x
      | .ok (_, (h, t)) => if t < 0 then .error .assertion else .ok (c.sign, (h + 1, t))
end

/-- the tower value by which `normalize_terms` sorts -/
def sortKey (L : Logs) (t : ETerm) : Tower :=
  match info L t.exponent with
  | .ok (_, w) => w
  | .error _ => (0, 0)      -- not for objects that exist

/-- insert before the first element with a smaller key -/
def insertDesc (L : Logs) (t : ETerm) : List ETerm → List ETerm
  | [] => [t]
  | u :: us => if Tower.lt (sortKey L u) (sortKey L t) then t :: u :: us else u :: insertDesc L t us

/-- `sorted(terms, key=lambda t: tower_value(t.exponent), reverse=True)` (236): descending and stable -/
def sortDesc (L : Logs) (ts : List ETerm) : List ETerm := ts.foldl (fun acc t => insertDesc L t acc) []

mutual
/-- `exp_int_depth` (118-124) with lines 144 and 267 -/
def depth : Num → Nat
  | .int _ => 0
  | .exp ts _ _ => depths ts
def depths : List ETerm → Nat
  | [] => 0
  | t :: ts => max (depthT t) (depths ts)
def depthT : ETerm → Nat
  | .mk _ _ e => depth e + 1
end

/-- the parameters of `Model.ExpInt` except the comparison; `MAX_DEPTH` is 10000 (15, 267-269) -/
def floats0 (L : Logs) (math : Math.Floats) : Floats where
  math := math
  order := sortDesc L
  check := fun ts c d =>
    if depth (.exp ts c d) > 10000 then some .expInt
    else
      match info L (.exp ts c d) with
      | .error e => some e
      | .ok _ => none
  lt := fun _ _ => true

mutual
/-- `__gt__` (467-480) of an `ExpInt` and a number.  `fuel` bounds the depth of calls. -/
def gt (L : Logs) (math : Math.Floats) : Nat → Num → Num → Except Err Bool
  | 0, _, _ => .error .diverges
  | f + 1, a, b =>
    match info L a with
    | .error e => .error e
    | .ok (sa, ta) =>
      if sa < 0 then
        match neg (floats0 L math) f a with
        | .error e => .error e
        | .ok na =>
          match neg (floats0 L math) f b with
          | .error e => .error e
          | .ok nb => (ge L math f na nb).map not
      else
        match info L b with
        | .error e => .error e
        | .ok (sb, tb) => if sb < 0 then .ok true else .ok (Tower.lt tb ta)
/-- `__ge__` (482-495) -/
def ge (L : Logs) (math : Math.Floats) : Nat → Num → Num → Except Err Bool
  | 0, _, _ => .error .diverges
  | f + 1, a, b =>
    match info L a with
    | .error e => .error e
    | .ok (sa, ta) =>
      if sa < 0 then
        match neg (floats0 L math) f a with
        | .error e => .error e
        | .ok na =>
          match neg (floats0 L math) f b with
          | .error e => .error e
          | .ok nb => (gt L math f na nb).map not
      else
        match info L b with
        | .error e => .error e
        | .ok (sb, tb) => if sb < 0 then .ok true else .ok (!Tower.lt ta tb)
end

/-- `__lt__` (504-505) -/
def lt (L : Logs) (math : Math.Floats) (fuel : Nat) (a b : Num) : Except Err Bool := (ge L math fuel a b).map not

/-- `__le__` (506-507) -/
def le (L : Logs) (math : Math.Floats) (fuel : Nat) (a b : Num) : Except Err Bool := (gt L math fuel a b).map not

/-- The parameters of `Model.ExpInt` as they are.  A comparison that raises counts as "less": `exp_mod` raises in both cases. -/
def floats (L : Logs) (math : Math.Floats) (fuel : Nat) : Floats :=
  { floats0 L math with
    lt := fun k k0 =>
      match lt L math fuel k (.int k0) with
      | .ok b => b
      | .error _ => true }

end Model.ExpInt

/-!
# Model of `Code/Math.py`

Integers of Python are `Int`; where the code has already made sure of a sign the model uses `Nat`.  Exceptions are values of
`Err`.  The two floating-point expressions of `int_pow` are parameters (`Floats`): nothing is assumed about them here.
-/

namespace Model

/-- The exceptions the number code raises; `diverges` is not an exception but a loop that does not end. -/
inductive Err where
  | zeroDivision | assertion | notImplemented | value | overflow | expInt | badOperation | type | diverges
deriving DecidableEq, Repr

instance {ε α} [DecidableEq ε] [DecidableEq α] : DecidableEq (Except ε α) := fun x y =>
  match x, y with
  | .ok a, .ok b => if h : a = b then isTrue (by rw [h]) else isFalse (by intro e; cases e; exact h rfl)
  | .error a, .error b => if h : a = b then isTrue (by rw [h]) else isFalse (by intro e; cases e; exact h rfl)
  | .ok _, .error _ => isFalse (by intro e; cases e)
  | .error _, .ok _ => isFalse (by intro e; cases e)

namespace Math

/-- `while b > 0: a, b = b, a % b` (Math.py:11-13).  The fuel is the initial `b + 1`; `C43_gcd` shows it is never used up. -/
def gcdLoop : Nat → Nat → Nat → Nat
  | 0, a, _ => a
  | f + 1, a, b => if b > 0 then gcdLoop f b (a % b) else a

/-- `gcd` (Math.py:6-14). -/
def gcd (a b : Int) : Int :=
  let a := a.natAbs
  let b := b.natAbs
  if b > a then gcdLoop (a + 1) b a else gcdLoop (b + 1) a b

/-- `lcm` (Math.py:16-17): `a * b // gcd(a, b)`. -/
def lcm (a b : Int) : Except Err Int :=
  if gcd a b = 0 then .error .zeroDivision else .ok ((a * b).fdiv (gcd a b))

/-- The floating-point results `int_pow` uses: `int(math.sqrt(n))` (`none`: `OverflowError`) and
`int(round(math.log(n, m)))` (Math.py:21-22). -/
structure Floats where
  isqrt : Nat → Option Nat
  ilog : Nat → Nat → Nat

/-- The loop of `int_pow` over the candidates `m` (Math.py:21-25). -/
def intPowLoop (F : Floats) (n : Nat) : List Nat → Nat × Nat
  | [] => (n, 1)
  | m :: ms => if m ^ F.ilog n m = n then (m, F.ilog n m) else intPowLoop F n ms

/-- `int_pow` (Math.py:19-25); `math.sqrt` of a negative number raises `ValueError`. -/
def intPow (F : Floats) (n : Int) : Except Err (Nat × Nat) :=
  if n < 0 then .error .value else
    match F.isqrt n.toNat with
    | none => .error .overflow
    | some s => .ok (intPowLoop F n.toNat (List.range' 2 (s + 1 - 2)))

/-- `_primes` (Math.py:28-29). -/
def primes : List Nat :=
  [2, 3, 5, 7, 11, 13, 17, 19, 23, 29, 31, 37, 41, 43, 47, 53, 59, 61, 67, 71, 73, 79, 83, 89, 97]

/-- `while n % p == 0: k += 1; n //= p` (Math.py:37-39).  The fuel is the initial `n`. -/
def divOut (p : Nat) : Nat → Nat → Nat → Nat × Nat
  | 0, n, k => (n, k)
  | f + 1, n, k => if n % p = 0 then divOut p f (n / p) (k + 1) else (n, k)

/-- The loop of `prime_factor` over the primes (Math.py:35-44). -/
def primeFactorLoop : List Nat → Nat → List (Nat × Nat) → Except Err (List (Nat × Nat))
  | [], _, _ => .error .notImplemented
  | p :: ps, n, res =>
    let (n', k) := divOut p n n 0
    let res := if k ≠ 0 then res ++ [(p, k)] else res
    if n' = 1 then .ok res else primeFactorLoop ps n' res

/-- `prime_factor` (Math.py:31-44). -/
def primeFactor (n : Int) : Except Err (List (Nat × Nat)) :=
  if n > 0 then primeFactorLoop primes n.toNat [] else .error .assertion

/-- `lam_pk` (Math.py:55-58). -/
def lamPk (p k : Nat) : Nat := if p = 2 ∧ k ≥ 3 then 2 ^ (k - 2) else (p - 1) * p ^ (k - 1)

/-- The loop of `carmichael` (Math.py:54-60). -/
def carmichaelLoop : List (Nat × Nat) → Int → Nat → Except Err (Int × Nat)
  | [], res, maxK => .ok (res, maxK)
  | (p, k) :: rest, res, maxK =>
    match lcm res (lamPk p k) with
    | .error e => .error e
    | .ok res => carmichaelLoop rest res (max maxK k)

/-- `carmichael` (Math.py:47-61). -/
def carmichael (n : Int) : Except Err (Int × Nat) :=
  match primeFactor n with
  | .error e => .error e
  | .ok pf => carmichaelLoop pf 1 1

/-- `pow(b, k, m)` for `k ≥ 0` (used in Math.py:70, 74): Python's `%` takes the sign of the divisor. -/
def powMod (b : Int) (k : Nat) (m : Int) : Int := (b ^ k).fmod m

/-- `exp_mod` (Math.py:63-74) for an exponent that is a non-negative integer.  The unused `a = gcd(b, m)` cannot raise and is
left out. -/
def expMod (b : Int) (k : Nat) (m : Int) : Except Err Int :=
  match carmichael m with
  | .error e => .error e
  | .ok (kp, k0) =>
    if k < k0 then .ok (powMod b k m) else .ok (powMod b ((((k : Int) - k0).fmod kp) + k0).toNat m)

end Math
end Model

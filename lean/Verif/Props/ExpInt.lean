import Verif.Lemmas.ExpInt

/-!
# C47: exponential integers compute exactly

"Arithmetic on integers in the form (sum of a*b^n + c)/d - addition, subtraction, multiplication, division, remainder - gives
the exact integer result, and normalisation does not change the value."

`Spec.Denotes a z` (Spec/ExpInt.lean) says that `a` is well-formed and its value is the integer `z`.  The operations may raise
(sums of different bases, undecidable signs, moduli with large prime factors, negative divisors); the theorems are about every
result that is returned, and so are partial.  The floating-point parts are parameters: sorting is assumed to permute.
Remainders also depend on comparisons of exponents: `C47_mod_partial` assumes that they are right, `C47_mod_mild_partial` in
Props/ExpCompare.lean shows it for a class of numbers, and `C47_mod_false` there shows that it does not hold for all.
-/

namespace Props
open Model Model.ExpInt Spec

variable {F : Floats}

/-- **C47, partial** (if a result is returned).  The sum is exact. -/
theorem C47_add_partial (hF : FloatsOk F) (fuel : Nat) {a b r : Num} {x y : Int} (ha : Denotes a x) (hb : Denotes b y)
    (h : addN F fuel a b = .ok r) : Denotes r (x + y) := (sound hF fuel).add a b x y r ha hb h

/-- **C47, partial.** The product is exact. -/
theorem C47_mul_partial (hF : FloatsOk F) (fuel : Nat) {a b r : Num} {x y : Int} (ha : Denotes a x) (hb : Denotes b y)
    (h : mulN F fuel a b = .ok r) : Denotes r (x * y) := (sound hF fuel).mul a b x y r ha hb h

/-- **C47, partial.** Negation and difference are exact. -/
theorem C47_sub_partial (hF : FloatsOk F) (fuel : Nat) {a b : Num} {x y : Int} (ha : Denotes a x) (hb : Denotes b y) :
    (∀ r, neg F fuel b = .ok r → Denotes r (-y)) ∧ (∀ r, ExpInt.sub F fuel a b = .ok r → Denotes r (x - y)) := by
  have hneg : ∀ r, neg F fuel b = .ok r → Denotes r (-y) := by
    intro r h
    have := C47_mul_partial hF fuel hb (numIs_int (-1)) h
    rwa [Int.mul_neg_one] at this
  refine ⟨hneg, ?_⟩
  intro r h
  unfold ExpInt.sub at h
  split at h
  · next z w =>
    cases h
    have h1 := ha.2; have h2 := hb.2
    simp only [Num.value] at h1 h2
    have h1 : z = x := by exact_mod_cast h1
    have h2 : w = y := by exact_mod_cast h2
    rw [h1, h2]; exact numIs_int _
  · split at h
    · cases h
    · next nb hnb =>
      have := C47_add_partial hF fuel (hneg nb hnb) ha h
      rwa [show -y + x = x - y by omega] at this
  · split at h
    · cases h
    · next nb hnb =>
      have := C47_add_partial hF fuel ha (hneg nb hnb) h
      rwa [← Int.sub_eq_add_neg] at this

/-- **C47, partial.** A power `base ^ n` is represented exactly. -/
theorem C47_exp_int_partial (hF : FloatsOk F) (fuel : Nat) (base : Int) {e r : Num} {n : Nat} (he : Denotes e n)
    (h : expInt F fuel base e = .ok r) : Denotes r (base ^ n) := by
  unfold expInt at h
  split at h
  · cases h
    have := he.2
    simp only [Num.value] at this
    have : n = 0 := by exact_mod_cast this.symm
    subst this
    rw [pow_zero]; exact numIs_int 1
  · split at h
    · cases h
    · next t ht =>
      have h1 := (sound hF fuel).term base 1 e n t (by simpa [Denotes, NumIs] using he) ht
      have h2 := ((sound hF fuel).int [t] 0 1 r (by simp only [AllWF, and_true]; exact h1.1) h).1
      refine ⟨h2.1, ?_⟩
      rw [h2.2]; simp [termsValue, h1.2]

/-- **C47, partial.** Division is exact: the quotient times the divisor is the dividend. -/
theorem C47_div_partial (hF : FloatsOk F) (fuel : Nat) {ts : List ETerm} {c d : Int} {b r : Num} {x y : Int}
    (ha : Denotes (.exp ts c d) x) (hb : Denotes b y) (h : trueDiv F fuel ts c d b = .ok r) :
    y ≠ 0 ∧ Num.WF r ∧ Num.value r * y = x := by
  unfold trueDiv at h
  split at h
  · cases h
  · next z hz =>
    have := tryEval_sound hb hz
    subst this
    split at h
    · cases h
    · next hz0 =>
      obtain ⟨p1, p2⟩ := int_of_denom ha
      have hw := ha.1; simp only [Num.WF] at hw
      have h2 := ((sound hF fuel).int ts c (d * z) r hw.2.2.2 h).1
      refine ⟨hz0, h2.1, ?_⟩
      have hdq : (d : ℚ) ≠ 0 := by exact_mod_cast (by omega : d ≠ 0)
      have hzq : (z : ℚ) ≠ 0 := by exact_mod_cast hz0
      rw [h2.2, p1]; push_cast; field_simp

/-- **C47, partial.** The remainder is the remainder of the exact value, and a number that is not an integer is not given
one (except modulo 1).  Assumed: comparisons of the exponents in the number with numbers up to `K` are right, their fractions
are in lowest terms with denominators up to `B`, and the modulus is not out of proportion to `K`. -/
theorem C47_mod_partial (hF : FloatsOk F) (fuel : Nat) {K B : Nat} (hB : 2 ≤ B) {ts : List ETerm} {c d : Int} {b : Num}
    {y r : Int} (ha : Num.WF (.exp ts c d)) (hg : Num.Exponents (GoodExponent F K B) (.exp ts c d))
    (hK : d * y * (B : Int) ^ fuel ≤ 2 ^ K) (hb : Denotes b y) (h : modN F fuel ts c d b = .ok r) :
    0 < y ∧ (∀ x : Int, Denotes (.exp ts c d) x → r = x % y) ∧ (y ≠ 1 → ∃ x : Int, Denotes (.exp ts c d) x) := by
  obtain ⟨h1, h2, h3⟩ := (modSound hF hB fuel).mod ts c d b y r ha hg hK hb h
  exact ⟨h1, fun x hx => h3 x hx.2, fun h => (h2 h).imp fun x hx => ⟨ha, hx⟩⟩

/-- **C47, partial.** Division with remainder is exact, under the same assumptions. -/
theorem C47_divmod_partial (hF : FloatsOk F) (fuel : Nat) {K B : Nat} (hB : 2 ≤ B) {ts : List ETerm} {c d : Int} {b q : Num}
    {x y r : Int} (ha : Denotes (.exp ts c d) x) (hg : Num.Exponents (GoodExponent F K B) (.exp ts c d))
    (hK : d * y * (B : Int) ^ fuel ≤ 2 ^ K) (hb : Denotes b y) (h : divMod F fuel ts c d b = .ok (q, r)) :
    0 < y ∧ r = x % y ∧ Denotes q (x / y) := by
  unfold divMod at h
  split at h
  · cases h
  · next r' hr =>
    obtain ⟨h1, h2, -⟩ := C47_mod_partial hF fuel hB ha.1 hg hK hb hr
    have h2 := h2 x ha
    split at h
    · cases h
    · cases h
    · next ts' c' d' hadd =>
      split at h
      · cases h
      · next q' hq =>
        cases h
        have hs := C47_add_partial hF fuel ha (numIs_int (-r)) hadd
        obtain ⟨k1, k2, k3⟩ := C47_div_partial hF fuel hs hb hq
        refine ⟨h1, h2, k2, ?_⟩
        have hyq : (y : ℚ) ≠ 0 := by exact_mod_cast k1
        have hxy : x + -r = (x / y) * y := by
          have := Int.emod_add_mul_ediv x y
          rw [Int.mul_comm] at this; omega
        rw [hxy] at k3
        push_cast at k3
        exact mul_right_cancel₀ hyq k3

/-- **C47.** `try_eval` returns the exact value or nothing. -/
theorem C47_eval {a : Num} {x v : Int} (ha : Denotes a x) (h : tryEval a = some v) : v = x := tryEval_sound ha h

/-- **C47, partial.** Normalisation (of the term, of a list of terms, of the fraction) keeps the value. -/
theorem C47_normalize_partial (hF : FloatsOk F) (fuel : Nat) :
    (∀ (b c : Int) (e : Num) (n : Nat) t, Denotes e n → mkTerm F fuel b c e = .ok t →
      ETerm.WF t ∧ ETerm.value t = c * (b : ℚ) ^ n) ∧
    (∀ ts r, AllWF ts → normalizeTerms F fuel ts = .ok r → AllWF r ∧ termsValue r = termsValue ts) ∧
    (∀ ts c d r, AllWF ts → mkInt F fuel ts c d = .ok r → Num.WF r ∧ Num.value r = (termsValue ts + c) / d) :=
  ⟨fun b c e n t he h => (sound hF fuel).term b c e n t (by simpa [Denotes, NumIs] using he) h,
    (sound hF fuel).norm, fun ts c d r hw h => ((sound hF fuel).int ts c d r hw h).1⟩

/-! ### Concrete cases -/

/-- A logarithm by counting. -/
def countLog (n m : Nat) : Nat := ((List.range n).filter (fun k => m ^ (k + 1) ≤ n)).length

/-- Exact versions of the floating-point parts, good enough for small examples. -/
def exF : Floats where
  math := ⟨fun n => some n, countLog⟩
  order := id
  check := fun _ _ _ => none
  lt := fun a k0 => match tryEval a with | some z => z < k0 | none => true

theorem exF_ok : FloatsOk exF where
  order := fun ts => List.Perm.refl ts

/-- the comparison of `exF` is always right when it says "not smaller" -/
theorem exF_compared (K : Nat) (e : Num) : ComparedRight exF K e := by
  intro n k0 h _ hlt
  simp only [exF] at hlt
  split at hlt
  · next v hv => rw [tryEval_sound h hv] at hlt; simpa using hlt
  · cases hlt

/-- `2^5000`, from the base 4. -/
def big : Num := .exp [.mk 2 1 (.int 5000)] 0 1

example : Denotes big (2 ^ 5000) := by
  refine ⟨⟨by simp, by omega, rfl, ⟨by omega, by omega, trivial, 5000, by simp [Num.value]⟩, trivial⟩, ?_⟩
  simp [big, Num.value, termsValue, ETerm.value]

-- the operations return results
example : (structEq · big) <$> expInt exF 9 4 (.int 2500) = .ok true := by decide +kernel
example : (structEq · (.exp [.mk 2 3 (.int 5001)] 7 1)) <$>
    addN exF 9 (.exp [.mk 2 3 (.int 5001)] 5 1) (.int 2) = .ok true := by decide +kernel
example : (structEq · (.exp [.mk 2 1 (.int 10000), .mk 2 3 (.int 5000)] 0 1)) <$>
    mulN exF 9 (.exp [.mk 2 1 (.int 5000)] 3 1) big = .ok true := by decide +kernel
example : modN exF 9 [.mk 3 1 (.int 5000)] 1 2 (.int 7) = .ok ((3 ^ 5000 + 1) / 2 % 7) := by decide +kernel
example : modN exF 9 [.mk 3 1 (.exp [.mk 2 1 (.int 10)] 0 1)] 1 2 (.int 7) = .ok ((3 ^ 1024 + 1) / 2 % 7) := by decide +kernel
-- and the assumptions on exponents are met
example : Num.Exponents (GoodExponent exF 100 2) (.exp [.mk 3 1 (.exp [.mk 2 1 (.int 10)] 0 1)] 1 2) ∧
    (2 : Int) * 7 * (2 : Nat) ^ 9 ≤ 2 ^ 100 := by
  refine ⟨⟨⟨⟨exF_compared _ _, ?_, by decide⟩, ?_⟩, trivial⟩, by norm_num⟩
  · intro g h1 _ _
    have : (g : Int).natAbs ∣ 1 := Int.natAbs_dvd_natAbs.2 h1
    simpa using this
  · exact ⟨⟨⟨exF_compared _ _, trivial, by decide⟩, trivial⟩, trivial⟩
example : (fun p => (structEq p.1 (.exp [.mk 2 1 (.int 5000)] (-4) 12), p.2)) <$>
    divMod exF 9 [.mk 2 1 (.int 5000)] (-1) 3 (.int 4) = .ok (true, 1) := by decide +kernel

/-! ### What is refused -/

/-- The exception raised, if any. -/
def raised {α : Type} : Except Err α → Option Err
  | .ok _ => none
  | .error e => some e

/-- "Division" fails for a negative divisor: the sign is meant to move to the numerator, but the common divisor is made
positive again by the next `gcd`, and the assertion on the denominator fails. -/
theorem C47_div_negative_raises : raised (trueDiv exF 9 [.mk 2 1 (.int 5000)] 0 1 (.int (-2))) = some .assertion := by decide +kernel

/-- Numbers of different bases cannot be added or multiplied. -/
theorem C47_bases_raise : raised (addN exF 9 big (.exp [.mk 3 1 (.int 5000)] 0 1)) = some .assertion ∧
    raised (mulN exF 9 big (.exp [.mk 3 1 (.int 5000)] 0 1)) = some .expInt := by decide +kernel

/-- A remainder modulo a number with a prime factor above 97 is refused. -/
theorem C47_mod_raises : modN exF 9 [.mk 2 1 (.int 5000)] 0 1 (.int 101) = .error .notImplemented := by decide +kernel

end Props

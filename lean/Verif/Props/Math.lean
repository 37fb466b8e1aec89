import Verif.Lemmas.Math

/-!
# C43: number theory helpers
-/

namespace Props
open Model Model.Math

/-- **C43.** `gcd` is the greatest common divisor: non-negative, a common divisor, and divisible by every common divisor. -/
theorem C43_gcd (a b : Int) : 0 ≤ Math.gcd a b ∧ Math.gcd a b ∣ a ∧ Math.gcd a b ∣ b ∧ ∀ d, d ∣ a → d ∣ b → d ∣ Math.gcd a b := by
  rw [gcd_eq]
  exact ⟨by omega, Int.gcd_dvd_left _ _, Int.gcd_dvd_right _ _, fun d h1 h2 => Int.dvd_coe_gcd h1 h2⟩

example : Math.gcd (-84) 36 = 12 := by decide

/-- **C43.** `lcm` of positive numbers is the least common multiple: positive, a common multiple, and a divisor of every
common multiple. -/
theorem C43_lcm (a b : Int) (ha : 0 < a) (hb : 0 < b) :
    ∃ l, Math.lcm a b = .ok l ∧ 0 < l ∧ a ∣ l ∧ b ∣ l ∧ ∀ d, a ∣ d → b ∣ d → l ∣ d := by
  obtain ⟨a, rfl⟩ := Int.eq_ofNat_of_zero_le (Int.le_of_lt ha)
  obtain ⟨b, rfl⟩ := Int.eq_ofNat_of_zero_le (Int.le_of_lt hb)
  refine ⟨_, lcm_nat (Or.inl (by omega)), ?_, ?_, ?_, ?_⟩
  · exact_mod_cast Nat.lcm_pos (by omega) (by omega)
  · exact_mod_cast Nat.dvd_lcm_left a b
  · exact_mod_cast Nat.dvd_lcm_right a b
  · intro d h1 h2
    rw [Int.natCast_dvd] at *
    exact Nat.lcm_dvd h1 h2

example : Math.lcm 12 18 = .ok 36 := by decide

/-- **C43.** `lcm(0, 0)` raises `ZeroDivisionError` (and nothing else does); with arguments of different signs the result is
negative. -/
theorem C43_lcm_edge : (∀ a b, Math.lcm a b = .error .zeroDivision ↔ a = 0 ∧ b = 0) ∧ Math.lcm (-2) 3 = .ok (-6) := by
  refine ⟨fun a b => ?_, by decide⟩
  unfold Math.lcm
  rw [gcd_eq]
  constructor
  · intro h
    split at h
    · next h' => exact Int.gcd_eq_zero_iff.1 (by exact_mod_cast h')
    · cases h
  · rintro ⟨rfl, rfl⟩; simp

/-- **C43.** Whatever the floating-point functions return, a result of `int_pow` represents its argument. -/
theorem C43_int_pow_value (F : Floats) (n : Int) (m k : Nat) (h : intPow F n = .ok (m, k)) : (m : Int) ^ k = n := by
  unfold intPow at h
  split at h
  · cases h
  · split at h
    · cases h
    · next s _ =>
      have := intPowLoop_pow F n.toNat (List.range' 2 (s + 1 - 2))
      simp only [Except.ok.injEq] at h
      rw [h] at this
      have h2 : ((n.toNat : Nat) : Int) = n := by omega
      rw [← h2, ← this]; push_cast; rfl

/-- The two floating-point values `int_pow` uses are accurate enough for `n`. -/
structure Accurate (F : Floats) (n : Nat) : Prop where
  sqrt : ∃ s, F.isqrt n = some s ∧ ∀ m, m * m ≤ n → m ≤ s
  log : ∀ m k, 2 ≤ m → m ^ k = n → F.ilog n m = k

/-- **C43.** If the floating-point values are accurate, `int_pow` returns the smallest base of which its argument (at least 2)
is a power, and the exponent. -/
theorem C43_int_pow_least (F : Floats) (n : Nat) (hn : 2 ≤ n) (hF : Accurate F n) :
    ∃ m k, intPow F n = .ok (m, k) ∧ m ^ k = n ∧ ∀ m' k', m' ^ k' = n → m ≤ m' := by
  obtain ⟨s, hs, hs'⟩ := hF.sqrt
  have heq : intPow F n = .ok (intPowLoop F n (List.range' 2 (s + 1 - 2))) := by
    unfold intPow
    rw [if_neg (by omega), Int.toNat_natCast, hs]
  refine ⟨_, _, heq, intPowLoop_pow F n _, ?_⟩
  intro m' k' h
  have hm' : 2 ≤ m' := by
    rcases Nat.lt_or_ge m' 2 with h1 | h1
    · have : m' = 0 ∨ m' = 1 := by omega
      rcases this with rfl | rfl
      · rcases Nat.eq_zero_or_pos k' with rfl | hk
        · simp at h; omega
        · rw [Nat.zero_pow hk] at h; omega
      · simp at h; omega
    · exact h1
  by_cases hin : m' ≤ s
  · apply intPowLoop_min F n hF.log _ (List.pairwise_lt_range' ) _ m' k' _ h
    · intro m hm; rw [List.mem_range'_1] at hm; omega
    · rw [List.mem_range'_1]; omega
  · -- `m'` is beyond the root, so `n` is its first power and bounds every result
    have h1 : ¬ m' * m' ≤ n := fun h => hin (hs' m' h)
    have hk' : k' = 1 := by
      rcases Nat.lt_or_ge k' 2 with hk | hk
      · rcases (show k' = 0 ∨ k' = 1 by omega) with rfl | rfl
        · simp at h; omega
        · rfl
      · have := Nat.pow_le_pow_right (n := m') (by omega) hk
        rw [h, Nat.pow_two] at this
        exact absurd this h1
    subst hk'
    rw [Nat.pow_one] at h
    subst h
    -- the result's power is `n`
    have hp := intPowLoop_pow F m' (List.range' 2 (s + 1 - 2))
    generalize intPowLoop F m' (List.range' 2 (s + 1 - 2)) = r at hp
    have hr : r.2 ≠ 0 := by intro h0; rw [h0] at hp; simp at hp; omega
    rw [← hp]
    exact Nat.le_self_pow hr _

/-- Exact square root and logarithm, as far as the model's example needs them. -/
def exactFloats : Floats := ⟨fun n => some (Nat.sqrt n), fun n m => Nat.log m n⟩

theorem exactFloats_accurate (n : Nat) : Accurate exactFloats n :=
  ⟨⟨_, rfl, fun m h => Nat.le_sqrt.2 h⟩, fun m k hm h => by subst h; exact Nat.log_pow (by omega) k⟩

example : intPow exactFloats 64 = .ok (2, 6) := by
  have : Nat.sqrt 64 = 8 := (Nat.eq_sqrt.2 (by omega)).symm
  simp only [intPow, exactFloats]
  simp only [show ((64 : Int).toNat) = 64 from rfl, this]
  rw [if_neg (by omega)]
  have : Nat.log 2 64 = 6 := Nat.log_pow (b := 2) (by omega) 6
  simp [intPowLoop, List.range', this]

/-- **C43.** A result of `prime_factor` is the prime factorisation: increasing primes, positive exponents, and the product
of the prime powers is the argument. -/
theorem C43_prime_factor (n : Int) (l : List (Nat × Nat)) (h : primeFactor n = .ok l) :
    0 < n ∧ (∀ x ∈ l, x.1.Prime ∧ 0 < x.2) ∧ l.Pairwise (fun x y => x.1 < y.1) ∧
      (((l.map (fun x => x.1 ^ x.2)).prod : Nat) : Int) = n := by
  have h0 : 0 < n := by
    by_contra hn
    unfold primeFactor at h
    rw [if_neg (by omega)] at h
    cases h
  obtain ⟨n, rfl⟩ := Int.eq_ofNat_of_zero_le (Int.le_of_lt h0)
  obtain ⟨h1, h2⟩ := (primeFactor_nat n (by omega)).1 l h
  exact ⟨h0, fun x hx => ⟨h1.prime x hx, h1.pos x hx⟩, h1.sorted, by rw [← h2]; rfl⟩

/-- **C43.** `prime_factor` answers exactly for the positive numbers without a prime factor above 97. -/
theorem C43_prime_factor_domain (n : Nat) (h0 : 0 < n) :
    ((∃ l, primeFactor n = .ok l) ↔ ∀ q, q.Prime → q ∣ n → q ≤ 97) ∧
    (∀ e, primeFactor n = .error e → e = .notImplemented) :=
  ⟨(primeFactor_nat n h0).2.1, (primeFactor_nat n h0).2.2⟩

example : primeFactor 360 = .ok [(2, 3), (3, 2), (5, 1)] := by decide +kernel

/-- The claim "for every positive integer" is false: 101 is refused, and with it every modulus it divides. -/
theorem C43_prime_factor_refuses : primeFactor 101 = .error .notImplemented ∧ expMod 2 200 202 = .error .notImplemented := by
  decide +kernel

/-- **C43, partial** (only moduli without a prime factor above 97).  The first result of `carmichael` is the least positive
exponent that sends every number coprime to `n` to 1; the second is the largest exponent in the factorisation (at least 1). -/
theorem C43_carmichael_partial (n : Nat) (h0 : 0 < n) (hs : ∀ q, q.Prime → q ∣ n → q ≤ 97) :
    ∃ lam e : Nat, carmichael n = .ok (lam, e) ∧ 0 < lam ∧
      (∀ a : Nat, a.Coprime n → a ^ lam ≡ 1 [MOD n]) ∧
      (∀ j, 0 < j → (∀ a : Nat, a.Coprime n → a ^ j ≡ 1 [MOD n]) → lam ≤ j) ∧
      1 ≤ e ∧ (∀ p k : Nat, p.Prime → p ^ k ∣ n → k ≤ e) := by
  obtain ⟨l, hl⟩ := (primeFactor_nat n h0).2.1.2 hs
  have hne : NeZero n := ⟨by omega⟩
  obtain ⟨h1, h2⟩ := (primeFactor_nat n h0).1 l hl
  refine ⟨_, _, carmichael_ok h0 hl, ?_, ?_, ?_, (foldl_max_ge _ 1).1, ?_⟩
  · rw [ArithmeticFunction.carmichael_eq_exponent']
    exact Monoid.exponent_ne_zero_of_finite.bot_lt
  · intro a ha
    have := ArithmeticFunction.pow_carmichael (ZMod.unitOfCoprime a ha)
    rw [← ZMod.natCast_eq_natCast_iff]
    have h := congrArg (fun u : (ZMod n)ˣ => (u : ZMod n)) this
    rw [Units.val_pow_eq_pow_val, ZMod.coe_unitOfCoprime] at h
    push_cast
    exact h
  · intro j hj h
    rw [ArithmeticFunction.carmichael_eq_exponent']
    apply Nat.le_of_dvd hj
    apply Monoid.exponent_dvd_of_forall_pow_eq_one
    intro u
    have hc : (u : ZMod n).val.Coprime n := ZMod.val_coe_unit_coprime u
    have := h _ hc
    rw [← ZMod.natCast_eq_natCast_iff] at this
    push_cast at this
    rw [ZMod.natCast_zmod_val] at this
    ext
    simpa using this
  · intro p k hp hd
    rcases Nat.eq_zero_or_pos k with rfl | hk
    · omega
    · have : ∃ x ∈ l, p ^ k ∣ x.1 ^ x.2 := by
        rw [← h2] at hd
        clear h2 hl hs h0 hne
        induction l with
        | nil =>
          exfalso
          have : p ^ k = 1 := Nat.dvd_one.1 (by simpa [prodPow] using hd)
          have := (Nat.pow_eq_one.1 this)
          have := hp.one_lt
          omega
        | cons x l ih =>
          have hx := h1.prime x (by simp)
          have heq : prodPow (x :: l) = x.1 ^ x.2 * prodPow l := by simp [prodPow]
          rw [heq] at hd
          by_cases hpx : p = x.1
          · subst hpx
            refine ⟨x, by simp, ?_⟩
            have hco := coprime_prodPow (k := k) hx h1.tail (fun y hy => (List.pairwise_cons.1 h1.sorted).1 y hy)
            exact hco.dvd_of_dvd_mul_right hd
          · have hco : Nat.Coprime (p ^ k) (x.1 ^ x.2) := Nat.Coprime.pow _ _ ((Nat.coprime_primes hp hx).2 hpx)
            obtain ⟨y, hy, hyd⟩ := ih h1.tail (hco.dvd_of_dvd_mul_left hd)
            exact ⟨y, by simp [hy], hyd⟩
      obtain ⟨x, hx, hd⟩ := this
      have hxp := h1.prime x hx
      have hpx : p = x.1 := (Nat.prime_dvd_prime_iff_eq hp hxp).1 (hp.dvd_of_dvd_pow (dvd_trans (dvd_pow_self p (by omega)) hd))
      have hle : k ≤ x.2 := by
        subst hpx
        exact (Nat.pow_dvd_pow_iff_le_right hxp.one_lt).1 hd
      exact Nat.le_trans hle ((foldl_max_ge _ 1).2 _ (List.mem_map_of_mem hx))

example : carmichael 360 = .ok (12, 3) := by decide +kernel

/-- **C43, partial** (only moduli without a prime factor above 97).  `exp_mod` is the power modulo `m`, for every base, also
one that is not coprime to the modulus, and every exponent. -/
theorem C43_exp_mod_partial (b : Int) (k m : Nat) (hm : 0 < m) (hs : ∀ q, q.Prime → q ∣ m → q ≤ 97) :
    expMod b k m = .ok (b ^ k % m) :=
  expMod_eq hm hs b k

/-- **C43.** For every modulus, `exp_mod` gives the right power or raises. -/
theorem C43_exp_mod_sound (b : Int) (k : Nat) (m r : Int) (h : expMod b k m = .ok r) : 0 < m ∧ r = b ^ k % m := by
  have hm : 0 < m := by
    by_contra hn
    unfold expMod carmichael primeFactor at h
    rw [if_neg (by omega)] at h
    cases h
  obtain ⟨m, rfl⟩ := Int.eq_ofNat_of_zero_le (Int.le_of_lt hm)
  have hok : ∃ l, primeFactor (m : Int) = .ok l := by
    cases hp : primeFactor (m : Int) with
    | ok l => exact ⟨l, rfl⟩
    | error e =>
      unfold expMod carmichael at h
      rw [hp] at h
      cases h
  have := expMod_eq (by omega) ((primeFactor_nat m (by omega)).2.1.1 hok) b k
  rw [this] at h
  cases h
  exact ⟨hm, rfl⟩

example : expMod 6 (10 ^ 6) 360 = .ok 216 := by decide +kernel

end Props

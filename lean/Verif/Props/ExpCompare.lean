import Verif.Lemmas.ExpCompare
import Verif.Props.ExpInt
import Mathlib.Analysis.SpecialFunctions.Log.Base

/-!
# C59: comparisons of exponential integers

"Comparing exponential integers with `<`, `<=`, `>`, `>=` orders them by value, and their sign is the sign of the value."

The code compares signs and tower values `(height, top)`, which are logarithms in floating point.  So this holds for numbers
that are small enough to be evaluated (`C59_small`), for comparisons of well-behaved large numbers with small ones
(`C59_mild_partial`), and for single powers up to the error of the logarithms (`C59_powers_partial`); the comparisons always
are a consistent order (`C59_order`, `C59_consistent`), but not that of the values (`C59_sign_false`, `C59_order_false`).

`info L a = .ok p` says that the number `a` could be created; `p` is its sign and tower value.
-/

namespace Props
open Model Model.ExpInt Spec

variable {L : Logs} {math : Math.Floats}

/-- **C59.** The four comparisons are those of the signs and tower values. -/
theorem C59_order (fuel : Nat) {a b : Num} {x y : Int} {p q : Int × Tower} (ha : Denotes a x) (hb : Denotes b y)
    (na : Normal math a) (nb : Normal math b) (hp : info L a = .ok p) (hq : info L b = .ok q) :
    (∀ r, gt L math fuel a b = .ok r → (r = true ↔ Below q p)) ∧
    (∀ r, ge L math fuel a b = .ok r → (r = true ↔ ¬ Below p q)) ∧
    (∀ r, ExpInt.lt L math fuel a b = .ok r → (r = true ↔ Below p q)) ∧
    (∀ r, ExpInt.le L math fuel a b = .ok r → (r = true ↔ ¬ Below q p)) := by
  have h1 : ∀ r, gt L math fuel a b = .ok r → (r = true ↔ Below q p) := fun r => (cmp_sound ha hb na nb hp hq).1
  have h2 : ∀ r, ge L math fuel a b = .ok r → (r = true ↔ ¬ Below p q) := fun r => (cmp_sound ha hb na nb hp hq).2
  have hne : ∀ x : Bool, x = true ↔ ¬ (!x) = true := by decide
  refine ⟨h1, h2, fun r h => ?_, fun r h => ?_⟩
  · rw [hne, h2 _ (map_not h), not_not]
  · rw [hne, h1 _ (map_not h)]

/-- **C59.** The order is consistent: no number is below itself, being below is transitive, and so is not being below. -/
theorem C59_consistent (p q s : Int × Tower) : ¬ Below p p ∧ (Below p q → Below q s → Below p s) ∧
    (¬ Below p q → ¬ Below q s → ¬ Below p s) := by
  have irr := smaller_irrefl
  refine ⟨?_, ?_, ?_⟩
  · rintro (h | ⟨_, h | h⟩)
    · omega
    · exact irr _ h.2
    · exact irr _ h.2
  · rintro (h1 | ⟨h1, h1' | h1'⟩) (h2 | ⟨h2, h2' | h2'⟩)
    · left; omega
    · left; omega
    · left; omega
    · left; omega
    · right; exact ⟨by omega, Or.inl ⟨h1'.1, smaller_trans h1'.2 h2'.2⟩⟩
    · omega
    · left; omega
    · omega
    · right; exact ⟨by omega, Or.inr ⟨h1'.1, smaller_trans h2'.2 h1'.2⟩⟩
  · intro h1 h2 h3
    apply h1
    by_contra h1
    unfold Below at h1 h2 h3
    rcases h3 with h3 | ⟨h3, h3'⟩
    · by_cases h : p.1 < q.1
      · exact h1 (Or.inl h)
      · exact h2 (Or.inl (by omega))
    · have e1 : p.1 = q.1 := by
        rcases Int.lt_trichotomy p.1 q.1 with h | h | h
        · exact absurd (Or.inl h) h1
        · exact h
        · exact absurd (Or.inl (by omega)) h2
      rcases h3' with ⟨h4, h5⟩ | ⟨h4, h5⟩
      · rcases smaller_total p.2 q.2 with h | h | h
        · exact h1 (Or.inr ⟨e1, Or.inl ⟨h4, h⟩⟩)
        · exact h2 (Or.inr ⟨by omega, Or.inl ⟨by omega, h ▸ h5⟩⟩)
        · exact h2 (Or.inr ⟨by omega, Or.inl ⟨by omega, smaller_trans h h5⟩⟩)
      · rcases smaller_total q.2 p.2 with h | h | h
        · exact h1 (Or.inr ⟨e1, Or.inr ⟨h4, h⟩⟩)
        · exact h2 (Or.inr ⟨by omega, Or.inr ⟨by omega, h ▸ h5⟩⟩)
        · exact h2 (Or.inr ⟨by omega, Or.inr ⟨by omega, smaller_trans h5 h⟩⟩)

/-- **C59.** Numbers that can be evaluated are compared exactly. -/
theorem C59_small (fuel : Nat) {a b : Num} {x y v w : Int} (ha : Denotes a x) (hb : Denotes b y) (na : Normal math a)
    (nb : Normal math b) (va : tryEval a = some v) (vb : tryEval b = some w) :
    (∀ r, gt L math fuel a b = .ok r → (r = true ↔ x > y)) ∧ (∀ r, ge L math fuel a b = .ok r → (r = true ↔ x ≥ y)) ∧
    (∀ r, ExpInt.lt L math fuel a b = .ok r → (r = true ↔ x < y)) ∧
    (∀ r, ExpInt.le L math fuel a b = .ok r → (r = true ↔ x ≤ y)) := by
  have e1 := tryEval_sound ha va
  have e2 := tryEval_sound hb vb
  subst e1; subst e2
  obtain ⟨h1, h2, h3, h4⟩ := C59_order (L := L) fuel ha hb na nb (info_eval va) (info_eval vb)
  refine ⟨fun r h => ?_, fun r h => ?_, fun r h => ?_, fun r h => ?_⟩
  · rw [h1 r h, below_int]
  · rw [h2 r h, below_int]; omega
  · rw [h3 r h, below_int]
  · rw [h4 r h, below_int]; omega

/-- **C59, partial.** The sign is right for numbers that can be evaluated, for sums without opposite signs, and for mild
numbers.  (Not in general: `C59_sign_false`.) -/
theorem C59_sign_partial {ts : List ETerm} {c d x s : Int} {t : Tower} (ha : Denotes (.exp ts c d) x)
    (h : info L (.exp ts c d) = .ok (s, t)) :
    ((∃ v, tryEval (.exp ts c d) = some v) → s = x.sign) ∧ ((∀ t ∈ ts, 0 < t.coef) → 0 ≤ c → s = x.sign) ∧
    ((∀ t ∈ ts, t.coef < 0) → c ≤ 0 → s = x.sign) ∧ (Mild (.exp ts c d) → s = x.sign) := by
  have hev : ∀ v, tryEval (.exp ts c d) = some v → s = x.sign := by
    intro v hv
    have := tryEval_sound ha hv
    subst this
    rw [info_eval hv] at h
    cases h; rfl
  have hw := ha.1
  simp only [Num.WF] at hw
  obtain ⟨hne, hd, _, hwf⟩ := hw
  obtain ⟨p1, _⟩ := int_of_denom ha
  have hdq : (0 : ℚ) < d := by exact_mod_cast hd
  have big : tryEval (.exp ts c d) = none → ((∀ t ∈ ts, 0 < t.coef) → s = 1) ∧ ((∀ t ∈ ts, t.coef < 0) → s = -1) := by
    intro hv
    simp only [tryEval, Option.map_eq_none_iff] at hv
    obtain ⟨q, hq, hc⟩ := info_none hv h
    have hh := towers_none hwf hq hv
    obtain ⟨t1, t2⟩ := towers_signs hq
    obtain ⟨c1, c2, _⟩ := combine_sign hc
    constructor
    · intro hp
      apply c2
      rw [t1 hp] at hh ⊢
      left; simp only at hh; simp only; omega
    · intro hp
      apply c1
      rw [t2 hp] at hh ⊢
      left; simp only at hh; simp only; omega
  -- the sum of terms of one sign
  have sum_pos : ∀ us : List ETerm, us ≠ [] → AllWF us → (∀ t ∈ us, 0 < t.coef) → 0 < termsValue us := by
    intro us
    induction us with
    | nil => intro h; exact absurd rfl h
    | cons t us ih =>
      intro _ hw hp
      simp only [AllWF] at hw
      have h1 : 0 < ETerm.value t := by
        cases t with
        | mk b c e =>
          have hwt := hw.1; simp only [ETerm.WF] at hwt
          rw [value_mk]
          have h1 : (0 : ℚ) < c := by exact_mod_cast hp (.mk b c e) (by simp)
          have h2 : (0 : ℚ) < b := by exact_mod_cast (by omega : 0 < b)
          positivity
      simp only [termsValue]
      cases us with
      | nil => simpa [termsValue] using h1
      | cons u us => exact add_pos h1 (ih (by simp) hw.2 (fun t ht => hp t (by simp [ht])))
  have sum_neg : ∀ us : List ETerm, us ≠ [] → AllWF us → (∀ t ∈ us, t.coef < 0) → termsValue us < 0 := by
    intro us
    induction us with
    | nil => intro h; exact absurd rfl h
    | cons t us ih =>
      intro _ hw hp
      simp only [AllWF] at hw
      have h1 : ETerm.value t < 0 := by
        cases t with
        | mk b c e =>
          have hwt := hw.1; simp only [ETerm.WF] at hwt
          rw [value_mk]
          have h1 : (c : ℚ) < 0 := by exact_mod_cast hp (.mk b c e) (by simp)
          have h2 : (0 : ℚ) < b := by exact_mod_cast (by omega : 0 < b)
          exact mul_neg_of_neg_of_pos h1 (by positivity)
      simp only [termsValue]
      cases us with
      | nil => simpa [termsValue] using h1
      | cons u us => exact add_neg h1 (ih (by simp) hw.2 (fun t ht => hp t (by simp [ht])))
  refine ⟨fun ⟨v, hv⟩ => hev v hv, ?_, ?_, ?_⟩
  · intro hp hc
    cases hv : tryEval (.exp ts c d) with
    | some v => exact hev v hv
    | none =>
      have hx : (0 : ℚ) < x * d := by
        rw [← p1]
        have := sum_pos ts hne hwf hp
        have hc : (0 : ℚ) ≤ c := by exact_mod_cast hc
        linarith
      have hx : (0 : ℚ) < x := pos_of_mul_pos_left hx hdq.le
      rw [(big hv).1 hp, Int.sign_eq_one_of_pos (by exact_mod_cast hx)]
  · intro hp hc
    cases hv : tryEval (.exp ts c d) with
    | some v => exact hev v hv
    | none =>
      have hx : (x : ℚ) * d < 0 := by
        rw [← p1]
        have := sum_neg ts hne hwf hp
        have hc : (c : ℚ) ≤ 0 := by exact_mod_cast hc
        linarith
      have hx : (x : ℚ) < 0 := by
        by_contra h0
        exact absurd (mul_nonneg (not_lt.1 h0) hdq.le) (not_le.2 hx)
      rw [(big hv).2 hp, Int.sign_eq_neg_one_of_neg (by exact_mod_cast hx)]
  · intro hm
    cases hv : tryEval (.exp ts c d) with
    | some v => exact hev v hv
    | none =>
      have hx := (mild_large _).1 _ (Nat.le_refl _) x ha hm hv
      have hp : ∀ t ∈ ts, 0 < t.coef := by
        simp only [Mild] at hm
        have : ∀ us : List ETerm, AllMild us → ∀ t ∈ us, 0 < t.coef := by
          intro us
          induction us with
          | nil => intro _ t ht; cases ht
          | cons u us ih =>
            intro h t ht
            simp only [AllMild] at h
            rcases List.mem_cons.1 ht with rfl | ht
            · cases t with
              | mk b c e => have := h.1; simp only [ETerm.Mild] at this; exact this.1
            · exact ih h.2 t ht
        exact this ts hm.1
      rw [(big hv).1 hp, Int.sign_eq_one_of_pos (by omega)]

/-- **C59, partial.** A mild number (positive coefficients, no constant or denominator comparable to terms that cannot be
evaluated) is compared exactly with an integer below `2^64`, whatever the logarithms. -/
theorem C59_mild_partial (fuel : Nat) {ts : List ETerm} {c d x z : Int} {p : Int × Tower} (ha : Denotes (.exp ts c d) x)
    (na : Normal math (.exp ts c d)) (hm : Mild (.exp ts c d)) (hz : z < 2 ^ 64) (hp : info L (.exp ts c d) = .ok p) :
    (∀ r, gt L math fuel (.exp ts c d) (.int z) = .ok r → (r = true ↔ x > z)) ∧
    (∀ r, ge L math fuel (.exp ts c d) (.int z) = .ok r → (r = true ↔ x ≥ z)) ∧
    (∀ r, ExpInt.lt L math fuel (.exp ts c d) (.int z) = .ok r → (r = true ↔ x < z)) ∧
    (∀ r, ExpInt.le L math fuel (.exp ts c d) (.int z) = .ok r → (r = true ↔ x ≤ z)) := by
  cases hv : tryEval (.exp ts c d) with
  | some v => exact C59_small fuel ha (numIs_int z) na trivial hv rfl
  | none =>
    have hx := (mild_large _).1 _ (Nat.le_refl _) x ha hm hv
    have hs := (C59_sign_partial ha hp).2.2.2 hm
    rw [Int.sign_eq_one_of_pos (by omega)] at hs
    have hq : info L (.int z) = .ok (z.sign, (0, (z.natAbs : ℚ))) := info_eval rfl
    obtain ⟨h1, h2, h3, h4⟩ := C59_order (L := L) fuel ha (numIs_int z) na trivial hp hq
    have hh : 1 ≤ p.2.1 := by
      simp only [tryEval, Option.map_eq_none_iff] at hv
      obtain ⟨q, hq, hc⟩ := info_none hv hp
      have hw := ha.1
      simp only [Num.WF] at hw
      exact combine_height hc (towers_none hw.2.2.2 hq hv)
    obtain ⟨s, t⟩ := p
    simp only at hs hh
    subst hs
    have b1 : Below (z.sign, (0, (z.natAbs : ℚ))) (1, t) := by
      rcases sign_cases z with h | h | h
      · left; simp only; omega
      · right; simp only; exact ⟨h, Or.inl ⟨by omega, Or.inl (by simp only; omega)⟩⟩
      · left; simp only [h]; decide
    have b2 : ¬ Below (1, t) (z.sign, (0, (z.natAbs : ℚ))) := fun h =>
      (C59_consistent _ (1, t) (1, t)).1 ((C59_consistent _ _ _).2.1 b1 h)
    refine ⟨fun r h => ?_, fun r h => ?_, fun r h => ?_, fun r h => ?_⟩
    · rw [h1 r h]; exact ⟨fun _ => by omega, fun _ => b1⟩
    · rw [h2 r h]; exact ⟨fun _ => by omega, fun _ => b2⟩
    · rw [h3 r h]; exact ⟨fun h => absurd h b2, fun h => by omega⟩
    · rw [h4 r h]; exact ⟨fun h => absurd b1 h, fun h => by omega⟩

/-- The logarithms that the code computes are right up to `δ`. -/
def LogsWithin (L : Logs) (δ : ℝ) : Prop :=
  ∀ (k b : Int) (c : Nat), 1000 ≤ k → 2 ≤ b → 0 < c → |(L.log k b c : ℝ) - Real.logb 10 (c * (b : ℝ) ^ k.toNat)| ≤ δ

/-- a single power with an integer exponent has height 1 and its logarithm as top -/
theorem info_single {b c k : Int} (hk : 1000 ≤ k) (hc : 0 < c) :
    info L (.exp [.mk b c (.int k)] 0 1) = .ok (1, (1, |L.log k b c.natAbs|)) := by
  have ht : evalTerm (.mk b c (.int k)) = none := by
    simp only [evalTerm, tryEval]; rw [if_neg (by omega), if_neg (by omega)]
  have hs : evalSum [.mk b c (.int k)] = none := by simp [evalSum, ht]
  have hi : infoT L (.mk b c (.int k)) = .ok (1, (1, |L.log k b c.natAbs|)) := by
    simp only [infoT, tryEval]
    rw [if_neg (by omega), if_neg (by omega), if_neg (by omega), Int.sign_eq_one_of_pos hc]
  simp only [info, hs, towers, hi]
  simp [Tower.max, Tower.lt, combine]

/-- **C59, partial.** Powers `c * b ^ k` with integers `k ≥ 1000` are compared exactly up to a factor that depends on the error
of the logarithms: if `a > b` is reported then `b < a * 10^(2δ)`, and if it is denied then `a ≤ b * 10^(2δ)`. -/
theorem C59_powers_partial (fuel : Nat) {δ : ℝ} (hL : LogsWithin L δ) {b c k b' c' k' : Int} (hk : 1000 ≤ k) (hb : 2 ≤ b)
    (hc : 0 < c) (hk' : 1000 ≤ k') (hb' : 2 ≤ b') (hc' : 0 < c') :
    (gt L math fuel (.exp [.mk b c (.int k)] 0 1) (.exp [.mk b' c' (.int k')] 0 1) = .ok true →
      (c' * b' ^ k'.toNat : ℝ) < (c * b ^ k.toNat) * 10 ^ (2 * δ)) ∧
    (gt L math fuel (.exp [.mk b c (.int k)] 0 1) (.exp [.mk b' c' (.int k')] 0 1) = .ok false →
      (c * b ^ k.toNat : ℝ) ≤ (c' * b' ^ k'.toNat) * 10 ^ (2 * δ)) := by
  have wf : ∀ {b c k : Int}, 1000 ≤ k → 2 ≤ b → 0 < c → Num.WF (.exp [.mk b c (.int k)] 0 1) := by
    intro b c k hk hb hc
    simp only [Num.WF, AllWF, ETerm.WF]
    exact ⟨by simp, by omega, rfl, ⟨hb, by omega, trivial, k.toNat, by
      simp only [Num.value]; exact_mod_cast (Int.toNat_of_nonneg (by omega)).symm⟩, trivial⟩
  -- the tops are the logarithms up to δ
  have top : ∀ {b c k : Int}, 1000 ≤ k → 2 ≤ b → 0 < c →
      0 < (c * b ^ k.toNat : ℝ) ∧ |((|L.log k b c.natAbs| : ℚ) : ℝ) - Real.logb 10 (c * b ^ k.toNat)| ≤ δ := by
    intro b c k hk hb hc
    have hb1 : (1 : ℝ) ≤ b := by exact_mod_cast (by omega : 1 ≤ b)
    have hc1 : (1 : ℝ) ≤ c := by exact_mod_cast hc
    have hge : (1 : ℝ) ≤ c * b ^ k.toNat := one_le_mul_of_one_le_of_one_le hc1 (one_le_pow₀ hb1)
    have h := hL k b c.natAbs hk hb (by omega)
    have hcast : ((c.natAbs : ℕ) : ℝ) = (c : ℝ) := by
      have h1 : ((c.natAbs : ℕ) : Int) = c := by omega
      have h2 : (((c.natAbs : ℕ) : Int) : ℝ) = (c : ℝ) := by rw [h1]
      rwa [Int.cast_natCast] at h2
    rw [hcast] at h
    refine ⟨by linarith, ?_⟩
    have hlog : 0 ≤ Real.logb 10 (c * b ^ k.toNat) := Real.logb_nonneg (by norm_num) hge
    have h2 := abs_abs_sub_abs_le (L.log k b c.natAbs : ℝ) (Real.logb 10 (c * b ^ k.toNat))
    rw [abs_of_nonneg hlog] at h2
    rw [Rat.cast_abs]
    exact le_trans h2 h
  obtain ⟨p1, t1⟩ := top hk hb hc
  obtain ⟨p2, t2⟩ := top hk' hb' hc'
  rw [abs_le] at t1 t2
  have key : ∀ {u v : ℝ}, 0 < u → 0 < v → (Real.logb 10 u < Real.logb 10 v + 2 * δ → u < v * 10 ^ (2 * δ)) ∧
      (Real.logb 10 u ≤ Real.logb 10 v + 2 * δ → u ≤ v * 10 ^ (2 * δ)) := by
    intro u v hu hv
    have h10 : (0 : ℝ) < 10 ^ (2 * δ) := Real.rpow_pos_of_pos (by norm_num) _
    have e : Real.logb 10 v + 2 * δ = Real.logb 10 (v * 10 ^ (2 * δ)) := by
      rw [Real.logb_mul hv.ne' h10.ne', Real.logb_rpow (by norm_num) (by norm_num)]
    rw [e]
    exact ⟨fun h => (Real.logb_lt_logb_iff (by norm_num) hu (mul_pos hv h10)).1 h,
      fun h => (Real.logb_le_logb (by norm_num) hu (mul_pos hv h10)).1 h⟩
  have hg : ∀ r, gt L math fuel (.exp [.mk b c (.int k)] 0 1) (.exp [.mk b' c' (.int k')] 0 1) = .ok r → (r = true ↔
      |L.log k' b' c'.natAbs| < |L.log k b c.natAbs|) := by
    intro r h
    rw [gt_nonneg (wf hk hb hc) (wf hk' hb' hc') (info_single hk hc) (info_single hk' hc') (show ¬ (1 : Int) < 0 by decide) h]
    simp [Below, Smaller]
  constructor
  · intro h
    have := (hg _ h).1 rfl
    have this : ((|L.log k' b' c'.natAbs| : ℚ) : ℝ) < ((|L.log k b c.natAbs| : ℚ) : ℝ) := by exact_mod_cast this
    exact (key p2 p1).1 (by linarith)
  · intro h
    have := mt (hg _ h).2 (by simp)
    have this : ((|L.log k b c.natAbs| : ℚ) : ℝ) ≤ ((|L.log k' b' c'.natAbs| : ℚ) : ℝ) := by exact_mod_cast not_lt.1 this
    exact (key p1 p2).2 (by linarith)

/-- **C59.** Powers whose exponents cannot be evaluated are compared by their exponents alone: coefficients and bases play no
part. -/
theorem C59_towers (fuel : Nat) {b c b' c' : Int} {e e' : Num} {p q : Int × Tower} (hc : 0 < c) (hc' : 0 < c')
    (ha : Num.WF (.exp [.mk b c e] 0 1)) (hb : Num.WF (.exp [.mk b' c' e'] 0 1)) (he : tryEval e = none)
    (he' : tryEval e' = none) (hp : info L e = .ok p) (hq : info L e' = .ok q) (h0 : 0 ≤ p.2.2) (h0' : 0 ≤ q.2.2) {r : Bool}
    (h : gt L math fuel (.exp [.mk b c e] 0 1) (.exp [.mk b' c' e'] 0 1) = .ok r) : r = true ↔ Smaller q.2 p.2 := by
  have single : ∀ {b c : Int} {e : Num} {p : Int × Tower}, 0 < c → tryEval e = none → info L e = .ok p → 0 ≤ p.2.2 →
      info L (.exp [.mk b c e] 0 1) = .ok (1, (p.2.1 + 1, p.2.2)) := by
    intro b c e p hc he hp h0
    obtain ⟨s, h, t⟩ := p
    have ht : evalTerm (.mk b c e) = none := by simp only [evalTerm, he]
    have hs : evalSum [.mk b c e] = none := by simp [evalSum, ht]
    have hi : infoT L (.mk b c e) = .ok (1, (h + 1, t)) := by
      simp only [infoT, he, hp]
      rw [if_neg (not_lt.2 h0), Int.sign_eq_one_of_pos hc]
    simp only [info, hs, towers, hi]
    simp [Tower.max, Tower.lt, combine]
  rw [gt_nonneg ha hb (single hc he hp h0) (single hc' he' hq h0') (show ¬ (1 : Int) < 0 by decide) h]
  simp [Below, Smaller]

/-! ### Remainders with the comparison as it is -/

/-- Exponents for which remainders are right: mild, in lowest terms, with a denominator up to `2^1000`. -/
def MildExponent (e : Num) : Prop := Mild e ∧ Lowest e ∧ Num.denom e ≤ 2 ^ 1000

set_option exponentiation.threshold 2000 in
/-- **C47, partial.** With the comparison that the code makes, whatever its logarithms: the remainder of a number whose exponents
are mild, at every depth, is exact, if modulus and fuel (the depth of calls) are not astronomical. -/
theorem C47_mod_mild_partial (L : Logs) (math : Math.Floats) (f fuel : Nat) {ts : List ETerm} {c d : Int} {b : Num}
    {x y r : Int} {s : Nat} (ha : Denotes (.exp ts c d) x) (hg : Num.Exponents MildExponent (.exp ts c d)) (hb : Denotes b y)
    (hs : d * y ≤ 2 ^ s) (hf : s + 1000 * fuel ≤ 2 ^ 64) (h : modN (floats L math f) fuel ts c d b = .ok r) :
    0 < y ∧ r = x % y := by
  obtain ⟨K, hK64⟩ : ∃ K : Nat, K = 2 ^ 64 := ⟨_, rfl⟩
  have hcomp : ∀ e, Mild e → ComparedRight (floats L math f) K e := by
    intro e he; rw [hK64]; exact mild_compared L math f he
  rw [← hK64] at hf
  clear hK64
  have mono : ∀ n : Nat, (∀ a : Num, sizeOf a ≤ n → Num.Exponents MildExponent a →
      Num.Exponents (GoodExponent (floats L math f) K (2 ^ 1000)) a) ∧
      (∀ ts : List ETerm, sizeOf ts ≤ n → AllExponents MildExponent ts →
        AllExponents (GoodExponent (floats L math f) K (2 ^ 1000)) ts) := by
    intro n
    induction n with
    | zero =>
      constructor
      · intro a h; cases a <;> simp at h
      · intro ts h; cases ts <;> simp at h
    | succ n ih =>
      constructor
      · intro a hn h
        cases a with
        | int z => trivial
        | exp ts c d =>
          simp only [Num.exp.sizeOf_spec] at hn
          exact ih.2 ts (by omega) h
      · intro ts hn h
        cases ts with
        | nil => trivial
        | cons t ts =>
          cases t with
          | mk b c e =>
            simp only [List.cons.sizeOf_spec, ETerm.mk.sizeOf_spec] at hn
            simp only [AllExponents, ETerm.Exponents] at h ⊢
            exact ⟨⟨⟨hcomp e h.1.1.1, h.1.1.2.1, by exact_mod_cast h.1.1.2.2⟩, ih.1 e (by omega) h.1.2⟩,
              ih.2 ts (by omega) h.2⟩
  have hK : d * y * ((2 ^ 1000 : Nat) : Int) ^ fuel ≤ 2 ^ K := by
    have e : ((2 ^ 1000 : Nat) : Int) ^ fuel = 2 ^ (1000 * fuel) := by rw [Nat.cast_pow, ← pow_mul]; rfl
    rw [e]
    calc d * y * 2 ^ (1000 * fuel) ≤ 2 ^ s * 2 ^ (1000 * fuel) := Int.mul_le_mul_of_nonneg_right hs (by positivity)
      _ = 2 ^ (s + 1000 * fuel) := (pow_add _ _ _).symm
      _ ≤ 2 ^ K := pow_le_pow_right₀ (by norm_num) hf
  obtain ⟨h1, h2, _⟩ := C47_mod_partial (floats_ok L math f) fuel (K := K) (B := 2 ^ 1000)
    (Nat.le_self_pow (n := 1000) (by omega) 2) ha.1 ((mono _).1 _ (Nat.le_refl _) hg) hK hb h
  exact ⟨h1, h2 x ha⟩

/-! ### Concrete cases -/

/-- `2^1000 - (2^1000 - 1)`, which is 1 -/
def one : Num := .exp [.mk 2 1 (.int 1000)] (-(2 ^ 1000 - 1)) 1

theorem one_denotes : Denotes one 1 := by
  refine ⟨⟨by simp, by omega, rfl, ⟨by omega, by omega, trivial, 1000, by simp [Num.value]⟩, trivial⟩, ?_⟩
  simp [one, Num.value, termsValue, ETerm.value]

/-- the floating-point functions of `int_pow`, for small numbers -/
def exMath : Math.Floats := ⟨fun n => some n, countLog⟩

set_option exponentiation.threshold 2000 in
set_option maxRecDepth 100000 in
/-- **The remainder is not always right**, whatever the logarithms.  With `e = 2^1000 - (2^1000 - 1)`, which is 1,
`2^e % 4` gives 0; it should be 2.  The exponent is not found to be below 2 because only the term `2^1000` counts. -/
theorem C47_mod_false (L : Logs) :
    ExpInt.sub (floats L exMath 9) 9 (.exp [.mk 2 1 (.int 1000)] 0 1) (.int (2 ^ 1000 - 1)) = .ok one ∧
    expInt (floats L exMath 9) 9 2 one = .ok (.exp [.mk 2 1 one] 0 1) ∧
    Denotes (.exp [.mk 2 1 one] 0 1) 2 ∧ modN (floats L exMath 9) 9 [.mk 2 1 one] 0 1 (.int 4) = .ok 0 := by
  have hi : infoT L (.mk 2 1 one) = .ok (1, (2, |L.log 1000 2 1|)) := by
    have h1 : tryEval one = none := rfl
    have h2 : info L one = .ok (1, (1, |L.log 1000 2 1|)) := rfl
    simp only [infoT, h1, h2]
    rw [if_neg (not_lt.2 (abs_nonneg _))]; rfl
  have hk : (floats L exMath 9).check [.mk 2 1 one] 0 1 = none := by
    have h1 : evalSum [.mk 2 1 one] = none := rfl
    have h2 : depth (.exp [.mk 2 1 one] 0 1) = 2 := rfl
    simp only [floats, floats0, h2, info, h1, towers, hi]
    simp [Tower.max, Tower.lt, combine]
  refine ⟨rfl, ?_, ?_, rfl⟩
  · show mkInt (floats L exMath 9) 9 [.mk 2 1 one] 0 1 = _
    have h1 : commonDiv [.mk 2 1 one] 0 1 = 1 := rfl
    simp only [mkInt, h1, divCommon]
    show (match (floats L exMath 9).check [.mk 2 1 one] 0 1 with
      | some e => Except.error e
      | none => if oneBase [.mk 2 1 one] = true then Except.ok (Num.exp [.mk 2 1 one] 0 1) else Except.error Err.assertion) = _
    rw [hk]; rfl
  refine ⟨⟨by simp, by omega, rfl, ⟨by omega, by omega, one_denotes.1, 1, by rw [one_denotes.2]; simp⟩, trivial⟩, ?_⟩
  simp [Num.value, termsValue, value_mk, natOf_eq (n := 1) (e := one) (by rw [one_denotes.2]; simp)]

/-- A single power `2^k` is what it should be. -/
theorem pow2_denotes (k : Nat) (c d x : Int) (hd : 0 < d) (h : (2 : ℚ) ^ k + c = x * d) :
    Denotes (.exp [.mk 2 1 (.int k)] c d) x := by
  refine ⟨⟨by simp, hd, rfl, ⟨by omega, by omega, trivial, k, by simp [Num.value]⟩, trivial⟩, ?_⟩
  have hdq : (d : ℚ) ≠ 0 := by exact_mod_cast (by omega : d ≠ 0)
  have e : Num.value (.exp [.mk 2 1 (.int k)] c d) = ((2 : ℚ) ^ k + c) / d := by
    simp [Num.value, termsValue, value_mk, natOf_eq (n := k) (e := .int k) (by simp [Num.value])]
  rw [e, h, mul_div_cancel_right₀ _ hdq]

set_option exponentiation.threshold 2000 in
set_option maxRecDepth 100000 in
/-- **The sign is not always right**, whatever the logarithms: `2^1000 - 10^400` is negative, but has the sign of `2^1000` and is
greater than 0. -/
theorem C59_sign_false (L : Logs) : Denotes (.exp [.mk 2 1 (.int 1000)] (-10 ^ 400) 1) (2 ^ 1000 - 10 ^ 400) ∧
    (2 : Int) ^ 1000 - 10 ^ 400 < 0 ∧
    info L (.exp [.mk 2 1 (.int 1000)] (-10 ^ 400) 1) = .ok (1, (1, |L.log 1000 2 1|)) ∧
    gt L exMath 9 (.exp [.mk 2 1 (.int 1000)] (-10 ^ 400) 1) (.int 0) = .ok true := by
  refine ⟨?_, by norm_num, rfl, rfl⟩
  exact pow2_denotes 1000 _ 1 _ (by omega) (by push_cast; ring)

/-- **With different signs it can even be wrong without constants and with exact logarithms**: `2^5003 + 2^5002 - 9 * 2^5000`
is `3 * 2^5000`, but of the positive terms only the largest counts, and `2^5003 < 9 * 2^5000`. -/
theorem C59_sign_false_logs (L : Logs) (h0 : 0 ≤ L.log 5002 2 1) (h1 : L.log 5002 2 1 < L.log 5003 2 1)
    (h2 : L.log 5003 2 1 < L.log 5000 2 9) :
    Num.value (.exp [.mk 2 1 (.int 5003), .mk 2 1 (.int 5002), .mk 2 (-9) (.int 5000)] 0 1) = 3 * 2 ^ 5000 ∧
    info L (.exp [.mk 2 1 (.int 5003), .mk 2 1 (.int 5002), .mk 2 (-9) (.int 5000)] 0 1) = .ok (-1, (1, L.log 5000 2 9)) := by
  constructor
  · have e : ∀ k : Nat, natOf (.int k) = k := fun k => natOf_eq (by simp [Num.value])
    simp only [Num.value, termsValue, value_mk]
    rw [show natOf (.int 5003) = 5000 + 3 from e 5003, show natOf (.int 5002) = 5000 + 2 from e 5002,
      show natOf (.int 5000) = 5000 from e 5000]
    generalize (5000 : Nat) = n
    push_cast
    rw [pow_add, pow_add]; ring
  · have hs : evalSum [.mk 2 1 (.int 5003), .mk 2 1 (.int 5002), .mk 2 (-9) (.int 5000)] = none := by
      simp [evalSum, evalTerm, tryEval]
    simp only [info, hs, towers, infoT, tryEval]
    have e1 : |L.log 5003 2 1| = L.log 5003 2 1 := abs_of_nonneg (by linarith)
    have e2 : |L.log 5002 2 1| = L.log 5002 2 1 := abs_of_nonneg (by linarith)
    have e3 : |L.log 5000 2 9| = L.log 5000 2 9 := abs_of_nonneg (by linarith)
    have n1 : ¬ L.log 5003 2 1 < L.log 5002 2 1 := by linarith
    have n2 : ¬ L.log 5003 2 1 = L.log 5000 2 9 := by linarith
    simp [Tower.max, Tower.lt, combine, e1, e2, e3, n1, n2, h2]

set_option exponentiation.threshold 6000 in
set_option maxRecDepth 100000 in
/-- **The order is not that of the values**, whatever the logarithms: `2^5000 + 1 > 2^5000` is denied; `2^1000 > 10^400` is
asserted; and `(2^1000) / 2^990 > 5000` is asserted although the quotient is 1024. -/
theorem C59_order_false (L : Logs) :
    (Denotes (.exp [.mk 2 1 (.int 5000)] 1 1) (2 ^ 5000 + 1) ∧ Denotes (.exp [.mk 2 1 (.int 5000)] 0 1) (2 ^ 5000) ∧
      gt L exMath 9 (.exp [.mk 2 1 (.int 5000)] 1 1) (.exp [.mk 2 1 (.int 5000)] 0 1) = .ok false) ∧
    (Denotes (.exp [.mk 2 1 (.int 1000)] 0 1) (2 ^ 1000) ∧ (2 : Int) ^ 1000 < 10 ^ 400 ∧
      gt L exMath 9 (.exp [.mk 2 1 (.int 1000)] 0 1) (.int (10 ^ 400)) = .ok true) ∧
    (Denotes (.exp [.mk 2 1 (.int 1000)] 0 (2 ^ 990)) 1024 ∧
      gt L exMath 9 (.exp [.mk 2 1 (.int 1000)] 0 (2 ^ 990)) (.int 5000) = .ok true) := by
  refine ⟨⟨?_, ?_, ?_⟩, ⟨?_, by norm_num, rfl⟩, ?_, rfl⟩
  · exact pow2_denotes 5000 1 1 _ (by omega) (by generalize (5000 : Nat) = n; push_cast; ring)
  · exact pow2_denotes 5000 0 1 _ (by omega) (by generalize (5000 : Nat) = n; push_cast; ring)
  · have h1 : info L (.exp [.mk 2 1 (.int 5000)] 1 1) = .ok (1, (1, |L.log 5000 2 1|)) := rfl
    have h2 : info L (.exp [.mk 2 1 (.int 5000)] 0 1) = .ok (1, (1, |L.log 5000 2 1|)) := rfl
    simp [gt, h1, h2, Tower.lt]
  · exact pow2_denotes 1000 0 1 _ (by omega) (by generalize (1000 : Nat) = n; push_cast; ring)
  · exact pow2_denotes 1000 0 _ _ (by positivity) (by norm_num)

/-! Numbers meeting the hypotheses. -/

/-- `(3^(2^5000 + 1) + 5) / 2` -/
def tower2 : Num := .exp [.mk 3 1 (.exp [.mk 2 1 (.int 5000)] 1 1)] 5 2

-- the numbers are normal, and comparisons return results
example : Normal exMath (.exp [.mk 2 (-3) (.int 10)] 4 1) ∧ tryEval (.exp [.mk 2 (-3) (.int 10)] 4 1) = some (-3068) ∧
    gt ⟨fun k b c => k * b * c, fun t _ => t⟩ exMath 9 (.exp [.mk 2 (-3) (.int 10)] 4 1) (.int (-3069)) = .ok true ∧
    ge ⟨fun k b c => k * b * c, fun t _ => t⟩ exMath 9 (.exp [.mk 2 (-3) (.int 10)] 4 1) (.int (-3067)) = .ok false := by
  refine ⟨⟨?_, ?_⟩, by decide +kernel, by decide +kernel, by decide +kernel⟩
  · intro g h1 _ _
    have : (g : Int).natAbs ∣ 1 := Int.natAbs_dvd_natAbs.2 h1
    simpa using this
  · intro t ht
    simp only [List.mem_singleton] at ht
    subst ht
    refine ⟨?_, by decide⟩
    intro n k h
    have e : Math.intPow exMath 2 = .ok (2, 1) := by decide +kernel
    rw [show (ETerm.mk 2 (-3) (.int 10)).base = 2 from rfl, e] at h
    cases h; exact Nat.le_refl 1

-- mild numbers: `2^5000 + 1`, and the exponents of `tower2`
example : Mild (.exp [.mk 2 1 (.int 5000)] 1 1) := by
  simp only [Mild, AllMild, ETerm.Mild, tryEval]
  refine ⟨⟨⟨by decide, trivial, by simp⟩, trivial⟩, ?_⟩
  decide +kernel
example : Num.Exponents MildExponent tower2 := by
  simp only [tower2, Num.Exponents, AllExponents, ETerm.Exponents, MildExponent, Mild, AllMild, ETerm.Mild, tryEval, Num.denom]
  refine ⟨⟨⟨⟨⟨⟨by decide, trivial, by simp⟩, trivial⟩, by decide +kernel⟩, ?_, by decide +kernel⟩,
    ⟨⟨trivial, trivial, by decide +kernel⟩, trivial⟩, trivial⟩, trivial⟩
  intro g h1 _ _
  have : (g : Int).natAbs ∣ 1 := Int.natAbs_dvd_natAbs.2 h1
  simpa using this
example : modN (floats ⟨fun k b c => k * b * c, fun t _ => t⟩ exMath 9) 9 [.mk 3 1 (.exp [.mk 2 1 (.int 5000)] 1 1)] 5 2 (.int 7)
    = .ok 5 := by decide +kernel

end Props

import Verif.Spec.ExpInt
import Verif.Lemmas.Math
import Mathlib.Tactic.FieldSimp
import Mathlib.Tactic.Ring
import Mathlib.Tactic.LinearCombination
import Mathlib.Algebra.Order.Field.Rat
import Mathlib.Data.Rat.Cast.Order

set_option linter.unusedSectionVars false

/-! # Lemmas about `Model.ExpInt` -/

namespace Model.ExpInt
open Spec

/-! ## Structure -/

theorem structEq_sound : (∀ a b, structEq a b = true → a = b) := by
  have key : ∀ n, (∀ a b, sizeOf a ≤ n → structEq a b = true → a = b) ∧
      (∀ a b, sizeOf a ≤ n → structEqs a b = true → a = b) ∧ (∀ a b, sizeOf a ≤ n → structEqT a b = true → a = b) := by
    intro n
    induction n with
    | zero =>
      refine ⟨?_, ?_, ?_⟩
      · intro a b h; cases a <;> simp at h
      · intro a b h; cases a <;> simp at h
      · intro a b h; cases a; simp at h
    | succ n ih =>
      obtain ⟨i1, i2, i3⟩ := ih
      refine ⟨?_, ?_, ?_⟩
      · intro a b hs h
        cases a <;> cases b <;> simp only [structEq, Bool.and_eq_true, decide_eq_true_eq, Bool.false_eq_true] at h
        · rw [h]
        · simp only [Num.exp.sizeOf_spec] at hs
          rw [h.1.1, h.1.2, i2 _ _ (by omega) h.2]
      · intro a b hs h
        cases a <;> cases b <;> simp only [structEqs, Bool.and_eq_true, Bool.false_eq_true] at h
        · rfl
        · simp only [List.cons.sizeOf_spec] at hs
          rw [i3 _ _ (by omega) h.1, i2 _ _ (by omega) h.2]
      · intro a b hs h
        cases a; cases b
        simp only [structEqT, Bool.and_eq_true, decide_eq_true_eq] at h
        simp only [ETerm.mk.sizeOf_spec] at hs
        rw [h.1.1, h.1.2, i1 _ _ (by omega) h.2]
  intro a b h
  exact (key (sizeOf a)).1 a b (Nat.le_refl _) h

theorem allWF_iff {ts : List ETerm} : AllWF ts ↔ ∀ t ∈ ts, ETerm.WF t := by
  induction ts with
  | nil => simp [AllWF]
  | cons t ts ih => simp [AllWF, ih]

theorem termsValue_append (a b : List ETerm) : termsValue (a ++ b) = termsValue a + termsValue b := by
  induction a with
  | nil => simp [termsValue]
  | cons t ts ih => simp only [List.cons_append, termsValue, ih]; ring

theorem termsValue_perm {a b : List ETerm} (h : a.Perm b) : termsValue a = termsValue b := by
  induction h with
  | nil => rfl
  | cons x _ ih => simp only [termsValue, ih]
  | swap x y l => simp only [termsValue]; ring
  | trans _ _ ih1 ih2 => rw [ih1, ih2]

theorem oneBase_iff {ts : List ETerm} : oneBase ts = true ↔ ts ≠ [] ∧ ∀ t ∈ ts, ∀ t' ∈ ts, t.base = t'.base := by
  cases ts with
  | nil => simp [oneBase]
  | cons t ts =>
    simp only [oneBase, List.all_eq_true, decide_eq_true_eq]
    constructor
    · intro h
      have : ∀ x ∈ t :: ts, x.base = t.base := by
        intro x hx
        rcases List.mem_cons.1 hx with rfl | hx
        · rfl
        · exact h x hx
      exact ⟨by simp, fun a ha b hb => by rw [this a ha, this b hb]⟩
    · intro h x hx
      exact h.2 x (by simp [hx]) t (by simp)

/-- The natural number an exponent stands for. -/
def natOf (e : Num) : Nat := (Num.value e).num.toNat

theorem natOf_eq {e : Num} {n : Nat} (h : Num.value e = n) : natOf e = n := by simp [natOf, h]

theorem value_mk (b c : Int) (e : Num) : ETerm.value (.mk b c e) = c * (b : ℚ) ^ natOf e := by
  simp only [ETerm.value, natOf]

/-- A term with a given value. -/
def TermIs (t : ETerm) (v : ℚ) : Prop := ETerm.WF t ∧ ETerm.value t = v

/-- A number with a given value. -/
def NumIs (a : Num) (v : ℚ) : Prop := Num.WF a ∧ Num.value a = v

theorem numIs_int (z : Int) : NumIs (.int z) z := ⟨by simp [Num.WF], by simp [Num.value]⟩

theorem pullOut_sound {incr : Num → Except Err Num} {base : Int} (hb : 2 ≤ base)
    (hi : ∀ (e : Num) (n : Nat) e', NumIs e n → incr e = .ok e' → NumIs e' ((n + 1 : Nat) : ℚ)) :
    ∀ (f : Nat) (c : Int) (e : Num) (n : Nat) (c' : Int) (e' : Num), c ≠ 0 → NumIs e n →
      pullOut incr base f c e = .ok (c', e') →
      c' ≠ 0 ∧ ∃ n' : Nat, NumIs e' n' ∧ (c' : ℚ) * (base : ℚ) ^ n' = c * (base : ℚ) ^ n
  | 0, c, e, n, c', e', hc, he, h => by cases h; exact ⟨hc, n, he, rfl⟩
  | f + 1, c, e, n, c', e', hc, he, h => by
    unfold pullOut at h
    split at h
    · next hm =>
      split at h
      · cases h
      · next e1 h1 =>
        have hd : base ∣ c := Int.dvd_of_emod_eq_zero (by rw [← Int.fmod_eq_emod_of_nonneg _ (by omega)]; exact hm)
        have hcd : c.fdiv base * base = c := by
          rw [Int.fdiv_eq_ediv_of_nonneg _ (by omega)]; exact Int.ediv_mul_cancel hd
        have hne : c.fdiv base ≠ 0 := by intro h0; rw [h0] at hcd; simp at hcd; exact hc hcd.symm
        obtain ⟨i1, n', i2, i3⟩ := pullOut_sound hb hi f _ e1 (n + 1) c' e' hne (hi e n e1 he h1) h
        refine ⟨i1, n', i2, ?_⟩
        rw [i3]
        have : (c : ℚ) = (c.fdiv base : Int) * base := by exact_mod_cast hcd.symm
        rw [this]; ring
    · cases h; exact ⟨hc, n, he, rfl⟩

theorem mapE_mem {α β : Type} {f : α → Except Err β} : ∀ {xs : List α} {ys : List β}, mapE f xs = .ok ys →
    ∀ y ∈ ys, ∃ x ∈ xs, f x = .ok y
  | [], ys, h, y, hy => by cases h; simp at hy
  | x :: xs, ys, h, y, hy => by
    unfold mapE at h
    split at h
    · cases h
    · next y0 h0 =>
      split at h
      · cases h
      · next ys0 h1 =>
        cases h
        rcases List.mem_cons.1 hy with rfl | hy
        · exact ⟨x, by simp, h0⟩
        · obtain ⟨x', hx', hf⟩ := mapE_mem h1 y hy
          exact ⟨x', by simp [hx'], hf⟩

/-- Scaling every term by a map that scales values. -/
theorem mapE_scale {f : ETerm → Except Err ETerm} {q : ℚ}
    (hf : ∀ t t', ETerm.WF t → f t = .ok t' → TermIs t' (ETerm.value t * q)) :
    ∀ {ts ts' : List ETerm}, AllWF ts → mapE f ts = .ok ts' → AllWF ts' ∧ termsValue ts' = termsValue ts * q ∧
      (ts' = [] ↔ ts = [])
  | [], ts', _, h => by cases h; simp [AllWF, termsValue]
  | t :: ts, ts', hw, h => by
    unfold mapE at h
    split at h
    · cases h
    · next y0 h0 =>
      split at h
      · cases h
      · next ys0 h1 =>
        cases h
        simp only [AllWF] at hw
        obtain ⟨i1, i2⟩ := hf t y0 hw.1 h0
        obtain ⟨j1, j2, _⟩ := mapE_scale hf hw.2 h1
        refine ⟨by simp only [AllWF]; exact ⟨i1, j1⟩, ?_, by simp⟩
        simp only [termsValue, i2, j2]; ring

theorem mergeLoop_sound {mk : Int → Int → Num → Except Err ETerm} {base : Int}
    (hmk : ∀ (c : Int) (e : Num) (n : Nat) t, NumIs e n → mk base c e = .ok t → TermIs t (c * (base : ℚ) ^ n)) :
    ∀ (ts : List ETerm) (pe : Num) (pc : Int) (n : Nat) (out : List ETerm), AllWF ts → (∀ t ∈ ts, t.base = base) →
      NumIs pe n → mergeLoop mk base pe pc ts = .ok out →
      AllWF out ∧ termsValue out = pc * (base : ℚ) ^ n + termsValue ts
  | [], pe, pc, n, out, _, _, hp, h => by
    unfold mergeLoop at h
    split at h
    · split at h
      · cases h
      · next t ht =>
        cases h
        obtain ⟨h1, h2⟩ := hmk _ _ n _ hp ht
        simp only [AllWF, termsValue, h2, and_true]
        exact h1
    · next hc =>
      cases h
      have : pc = 0 := by simpa using hc
      simp [AllWF, termsValue, this]
  | .mk b c e :: ts, pe, pc, n, out, hw, hb, hp, h => by
    have hb0 : b = base := hb (.mk b c e) (by simp)
    subst hb0
    simp only [AllWF, ETerm.WF] at hw
    obtain ⟨⟨hw1, hw2, hw3, m, hm⟩, hw4⟩ := hw
    have he : NumIs e m := ⟨hw3, hm⟩
    rw [mergeLoop.eq_2] at h
    have hv : ETerm.value (.mk b c e) = c * (b : ℚ) ^ m := by rw [value_mk, natOf_eq hm]
    by_cases heq : structEq (ETerm.mk b c e).exponent pe = true
    · rw [if_pos heq] at h
      have heq : e = pe := structEq_sound _ _ heq
      subst heq
      have hnm : n = m := by
        have := hp.2.symm.trans he.2; exact_mod_cast this
      subst hnm
      obtain ⟨i1, i2⟩ := mergeLoop_sound hmk ts e (pc + c) n out hw4 (fun t ht => hb t (by simp [ht])) hp h
      refine ⟨i1, ?_⟩
      rw [i2]; simp only [termsValue, hv]; push_cast; ring
    · rw [if_neg heq] at h
      split at h
      · split at h
        · cases h
        · next t' ht' =>
          split at h
          · cases h
          · next rest hrest =>
            cases h
            obtain ⟨k1, k2⟩ := hmk _ _ n _ hp ht'
            obtain ⟨i1, i2⟩ := mergeLoop_sound hmk ts e c m rest hw4 (fun t ht => hb t (by simp [ht])) he hrest
            refine ⟨by simp only [AllWF]; exact ⟨k1, i1⟩, ?_⟩
            simp only [termsValue, k2, i2, hv]
      · next hc =>
        have hc : pc = 0 := by simpa using hc
        obtain ⟨i1, i2⟩ := mergeLoop_sound hmk ts e c m out hw4 (fun t ht => hb t (by simp [ht])) he h
        refine ⟨i1, ?_⟩
        rw [i2]; simp only [termsValue, hv, hc]; push_cast; ring

theorem intPow_ok {F : Math.Floats} {b : Int} {n k : Nat} (h : Math.intPow F b = .ok (n, k)) : (n : Int) ^ k = b := by
  unfold Math.intPow at h
  split at h
  · cases h
  · split at h
    · cases h
    · next s _ =>
      have := Math.intPowLoop_pow F b.toNat (List.range' 2 (s + 1 - 2))
      simp only [Except.ok.injEq] at h
      rw [h] at this
      have h2 : ((b.toNat : Nat) : Int) = b := by omega
      rw [← h2, ← this]; push_cast; rfl

theorem intPow_nonneg {F : Math.Floats} {b : Int} {r} (h : Math.intPow F b = .ok r) : 0 ≤ b := by
  unfold Math.intPow at h
  split at h
  · cases h
  · omega

/-! ## `try_eval` -/

theorem eval_sound : ∀ n : Nat,
    (∀ a, sizeOf a ≤ n → Num.WF a → ∀ z v : Int, Num.value a = z → tryEval a = some v → v = z) ∧
    (∀ ts : List ETerm, sizeOf ts ≤ n → AllWF ts → ∀ s : Int, evalSum ts = some s → termsValue ts = s) ∧
    (∀ t : ETerm, sizeOf t ≤ n → ETerm.WF t → ∀ s : Int, evalTerm t = some s → ETerm.value t = s) := by
  intro n
  induction n with
  | zero =>
    refine ⟨?_, ?_, ?_⟩
    · intro a h; cases a <;> simp at h
    · intro a h; cases a <;> simp at h
    · intro a h; cases a; simp at h
  | succ n ih =>
    obtain ⟨i1, i2, i3⟩ := ih
    refine ⟨?_, ?_, ?_⟩
    · intro a hs hw z v hz hv
      cases a with
      | int y =>
        simp only [tryEval, Option.some.injEq] at hv
        simp only [Num.value] at hz
        have : y = z := by exact_mod_cast hz
        omega
      | exp ts c d =>
        simp only [Num.exp.sizeOf_spec] at hs
        simp only [Num.WF] at hw
        simp only [tryEval, Option.map_eq_some_iff] at hv
        obtain ⟨s, hs1, hs2⟩ := hv
        have := i2 ts (by omega) hw.2.2.2 s hs1
        simp only [Num.value, this] at hz
        have hd : (d : ℚ) ≠ 0 := by have := hw.2.1; exact_mod_cast (by omega : d ≠ 0)
        rw [div_eq_iff hd] at hz
        have hz : s + c = z * d := by exact_mod_cast hz
        rw [hz, Int.fdiv_eq_ediv_of_nonneg _ (by omega), Int.mul_ediv_cancel _ (by omega)] at hs2
        exact hs2.symm
    · intro ts hs hw s h
      cases ts with
      | nil => simp only [evalSum, Option.some.injEq] at h; simp [termsValue, ← h]
      | cons t ts =>
        simp only [List.cons.sizeOf_spec] at hs
        simp only [AllWF] at hw
        simp only [evalSum] at h
        split at h
        · next v s' hv hs' =>
          cases h
          simp only [termsValue]
          rw [i3 t (by omega) hw.1 v hv, i2 ts (by omega) hw.2 s' hs']
          push_cast; ring
        · cases h
    · intro t hs hw s h
      cases t with
      | mk b c e =>
        simp only [ETerm.mk.sizeOf_spec] at hs
        simp only [ETerm.WF] at hw
        obtain ⟨_, _, hw3, m, hm⟩ := hw
        simp only [evalTerm] at h
        split at h
        · cases h
        · next k hk =>
          have hkm := i1 e (by omega) hw3 m k (by exact_mod_cast hm) hk
          subst hkm
          split at h
          · cases h
          · split at h
            · cases h
              rw [value_mk, natOf_eq hm]
              push_cast
              simp
            · cases h

theorem tryEval_sound {a : Num} {z v : Int} (h : Denotes a z) (hv : tryEval a = some v) : v = z :=
  (eval_sound (sizeOf a)).1 a (Nat.le_refl _) h.1 z v h.2 hv

/-! ## The common divisor -/

theorem foldl_gcd_dvd : ∀ (ts : List ETerm) (g : Int), (ts.foldl (fun g t => Math.gcd g t.coef) g) ∣ g ∧
    ∀ t ∈ ts, (ts.foldl (fun g t => Math.gcd g t.coef) g) ∣ t.coef
  | [], g => by simp
  | t :: ts, g => by
    obtain ⟨h1, h2⟩ := foldl_gcd_dvd ts (Math.gcd g t.coef)
    have hg : Math.gcd g t.coef ∣ g ∧ Math.gcd g t.coef ∣ t.coef := by
      rw [Math.gcd_eq]; exact ⟨Int.gcd_dvd_left _ _, Int.gcd_dvd_right _ _⟩
    refine ⟨dvd_trans h1 hg.1, ?_⟩
    intro x hx
    rcases List.mem_cons.1 hx with rfl | hx
    · exact dvd_trans h1 hg.2
    · exact h2 x hx

theorem commonDiv_dvd (ts : List ETerm) (c : Int) {d : Int} (hd : d ≠ 0) : commonDiv ts c d ∣ c ∧ commonDiv ts c d ∣ d ∧
    (commonDiv ts c d ≠ 1 → ∀ t ∈ ts, commonDiv ts c d ∣ t.coef) := by
  have hg : Math.gcd c d ∣ c ∧ Math.gcd c d ∣ d := by
    rw [Math.gcd_eq]; exact ⟨Int.gcd_dvd_left _ _, Int.gcd_dvd_right _ _⟩
  have hs : Math.gcd c d * d.sign ∣ c ∧ Math.gcd c d * d.sign ∣ d := by
    rcases Int.lt_trichotomy d 0 with h | h | h
    · rw [Int.sign_eq_neg_one_of_neg h, mul_neg_one]; exact ⟨(neg_dvd).2 hg.1, (neg_dvd).2 hg.2⟩
    · exact absurd h hd
    · rw [Int.sign_eq_one_of_pos h, mul_one]; exact hg
  unfold commonDiv
  dsimp only
  split
  · exact ⟨dvd_trans (foldl_gcd_dvd _ _).1 hs.1, dvd_trans (foldl_gcd_dvd _ _).1 hs.2, fun _ => (foldl_gcd_dvd _ _).2⟩
  · next h => exact ⟨hs.1, hs.2, fun h' => absurd h' h⟩

theorem fdiv_cancel {a b : Int} (h : b ∣ a) : a.fdiv b * b = a := by
  obtain ⟨k, rfl⟩ := h
  by_cases hb : b = 0
  · subst hb; simp
  · rw [Int.mul_fdiv_cancel_left _ hb, Int.mul_comm]

theorem fdiv_cast {a b : Int} (h : b ∣ a) (hb : b ≠ 0) : ((a.fdiv b : Int) : ℚ) = a / b := by
  have := fdiv_cancel h
  rw [eq_div_iff (by exact_mod_cast hb)]
  exact_mod_cast this

/-! ## The arithmetic -/

/-- Everything the constructors and operations promise, with a given fuel. -/
structure Sound (F : Floats) (f : Nat) : Prop where
  term : ∀ (b c : Int) (e : Num) (n : Nat) t, NumIs e n → mkTerm F f b c e = .ok t → TermIs t (c * (b : ℚ) ^ n)
  int : ∀ ts c d r, AllWF ts → mkInt F f ts c d = .ok r → NumIs r ((termsValue ts + c) / d) ∧ ∃ ts' c' d', r = .exp ts' c' d'
  norm : ∀ ts r, AllWF ts → normalizeTerms F f ts = .ok r → AllWF r ∧ termsValue r = termsValue ts
  add : ∀ (a b : Num) (x y : Int) r, NumIs a x → NumIs b y → addN F f a b = .ok r → NumIs r ((x + y : Int) : ℚ)
  mul : ∀ (a b : Num) (x y : Int) r, NumIs a x → NumIs b y → mulN F f a b = .ok r → NumIs r ((x * y : Int) : ℚ)
  mulE : ∀ ts c d (b : Num) (x y : Int) r, NumIs (.exp ts c d) x → NumIs b y → mulExp F f ts c d b = .ok r →
    NumIs r ((x * y : Int) : ℚ)

theorem scale_sound {F : Floats} {f : Nat} (h : Sound F f) {z : Int} (t t' : ETerm) (ht : ETerm.WF t)
    (hk : mkTerm F f t.base (t.coef * z) t.exponent = .ok t') : TermIs t' (ETerm.value t * z) := by
  cases t with
  | mk b c e =>
    simp only [ETerm.WF] at ht
    obtain ⟨_, _, h3, n, hn⟩ := ht
    have := h.term b (c * z) e n t' ⟨h3, hn⟩ hk
    refine ⟨this.1, ?_⟩
    rw [this.2, value_mk, natOf_eq hn]; push_cast; ring

theorem int_of_denom {ts : List ETerm} {c d x : Int} (h : NumIs (.exp ts c d) x) : termsValue ts + c = x * d ∧ 0 < d := by
  obtain ⟨h1, h2⟩ := h
  simp only [Num.WF] at h1
  have hd : (d : ℚ) ≠ 0 := by have := h1.2.1; exact_mod_cast (by omega : d ≠ 0)
  simp only [Num.value] at h2
  rw [div_eq_iff hd] at h2
  exact ⟨h2, h1.2.1⟩

theorem allWF_append {a b : List ETerm} (ha : AllWF a) (hb : AllWF b) : AllWF (a ++ b) := by
  rw [allWF_iff] at *
  intro t ht
  rcases List.mem_append.1 ht with ht | ht
  · exact ha t ht
  · exact hb t ht

theorem mapE_flat {g : ETerm → Except Err (List ETerm)} {q : ℚ}
    (hg : ∀ t ys, ETerm.WF t → g t = .ok ys → AllWF ys ∧ termsValue ys = ETerm.value t * q) :
    ∀ {ts : List ETerm} {yss}, AllWF ts → mapE g ts = .ok yss → AllWF yss.flatten ∧ termsValue yss.flatten = termsValue ts * q
  | [], yss, _, h => by cases h; simp [AllWF, termsValue]
  | t :: ts, yss, hw, h => by
    unfold mapE at h
    split at h
    · cases h
    · next y0 h0 =>
      split at h
      · cases h
      · next ys0 h1 =>
        cases h
        simp only [AllWF] at hw
        obtain ⟨i1, i2⟩ := hg t y0 hw.1 h0
        obtain ⟨j1, j2⟩ := mapE_flat hg hw.2 h1
        refine ⟨by rw [List.flatten_cons]; exact allWF_append i1 j1, ?_⟩
        rw [List.flatten_cons, termsValue_append, i2, j2]; simp only [termsValue]; ring

theorem prodTerms_sound {F : Floats} {f : Nat} (h : Sound F f) {ts1 ts2 : List ETerm} {c1 c2 : Int} {r}
    (h1 : AllWF ts1) (h2 : AllWF ts2) (hr : prodTerms (mkTerm F f) (addN F f) ts1 c1 ts2 c2 = .ok r) :
    AllWF r ∧ termsValue r = termsValue ts1 * termsValue ts2 + c2 * termsValue ts1 + c1 * termsValue ts2 := by
  unfold prodTerms at hr
  split at hr
  · cases hr
  · next yss hy =>
    have hm := mapE_flat (q := c2 + termsValue ts2) (fun t1 ys ht1 hk => by
      split at hk
      · cases hk
      · next xs hxs =>
        split at hk
        · cases hk
        · next zs hzs =>
          cases hk
          have a1 : AllWF xs ∧ termsValue xs = ETerm.value t1 * c2 := by
            by_cases hc : c2 = 0
            · subst hc
              simp [mapE] at hxs
              subst hxs; simp [AllWF, termsValue]
            · rw [if_pos hc] at hxs
              unfold mapE at hxs
              split at hxs
              · cases hxs
              · next y hy =>
                simp only [mapE] at hxs
                cases hxs
                have := scale_sound h (z := c2) t1 y ht1 hy
                simp only [AllWF, termsValue, this.2, add_zero, and_true]
                exact this.1
          have a2 := mapE_scale (q := ETerm.value t1) (f := fun t2 =>
            if t1.base = t2.base then
              match addN F f t1.exponent t2.exponent with
              | .error e => .error e
              | .ok e => mkTerm F f t1.base (t1.coef * t2.coef) e
            else .error .assertion) (fun t2 t' ht2 hk => by
              split at hk
              · next hb =>
                split at hk
                · cases hk
                · next e he =>
                  cases t1 with
                  | mk b c e1 =>
                    cases t2 with
                    | mk b2 c2 e2 =>
                      simp only [ETerm.base] at hb
                      subst hb
                      simp only [ETerm.WF] at ht1 ht2
                      obtain ⟨_, _, u3, n, hn⟩ := ht1
                      obtain ⟨_, _, v3, m, hm⟩ := ht2
                      have ha := h.add e1 e2 n m e ⟨u3, by simpa using hn⟩ ⟨v3, by simpa using hm⟩ he
                      have := h.term b (c * c2) e (n + m) t' (by simpa using ha) hk
                      refine ⟨this.1, ?_⟩
                      rw [this.2, value_mk, value_mk, natOf_eq hn, natOf_eq hm, pow_add]
                      push_cast; ring
              · cases hk) h2 hzs
          refine ⟨allWF_append a1.1 a2.1, ?_⟩
          rw [termsValue_append, a1.2, a2.2.1]; ring) h1 hy
    split at hr
    · split at hr
      · cases hr
      · next zs hzs =>
        cases hr
        have a3 := mapE_scale (fun t t' ht hk => scale_sound h (z := c1) t t' ht hk) h2 hzs
        refine ⟨allWF_append hm.1 a3.1, ?_⟩
        rw [termsValue_append, hm.2, a3.2.1]; ring
    · next hc =>
      cases hr
      have hc : c1 = 0 := by simpa using hc
      refine ⟨hm.1, ?_⟩
      rw [hm.2, hc]; push_cast; ring

theorem sound_succ {F : Floats} (hF : FloatsOk F) {f : Nat} (h : Sound F f) : Sound F (f + 1) where
  term := by
    intro b c e n t he ht
    unfold mkTerm at ht
    split at ht
    · cases ht
    · next hc =>
      split at ht
      · cases ht
      · next p nn k hp =>
        have hpow := intPow_ok hp
        have hb0 := intPow_nonneg hp
        split at ht
        · cases ht
        · next e1 he1 =>
          have hn1 : ∃ m : Nat, NumIs e1 m ∧ ((if k > 1 then (nn : Int) else b : Int) : ℚ) ^ m = (b : ℚ) ^ n := by
            by_cases hk : k > 1
            · rw [if_pos hk] at he1
              have := h.mul e (.int k) n k e1 (by simpa using he) (numIs_int k) he1
              refine ⟨n * k, by simpa using this, ?_⟩
              rw [if_pos hk, ← hpow]; push_cast; rw [← pow_mul, Nat.mul_comm]
            · rw [if_neg hk] at he1; cases he1
              exact ⟨n, he, by rw [if_neg hk]⟩
          obtain ⟨m, hm1, hm2⟩ := hn1
          generalize hB : (if k > 1 then (nn : Int) else b) = B at ht hm2
          have hB0 : 0 ≤ B := by rw [← hB]; split <;> omega
          dsimp only at ht
          split at ht
          · cases ht
          · split at ht
            · cases ht
            · next hB1 hB2 =>
              have hB3 : 2 ≤ B := by omega
              split at ht
              · cases ht
              · next q c' e' hq =>
                obtain ⟨i1, n', i2, i3⟩ := pullOut_sound hB3 (fun e n e' hh h1 => by
                  have := h.add e (.int 1) n 1 e' (by simpa using hh) (by simpa using numIs_int 1) h1
                  simpa using this) _ c e1 m c' e' hc hm1 hq
                have hres : TermIs (.mk B c' e') (c * (b : ℚ) ^ n) := by
                  refine ⟨by simp only [ETerm.WF]; exact ⟨hB3, i1, i2.1, n', i2.2⟩, ?_⟩
                  rw [value_mk, natOf_eq i2.2, i3, hm2]
                split at ht
                · cases ht
                · split at ht
                  · cases ht
                  · cases ht; exact hres
                · cases ht; exact hres
  int := by
    intro ts c d r hw hr
    unfold mkInt at hr
    split at hr
    · cases hr
    · next hne =>
      dsimp only at hr
      split at hr
      · cases hr
      · next hcom =>
        split at hr
        · cases hr
        · next p ts' c' d' hp =>
          split at hr
          · next hd' =>
            split at hr
            · cases hr
            · split at hr
              · next hob =>
                cases hr
                have hob' := (oneBase_iff.1 hob).1
                have main : AllWF ts' ∧ (termsValue ts' + c') / d' = (termsValue ts + c) / d := by
                  unfold divCommon at hp
                  split at hp
                  · next h1 =>
                    split at hp
                    · cases hp
                    · next ts1 hts =>
                      cases hp
                      have hd0 : d ≠ 0 := by
                        intro hd0; subst hd0; simp at hd'
                      obtain ⟨g1, g2, g3⟩ := commonDiv_dvd ts c hd0
                      generalize commonDiv ts c d = g at *
                      have := mapE_scale (q := (g : ℚ)⁻¹) (f := fun t : ETerm =>
                        if t.coef.fmod g = 0 then mkTerm F f t.base (t.coef.fdiv g) t.exponent else .error .assertion)
                        (by
                          intro t t' ht hk
                          split at hk
                          · next hmod =>
                            cases t with
                            | mk b c e =>
                              simp only [ETerm.WF] at ht
                              obtain ⟨_, _, h3, n, hn⟩ := ht
                              have := h.term b (c.fdiv g) e n t' ⟨h3, hn⟩ hk
                              refine ⟨this.1, ?_⟩
                              rw [this.2, value_mk, natOf_eq hn, fdiv_cast (a := c) (Int.dvd_of_fmod_eq_zero hmod) hcom]
                              ring
                          · cases hk) hw hts
                      refine ⟨this.1, ?_⟩
                      rw [this.2.1, fdiv_cast g1 hcom, fdiv_cast g2 hcom]
                      have hg : (g : ℚ) ≠ 0 := by exact_mod_cast hcom
                      have hdq : (d : ℚ) ≠ 0 := by exact_mod_cast hd0
                      field_simp
                  · cases hp; exact ⟨hw, rfl⟩
                refine ⟨⟨?_, ?_⟩, _, _, _, rfl⟩
                · simp only [Num.WF]; exact ⟨hob', hd', hob, main.1⟩
                · simp only [Num.value]; exact main.2
              · cases hr
          · cases hr
  norm := by
    intro ts r hw hr
    unfold normalizeTerms at hr
    split at hr
    · next hob =>
      have hob := oneBase_iff.1 hob
      have hperm := hF.order ts
      split at hr
      · next ho => rw [ho] at hperm; exact absurd hperm.nil_eq.symm hob.1
      · next t rest ho =>
        cases hr' : r with
        | _ =>
        rw [ho] at hperm
        have hw2 : AllWF (t :: rest) := by
          rw [allWF_iff] at *; intro x hx; exact hw x (hperm.subset hx)
        have hbase : ∀ x ∈ rest, x.base = t.base := fun x hx =>
          hob.2 x (hperm.subset (by simp [hx])) t (hperm.subset (by simp))
        cases t with
        | mk b c e =>
          simp only [AllWF, ETerm.WF] at hw2
          obtain ⟨⟨_, _, h3, n, hn⟩, h5⟩ := hw2
          have := mergeLoop_sound (base := b) (fun c e n t hh hk => h.term b c e n t hh hk) rest e c n r h5 hbase ⟨h3, hn⟩ hr
          refine ⟨by rw [← hr']; exact this.1, ?_⟩
          rw [← hr', this.2, ← termsValue_perm hperm]
          simp only [termsValue, value_mk, natOf_eq hn]
    · cases hr
  add := by
    intro a b x y r ha hb hr
    unfold addN at hr
    split at hr
    · next z w =>
      cases hr
      have h1 := ha.2; have h2 := hb.2
      simp only [Num.value] at h1 h2
      have h1 : z = x := by exact_mod_cast h1
      have h2 : w = y := by exact_mod_cast h2
      rw [h1, h2]; exact numIs_int _
    · next ts c d w =>
      obtain ⟨h1, h2⟩ := int_of_denom ha
      have hw := ha.1; simp only [Num.WF] at hw
      have h3 := hb.2; simp only [Num.value] at h3
      obtain ⟨i1, -⟩ := h.int _ _ _ _ hw.2.2.2 hr
      refine ⟨i1.1, ?_⟩
      have hd : (d : ℚ) ≠ 0 := by exact_mod_cast (by omega : d ≠ 0)
      rw [i1.2, div_eq_iff hd]; push_cast; rw [← h3]; linear_combination h1
    · next z ts c d =>
      obtain ⟨h1, h2⟩ := int_of_denom hb
      have hw := hb.1; simp only [Num.WF] at hw
      have h3 := ha.2; simp only [Num.value] at h3
      obtain ⟨i1, -⟩ := h.int _ _ _ _ hw.2.2.2 hr
      refine ⟨i1.1, ?_⟩
      have hd : (d : ℚ) ≠ 0 := by exact_mod_cast (by omega : d ≠ 0)
      rw [i1.2, div_eq_iff hd]; push_cast; rw [← h3]; linear_combination h1
    · next ts1 c1 d1 ts2 c2 d2 =>
      obtain ⟨p1, p2⟩ := int_of_denom ha
      obtain ⟨q1, q2⟩ := int_of_denom hb
      have hw1 := ha.1; simp only [Num.WF] at hw1
      have hw2 := hb.1; simp only [Num.WF] at hw2
      split at hr
      · cases hr
      · next nd hnd =>
        split at hr
        · cases hr
        · dsimp only at hr
          have hlcm : d1 ∣ nd ∧ d2 ∣ nd ∧ nd ≠ 0 := by
            have e1 : ((d1.toNat : Nat) : Int) = d1 := by omega
            have e2 : ((d2.toNat : Nat) : Int) = d2 := by omega
            have := Math.lcm_nat (a := d1.toNat) (b := d2.toNat) (Or.inl (by omega))
            rw [e1, e2, hnd] at this
            cases this
            refine ⟨?_, ?_, ?_⟩
            · rw [← e1]; exact_mod_cast Nat.dvd_lcm_left _ _
            · rw [← e2]; exact_mod_cast Nat.dvd_lcm_right _ _
            · have := Nat.lcm_pos (m := d1.toNat) (n := d2.toNat) (by omega) (by omega); omega
          obtain ⟨l1, l2, l3⟩ := hlcm
          have k1 := fdiv_cancel l1
          have k2 := fdiv_cancel l2
          generalize nd.fdiv d1 = ns at *
          generalize nd.fdiv d2 = no at *
          split at hr
          · cases hr
          · next ts1' ht1 =>
            split at hr
            · cases hr
            · next ts2' ht2 =>
              have m1 := mapE_scale (fun t t' ht hk => scale_sound h (z := ns) t t' ht hk) hw1.2.2.2 ht1
              have m2 := mapE_scale (fun t t' ht hk => scale_sound h (z := no) t t' ht hk) hw2.2.2.2 ht2
              split at hr
              · cases hr
              · next ts hts =>
                have hn := h.norm _ _ (by
                  rw [allWF_iff]
                  intro t ht
                  rcases List.mem_append.1 ht with ht | ht
                  · exact allWF_iff.1 m1.1 t ht
                  · exact allWF_iff.1 m2.1 t ht) hts
                rw [termsValue_append, m1.2.1, m2.2.1] at hn
                have hk1 : ((ns : ℚ)) * d1 = nd := by exact_mod_cast k1
                have hk2 : ((no : ℚ)) * d2 = nd := by exact_mod_cast k2
                have tot : termsValue ts + ((ns * c1 + no * c2 : Int) : ℚ) = ((x + y : Int) : ℚ) * nd := by
                  rw [hn.2]; push_cast
                  linear_combination (ns : ℚ) * p1 + (no : ℚ) * q1 + (x : ℚ) * hk1 + (y : ℚ) * hk2
                split at hr
                · next hemp =>
                  cases hr
                  rw [List.isEmpty_iff] at hemp
                  subst hemp
                  simp only [termsValue, zero_add] at tot
                  have tot : ns * c1 + no * c2 = (x + y) * nd := by exact_mod_cast tot
                  rw [tot, Int.mul_fdiv_cancel _ l3]
                  exact numIs_int _
                · obtain ⟨i1, -⟩ := h.int _ _ _ _ hn.1 hr
                  refine ⟨i1.1, ?_⟩
                  rw [i1.2, tot]
                  have : (nd : ℚ) ≠ 0 := by exact_mod_cast l3
                  field_simp
  mul := by
    intro a b x y r ha hb hr
    unfold mulN at hr
    split at hr
    · next z w =>
      cases hr
      have h1 := ha.2; have h2 := hb.2
      simp only [Num.value] at h1 h2
      have h1 : z = x := by exact_mod_cast h1
      have h2 : w = y := by exact_mod_cast h2
      rw [h1, h2]; exact numIs_int _
    · rw [Int.mul_comm]; exact h.mulE _ _ _ _ _ _ _ hb ha hr
    · exact h.mulE _ _ _ _ _ _ _ ha hb hr
  mulE := by
    intro ts c d b x y r ha hb hr
    obtain ⟨p1, p2⟩ := int_of_denom ha
    have hw := ha.1; simp only [Num.WF] at hw
    have hdq : (d : ℚ) ≠ 0 := by exact_mod_cast (by omega : d ≠ 0)
    unfold mulExp at hr
    have hother : NumIs (simplify b) y := by
      unfold simplify
      split
      · next z hz => rw [tryEval_sound (a := b) (z := y) hb hz]; exact numIs_int _
      · exact hb
    generalize simplify b = o at hr hother
    cases o with
    | int z =>
      have h2 := hother.2
      simp only [Num.value] at h2
      have h2 : z = y := by exact_mod_cast h2
      subst h2
      dsimp only at hr
      split at hr
      · next hz => cases hr; rw [hz, Int.mul_zero]; exact numIs_int 0
      · split at hr
        · cases hr
        · next ts' ht =>
          have m := mapE_scale (fun t t' ht hk => scale_sound h (z := z) t t' ht hk) hw.2.2.2 ht
          obtain ⟨i1, -⟩ := h.int _ _ _ _ m.1 hr
          refine ⟨i1.1, ?_⟩
          rw [i1.2, m.2.1, div_eq_iff hdq]; push_cast; linear_combination (z : ℚ) * p1
    | exp ts2 c2 d2 =>
      obtain ⟨q1, q2⟩ := int_of_denom hother
      have hw2 := hother.1; simp only [Num.WF] at hw2
      have hdq2 : (d2 : ℚ) ≠ 0 := by exact_mod_cast (by omega : d2 ≠ 0)
      dsimp only at hr
      split at hr
      · split at hr
        · cases hr
        · next ts' ht' =>
          have hp := prodTerms_sound h hw.2.2.2 hw2.2.2.2 ht'
          split at hr
          · cases hr
          · next ts'' ht'' =>
            have hn := h.norm _ _ hp.1 ht''
            have tot : termsValue ts'' + ((c * c2 : Int) : ℚ) = ((x * y : Int) : ℚ) * ((d * d2 : Int) : ℚ) := by
              rw [hn.2, hp.2]; push_cast
              have : (termsValue ts + c) * (termsValue ts2 + c2) = (x * d) * (y * d2) := by rw [p1, q1]
              linear_combination this
            split at hr
            · next hemp =>
              rw [List.isEmpty_iff] at hemp
              subst hemp
              split at hr
              · cases hr
              · next hdd =>
                cases hr
                simp only [termsValue, zero_add] at tot
                have tot : c * c2 = (x * y) * (d * d2) := by exact_mod_cast tot
                rw [tot, Int.mul_fdiv_cancel _ hdd]
                exact numIs_int _
            · obtain ⟨i1, -⟩ := h.int _ _ _ _ hn.1 hr
              refine ⟨i1.1, ?_⟩
              rw [i1.2, tot]
              have : ((d * d2 : Int) : ℚ) ≠ 0 := by push_cast; exact mul_ne_zero hdq hdq2
              field_simp
      · cases hr

theorem sound_zero (F : Floats) : Sound F 0 where
  term := by intro b c e n t _ h; cases h
  int := by intro ts c d r _ h; cases h
  norm := by intro ts r _ h; cases h
  add := by intro a b x y r _ _ h; cases h
  mul := by intro a b x y r _ _ h; cases h
  mulE := by intro ts c d b x y r _ _ h; cases h

theorem sound {F : Floats} (hF : FloatsOk F) : ∀ f, Sound F f
  | 0 => sound_zero F
  | f + 1 => sound_succ hF (sound hF f)

/-! ## Remainders -/

theorem primeFactor_pos {m : Int} {l} (h : Math.primeFactor m = .ok l) : 0 < m := by
  unfold Math.primeFactor at h
  split at h
  · omega
  · cases h

/-- `carmichael` answers with a period of the powers. -/
theorem carmichael_period {m : Int} {kp : Int} {k0 : Nat} (h : Math.carmichael m = .ok (kp, k0)) :
    0 < m ∧ 0 < kp ∧ ∀ (b : Int) (k : Nat), k0 ≤ k →
      b ^ ((((k : Int) - k0) % kp + k0).toNat) % m = b ^ k % m := by
  have hpf : ∃ l, Math.primeFactor m = .ok l := by
    unfold Math.carmichael at h
    split at h
    · cases h
    · next l hl => exact ⟨l, hl⟩
  obtain ⟨l, hl⟩ := hpf
  have hm := primeFactor_pos hl
  obtain ⟨n, rfl⟩ := Int.eq_ofNat_of_zero_le (Int.le_of_lt hm)
  have hn : 0 < n := by omega
  rw [Math.carmichael_ok hn hl] at h
  cases h
  have hpos : 0 < ArithmeticFunction.carmichael n := by
    have : NeZero n := ⟨by omega⟩
    rw [ArithmeticFunction.carmichael_eq_exponent']
    exact Monoid.exponent_ne_zero_of_finite.bot_lt
  refine ⟨hm, by omega, ?_⟩
  intro b k hk
  generalize hk0 : (l.map Prod.snd).foldl max 1 = k0 at *
  have h1 : (((k : Int) - k0) % (ArithmeticFunction.carmichael n : Nat) + k0).toNat
      = (k - k0) % ArithmeticFunction.carmichael n + k0 := by
    have : ((k : Int) - k0) = ((k - k0 : Nat) : Int) := by omega
    rw [this]
    have : ((k - k0 : Nat) : Int) % (ArithmeticFunction.carmichael n : Nat) =
      (((k - k0) % ArithmeticFunction.carmichael n : Nat) : Int) := by push_cast; rfl
    rw [this]; omega
  rw [h1]
  have h2 := Math.period hn hl b ((k - k0) % ArithmeticFunction.carmichael n + k0) (by omega)
    ((k - k0) / ArithmeticFunction.carmichael n)
  have h3 : (k - k0) % ArithmeticFunction.carmichael n + k0
      + (k - k0) / ArithmeticFunction.carmichael n * ArithmeticFunction.carmichael n = k := by
    have := Nat.mod_add_div (k - k0) (ArithmeticFunction.carmichael n)
    rw [Nat.mul_comm] at this
    omega
  rw [h3] at h2
  exact h2.symm

theorem expMod_ok {b : Int} {k : Nat} {m r : Int} (h : Math.expMod b k m = .ok r) : 0 < m ∧ r = b ^ k % m := by
  unfold Math.expMod at h
  split at h
  · cases h
  · next kp k0 hc =>
    obtain ⟨h1, h2, h3⟩ := carmichael_period hc
    refine ⟨h1, ?_⟩
    split at h
    · cases h; rw [Math.powMod, Int.fmod_eq_emod_of_nonneg _ (by omega)]
    · cases h
      rw [Math.powMod, Int.fmod_eq_emod_of_nonneg _ (by omega), Int.fmod_eq_emod_of_nonneg _ (by omega)]
      exact h3 b k (by omega)

/-- The integer a sum of terms stands for. -/
theorem termsValue_int : ∀ {ts : List ETerm}, AllWF ts → ∃ z : Int, termsValue ts = z
  | [], _ => ⟨0, by simp [termsValue]⟩
  | .mk b c e :: ts, h => by
    simp only [AllWF, ETerm.WF] at h
    obtain ⟨⟨_, _, _, n, hn⟩, h2⟩ := h
    obtain ⟨z, hz⟩ := termsValue_int h2
    refine ⟨c * b ^ n + z, ?_⟩
    simp only [termsValue, value_mk, natOf_eq hn, hz]; push_cast; ring

theorem mapE_mod {g : ETerm → Except Err Int} {m : Int} : ∀ {ts : List ETerm} {rs : List Int} {z : Int},
    (∀ (t : ETerm), t ∈ ts → ∀ (z : Int) r, ETerm.WF t → ETerm.value t = z → g t = .ok r → r % m = z % m) → AllWF ts →
      termsValue ts = z → mapE g ts = .ok rs → rs.sum % m = z % m
  | [], rs, z, _, _, hz, h => by
    cases h
    have : z = 0 := by simpa [termsValue] using hz.symm
    simp [this]
  | t :: ts, rs, z, hg, hw, hz, h => by
    unfold mapE at h
    split at h
    · cases h
    · next r hr =>
      split at h
      · cases h
      · next rs' hrs =>
        cases h
        simp only [AllWF] at hw
        obtain ⟨z1, hz1⟩ := termsValue_int (ts := [t]) (by simp only [AllWF, and_true]; exact hw.1)
        simp only [termsValue, add_zero] at hz1
        obtain ⟨z2, hz2⟩ := termsValue_int hw.2
        have e1 := hg t (by simp) z1 r hw.1 hz1 hr
        have e2 := mapE_mod (fun t ht => hg t (by simp [ht])) hw.2 hz2 hrs
        simp only [termsValue, hz1, hz2] at hz
        have : z = z1 + z2 := by exact_mod_cast hz.symm
        rw [this, List.sum_cons, Int.add_emod, e1, e2, ← Int.add_emod]

theorem mapE_ne_nil {α β : Type} {f : α → Except Err β} {x : α} {xs : List α} {ys} (h : mapE f (x :: xs) = .ok ys) :
    ∃ y, f x = .ok y := by
  unfold mapE at h
  split at h
  · cases h
  · next y hy => exact ⟨y, hy⟩

/-- Taking an integer from a fraction in lowest terms changes only the constant. -/
theorem commonDiv_lowest {ts : List ETerm} {c d : Int} (hd : 0 < d) (h : Lowest (.exp ts c d)) : commonDiv ts c d = 1 := by
  have hnn : 0 ≤ commonDiv ts c d := by
    unfold commonDiv
    have h0 : ∀ a b : Int, 0 ≤ Math.gcd a b := fun a b => by rw [Math.gcd_eq]; omega
    have h1 : ∀ (ts : List ETerm) (g : Int), 0 ≤ g → 0 ≤ ts.foldl (fun g t => Math.gcd g t.coef) g := by
      intro ts
      induction ts with
      | nil => intro g hg; exact hg
      | cons t ts ih => intro g _; exact ih _ (h0 _ _)
    have h2 : 0 ≤ Math.gcd c d * d.sign := by rw [Int.sign_eq_one_of_pos hd, Int.mul_one]; exact h0 _ _
    dsimp only
    split
    · exact h1 _ _ h2
    · exact h2
  obtain ⟨g, hg⟩ := Int.eq_ofNat_of_zero_le hnn
  obtain ⟨h1, h2, h3⟩ := commonDiv_dvd ts c (d := d) (by omega)
  by_cases hne : commonDiv ts c d = 1
  · exact hne
  · have h3 := h3 hne
    rw [hg] at h1 h2 h3
    rw [hg, h g h2 h1 h3]; rfl

theorem addInt_lowest {F : Floats} {f : Nat} {ts : List ETerm} {c d z : Int} {r : Num} (hd : 0 < d)
    (h : Lowest (.exp ts c d)) (hr : addN F f (.exp ts c d) (.int z) = .ok r) : r = .exp ts (c + z * d) d := by
  have hl : Lowest (.exp ts (c + z * d) d) := by
    intro g h1 h2 h3
    refine h g h1 ?_ h3
    have := Int.dvd_sub h2 (Dvd.dvd.mul_left h1 z)
    rwa [Int.add_sub_cancel] at this
  cases f with
  | zero => simp [addN] at hr
  | succ f =>
    simp only [addN] at hr
    cases f with
    | zero => simp [mkInt] at hr
    | succ f =>
      simp only [mkInt, commonDiv_lowest hd hl, divCommon] at hr
      simp only [ne_eq, not_true, if_false, one_ne_zero] at hr
      split at hr
      · cases hr
      · split at hr
        · cases hr
        · split at hr
          · cases hr; rfl
          · cases hr

theorem two_pow_max : ∀ (l : List (Nat × Nat)) (a : Nat), (∀ x ∈ l, 2 ≤ x.1) →
    2 ^ ((l.map Prod.snd).foldl max a) ≤ 2 ^ a * Math.prodPow l
  | [], a, _ => by simp [Math.prodPow]
  | (p, k) :: l, a, h => by
    have hp : 2 ≤ p := h (p, k) (by simp)
    have ih := two_pow_max l (max a k) (fun x hx => h x (by simp [hx]))
    have e : Math.prodPow ((p, k) :: l) = p ^ k * Math.prodPow l := by simp [Math.prodPow]
    rw [List.map_cons, List.foldl_cons, e, ← Nat.mul_assoc]
    refine Nat.le_trans ih (Nat.mul_le_mul_right _ ?_)
    have h1 : 2 ^ k ≤ p ^ k := Nat.pow_le_pow_left hp k
    have h2 : 1 ≤ p ^ k := Nat.one_le_pow _ _ (by omega)
    have h3 : 1 ≤ 2 ^ a := Nat.one_le_pow _ _ (by omega)
    rcases Nat.le_total a k with hak | hak
    · rw [Nat.max_eq_right hak]
      calc 2 ^ k ≤ 1 * p ^ k := by omega
        _ ≤ 2 ^ a * p ^ k := Nat.mul_le_mul_right _ h3
    · rw [Nat.max_eq_left hak]
      calc 2 ^ a = 2 ^ a * 1 := by omega
        _ ≤ 2 ^ a * p ^ k := Nat.mul_le_mul_left _ h2

/-- The size of what `carmichael` answers. -/
theorem carmichael_bounds {m : Int} {kp : Int} {k0 : Nat} (h : Math.carmichael m = .ok (kp, k0)) :
    kp ≤ m ∧ (2 : Int) ^ k0 ≤ 2 * m := by
  have hpf : ∃ l, Math.primeFactor m = .ok l := by
    unfold Math.carmichael at h
    split at h
    · cases h
    · next l hl => exact ⟨l, hl⟩
  obtain ⟨l, hl⟩ := hpf
  have hm := primeFactor_pos hl
  obtain ⟨n, rfl⟩ := Int.eq_ofNat_of_zero_le (Int.le_of_lt hm)
  have hn : 0 < n := by omega
  rw [Math.carmichael_ok hn hl] at h
  cases h
  constructor
  · have := Nat.le_of_dvd (Nat.totient_pos.2 hn) (ArithmeticFunction.carmichael_dvd_totient n)
    have := Nat.totient_le n
    omega
  · obtain ⟨f1, f2⟩ := (Math.primeFactor_nat n hn).1 l hl
    have := two_pow_max l 1 (fun x hx => (f1.prime x hx).two_le)
    rw [f2, pow_one] at this
    exact_mod_cast this

structure ModSound (F : Floats) (K B f : Nat) : Prop where
  pow : ∀ (b : Int) (e : Num) (n : Nat) (m r : Int), NumIs e n → GoodExponent F K B e → Num.Exponents (GoodExponent F K B) e →
    m * (B : Int) ^ f ≤ 2 ^ K → expModN F f b e m = .ok r → 0 < m ∧ r = b ^ n % m
  mod : ∀ ts c d (other : Num) (o r : Int), Num.WF (.exp ts c d) → AllExponents (GoodExponent F K B) ts →
    d * o * (B : Int) ^ f ≤ 2 ^ K → NumIs other o → modN F f ts c d other = .ok r →
    0 < o ∧ (o ≠ 1 → ∃ x : Int, Num.value (.exp ts c d) = x) ∧ (∀ x : Int, Num.value (.exp ts c d) = x → r = x % o)

theorem allExponents_iff {P : Num → Prop} {ts : List ETerm} : AllExponents P ts ↔ ∀ t ∈ ts, ETerm.Exponents P t := by
  induction ts with
  | nil => simp [AllExponents]
  | cons t ts ih => simp [AllExponents, ih]

theorem modSound_succ {F : Floats} (hF : FloatsOk F) {K B f : Nat} (hB : 2 ≤ B) (h : ModSound F K B f) :
    ModSound F K B (f + 1) where
  pow := by
    intro b e n m r he hg hge hK hr
    unfold expModN at hr
    split at hr
    · next k =>
      split at hr
      · cases hr
      · have hk := he.2
        simp only [Num.value] at hk
        have hk : k = n := by exact_mod_cast hk
        subst hk
        rw [Int.toNat_natCast] at hr
        exact expMod_ok hr
    · next ts c d =>
      split at hr
      · cases hr
      · next kp k0 hc =>
        obtain ⟨h1, h2, h3⟩ := carmichael_period hc
        obtain ⟨b1, b2⟩ := carmichael_bounds hc
        have hBf : (1 : Int) ≤ (B : Int) ^ f := by
          have : 1 ≤ B ^ f := Nat.one_le_pow _ _ (by omega)
          exact_mod_cast this
        have hk0 : k0 ≤ K := by
          have : (2 : Int) ^ k0 ≤ 2 ^ K := by
            refine Int.le_trans b2 (Int.le_trans ?_ hK)
            rw [Int.mul_comm 2 m]
            refine Int.mul_le_mul_of_nonneg_left ?_ (by omega)
            rw [pow_succ]
            nlinarith
          have : 2 ^ k0 ≤ 2 ^ K := by exact_mod_cast this
          exact (Nat.pow_le_pow_iff_right (by omega)).1 this
        split at hr
        · cases hr
        · next hlt =>
          have hle := hg.1 n k0 ⟨he.1, by simpa using he.2⟩ hk0 (by simpa using hlt)
          split at hr
          · cases hr
          · next z hz =>
            cases hr
            have := (sound hF f).add _ _ n (-(k0 : Int)) _ (by simpa using he) (numIs_int _) hz
            have hz := this.2
            simp only [Num.value] at hz
            have hz : z = n + -(k0 : Int) := by exact_mod_cast hz
            refine ⟨h1, ?_⟩
            rw [Math.powMod, Int.fmod_eq_emod_of_nonneg _ (by omega), Int.fmod_eq_emod_of_nonneg _ (by omega), hz]
            exact h3 b n hle
          · next ts' c' d' hz =>
            split at hr
            · cases hr
            · next q hq =>
              cases hr
              have := (sound hF f).add _ _ n (-(k0 : Int)) _ (by simpa using he) (numIs_int _) hz
              have hd : 0 < d := by have := he.1; simp only [Num.WF] at this; exact this.2.1
              obtain ⟨rfl, rfl, rfl⟩ : ts' = ts ∧ c' = c + (-(k0 : Int)) * d ∧ d' = d := by
                have := addInt_lowest hd hg.2.1 hz
                cases this; exact ⟨rfl, rfl, rfl⟩
              have hdB : d' ≤ B := hg.2.2
              have hK' : d' * kp * (B : Int) ^ f ≤ 2 ^ K := by
                refine Int.le_trans ?_ hK
                rw [pow_succ]
                have : d' * kp ≤ m * B := by
                  rw [Int.mul_comm m B]
                  exact Int.mul_le_mul hdB b1 (by omega) (by omega)
                calc d' * kp * (B : Int) ^ f ≤ m * B * (B : Int) ^ f := Int.mul_le_mul_of_nonneg_right this (by omega)
                  _ = m * ((B : Int) ^ f * B) := by ring
              have hm := (h.mod ts' _ d' (.int kp) kp q this.1 hge hK' (numIs_int _) hq).2.2 _ this.2
              refine ⟨h1, ?_⟩
              rw [Math.powMod, Int.fmod_eq_emod_of_nonneg _ (by omega), hm]
              exact h3 b n hle
  mod := by
    intro ts c d other o r hw hex hK ho hr
    unfold modN at hr
    split at hr
    · cases hr
    · next o' ho' =>
      have := tryEval_sound ho ho'
      subst this
      split at hr
      · cases hr
      · split at hr
        · next h1 => cases hr; exact ⟨by omega, fun h => absurd h1 h, fun x _ => by rw [h1]; simp⟩
        · dsimp only at hr
          simp only [Num.WF] at hw
          obtain ⟨w1, w2, w3, w4⟩ := hw
          split at hr
          · cases hr
          · next rs hrs =>
            have hK' : d * o' * (B : Int) ^ f ≤ 2 ^ K := by
              rcases Int.lt_or_le 0 (d * o') with hp | hp
              · refine Int.le_trans (Int.mul_le_mul_of_nonneg_left ?_ (by omega)) hK
                exact_mod_cast Nat.pow_le_pow_right (show 0 < B by omega) (Nat.le_succ f)
              · refine Int.le_trans ?_ (show (0 : Int) ≤ 2 ^ K by positivity)
                exact mul_nonpos_of_nonpos_of_nonneg hp (by positivity)
            have hm0 : 0 < d * o' := by
              cases ts with
              | nil => exact absurd rfl w1
              | cons t ts =>
                obtain ⟨y, hy⟩ := mapE_ne_nil hrs
                split at hy
                · cases hy
                · next r0 hr0 =>
                  cases t with
                  | mk b c e =>
                    simp only [AllWF, ETerm.WF] at w4
                    obtain ⟨⟨_, _, h3, n, hn⟩, _⟩ := w4
                    simp only [AllExponents, ETerm.Exponents] at hex
                    exact (h.pow _ _ n _ _ ⟨h3, hn⟩ hex.1.1 hex.1.2 hK' hr0).1
            have ho0 : 0 < o' := by
              rcases Int.lt_trichotomy o' 0 with h' | h' | h'
              · exact absurd (Int.mul_neg_of_pos_of_neg w2 h') (by omega)
              · subst h'; simp at hm0
              · exact h'
            obtain ⟨T, hT⟩ := termsValue_int w4
            have hsum := mapE_mod (m := d * o') (g := fun t : ETerm =>
              match expModN F f t.base t.exponent (d * o') with
              | .error e => .error e
              | .ok r => .ok ((r * t.coef).fmod (d * o'))) (fun t htm z r ht hz hk => by
                split at hk
                · cases hk
                · next r0 hr0 =>
                  cases hk
                  cases t with
                  | mk b c e =>
                    simp only [ETerm.WF] at ht
                    obtain ⟨_, _, h3, n, hn⟩ := ht
                    have hx := allExponents_iff.1 hex _ htm
                    simp only [ETerm.Exponents] at hx
                    have := (h.pow _ _ n _ _ ⟨h3, hn⟩ hx.1 hx.2 hK' hr0).2
                    rw [value_mk, natOf_eq hn] at hz
                    have hz : c * b ^ n = z := by exact_mod_cast hz
                    simp only [ETerm.base, ETerm.coef] at *
                    rw [this, Int.fmod_eq_emod_of_nonneg _ (by omega), Int.emod_emod_of_dvd _ (dvd_refl _), ← hz,
                      Int.mul_emod, Int.emod_emod_of_dvd _ (dvd_refl _), ← Int.mul_emod, Int.mul_comm]) w4 hT hrs
            have hrd : (rs.sum.fmod (d * o') + c).fmod (d * o') = (T + c) % (d * o') := by
              rw [Int.fmod_eq_emod_of_nonneg _ (by omega), Int.fmod_eq_emod_of_nonneg _ (by omega), hsum]
              rw [Int.emod_add_emod]
            rw [hrd] at hr
            split at hr
            · cases hr
            · split at hr
              · cases hr
              · next hdv =>
                cases hr
                have hdd : (T + c) % d = 0 := by
                  have : ((T + c) % (d * o')).fmod d = 0 := by simpa using hdv
                  rw [Int.fmod_eq_emod_of_nonneg _ (by omega), Int.emod_emod_of_dvd _ (Dvd.intro _ rfl)] at this
                  exact this
                obtain ⟨x, hx⟩ := Int.dvd_of_emod_eq_zero hdd
                have hval : Num.value (.exp ts c d) = x := by
                  simp only [Num.value, hT]
                  have hdq : (d : ℚ) ≠ 0 := by exact_mod_cast (by omega : d ≠ 0)
                  rw [div_eq_iff hdq]
                  have : T + c = x * d := by rw [hx, Int.mul_comm]
                  exact_mod_cast this
                refine ⟨ho0, fun _ => ⟨x, hval⟩, ?_⟩
                intro x' hx'
                rw [hval] at hx'
                have : x = x' := by exact_mod_cast hx'
                subst this
                rw [hx, Int.mul_emod_mul_of_pos _ _ w2, Int.fdiv_eq_ediv_of_nonneg _ (by omega),
                  Int.mul_ediv_cancel_left _ (by omega), Int.fmod_eq_emod_of_nonneg _ (by omega),
                  Int.emod_emod_of_dvd _ (dvd_refl _)]

theorem modSound {F : Floats} (hF : FloatsOk F) {K B : Nat} (hB : 2 ≤ B) : ∀ f, ModSound F K B f
  | 0 => ⟨fun _ _ _ _ _ _ _ _ _ h => (by cases h), fun _ _ _ _ _ _ _ _ _ _ h => (by cases h)⟩
  | f + 1 => modSound_succ hF hB (modSound hF hB f)

end Model.ExpInt

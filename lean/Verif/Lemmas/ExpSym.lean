import Verif.Spec.ExpSym
import Verif.Props.ExpInt
import Verif.Props.Expr

/-! # Lemmas about `Model.ExpSym` -/

namespace Model.ExpSym
open Spec Model.ExpInt Model.Expr

/-! ## Expressions -/

theorem mulS_normal_ne {e : Expr Int} {k : Int} (hk : k ≠ 0) (h : Expr.Normal e) :
    Expr.Normal (mulS e k) ∧ ((mulS e k).terms = [] ↔ e.terms = []) ∧ (mulS e k).const = e.const * k := by
  unfold mulS
  rw [if_neg hk]
  refine ⟨⟨?_, ?_, ?_⟩, by simp, rfl⟩
  · intro t ht
    obtain ⟨t', ht', rfl⟩ := List.mem_map.1 ht
    exact h.vars t' ht'
  · exact List.pairwise_map.2 h.sorted
  · intro t ht
    obtain ⟨t', ht', rfl⟩ := List.mem_map.1 ht
    exact mul_ne_zero (h.coef t' ht') hk

theorem addS_normal {e : Expr Int} (k : Int) (h : Expr.Normal e) : Expr.Normal (addS e k) := ⟨h.vars, h.sorted, h.coef⟩

theorem value_zero {e : Expr Int} (h : Expr.Normal e) : Expr.value (fun _ => 0) e = e.const := by
  have key : ∀ ts : List (Term Int), (∀ t ∈ ts, VarsNormal t.vars) → (ts.map (Spec.Term.value (fun _ => (0 : Int)))).sum = 0 := by
    intro ts hts
    apply List.sum_eq_zero
    intro x hx
    obtain ⟨t, ht, rfl⟩ := List.mem_map.1 hx
    have hv := hts t ht
    obtain ⟨v, vs, hvs⟩ := List.exists_cons_of_ne_nil hv.ne
    have hp := hv.pos v (by simp [hvs])
    simp [Spec.Term.value, monomial, hvs, zero_pow (by omega : v.pow ≠ 0)]
  unfold Expr.value
  rw [key _ h.vars, zero_add]

theorem minVal_const {e : Expr Int} {m : Int} (h : e.minVal = some m) : e.const = m := by
  unfold Expr.minVal at h
  split at h
  · cases h
  · cases h; rfl

theorem const_le {e : Expr Int} {m : Int} (h : e.minVal = some m) {ρ : Nat → Int} (hρ : ∀ v, 0 ≤ ρ v) :
    m ≤ Expr.value ρ e := by
  refine Props.C45_min_val (.expr e) m ?_ ρ hρ
  simp only [Val.minVal, h]
  split
  · rw [minVal_const h]
  · rfl

/-! ## Terms -/

theorem pullOutS_spec {b : Int} (hb : 2 ≤ b) : ∀ (f : Nat) (c : Int) (e : Expr Int), c ≠ 0 → Expr.Normal e →
    (pullOutS b f c e).1 ≠ 0 ∧ (0 < c ↔ 0 < (pullOutS b f c e).1) ∧ Expr.Normal (pullOutS b f c e).2 ∧
    (pullOutS b f c e).2.terms = e.terms ∧ e.const ≤ (pullOutS b f c e).2.const ∧
    ∀ ρ, ((pullOutS b f c e).1 : ℚ) * (b : ℚ) ^ Expr.value ρ (pullOutS b f c e).2 = c * (b : ℚ) ^ Expr.value ρ e
  | 0, c, e, hc, he => ⟨hc, Iff.rfl, he, rfl, le_refl _, fun _ => rfl⟩
  | f + 1, c, e, hc, he => by
    unfold pullOutS
    split
    · next hm =>
      have hd : c = b * c.fdiv b := by have := Int.mul_fdiv_add_fmod c b; omega
      have hne : c.fdiv b ≠ 0 := by intro h0; rw [h0] at hd; omega
      obtain ⟨h1, h2, h3, h4, h5, h6⟩ := pullOutS_spec hb f (c.fdiv b) (addS e 1) hne (addS_normal 1 he)
      refine ⟨h1, ?_, h3, h4, ?_, fun ρ => ?_⟩
      · rw [← h2]
        constructor
        · intro h
          by_contra hn
          have : b * c.fdiv b ≤ 0 := mul_nonpos_of_nonneg_of_nonpos (by omega) (by omega)
          omega
        · intro h
          have : 0 < b * c.fdiv b := mul_pos (by omega) h
          omega
      · have : (addS e 1).const = e.const + 1 := rfl
        omega
      · have hb0 : (b : ℚ) ≠ 0 := by exact_mod_cast (by omega : b ≠ 0)
        rw [h6, addS_value, zpow_add₀ hb0, zpow_one]
        conv_rhs => rw [hd]
        push_cast
        ring
    · exact ⟨hc, Iff.rfl, he, rfl, le_refl _, fun _ => rfl⟩

theorem mkTerm_int_nonneg {F : Floats} {f : Nat} {b m : Int} {t : ETerm} (h : mkTerm F f b 1 (.int m) = .ok t) : 0 ≤ m := by
  match f with
  | 0 => simp [mkTerm] at h
  | f + 1 =>
    unfold mkTerm at h
    rw [if_neg (by decide)] at h
    split at h
    · cases h
    · next n k hk =>
      have hb0 := intPow_nonneg hk
      split at h
      · cases h
      · next e he =>
        have hint : ∃ z : Int, e = .int z ∧ (0 ≤ z → 0 ≤ m) := by
          split at he
          · next hk1 =>
            match f with
            | 0 => simp [mulN] at he
            | f + 1 =>
              simp only [mulN, Except.ok.injEq] at he
              refine ⟨_, he.symm, fun hz => ?_⟩
              by_contra hn
              have : m * k < 0 := mul_neg_of_neg_of_pos (by omega) (by omega)
              omega
          · cases he; exact ⟨m, rfl, id⟩
        obtain ⟨z, rfl, hz⟩ := hint
        have hpos : 0 ≤ (if k > 1 then (n : Int) else b) := by split <;> omega
        dsimp only at h
        generalize (if k > 1 then (n : Int) else b) = b' at h hpos
        split at h
        · cases h
        · next h0 =>
          split at h
          · cases h
          · next h1 =>
            have hp : pullOut (fun e => addN F f e (.int 1)) b' (Int.natAbs 1) 1 (.int z) = .ok (1, .int z) := by
              show pullOut _ _ 1 _ _ = _
              unfold pullOut
              rw [if_neg]
              rw [Int.fmod_eq_emod_of_nonneg _ hpos, Int.emod_eq_of_lt (by omega) (by omega)]
              decide
            rw [hp] at h
            dsimp only at h
            split at h
            · cases h
            · next z' he' =>
              cases he'
              split at h
              · cases h
              · exact hz (by omega)
            · next he' => exact absurd rfl (he' z)

theorem expInt_int_nonneg {F : Floats} {f : Nat} {b m : Int} {r : Num} (h : expInt F f b (.int m) = .ok r) : 0 ≤ m := by
  unfold expInt at h
  split at h
  · next he => cases he; exact le_refl _
  · split at h
    · cases h
    · next t ht => exact mkTerm_int_nonneg ht

theorem denotes_int (z : Int) : Denotes (.int z) z := ⟨by simp [Num.WF], by simp [Num.value]⟩

theorem expInt_sound {F : Floats} (hF : FloatsOk F) {f : Nat} {b m : Int} {r : Num} (h : expInt F f b (.int m) = .ok r) :
    0 ≤ m ∧ Denotes r (b ^ m.toNat) := by
  have hm := expInt_int_nonneg h
  refine ⟨hm, Props.C47_exp_int_partial hF f b (e := .int m) (n := m.toNat) ?_ h⟩
  have := denotes_int m
  rwa [show ((m.toNat : Nat) : Int) = m by omega]

theorem termMin_spec {F : Floats} (hF : FloatsOk F) {f : Nat} {b c : Int} {e : Expr Int} {m : Option Num} (hb : 2 ≤ b)
    (he : Expr.Normal e) (h : termMin F f b c e = .ok m) :
    (m = none → c < 0) ∧ ∀ x, m = some x → 0 ≤ c ∧ e.minVal.isSome ∧ (∃ z : Int, Denotes x z ∧ (z : ℚ) = c * (b : ℚ) ^ e.const) ∧
      Least (Num.value x) (fun ρ => c * (b : ℚ) ^ Expr.value ρ e) := by
  unfold termMin at h
  split at h
  · next hc => cases h; exact ⟨fun _ => hc, fun x hx => by cases hx⟩
  · next hc =>
    split at h
    · cases h
    · next k hk =>
      split at h
      · cases h
      · next p hp =>
        split at h
        · cases h
        · next v hv =>
          cases h
          obtain ⟨hk0, hpd⟩ := expInt_sound hF hp
          have hd := Props.C47_mul_partial hF f (denotes_int c) hpd hv
          have hkc := minVal_const hk
          have hval : ((c * b ^ k.toNat : Int) : ℚ) = c * (b : ℚ) ^ e.const := by
            rw [hkc]
            push_cast
            rw [← zpow_natCast, Int.toNat_of_nonneg hk0]
          refine ⟨fun hx => (by cases hx), fun x hx => ?_⟩
          cases hx
          refine ⟨by omega, by simp [hk], ⟨_, hd, hval⟩, ?_, fun ρ hρ => ?_⟩
          · rw [hd.2, hval]
            dsimp only
            rw [value_zero he]
          · rw [hd.2, hval, hkc]
            have h1 : (1 : ℚ) ≤ b := by exact_mod_cast (by omega : (1 : Int) ≤ b)
            exact mul_le_mul_of_nonneg_left (zpow_le_zpow_right₀ h1 (const_le hk hρ)) (by exact_mod_cast (by omega : 0 ≤ c))

/-- What building a term gives. -/
theorem mkTermS_spec {F : Floats} (hF : FloatsOk F) {f : Nat} {b c : Int} {e : Expr Int} {t : STerm} (he : Expr.Normal e)
    (h : mkTermS F f b c e = .ok t) : STerm.WF t ∧ (∀ ρ, STerm.value ρ t = c * (b : ℚ) ^ Expr.value ρ e) ∧
      c ≠ 0 ∧ (0 < c ↔ 0 < t.coef) ∧ e.terms ≠ [] := by
  unfold mkTermS at h
  split at h
  · cases h
  · next hc =>
    split at h
    · cases h
    · next n k hk =>
      have hb0 := intPow_nonneg hk
      have hpow := intPow_ok hk
      have hkey : ∃ b' e', (if k > 1 then (n : Int) else b) = b' ∧ (if k > 1 then mulS e (k : Int) else e) = e' ∧ 0 ≤ b' ∧
          Expr.Normal e' ∧ (e'.terms = [] ↔ e.terms = []) ∧
          ∀ ρ, (b' : ℚ) ^ Expr.value ρ e' = (b : ℚ) ^ Expr.value ρ e := by
        refine ⟨_, _, rfl, rfl, ?_, ?_, ?_, ?_⟩
        · split <;> omega
        · split
          · exact (mulS_normal_ne (by omega) he).1
          · exact he
        · split
          · exact (mulS_normal_ne (by omega) he).2.1
          · rfl
        · intro ρ
          split
          · rw [mulS_value, mul_comm, zpow_mul, zpow_natCast, ← hpow]
            push_cast
            rfl
          · rfl
      obtain ⟨b', e', hb', he', hb'0, hn, ht, hv⟩ := hkey
      dsimp only at h
      rw [hb', he'] at h
      split at h
      · cases h
      · next h0 =>
        split at h
        · cases h
        · next h1 =>
          have hb2 : 2 ≤ b' := by omega
          obtain ⟨p1, p2, p3, p4, p5, p6⟩ := pullOutS_spec hb2 c.natAbs c e' hc hn
          split at h
          · cases h
          · next hemp =>
            split at h
            · cases h
            · next m hm =>
              cases h
              obtain ⟨m1, m2⟩ := termMin_spec hF hb2 p3 hm
              refine ⟨⟨hb2, p1, p3, ?_, ?_, m1⟩, fun ρ => ?_, hc, p2, ?_⟩
              · simpa using hemp
              · intro x hx
                obtain ⟨-, -, ⟨z, hz, -⟩, hl⟩ := m2 x hx
                exact ⟨⟨z, hz⟩, hl⟩
              · show ((pullOutS b' c.natAbs c e').1 : ℚ) * (b' : ℚ) ^ Expr.value ρ _ = _
                rw [p6, hv]
              · rw [p4] at hemp
                exact fun hh => hemp (by simp [ht.2 hh])

/-- The sum of the values of symbolic terms. -/
def total (ρ : Nat → Int) (ts : List STerm) : ℚ := (ts.map (STerm.value ρ)).sum

@[simp] theorem total_nil (ρ : Nat → Int) : total ρ [] = 0 := rfl
@[simp] theorem total_cons (ρ : Nat → Int) (t : STerm) (ts) : total ρ (t :: ts) = STerm.value ρ t + total ρ ts := by
  simp [total]
theorem total_append (ρ : Nat → Int) (xs ys : List STerm) : total ρ (xs ++ ys) = total ρ xs + total ρ ys := by
  simp [total]

theorem least_add {m n : ℚ} {f g : (Nat → Int) → ℚ} (h1 : Least m f) (h2 : Least n g) : Least (m + n) (fun ρ => f ρ + g ρ) :=
  ⟨by rw [h1.1, h2.1], fun ρ hρ => add_le_add (h1.2 ρ hρ) (h2.2 ρ hρ)⟩

theorem sumMin_spec {F : Floats} (hF : FloatsOk F) {f : Nat} : ∀ (ts : List STerm) (acc : Num) (g : (Nat → Int) → ℚ) (z : Int) (r),
    (∀ t ∈ ts, STerm.WF t) → Denotes acc z → Least z g → sumMin F f ts acc = .ok r → ∀ x, r = some x →
      ∃ z' : Int, Denotes x z' ∧ Least z' (fun ρ => g ρ + total ρ ts)
  | [], acc, g, z, r, _, hd, hl, h, x, hx => by
    cases h; cases hx
    refine ⟨z, hd, ?_⟩
    simpa using hl
  | t :: ts, acc, g, z, r, hw, hd, hl, h, x, hx => by
    unfold sumMin at h
    split at h
    · cases h; cases hx
    · next m hm =>
      split at h
      · cases h
      · next acc' ha =>
        obtain ⟨⟨y, hy⟩, hly⟩ := (hw t (by simp)).least m hm
        have hd' := Props.C47_add_partial hF f hd hy ha
        rw [hy.2] at hly
        have hl' := least_add hl hly
        have hl'' : Least ((z + y : Int) : ℚ) (fun ρ => g ρ + STerm.value ρ t) := by push_cast; exact hl'
        obtain ⟨z', h1, h2⟩ := sumMin_spec hF ts acc' _ (z + y) r (fun t ht => hw t (by simp [ht])) hd' hl'' h x hx
        refine ⟨z', h1, ?_⟩
        simpa [add_assoc] using h2

theorem least_const (z : Int) : Least (z : ℚ) (fun _ => (z : ℚ)) := ⟨rfl, fun _ _ => le_refl _⟩

theorem intMin_spec {F : Floats} (hF : FloatsOk F) {f : Nat} {ts : List STerm} {c d : Int} {m} (hd : 0 < d)
    (hw : ∀ t ∈ ts, STerm.WF t) (h : intMin F f ts c d = .ok m) :
    (∀ x, m = some x → Num.WF x ∧ Least (Num.value x) (fun ρ => (total ρ ts + c) / d)) ∧ (m = none → ∃ t ∈ ts, t.coef < 0) := by
  unfold intMin at h
  split at h
  · next ha =>
    cases h
    refine ⟨fun x hx => (by cases hx), fun _ => ?_⟩
    obtain ⟨t, ht, hn⟩ := List.any_eq_true.1 ha
    exact ⟨t, ht, (hw t ht).none (by simpa using hn)⟩
  · next ha =>
    split at h
    · cases h
    · next hs =>
      exfalso
      have : ∀ (ts : List STerm) (acc : Num), ¬ (ts.any (fun t => t.min.isNone) = true) → sumMin F f ts acc ≠ .ok none := by
        intro ts
        induction ts with
        | nil => intro acc _ h; cases h
        | cons t ts ih =>
          intro acc ha h
          unfold sumMin at h
          split at h
          · next hm => exact ha (by simp [hm])
          · split at h
            · cases h
            · exact ih _ (fun hh => ha (by rw [List.any_cons, hh, Bool.or_true])) h
      exact this ts _ ha hs
    · next s hs =>
      obtain ⟨z, hz, hl⟩ := sumMin_spec hF ts (.int 0) (fun _ => ((0 : Int) : ℚ)) 0 _ hw (denotes_int 0) (least_const 0) hs s rfl
      split at h
      · cases h
      · cases h
      · next ts' c' d' hadd =>
        have hd1 := Props.C47_add_partial hF f hz (denotes_int c) hadd
        split at h
        · cases h
        · next q hq =>
          cases h
          obtain ⟨-, hwq, hv⟩ := Props.C47_div_partial hF f hd1 (denotes_int d) hq
          refine ⟨fun x hx => ?_, fun hx => by cases hx⟩
          cases hx
          have hdq : (0 : ℚ) < d := by exact_mod_cast hd
          have hv' : Num.value q = (z + c) / d := by
            rw [eq_div_iff hdq.ne', hv]; push_cast; rfl
          refine ⟨hwq, ?_, fun ρ hρ => ?_⟩
          · rw [hv', hl.1]; simp
          · rw [hv']
            have := hl.2 ρ hρ
            simp only [Int.cast_zero, zero_add] at this
            exact div_le_div_of_nonneg_right (by linarith) hdq.le

/-! ## Building -/

theorem commonDivS_eq (ts : List STerm) (c d : Int) :
    commonDivS ts c d = commonDiv (ts.map (fun t => ETerm.mk t.base t.coef (.int 0))) c d := by
  unfold commonDivS commonDiv
  dsimp only
  split
  · rw [List.foldl_map]; rfl
  · rfl

theorem commonDivS_dvd (ts : List STerm) (c : Int) {d : Int} (hd : d ≠ 0) : commonDivS ts c d ∣ c ∧ commonDivS ts c d ∣ d := by
  rw [commonDivS_eq]
  have := commonDiv_dvd (ts.map (fun t => ETerm.mk t.base t.coef (.int 0))) c hd
  exact ⟨this.1, this.2.1⟩

theorem mapE_total {g : STerm → Except Err STerm} {q : ℚ} : ∀ {ts ts' : List STerm},
    (∀ t ∈ ts, ∀ t', g t = .ok t' → STerm.WF t' ∧ ∀ ρ, STerm.value ρ t' = STerm.value ρ t * q) → mapE g ts = .ok ts' →
    (∀ t ∈ ts', STerm.WF t) ∧ (∀ ρ, total ρ ts' = total ρ ts * q) ∧ (ts' = [] ↔ ts = [])
  | [], ts', _, h => by cases h; simp
  | t :: ts, ts', hg, h => by
    unfold mapE at h
    split at h
    · cases h
    · next y hy =>
      split at h
      · cases h
      · next ys hys =>
        cases h
        obtain ⟨h1, h2⟩ := hg t (by simp) y hy
        obtain ⟨i1, i2, -⟩ := mapE_total (fun t ht => hg t (by simp [ht])) hys
        refine ⟨?_, fun ρ => ?_, by simp⟩
        · intro t ht
          rcases List.mem_cons.1 ht with rfl | ht
          · exact h1
          · exact i1 t ht
        · rw [total_cons, total_cons, h2, i2]; ring

theorem divTerms_spec {F : Floats} (hF : FloatsOk F) {f : Nat} {k : Int} {ts ts' : List STerm} (hk : k ≠ 0)
    (hw : ∀ t ∈ ts, STerm.WF t) (h : divTerms F f k ts = .ok ts') :
    (∀ t ∈ ts', STerm.WF t) ∧ (∀ ρ, total ρ ts' = total ρ ts / k) ∧ (ts' = [] ↔ ts = []) := by
  have hkq : (k : ℚ) ≠ 0 := by exact_mod_cast hk
  unfold divTerms at h
  split at h
  · have key : ∀ t ∈ ts, ∀ t', (if t.coef.fmod k = 0 then mkTermS F f t.base (t.coef.fdiv k) t.exponent else .error .assertion) =
        .ok t' → STerm.WF t' ∧ ∀ ρ, STerm.value ρ t' = STerm.value ρ t * (1 / (k : ℚ)) := by
      intro t ht t' hg
      split at hg
      · next hm =>
        obtain ⟨w, v, -⟩ := mkTermS_spec hF (hw t ht).normal hg
        refine ⟨w, fun ρ => ?_⟩
        have hd : t.coef = k * t.coef.fdiv k := by have := Int.mul_fdiv_add_fmod t.coef k; omega
        have hdq : (t.coef : ℚ) = k * (t.coef.fdiv k : Int) := by exact_mod_cast hd
        rw [v]
        unfold STerm.value
        rw [hdq]
        field_simp
      · cases hg
    obtain ⟨h1, h2, h3⟩ := mapE_total key h
    refine ⟨h1, fun ρ => ?_, h3⟩
    rw [h2]; ring
  · next h1 =>
    cases h
    have : k = 1 := by simpa using h1
    subst this
    exact ⟨hw, fun ρ => by simp, Iff.rfl⟩

theorem oneBaseS_iff {ts : List STerm} (h : oneBaseS ts = true) : ∀ t ∈ ts, ∀ t' ∈ ts, t.base = t'.base := by
  cases ts with
  | nil => intro t ht; simp at ht
  | cons x xs =>
    simp only [oneBaseS, List.all_eq_true, decide_eq_true_eq] at h
    have : ∀ t ∈ x :: xs, t.base = x.base := by
      intro t ht
      rcases List.mem_cons.1 ht with rfl | ht
      · rfl
      · exact h t ht
    intro t ht t' ht'
    rw [this t ht, this t' ht']

theorem mkIntS_spec {F : Floats} (hF : FloatsOk F) {f : Nat} {ts : List STerm} {c d : Int} {r : SNum}
    (hw : ∀ t ∈ ts, STerm.WF t) (h : mkIntS F f ts c d = .ok r) :
    SDenotes r (fun ρ => (total ρ ts + c) / d) ∧ ∃ ts' c' d' m, r = .sym ts' c' d' m := by
  unfold mkIntS at h
  split at h
  · cases h
  · next hne =>
    dsimp only at h
    split at h
    · cases h
    · next hc0 =>
      split at h
      · cases h
      · next ts' hts =>
        split at h
        · next hd =>
          split at h
          · cases h
          · next m hm =>
            split at h
            · next hb =>
              cases h
              have hd0 : d ≠ 0 := by rintro rfl; simp at hd
              obtain ⟨⟨k1, e1⟩, ⟨k2, e2⟩⟩ := commonDivS_dvd ts c hd0
              generalize commonDivS ts c d = g at *
              obtain ⟨w, v, n⟩ := divTerms_spec hF hc0 hw hts
              have f1 : c.fdiv g = k1 := by rw [e1]; exact Int.mul_fdiv_cancel_left _ hc0
              have f2 : d.fdiv g = k2 := by rw [e2]; exact Int.mul_fdiv_cancel_left _ hc0
              rw [f1, f2] at hm ⊢
              rw [f2] at hd
              have hval : ∀ ρ, (total ρ ts' + k1) / k2 = (total ρ ts + c) / d := by
                intro ρ
                have hgq : (g : ℚ) ≠ 0 := by exact_mod_cast hc0
                have hkq : (k2 : ℚ) ≠ 0 := by exact_mod_cast (by omega : k2 ≠ 0)
                rw [v, e1, e2]
                push_cast
                field_simp
              obtain ⟨m1, m2⟩ := intMin_spec hF hd w hm
              refine ⟨⟨⟨?_, hd, w, oneBaseS_iff hb, m1, m2⟩, hval⟩, _, _, _, _, rfl⟩
              rw [Ne, n]
              simpa using hne
            · cases h
        · cases h

/-! ## Operations -/

theorem mulTerms_spec {F : Floats} (hF : FloatsOk F) {f : Nat} {z : Int} {ts ts' : List STerm}
    (hw : ∀ t ∈ ts, STerm.WF t) (h : mulTerms F f z ts = .ok ts') :
    (∀ t ∈ ts', STerm.WF t) ∧ (∀ ρ, total ρ ts' = total ρ ts * z) ∧ (ts' = [] ↔ ts = []) := by
  unfold mulTerms at h
  split at h
  · cases h
  · refine mapE_total ?_ h
    intro t ht t' hg
    obtain ⟨w, v, -⟩ := mkTermS_spec hF (hw t ht).normal hg
    refine ⟨w, fun ρ => ?_⟩
    rw [v]
    unfold STerm.value
    push_cast
    ring

theorem normal_ne_zero {e : Expr Int} (he : Expr.Normal e) (h : Val.eq (.expr e) (.num 0) = true) :
    e.terms = [] ∧ e.const = 0 := by
  simp only [Val.eq, Val.sub, Val.neg, Val.add, Val.vanishes, addS, Bool.and_eq_true, decide_eq_true_eq, List.all_eq_true,
    neg_zero, add_zero] at h
  refine ⟨?_, h.1⟩
  cases hts : e.terms with
  | nil => rfl
  | cons t ts =>
    exact absurd (h.2 t (by simp [hts])) (he.coef t (by simp [hts]))

theorem expIntS_spec {F : Floats} (hF : FloatsOk F) {f : Nat} {b : Int} {x : Val Int} {r : SNum} (hx : Val.Normal x)
    (h : expIntS F f b x = .ok r) : SDenotes r (fun ρ => (b : ℚ) ^ Val.value ρ x) := by
  match x with
  | .num z =>
    simp only [expIntS] at h
    split at h
    · cases h
    · next p hp =>
      cases h
      obtain ⟨hz, hd⟩ := expInt_sound hF hp
      refine ⟨⟨_, hd⟩, fun ρ => ?_⟩
      show Num.value p = (b : ℚ) ^ z
      rw [hd.2]
      push_cast
      rw [← zpow_natCast, Int.toNat_of_nonneg hz]
  | .expr e =>
    simp only [expIntS] at h
    split at h
    · next he =>
      cases h
      obtain ⟨h1, h2⟩ := normal_ne_zero hx he
      refine ⟨⟨1, denotes_int 1⟩, fun ρ => ?_⟩
      show Num.value (.int 1) = (b : ℚ) ^ Expr.value ρ e
      simp [Expr.value, h1, h2, Num.value]
    · split at h
      · cases h
      · next t ht =>
        obtain ⟨w, v, -⟩ := mkTermS_spec hF hx ht
        obtain ⟨⟨w', v'⟩, -⟩ := mkIntS_spec hF (by simpa using w) h
        refine ⟨w', fun ρ => ?_⟩
        rw [v']
        dsimp only
        rw [total_cons, v]
        simp [value_expr]

theorem sym_value (ρ : Nat → Int) (ts : List STerm) (c d : Int) (m) : SNum.value ρ (.sym ts c d m) = (total ρ ts + c) / d := rfl

theorem addSN_spec {F : Floats} (hF : FloatsOk F) {f : Nat} {a b r : SNum} (ha : SNum.WF a) (hb : SNum.WF b)
    (h : addSN F f a b = .ok r) : SDenotes r (fun ρ => SNum.value ρ a + SNum.value ρ b) := by
  have hint : ∀ (ts : List STerm) (c d z : Int) m r, SNum.WF (.sym ts c d m) → mkIntS F f ts (c + z * d) d = .ok r →
      SDenotes r (fun ρ => SNum.value ρ (.sym ts c d m) + z) := by
    intro ts c d z m r hw hr
    obtain ⟨⟨w, v⟩, -⟩ := mkIntS_spec hF hw.2.2.1 hr
    refine ⟨w, fun ρ => ?_⟩
    have hdq : (d : ℚ) ≠ 0 := by exact_mod_cast (by have := hw.2.1; omega : d ≠ 0)
    rw [v]
    dsimp only
    rw [sym_value]
    push_cast
    field_simp
    ring
  match a, b with
  | .num a, .num b =>
    simp only [addSN] at h
    split at h
    · cases h
    · next p hp =>
      cases h
      obtain ⟨x, hx⟩ := ha
      obtain ⟨y, hy⟩ := hb
      have := Props.C47_add_partial hF f hx hy hp
      refine ⟨⟨_, this⟩, fun ρ => ?_⟩
      show Num.value p = Num.value a + Num.value b
      rw [this.2, hx.2, hy.2]; push_cast; rfl
  | .sym ts c d m, .num (.int z) =>
    simp only [addSN] at h
    simpa [SNum.value, Num.value] using hint ts c d z m r ha h
  | .num (.int z), .sym ts c d m =>
    simp only [addSN] at h
    have := hint ts c d z m r hb h
    refine ⟨this.1, fun ρ => ?_⟩
    rw [this.2]
    dsimp only
    rw [add_comm]
    simp [SNum.value, Num.value]
  | .sym _ _ _ _, .num (.exp _ _ _) => simp [addSN] at h
  | .num (.exp _ _ _), .sym _ _ _ _ => simp [addSN] at h
  | .sym ts1 c1 d1 m1, .sym ts2 c2 d2 m2 =>
    simp only [addSN] at h
    split at h
    · cases h
    · next nd hnd =>
      split at h
      · cases h
      · next hd0 =>
        split at h
        · cases h
        · next ts1' h1 =>
          split at h
          · cases h
          · next ts2' h2 =>
            split at h
            · obtain ⟨w1, v1, -⟩ := mulTerms_spec hF ha.2.2.1 h1
              obtain ⟨w2, v2, -⟩ := mulTerms_spec hF hb.2.2.1 h2
              obtain ⟨⟨w, v⟩, -⟩ := mkIntS_spec hF (ts := ts1' ++ ts2')
                (fun t ht => (List.mem_append.1 ht).elim (w1 t) (w2 t)) h
              refine ⟨w, fun ρ => ?_⟩
              have hp1 := ha.2.1
              have hp2 := hb.2.1
              obtain ⟨ns, e1, no, e2, hnd0⟩ : ∃ ns, nd = d1 * ns ∧ ∃ no, nd = d2 * no ∧ nd ≠ 0 := by
                have e1 : ((d1.toNat : Nat) : Int) = d1 := by omega
                have e2 : ((d2.toNat : Nat) : Int) = d2 := by omega
                have hl := Math.lcm_nat (a := d1.toNat) (b := d2.toNat) (Or.inl (by omega))
                rw [e1, e2, hnd] at hl
                cases hl
                obtain ⟨u, hu⟩ := Nat.dvd_lcm_left d1.toNat d2.toNat
                obtain ⟨w, hw⟩ := Nat.dvd_lcm_right d1.toNat d2.toNat
                refine ⟨u, ?_, w, ?_, ?_⟩
                · rw [hu]; push_cast; rw [e1]
                · rw [hw]; push_cast; rw [e2]
                · have := Nat.lcm_pos (m := d1.toNat) (n := d2.toNat) (by omega) (by omega); omega
              have f1 : nd.fdiv d1 = ns := by rw [e1]; exact Int.mul_fdiv_cancel_left _ (by omega)
              have f2 : nd.fdiv d2 = no := by rw [e2]; exact Int.mul_fdiv_cancel_left _ (by omega)
              rw [v]
              dsimp only
              rw [total_append, v1, v2, f1, f2, sym_value, sym_value]
              have hq1 : (d1 : ℚ) ≠ 0 := by exact_mod_cast (by omega : d1 ≠ 0)
              have hq2 : (d2 : ℚ) ≠ 0 := by exact_mod_cast (by omega : d2 ≠ 0)
              have hqn : (nd : ℚ) ≠ 0 := by exact_mod_cast hnd0
              have g1 : (nd : ℚ) = d1 * ns := by exact_mod_cast e1
              have g2 : (nd : ℚ) = d2 * no := by exact_mod_cast e2
              rw [div_add_div _ _ hq1 hq2, div_eq_div_iff hqn (mul_ne_zero hq1 hq2)]
              push_cast
              linear_combination (-(d2 * (total ρ ts1 + c1)) : ℚ) * g1 - (d1 * (total ρ ts2 + c2)) * g2
            · cases h

theorem mulInt_spec {F : Floats} (hF : FloatsOk F) {f : Nat} {ts : List STerm} {c d z : Int} {m} {r : SNum}
    (hw : SNum.WF (.sym ts c d m)) (h : mulSN.mulInt F f ts c d z = .ok r) :
    SDenotes r (fun ρ => SNum.value ρ (.sym ts c d m) * z) := by
  unfold mulSN.mulInt at h
  split at h
  · next hz =>
    cases h
    exact ⟨⟨0, denotes_int 0⟩, fun ρ => by simp [hz, SNum.value, Num.value]⟩
  · split at h
    · cases h
    · next ts' hts =>
      obtain ⟨w1, v1, -⟩ := mulTerms_spec hF hw.2.2.1 hts
      obtain ⟨⟨w, v⟩, -⟩ := mkIntS_spec hF w1 h
      refine ⟨w, fun ρ => ?_⟩
      rw [v]
      dsimp only
      rw [v1, sym_value]
      push_cast
      ring

theorem mapE_total_flat {α : Type} {g : α → Except Err (List STerm)} {v : (Nat → Int) → α → ℚ} : ∀ {xs : List α} {yss},
    (∀ x ∈ xs, ∀ ys, g x = .ok ys → (∀ t ∈ ys, STerm.WF t) ∧ ∀ ρ, total ρ ys = v ρ x) → mapE g xs = .ok yss →
    (∀ t ∈ yss.flatten, STerm.WF t) ∧ ∀ ρ, total ρ yss.flatten = (xs.map (v ρ)).sum
  | [], yss, _, h => by cases h; simp
  | x :: xs, yss, hg, h => by
    unfold mapE at h
    split at h
    · cases h
    · next y hy =>
      split at h
      · cases h
      · next ys hys =>
        cases h
        obtain ⟨h1, h2⟩ := hg x (by simp) y hy
        obtain ⟨i1, i2⟩ := mapE_total_flat (fun t ht => hg t (by simp [ht])) hys
        rw [List.flatten_cons]
        refine ⟨fun t ht => (List.mem_append.1 ht).elim (h1 t) (i1 t), fun ρ => ?_⟩
        rw [total_append, h2, i2, List.map_cons, List.sum_cons]

theorem mapE_total_one {α : Type} {g : α → Except Err STerm} {v : (Nat → Int) → α → ℚ} : ∀ {xs : List α} {ys},
    (∀ x ∈ xs, ∀ t, g x = .ok t → STerm.WF t ∧ ∀ ρ, STerm.value ρ t = v ρ x) → mapE g xs = .ok ys →
    (∀ t ∈ ys, STerm.WF t) ∧ ∀ ρ, total ρ ys = (xs.map (v ρ)).sum
  | [], ys, _, h => by cases h; simp
  | x :: xs, ys, hg, h => by
    unfold mapE at h
    split at h
    · cases h
    · next y hy =>
      split at h
      · cases h
      · next ys hys =>
        cases h
        obtain ⟨h1, h2⟩ := hg x (by simp) y hy
        obtain ⟨i1, i2⟩ := mapE_total_one (fun t ht => hg t (by simp [ht])) hys
        refine ⟨fun t ht => ?_, fun ρ => ?_⟩
        · rcases List.mem_cons.1 ht with rfl | ht
          · exact h1
          · exact i1 t ht
        · rw [total_cons, h2, i2, List.map_cons, List.sum_cons]

theorem allWF_mem : ∀ {ts : List ETerm}, AllWF ts → ∀ t ∈ ts, ETerm.WF t
  | [], _, t, ht => by simp at ht
  | x :: xs, h, t, ht => by
    simp only [AllWF] at h
    rcases List.mem_cons.1 ht with rfl | ht
    · exact h.1
    · exact allWF_mem h.2 t ht

theorem termsValue_sum : ∀ ts : List ETerm, Spec.termsValue ts = (ts.map ETerm.value).sum
  | [] => by simp [Spec.termsValue]
  | t :: ts => by simp [Spec.termsValue, termsValue_sum ts]

theorem prodS_spec {F : Floats} (hF : FloatsOk F) {f : Nat} {ts ts' : List STerm} {ts2 : List ETerm} {c2 : Int}
    (hw : ∀ t ∈ ts, STerm.WF t) (hw2 : AllWF ts2) (h : prodS F f ts ts2 c2 = .ok ts') :
    (∀ t ∈ ts', STerm.WF t) ∧ ∀ ρ, total ρ ts' = total ρ ts * (Spec.termsValue ts2 + c2) := by
  unfold prodS at h
  split at h
  · cases h
  · next xss hx =>
    cases h
    obtain ⟨h1, h2⟩ := mapE_total_flat (v := fun ρ t => STerm.value ρ t * (Spec.termsValue ts2 + c2)) (by
      intro t ht ys hy
      split at hy
      · cases hy
      · next xs hxs =>
        split at hy
        · cases hy
        · next zs hzs =>
          cases hy
          obtain ⟨a1, a2⟩ := mapE_total_one (v := fun ρ _ => STerm.value ρ t * (c2 : ℚ)) (by
            intro _ _ t' ht'
            obtain ⟨w, v, -⟩ := mkTermS_spec hF (hw t ht).normal ht'
            refine ⟨w, fun ρ => ?_⟩
            rw [v]
            unfold STerm.value
            push_cast
            ring) hxs
          obtain ⟨b1, b2⟩ := mapE_total_one (v := fun ρ t2 => STerm.value ρ t * ETerm.value t2) (by
            intro t2 ht2 t' ht'
            have hwt := allWF_mem hw2 t2 ht2
            split at ht'
            · next hb =>
              split at ht'
              · next k hk =>
                cases t2 with
                | mk b c e =>
                  simp only [ETerm.exponent] at hk
                  subst hk
                  simp only [ETerm.base] at hb
                  simp only [ETerm.coef] at ht'
                  simp only [ETerm.WF] at hwt
                  obtain ⟨-, -, -, n, hn⟩ := hwt
                  have hkn : k = n := by
                    simp only [Num.value] at hn
                    exact_mod_cast hn
                  obtain ⟨w, v, -⟩ := mkTermS_spec hF (addS_normal k (hw t ht).normal) ht'
                  refine ⟨w, fun ρ => ?_⟩
                  have hb0 : (t.base : ℚ) ≠ 0 := by exact_mod_cast (by have := (hw t ht).base; omega : t.base ≠ 0)
                  rw [v, addS_value, zpow_add₀ hb0]
                  simp only [STerm.value, ETerm.value, Num.value, ← hb]
                  rw [hkn]
                  push_cast
                  rw [zpow_natCast]
                  simp
                  ring
              · cases ht'
            · cases ht') hzs
          refine ⟨fun t ht => (List.mem_append.1 ht).elim (a1 t) (b1 t), fun ρ => ?_⟩
          rw [total_append, a2, b2, List.sum_map_mul_left, List.sum_map_mul_left, termsValue_sum]
          by_cases hc : c2 = 0
          · simp [hc]
          · simp [hc]; ring) hx
    refine ⟨h1, fun ρ => ?_⟩
    rw [h2, List.sum_map_mul_right]
    rfl

theorem mulSN_spec {F : Floats} (hF : FloatsOk F) {f : Nat} {a b r : SNum} (ha : SNum.WF a) (hb : SNum.WF b)
    (h : mulSN F f a b = .ok r) : SDenotes r (fun ρ => SNum.value ρ a * SNum.value ρ b) := by
  match a, b with
  | .num a, .num b =>
    simp only [mulSN] at h
    split at h
    · cases h
    · next p hp =>
      cases h
      obtain ⟨x, hx⟩ := ha
      obtain ⟨y, hy⟩ := hb
      have := Props.C47_mul_partial hF f hx hy hp
      refine ⟨⟨_, this⟩, fun ρ => ?_⟩
      show Num.value p = Num.value a * Num.value b
      rw [this.2, hx.2, hy.2]; push_cast; rfl
  | .num (.int z), .sym ts c d m =>
    simp only [mulSN] at h
    have := mulInt_spec hF hb h
    refine ⟨this.1, fun ρ => ?_⟩
    rw [this.2]
    dsimp only
    rw [mul_comm]
    simp [SNum.value, Num.value]
  | .num (.exp _ _ _), .sym _ _ _ _ => simp [mulSN] at h
  | .sym _ _ _ _, .sym _ _ _ _ => simp [mulSN] at h
  | .sym ts c d m, .num b =>
    simp only [mulSN] at h
    obtain ⟨y, hy⟩ := hb
    split at h
    · next z hz =>
      have hzy : z = y := by
        unfold simplify at hz
        split at hz
        · next z' hz' => cases hz; exact tryEval_sound hy hz'
        · next hn => rw [hz] at hn; simp [tryEval] at hn
      subst hzy
      have := mulInt_spec hF ha h
      refine ⟨this.1, fun ρ => ?_⟩
      rw [this.2]
      show _ = _ * Num.value b
      rw [hy.2]
    · next ts2 c2 d2 hz =>
      have hbe : b = .exp ts2 c2 d2 := by
        unfold simplify at hz
        split at hz
        · cases hz
        · exact hz
      subst hbe
      split at h
      · split at h
        · cases h
        · next ts' hts =>
          split at h
          · cases h
          · next hc =>
            split at h
            · have hw2 := hy.1
              simp only [Num.WF] at hw2
              obtain ⟨w1, v1⟩ := prodS_spec hF ha.2.2.1 hw2.2.2.2 hts
              obtain ⟨⟨w, v⟩, -⟩ := mkIntS_spec hF w1 h
              refine ⟨w, fun ρ => ?_⟩
              have hc0 : c = 0 := by omega
              rw [v]
              dsimp only
              rw [v1, sym_value, hc0]
              show _ = _ * Num.value (.exp ts2 c2 d2)
              simp only [Num.value]
              push_cast
              rw [div_mul_div_comm]
              congr 1
              ring
            · cases h
      · cases h

theorem negS_spec {F : Floats} (hF : FloatsOk F) {f : Nat} {a r : SNum} (ha : SNum.WF a) (h : negS F f a = .ok r) :
    SDenotes r (fun ρ => - SNum.value ρ a) := by
  have := mulSN_spec hF ha (b := .num (.int (-1))) ⟨-1, denotes_int (-1)⟩ h
  refine ⟨this.1, fun ρ => ?_⟩
  rw [this.2]
  simp [SNum.value, Num.value]

theorem subS_spec {F : Floats} (hF : FloatsOk F) {f : Nat} {a b r : SNum} (ha : SNum.WF a) (hb : SNum.WF b)
    (h : subS F f a b = .ok r) : SDenotes r (fun ρ => SNum.value ρ a - SNum.value ρ b) := by
  unfold subS at h
  split at h
  · cases h
  · next nb hn =>
    obtain ⟨w, v⟩ := negS_spec hF hb hn
    have := addSN_spec hF ha w h
    refine ⟨this.1, fun ρ => ?_⟩
    rw [this.2]
    dsimp only
    rw [v]
    dsimp only
    ring

theorem quot_value (ρ : Nat → Int) (x : SNum) : QNum.value ρ (.num x) = SNum.value ρ x := rfl

theorem divS_spec {F : Floats} (hF : FloatsOk F) {f : Nat} {a : SNum} {z : Int} {r : QNum} (ha : SNum.WF a)
    (h : divS F f a z = .ok r) : z ≠ 0 ∧ (∀ ρ, QNum.value ρ r = SNum.value ρ a / z) ∧
      ((∃ p, a = .num (.int p) ∧ r = .float p z) ∨ (∃ x, r = .num (.num x) ∧ Num.WF x ∧ ∃ ts c d, a = .num (.exp ts c d)) ∨
        ∃ ts c d m, r = .num (.sym ts c d m) ∧ SNum.WF (.sym ts c d m) ∧ ∃ ts c d m, a = .sym ts c d m) := by
  match a with
  | .num (.int p) =>
    simp only [divS] at h
    split at h
    · cases h
    · next hz => cases h; exact ⟨hz, fun ρ => by simp [QNum.value, SNum.value, Num.value], Or.inl ⟨p, rfl, rfl⟩⟩
  | .num (.exp ts c d) =>
    simp only [divS] at h
    split at h
    · cases h
    · next q hq =>
      cases h
      obtain ⟨y, hy⟩ := ha
      obtain ⟨h1, h2, h3⟩ := Props.C47_div_partial hF f hy (denotes_int z) hq
      have hzq : (z : ℚ) ≠ 0 := by exact_mod_cast h1
      refine ⟨h1, fun ρ => ?_, Or.inr (Or.inl ⟨q, rfl, h2, _, _, _, rfl⟩)⟩
      show Num.value q = Num.value (.exp ts c d) / z
      rw [hy.2, eq_div_iff hzq, h3]
  | .sym ts c d m =>
    simp only [divS] at h
    split at h
    · cases h
    · next hz =>
      split at h
      · cases h
      · next q hq =>
        cases h
        obtain ⟨⟨w, v⟩, ts', c', d', m', rfl⟩ := mkIntS_spec hF ha.2.2.1 hq
        refine ⟨hz, fun ρ => ?_, Or.inr (Or.inr ⟨_, _, _, _, rfl, w, _, _, _, _, rfl⟩)⟩
        rw [quot_value, v, sym_value, div_div]
        push_cast
        rfl

/-! ## Substituting numbers -/

theorem powNum_spec {x r : Num} {z : Int} {n : Nat} (hx : Denotes x z) (h : powNum x n = .ok r) : Denotes r (z ^ n) := by
  unfold powNum at h
  split at h
  · next hn => cases h; subst hn; simpa using hx
  · split at h
    · next y =>
      cases h
      have : y = z := by simpa [Num.value] using hx.2
      subst this
      exact denotes_int _
    · cases h

theorem mulAll_spec {F : Floats} (hF : FloatsOk F) {f : Nat} : ∀ {xs : List Num} {zs : List Int} {acc r : Num} {z : Int},
    List.Forall₂ Denotes xs zs → Denotes acc z → mulAll F f xs acc = .ok r → Denotes r (z * zs.prod)
  | [], _, acc, r, z, .nil, ha, h => by cases h; simpa using ha
  | x :: xs, _, acc, r, z, .cons (b := y) (l₂ := ys) hx hxs, ha, h => by
    unfold mulAll at h
    split at h
    · cases h
    · next acc' hacc =>
      have := mulAll_spec hF hxs (Props.C47_mul_partial hF f ha hx hacc) h
      rw [List.prod_cons, ← mul_assoc]
      exact this

theorem mapE_pow {σ : Nat → Num} {ρ : Nat → Int} (hσ : ∀ v, Denotes (σ v) (ρ v)) : ∀ {vs : List VarPow} {xs : List Num},
    mapE (fun vp : VarPow => powNum (σ vp.var) vp.pow) vs = .ok xs →
    List.Forall₂ Denotes xs (vs.map (fun vp => ρ vp.var ^ vp.pow))
  | [], xs, h => by cases h; exact .nil
  | v :: vs, xs, h => by
    unfold mapE at h
    split at h
    · cases h
    · next y hy =>
      split at h
      · cases h
      · next ys hys =>
        cases h
        exact .cons (powNum_spec (hσ _) hy) (mapE_pow hσ hys)

theorem monoNum_spec {F : Floats} (hF : FloatsOk F) {f : Nat} {σ : Nat → Num} {ρ : Nat → Int} (hσ : ∀ v, Denotes (σ v) (ρ v))
    {t : Term Int} {r : Num} (h : monoNum F f σ t = .ok r) : Denotes r (Spec.Term.value ρ t) := by
  unfold monoNum at h
  split at h
  · cases h
  · cases h
  · next x xs hxs =>
    have hm := mapE_pow hσ hxs
    unfold Spec.Term.value monomial
    generalize t.vars.map (fun vp => ρ vp.var ^ vp.pow) = zs at hm
    cases hm with
    | cons hx hrest =>
      split at h
      · cases h
      · next p hp =>
        have := Props.C47_mul_partial hF f (mulAll_spec hF hrest hx hp) (denotes_int t.coef) h
        rw [List.prod_cons, mul_comm]
        exact this

theorem sumNum_spec {F : Floats} (hF : FloatsOk F) {f : Nat} {σ : Nat → Num} {ρ : Nat → Int} (hσ : ∀ v, Denotes (σ v) (ρ v)) :
    ∀ {ts : List (Term Int)} {acc r : Num} {z : Int}, Denotes acc z → sumNum F f σ ts acc = .ok r →
      Denotes r (z + (ts.map (Spec.Term.value ρ)).sum)
  | [], acc, r, z, ha, h => by cases h; simpa using ha
  | t :: ts, acc, r, z, ha, h => by
    unfold sumNum at h
    split at h
    · cases h
    · next x hx =>
      split at h
      · cases h
      · next acc' hacc =>
        have := sumNum_spec hF hσ (Props.C47_add_partial hF f ha (monoNum_spec hF hσ hx) hacc) h
        rw [List.map_cons, List.sum_cons, ← add_assoc]
        exact this

theorem exprNum_spec {F : Floats} (hF : FloatsOk F) {f : Nat} {σ : Nat → Num} {ρ : Nat → Int} (hσ : ∀ v, Denotes (σ v) (ρ v))
    {e : Expr Int} {r : Num} (h : exprNum F f σ e = .ok r) : Denotes r (Expr.value ρ e) := by
  unfold exprNum at h
  split at h
  · cases h
  · next s hs =>
    have := Props.C47_add_partial hF f (sumNum_spec hF hσ (denotes_int 0) hs) (denotes_int e.const) h
    rw [zero_add] at this
    exact this

theorem termNum_spec {F : Floats} (hF : FloatsOk F) {f : Nat} {σ : Nat → Num} {ρ : Nat → Int} (hσ : ∀ v, Denotes (σ v) (ρ v))
    {t : STerm} {r : Num} (hn : 0 ≤ Expr.value ρ t.exponent) (h : termNum F f σ t = .ok r) :
    ∃ z : Int, Denotes r z ∧ (z : ℚ) = STerm.value ρ t := by
  unfold termNum at h
  split at h
  · cases h
  · next n hn' =>
    split at h
    · cases h
    · next p hp =>
      have he := exprNum_spec hF hσ hn'
      obtain ⟨k, hk⟩ := Int.eq_ofNat_of_zero_le hn
      rw [hk] at he
      have hpd := Props.C47_exp_int_partial hF f t.base (n := k) he hp
      refine ⟨_, Props.C47_mul_partial hF f (denotes_int t.coef) hpd h, ?_⟩
      unfold STerm.value
      rw [hk]
      push_cast
      rw [zpow_natCast]

theorem termsNum_spec {F : Floats} (hF : FloatsOk F) {f : Nat} {σ : Nat → Num} {ρ : Nat → Int} (hσ : ∀ v, Denotes (σ v) (ρ v)) :
    ∀ {ts : List STerm} {acc r : Num} {z : Int}, (∀ t ∈ ts, 0 ≤ Expr.value ρ t.exponent) → Denotes acc z →
      termsNum F f σ ts acc = .ok r → ∃ z' : Int, Denotes r z' ∧ (z' : ℚ) = z + total ρ ts
  | [], acc, r, z, _, ha, h => by cases h; exact ⟨z, ha, by simp⟩
  | t :: ts, acc, r, z, hn, ha, h => by
    unfold termsNum at h
    split at h
    · cases h
    · next x hx =>
      split at h
      · cases h
      · next acc' hacc =>
        obtain ⟨y, hy, hyv⟩ := termNum_spec hF hσ (hn t (by simp)) hx
        obtain ⟨z', h1, h2⟩ := termsNum_spec hF hσ (fun t ht => hn t (by simp [ht])) (Props.C47_add_partial hF f ha hy hacc) h
        refine ⟨z', h1, ?_⟩
        rw [h2, total_cons, ← hyv]
        push_cast
        ring

theorem substNum_spec {F : Floats} (hF : FloatsOk F) {f : Nat} {σ : Nat → Num} {ρ : Nat → Int} (hσ : ∀ v, Denotes (σ v) (ρ v))
    {x : SNum} {r : QNum} (hx : SNum.WF x) (hn : NatExponents ρ x) (h : substNum F f σ x = .ok r) :
    (∀ ρ', QNum.value ρ' r = SNum.value ρ x) ∧ ((∃ y, r = .num (.num y) ∧ Num.WF y) ∨ ∃ p q, r = .float p q ∧ q ≠ 0) := by
  match x with
  | .num y =>
    cases h
    obtain ⟨z, hz⟩ := hx
    exact ⟨fun ρ' => rfl, Or.inl ⟨y, rfl, hz.1⟩⟩
  | .sym ts c d m =>
    simp only [substNum] at h
    split at h
    · cases h
    · next s hs =>
      split at h
      · cases h
      · next n hn' =>
        obtain ⟨z, hz, hzv⟩ := termsNum_spec hF hσ hn (denotes_int 0) hs
        have hd := Props.C47_add_partial hF f hz (denotes_int c) hn'
        obtain ⟨h1, h2, h3⟩ := divS_spec hF (a := .num n) ⟨_, hd⟩ h
        refine ⟨fun ρ' => ?_, ?_⟩
        · rw [h2, sym_value]
          show Num.value n / d = _
          rw [hd.2]
          push_cast
          rw [hzv]
          simp
        · rcases h3 with ⟨p, -, rfl⟩ | ⟨y, rfl, hy, -⟩ | ⟨_, _, _, _, -, -, _, _, _, _, hh⟩
          · exact Or.inr ⟨p, d, rfl, h1⟩
          · exact Or.inl ⟨y, rfl, hy⟩
          · cases hh

/-! ## Substituting expressions -/

theorem termExpr_spec {F : Floats} (hF : FloatsOk F) {f : Nat} {σ : Nat → Option (Val Int)}
    (hσ : ∀ v y, σ v = some y → Val.Normal y) {t : STerm} {r : SNum} (ht : STerm.WF t) (h : termExpr F f σ t = .ok r) :
    SDenotes r (fun ρ => STerm.value (after σ ρ) t) := by
  unfold termExpr at h
  split at h
  · cases h
  · next n hn =>
    split at h
    · cases h
    · next p hp =>
      have hnn := (Props.C44_normal (K := Int)).2.2.2 σ _ n hσ hn
      obtain ⟨y, hy, hyv⟩ := Props.C44_substitute σ (.expr t.exponent) (by
        intro e he t' ht'
        cases he
        exact (ht.normal.vars t' ht').ne)
      rw [hn] at hy
      cases hy
      have hpd := expIntS_spec hF hnn hp
      have := mulSN_spec hF (a := .num (.int t.coef)) ⟨_, denotes_int _⟩ hpd.1 h
      refine ⟨this.1, fun ρ => ?_⟩
      rw [this.2]
      dsimp only
      rw [hpd.2]
      dsimp only
      have hyv' : Val.value ρ n = Expr.value (after σ ρ) t.exponent := by
        rw [hyv, value_expr]
        congr 1
        funext v
        unfold after
        cases σ v <;> rfl
      rw [hyv']
      simp only [SNum.value, Num.value, STerm.value]

theorem termsExpr_spec {F : Floats} (hF : FloatsOk F) {f : Nat} {σ : Nat → Option (Val Int)}
    (hσ : ∀ v y, σ v = some y → Val.Normal y) : ∀ {ts : List STerm} {acc r : SNum} {g : (Nat → Int) → ℚ}, (∀ t ∈ ts, STerm.WF t) →
      SDenotes acc g → termsExpr F f σ ts acc = .ok r → SDenotes r (fun ρ => g ρ + total (after σ ρ) ts)
  | [], acc, r, g, _, ha, h => by cases h; simpa using ha
  | t :: ts, acc, r, g, hw, ha, h => by
    unfold termsExpr at h
    split at h
    · cases h
    · next x hx =>
      split at h
      · cases h
      · next acc' hacc =>
        have hxd := termExpr_spec hF hσ (hw t (by simp)) hx
        have h1 := addSN_spec hF ha.1 hxd.1 hacc
        have h2 := termsExpr_spec hF hσ (g := fun ρ => g ρ + STerm.value (after σ ρ) t) (fun t ht => hw t (by simp [ht]))
          ⟨h1.1, fun ρ => by rw [h1.2]; dsimp only; rw [ha.2, hxd.2]⟩ h
        simpa [add_assoc] using h2

theorem substExpr_spec {F : Floats} (hF : FloatsOk F) {f : Nat} {σ : Nat → Option (Val Int)}
    (hσ : ∀ v y, σ v = some y → Val.Normal y) {x : SNum} {r : QNum} (hx : SNum.WF x) (h : substExpr F f σ x = .ok r) :
    (∀ ρ, QNum.value ρ r = SNum.value (after σ ρ) x) ∧
      ((∃ y, r = .num (.num y) ∧ Num.WF y) ∨ (∃ ts c d m, r = .num (.sym ts c d m) ∧ SNum.WF (.sym ts c d m)) ∨
        ∃ p q, r = .float p q ∧ q ≠ 0) := by
  match x with
  | .num y =>
    cases h
    obtain ⟨z, hz⟩ := hx
    exact ⟨fun ρ' => rfl, Or.inl ⟨y, rfl, hz.1⟩⟩
  | .sym ts c d m =>
    simp only [substExpr] at h
    split at h
    · cases h
    · next s hs =>
      split at h
      · cases h
      · next n hn' =>
        have hs' := termsExpr_spec hF hσ (g := fun _ => 0) hx.2.2.1
          (acc := .num (.int 0)) ⟨⟨0, denotes_int 0⟩, fun ρ => by simp [SNum.value, Num.value]⟩ hs
        have hd := addSN_spec hF hs'.1 (b := .num (.int c)) ⟨_, denotes_int c⟩ hn'
        obtain ⟨h1, h2, h3⟩ := divS_spec hF hd.1 h
        refine ⟨fun ρ => ?_, ?_⟩
        · rw [h2, hd.2, sym_value]
          dsimp only
          rw [hs'.2]
          simp [SNum.value, Num.value]
        · rcases h3 with ⟨p, -, rfl⟩ | ⟨y, rfl, hy, -⟩ | ⟨ts', c', d', m', rfl, hw, -⟩
          · exact Or.inr (Or.inr ⟨p, d, rfl, h1⟩)
          · exact Or.inl ⟨y, rfl, hy⟩
          · exact Or.inr (Or.inl ⟨_, _, _, _, rfl, hw⟩)

/-! ## What is refused -/

theorem termMin_some {F : Floats} {f : Nat} {b c : Int} {e : Expr Int} {m : Option Num} (hc : 0 < c)
    (h : termMin F f b c e = .ok m) : ∃ x, m = some x ∧ e.minVal = some e.const ∧ ∃ p, expInt F f b (.int e.const) = .ok p ∧
      mulN F f (.int c) p = .ok x := by
  unfold termMin at h
  rw [if_neg (by omega)] at h
  split at h
  · cases h
  · next k hk =>
    split at h
    · cases h
    · next p hp =>
      split at h
      · cases h
      · next v hv =>
        cases h
        have := minVal_const hk
        subst this
        exact ⟨v, rfl, hk, p, hp, hv⟩

/-- The single term of `base ^ e`: nothing is pulled out of the coefficient 1. -/
theorem mkTermS_one {F : Floats} (hF : FloatsOk F) {f : Nat} {b : Int} {e : Expr Int} {t : STerm} (he : Expr.Normal e)
    (h : mkTermS F f b 1 e = .ok t) : t.coef = 1 ∧ t.exponent.minVal = some t.exponent.const ∧
      (∃ k : Int, 0 < k ∧ t.exponent = mulS e k) ∧
      ∃ x p, t.min = some x ∧ expInt F f t.base (.int t.exponent.const) = .ok p ∧ mulN F f (.int 1) p = .ok x := by
  have hw := (mkTermS_spec hF he h).1
  unfold mkTermS at h
  rw [if_neg (by decide)] at h
  split at h
  · cases h
  · next n k hk =>
    dsimp only at h
    have hke : ∃ k' : Int, 0 < k' ∧ (if k > 1 then mulS e (k : Int) else e) = mulS e k' := by
      split
      · exact ⟨k, by omega, rfl⟩
      · exact ⟨1, by decide, by simp [mulS]⟩
    obtain ⟨k', hk', hke⟩ := hke
    rw [hke] at h
    generalize (if k > 1 then (n : Int) else b) = b' at h
    split at h
    · cases h
    · next h0 =>
      split at h
      · cases h
      · next h1 =>
        split at h
        · cases h
        · next hemp =>
          split at h
          · cases h
          · next m hm =>
            cases h
            have hb2 : 2 ≤ b' := hw.base
            have hp : pullOutS b' (Int.natAbs 1) 1 (mulS e k') = (1, mulS e k') := by
              show pullOutS _ 1 _ _ = _
              unfold pullOutS
              rw [if_neg]
              rw [Int.fmod_eq_emod_of_nonneg _ (by omega), Int.emod_eq_of_lt (by omega) (by omega)]
              decide
            rw [hp] at hm ⊢
            obtain ⟨x, hx, h2, p, h3, h4⟩ := termMin_some (c := 1) (by decide) hm
            exact ⟨rfl, h2, ⟨k', hk', rfl⟩, x, p, hx, h3, h4⟩

theorem expInt_zero {F : Floats} {f : Nat} {b : Int} : expInt F f b (.int 0) = .ok (.int 1) := rfl

theorem mulN_ints {F : Floats} {f : Nat} {a b : Int} {r : Num} (h : mulN F f (.int a) (.int b) = .ok r) : r = .int (a * b) := by
  match f with
  | 0 => simp [mulN] at h
  | f + 1 => simp only [mulN, Except.ok.injEq] at h; exact h.symm

theorem addN_ints {F : Floats} {f : Nat} {a b : Int} {r : Num} (h : addN F f (.int a) (.int b) = .ok r) : r = .int (a + b) := by
  match f with
  | 0 => simp [addN] at h
  | f + 1 => simp only [addN, Except.ok.injEq] at h; exact h.symm

/-- A power whose exponent has the constant 0 is refused: its least value is the `int` 1, and 1 / 1 is a `float`. -/
theorem intMin_int {F : Floats} {f : Nat} {t : STerm} {z : Int} (ht : t.min = some (.int z)) {c d : Int} {r} :
    intMin F f [t] c d ≠ .ok r := by
  intro h
  unfold intMin at h
  rw [if_neg (by simp [ht])] at h
  split at h
  · cases h
  · next hs =>
    unfold sumMin at hs
    rw [ht] at hs
    dsimp only at hs
    split at hs
    · cases hs
    · unfold sumMin at hs; cases hs
  · next s hs =>
    unfold sumMin at hs
    rw [ht] at hs
    dsimp only at hs
    split at hs
    · cases hs
    · next acc ha =>
      unfold sumMin at hs
      cases hs
      have := addN_ints ha
      subst this
      split at h
      · cases h
      · cases h
      · next hadd => have := addN_ints hadd; cases this

theorem expIntS_accepts {F : Floats} (hF : FloatsOk F) {f : Nat} {b : Int} {e : Expr Int} {r : SNum} (he : Expr.Normal e)
    (hne : e.terms ≠ []) (h : expIntS F f b (.expr e) = .ok r) : 0 < e.const ∧ (∀ t ∈ e.terms, 0 < t.coef) ∧
      ∃ m, r.minVal = some m := by
  simp only [expIntS] at h
  split at h
  · next hz => exact absurd (normal_ne_zero he hz).1 hne
  · split at h
    · cases h
    · next t ht =>
      obtain ⟨h1, h2, ⟨k, hk, hke⟩, x, p, h3, h4, h5⟩ := mkTermS_one hF he ht
      have hconst : t.exponent.const = e.const * k := by rw [hke]; exact (mulS_normal_ne (by omega) he).2.2
      have hnn := expInt_int_nonneg h4
      have hcoef : ∀ t ∈ e.terms, 0 < t.coef := by
        intro u hu
        have hm := h2
        unfold Expr.minVal at hm
        split at hm
        · cases hm
        · next hany =>
          have hmem : (⟨u.vars, u.coef * k⟩ : Term Int) ∈ t.exponent.terms := by
            rw [hke]
            unfold mulS
            rw [if_neg (by omega)]
            exact List.mem_map.2 ⟨u, hu, rfl⟩
          have hge : ¬ (u.coef * k < 0) := fun hlt => hany (List.any_eq_true.2 ⟨_, hmem, by simpa using hlt⟩)
          have hne := he.coef u hu
          by_contra hn
          exact hge (mul_neg_of_neg_of_pos (by omega) hk)
      unfold mkIntS at h
      rw [if_neg (by simp)] at h
      have hcd : commonDivS [t] 0 1 = 1 := by
        rw [commonDivS_eq]
        simp [commonDiv, Math.gcd_eq]
      rw [hcd] at h
      dsimp only at h
      rw [if_neg (by decide)] at h
      simp only [divTerms, ne_eq, not_true_eq_false, if_false] at h
      split at h
      · split at h
        · cases h
        · next m hm =>
          split at h
          · cases h
            refine ⟨?_, hcoef, ?_⟩
            · by_contra hn
              have hc0 : t.exponent.const = 0 := by
                have : e.const * k ≤ 0 := mul_nonpos_of_nonpos_of_nonneg (by omega) hk.le
                omega
              rw [hc0, expInt_zero] at h4
              cases h4
              have := mulN_ints h5
              subst this
              exact intMin_int h3 hm
            · unfold intMin at hm
              rw [if_neg (by simp [h3])] at hm
              split at hm
              · cases hm
              · next hs =>
                unfold sumMin at hs
                rw [h3] at hs
                dsimp only at hs
                split at hs
                · cases hs
                · unfold sumMin at hs; cases hs
              · split at hm
                · cases hm
                · cases hm
                · split at hm
                  · cases hm
                  · next q _ => cases hm; exact ⟨q, rfl⟩
          · cases h
      · cases h

end Model.ExpSym

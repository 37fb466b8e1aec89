import Verif.Lemmas.ExprNormal
import Verif.Lemmas.Series
import Mathlib.Algebra.Order.Ring.Rat
import Mathlib.Algebra.Order.Ring.Int

/-!
# C44, C45, C46: algebraic expressions, their lower bounds, closed-form series sums

The value of an expression at an assignment is in `Spec/Expr.lean`.
-/

namespace Props
open Spec Model Model.Expr Model.Series

/-! ## C44 -/

section C44
variable {K : Type} [CommRing K] [DecidableEq K]

/-- **C44.** Addition, subtraction, negation, multiplication and powers commute with evaluation, for scalars and
expressions in any combination and for every assignment. -/
theorem C44_ops (ρ : Nat → K) (a b : Val K) (n : Nat) :
    Val.value ρ (a.add b) = Val.value ρ a + Val.value ρ b ∧
    Val.value ρ (a.sub b) = Val.value ρ a - Val.value ρ b ∧
    Val.value ρ a.neg = - Val.value ρ a ∧
    Val.value ρ (a.mul b) = Val.value ρ a * Val.value ρ b ∧
    Val.value ρ (a.pow n) = Val.value ρ a ^ n :=
  ⟨add_value ρ a b, sub_value ρ a b, neg_value ρ a, mul_value ρ a b, pow_value ρ a n⟩

/-- **C44.** A variable has the value assigned to it. -/
theorem C44_var (ρ : Nat → K) (v : Nat) : Val.value ρ (.expr (varE v)) = ρ v := varE_value ρ v

/-- **C44.** Substituting values or expressions for variables and then evaluating is evaluating with the substituted
variables set to the values of what replaces them.  (A term without variables is never built, see `C44_normal`.) -/
theorem C44_substitute (subs : Nat → Option (Val K)) (x : Val K)
    (h : ∀ e, x = .expr e → ∀ t ∈ e.terms, t.vars ≠ []) :
    ∃ y, x.subst subs = .ok y ∧ ∀ ρ, Val.value ρ y =
      Val.value (fun v => match subs v with | some z => Val.value ρ z | none => ρ v) x := by
  match x with
  | .num k => exact ⟨_, rfl, fun ρ => rfl⟩
  | .expr e =>
    simp only [Val.subst]
    split
    · next he =>
      rw [List.isEmpty_iff] at he
      refine ⟨_, rfl, fun ρ => ?_⟩
      rw [value_num, value_expr, value_eq, he]; simp
    · unfold Expr.subst
      obtain ⟨v, hv, _⟩ := substSum_value subs (fun _ => (0 : K)) e.terms (.num 0) (h e rfl)
      rw [hv]
      refine ⟨_, rfl, fun ρ => ?_⟩
      obtain ⟨v', hv', hval⟩ := substSum_value subs ρ e.terms (.num 0) (h e rfl)
      rw [hv] at hv'
      cases hv'
      rw [add_value, hval, value_num, value_num, value_expr, value_eq, zero_add]
      rfl

/-- **C44.** The test for "variable plus constant": if it says yes, the value is that of one variable plus a constant, and
`variable_restricted` returns this variable; if it says no, `variable_restricted` refuses. -/
theorem C44_var_plus_const (e : Expr K) :
    (e.isVarPlusConst = true → ∃ x, e.variableRestricted = .ok x ∧ ∀ ρ, Val.value ρ (.expr e) = ρ x + e.const) ∧
    (e.isVarPlusConst = false → e.variableRestricted = .error .badOperation) := by
  obtain ⟨ts, c⟩ := e
  match ts with
  | [] => simp [Expr.isVarPlusConst, Expr.variableRestricted]
  | [⟨[], k⟩] => simp [Expr.isVarPlusConst, Expr.variableRestricted]
  | [⟨[vp], k⟩] =>
    simp only [Expr.isVarPlusConst, Expr.variableRestricted]
    by_cases h : k = 1 ∧ vp.pow = 1
    · simp [h, Val.value, Expr.value, Term.value, monomial]
    · rw [if_neg h]
      simp only [not_and_or] at h
      rcases h with h | h <;> simp [h]
  | [⟨_ :: _ :: _, k⟩] => simp [Expr.isVarPlusConst, Expr.variableRestricted]
  | _ :: _ :: _ => simp [Expr.isVarPlusConst, Expr.variableRestricted]

/-- **C44.** For expressions as the code builds them the test finds every such expression. -/
theorem C44_var_plus_const_complete [IsDomain K] [Infinite K] (e : Expr K) (hn : Expr.Normal e) (x : Nat) (c : K)
    (h : ∀ ρ, Val.value ρ (.expr e) = ρ x + c) : e.isVarPlusConst = true := by
  unfold Expr.isVarPlusConst
  rw [terms_var hn h]
  simp

/-- **C44.** If the equality test says yes, the values agree at every assignment. -/
theorem C44_eq_sound (a b : Val K) (h : a.eq b = true) (ρ : Nat → K) : Val.value ρ a = Val.value ρ b := eq_value h ρ

/-- **C44.** On expressions in normal form over an infinite domain (the integers, the rationals) the equality test says yes
exactly if the values agree at every assignment. -/
theorem C44_eq_exact [IsDomain K] [Infinite K] (a b : Val K) (ha : Val.Normal a) (hb : Val.Normal b) :
    a.eq b = true ↔ ∀ ρ, Val.value ρ a = Val.value ρ b :=
  ⟨fun h ρ => eq_value h ρ, eq_complete ha hb⟩

/-- **C44.** Every expression built from variables and scalars by the operations is in normal form. -/
theorem C44_normal [IsDomain K] :
    (∀ k : K, Val.Normal (.num k)) ∧ (∀ v, Val.Normal (.expr (varE v : Expr K))) ∧
    (∀ a b : Val K, Val.Normal a → Val.Normal b →
      Val.Normal (a.add b) ∧ Val.Normal (a.sub b) ∧ Val.Normal (a.mul b) ∧ Val.Normal a.neg ∧ ∀ n, Val.Normal (a.pow n)) ∧
    (∀ (subs : Nat → Option (Val K)) (x y : Val K), (∀ v z, subs v = some z → Val.Normal z) → x.subst subs = .ok y →
      Val.Normal y) := by
  refine ⟨fun _ => trivial, varE_normal, fun a b ha hb => ⟨add_normal ha hb, sub_normal ha hb, mul_normal ha hb,
    neg_normal ha, pow_normal ha⟩, ?_⟩
  intro subs x y hs h
  match x with
  | .num k => cases h; trivial
  | .expr e =>
    simp only [Val.subst] at h
    split at h
    · cases h; trivial
    · unfold Expr.subst at h
      split at h
      · cases h
      · next v hv =>
        cases h
        exact add_normal (substSum_normal hs e.terms (.num 0) v trivial hv) (b := .num _) trivial

end C44

/-- **C44.** Dividing an expression by a scalar divides its value; only zero raises. -/
theorem C44_div {K : Type} [Field K] [DecidableEq K] (e : Expr K) (k : K) :
    (k = 0 → divS e k = .error .zeroDivision) ∧
    (k ≠ 0 → ∃ q, divS e k = .ok q ∧ ∀ ρ, Expr.value ρ q = Expr.value ρ e / k) := by
  refine ⟨fun h => ?_, fun h => ?_⟩
  · subst h; unfold divS; rw [if_neg (by simp), if_pos rfl]
  · obtain ⟨q, hq, _⟩ := divS_value (fun _ => (0 : K)) e k h
    refine ⟨q, hq, fun ρ => ?_⟩
    obtain ⟨q', hq', hv⟩ := divS_value ρ e k h
    rw [hq] at hq'
    cases hq'
    exact hv

/-- `(x + 2) * (x - y)`, `x^2 - xy + 2x - 2y`. -/
def xy : Val Int := (Val.add (.expr (varE 0)) (.num 2)).mul (Val.sub (.expr (varE 0)) (.expr (varE 1)))

example : xy = .expr ⟨[⟨[⟨0, 1⟩], 2⟩, ⟨[⟨0, 2⟩], 1⟩, ⟨[⟨1, 1⟩], -2⟩, ⟨[⟨0, 1⟩, ⟨1, 1⟩], -1⟩], 0⟩ := by decide +kernel
example : Val.Normal xy := by
  have h := C44_normal (K := Int)
  have h0 := h.2.1 0
  exact (h.2.2.1 _ _ (h.2.2.1 _ _ h0 (h.1 2)).1 (h.2.2.1 _ _ h0 (h.2.1 1)).2.1).2.2.1
example : Val.eq (xy.add (.num 1)) xy = false ∧
    Val.eq xy ((Val.sub (.expr (varE 0)) (.expr (varE 1))).mul (Val.add (.num 2) (.expr (varE 0)))) = true := by decide +kernel

/-! ## C45 -/

section C45
variable {K : Type} [CommRing K] [LinearOrder K] [IsStrictOrderedRing K]

/-- **C45.** The reported minimum is never above a value at a non-negative assignment. -/
theorem C45_min_val (x : Val K) (m : K) (h : x.minVal = some m) (ρ : Nat → K) (hρ : ∀ v, 0 ≤ ρ v) :
    m ≤ Val.value ρ x := minVal_le ρ hρ x m h

/-- **C45.** For an expression in normal form the reported minimum is attained (where all variables are zero); and if none
is reported some coefficient is negative. -/
theorem C45_min_val_attained (e : Expr K) (hn : Expr.Normal e) :
    (∀ m, Val.minVal (.expr e) = some m → Val.value (fun _ => 0) (.expr e) = m) ∧
    (Val.minVal (.expr e) = none → ∃ t ∈ e.terms, t.coef < 0) := by
  constructor
  · intro m hm
    have hc : e.const = m := by
      simp only [Val.minVal] at hm
      split at hm
      · simpa using hm
      · unfold Expr.minVal at hm
        split at hm
        · cases hm
        · simpa using hm
    rw [value_expr, value_eq, hc]
    have : termsValue (fun _ => (0 : K)) e.terms = 0 := by
      have hv := hn.vars
      generalize e.terms = ts at hv
      induction ts with
      | nil => rfl
      | cons t ts ih =>
        rw [termsValue_cons, ih (fun t ht => hv t (by simp [ht]))]
        have ht := hv t (by simp)
        obtain ⟨v, vs, hvs⟩ := List.exists_cons_of_ne_nil ht.ne
        have hp := ht.pos v (by rw [hvs]; simp)
        simp only [Term.value, monomial, hvs, List.map_cons, List.prod_cons]
        rw [zero_pow (by omega)]; ring
    rw [this, zero_add]
  · intro h
    simp only [Val.minVal] at h
    split at h
    · cases h
    · unfold Expr.minVal at h
      split at h
      · next ha =>
        obtain ⟨t, ht, htc⟩ := List.any_eq_true.1 ha
        exact ⟨t, ht, by simpa using htc⟩
      · cases h

/-- **C45.** `always_ge(a, b)` implies that `a` is at least `b` at every non-negative assignment; `always_gt(a, b)` that it
is greater. -/
theorem C45_always (a b : Val K) (ρ : Nat → K) (hρ : ∀ v, 0 ≤ ρ v) :
    (alwaysGe a b = true → Val.value ρ b ≤ Val.value ρ a) ∧ (alwaysGt a b = true → Val.value ρ b < Val.value ρ a) := by
  constructor
  · intro h
    unfold alwaysGe at h
    split at h
    · cases h
    · next m hm =>
      have := minVal_le ρ hρ _ m hm
      rw [sub_value] at this
      have h0 : 0 ≤ m := by simpa using h
      linarith
  · intro h
    unfold alwaysGt at h
    split at h
    · cases h
    · next m hm =>
      have := minVal_le ρ hρ _ m hm
      rw [sub_value] at this
      have h0 : 0 < m := by simpa using h
      linarith

end C45

example : alwaysGe (K := Int) (Val.add (.expr (varE 0)) (.num 5)) (.num 5) = true ∧
    alwaysGt (K := Int) (Val.add (.expr (varE 0)) (.num 5)) (.num 5) = false ∧
    alwaysGe (K := Int) (.num 5) (.expr (varE 0)) = false := by decide +kernel

/-- The converse fails: `x^2 - x` is never negative at natural numbers, but no bound is reported. -/
example : alwaysGe (K := Int) ((Val.expr (varE 0)).pow 2) (.expr (varE 0)) = false := by decide +kernel

/-! ## C46 -/

/-- The step polynomials for which the closed form is right: the factors of each term are in normal form; the power of `k`
is at most 2, or the term is `k^3` with coefficient 1; and the coefficients are integers unless `N` is an expression. -/
structure Summable (k : Nat) (N : Val ℚ) (e : Expr ℚ) : Prop where
  normal : Expr.Normal e
  deg : ∀ t ∈ e.terms, ∀ vp ∈ t.vars, vp.var = k → vp.pow ≤ 2 ∨ t = ⟨[⟨k, 3⟩], 1⟩
  int : (∀ t ∈ e.terms, ∃ z : Int, t.coef = z) ∨ ∃ f, N = .expr f

theorem powOf_mem {k : Nat} : ∀ (vs : List VarPow) (p : Nat) (r : List VarPow), (factorLoop k vs p r).1 = p ∨
    ∃ vp ∈ vs, vp.var = k ∧ (factorLoop k vs p r).1 = vp.pow
  | [], _, _ => Or.inl rfl
  | v :: vs, p, r => by
    unfold factorLoop
    split
    · next hv =>
      rcases powOf_mem (k := k) vs v.pow r with h | ⟨vp, h1, h2, h3⟩
      · exact Or.inr ⟨v, by simp, hv, h⟩
      · exact Or.inr ⟨vp, by simp [h1], h2, h3⟩
    · rcases powOf_mem (k := k) vs p (r ++ [v]) with h | ⟨vp, h1, h2, h3⟩
      · exact Or.inl h
      · exact Or.inr ⟨vp, by simp [h1], h2, h3⟩

/-- **C46, partial.** The closed form is the sum of the values at `k = 0, …, N-1`, wherever the value of `N` is a natural
number.  Missing, because false (see `C46_wrong_cubic`, `C46_wrong_fraction`): cubic terms with a coefficient or another
variable, and fractional coefficients when `N` is a number. -/
theorem C46_series_partial (e : Expr ℚ) (k : Nat) (N : Val ℚ) (h : Summable k N e) (ρ : Nat → ℚ) (n : Nat)
    (hN : Val.value ρ N = n) :
    ∃ x, seriesSum (.expr e) k N = .ok x ∧
      Val.value ρ x = ∑ i ∈ Finset.range n, Val.value (Function.update ρ k (i : ℚ)) (.expr e) := by
  have hok : ∀ t ∈ e.terms, TermOk k N t := by
    intro t ht
    refine ⟨h.normal.vars t ht, ?_, ?_⟩
    · rcases powOf_mem (k := k) t.vars 0 [] with h0 | ⟨vp, h1, h2, h3⟩
      · left; unfold powOf; omega
      · rcases h.deg t ht vp h1 h2 with hd | hd
        · left; unfold powOf; omega
        · right
          subst hd
          simp [powOf, factorLoop]
    · rcases h.int with hi | hi
      · exact Or.inl (hi t ht)
      · exact Or.inr hi
  obtain ⟨x, hx, hxv⟩ := seriesLoop_value ρ n hN e.terms hok ((Val.num e.const).mul N)
  refine ⟨x, hx, ?_⟩
  rw [hxv, mul_value, hN, value_num]
  simp only [value_expr, value_eq, Finset.sum_add_distrib, Finset.sum_const, Finset.card_range, nsmul_eq_mul]
  ring

/-- **C46.** A constant number of steps. -/
theorem C46_const (c : ℚ) (k : Nat) (N : Val ℚ) (ρ : Nat → ℚ) (n : Nat) (hN : Val.value ρ N = n) :
    ∃ x, seriesSum (.num c) k N = .ok x ∧
      Val.value ρ x = ∑ i ∈ Finset.range n, Val.value (Function.update ρ k (i : ℚ)) (.num c) := by
  refine ⟨_, rfl, ?_⟩
  rw [mul_value, hN, value_num]
  simp only [value_num, Finset.sum_const, Finset.card_range, nsmul_eq_mul]; ring

/-- `3 k^2 + 2 k y + k + 4`, with `k = 0` and `y = 1`. -/
def steps : Expr ℚ := ⟨[⟨[⟨0, 1⟩], 1⟩, ⟨[⟨0, 2⟩], 3⟩, ⟨[⟨0, 1⟩, ⟨1, 1⟩], 2⟩], 4⟩

example : Summable 0 (.num 5) steps := by
  refine ⟨⟨?_, ?_, ?_⟩, ?_, Or.inl ?_⟩
  · intro t ht
    simp only [steps, List.mem_cons, List.not_mem_nil, or_false] at ht
    rcases ht with rfl | rfl | rfl <;> exact ⟨by simp, by simp, by simp⟩
  · simp only [steps]; decide
  · intro t ht
    simp only [steps, List.mem_cons, List.not_mem_nil, or_false] at ht
    rcases ht with rfl | rfl | rfl <;> simp
  · intro t ht vp hvp hk
    simp only [steps, List.mem_cons, List.not_mem_nil, or_false] at ht
    rcases ht with rfl | rfl | rfl <;> simp at hvp <;> simp_all
    rcases hvp with rfl | rfl <;> simp
  · intro t ht
    simp only [steps, List.mem_cons, List.not_mem_nil, or_false] at ht
    rcases ht with rfl | rfl | rfl
    · exact ⟨1, by simp⟩
    · exact ⟨3, by simp⟩
    · exact ⟨2, by simp⟩

example : seriesSum (.expr steps) 0 (.num 5) = .ok (.expr ⟨[⟨[⟨1, 1⟩], 20⟩], 120⟩) := by decide +kernel

/-- The full claim is false.  The sum of `2 k^3` over `k = 0, 1` is 2, the closed form gives 4. -/
theorem C46_wrong_cubic : seriesSum (.expr ⟨[⟨[⟨0, 3⟩], 2⟩], 0⟩) 0 (.num 2) = .ok (.num 4) ∧
    (∑ i ∈ Finset.range 2, Val.value (Function.update (fun _ => 0) 0 (i : ℚ)) (.expr ⟨[⟨[⟨0, 3⟩], 2⟩], 0⟩)) = 2 := by
  refine ⟨by decide +kernel, ?_⟩
  simp [Finset.sum_range_succ, value_expr, value_eq, Term.value, monomial]

/-- The full claim is false.  The sum of `(k^2 - k) / 2` over `k = 0, 1` is 0, the closed form gives -1. -/
theorem C46_wrong_fraction :
    seriesSum (.expr ⟨[⟨[⟨0, 1⟩], -1/2⟩, ⟨[⟨0, 2⟩], 1/2⟩], 0⟩) 0 (.num 2) = .ok (.num (-1)) ∧
    (∑ i ∈ Finset.range 2, Val.value (Function.update (fun _ => 0) 0 (i : ℚ))
      (.expr ⟨[⟨[⟨0, 1⟩], -1/2⟩, ⟨[⟨0, 2⟩], 1/2⟩], 0⟩)) = 0 := by
  refine ⟨by decide +kernel, ?_⟩
  simp [Finset.sum_range_succ, value_expr, value_eq, Term.value, monomial]
  norm_num

/-- Higher powers are refused. -/
theorem C46_refuses : seriesSum (.expr ⟨[⟨[⟨0, 4⟩], 1⟩], 0⟩) 0 (.num 2) = .error .notImplemented := by decide +kernel

end Props

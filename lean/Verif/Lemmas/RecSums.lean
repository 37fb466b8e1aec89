import Verif.Spec.RecursiveSums
import Verif.Lemmas.Series
import Verif.Lemmas.ProverExpr

/-! # The exact sum -/

namespace Model.Recursive
open Spec Model Model.Expr Model.Prover Model.Series

theorem monomial_split (ρ : Nat → ℚ) (k : Nat) (i : ℚ) : ∀ vs : List VarPow, monomial (Function.update ρ k i) vs =
    monomial ρ (vs.filter (·.var ≠ k)) * i ^ ((vs.filter (·.var = k)).map (·.pow)).sum
  | [] => by simp [monomial]
  | v :: vs => by
    have ih := monomial_split ρ k i vs
    have hc : ∀ (ρ : Nat → ℚ) v vs, monomial ρ (v :: vs) = ρ v.var ^ v.pow * monomial ρ vs := fun ρ v vs => by simp [monomial]
    by_cases h : v.var = k
    · rw [hc, ih, List.filter_cons_of_neg (by simpa using h), List.filter_cons_of_pos (by simpa using h), h, Function.update_self,
        List.map_cons, List.sum_cons, pow_add]
      ring
    · rw [hc, ih, List.filter_cons_of_pos (by simpa using h), List.filter_cons_of_neg (by simpa using h), hc,
        Function.update_of_ne h]
      ring

theorem exactTerm_value {t : Term ℚ} {k : Nat} {N x : W} (h : exactTerm t k N = .ok x) (ρ : Nat → ℚ) (n : Nat)
    (hN : Val.value ρ N = n) : Val.value ρ x = ∑ i ∈ Finset.range n, Term.value (Function.update ρ k (i : ℚ)) t := by
  have hr : ∀ i : Nat, Term.value (Function.update ρ k (i : ℚ)) t =
      t.coef * monomial ρ (t.vars.filter (·.var ≠ k)) * (i : ℚ) ^ ((t.vars.filter (·.var = k)).map (·.pow)).sum := by
    intro i
    unfold Term.value
    rw [monomial_split]
    ring
  rw [Finset.sum_congr rfl (fun i _ => hr i), ← Finset.mul_sum]
  have hrest : Val.value ρ (if t.vars.filter (·.var ≠ k) = [] then (.num t.coef : W)
      else .expr ⟨[⟨t.vars.filter (·.var ≠ k), t.coef⟩], 0⟩) = t.coef * monomial ρ (t.vars.filter (·.var ≠ k)) := by
    split
    · next h => rw [h]; simp [monomial, value_num]
    · rw [value_expr, value_eq]; simp [Term.value]
  unfold exactTerm at h
  simp only at h
  generalize (if t.vars.filter (·.var ≠ k) = [] then (.num t.coef : W)
      else .expr ⟨[⟨t.vars.filter (·.var ≠ k), t.coef⟩], 0⟩) = rest at h hrest
  generalize ((t.vars.filter (·.var = k)).map (·.pow)).sum = p at h ⊢
  split at h
  · next hp =>
    subst hp
    cases h
    rw [mul_value, hrest, hN]; simp
  split at h
  · next hp =>
    subst hp
    cases h
    simp only [pow_one, sum1]
    rw [mul_value, mul_value, mul_value, sub_value, hrest, hN, value_num, value_num]; ring
  split at h
  · next hp =>
    subst hp
    cases h
    simp only [sum2]
    rw [mul_value, mul_value, mul_value, mul_value, sub_value, sub_value, mul_value, hrest, hN, value_num, value_num, value_num]; ring
  split at h
  · next hp =>
    subst hp
    cases h
    simp only [sum3]
    rw [mul_value, pow_value, mul_value, mul_value, sub_value, hrest, hN, value_num, value_num]; ring
  · cases h

theorem exactLoop_value {k : Nat} {N : W} (ρ : Nat → ℚ) (n : Nat) (hN : Val.value ρ N = n) : ∀ (ts : List (Term ℚ)) (total x : W),
    exactLoop k N ts total = .ok x →
    Val.value ρ x = Val.value ρ total + ∑ i ∈ Finset.range n, termsValue (Function.update ρ k (i : ℚ)) ts
  | [], total, x, h => by cases h; simp
  | t :: ts, total, x, h => by
    unfold exactLoop at h
    split at h
    · cases h
    next v hv =>
    rw [exactLoop_value ρ n hN ts _ x h, add_value, exactTerm_value hv ρ n hN]
    simp only [termsValue_cons, Finset.sum_add_distrib]
    ring

/-- **The exact sum is right.** -/
theorem exact_right : @SumsRight exactSums := by
  intro each k N total h ρ n hN
  cases each with
  | num c =>
    cases h
    rw [mul_value, hN, value_num]
    simp [value_num]; ring
  | expr e =>
    have := exactLoop_value ρ n hN _ _ _ h
    rw [this, mul_value, value_num, hN]
    simp only [value_expr, value_eq, Finset.sum_add_distrib]
    simp; ring

/-- Substituting, whatever the expression. -/
theorem subst_any {K : Type} [CommRing K] [DecidableEq K] {subs : Nat → Option (Val K)} {a v : Val K}
    (hv : a.subst subs = .ok v) (ρ : Nat → K) : Val.value ρ v = Val.value (substAssign subs ρ) a := by
  match a with
  | .num k => cases hv; rfl
  | .expr e =>
    by_cases h : e.terms.isEmpty = true
    · rw [Val.subst, if_pos h] at hv
      cases hv
      have : e.terms = [] := by simpa using h
      simp [Val.value, Expr.value, this]
    · rw [Val.subst, if_neg h] at hv
      by_cases hne : ∀ t ∈ e.terms, t.vars ≠ []
      · obtain ⟨w, hw, hwv⟩ := substSum_value subs ρ e.terms (.num 0) hne
        simp only [Expr.subst, hw, Except.ok.injEq] at hv
        subst hv
        rw [add_value, hwv]
        simp [Val.value, Expr.value, termsValue]
      · push Not at hne
        simp [Expr.subst, substSum_error subs e.terms (.num 0) hne] at hv

end Model.Recursive

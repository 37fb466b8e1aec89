import Verif.Model.Series
import Verif.Lemmas.ExprNormal
import Mathlib.Algebra.BigOperators.Intervals
import Mathlib.Algebra.BigOperators.Ring.Finset
import Mathlib.Tactic.Ring
import Mathlib.Tactic.NormNum
import Mathlib.Tactic.Push

set_option linter.unusedSectionVars false

/-! # Lemmas about `Model.Series` -/

namespace Model.Series
open Model.Expr Spec

theorem factorLoop_spec (k : Nat) : ∀ (vs : List VarPow) (p : Nat) (r : List VarPow), (vs.filter (·.var = k)).length ≤ 1 →
    (p ≠ 0 → ∀ v ∈ vs, v.var ≠ k) → (∀ v ∈ r, v.var ≠ k) →
    (∀ v ∈ (factorLoop k vs p r).2, v.var ≠ k) ∧
    ∀ ρ : Nat → ℚ, ρ k ^ (factorLoop k vs p r).1 * monomial ρ (factorLoop k vs p r).2 =
      ρ k ^ p * monomial ρ r * monomial ρ vs
  | [], p, r, _, _, hr => ⟨hr, fun ρ => by simp [factorLoop, monomial]⟩
  | v :: vs, p, r, h1, hp, hr => by
    unfold factorLoop
    have hc : ∀ (ρ : Nat → ℚ) v vs, monomial ρ (v :: vs) = ρ v.var ^ v.pow * monomial ρ vs := fun ρ v vs => by simp [monomial]
    split
    · next hv =>
      have hp0 : p = 0 := by
        by_contra h
        exact hp h v (by simp) hv
      subst hp0
      have hno : ∀ x ∈ vs, x.var ≠ k := by
        intro x hx hxk
        rw [List.filter_cons, if_pos (by simpa using hv)] at h1
        have : x ∈ vs.filter (·.var = k) := List.mem_filter.2 ⟨hx, by simpa using hxk⟩
        have := List.length_pos_of_mem this
        simp only [List.length_cons] at h1
        omega
      obtain ⟨i1, i2⟩ := factorLoop_spec k vs v.pow r
        (by have : vs.filter (·.var = k) = [] := by
              rw [List.filter_eq_nil_iff]; intro x hx; simpa using hno x hx
            rw [this]; simp) (fun _ => hno) hr
      refine ⟨i1, fun ρ => ?_⟩
      rw [i2 ρ, hc, hv]; ring
    · next hv =>
      obtain ⟨i1, i2⟩ := factorLoop_spec k vs p (r ++ [v])
        (by rw [List.filter_cons, if_neg (by simpa using hv)] at h1; exact h1)
        (fun h x hx => hp h x (by simp [hx]))
        (by intro x hx
            rcases List.mem_append.1 hx with hx | hx
            · exact hr x hx
            · simp only [List.mem_singleton] at hx; subst hx; exact hv)
      refine ⟨i1, fun ρ => ?_⟩
      rw [i2 ρ, hc]
      simp [monomial]; ring

theorem filter_le_one {vs : List VarPow} (h : vs.Pairwise (fun a b => a.var < b.var)) (k : Nat) :
    (vs.filter (·.var = k)).length ≤ 1 := by
  have hp := h.filter (p := fun x => decide (x.var = k))
  have hm : ∀ x ∈ vs.filter (·.var = k), x.var = k := fun x hx => by simpa using (List.mem_filter.1 hx).2
  generalize vs.filter (·.var = k) = l at *
  match l with
  | [] => simp
  | [x] => simp
  | x :: y :: l =>
    have h1 := (List.pairwise_cons.1 hp).1 y (by simp)
    have h2 := hm x (by simp)
    have h3 := hm y (by simp)
    omega

/-- The power of `k` in a product of powers. -/
def powOf (k : Nat) (vs : List VarPow) : Nat := (factorLoop k vs 0 []).1

theorem monomial_update {ρ : Nat → ℚ} {k : Nat} {vs : List VarPow} (h : ∀ v ∈ vs, v.var ≠ k) (i : ℚ) :
    monomial (Function.update ρ k i) vs = monomial ρ vs := by
  unfold monomial
  congr 1
  apply List.map_congr_left
  intro v hv
  rw [Function.update_of_ne (h v hv)]

/-- The factor of a term that does not depend on `k`. -/
def restValue (ρ : Nat → ℚ) (k : Nat) (t : Term ℚ) : ℚ := t.coef * monomial ρ (factorLoop k t.vars 0 []).2

theorem factorVar_value (ρ : Nat → ℚ) (k : Nat) (t : Term ℚ) :
    (factorVar t k).1 = powOf k t.vars ∧ Val.value ρ (factorVar t k).2 = restValue ρ k t := by
  unfold factorVar restValue powOf
  dsimp only
  split
  · refine ⟨rfl, ?_⟩
    rw [value_expr, value_eq]
    simp [Term.value]
  · next h =>
    refine ⟨rfl, ?_⟩
    have : (factorLoop k t.vars 0 []).2 = [] := by simpa using h
    rw [value_num, this]
    simp [monomial]

theorem term_update {ρ : Nat → ℚ} {k : Nat} {t : Term ℚ} (h : VarsNormal t.vars) (i : ℚ) :
    Term.value (Function.update ρ k i) t = restValue ρ k t * i ^ powOf k t.vars := by
  obtain ⟨h1, h2⟩ := factorLoop_spec k t.vars 0 [] (filter_le_one h.sorted k) (by simp) (by simp)
  have h3 := h2 (Function.update ρ k i)
  rw [Function.update_self, monomial_update h1] at h3
  unfold Term.value restValue powOf
  simp only [pow_zero, monomial, List.map_nil, List.prod_nil, one_mul] at h3
  unfold monomial
  rw [← h3]; ring

theorem sum1 (n : Nat) : (∑ i ∈ Finset.range n, (i : ℚ)) = n * (n - 1) / 2 := by
  induction n with
  | zero => simp
  | succ n ih => rw [Finset.sum_range_succ, ih]; push_cast; ring

theorem sum2 (n : Nat) : (∑ i ∈ Finset.range n, (i : ℚ) ^ 2) = n * (n - 1) * (2 * n - 1) / 6 := by
  induction n with
  | zero => simp
  | succ n ih => rw [Finset.sum_range_succ, ih]; push_cast; ring

theorem sum3 (n : Nat) : (∑ i ∈ Finset.range n, (i : ℚ) ^ 3) = (n * (n - 1) / 2) ^ 2 := by
  induction n with
  | zero => simp
  | succ n ih => rw [Finset.sum_range_succ, ih]; push_cast; ring

theorem floorDiv_value (ρ : Nat → ℚ) (x : Val ℚ) (n : Nat) (hn : 0 < n)
    (h : ∀ a, x = .num a → ∃ z : Int, a = n * z) :
    ∃ q, floorDiv x n = .ok q ∧ Val.value ρ q = Val.value ρ x / n ∧ (∀ a, q = .num a → ∃ b, x = .num b) := by
  have hn' : (n : ℚ) ≠ 0 := by positivity
  match x with
  | .num a =>
    obtain ⟨z, hz⟩ := h a rfl
    refine ⟨_, rfl, ?_, fun _ _ => ⟨a, rfl⟩⟩
    rw [value_num, value_num, hz, mul_div_cancel_left₀ _ hn']
    exact_mod_cast Rat.floor_intCast z
  | .expr e =>
    obtain ⟨q, hq, hv⟩ := divS_value ρ e (n : ℚ) hn'
    refine ⟨.expr q, ?_, ?_, fun a ha => by cases ha⟩
    · simp only [floorDiv, hq]
    · exact hv

/-- Products and differences of values are scalars only if the arguments are. -/
theorem mul_num {a b : Val ℚ} {c : ℚ} (h : a.mul b = .num c) : ∃ x y, a = .num x ∧ b = .num y ∧ c = x * y := by
  match a, b with
  | .num x, .num y => exact ⟨x, y, rfl, rfl, by simpa [Val.mul] using h.symm⟩
  | .num _, .expr _ => simp [Val.mul] at h
  | .expr _, .num _ => simp [Val.mul] at h
  | .expr _, .expr _ => simp [Val.mul] at h

/-- What the theorem needs about a term: at most the second power of `k` or just `k^3` with coefficient 1; and integer
coefficients if the sum is done in integers. -/
structure TermOk (k : Nat) (N : Val ℚ) (t : Term ℚ) : Prop where
  normal : VarsNormal t.vars
  deg : powOf k t.vars ≤ 2 ∨ powOf k t.vars = 3 ∧ t.coef = 1 ∧ (factorLoop k t.vars 0 []).2 = []
  int : (∃ z : Int, t.coef = z) ∨ ∃ e, N = .expr e

theorem factorVar_num {t : Term ℚ} {k : Nat} {c : ℚ} (h : (factorVar t k).2 = .num c) : c = t.coef := by
  unfold factorVar at h
  dsimp only at h
  split at h
  · cases h
  · cases h; rfl

theorem even_prod (n : Nat) : ∃ z : Int, (n : ℚ) * (n - 1) = 2 * z := by
  refine ⟨∑ i ∈ Finset.range n, (i : Int), ?_⟩
  have := sum1 n
  push_cast
  rw [this]; ring

theorem six_prod (n : Nat) : ∃ z : Int, (n : ℚ) * (n - 1) * (2 * n - 1) = 6 * z := by
  refine ⟨∑ i ∈ Finset.range n, (i : Int) ^ 2, ?_⟩
  have := sum2 n
  push_cast
  rw [this]; ring

theorem termSeries_value {k : Nat} {N : Val ℚ} {t : Term ℚ} (h : TermOk k N t) (ρ : Nat → ℚ) (n : Nat)
    (hN : Val.value ρ N = n) :
    ∃ x, termSeries t k N = .ok x ∧
      Val.value ρ x = ∑ i ∈ Finset.range n, Term.value (Function.update ρ k (i : ℚ)) t := by
  have hterm : ∀ i : Nat, Term.value (Function.update ρ k (i : ℚ)) t = restValue ρ k t * (i : ℚ) ^ powOf k t.vars :=
    fun i => term_update h.normal _
  simp only [hterm, ← Finset.mul_sum]
  obtain ⟨hp, hr⟩ := factorVar_value ρ k t
  have hint : ∀ c a, (factorVar t k).2 = .num c → N = .num a → (∃ z : Int, c = z) ∧ a = n := by
    intro c a hc ha
    refine ⟨?_, by rw [ha] at hN; exact hN⟩
    rcases h.int with ⟨z, hz⟩ | ⟨e, he⟩
    · exact ⟨z, by rw [factorVar_num hc, hz]⟩
    · rw [he] at ha; cases ha
  have hprod : Val.value ρ (((factorVar t k).2.mul N).mul (N.sub (.num 1))) = restValue ρ k t * n * (n - 1) := by
    rw [mul_value, mul_value, sub_value, hr, hN, value_num]
  have hprodnum : ∀ a, ((factorVar t k).2.mul N).mul (N.sub (.num 1)) = .num a → ∃ z : Int, a = (2 : Nat) * z := by
    intro a ha
    obtain ⟨x, y, hx, hy, hxy⟩ := mul_num ha
    obtain ⟨c, b, hc, hb, hcb⟩ := mul_num hx
    obtain ⟨⟨z, hz⟩, hbn⟩ := hint c b hc hb
    obtain ⟨w, hw⟩ := even_prod n
    refine ⟨z * w, ?_⟩
    rw [hb] at hy
    simp only [Val.sub, Val.num.injEq] at hy
    rw [hxy, hcb, ← hy, hz, hbn]
    push_cast
    rw [show (2 : ℚ) * (z * w) = z * (2 * w) by ring, ← hw]; ring
  unfold termSeries
  dsimp only
  rw [hp]
  rcases h.deg with hd | ⟨hd, hco, hre⟩
  · rcases (show powOf k t.vars = 0 ∨ powOf k t.vars = 1 ∨ powOf k t.vars = 2 by omega) with h0 | h0 | h0 <;> rw [h0]
    · refine ⟨_, rfl, ?_⟩
      rw [mul_value, hr, hN]; simp
    · obtain ⟨q, hq, hv, _⟩ := floorDiv_value ρ _ 2 (by omega) hprodnum
      refine ⟨q, hq, ?_⟩
      rw [hv, hprod]
      simp only [pow_one, sum1]; push_cast; ring
    · obtain ⟨q, hq, hv, _⟩ := floorDiv_value ρ
        ((((factorVar t k).2.mul N).mul (N.sub (.num 1))).mul (((Val.num 2).mul N).sub (.num 1))) 6 (by omega) (by
          intro a ha
          obtain ⟨u, v, hu, hv, huv⟩ := mul_num ha
          obtain ⟨x, y, hx, hy, hxy⟩ := mul_num hu
          obtain ⟨c, b, hc, hb, hcb⟩ := mul_num hx
          obtain ⟨⟨z, hz⟩, hbn⟩ := hint c b hc hb
          obtain ⟨w, hw⟩ := six_prod n
          refine ⟨z * w, ?_⟩
          rw [hb] at hy hv
          simp only [Val.sub, Val.mul, Val.num.injEq] at hy hv
          rw [huv, hxy, hcb, ← hy, ← hv, hz, hbn]
          push_cast
          rw [show (6 : ℚ) * (z * w) = z * (6 * w) by ring, ← hw]; ring)
      refine ⟨q, hq, ?_⟩
      rw [hv, mul_value, hprod, sub_value, mul_value, hN, value_num, value_num]
      simp only [sum2]; push_cast; ring
  · rw [hd]
    obtain ⟨q, hq, hv, _⟩ := floorDiv_value ρ _ 2 (by omega) hprodnum
    simp only [hq]
    refine ⟨q.pow 2, rfl, ?_⟩
    have hone : restValue ρ k t = 1 := by
      unfold restValue; rw [hco, hre]; simp [monomial]
    rw [pow_value, hv, hprod, hone, sum3]; push_cast; ring

theorem seriesLoop_value {k : Nat} {N : Val ℚ} (ρ : Nat → ℚ) (n : Nat) (hN : Val.value ρ N = n) :
    ∀ (ts : List (Term ℚ)), (∀ t ∈ ts, TermOk k N t) → ∀ total : Val ℚ,
    ∃ x, seriesLoop k N ts total = .ok x ∧
      Val.value ρ x = Val.value ρ total + ∑ i ∈ Finset.range n, termsValue (Function.update ρ k (i : ℚ)) ts
  | [], _, total => ⟨total, rfl, by simp⟩
  | t :: ts, h, total => by
    obtain ⟨x, hx, hxv⟩ := termSeries_value (h t (by simp)) ρ n hN
    obtain ⟨y, hy, hyv⟩ := seriesLoop_value ρ n hN ts (fun t ht => h t (by simp [ht])) (total.add x)
    refine ⟨y, ?_, ?_⟩
    · unfold seriesLoop; rw [hx]; exact hy
    · rw [hyv, add_value, hxv]
      simp only [termsValue_cons, Finset.sum_add_distrib]; ring

end Model.Series

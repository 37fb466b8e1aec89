import Verif.Spec.Expr
import Mathlib.Tactic.Ring
import Mathlib.Tactic.Linarith
import Mathlib.Tactic.LinearCombination
import Mathlib.Tactic.FieldSimp
import Mathlib.Algebra.Order.BigOperators.Group.List
import Mathlib.Algebra.BigOperators.Group.List.Basic
import Mathlib.Algebra.MvPolynomial.Funext

set_option linter.unusedSectionVars false

/-! # Lemmas about `Model.Expr` -/

namespace Model.Expr
open Spec

theorem compareVars_eq_zero : ∀ l : List (VarPow × VarPow), compareVars l = 0 ↔ ∀ x ∈ l, x.1 = x.2
  | [] => by simp [compareVars]
  | (a, b) :: l => by
    unfold compareVars
    have ih := compareVars_eq_zero l
    constructor
    · intro h
      split at h; · omega
      split at h; · omega
      split at h; · omega
      split at h; · omega
      intro x hx
      rcases List.mem_cons.1 hx with rfl | hx
      · cases a; cases b; simp only [VarPow.mk.injEq] at *; omega
      · exact ih.1 h x hx
    · intro h
      have : a = b := h (a, b) (by simp)
      subst this
      simp only [Nat.lt_irrefl, if_false, gt_iff_lt]
      exact ih.2 (fun x hx => h x (by simp [hx]))

theorem zip_eq : ∀ a b : List VarPow, a.length = b.length → (∀ x ∈ a.zip b, x.1 = x.2) → a = b
  | [], [], _, _ => rfl
  | x :: a, y :: b, hl, h => by
    have : x = y := h (x, y) (by simp)
    rw [this, zip_eq a b (by simpa using hl) (fun z hz => h z (by simp [hz]))]
  | [], _ :: _, hl, _ => by simp at hl
  | _ :: _, [], hl, _ => by simp at hl

theorem compareTerms_eq_zero {a b : List VarPow} : compareTerms a b = 0 ↔ a = b := by
  unfold compareTerms
  constructor
  · intro h
    split at h; · omega
    split at h; · omega
    exact zip_eq a b (by omega) ((compareVars_eq_zero _).1 h)
  · rintro rfl
    simp only [Nat.lt_irrefl, if_false, gt_iff_lt]
    refine (compareVars_eq_zero _).2 ?_
    intro x hx
    have := List.of_mem_zip hx
    clear this
    induction a with
    | nil => simp at hx
    | cons y a ih =>
      simp only [List.zip_cons_cons, List.mem_cons] at hx
      rcases hx with rfl | hx
      · rfl
      · exact ih hx

section ring
variable {K : Type} [CommRing K] [DecidableEq K]

/-- The value of a list of terms. -/
def termsValue (ρ : Nat → K) (ts : List (Term K)) : K := (ts.map (Term.value ρ)).sum

@[simp] theorem termsValue_nil (ρ : Nat → K) : termsValue ρ [] = 0 := rfl
@[simp] theorem termsValue_cons (ρ : Nat → K) (t ts) : termsValue ρ (t :: ts) = Term.value ρ t + termsValue ρ ts := by
  simp [termsValue]

theorem value_eq (ρ : Nat → K) (e : Expr K) : Expr.value ρ e = termsValue ρ e.terms + e.const := rfl

theorem value_num (ρ : Nat → K) (k : K) : Val.value ρ (.num k) = k := rfl
theorem value_expr (ρ : Nat → K) (e : Expr K) : Val.value ρ (.expr e) = Expr.value ρ e := rfl

theorem mergeTerm_value (ρ : Nat → K) (t1 : Term K) (rest1) (more : List (Term K) → List (Term K))
    (h : ∀ ys, termsValue ρ (more ys) = termsValue ρ rest1 + termsValue ρ ys) :
    ∀ ys, termsValue ρ (mergeTerm t1 rest1 more ys) = Term.value ρ t1 + termsValue ρ rest1 + termsValue ρ ys
  | [] => by simp [mergeTerm]
  | t2 :: ys => by
    unfold mergeTerm
    dsimp only
    split
    · next hc =>
      have hv := compareTerms_eq_zero.1 hc
      split
      · rw [termsValue_cons, h, termsValue_cons]
        simp only [Term.value, hv]
        ring
      · next hz =>
        rw [h, termsValue_cons]
        have hz : t1.coef + t2.coef = 0 := by simpa using hz
        simp only [Term.value, hv]
        linear_combination (-monomial ρ t2.vars) * hz
    · split
      · rw [termsValue_cons, h]; ring
      · rw [termsValue_cons, mergeTerm_value ρ t1 rest1 more h ys, termsValue_cons]; ring

theorem termSum_value (ρ : Nat → K) : ∀ xs ys : List (Term K), termsValue ρ (termSum xs ys) = termsValue ρ xs + termsValue ρ ys
  | [], ys => by simp [termSum]
  | x :: xs, ys => by
    unfold termSum
    rw [mergeTerm_value ρ x xs _ (termSum_value ρ xs), termsValue_cons]

theorem mergeVar_value (ρ : Nat → K) (v1 : VarPow) (rest1) (more : List VarPow → List VarPow)
    (h : ∀ ys, monomial ρ (more ys) = monomial ρ rest1 * monomial ρ ys) :
    ∀ ys, monomial ρ (mergeVar v1 rest1 more ys) = ρ v1.var ^ v1.pow * monomial ρ rest1 * monomial ρ ys
  | [] => by simp [mergeVar, monomial]
  | v2 :: ys => by
    have hc : ∀ v vs, monomial ρ (v :: vs) = ρ v.var ^ v.pow * monomial ρ vs := fun v vs => by simp [monomial]
    unfold mergeVar
    split
    · rw [hc, h]; ring
    · split
      · rw [hc, mergeVar_value ρ v1 rest1 more h ys, hc]; ring
      · have : v1.var = v2.var := by omega
        rw [hc, h, hc]
        simp only [this, pow_add]; ring

theorem varsProd_value (ρ : Nat → K) : ∀ xs ys, monomial ρ (varsProd xs ys) = monomial ρ xs * monomial ρ ys
  | [], ys => by simp [varsProd, monomial]
  | x :: xs, ys => by
    unfold varsProd
    rw [mergeVar_value ρ x xs _ (varsProd_value ρ xs)]
    simp [monomial]

theorem addE_value (ρ : Nat → K) (a b : Expr K) : Expr.value ρ (addE a b) = Expr.value ρ a + Expr.value ρ b := by
  simp only [value_eq, addE, termSum_value]; ring

theorem addS_value (ρ : Nat → K) (a : Expr K) (k : K) : Expr.value ρ (addS a k) = Expr.value ρ a + k := by
  simp only [value_eq, addS]; ring

theorem termsValue_scale (ρ : Nat → K) (k : K) : ∀ ts : List (Term K),
    termsValue ρ (ts.map (fun t => ⟨t.vars, t.coef * k⟩)) = termsValue ρ ts * k
  | [] => by simp
  | t :: ts => by
    rw [List.map_cons, termsValue_cons, termsValue_scale ρ k ts, termsValue_cons]
    simp only [Term.value]; ring

theorem mulS_value (ρ : Nat → K) (a : Expr K) (k : K) : Expr.value ρ (mulS a k) = Expr.value ρ a * k := by
  unfold mulS
  split
  · next h => simp [value_eq, h]
  · simp only [value_eq, termsValue_scale]; ring

theorem inner_value (ρ : Nat → K) (t1 : Term K) : ∀ (ts : List (Term K)) (acc : Expr K),
    Expr.value ρ (ts.foldl (fun acc t2 => addE acc ⟨[⟨varsProd t1.vars t2.vars, t1.coef * t2.coef⟩], 0⟩) acc) =
      Expr.value ρ acc + Term.value ρ t1 * termsValue ρ ts
  | [], acc => by simp
  | t :: ts, acc => by
    rw [List.foldl_cons, inner_value ρ t1 ts, addE_value, termsValue_cons]
    simp only [value_eq, termsValue_cons, termsValue_nil, Term.value, varsProd_value]
    ring

theorem outer_value (ρ : Nat → K) (e2 : Expr K) : ∀ (ts : List (Term K)) (acc : Expr K),
    Expr.value ρ (ts.foldl (fun acc t1 =>
      addE (e2.terms.foldl (fun acc t2 => addE acc ⟨[⟨varsProd t1.vars t2.vars, t1.coef * t2.coef⟩], 0⟩) acc)
        (mulS ⟨[t1], 0⟩ e2.const)) acc) = Expr.value ρ acc + termsValue ρ ts * Expr.value ρ e2
  | [], acc => by simp
  | t :: ts, acc => by
    rw [List.foldl_cons, outer_value ρ e2 ts, addE_value, inner_value, mulS_value, termsValue_cons]
    simp only [value_eq, termsValue_cons, termsValue_nil]
    ring

theorem mulE_value (ρ : Nat → K) (a b : Expr K) : Expr.value ρ (mulE a b) = Expr.value ρ a * Expr.value ρ b := by
  unfold mulE
  rw [addE_value, outer_value, mulS_value]
  simp only [value_eq, termsValue_nil]
  ring

theorem add_value (ρ : Nat → K) : ∀ a b : Val K, Val.value ρ (a.add b) = Val.value ρ a + Val.value ρ b
  | .num a, .num b => rfl
  | .num a, .expr e => by simp only [Val.add, value_num, value_expr, addS_value]; ring
  | .expr e, .num b => by simp only [Val.add, value_num, value_expr, addS_value]
  | .expr e, .expr f => by simp only [Val.add, value_num, value_expr, addE_value]

theorem mul_value (ρ : Nat → K) : ∀ a b : Val K, Val.value ρ (a.mul b) = Val.value ρ a * Val.value ρ b
  | .num a, .num b => rfl
  | .num a, .expr e => by simp only [Val.mul, value_num, value_expr, mulS_value]; ring
  | .expr e, .num b => by simp only [Val.mul, value_num, value_expr, mulS_value]
  | .expr e, .expr f => by simp only [Val.mul, value_num, value_expr, mulE_value]

theorem neg_value (ρ : Nat → K) : ∀ a : Val K, Val.value ρ a.neg = - Val.value ρ a
  | .num a => rfl
  | .expr e => by simp only [Val.neg, value_num, value_expr, mulS_value]; ring

theorem sub_value (ρ : Nat → K) : ∀ a b : Val K, Val.value ρ (a.sub b) = Val.value ρ a - Val.value ρ b
  | .num a, .num b => rfl
  | .num a, .expr e => by simp only [Val.sub, value_num, value_expr, mulS_value, addS_value]; ring
  | .expr e, y => by simp only [Val.sub, add_value, neg_value]; ring

theorem powLoop_value (ρ : Nat → K) (e : Expr K) : ∀ n acc, Val.value ρ (powLoop e n acc) = Val.value ρ acc * Expr.value ρ e ^ n
  | 0, acc => by simp [powLoop]
  | n + 1, acc => by
    rw [powLoop, powLoop_value ρ e n, mul_value, pow_succ]
    simp only [value_num, value_expr]; ring

theorem pow_value (ρ : Nat → K) : ∀ (a : Val K) (n : Nat), Val.value ρ (a.pow n) = Val.value ρ a ^ n
  | .num a, n => rfl
  | .expr e, n => by simp only [Val.pow, powLoop_value, value_num, value_expr]; ring

theorem varE_value (ρ : Nat → K) (v : Nat) : Expr.value ρ (varE v) = ρ v := by
  simp [varE, value_eq, Term.value, monomial]

/-- The assignment that a substitution followed by `ρ` amounts to. -/
def substAssign (subs : Nat → Option (Val K)) (ρ : Nat → K) (v : Nat) : K :=
  match subs v with
  | some x => Val.value ρ x
  | none => ρ v

theorem varPow_subst_value (subs : Nat → Option (Val K)) (ρ : Nat → K) (vp : VarPow) :
    Val.value ρ (vp.subst subs) = substAssign subs ρ vp.var ^ vp.pow := by
  unfold VarPow.subst substAssign
  cases subs vp.var with
  | some x =>
    dsimp only
    split
    · next h => rw [h, pow_one]
    · rw [pow_value]
  | none => dsimp only; rw [pow_value]; simp only [value_num, value_expr, varE_value]

theorem foldl_mul_value (ρ : Nat → K) : ∀ (xs : List (Val K)) (x : Val K),
    Val.value ρ (xs.foldl Val.mul x) = Val.value ρ x * (xs.map (Val.value ρ)).prod
  | [], x => by simp
  | y :: xs, x => by rw [List.foldl_cons, foldl_mul_value ρ xs, mul_value]; simp; ring

theorem term_subst_value (subs : Nat → Option (Val K)) (ρ : Nat → K) (t : Term K) (h : t.vars ≠ []) :
    ∃ v, t.subst subs = .ok v ∧ Val.value ρ v = Term.value (substAssign subs ρ) t := by
  unfold Term.subst
  obtain ⟨x, xs, hx⟩ := List.exists_cons_of_ne_nil h
  rw [hx, List.map_cons]
  refine ⟨_, rfl, ?_⟩
  rw [mul_value, foldl_mul_value]
  simp only [value_num, value_expr, Term.value, hx, monomial, List.map_cons, List.prod_cons, varPow_subst_value, List.map_map]
  have : (Val.value ρ ∘ VarPow.subst subs) = fun vp => substAssign subs ρ vp.var ^ vp.pow := by
    funext vp; exact varPow_subst_value subs ρ vp
  rw [this]; ring

theorem substSum_value (subs : Nat → Option (Val K)) (ρ : Nat → K) : ∀ (ts : List (Term K)) (acc : Val K),
    (∀ t ∈ ts, t.vars ≠ []) →
    ∃ v, substSum subs ts acc = .ok v ∧ Val.value ρ v = Val.value ρ acc + termsValue (substAssign subs ρ) ts
  | [], acc, _ => ⟨acc, rfl, by simp⟩
  | t :: ts, acc, h => by
    obtain ⟨x, hx, hxv⟩ := term_subst_value subs ρ t (h t (by simp))
    obtain ⟨v, hv, hvv⟩ := substSum_value subs ρ ts (acc.add x) (fun t ht => h t (by simp [ht]))
    refine ⟨v, ?_, ?_⟩
    · unfold substSum; rw [hx]; exact hv
    · rw [hvv, add_value, hxv, termsValue_cons]; ring

theorem substSum_error (subs : Nat → Option (Val K)) : ∀ (ts : List (Term K)) (acc : Val K),
    (∃ t ∈ ts, t.vars = []) → substSum subs ts acc = .error .type
  | [], acc, h => by simp at h
  | t :: ts, acc, h => by
    unfold substSum
    by_cases ht : t.vars = []
    · simp [Term.subst, ht]
    · obtain ⟨x, xs, hx⟩ := List.exists_cons_of_ne_nil ht
      have : ∃ v, t.subst subs = .ok v := by unfold Term.subst; rw [hx]; exact ⟨_, rfl⟩
      obtain ⟨v, hv⟩ := this
      rw [hv]
      apply substSum_error subs ts
      obtain ⟨t', ht', h'⟩ := h
      rcases List.mem_cons.1 ht' with rfl | ht'
      · exact absurd h' ht
      · exact ⟨t', ht', h'⟩

theorem zero_test {d : Expr K} (h : (d.const = 0 && d.terms.all (fun t => t.coef = 0)) = true) (ρ : Nat → K) :
    Expr.value ρ d = 0 := by
  simp only [Bool.and_eq_true, decide_eq_true_eq, List.all_eq_true] at h
  rw [value_eq, h.1, add_zero]
  have h2 := h.2
  generalize d.terms = ts at h2
  induction ts with
  | nil => rfl
  | cons t ts ih =>
    rw [termsValue_cons, ih (fun t ht => h2 t (by simp [ht]))]
    have := h2 t (by simp)
    simp only [Term.value]
    rw [this]; ring

theorem vanishes_value {a : Val K} (h : a.vanishes = true) (ρ : Nat → K) : Val.value ρ a = 0 := by
  match a with
  | .num k => simpa [Val.vanishes, value_num, value_expr] using h
  | .expr d => exact zero_test h ρ

theorem eq_value {a b : Val K} (h : a.eq b = true) (ρ : Nat → K) : Val.value ρ a = Val.value ρ b := by
  match a, b with
  | .num a, .num b => simpa [Val.eq, value_num, value_expr] using h
  | .num a, .expr e =>
    have := vanishes_value (a := Val.sub (.expr e) (.num a)) h ρ
    rw [sub_value] at this
    exact (sub_eq_zero.1 this).symm
  | .expr e, y =>
    have := vanishes_value (a := Val.sub (.expr e) y) h ρ
    rw [sub_value] at this
    exact sub_eq_zero.1 this

end ring

section field
variable {K : Type} [Field K] [DecidableEq K]

theorem divS_value (ρ : Nat → K) (a : Expr K) (k : K) (hk : k ≠ 0) :
    ∃ q, divS a k = .ok q ∧ Expr.value ρ q = Expr.value ρ a / k := by
  unfold divS
  rw [if_neg hk]
  split
  · next h => exact ⟨a, rfl, by rw [h, div_one]⟩
  · refine ⟨_, rfl, ?_⟩
    have := termsValue_scale ρ (1 / k) a.terms
    simp only [value_eq]
    have h2 : (a.terms.map (fun t => (⟨t.vars, t.coef / k⟩ : Term K))) = a.terms.map (fun t => ⟨t.vars, t.coef * (1 / k)⟩) := by
      simp [div_eq_mul_inv]
    rw [h2, this]; ring

end field

section ordered
variable {K : Type} [CommRing K] [LinearOrder K] [IsStrictOrderedRing K]

theorem monomial_nonneg (ρ : Nat → K) (h : ∀ v, 0 ≤ ρ v) (vs : List VarPow) : 0 ≤ monomial ρ vs := by
  unfold monomial
  apply List.prod_nonneg
  intro x hx
  obtain ⟨v, _, rfl⟩ := List.mem_map.1 hx
  exact pow_nonneg (h _) _

theorem minVal_le (ρ : Nat → K) (h : ∀ v, 0 ≤ ρ v) : ∀ (x : Val K) (m : K), x.minVal = some m → m ≤ Val.value ρ x
  | .num k, m, hm => by simp only [Val.minVal, Option.some.injEq] at hm; simp [value_num, value_expr, hm]
  | .expr e, m, hm => by
    have key : (∀ t ∈ e.terms, 0 ≤ t.coef) ∧ e.const = m := by
      simp only [Val.minVal] at hm
      split at hm
      · next he =>
        rw [List.isEmpty_iff] at he
        simp only [Option.some.injEq] at hm
        exact ⟨by simp [he], hm⟩
      · unfold Expr.minVal at hm
        split at hm
        · cases hm
        · next hc =>
          simp only [Option.some.injEq] at hm
          refine ⟨fun t ht => ?_, hm⟩
          by_contra hlt
          exact hc (List.any_eq_true.2 ⟨t, ht, by simpa using hlt⟩)
    rw [value_expr, value_eq, ← key.2]
    have hc := key.1
    have : 0 ≤ termsValue ρ e.terms := by
      unfold termsValue
      apply List.sum_nonneg
      intro x hx
      obtain ⟨t, ht, rfl⟩ := List.mem_map.1 hx
      exact mul_nonneg (hc t ht) (monomial_nonneg ρ h _)
    linarith

end ordered

end Model.Expr

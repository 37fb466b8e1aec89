import Verif.Model.Prover
import Verif.Lemmas.ExprNormal

/-! # Linear expressions: what the prover computes with -/

namespace Model.Prover
open Spec Model Model.Expr

/-- Linear in variables with `P`. -/
def LinTerms {K : Type} (P : Nat → Prop) (ts : List (Term K)) : Prop := ∀ t ∈ ts, ∃ x, t.vars = [⟨x, 1⟩] ∧ P x

def LinIn {K : Type} (P : Nat → Prop) : Val K → Prop
  | .num _ => True
  | .expr e => LinTerms P e.terms

section ring
variable {K : Type} [CommRing K] [DecidableEq K]

theorem mergeTerm_lin {P : Nat → Prop} {t1 : Term K} {rest1 : List (Term K)} {more : List (Term K) → List (Term K)}
    (h1 : LinTerms P (t1 :: rest1)) (hm : ∀ ys, LinTerms P ys → LinTerms P (more ys)) :
    ∀ ys, LinTerms P ys → LinTerms P (mergeTerm t1 rest1 more ys)
  | [], _ => by simpa only [mergeTerm] using h1
  | t2 :: ys, hy => by
    have hy' : LinTerms P ys := fun t ht => hy t (by simp [ht])
    have h1' := h1 t1 (by simp)
    have h2' := hy t2 (by simp)
    unfold mergeTerm
    simp only
    have cons : ∀ (t : Term K) ts, (∃ x, t.vars = [⟨x, 1⟩] ∧ P x) → LinTerms P ts → LinTerms P (t :: ts) := by
      intro t ts ht hts u hu
      rcases List.mem_cons.1 hu with rfl | hu
      exacts [ht, hts u hu]
    split
    · split
      · exact cons _ _ h1' (hm _ hy')
      · exact hm _ hy'
    · split
      · exact cons _ _ h1' (hm _ hy)
      · exact cons _ _ h2' (mergeTerm_lin h1 hm ys hy')

theorem termSum_lin {P : Nat → Prop} : ∀ xs : List (Term K), LinTerms P xs → ∀ ys, LinTerms P ys →
    LinTerms P (termSum xs ys)
  | [], _, ys, hy => by simpa only [termSum] using hy
  | x :: xs, hx, ys, hy => by
    unfold termSum
    exact mergeTerm_lin hx (termSum_lin xs (fun t ht => hx t (by simp [ht]))) ys hy

theorem mulS_lin {P : Nat → Prop} {e : Expr K} (h : LinTerms P e.terms) (k : K) : LinTerms P (mulS e k).terms := by
  unfold mulS
  split
  · intro t ht; simp at ht
  · intro t ht
    obtain ⟨u, hu, rfl⟩ := List.mem_map.1 ht
    exact h u hu

theorem add_lin {P : Nat → Prop} {a b : Val K} (ha : LinIn P a) (hb : LinIn P b) : LinIn P (a.add b) := by
  match a, b with
  | .num _, .num _ => trivial
  | .num _, .expr e => exact hb
  | .expr e, .num _ => exact ha
  | .expr e, .expr f => exact termSum_lin _ ha _ hb

theorem neg_lin {P : Nat → Prop} {a : Val K} (ha : LinIn P a) : LinIn P a.neg := by
  match a with
  | .num _ => trivial
  | .expr e => exact mulS_lin ha _

theorem sub_lin {P : Nat → Prop} {a b : Val K} (ha : LinIn P a) (hb : LinIn P b) : LinIn P (a.sub b) := by
  match a, b with
  | .num _, .num _ => trivial
  | .num _, .expr e => exact mulS_lin hb _
  | .expr e, y => exact add_lin (a := .expr e) ha (neg_lin hb)

theorem mul_num_lin {P : Nat → Prop} {a : Val K} (ha : LinIn P a) (k : K) : LinIn P (a.mul (.num k)) := by
  match a with
  | .num _ => trivial
  | .expr e => exact mulS_lin ha _

theorem num_mul_lin {P : Nat → Prop} {a : Val K} (ha : LinIn P a) (k : K) : LinIn P ((Val.num k).mul a) := by
  match a with
  | .num _ => trivial
  | .expr e => exact mulS_lin ha _

theorem lin_mono {P Q : Nat → Prop} {a : Val K} (ha : LinIn P a) (h : ∀ x, P x → Q x) : LinIn Q a := by
  match a with
  | .num _ => trivial
  | .expr e => intro t ht; obtain ⟨x, h1, h2⟩ := ha t ht; exact ⟨x, h1, h x h2⟩

theorem lin_value_congr {P : Nat → Prop} {a : Val K} (ha : LinIn P a) {ρ ρ' : Nat → K} (h : ∀ x, P x → ρ x = ρ' x) :
    Val.value ρ a = Val.value ρ' a := by
  match a with
  | .num _ => rfl
  | .expr e =>
    simp only [Val.value, Expr.value]
    congr 2
    apply List.map_congr_left
    intro t ht
    obtain ⟨x, h1, h2⟩ := ha t ht
    simp [Term.value, h1, monomial, h x h2]

/-- value of a substituted expression; all variables replaced -/
theorem substSum_lin {P Q : Nat → Prop} {subs : Nat → Option (Val K)}
    (hs : ∀ x, P x → ∃ w, subs x = some w ∧ LinIn Q w) : ∀ (ts : List (Term K)), LinTerms P ts → ∀ acc, LinIn Q acc →
    ∀ v, substSum subs ts acc = .ok v → LinIn Q v
  | [], _, acc, ha, v, hv => by cases hv; exact ha
  | t :: ts, ht, acc, ha, v, hv => by
    obtain ⟨x, hx, hP⟩ := ht t (by simp)
    obtain ⟨w, hw, hQ⟩ := hs x hP
    have : t.subst subs = .ok (w.mul (.num t.coef)) := by
      simp [Term.subst, hx, VarPow.subst, hw]
    unfold substSum at hv
    rw [this] at hv
    exact substSum_lin hs ts (fun u hu => ht u (by simp [hu])) _ (add_lin ha (mul_num_lin hQ _)) v hv

theorem substSum_num {P : Nat → Prop} {subs : Nat → Option (Val K)}
    (hs : ∀ x, P x → ∃ k, subs x = some (.num k)) : ∀ (ts : List (Term K)), LinTerms P ts → ∀ acc : K,
    ∃ k, substSum subs ts (.num acc) = .ok (.num k)
  | [], _, acc => ⟨acc, rfl⟩
  | t :: ts, ht, acc => by
    obtain ⟨x, hx, hP⟩ := ht t (by simp)
    obtain ⟨w, hw⟩ := hs x hP
    have : t.subst subs = .ok (.num (w * t.coef)) := by
      simp [Term.subst, hx, VarPow.subst, hw, Val.mul]
    unfold substSum
    rw [this]
    exact substSum_num hs ts (fun u hu => ht u (by simp [hu])) _

/-- Substituting for all variables. -/
theorem subst_lin {P Q : Nat → Prop} {subs : Nat → Option (Val K)} {a : Val K} (ha : LinIn P a)
    (hs : ∀ x, P x → ∃ w, subs x = some w ∧ LinIn Q w) :
    ∃ v, a.subst subs = .ok v ∧ LinIn Q v ∧ ∀ ρ, Val.value ρ v = Val.value (substAssign subs ρ) a := by
  match a with
  | .num k => exact ⟨_, rfl, trivial, fun _ => rfl⟩
  | .expr e =>
    have hne : ∀ t ∈ e.terms, t.vars ≠ [] := by
      intro t ht; obtain ⟨x, hx, -⟩ := ha t ht; simp [hx]
    by_cases h : e.terms.isEmpty = true
    · rw [Val.subst, if_pos h]
      refine ⟨_, rfl, trivial, fun ρ => ?_⟩
      have : e.terms = [] := by simpa using h
      simp [Val.value, Expr.value, this]
    · obtain ⟨v, hv, -⟩ := substSum_value subs (fun _ => 0) e.terms (.num 0) hne
      have hl : LinIn Q v := substSum_lin hs e.terms ha (.num 0) trivial v hv
      refine ⟨v.add (.num e.const), ?_, add_lin hl trivial, fun ρ => ?_⟩
      · rw [Val.subst, if_neg h]; simp [Expr.subst, hv]
      · obtain ⟨v', hv', h2⟩ := substSum_value subs ρ e.terms (.num 0) hne
        rw [hv] at hv'
        cases hv'
        rw [add_value, h2]
        simp [Val.value, Expr.value, termsValue]

theorem subst_num {P : Nat → Prop} {subs : Nat → Option (Val K)} {a : Val K} (ha : LinIn P a)
    (hs : ∀ x, P x → ∃ k, subs x = some (.num k)) :
    ∃ k, a.subst subs = .ok (.num k) ∧ ∀ ρ, k = Val.value (substAssign subs ρ) a := by
  obtain ⟨v, hv, -, h2⟩ := subst_lin (Q := fun _ => True) ha (fun x hx => by
    obtain ⟨k, hk⟩ := hs x hx; exact ⟨_, hk, trivial⟩)
  match a with
  | .num k => exact ⟨_, rfl, fun _ => rfl⟩
  | .expr e =>
    by_cases h : e.terms.isEmpty = true
    · rw [Val.subst, if_pos h] at hv ⊢
      cases hv
      exact ⟨_, rfl, fun ρ => h2 ρ⟩
    · rw [Val.subst, if_neg h] at hv ⊢
      obtain ⟨k, hk⟩ := substSum_num hs e.terms ha 0
      have : e.subst subs = .ok (.num (k + e.const)) := by simp [Expr.subst, hk, Val.add]
      rw [this] at hv ⊢
      cases hv
      exact ⟨_, rfl, fun ρ => h2 ρ⟩

end ring

/-! ## Over the rationals -/

theorem toQ_value (ρ : Nat → Int) (v : V) : Val.value (fun x => (ρ x : ℚ)) v.toQ = ((Val.value ρ v : Int) : ℚ) := by
  match v with
  | .num k => rfl
  | .expr e =>
    simp only [Val.toQ, Val.value, Expr.value, Expr.toQ]
    push_cast
    congr 1
    induction e.terms with
    | nil => simp
    | cons t ts ih =>
      simp only [List.map_cons, List.sum_cons, Int.cast_add, ih]
      congr 1
      simp only [Term.value, monomial]
      push_cast
      congr 1
      induction t.vars with
      | nil => simp
      | cons v vs ih => simp [ih]

theorem toQ_lin {P : Nat → Prop} {v : V} (h : LinIn P v) : LinIn P v.toQ := by
  match v with
  | .num k => trivial
  | .expr e =>
    intro t ht
    obtain ⟨u, hu, rfl⟩ := List.mem_map.1 ht
    exact h u hu

/-! ## Counts -/

theorem varPlus_value (ρ : Nat → Int) (x : Nat) (c : Int) : Val.value ρ (.expr (varPlus x c)) = ρ x + c := by
  simp [Val.value, Expr.value, varPlus, Term.value, monomial]

@[simp] theorem variables_num (k : Int) : (Val.num k).variables = [] := rfl
@[simp] theorem variables_varPlus (x : Nat) (c : Int) : (Val.expr (varPlus x c)).variables = [x] := by
  simp [Val.variables, varPlus]
@[simp] theorem minVal_varPlus (x : Nat) (c : Int) : (Val.expr (varPlus x c)).minVal = some c := by
  simp [Val.minVal, Expr.minVal, varPlus]
@[simp] theorem restricted_varPlus (x : Nat) (c : Int) : (varPlus x c).variableRestricted = .ok x := by
  simp [Expr.variableRestricted, varPlus]
@[simp] theorem const_varPlus (x : Nat) (c : Int) : (varPlus x c).const = c := rfl

/-- A run length in a proof: a positive number or a variable plus a number. -/
inductive CountV : V → Prop
  | num (c : Int) (h : 1 ≤ c) : CountV (.num c)
  | var (x : Nat) (c : Int) : CountV (.expr (varPlus x c))

theorem count_lin {v : V} (h : CountV v) : LinIn (· ∈ v.variables) v := by
  cases h with
  | num c h => trivial
  | var x c =>
    intro t ht
    simp only [varPlus, List.mem_singleton] at ht
    subst ht
    exact ⟨x, rfl, by simp⟩

/-- Adding two run lengths with different variables: again one, or an expression with two variables. -/
theorem count_add {v w : V} (hv : CountV v) (hw : CountV w) (hd : ∀ x ∈ v.variables, x ∉ w.variables) :
    (CountV (v.add w) ∧ ((v.add w).variables = v.variables ++ w.variables)) ∨ 2 ≤ (v.add w).variables.length := by
  cases hv with
  | num c h =>
    cases hw with
    | num d h' => exact Or.inl ⟨.num _ (by omega), rfl⟩
    | var y d =>
      left
      have : (Val.num c).add (.expr (varPlus y d)) = .expr (varPlus y (d + c)) := rfl
      rw [this]; exact ⟨.var _ _, by simp⟩
  | var x c =>
    cases hw with
    | num d h' =>
      left
      have : (Val.expr (varPlus x c)).add (.num d) = .expr (varPlus x (c + d)) := rfl
      rw [this]; exact ⟨.var _ _, by simp⟩
    | var y d =>
      right
      have hxy : x ≠ y := by simpa using hd
      have : ∃ t1 t2 : Term Int, ∃ a b, ((Val.expr (varPlus x c)).add (.expr (varPlus y d))) = .expr ⟨[t1, t2], c + d⟩ ∧
          t1.vars = [⟨a, 1⟩] ∧ t2.vars = [⟨b, 1⟩] ∧ a ≠ b := by
        by_cases h : x < y
        · refine ⟨⟨[⟨x, 1⟩], 1⟩, ⟨[⟨y, 1⟩], 1⟩, x, y, ?_, rfl, rfl, hxy⟩
          simp [Val.add, addE, varPlus, termSum, mergeTerm, compareTerms, compareVars, h]
        · have h' : y < x := by omega
          refine ⟨⟨[⟨y, 1⟩], 1⟩, ⟨[⟨x, 1⟩], 1⟩, y, x, ?_, rfl, rfl, hxy.symm⟩
          simp [Val.add, addE, varPlus, termSum, mergeTerm, compareTerms, compareVars, h']
          rw [if_neg (by omega), if_neg (by omega)]
      obtain ⟨t1, t2, a, b, e, h1, h2, hab⟩ := this
      rw [e]
      simp only [Val.variables, List.flatMap_cons, h1, h2, List.map_cons, List.map_nil, List.flatMap_nil,
        List.append_nil, List.singleton_append]
      rw [List.dedup_cons_of_notMem (by simpa using hab)]
      simp

/-- Taking one away from a run length. -/
theorem count_pred {v : V} (h : CountV v) :
    (valOps.isZero (valOps.sub v (valOps.ofNat 1)) = true) ∧ v = .num 1 ∨
    (valOps.isZero (valOps.sub v (valOps.ofNat 1)) = false) ∧ CountV (valOps.sub v (valOps.ofNat 1)) ∧
      (valOps.sub v (valOps.ofNat 1)).variables = v.variables := by
  cases h with
  | num c h =>
    by_cases h1 : c = 1
    · left; subst h1; simp [valOps, Val.sub, Val.eq]
    · right
      have e : valOps.sub (.num c) (valOps.ofNat 1) = .num (c - 1) := rfl
      rw [e]
      refine ⟨?_, .num _ (by omega), rfl⟩
      simp [valOps, Val.eq]; omega
  | var x c =>
    right
    have e : valOps.sub (.expr (varPlus x c)) (valOps.ofNat 1) = .expr (varPlus x (c + -1)) := rfl
    rw [e]
    refine ⟨?_, .var _ _, by simp⟩
    simp [valOps, Val.eq, Val.sub, Val.neg, Val.add, addS, varPlus, Val.vanishes]

theorem count_isOne {v : V} (h : CountV v) : valIsOne v = true ↔ v = .num 1 := by
  cases h with
  | num c h => simp [valIsOne, Val.eq]
  | var x c => simp [valIsOne, Val.eq, Val.sub, Val.neg, Val.add, addS, varPlus, Val.vanishes]

end Model.Prover

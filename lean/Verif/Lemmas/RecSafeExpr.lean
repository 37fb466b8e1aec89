import Verif.Lemmas.RecBase

/-! # Values with which the recursive proof system computes without an exception -/

namespace Model.Recursive
open Spec Model Model.Expr Model.Prover Model.RuleFunc

section ring
variable {K : Type} [CommRing K] [DecidableEq K]

/-- Substituting in a normal expression never fails. -/
theorem subst_total [IsDomain K] {subs : Nat → Option (Val K)} (hs : ∀ v x, subs v = some x → Val.Normal x) {a : Val K}
    (ha : Val.Normal a) : ∃ v, a.subst subs = .ok v ∧ Val.Normal v := by
  match a with
  | .num k => exact ⟨_, rfl, trivial⟩
  | .expr e =>
    by_cases h : e.terms.isEmpty = true
    · rw [Val.subst, if_pos h]; exact ⟨_, rfl, trivial⟩
    · have hne : ∀ t ∈ e.terms, t.vars ≠ [] := fun t ht => (ha.vars t ht).ne
      obtain ⟨v, hv, -⟩ := substSum_value subs (fun _ => 0) e.terms (.num 0) hne
      refine ⟨v.add (.num e.const), ?_, add_normal (substSum_normal hs _ (.num 0) v trivial hv) (b := .num _) trivial⟩
      rw [Val.subst, if_neg h]; simp [Expr.subst, hv]

end ring

theorem toQ_normal {v : V} (h : Val.Normal v) : Val.Normal v.toQ := by
  match v with
  | .num k => trivial
  | .expr e =>
    refine ⟨fun t ht => ?_, ?_, fun t ht => ?_⟩
    · obtain ⟨u, hu, rfl⟩ := List.mem_map.1 ht
      exact h.vars u hu
    · show (List.map _ e.terms).Pairwise _
      rw [List.pairwise_map]; exact h.sorted
    · obtain ⟨u, hu, rfl⟩ := List.mem_map.1 ht
      exact Int.cast_ne_zero.2 (h.coef u hu)

/-! ## Lengths of blocks -/

def PosTerms (ts : List (Term Int)) : Prop := ∀ t ∈ ts, 0 < t.coef

/-- a length of a block in a proof: linear with positive coefficients -/
def Fine (D : Nat → Prop) (v : V) : Prop :=
  LinIn D v ∧ Val.Normal v ∧ match v with | .num _ => True | .expr e => PosTerms e.terms

variable {D E : Nat → Prop}

theorem fine_num (k : Int) : Fine D (.num k) := ⟨trivial, trivial, trivial⟩

theorem mergeTerm_posC {t1 : Term Int} {rest1 : List (Term Int)} {more : List (Term Int) → List (Term Int)}
    (h1 : PosTerms (t1 :: rest1)) (hm : ∀ ys, PosTerms ys → PosTerms (more ys)) :
    ∀ ys, PosTerms ys → PosTerms (mergeTerm t1 rest1 more ys)
  | [], _ => by simpa only [mergeTerm] using h1
  | t2 :: ys, hy => by
    have hy' : PosTerms ys := fun t ht => hy t (by simp [ht])
    have h1' := h1 t1 (by simp)
    have h2' := hy t2 (by simp)
    unfold mergeTerm
    simp only
    have cons : ∀ (t : Term Int) ts, 0 < t.coef → PosTerms ts → PosTerms (t :: ts) := by
      intro t ts ht hts u hu
      rcases List.mem_cons.1 hu with rfl | hu
      exacts [ht, hts u hu]
    split
    · split
      · exact cons _ _ (by show 0 < t1.coef + t2.coef; omega) (hm _ hy')
      · exact hm _ hy'
    · split
      · exact cons _ _ h1' (hm _ hy)
      · exact cons _ _ h2' (mergeTerm_posC h1 hm ys hy')

theorem termSum_posC : ∀ xs : List (Term Int), PosTerms xs → ∀ ys, PosTerms ys → PosTerms (termSum xs ys)
  | [], _, ys, hy => by simpa only [termSum] using hy
  | x :: xs, hx, ys, hy => by
    unfold termSum
    exact mergeTerm_posC hx (termSum_posC xs (fun t ht => hx t (by simp [ht]))) ys hy

theorem fine_add {a b : V} (ha : Fine D a) (hb : Fine D b) : Fine D (a.add b) := by
  refine ⟨add_lin ha.1 hb.1, add_normal ha.2.1 hb.2.1, ?_⟩
  match a, b with
  | .num _, .num _ => trivial
  | .num _, .expr e => exact hb.2.2
  | .expr e, .num _ => exact ha.2.2
  | .expr e, .expr f => exact termSum_posC _ ha.2.2 _ hb.2.2

theorem fine_sub {a : V} (ha : Fine D a) (k : Int) : Fine D (a.sub (.num k)) := by
  refine ⟨sub_lin ha.1 (b := .num k) trivial, sub_normal ha.2.1 (b := .num k) trivial, ?_⟩
  match a with
  | .num _ => trivial
  | .expr e => exact ha.2.2

theorem fine_mul {a : V} (ha : Fine D a) {k : Int} (hk : 0 ≤ k) : Fine D (a.mul (.num k)) := by
  refine ⟨mul_num_lin ha.1 k, mul_normal ha.2.1 (b := .num k) trivial, ?_⟩
  match a with
  | .num _ => trivial
  | .expr e =>
    show PosTerms (mulS e k).terms
    unfold mulS
    split
    · intro t ht; simp at ht
    · next h0 =>
      intro t ht
      obtain ⟨u, hu, rfl⟩ := List.mem_map.1 ht
      exact mul_pos (ha.2.2 u hu) (by omega)

theorem fine_simp {a : V} (ha : Fine D a) : Fine D (simp a) := by
  match a with
  | .num _ => exact ha
  | .expr e =>
    unfold simp
    simp only
    split
    · exact fine_num _
    · exact ha

theorem fine_varPlus {x : Nat} (hx : D x) (c : Int) : Fine D (.expr (varPlus x c)) := by
  refine ⟨?_, ?_, ?_⟩
  · intro t ht
    simp only [varPlus, List.mem_singleton] at ht
    subst ht
    exact ⟨x, rfl, hx⟩
  · exact single_normal ⟨by simp, by simp, by simp⟩ one_ne_zero c
  · intro t ht
    simp only [varPlus, List.mem_singleton] at ht
    subst ht
    exact Int.one_pos

theorem fine_mono {v : V} (h : Fine D v) (hd : ∀ x, D x → E x) : Fine E v := ⟨lin_mono h.1 hd, h.2⟩

theorem substSum_fine {subs : Nat → Option V} (hs : ∀ x, E x → ∃ w, subs x = some w ∧ Fine D w) : ∀ (ts : List (Term Int)),
    LinTerms E ts → PosTerms ts → ∀ acc, Fine D acc → ∀ v, substSum subs ts acc = .ok v → Fine D v
  | [], _, _, acc, ha, v, hv => by cases hv; exact ha
  | t :: ts, ht, hp, acc, ha, v, hv => by
    obtain ⟨x, hx, hP⟩ := ht t (by simp)
    obtain ⟨w, hw, hQ⟩ := hs x hP
    have : t.subst subs = .ok (w.mul (.num t.coef)) := by
      simp [Term.subst, hx, VarPow.subst, hw]
    unfold substSum at hv
    rw [this] at hv
    exact substSum_fine hs ts (fun u hu => ht u (by simp [hu])) (fun u hu => hp u (by simp [hu])) _
      (fine_add ha (fine_mul hQ (hp t (by simp)).le)) v hv

theorem fine_subst {subs : Nat → Option V} {a : V} (ha : Fine E a) (hs : ∀ x, E x → ∃ w, subs x = some w ∧ Fine D w) :
    ∃ v, a.subst subs = .ok v ∧ Fine D v := by
  obtain ⟨v, hv, -⟩ := subst_lin ha.1 (fun x hx => by obtain ⟨w, h1, h2⟩ := hs x hx; exact ⟨w, h1, h2.1⟩)
  refine ⟨v, hv, ?_⟩
  match a with
  | .num k => cases hv; exact fine_num _
  | .expr e =>
    by_cases h : e.terms.isEmpty = true
    · rw [Val.subst, if_pos h] at hv; cases hv; exact fine_num _
    · rw [Val.subst, if_neg h] at hv
      unfold Expr.subst at hv
      split at hv
      · cases hv
      · next w hw =>
        cases hv
        exact fine_add (substSum_fine hs _ ha.1 ha.2.2 _ (fine_num _) _ hw) (fine_num _)

theorem fine_min {v : V} (h : Fine D v) : ∃ m, v.minVal = some m := by
  match v with
  | .num k => exact ⟨_, rfl⟩
  | .expr e =>
    have hn : e.terms.any (fun t => t.coef < 0) = false := by
      rw [List.any_eq_false]
      intro t ht
      have := h.2.2 t ht
      simp only [decide_eq_true_eq]
      omega
    simp only [Val.minVal, Expr.minVal, hn]
    split <;> exact ⟨_, rfl⟩

/-! ## The sum over the applications -/

/-- the sum is always there -/
def SumsTotal [Sums] : Prop := ∀ each k N, Val.Normal each → Val.Normal N → ∃ t, Sums.sum each k N = .ok t ∧ Val.Normal t

end Model.Recursive

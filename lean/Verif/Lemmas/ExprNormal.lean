import Verif.Lemmas.Expr

set_option linter.unusedSectionVars false

/-! # Normal form of expressions and completeness of the equality test -/

namespace Model.Expr
open Spec

/-! ## The order of terms -/

def flat (vs : List VarPow) : List Nat := vs.flatMap (fun v => [v.var, v.pow])

theorem flat_cons (v vs) : flat (v :: vs) = v.var :: v.pow :: flat vs := rfl

theorem compareVars_lt : ∀ a b : List VarPow, a.length = b.length →
    (compareVars (a.zip b) < 0 ↔ flat a < flat b) ∧ (0 < compareVars (a.zip b) ↔ flat b < flat a)
  | [], [], _ => by simp [compareVars, flat]
  | [], _ :: _, h => by simp at h
  | _ :: _, [], h => by simp at h
  | x :: a, y :: b, h => by
    have ih := compareVars_lt a b (by simpa using h)
    rw [List.zip_cons_cons]
    unfold compareVars
    simp only [flat_cons, List.cons_lt_cons_iff]
    split
    · omega
    split
    · omega
    split
    · omega
    split
    · omega
    rw [ih.1, ih.2]
    have h1 : x.var = y.var := by omega
    have h2 : x.pow = y.pow := by omega
    simp [h1, h2]

theorem compareTerms_lt {a b : List VarPow} :
    compareTerms a b < 0 ↔ a.length < b.length ∨ a.length = b.length ∧ flat a < flat b := by
  unfold compareTerms
  split
  · omega
  split
  · omega
  · rw [(compareVars_lt a b (by omega)).1]
    have : a.length = b.length := by omega
    simp [this]

theorem compareTerms_gt {a b : List VarPow} : 0 < compareTerms a b ↔ compareTerms b a < 0 := by
  rw [compareTerms_lt]
  unfold compareTerms
  split
  · omega
  split
  · omega
  · rw [(compareVars_lt a b (by omega)).2]
    have : a.length = b.length := by omega
    simp [this]

theorem compareTerms_trans {a b c : List VarPow} (h1 : compareTerms a b < 0) (h2 : compareTerms b c < 0) :
    compareTerms a c < 0 := by
  rw [compareTerms_lt] at *
  rcases h1 with h1 | ⟨h1, h1'⟩
  · rcases h2 with h2 | ⟨h2, _⟩ <;> omega
  · rcases h2 with h2 | ⟨h2, h2'⟩
    · omega
    · exact Or.inr ⟨by omega, List.lt_trans h1' h2'⟩

section ring
variable {K : Type} [CommRing K] [DecidableEq K]

/-! ## `term_sum` keeps the normal form -/

def TermsNormal (ts : List (Term K)) : Prop :=
  (∀ t ∈ ts, VarsNormal t.vars ∧ t.coef ≠ 0) ∧ ts.Pairwise (fun a b => compareTerms a.vars b.vars < 0)

theorem normal_iff {e : Expr K} : Expr.Normal e ↔ TermsNormal e.terms :=
  ⟨fun h => ⟨fun t ht => ⟨h.vars t ht, h.coef t ht⟩, h.sorted⟩,
   fun h => ⟨fun t ht => (h.1 t ht).1, h.2, fun t ht => (h.1 t ht).2⟩⟩

theorem TermsNormal.nil : TermsNormal ([] : List (Term K)) := ⟨by simp, List.Pairwise.nil⟩

theorem TermsNormal.tail {t : Term K} {ts} (h : TermsNormal (t :: ts)) : TermsNormal ts :=
  ⟨fun x hx => h.1 x (by simp [hx]), (List.pairwise_cons.1 h.2).2⟩

/-- `v` is below every term. -/
def Below (v : List VarPow) (ts : List (Term K)) : Prop := ∀ t ∈ ts, compareTerms v t.vars < 0

theorem TermsNormal.cons {t : Term K} {ts} (h : TermsNormal ts) (hv : VarsNormal t.vars) (hc : t.coef ≠ 0)
    (hb : Below t.vars ts) : TermsNormal (t :: ts) :=
  ⟨fun x hx => by rcases List.mem_cons.1 hx with rfl | hx; exacts [⟨hv, hc⟩, h.1 x hx], List.pairwise_cons.2 ⟨hb, h.2⟩⟩

theorem mergeTerm_normal {t1 : Term K} {rest1 : List (Term K)} {more : List (Term K) → List (Term K)}
    (h1 : TermsNormal (t1 :: rest1))
    (hm : ∀ ys, TermsNormal ys → TermsNormal (more ys) ∧ ∀ v, Below v rest1 → Below v ys → Below v (more ys)) :
    ∀ ys, TermsNormal ys → TermsNormal (mergeTerm t1 rest1 more ys) ∧
      ∀ v, Below v (t1 :: rest1) → Below v ys → Below v (mergeTerm t1 rest1 more ys)
  | [], _ => by simp only [mergeTerm]; exact ⟨h1, fun v hv _ => hv⟩
  | t2 :: ys, h2 => by
    have hb1 : Below t1.vars rest1 := (List.pairwise_cons.1 h1.2).1
    have hb2 : Below t2.vars ys := (List.pairwise_cons.1 h2.2).1
    unfold mergeTerm
    dsimp only
    split
    · next hc =>
      have hv := compareTerms_eq_zero.1 hc
      obtain ⟨m1, m2⟩ := hm ys h2.tail
      split
      · next hne =>
        refine ⟨m1.cons (h1.1 t1 (by simp)).1 hne (m2 _ hb1 (hv ▸ hb2)), ?_⟩
        intro v hv1 hv2 t ht
        rcases List.mem_cons.1 ht with rfl | ht
        · exact hv1 t1 (by simp)
        · exact m2 v (fun t ht => hv1 t (by simp [ht])) (fun t ht => hv2 t (by simp [ht])) t ht
      · exact ⟨m1, fun v hv1 hv2 => m2 v (fun t ht => hv1 t (by simp [ht])) (fun t ht => hv2 t (by simp [ht]))⟩
    · split
      · next hlt =>
        obtain ⟨m1, m2⟩ := hm (t2 :: ys) h2
        have hb : Below t1.vars (t2 :: ys) := by
          intro t ht
          rcases List.mem_cons.1 ht with rfl | ht
          · exact hlt
          · exact compareTerms_trans hlt (hb2 t ht)
        refine ⟨m1.cons (h1.1 t1 (by simp)).1 (h1.1 t1 (by simp)).2 (m2 _ hb1 hb), ?_⟩
        intro v hv1 hv2 t ht
        rcases List.mem_cons.1 ht with rfl | ht
        · exact hv1 t (by simp)
        · exact m2 v (fun t ht => hv1 t (by simp [ht])) hv2 t ht
      · next hne hge =>
        have hlt : compareTerms t2.vars t1.vars < 0 := compareTerms_gt.1 (by omega)
        obtain ⟨m1, m2⟩ := mergeTerm_normal h1 hm ys h2.tail
        have hb : Below t2.vars (t1 :: rest1) := by
          intro t ht
          rcases List.mem_cons.1 ht with rfl | ht
          · exact hlt
          · exact compareTerms_trans hlt (hb1 t ht)
        refine ⟨m1.cons (h2.1 t2 (by simp)).1 (h2.1 t2 (by simp)).2 (m2 _ hb hb2), ?_⟩
        intro v hv1 hv2 t ht
        rcases List.mem_cons.1 ht with rfl | ht
        · exact hv2 t (by simp)
        · exact m2 v hv1 (fun t ht => hv2 t (by simp [ht])) t ht

theorem termSum_normal : ∀ xs : List (Term K), TermsNormal xs → ∀ ys, TermsNormal ys →
    TermsNormal (termSum xs ys) ∧ ∀ v, Below v xs → Below v ys → Below v (termSum xs ys)
  | [], _, ys, hy => by simp only [termSum]; exact ⟨hy, fun v _ h => h⟩
  | x :: xs, hx, ys, hy => by
    unfold termSum
    exact mergeTerm_normal hx (fun ys hy => termSum_normal xs hx.tail ys hy) ys hy

/-! ## `vars_prod` -/

def VarsOk (vs : List VarPow) : Prop := (∀ v ∈ vs, 0 < v.pow) ∧ vs.Pairwise (fun a b => a.var < b.var)

def VBelow (n : Nat) (vs : List VarPow) : Prop := ∀ v ∈ vs, n < v.var

theorem VarsOk.cons {v : VarPow} {vs} (h : VarsOk vs) (hv : 0 < v.pow) (hb : VBelow v.var vs) : VarsOk (v :: vs) :=
  ⟨fun x hx => by rcases List.mem_cons.1 hx with rfl | hx; exacts [hv, h.1 x hx], List.pairwise_cons.2 ⟨hb, h.2⟩⟩

theorem VarsOk.tail {v : VarPow} {vs} (h : VarsOk (v :: vs)) : VarsOk vs :=
  ⟨fun x hx => h.1 x (by simp [hx]), (List.pairwise_cons.1 h.2).2⟩

theorem mergeVar_ok {v1 : VarPow} {rest1 : List VarPow} {more : List VarPow → List VarPow} (h1 : VarsOk (v1 :: rest1))
    (hm : ∀ ys, VarsOk ys → VarsOk (more ys) ∧ ∀ v, VBelow v rest1 → VBelow v ys → VBelow v (more ys)) :
    ∀ ys, VarsOk ys → VarsOk (mergeVar v1 rest1 more ys) ∧
      (∀ v, VBelow v (v1 :: rest1) → VBelow v ys → VBelow v (mergeVar v1 rest1 more ys)) ∧ mergeVar v1 rest1 more ys ≠ []
  | [], _ => by simp only [mergeVar]; exact ⟨h1, fun v hv _ => hv, by simp⟩
  | v2 :: ys, h2 => by
    have hb1 : VBelow v1.var rest1 := (List.pairwise_cons.1 h1.2).1
    have hb2 : VBelow v2.var ys := (List.pairwise_cons.1 h2.2).1
    unfold mergeVar
    split
    · next hlt =>
      obtain ⟨m1, m2⟩ := hm (v2 :: ys) h2
      refine ⟨m1.cons (h1.1 v1 (by simp)) (m2 _ hb1 ?_), ?_, by simp⟩
      · intro t ht
        rcases List.mem_cons.1 ht with rfl | ht
        · exact hlt
        · exact Nat.lt_trans hlt (hb2 t ht)
      · intro v hv1 hv2 t ht
        rcases List.mem_cons.1 ht with rfl | ht
        · exact hv1 t (by simp)
        · exact m2 v (fun t ht => hv1 t (by simp [ht])) hv2 t ht
    · split
      · next hgt =>
        obtain ⟨m1, m2, _⟩ := mergeVar_ok h1 hm ys h2.tail
        refine ⟨m1.cons (h2.1 v2 (by simp)) (m2 _ ?_ hb2), ?_, by simp⟩
        · intro t ht
          rcases List.mem_cons.1 ht with rfl | ht
          · exact hgt
          · exact Nat.lt_trans hgt (hb1 t ht)
        · intro v hv1 hv2 t ht
          rcases List.mem_cons.1 ht with rfl | ht
          · exact hv2 t (by simp)
          · exact m2 v hv1 (fun t ht => hv2 t (by simp [ht])) t ht
      · have heq : v1.var = v2.var := by omega
        obtain ⟨m1, m2⟩ := hm ys h2.tail
        refine ⟨m1.cons (by have := h1.1 v1 (by simp); dsimp only; omega) (m2 _ hb1 (by dsimp only; rw [heq]; exact hb2)), ?_, by simp⟩
        intro v hv1 hv2 t ht
        rcases List.mem_cons.1 ht with rfl | ht
        · exact hv1 v1 (by simp)
        · exact m2 v (fun t ht => hv1 t (by simp [ht])) (fun t ht => hv2 t (by simp [ht])) t ht

theorem varsProd_ok : ∀ xs, VarsOk xs → ∀ ys, VarsOk ys →
    VarsOk (varsProd xs ys) ∧ ∀ v, VBelow v xs → VBelow v ys → VBelow v (varsProd xs ys)
  | [], _, ys, hy => by simp only [varsProd]; exact ⟨hy, fun v _ h => h⟩
  | x :: xs, hx, ys, hy => by
    unfold varsProd
    have := mergeVar_ok hx (fun ys hy => varsProd_ok xs hx.tail ys hy) ys hy
    exact ⟨this.1, this.2.1⟩

theorem varsProd_normal {xs ys} (hx : VarsNormal xs) (hy : VarsNormal ys) : VarsNormal (varsProd xs ys) := by
  have h := varsProd_ok xs ⟨hx.pos, hx.sorted⟩ ys ⟨hy.pos, hy.sorted⟩
  refine ⟨?_, h.1.2, h.1.1⟩
  obtain ⟨x, xs, rfl⟩ := List.exists_cons_of_ne_nil hx.ne
  unfold varsProd
  have hxo : VarsOk (x :: xs) := ⟨hx.pos, hx.sorted⟩
  exact (mergeVar_ok hxo (fun ys hy => varsProd_ok xs hxo.tail ys hy) ys ⟨hy.pos, hy.sorted⟩).2.2

/-! ## The operations keep the normal form -/

theorem addE_normal {a b : Expr K} (ha : Expr.Normal a) (hb : Expr.Normal b) : Expr.Normal (addE a b) := by
  rw [normal_iff] at *
  exact (termSum_normal _ ha _ hb).1

theorem zero_normal (k : K) : Expr.Normal (⟨[], k⟩ : Expr K) := normal_iff.2 TermsNormal.nil

theorem mulS_normal [IsDomain K] {a : Expr K} (ha : Expr.Normal a) (k : K) : Expr.Normal (mulS a k) := by
  unfold mulS
  split
  · exact zero_normal 0
  · next hk =>
    refine ⟨?_, ?_, ?_⟩
    · intro t ht
      obtain ⟨t', ht', rfl⟩ := List.mem_map.1 ht
      exact ha.vars t' ht'
    · exact (List.pairwise_map).2 ha.sorted
    · intro t ht
      obtain ⟨t', ht', rfl⟩ := List.mem_map.1 ht
      exact mul_ne_zero (ha.coef t' ht') hk

theorem single_normal {vs : List VarPow} {c : K} (hv : VarsNormal vs) (hc : c ≠ 0) (k : K) :
    Expr.Normal (⟨[⟨vs, c⟩], k⟩ : Expr K) :=
  normal_iff.2 (TermsNormal.nil.cons hv hc (fun t ht => absurd ht (by simp)))

theorem inner_normal [IsDomain K] {t1 : Term K} (hv : VarsNormal t1.vars) (hc : t1.coef ≠ 0) :
    ∀ (ts : List (Term K)), (∀ t ∈ ts, VarsNormal t.vars ∧ t.coef ≠ 0) → ∀ (acc : Expr K), Expr.Normal acc →
    Expr.Normal (ts.foldl (fun acc t2 => addE acc ⟨[⟨varsProd t1.vars t2.vars, t1.coef * t2.coef⟩], 0⟩) acc)
  | [], _, acc, h => h
  | t :: ts, h, acc, ha => by
    rw [List.foldl_cons]
    have ht := h t (by simp)
    exact inner_normal hv hc ts (fun t ht => h t (by simp [ht])) _
      (addE_normal ha (single_normal (varsProd_normal hv ht.1) (mul_ne_zero hc ht.2) 0))

theorem outer_normal [IsDomain K] {e2 : Expr K} (h2 : Expr.Normal e2) :
    ∀ (ts : List (Term K)), (∀ t ∈ ts, VarsNormal t.vars ∧ t.coef ≠ 0) → ∀ (acc : Expr K), Expr.Normal acc →
    Expr.Normal (ts.foldl (fun acc t1 =>
      addE (e2.terms.foldl (fun acc t2 => addE acc ⟨[⟨varsProd t1.vars t2.vars, t1.coef * t2.coef⟩], 0⟩) acc)
        (mulS ⟨[t1], 0⟩ e2.const)) acc)
  | [], _, acc, h => h
  | t :: ts, h, acc, ha => by
    rw [List.foldl_cons]
    have ht := h t (by simp)
    exact outer_normal h2 ts (fun t ht => h t (by simp [ht])) _
      (addE_normal (inner_normal ht.1 ht.2 _ (normal_iff.1 h2).1 acc ha) (mulS_normal (single_normal ht.1 ht.2 0) _))

theorem mulE_normal [IsDomain K] {a b : Expr K} (ha : Expr.Normal a) (hb : Expr.Normal b) : Expr.Normal (mulE a b) :=
  addE_normal (outer_normal hb _ (normal_iff.1 ha).1 _ (zero_normal 0)) (mulS_normal hb _)

theorem add_normal {a b : Val K} (ha : Val.Normal a) (hb : Val.Normal b) : Val.Normal (a.add b) := by
  match a, b with
  | .num _, .num _ => trivial
  | .num _, .expr e => exact ⟨hb.vars, hb.sorted, hb.coef⟩
  | .expr e, .num _ => exact ⟨ha.vars, ha.sorted, ha.coef⟩
  | .expr _, .expr _ => exact addE_normal ha hb

theorem mul_normal [IsDomain K] {a b : Val K} (ha : Val.Normal a) (hb : Val.Normal b) : Val.Normal (a.mul b) := by
  match a, b with
  | .num _, .num _ => trivial
  | .num _, .expr e => exact mulS_normal hb _
  | .expr e, .num _ => exact mulS_normal ha _
  | .expr _, .expr _ => exact mulE_normal ha hb

theorem neg_normal [IsDomain K] {a : Val K} (ha : Val.Normal a) : Val.Normal a.neg := by
  match a with
  | .num _ => trivial
  | .expr e => exact mulS_normal ha _

theorem sub_normal [IsDomain K] {a b : Val K} (ha : Val.Normal a) (hb : Val.Normal b) : Val.Normal (a.sub b) := by
  match a, b with
  | .num _, .num _ => trivial
  | .num _, .expr e => exact add_normal (a := .expr (mulS e (-1))) (b := .num _) (mulS_normal hb _) trivial
  | .expr e, y => exact add_normal (a := .expr e) ha (neg_normal hb)

theorem powLoop_normal [IsDomain K] {e : Expr K} (he : Expr.Normal e) : ∀ n (acc : Val K), Val.Normal acc →
    Val.Normal (powLoop e n acc)
  | 0, _, h => h
  | n + 1, acc, h => powLoop_normal he n _ (mul_normal h he)

theorem pow_normal [IsDomain K] {a : Val K} (ha : Val.Normal a) (n : Nat) : Val.Normal (a.pow n) := by
  match a with
  | .num _ => trivial
  | .expr e => exact powLoop_normal ha n _ trivial

theorem varE_normal [Nontrivial K] (v : Nat) : Expr.Normal (varE v : Expr K) :=
  single_normal ⟨by simp, by simp, by simp⟩ one_ne_zero 0

theorem varPow_subst_normal [IsDomain K] {subs : Nat → Option (Val K)} (hs : ∀ v x, subs v = some x → Val.Normal x)
    (vp : VarPow) : Val.Normal (vp.subst subs) := by
  unfold VarPow.subst
  split
  · next x h =>
    split
    · exact hs _ _ h
    · exact pow_normal (hs _ _ h) _
  · exact pow_normal (a := .expr (varE vp.var)) (varE_normal _) _

theorem foldl_mul_normal [IsDomain K] : ∀ (xs : List (Val K)), (∀ x ∈ xs, Val.Normal x) → ∀ x, Val.Normal x →
    Val.Normal (xs.foldl Val.mul x)
  | [], _, x, h => h
  | y :: xs, h, x, hx => foldl_mul_normal xs (fun x hx => h x (by simp [hx])) _ (mul_normal hx (h y (by simp)))

theorem term_subst_normal [IsDomain K] {subs : Nat → Option (Val K)} (hs : ∀ v x, subs v = some x → Val.Normal x)
    {t : Term K} {v} (h : t.subst subs = .ok v) : Val.Normal v := by
  unfold Term.subst at h
  split at h
  · cases h
  · next x xs hx =>
    cases h
    have hall : ∀ y ∈ x :: xs, Val.Normal y := by
      rw [← hx]
      intro y hy
      obtain ⟨vp, _, rfl⟩ := List.mem_map.1 hy
      exact varPow_subst_normal hs vp
    exact mul_normal (foldl_mul_normal xs (fun y hy => hall y (by simp [hy])) x (hall x (by simp))) (b := .num _) trivial

theorem substSum_normal [IsDomain K] {subs : Nat → Option (Val K)} (hs : ∀ v x, subs v = some x → Val.Normal x) :
    ∀ (ts : List (Term K)) (acc v : Val K), Val.Normal acc → substSum subs ts acc = .ok v → Val.Normal v
  | [], acc, v, ha, h => by cases h; exact ha
  | t :: ts, acc, v, ha, h => by
    unfold substSum at h
    split at h
    · cases h
    · next x hx => exact substSum_normal hs ts _ v (add_normal ha (term_subst_normal hs hx)) h

/-! ## A normal expression that is zero everywhere has no terms -/

/-- The exponent of each variable. -/
noncomputable def expo (vs : List VarPow) : Nat →₀ Nat := (vs.map (fun v => Finsupp.single v.var v.pow)).sum

theorem expo_cons (v vs) : expo (v :: vs) = Finsupp.single v.var v.pow + expo vs := by simp [expo]

theorem expo_below {vs : List VarPow} {n : Nat} (h : VBelow n vs) : expo vs n = 0 := by
  induction vs with
  | nil => simp [expo]
  | cons v vs ih =>
    rw [expo_cons, Finsupp.add_apply, ih (fun x hx => h x (by simp [hx]))]
    have := h v (by simp)
    simp [Finsupp.single_apply]; omega

theorem expo_mem {vs : List VarPow} (h : VarsOk vs) : ∀ n p, 0 < p → (expo vs n = p ↔ ⟨n, p⟩ ∈ vs) := by
  induction vs with
  | nil => intro n p hp; simp [expo]; omega
  | cons v vs ih =>
    intro n p hp
    rw [expo_cons, Finsupp.add_apply]
    have hb : VBelow v.var vs := (List.pairwise_cons.1 h.2).1
    by_cases hn : v.var = n
    · subst hn
      rw [expo_below hb]
      simp only [Finsupp.single_eq_same, Nat.add_zero, List.mem_cons]
      constructor
      · intro h; left; cases v; simp only at h; subst h; rfl
      · rintro (h | h)
        · rw [← h]
        · exact absurd (hb _ h) (by simp)
    · rw [Finsupp.single_apply, if_neg hn, Nat.zero_add, ih h.tail n p hp]
      simp only [List.mem_cons]
      constructor
      · exact Or.inr
      · rintro (h | h)
        · exact absurd (by rw [← h]) hn
        · exact h

theorem expo_inj {a b : List VarPow} (ha : VarsOk a) (hb : VarsOk b) (h : expo a = expo b) : a = b := by
  have hn : ∀ l : List VarPow, VarsOk l → l.Nodup := fun l hl =>
    hl.2.imp (fun {x y} hxy hne => by subst hne; omega)
  have hp : a.Perm b := by
    rw [List.perm_ext_iff_of_nodup (hn a ha) (hn b hb)]
    intro v
    obtain ⟨n, p⟩ := v
    constructor
    · intro hm
      have hp := ha.1 _ hm
      exact (expo_mem hb n p hp).1 (h ▸ (expo_mem ha n p hp).2 hm)
    · intro hm
      have hp := hb.1 _ hm
      exact (expo_mem ha n p hp).1 (h ▸ (expo_mem hb n p hp).2 hm)
  exact hp.eq_of_pairwise (fun x y _ _ h1 h2 => by omega) ha.2 hb.2

theorem expo_ne_zero {a : List VarPow} (h : VarsNormal a) : expo a ≠ 0 := by
  intro h0
  obtain ⟨v, vs, rfl⟩ := List.exists_cons_of_ne_nil h.ne
  have := (expo_mem (vs := v :: vs) ⟨h.pos, h.sorted⟩ v.var v.pow (h.pos v (by simp))).2 (by simp)
  rw [h0] at this
  have hp := h.pos v (by simp)
  simp at this; omega

/-- The polynomial of an expression. -/
noncomputable def toPoly (ts : List (Term K)) : MvPolynomial Nat K :=
  (ts.map (fun t => MvPolynomial.monomial (expo t.vars) t.coef)).sum

theorem toPoly_cons (t : Term K) (ts) : toPoly (t :: ts) = MvPolynomial.monomial (expo t.vars) t.coef + toPoly ts := by
  simp [toPoly]

theorem eval_expo (ρ : Nat → K) (vs : List VarPow) : (expo vs).prod (fun v p => ρ v ^ p) = Spec.monomial ρ vs := by
  induction vs with
  | nil => simp [expo, Spec.monomial]
  | cons v vs ih =>
    rw [expo_cons, Finsupp.prod_add_index' (by simp) (by intros; rw [pow_add]), ih]
    simp [Spec.monomial]

theorem eval_toPoly (ρ : Nat → K) (ts : List (Term K)) : MvPolynomial.eval ρ (toPoly ts) = termsValue ρ ts := by
  induction ts with
  | nil => simp [toPoly]
  | cons t ts ih =>
    rw [toPoly_cons, map_add, ih, termsValue_cons, MvPolynomial.eval_monomial, eval_expo]
    rfl

theorem coeff_notMem {ts : List (Term K)} {m : Nat →₀ Nat} (h : ∀ t ∈ ts, expo t.vars ≠ m) :
    MvPolynomial.coeff m (toPoly ts) = 0 := by
  induction ts with
  | nil => simp [toPoly]
  | cons t ts ih =>
    rw [toPoly_cons, MvPolynomial.coeff_add, ih (fun t ht => h t (by simp [ht])), MvPolynomial.coeff_monomial,
      if_neg (h t (by simp)), add_zero]

theorem vanish_of_zero [IsDomain K] [Infinite K] {e : Expr K} (h : Expr.Normal e) (h0 : ∀ ρ, Expr.value ρ e = 0) :
    e.terms = [] ∧ e.const = 0 := by
  have hp : toPoly e.terms + MvPolynomial.C e.const = 0 := by
    apply MvPolynomial.funext
    intro ρ
    rw [map_add, eval_toPoly, MvPolynomial.eval_C, map_zero]
    exact h0 ρ
  have hterms : e.terms = [] := by
    obtain ⟨terms, const⟩ := e
    cases terms with
    | nil => rfl
    | cons t ts =>
      exfalso
      have ht := h.vars t (by simp)
      have h1 : ∀ x ∈ ts, expo x.vars ≠ expo t.vars := by
        intro x hx heq
        have hx' := h.vars x (by simp [hx])
        have := expo_inj ⟨hx'.pos, hx'.sorted⟩ ⟨ht.pos, ht.sorted⟩ heq
        have h2 := (List.pairwise_cons.1 h.sorted).1 x hx
        rw [this, compareTerms_eq_zero.2 rfl] at h2
        exact absurd h2 (by omega)
      have h2 := congrArg (MvPolynomial.coeff (expo t.vars)) hp
      simp only at h2
      rw [toPoly_cons, MvPolynomial.coeff_add, MvPolynomial.coeff_add, coeff_notMem h1, MvPolynomial.coeff_monomial,
        if_pos rfl, MvPolynomial.coeff_C, if_neg (fun h => expo_ne_zero ht h.symm)] at h2
      simp only [add_zero, MvPolynomial.coeff_zero] at h2
      exact h.coef t (by simp) h2
  refine ⟨hterms, ?_⟩
  have := h0 (fun _ => 0)
  rw [value_eq, hterms] at this
  simpa using this

theorem vanishes_of_zero [IsDomain K] [Infinite K] {x : Val K} (h : Val.Normal x) (h0 : ∀ ρ, Val.value ρ x = 0) :
    x.vanishes = true := by
  match x with
  | .num k => have := h0 (fun _ => 0); simpa [Val.vanishes, value_num] using this
  | .expr e =>
    obtain ⟨h1, h2⟩ := vanish_of_zero h h0
    simp [Val.vanishes, h1, h2]

theorem coeff_mem {ts : List (Term K)} (h : TermsNormal ts) {t : Term K} (ht : t ∈ ts) :
    MvPolynomial.coeff (expo t.vars) (toPoly ts) = t.coef := by
  induction ts with
  | nil => cases ht
  | cons u ts ih =>
    have hn := normal_iff (e := ⟨u :: ts, 0⟩).2 h
    have hu := hn.vars u (by simp)
    have hne : ∀ x ∈ ts, expo x.vars ≠ expo u.vars := by
      intro x hx heq
      have hx' := hn.vars x (by simp [hx])
      have := expo_inj ⟨hx'.pos, hx'.sorted⟩ ⟨hu.pos, hu.sorted⟩ heq
      have h2 := (List.pairwise_cons.1 hn.sorted).1 x hx
      rw [this, compareTerms_eq_zero.2 rfl] at h2
      exact absurd h2 (by omega)
    rw [toPoly_cons, MvPolynomial.coeff_add, MvPolynomial.coeff_monomial]
    rcases List.mem_cons.1 ht with rfl | ht
    · rw [if_pos rfl, coeff_notMem hne, add_zero]
    · rw [if_neg (fun e => hne t ht e.symm), ih h.tail ht, zero_add]

/-- a normal expression whose value is a variable plus a constant -/
theorem terms_var [IsDomain K] [Infinite K] {e : Expr K} (h : Expr.Normal e) {x : Nat} {c : K}
    (h0 : ∀ ρ, Expr.value ρ e = ρ x + c) : e.terms = [⟨[⟨x, 1⟩], 1⟩] := by
  have hp : toPoly e.terms + MvPolynomial.C e.const = MvPolynomial.monomial (expo [⟨x, 1⟩]) 1 + MvPolynomial.C c := by
    apply MvPolynomial.funext
    intro ρ
    rw [map_add, eval_toPoly, MvPolynomial.eval_C, map_add, MvPolynomial.eval_monomial, eval_expo, MvPolynomial.eval_C]
    rw [← value_eq, h0 ρ]
    simp [Spec.monomial]
  have vn : VarsNormal [(⟨x, 1⟩ : VarPow)] := ⟨by simp, by simp, by simp⟩
  have co : ∀ m : Nat →₀ Nat, m ≠ 0 → MvPolynomial.coeff m (toPoly e.terms) = if expo [⟨x, 1⟩] = m then 1 else 0 := by
    intro m hm
    have := congrArg (MvPolynomial.coeff m) hp
    rw [MvPolynomial.coeff_add, MvPolynomial.coeff_add, MvPolynomial.coeff_monomial, MvPolynomial.coeff_C,
      MvPolynomial.coeff_C, if_neg hm.symm, if_neg hm.symm, add_zero, add_zero] at this
    exact this
  have all : ∀ t ∈ e.terms, t = ⟨[⟨x, 1⟩], 1⟩ := by
    intro t ht
    have hv := h.vars t ht
    have h1 := co (expo t.vars) (expo_ne_zero hv)
    rw [coeff_mem (normal_iff.1 h) ht] at h1
    split at h1
    · next he =>
      have := expo_inj ⟨vn.pos, vn.sorted⟩ ⟨hv.pos, hv.sorted⟩ he
      obtain ⟨vs, k⟩ := t
      simp only at this h1
      rw [← this, h1]
    · exact absurd h1 (h.coef t ht)
  have ne : e.terms ≠ [] := by
    intro hn
    have h1 := co (expo [⟨x, 1⟩]) (expo_ne_zero vn)
    rw [hn, if_pos rfl] at h1
    simp [toPoly] at h1
  obtain ⟨ts, k⟩ := e
  match ts, ne, all with
  | [t], _, all => rw [all t (by simp)]
  | t :: u :: r, _, all =>
    have h2 := (List.pairwise_cons.1 h.sorted).1 u (by simp)
    rw [all t (by simp), all u (by simp), compareTerms_eq_zero.2 rfl] at h2
    exact absurd h2 (by omega)

theorem eq_complete [IsDomain K] [Infinite K] {a b : Val K} (ha : Val.Normal a) (hb : Val.Normal b)
    (h : ∀ ρ, Val.value ρ a = Val.value ρ b) : a.eq b = true := by
  match a, b with
  | .num a, .num b => simpa [Val.eq, value_num] using h (fun _ => 0)
  | .num a, .expr e =>
    exact vanishes_of_zero (sub_normal (a := .expr e) (b := .num a) hb trivial)
      (fun ρ => by rw [sub_value]; exact sub_eq_zero.2 (h ρ).symm)
  | .expr e, y =>
    exact vanishes_of_zero (sub_normal (a := .expr e) ha hb) (fun ρ => by rw [sub_value]; exact sub_eq_zero.2 (h ρ))

end ring
end Model.Expr

import Verif.Lemmas.RecDiff
import Verif.Lemmas.ProverGenApply

/-! # Applying a general rule to a tape of expressions -/

namespace Model.Recursive
open Spec Model Model.Expr Model.Prover
variable {σ S : Type}

/-- `vs` has the variables of `vs0` with minima that are at least as large. -/
abbrev VarsUp (vs vs0 : List (Option (Nat × Int))) : Prop :=
  List.Forall₂ (fun a b => (a = none ∧ b = none) ∨ ∃ x m m0, a = some (x, m) ∧ b = some (x, m0) ∧ m0 ≤ m) vs vs0

theorem varsUp_refl : ∀ vs, VarsUp vs vs
  | [] => .nil
  | none :: vs => .cons (Or.inl ⟨rfl, rfl⟩) (varsUp_refl vs)
  | some (x, m) :: vs => .cons (Or.inr ⟨x, m, m, rfl, rfl, le_refl _⟩) (varsUp_refl vs)

/-- A general rule that is right for the base machine. -/
structure GenOK [Sums] (T : Table) (Den : DC σ S → Config → Prop) (z : σ) (key : Strip σ S) (r : GenRule)
    (init res : ChainTape σ V) (vl vr : List (Option (Nat × Int))) (D : Nat → Prop) : Prop where
  left : GRHalf z D init.left vl res.left
  right : GRHalf z D init.right vr res.right
  dirs : res.dir = init.dir
  vars : VarsUp r.vars (vl ++ vr)
  result : r.result = (res.left ++ res.right).map (·.num)
  dom : ∀ x, D x → x ∈ hvars init.left ++ hvars init.right
  nodup : (hvars init.left ++ hvars init.right).Nodup
  shape : key = strip valIsOne key.st init
  infinite : r.infinite = true → isInfinite (vl ++ vr) r.result = true
  sound : ∀ y : Nat → Int, (∀ x, 0 ≤ y x) → (∀ x m, some (x, m) ∈ vl ++ vr → m ≤ y x) → ∀ u, TapeIs y init u → ∀ cfg,
    Den (tapeDC z u key.st) cfg →
    ∃ u' n, TapeIs y res u' ∧ 0 < n ∧ Den (tapeDC z u' key.st) (run T n cfg) ∧
      (∀ q, q ∈ r.states ↔ ∃ k, k < n ∧ VisitedAt T cfg q k) ∧ (SumsRight → Val.value (qy y) r.steps = n)

theorem gmV {z : σ} {η : Nat → Int} {D g vs f} (h : GRHalf z D g vs f) : ∀ {t : List (Blk σ V)} {u : List (Blk σ Nat)},
    Ends z t → HalfIs η t u → t.dropLast.map (info valIsOne) = g.dropLast.map (info valIsOne) → GM D g vs f u := by
  induction h with
  | last =>
    intro t u ht hu he
    cases ht with
    | last =>
      cases hu with
      | @cons _ b _ _ h1 h2 =>
        cases h2
        obtain ⟨bs, bn⟩ := b
        obtain ⟨h1, h3⟩ := h1
        have := numIs_none h3
        simp only at h1 this
        subst h1; subst this
        exact .inf _ .nil
    | cons a v ht => rw [dropLast_map _ ht.ne] at he; simp at he
  | one a hl hv1 h ih =>
    intro t u ht hu he
    rw [dropLast_map _ (grhalf_ne h)] at he
    cases ht with
    | last => simp at he
    | cons b v ht =>
      rw [dropLast_map _ ht.ne] at he
      obtain ⟨h1, h2⟩ := List.cons.inj he
      cases hu with
      | @cons _ c _ _ h3 h4 =>
        have h5 := ih ht h4 h2
        obtain ⟨cs, cn⟩ := c
        obtain ⟨h3, h7⟩ := h3
        obtain ⟨n, hn, hv⟩ := numIs_some h7
        simp only at h3 hn
        subst h3; subst hn
        rcases info_some (a := b) (v := v) with ⟨h8, e⟩ | ⟨h8, e⟩ <;> rw [e] at h1 <;> simp at h1
        subst h1
        have h9 : Val.value η v = 1 := eq_value (b := .num 1) h8 η
        have : n = 1 := by omega
        subst this
        exact .one b hl hv1 h5
  | @many a x m w g vs f k1 k2 k3 h ih =>
    intro t u ht hu he
    rw [dropLast_map _ (grhalf_ne h), info_var] at he
    cases ht with
    | last => simp at he
    | cons b v ht =>
      rw [dropLast_map _ ht.ne] at he
      obtain ⟨h1, h2⟩ := List.cons.inj he
      cases hu with
      | @cons _ c _ _ h3 h4 =>
        have h5 := ih ht h4 h2
        obtain ⟨cs, cn⟩ := c
        obtain ⟨h3, h7⟩ := h3
        obtain ⟨n, hn, hv⟩ := numIs_some h7
        simp only at h3 hn
        subst h3; subst hn
        rcases info_some (a := b) (v := v) with ⟨h8, e⟩ | ⟨h8, e⟩ <;> rw [e] at h1 <;> simp at h1
        subst h1
        exact .many b n k1 k2 k3 h5

/-- the exponents of a tape have the values of `us` -/
abbrev NumsIs (η : Nat → Int) (cs : List (Option V)) (u : List (Blk σ Nat)) : Prop :=
  List.Forall₂ (fun c (b : Blk σ Nat) => NumIs η c b.num) cs u

theorem nums_of {η : Nat → Int} {t : List (Blk σ V)} {u : List (Blk σ Nat)} (h : HalfIs η t u) : NumsIs η (t.map (·.num)) u := by
  induction h with
  | nil => exact .nil
  | cons h1 h2 ih => exact .cons h1.2 ih

/-- the values an assignment gives -/
def valOf (η : Nat → Int) (a : List (Nat × V)) (x : Nat) : Int :=
  match Py.dget a x with
  | some v => Val.value η v
  | none => η x

theorem valOf_eq {η : Nat → Int} {a : List (Nat × V)} {x : Nat} {v : V} (h : Py.dget a x = some v) :
    valOf η a x = Val.value η v := by simp [valOf, h]

theorem fit_is {η : Nat → Int} (hη : ∀ x, 0 ≤ η x) {D : Nat → Prop} {g f : List (Blk σ V)} {vs0 u} (h : GM D g vs0 f u) :
    ∀ {vs : List (Option (Nat × Int))} {cs : List (Option V)} {a a' : List (Nat × V)}, VarsUp vs vs0 → NumsIs η cs u →
    fitsMin vs cs a = .ok a' →
    (∀ x, x ∉ hvars g → Py.dget a' x = Py.dget a x) ∧ (∀ x ∈ hvars g, ∃ v, Py.dget a' x = some v) ∧
      ((hvars g).Nodup → HalfIs (valOf η a') g u ∧ ∀ x m, some (x, m) ∈ vs0 → m ≤ valOf η a' x) := by
  induction h with
  | nil =>
    intro vs cs a a' hv hc hf
    cases hv; cases hc
    cases hf
    exact ⟨fun _ _ => rfl, by simp, fun _ => ⟨.nil, by simp⟩⟩
  | @inf b g vs0 f u h ih =>
    intro vs cs a a' hv hc hf
    cases hv with
    | cons hv1 hv2 =>
      cases hc with
      | cons hc1 hc2 =>
        rcases hv1 with ⟨rfl, -⟩ | ⟨x, m, m0, -, h0, -⟩
        · obtain ⟨h1, h2, h3⟩ := ih hv2 hc2 (by simpa [fitsMin] using hf)
          refine ⟨h1, h2, fun hn => ?_⟩
          obtain ⟨h4, h5⟩ := h3 hn
          exact ⟨.cons ⟨rfl, trivial⟩ h4, fun x m hm => h5 x m (by simpa using hm)⟩
        · cases h0
  | @one b w g vs0 f u _ _ h ih =>
    intro vs cs a a' hv hc hf
    cases hv with
    | cons hv1 hv2 =>
      cases hc with
      | cons hc1 hc2 =>
        rcases hv1 with ⟨rfl, -⟩ | ⟨x, m, m0, -, h0, -⟩
        · obtain ⟨h1, h2, h3⟩ := ih hv2 hc2 (by simpa [fitsMin] using hf)
          refine ⟨h1, h2, fun hn => ?_⟩
          obtain ⟨h4, h5⟩ := h3 hn
          exact ⟨.cons ⟨rfl, by simp [NumIs, value_num]⟩ h4, fun x m hm => h5 x m (by simpa using hm)⟩
        · cases h0
  | @many b x m w n g vs0 f u h1 h2 h3 h ih =>
    intro vs cs a a' hv hc hf
    cases hv with
    | cons hv1 hv2 =>
      cases hc with
      | @cons c _ _ _ hc1 hc2 =>
        rcases hv1 with ⟨-, h0⟩ | ⟨x', m1, m0, rfl, h0, hle⟩
        · cases h0
        simp only [Option.some.injEq, Prod.mk.injEq] at h0
        obtain ⟨rfl, rfl⟩ := h0
        cases c with
        | none => exact hc1.elim
        | some v =>
          have hval : Val.value η v = n := hc1
          simp only [fitsMin] at hf
          split at hf
          · next hge =>
            have hmn := ge_value hη hge
            rw [value_num, hval] at hmn
            obtain ⟨i1, i2, i3⟩ := ih hv2 hc2 hf
            refine ⟨fun x' hx' => ?_, fun x' hx' => ?_, fun hn => ?_⟩
            · simp only [hvars_some, variables_varPlus, List.mem_append, List.mem_singleton, not_or] at hx'
              rw [i1 x' hx'.2, Py.dget_dset, if_neg hx'.1]
            · simp only [hvars_some, variables_varPlus, List.mem_append, List.mem_singleton] at hx'
              by_cases hx2 : x' ∈ hvars g
              · exact i2 x' hx2
              · rw [i1 x' hx2, Py.dget_dset, if_pos (hx'.resolve_right hx2)]
                exact ⟨_, rfl⟩
            · simp only [hvars_some, variables_varPlus, List.cons_append, List.nil_append, List.nodup_cons] at hn
              obtain ⟨j1, j2⟩ := i3 hn.2
              have hx : valOf η a' x = n := by
                rw [← hval]
                exact valOf_eq (by rw [i1 x hn.1, Py.dget_dset, if_pos rfl])
              refine ⟨.cons ⟨rfl, ?_⟩ j1, fun x' m' hm' => ?_⟩
              · show Val.value _ _ = (n : Int)
                rw [varPlus_value, hx, add_zero]
              · rcases List.mem_cons.1 hm' with he | hm'
                · cases he; rw [hx]; omega
                · exact j2 x' m' hm'
          · cases hf

theorem subst_val {K : Type} [CommRing K] [DecidableEq K] {P : Nat → Prop} {subs : Nat → Option (Val K)} {a v : Val K} (ha : LinIn P a) (hv : a.subst subs = .ok v) (ρ : Nat → K) :
    Val.value ρ v = Val.value (substAssign subs ρ) a := by
  match a with
  | .num k => cases hv; rfl
  | .expr e =>
    have hne : ∀ t ∈ e.terms, t.vars ≠ [] := by
      intro t ht
      obtain ⟨x, hx, -⟩ := ha t ht
      simp [hx]
    by_cases h : e.terms.isEmpty = true
    · rw [Val.subst, if_pos h] at hv
      cases hv
      have : e.terms = [] := by simpa using h
      simp [Val.value, Expr.value, this]
    · obtain ⟨w, hw, hwv⟩ := substSum_value subs ρ e.terms (.num 0) hne
      rw [Val.subst, if_neg h] at hv
      simp only [Expr.subst, hw, Except.ok.injEq] at hv
      subst hv
      rw [add_value, hwv]
      simp [Val.value, Expr.value, termsValue]

theorem next_is {η : Nat → Int} {D : Nat → Prop} {g f : List (Blk σ V)} {vs u} (h : GM D g vs f u) {a : List (Nat × V)}
    (ha : ∀ x, D x → ∃ v, Py.dget a x = some v) : ∀ {u' : List (Blk σ Nat)} {next : List (Option V)},
    HalfIs (valOf η a) f u' → substNums (Py.dget a) (f.map (·.num)) = some next → NumsIs η next u' := by
  induction h with
  | nil => intro u' next h hs; cases h; cases hs; exact .nil
  | @inf b g vs f u h ih =>
    intro u' next h hs
    cases h with
    | cons h1 h2 =>
      simp only [List.map_cons, substNums] at hs
      cases hr : substNums (Py.dget a) (f.map (·.num)) with
      | none => rw [hr] at hs; cases hs
      | some n1 =>
        rw [hr] at hs; cases hs
        refine .cons ?_ (ih h2 hr)
        have := numIs_none h1.2
        rw [this]; trivial
  | @one b w g vs f u h3 _ h ih =>
    intro u' next h hs
    cases h with
    | cons h4 h5 =>
      simp only [List.map_cons, substNums] at hs
      cases hw : w.subst (Py.dget a) with
      | error _ => simp [hw] at hs
      | ok w' =>
        cases hr : substNums (Py.dget a) (f.map (·.num)) with
        | none => simp [hr, hw] at hs
        | some n1 =>
          simp only [hw, hr, Option.some.injEq] at hs
          subst hs
          refine .cons ?_ (ih h5 hr)
          obtain ⟨n, e, hv⟩ := numIs_some h4.2
          rw [e]
          show Val.value η w' = (n : Int)
          rw [subst_val h3 hw, ← hv]
          refine lin_value_congr h3 (fun x hx => ?_)
          obtain ⟨v, hv⟩ := ha x hx
          simp [substAssign, valOf, hv]
  | @many b x m w n g vs f u h1 h2 h3 h ih =>
    intro u' next h hs
    cases h with
    | cons h4 h5 =>
      simp only [List.map_cons, substNums] at hs
      cases hw : w.subst (Py.dget a) with
      | error _ => simp [hw] at hs
      | ok w' =>
        cases hr : substNums (Py.dget a) (f.map (·.num)) with
        | none => simp [hr, hw] at hs
        | some n1 =>
          simp only [hw, hr, Option.some.injEq] at hs
          subst hs
          refine .cons ?_ (ih h5 hr)
          obtain ⟨n, e, hv⟩ := numIs_some h4.2
          rw [e]
          show Val.value η w' = (n : Int)
          rw [subst_val h3 hw, ← hv]
          refine lin_value_congr h3 (fun x hx => ?_)
          obtain ⟨v, hv⟩ := ha x hx
          simp [substAssign, valOf, hv]

theorem listEq_counts {η : Nat → Int} : ∀ {as bs : List (Option V)} {u u' : List (Blk σ Nat)}, NumsIs η as u → NumsIs η bs u' →
    listEq as bs = true → counts u = counts u'
  | [], [], u, u', h1, h2, _ => by cases h1; cases h2; rfl
  | none :: as, none :: bs, u, u', h1, h2, he => by
    cases h1 with
    | cons h3 h4 =>
      cases h2 with
      | cons h5 h6 =>
        have := listEq_counts h4 h6 (by simpa [listEq] using he)
        simp only [counts, List.map_cons] at this ⊢
        rw [numIs_none h3, numIs_none h5, this]
  | some a :: as, some b :: bs, u, u', h1, h2, he => by
    simp only [listEq, Bool.and_eq_true] at he
    cases h1 with
    | cons h3 h4 =>
      cases h2 with
      | cons h5 h6 =>
        obtain ⟨n, e, hv⟩ := numIs_some h3
        obtain ⟨n', e', hv'⟩ := numIs_some h5
        have h7 := eq_value he.1 η
        have : n = n' := by omega
        subst this
        have h8 := listEq_counts h4 h6 he.2
        simp only [counts, List.map_cons] at h8 ⊢
        rw [e, e', h8]
  | [], some _ :: _, _, _, _, _, he => by simp [listEq] at he
  | [], none :: _, _, _, _, _, he => by simp [listEq] at he
  | some _ :: _, [], _, _, _, _, he => by simp [listEq] at he
  | none :: _, [], _, _, _, _, he => by simp [listEq] at he
  | some _ :: _, none :: _, _, _, _, _, he => by simp [listEq] at he
  | none :: _, some _ :: _, _, _, _, _, he => by simp [listEq] at he

/-! ## Writing the exponents back -/

/-- same symbols, and the same blocks are infinite -/
abbrev Same {A B : Type} (t : List (Blk σ A)) (u : List (Blk σ B)) : Prop :=
  List.Forall₂ (fun (a : Blk σ A) (b : Blk σ B) => a.sym = b.sym ∧ (a.num = none ↔ b.num = none)) t u

theorem same_is {η : Nat → Int} {t : List (Blk σ V)} {u : List (Blk σ Nat)} (h : HalfIs η t u) : Same t u := by
  induction h with
  | nil => exact .nil
  | @cons a b t u h1 h2 ih =>
    refine .cons ⟨h1.1, ?_⟩ ih
    have := h1.2
    cases ha : a.num <;> cases hb : b.num <;> simp [ha, hb, NumIs] at this ⊢

theorem same_gm {D : Nat → Prop} {g f : List (Blk σ V)} {vs u} (h : GM D g vs f u) : Same g u := by
  induction h with
  | nil => exact .nil
  | inf a h ih => exact .cons ⟨rfl, by simp⟩ ih
  | one a _ _ h ih => exact .cons ⟨rfl, by simp⟩ ih
  | many a n h1 h2 h3 h ih => exact .cons ⟨rfl, by simp⟩ ih

theorem same_trans {A B C : Type} {t : List (Blk σ A)} {u : List (Blk σ B)} (h : Same t u) : ∀ {g : List (Blk σ C)}, Same g u →
    ∀ {D : Type} {w : List (Blk σ D)}, Same g w → Same t w := by
  induction h with
  | nil => intro g h1 D w h2; cases h1; cases h2; exact .nil
  | cons h0 h ih =>
    intro g h1 D w h2
    cases h1 with
    | cons h3 h4 =>
      cases h2 with
      | cons h5 h6 =>
        exact .cons ⟨h0.1.trans (h3.1.symm.trans h5.1), h0.2.trans (h3.2.symm.trans h5.2)⟩ (ih h4 h6)

theorem set_is {η : Nat → Int} {z : σ} {t : List (Blk σ V)} (ht : Ends z t) : ∀ {u : List (Blk σ Nat)}, Same t u →
    ∀ {rest : List (Blk σ Nat)} {cs : List (Option V)}, NumsIs η cs (u ++ rest) →
    HalfIs η (setCounts t cs).1 u ∧ Ends z (setCounts t cs).1 ∧ NumsIs η (setCounts t cs).2 rest := by
  induction ht with
  | last =>
    intro u hs rest cs hc
    cases hs with
    | @cons _ b _ _ h1 h2 =>
      cases h2
      cases hc with
      | @cons c _ cs _ h3 h4 =>
        have hb : b.num = none := h1.2.1 rfl
        rw [hb] at h3
        have : c = none := by cases c with
          | none => rfl
          | some v => exact h3.elim
        subst this
        refine ⟨.cons ⟨h1.1, by rw [hb]; trivial⟩ ?_, ?_, ?_⟩
        · cases cs <;> exact .nil
        · cases cs <;> exact .last
        · cases cs <;> exact h4
  | @cons a v h he ih =>
    intro u hs rest cs hc
    cases hs with
    | @cons _ b _ _ h1 h2 =>
      cases hc with
      | @cons c _ cs _ h3 h4 =>
        obtain ⟨i1, i2, i3⟩ := ih h2 h4
        cases c with
        | none =>
          cases hb : b.num with
          | none => exact absurd (h1.2.2 hb) (by simp)
          | some n => rw [hb] at h3; exact h3.elim
        | some v' => exact ⟨.cons ⟨h1.1, h3⟩ i1, .cons _ _ i2, i3⟩

/-! ## The loop -/

section
variable [Sums] [DecidableEq σ] [DecidableEq S] {T : Table} {Den : DC σ S → Config → Prop} {z : σ} {key : Strip σ S} {r : GenRule}
  {init res : ChainTape σ V} {vl vr : List (Option (Nat × Int))} {D : Nat → Prop} {η : Nat → Int}

omit [Sums] [DecidableEq S] in
theorem valOf_nonneg (hη : ∀ x, 0 ≤ η x) {u : ChainTape σ Nat} (hs : GShape D init res vl vr u) {a : List (Nat × V)}
    (f1 : ∀ x, x ∉ hvars init.left ++ hvars init.right → Py.dget a x = Py.dget [] x)
    (f5 : ∀ x m, some (x, m) ∈ vl ++ vr → m ≤ valOf η a x) (x : Nat) : 0 ≤ valOf η a x := by
  by_cases hx : x ∈ hvars init.left ++ hvars init.right
  · rw [← hvars_append] at hx
    obtain ⟨m, h1, h2⟩ := gm_var (gshape_all hs) x hx
    have := f5 x m h2
    omega
  · have e : Py.dget a x = none := f1 x hx
    simp only [valOf, e]
    exact hη x

omit [Sums] [DecidableEq σ] [DecidableEq S] in
theorem valOf_steps {a : List (Nat × V)} {w w' : W} (h : w.subst (subsQ a) = .ok w') :
    Val.value (qy η) w' = Val.value (qy (valOf η a)) w := by
  rw [subst_any h]
  congr 1
  funext x
  simp only [substAssign, subsQ, valOf, qy]
  cases Py.dget a x with
  | none => rfl
  | some v => exact toQ_value η v

omit [DecidableEq S] in
/-- one application -/
theorem gen_once (h : GenOK T Den z key r init res vl vr D) (hη : ∀ x, 0 ≤ η x) {u : ChainTape σ Nat}
    (hs : GShape D init res vl vr u) {cur : List (Option V)} (hc : NumsIs η cur (u.left ++ u.right)) {a : List (Nat × V)}
    (hf : fitsMin r.vars cur [] = .ok a) {cfg : Config} (hden : Den (tapeDC z u key.st) cfg) :
    ∃ u' n, GShape D init res vl vr u' ∧ 0 < n ∧ Den (tapeDC z u' key.st) (run T n cfg) ∧
      (∀ q, q ∈ r.states ↔ ∃ k, k < n ∧ VisitedAt T cfg q k) ∧
      (∀ w, r.steps.subst (subsQ a) = .ok w → SumsRight → Val.value (qy η) w = n) ∧
      ∀ next, substNums (Py.dget a) r.result = some next → NumsIs η next (u'.left ++ u'.right) := by
  have hall := gshape_all hs
  obtain ⟨f1, f2, f3⟩ := fit_is hη hall h.vars hc hf
  rw [hvars_append] at f1 f2 f3
  obtain ⟨f4, f5⟩ := f3 h.nodup
  obtain ⟨f6, f7⟩ := halfIs_split hs.left f4
  obtain ⟨u', n, g1, g2, g3, g4, g5⟩ := h.sound _ (valOf_nonneg hη hs f1 f5) f5 u ⟨hs.dir.symm, f6, f7⟩ cfg hden
  refine ⟨u', n, ⟨g1.dir.symm.trans h.dirs, gm_res hs.left g1.left, gm_res hs.right g1.right⟩, g2, g3, g4,
    fun w hw hs => (valOf_steps hw).trans (g5 hs), fun next hn => ?_⟩
  rw [h.result] at hn
  exact next_is hall (fun x hx => f2 x (h.dom x hx)) (halfIs_append g1.left g1.right) hn

omit [DecidableEq S] in
theorem genLoop_is (h : GenOK T Den z key r init res vl vr D) (live : ∀ q cfg, Den q cfg → cfg.state ≠ none)
    (hη : ∀ x, 0 ≤ η x) (cfg : Config) : ∀ (fuel : Nat) (cur : List (Option V)) (u : ChainTape σ Nat) (w : W) (app : Bool) (n : Nat)
    (e : GenEnd), GShape D init res vl vr u → NumsIs η cur (u.left ++ u.right) → Den (tapeDC z u key.st) (run T n cfg) →
    (app = false → n = 0) → (SumsRight → Val.value (qy η) w = n) → (app = true → 0 < n ∧ ∀ q, q ∈ r.states ↔ ∃ k, k < n ∧ VisitedAt T cfg q k) →
    genApplyLoop r fuel cur w app = .ok e →
    match e with
    | .inf => NeverHalts T cfg ∧ ∀ q, VisitedForever T cfg q ↔ q ∈ r.states
    | .stop cur' w' app' => ∃ u' n, GShape D init res vl vr u' ∧ NumsIs η cur' (u'.left ++ u'.right) ∧
        Den (tapeDC z u' key.st) (run T n cfg) ∧ (SumsRight → Val.value (qy η) w' = n) ∧
        (app' = true → 0 < n ∧ ∀ q, q ∈ r.states ↔ ∃ k, k < n ∧ VisitedAt T cfg q k) := by
  intro fuel
  induction fuel with
  | zero =>
    intro cur u w app n e hs hc hd h0 hw0 h1 hg
    unfold genApplyLoop at hg
    split at hg
    · cases hg
    · cases hg; exact ⟨u, n, hs, hc, hd, hw0, h1⟩
    · cases hg; exact ⟨u, n, hs, hc, hd, hw0, h1⟩
  | succ fuel ih =>
    intro cur u w app n e hs hc hd h0 hw0 h1 hg
    unfold genApplyLoop at hg
    split at hg
    · cases hg
    · cases hg; exact ⟨u, n, hs, hc, hd, hw0, h1⟩
    next a hf =>
    simp only at hg
    split at hg
    · next w' next hw hn =>
      obtain ⟨u', m, g1, g2, g3, g4, gw, g5⟩ := gen_once h hη hs hc hf hd
      have g6 := g5 next hn
      split at hg
      · next heq =>
        cases hg
        have hu : u' = u := gshape_eq g1 hs (gm_eq (gshape_all g1) (gshape_all hs) (listEq_counts g6 hc heq))
        subst hu
        obtain ⟨l1, l2⟩ := loop_forever (T := T) (P := fun c => Den (tapeDC z u' key.st) c) (states := r.states) (fun c hc => live _ _ hc)
          (fun c hP => by
            obtain ⟨u2, m, k1, k2, k3, k4, -, k5⟩ := gen_once h hη hs hc hf hP
            have : u2 = u' := gshape_eq k1 hs (gm_eq (gshape_all k1) (gshape_all hs) (listEq_counts (k5 next hn) hc heq))
            subst this
            exact ⟨m, k2, k3, k4⟩) _ hd
        exact ⟨neverHalts_of_run l1, fun q => visitedForever_run.symm.trans (l2 q)⟩
      · refine ih next u' _ true (n + m) e g1 g6 (by rw [run_add]; exact g3) (by simp)
          (fun hs => by rw [add_value, hw0 hs, gw _ hw hs]; push_cast; rfl) (fun _ => ⟨by omega, fun q => ?_⟩) hg
        rw [visited_add, ← g4 q]
        cases app with
        | false =>
          have := h0 rfl
          subst this
          simp
        | true => rw [← (h1 rfl).2 q]; simp
    · cases hg

omit [DecidableEq S] in
/-- a rule that never makes a run shorter goes on for ever -/
theorem gen_inf (h : GenOK T Den z key r init res vl vr D) (live : ∀ q cfg, Den q cfg → cfg.state ≠ none)
    (hη : ∀ x, 0 ≤ η x) {u : ChainTape σ Nat} (hs : GShape D init res vl vr u) {cur : List (Option V)}
    (hc : NumsIs η cur (u.left ++ u.right)) {a : List (Nat × V)} (hf : fitsMin r.vars cur [] = .ok a) {cfg : Config}
    (hden : Den (tapeDC z u key.st) cfg) (hi : r.infinite = true) :
    NeverHalts T cfg ∧ ∀ q, VisitedForever T cfg q ↔ q ∈ r.states := by
  refine loop_forever (T := T) (states := r.states) (P := fun c => ∃ (y : Nat → Int) (u : ChainTape σ Nat), (∀ x m, some (x, m) ∈ vl ++ vr → m ≤ y x) ∧ (∀ x, 0 ≤ y x) ∧
    TapeIs y init u ∧ GShape D init res vl vr u ∧ Den (tapeDC z u key.st) c) (fun c ⟨y, u, _, _, _, _, hd⟩ => live _ _ hd) ?_ cfg ?_
  · rintro c ⟨y, u, h1, h2, h3, h4, h5⟩
    obtain ⟨u', n, g1, g2, g3, g4, -⟩ := h.sound y h2 h1 u h3 c h5
    have hs' : GShape D init res vl vr u' := ⟨g1.dir.symm.trans h.dirs, gm_res h4.left g1.left, gm_res h4.right g1.right⟩
    have hall := gshape_all h4
    have hi' := h.infinite hi
    rw [h.result] at hi'
    obtain ⟨a', ha'⟩ := fit_inf hall h2 h1 hi' (halfIs_append g1.left g1.right) []
    have hf := fit_ok (gshape_all hs') []
    rw [ha'] at hf
    obtain ⟨f1, f2, f3⟩ := hf
    rw [hvars_append] at f1 f2 f3
    obtain ⟨f4, f5⟩ := f3 h.nodup
    obtain ⟨f6, f7⟩ := halfIs_split hs'.left f4
    refine ⟨n, g2, ⟨numOf a', u', f5, ?_, ⟨hs'.dir.symm, f6, f7⟩, hs', g3⟩, g4⟩
    intro x
    by_cases hx : x ∈ hvars init.left ++ hvars init.right
    · rw [← hvars_append] at hx
      obtain ⟨m, h1, h2⟩ := gm_var hall x hx
      have := f5 x m h2
      omega
    · have e : Py.dget a' x = none := f1 x hx
      simp [numOf, e]
  · have hall := gshape_all hs
    obtain ⟨f1, f2, f3⟩ := fit_is hη hall h.vars hc hf
    rw [hvars_append] at f1 f2 f3
    obtain ⟨f4, f5⟩ := f3 h.nodup
    obtain ⟨f6, f7⟩ := halfIs_split hs.left f4
    refine ⟨valOf η a, u, f5, ?_, ⟨hs.dir.symm, f6, f7⟩, hs, hden⟩
    exact valOf_nonneg hη hs f1 f5

omit [DecidableEq S] in
/-- **Applying a general rule.** -/
theorem genApply_ok (live : ∀ q cfg, Den q cfg → cfg.state ≠ none) (h : GenOK T Den z key r init res vl vr D)
    {tape : ChainTape σ V} {u : ChainTape σ Nat} (hkey : key = strip valIsOne key.st tape) (he : EndsT z tape)
    (hη : ∀ x, 0 ≤ η x) (hu : TapeIs η tape u) (cfg : Config) (hden : Den (tapeDC z u key.st) cfg) (o : Opts) {out : Res σ}
    (ha : applyGen o r tape = .ok out) : ResOK T Den z η key.st cfg out ∧ ResEnds z tape.dir out := by
  have hsh : strip valIsOne key.st init = strip valIsOne key.st tape := h.shape.symm.trans hkey
  unfold strip at hsh
  simp only [Strip.mk.injEq, true_and] at hsh
  obtain ⟨hdir, hl, hr⟩ := hsh
  have hs : GShape D init res vl vr u :=
    ⟨(hdir.trans hu.dir).symm, gmV h.left (he .L) hu.left hl.symm, gmV h.right (he .R) hu.right hr.symm⟩
  have hc : NumsIs η ((tape.left ++ tape.right).map (·.num)) (u.left ++ u.right) := nums_of (halfIs_append hu.left hu.right)
  unfold applyGen at ha
  split at ha
  · cases ha
  simp only at ha
  split at ha
  · cases ha
  · next a hini =>
    cases ha
    by_cases hi : r.infinite = true
    · rw [if_pos hi] at hini
      exact ⟨gen_inf h live hη hs hc hini hden hi, trivial⟩
    · rw [if_neg hi] at hini; cases hini
  · split at ha
    · cases ha
    · cases ha
    · next hg =>
      cases ha
      exact ⟨genLoop_is h live hη cfg _ _ u _ false 0 _ hs hc hden (fun _ => rfl) (fun _ => by simp [value_num]) (by simp) hg, trivial⟩
    · cases ha
    · next cur w hg =>
      cases ha
      obtain ⟨u', n, g1, g2, g3, gw, g4⟩ := genLoop_is h live hη cfg _ _ u _ false 0 _ hs hc hden (fun _ => rfl)
        (fun _ => by simp [value_num]) (by simp) hg
      obtain ⟨g5, g6⟩ := g4 rfl
      have sL : Same tape.left u'.left := same_trans (same_is hu.left) (same_gm hs.left) (same_gm g1.left)
      have sR : Same tape.right u'.right := same_trans (same_is hu.right) (same_gm hs.right) (same_gm g1.right)
      obtain ⟨a1, a2, a3⟩ := set_is (he .L) sL g2
      obtain ⟨b1, b2, -⟩ := set_is (rest := []) (he .R) sR (by simpa using a3)
      obtain ⟨uL, fL1, fL2⟩ := filter_is a1 z
      obtain ⟨uR, fR1, fR2⟩ := filter_is b1 z
      refine ⟨⟨⟨u.dir, uL, uR⟩, n, ⟨hu.dir, fL1, fR1⟩, g5, ?_, g6, gw⟩, fun d => ?_, rfl⟩
      · have : tapeDC z (⟨u.dir, uL, uR⟩ : ChainTape σ Nat) key.st = tapeDC z u' key.st := by
          unfold tapeDC
          rw [hs.dir, g1.dir]
          congr 1
          funext d
          cases d
          · exact fL2
          · exact fR2
        rw [this]
        exact g3
      · cases d
        · exact filter_ends a2
        · exact filter_ends b2
end

end Model.Recursive

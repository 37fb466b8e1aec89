import Verif.Lemmas.RecLin
import Verif.Spec.RecursiveStrict

/-! # What `prove_rule` proves with rules -/

namespace Model.Recursive
open Spec Model Model.Expr Model.Prover Model.RuleFunc
variable {σ S : Type}

/-! ## The tape to be generalised -/

/-- A half tape that generalises: its lengths are positive numbers; and what it stands for. -/
inductive NumHalf (z : σ) : List (Blk σ V) → List (Blk σ Nat) → Prop
  | last : NumHalf z [⟨z, none⟩] [⟨z, none⟩]
  | cons (a : σ) {n : Nat} {t h} : 1 ≤ n → NumHalf z t h → NumHalf z (⟨a, some (.num n)⟩ :: t) (⟨a, some n⟩ :: h)

theorem num_ne {z : σ} {t h} (hn : NumHalf z t h) : t ≠ [] ∧ h ≠ [] := by cases hn <;> simp

theorem num_info {z : σ} {t h} (hn : NumHalf z t h) : t.dropLast.map (info valIsOne) = h.dropLast.map (info natIsOne) := by
  induction hn with
  | last => rfl
  | @cons a n t h h1 hn ih =>
    rw [dropLast_map _ (num_ne hn).1, dropLast_map _ (num_ne hn).2, ih]
    congr 1
    simp only [info, valIsOne, Val.eq, natIsOne]
    norm_cast

theorem num_of {z : σ} {y : Nat → Int} {t : List (Blk σ V)} (he : Ends z t) : ∀ {u : List (Blk σ Nat)} {nv : Nat} {r},
    HalfIs y t u → genHalf t nv = some r → NumHalf z t u := by
  induction he with
  | last =>
    intro u nv r hu hg
    cases hu with
    | @cons _ b _ _ h1 h2 =>
      cases h2
      obtain ⟨bs, bn⟩ := b
      obtain ⟨h1, h3⟩ := h1
      have := numIs_none h3
      simp only at h1 this
      subst h1; subst this
      exact .last
  | @cons a v t he ih =>
    intro u nv r hu hg
    cases hu with
    | @cons _ b _ u h1 h2 =>
      obtain ⟨bs, bn⟩ := b
      obtain ⟨h1, h3⟩ := h1
      simp only at h1 h3
      subst h1
      obtain ⟨n, rfl, hv⟩ := numIs_some h3
      unfold genHalf at hg
      cases v with
      | expr e => simp at hg
      | num k =>
        simp only at hg
        rw [value_num] at hv
        subst hv
        have main : ∀ nv' r', genHalf t nv' = some r' → 1 ≤ n → NumHalf z (⟨a, some (.num n)⟩ :: t) (⟨a, some n⟩ :: u) :=
          fun nv' r' h hn => .cons a hn (ih h2 h)
        split at hg
        · next h1 =>
          cases hr : genHalf t nv with
          | none => rw [hr] at hg; cases hg
          | some r' => exact main _ _ hr (by omega)
        split at hg
        · next h1 =>
          cases hr : genHalf t (nv + 1) with
          | none => rw [hr] at hg; cases hg
          | some r' => exact main _ _ hr (by omega)
        split at hg
        · cases hg
        · next h1 =>
          cases hr : genHalf t (nv + 1) with
          | none => rw [hr] at hg; cases hg
          | some r' => exact main _ _ hr (by omega)

theorem genHalf_num {z : σ} {t : List (Blk σ V)} {h : List (Blk σ Nat)} (hn : NumHalf z t h) : ∀ nv : Nat,
    ∃ g l nv', genHalf t nv = some (g, l.map (fun e => (e.1, some e.2)), nv') ∧ GenHalf z h g l ∧ nv ≤ nv' ∧
      (∀ e ∈ l, nv ≤ e.1 ∧ e.1 < nv') ∧ (l.map (·.1)).Nodup := by
  induction hn with
  | last => intro nv; exact ⟨_, [], nv, rfl, .last, le_refl _, by simp, by simp⟩
  | @cons a n t h hn hr ih =>
    intro nv
    unfold genHalf
    by_cases h1 : n = 1
    · subst h1
      obtain ⟨g, l, nv', e, h2, h3, h4, h5⟩ := ih nv
      simp only [Nat.cast_one, if_pos, e, Option.map_some]
      exact ⟨_, l, nv', rfl, .one a h2, h3, h4, h5⟩
    · obtain ⟨g, l, nv', e, h2, h3, h4, h5⟩ := ih (nv + 1)
      have key : ∀ c : Int, 2 ≤ c → c ≤ n → ∃ g' l' nv'',
          some ((⟨a, some (.expr (varPlus nv c))⟩ : Blk σ V) :: g, (nv, some c) :: l.map (fun e => (e.1, some e.2)), nv') =
            some (g', l'.map (fun e : Nat × Int => (e.1, some e.2)), nv'') ∧ GenHalf z (⟨a, some n⟩ :: h) g' l' ∧
          nv ≤ nv'' ∧ (∀ e ∈ l', nv ≤ e.1 ∧ e.1 < nv'') ∧ (l'.map (·.1)).Nodup := by
        intro c hc hcn
        refine ⟨_, (nv, c) :: l, nv', rfl, .many a hc hcn h2, by omega, ?_, ?_⟩
        · intro e he
          rcases List.mem_cons.1 he with rfl | he
          · exact ⟨le_refl _, by show nv < nv'; omega⟩
          · have := h4 e he; omega
        · rw [List.map_cons, List.nodup_cons]
          refine ⟨?_, h5⟩
          intro hm
          obtain ⟨e, he, heq⟩ := List.mem_map.1 hm
          have := (h4 e he).1
          simp only at heq
          omega
      have h1' : ¬ ((n : Int) = 1) := by omega
      simp only [if_neg h1', e, Option.map_some]
      by_cases h6 : (n : Int) > 2 ^ 20
      · rw [if_pos h6]
        exact key (2 ^ 20) (by norm_num) (le_of_lt h6)
      · rw [if_neg h6, if_neg (by omega)]
        exact key n (by omega) (le_refl _)

/-- the generalised tape with other values for other variables -/
theorem gen_congr {z : σ} {h g l} (hg : GenHalf z h g l) {y y' : Nat → Int} : ∀ {u : List (Blk σ Nat)},
    (∀ e ∈ l, y' e.1 = y e.1) → HalfIs y g u → HalfIs y' g u := by
  induction hg with
  | last =>
    intro u _ hu
    cases hu with
    | cons h1 h2 => cases h2; exact .cons ⟨h1.1, by (have := numIs_none h1.2; rw [this]; trivial)⟩ .nil
  | one a h ih =>
    intro u he hu
    cases hu with
    | cons h1 h2 =>
      obtain ⟨n, hn, hv⟩ := numIs_some h1.2
      exact .cons ⟨h1.1, by rw [hn]; exact hv⟩ (ih he h2)
  | @many a n x c h g l h1 h2 h3 ih =>
    intro u he hu
    cases hu with
    | cons h4 h5 =>
      obtain ⟨n, hn, hv⟩ := numIs_some h4.2
      refine .cons ⟨h4.1, ?_⟩ (ih (fun e h => he e (by simp [h])) h5)
      rw [hn]
      show Val.value y' _ = (n : Int)
      rw [varPlus_value] at hv ⊢
      rw [he (x, c) (by simp)]; exact hv

/-- the generalised tape stands for the tape itself -/
theorem gen_self {z : σ} {h g l} (hg : GenHalf z h g l) (y0 : Nat → Int) (h0 : ∀ x, 0 ≤ y0 x) : (l.map (·.1)).Nodup →
    ∃ y : Nat → Int, (∀ x, 0 ≤ y x) ∧ HalfIs y g h ∧ ∀ x, x ∉ l.map (·.1) → y x = y0 x := by
  induction hg with
  | last => intro _; exact ⟨y0, h0, .cons ⟨rfl, trivial⟩ .nil, fun _ _ => rfl⟩
  | one a h ih =>
    intro hnd
    obtain ⟨y, h1, h2, h3⟩ := ih hnd
    exact ⟨y, h1, .cons ⟨rfl, rfl⟩ h2, h3⟩
  | @many a n x c h g l hc hcn hg ih =>
    intro hnd
    rw [List.map_cons, List.nodup_cons] at hnd
    obtain ⟨y, h1, h2, h3⟩ := ih hnd.2
    refine ⟨fun v => if v = x then n - c else y v, fun v => ?_, .cons ⟨rfl, ?_⟩ (gen_congr hg (y := y) (fun e he => ?_) h2), fun v hv => ?_⟩
    · show 0 ≤ if v = x then (n : Int) - c else y v
      split
      · omega
      · exact h1 v
    · show Val.value _ (.expr (varPlus x c)) = (n : Int)
      rw [varPlus_value]; simp
    · have : e.1 ≠ x := fun hx => hnd.1 (hx ▸ List.mem_map.2 ⟨e, he, rfl⟩)
      simp [this]
    · simp only [List.map_cons, List.mem_cons, not_or] at hv
      simp only [if_neg hv.1]
      exact h3 v hv.2

/-! ## Differences of a proof that used rules -/

theorem diffNum_true {v w : V} {d : Option V} (h : diffNum (some v) (some w) = some (d, true)) :
    ∃ k, d = some (.num k) ∧ ∀ y, Val.value y v = Val.value y w + k := by
  unfold diffNum at h
  simp only at h
  cases hs : v.sub w with
  | num k =>
    rw [hs] at h
    cases h
    refine ⟨k, rfl, fun y => ?_⟩
    have := sub_value y v w
    rw [hs, value_num] at this
    omega
  | expr e =>
    rw [hs] at h
    simp only at h
    split at h
    · next he =>
      cases h
      refine ⟨e.const, rfl, fun y => ?_⟩
      have := sub_value y v w
      rw [hs, value_expr, value_eq, List.isEmpty_iff.1 he] at this
      simp only [termsValue, List.map_nil, List.sum_nil] at this
      omega
    · cases h

theorem meta_half {z : σ} {h g l} (hg : GenHalf z h g l) : ∀ {f d : List (Blk σ V)}, Ends z f →
    f.dropLast.map (info valIsOne) = g.dropLast.map (info valIsOne) → diffHalf f g = some (d, true) →
    ∃ l', DHalf z g d l' ∧ l'.map (·.1) = l.map (·.1) ∧ ∀ y u, HalfIs y f u → HalfPlus y g d u := by
  induction hg with
  | last =>
    intro f d hf he hd
    cases hf with
    | last =>
      cases hd
      refine ⟨[], .last, rfl, fun y u hu => ?_⟩
      cases hu with
      | cons h1 h2 => cases h2; exact ⟨h1.1, trivial, by (have := numIs_none h1.2; rw [this]; trivial)⟩
    | cons a v hf => rw [dropLast_map _ hf.ne] at he; simp at he
  | @one a h g l hg ih =>
    intro f d hf he hd
    rw [dropLast_map _ (genHalf_ne hg).2] at he
    cases hf with
    | last => simp at he
    | @cons b v f hf =>
      rw [dropLast_map _ hf.ne] at he
      obtain ⟨h1, h2⟩ := List.cons.inj he
      unfold diffHalf at hd
      split at hd
      · next d0 c0 ds cs e1 e2 =>
        simp only [Option.some.injEq, Prod.mk.injEq, Bool.and_eq_true] at hd
        obtain ⟨rfl, rfl, rfl⟩ := hd
        obtain ⟨k, rfl, hk⟩ := diffNum_true e1
        obtain ⟨l', h3, h4, h5⟩ := ih hf h2 e2
        rcases info_some (a := b) (v := v) with ⟨hv, e⟩ | ⟨-, e⟩
        · rw [e] at h1
          simp at h1; subst h1
          have h0 : k = 0 := by
            have := hk (fun _ => 0)
            rw [eq_value hv, value_num] at this
            omega
          subst h0
          refine ⟨l', .one b h3, h4, fun y u hu => ?_⟩
          cases hu with
          | @cons _ c _ u h6 h7 =>
            obtain ⟨n, hn, hv'⟩ := numIs_some h6.2
            obtain ⟨cs, cn⟩ := c
            simp only at hn
            subst hn
            exact ⟨h6.1, h5 y u h7, by show Val.value y (.num 1) + Val.value y (.num 0) = (n : Int); rw [← hv', hk y]; rfl⟩
        · rw [e] at h1; simp at h1
      · cases hd
  | @many a n x c h g l hc hcn hg ih =>
    intro f d hf he hd
    rw [dropLast_map _ (genHalf_ne hg).2, info_var] at he
    cases hf with
    | last => simp at he
    | @cons b v f hf =>
      rw [dropLast_map _ hf.ne] at he
      obtain ⟨h1, h2⟩ := List.cons.inj he
      unfold diffHalf at hd
      split at hd
      · next d0 c0 ds cs e1 e2 =>
        simp only [Option.some.injEq, Prod.mk.injEq, Bool.and_eq_true] at hd
        obtain ⟨rfl, rfl, rfl⟩ := hd
        obtain ⟨k, rfl, hk⟩ := diffNum_true e1
        obtain ⟨l', h3, h4, h5⟩ := ih hf h2 e2
        rcases info_some (a := b) (v := v) with ⟨hv, e⟩ | ⟨-, e⟩
        · rw [e] at h1; simp at h1
        · rw [e] at h1
          simp at h1; subst h1
          refine ⟨(x, c, k) :: l', .many b h3, by simp [h4], fun y u hu => ?_⟩
          cases hu with
          | @cons _ c' _ u h6 h7 =>
            obtain ⟨n, hn, hv'⟩ := numIs_some h6.2
            obtain ⟨cs, cn⟩ := c'
            simp only at hn
            subst hn
            exact ⟨h6.1, h5 y u h7, by show Val.value y _ + Val.value y (.num k) = (n : Int); rw [← hv', hk y]; rfl⟩
      · cases hd

/-! ## Linear rules -/

theorem tryLinear_up : ∀ (vs : List (Option (Nat × Int))) (rs : List (Option V)) (l : List (Option (Nat × Int))),
    vs.length = rs.length → tryLinear vs rs = .ok l → VarsUp l vs
  | [], rs, l, hl, h => by
    cases rs with
    | nil => cases h; exact .nil
    | cons r rs => simp at hl
  | none :: vs, [], l, hl, h => by simp at hl
  | some (x, m) :: vs, [], l, hl, h => by simp at hl
  | none :: vs, r :: rs, l, hl, h => by
    unfold tryLinear at h
    cases ht : tryLinear vs rs with
    | ok l' =>
      rw [ht] at h
      cases h
      exact .cons (Or.inl ⟨rfl, rfl⟩) (tryLinear_up vs rs l' (by simpa using hl) ht)
    | fail => rw [ht] at h; cases h
    | raise => rw [ht] at h; cases h
  | some (x, m) :: vs, r :: rs, l, hl, h => by
    unfold tryLinear at h
    cases r with
    | none => cases h
    | some v =>
      simp only at h
      split at h
      · cases h
      split at h
      · cases h
      next coef const hs =>
      split at h
      · cases h
      next m' hm =>
      cases ht : tryLinear vs rs with
      | fail => rw [ht] at h; cases h
      | raise => rw [ht] at h; cases h
      | ok l' =>
        rw [ht] at h
        cases h
        refine .cons (Or.inr ⟨x, m', m, rfl, rfl, ?_⟩) (tryLinear_up vs rs l' (by simpa using hl) ht)
        split at hm
        · cases hm; exact le_refl _
        · cases hn : Mult.new m coef const with
          | error e => rw [hn] at hm; cases hm
          | ok f =>
            rw [hn] at hm
            cases hm
            unfold Mult.new at hn
            split at hn
            · cases hc : Mult.computeMin coef const m with
              | error e => rw [hc] at hn; cases hn
              | ok k =>
                rw [hc] at hn
                cases hn
                unfold Mult.computeMin at hc
                split at hc
                · cases hc; exact le_refl _
                · split at hc
                  · cases hc
                  · cases hc
                    show m ≤ if _ then _ else _
                    split <;> omega
            · cases hn

/-! ## General rules of a proof that used rules -/

theorem gen_lin {z : σ} {D : Nat → Prop} {mins : List (Nat × Option Int)} {k : Nat → Int} {subs : Nat → Option V}
    (hs : ∀ x, D x → subs x = some (.expr (varPlus x (k x)))) {h g l} (hg : GenHalf z h g l) : ∀ {f : List (Blk σ V)}, Ends z f →
    LinH D f → f.dropLast.map (info valIsOne) = g.dropLast.map (info valIsOne) → (∀ e ∈ l, D e.1) →
    (∀ e ∈ l, Py.dget mins e.1 = some (some 1) ∧ k e.1 = - e.2) →
    ∃ vs res init, genVars mins g = some (vs, l.map (fun e => (e.1, .expr (varPlus e.1 (- e.2))))) ∧
      substNums subs (f.map (·.num)) = some (res.map (·.num)) ∧ GRHalf z D init vs res ∧
      hvars init = l.map (·.1) ∧ vs.length = (res.map (·.num)).length ∧
      init.dropLast.map (info valIsOne) = g.dropLast.map (info valIsOne) ∧ init ≠ [] ∧
      (∀ e ∈ l, some (e.1, e.2 - 1 + 1) ∈ vs) ∧
      ∀ (y ρ : Nat → Int), (∀ x, D x → ρ x = y x + k x) → (ρ = substAssign subs y) → ∀ u,
        (HalfIs y init u → HalfIs ρ g u) ∧ (HalfIs ρ f u → HalfIs y res u) := by
  have hs' : ∀ x, D x → ∃ w, subs x = some w ∧ LinIn D w := fun x hx =>
    ⟨_, hs x hx, lin_mono (count_lin (.var x (k x))) (fun y hy => by simp at hy; exact hy ▸ hx)⟩
  induction hg with
  | last =>
    intro f hf hlin he hD hm
    cases hf with
    | last =>
      refine ⟨[none], [⟨z, none⟩], [⟨z, none⟩], rfl, rfl, .last, rfl, rfl, rfl, by simp, by simp, ?_⟩
      intro y ρ _ _ u
      refine ⟨fun h => ?_, fun h => ?_⟩
      · cases h with
        | cons h1 h2 => cases h2; exact .cons ⟨h1.1, by (have := numIs_none h1.2; rw [this]; trivial)⟩ .nil
      · cases h with
        | cons h1 h2 => cases h2; exact .cons ⟨h1.1, by (have := numIs_none h1.2; rw [this]; trivial)⟩ .nil
    | cons a v hf => rw [dropLast_map _ hf.ne] at he; simp at he
  | @one a h g l hg ih =>
    intro f hf hlin he hD hm
    rw [dropLast_map _ (genHalf_ne hg).2] at he
    cases hf with
    | last => simp at he
    | @cons b v f hf =>
      rw [dropLast_map _ hf.ne] at he
      obtain ⟨e1, e2⟩ := List.cons.inj he
      rw [linH_cons] at hlin
      obtain ⟨vs, res, init, h1, h2, h3, h4, h5, h6, h7, h8, h10⟩ := ih hf hlin.2 e2 hD hm
      obtain ⟨w', hw1, hw3, hw4⟩ := subst_lin (hlin.1 v rfl) hs'
      rcases info_some (a := b) (v := v) with ⟨hv, e⟩ | ⟨-, e⟩
      · rw [e] at e1
        simp at e1; subst e1
        have hone : ∀ ρ, Val.value ρ v = 1 := fun ρ => by rw [eq_value hv]; rfl
        refine ⟨none :: vs, ⟨b, some w'⟩ :: res, ⟨b, some (.num 1)⟩ :: init, ?_, ?_,
          .one b hw3 (fun ρ => by rw [hw4, hone]) h3, ?_, ?_, ?_, by simp, ?_, ?_⟩
        · simp [genVars, h1]
        · simp [substNums, hw1, h2]
        · simpa using h4
        · simp [h5]
        · rw [dropLast_map _ h7, dropLast_map _ (genHalf_ne hg).2, h6]
        · intro e he; exact List.mem_cons_of_mem _ (h8 e he)
        · intro y ρ hρ hρ' u
          refine ⟨fun h => ?_, fun h => ?_⟩
          · cases h with
            | cons h11 h12 =>
              obtain ⟨n, hn, hv⟩ := numIs_some h11.2
              exact .cons ⟨h11.1, by rw [hn]; exact hv⟩ ((h10 y ρ hρ hρ' _).1 h12)
          · cases h with
            | cons h11 h12 =>
              obtain ⟨n, hn, hv⟩ := numIs_some h11.2
              refine .cons ⟨h11.1, ?_⟩ ((h10 y ρ hρ hρ' _).2 h12)
              rw [hn]
              show Val.value y w' = (n : Int)
              rw [hw4, ← hρ', hv]
      · rw [e] at e1; simp at e1
  | @many a n x c h g l hc hcn hg ih =>
    intro f hf hlin he hD hm
    rw [dropLast_map _ (genHalf_ne hg).2, info_var] at he
    cases hf with
    | last => simp at he
    | @cons b v f hf =>
      rw [dropLast_map _ hf.ne] at he
      obtain ⟨e1, e2⟩ := List.cons.inj he
      rw [linH_cons] at hlin
      obtain ⟨vs, res, init, h1, h2, h3, h4, h5, h6, h7, h8, h10⟩ := ih hf hlin.2 e2 (fun e he => hD e (by simp [he]))
        (fun e he => hm e (by simp [he]))
      obtain ⟨m1, m3⟩ := hm (x, c) (by simp)
      simp only at m1 m3
      have hDx := hD (x, c) (by simp)
      simp only at hDx
      obtain ⟨w', hw1, hw3, hw4⟩ := subst_lin (hlin.1 v rfl) hs'
      rcases info_some (a := b) (v := v) with ⟨hv, e⟩ | ⟨-, e⟩
      · rw [e] at e1; simp at e1
      · rw [e] at e1
        simp at e1; subst e1
        refine ⟨some (x, c - 1 + 1) :: vs, ⟨b, some w'⟩ :: res, ⟨b, some (.expr (varPlus x 0))⟩ :: init, ?_, ?_,
          .many b hDx (by omega) hw3 h3, ?_, ?_, ?_, by simp, ?_, ?_⟩
        · simp only [genVars, restricted_varPlus, getMin, m1, h1, assign_eq]; rfl
        · simp [substNums, hw1, h2]
        · simp [h4]
        · simp [h5]
        · rw [dropLast_map _ h7, dropLast_map _ (genHalf_ne hg).2, h6]; simp
        · intro e he
          rcases List.mem_cons.1 he with rfl | he
          · simp
          · exact List.mem_cons_of_mem _ (h8 e he)
        · intro y ρ hρ hρ' u
          have hx := hρ x hDx
          refine ⟨fun h => ?_, fun h => ?_⟩
          · cases h with
            | cons h11 h12 =>
              obtain ⟨n, hn, hv⟩ := numIs_some h11.2
              refine .cons ⟨h11.1, ?_⟩ ((h10 y ρ hρ hρ' _).1 h12)
              rw [hn]
              show Val.value ρ _ = (n : Int)
              rw [varPlus_value] at hv ⊢
              omega
          · cases h with
            | cons h11 h12 =>
              obtain ⟨n, hn, hv⟩ := numIs_some h11.2
              refine .cons ⟨h11.1, ?_⟩ ((h10 y ρ hρ hρ' _).2 h12)
              rw [hn]
              show Val.value y _ = (n : Int)
              rw [hw4, ← hρ', hv]

theorem in_hvars {h : List (Blk σ V)} {b : Blk σ V} {v : V} {x : Nat} (hb : b ∈ h) (hv : b.num = some v) (hx : x ∈ v.variables) :
    x ∈ hvars h := List.mem_flatMap.2 ⟨b, hb, by unfold blkVars; rw [hv]; exact hx⟩

theorem lin_half_congr {D : Nat → Prop} {y y' : Nat → Int} {t : List (Blk σ V)} {u : List (Blk σ Nat)} (hl : LinH D t)
    (h : ∀ x, D x → y x = y' x) (hu : HalfIs y t u) : HalfIs y' t u := by
  induction hu with
  | nil => exact .nil
  | @cons a b t u h1 h2 ih =>
    rw [linH_cons] at hl
    refine .cons ⟨h1.1, ?_⟩ (ih hl.2)
    have h3 := h1.2
    cases ha : a.num with
    | none => rw [ha] at h3; have := numIs_none h3; rw [this]; trivial
    | some v =>
      rw [ha] at h3
      obtain ⟨n, hn, hv⟩ := numIs_some h3
      rw [hn]
      show Val.value y' v = (n : Int)
      rw [← hv]
      exact (lin_value_congr (hl.1 v ha) h).symm

/-! ## The proof -/

variable [Sums] [DecidableEq σ] [DecidableEq S]

omit [DecidableEq σ] [DecidableEq S] [Sums] in
theorem asExprQ_value (ρ : Nat → ℚ) (w : W) : Val.value ρ (asExprQ w) = Val.value ρ w := by
  cases w with
  | num k => simp [asExprQ, value_num, value_expr, value_eq]
  | expr e => rfl

omit [DecidableEq σ] [DecidableEq S] [Sums] in
theorem stepNum_value (y : Nat → Int) (g : Sim σ S) :
    Val.value (qy y) g.stepNum = qv y g.sim.steps + Val.value (qy y) g.ruleSteps := by
  unfold Sim.stepNum
  rw [add_value, toQ_value]

omit [DecidableEq σ] [DecidableEq S] [Sums] in
theorem substSteps_value {a : List (Nat × V)} {w w' : W} (h : substSteps a w = .ok w') (y : Nat → Int) :
    Val.value (qy y) w' = Val.value (qy (substAssign (Py.dget a) y)) w := by
  unfold substSteps at h
  rw [subst_any h]
  congr 1
  funext x
  simp only [substAssign, subsQ, qy]
  cases Py.dget a x with
  | none => rfl
  | some v => exact toQ_value y v

theorem step_ruleSteps {M : Machine σ S} (o : Opts) (rs : Rules σ S) (g : Sim σ S) (h : (g.step M o rs).ruleMoves = g.ruleMoves) :
    (g.step M o rs).ruleSteps = g.ruleSteps := by
  unfold Sim.step at h ⊢
  split
  · rfl
  next hop =>
  rw [if_neg hop] at h
  simp only at h ⊢
  split
  · rfl
  · next r hr =>
    simp only [hr] at h
    split
    · rfl
    · rfl
    · next res nv ha =>
      simp only [ha] at h
      cases res with
      | inf states => rfl
      | apply tape steps states large => simp [Sim.result] at h

theorem genLoop_ruleSteps {M : Machine σ S} (o : Opts) (rs : Rules σ S) : ∀ (k : Nat) (g g' : Sim σ S) (mins mins' : List (Nat × Option Int)),
    genLoop M o rs k g mins = .ok (g', mins') → g'.ruleMoves = g.ruleMoves → g'.ruleSteps = g.ruleSteps := by
  intro k
  induction k with
  | zero => intro g g' mins mins' hg _; cases hg; rfl
  | succ k ih =>
    intro g g' mins mins' hg hm
    unfold genLoop at hg
    split at hg
    · cases hg
    split at hg
    · cases hg
    simp only at hg
    split at hg
    · cases hg
    split at hg
    · cases hg
    split at hg
    · cases hg
    · cases hg
    · have l1 := step_moves (M := M) o rs g
      have l2 := genLoop_moves (M := M) o rs _ _ _ _ _ hg
      rw [ih _ _ _ _ hg (by omega), step_ruleSteps o rs g (by omega)]

/-- **What a proof gives.** -/
theorem proveRule_sound {T : Table} {M : Machine σ S} {Den : DC σ S → Config → Prop} {TDen : DC σ S → (Int → Nat) → Prop}
    {hs : S → Prop} {z : σ} (F : Follows T M Den TDen hs) {rs : Rules σ S} (hrs : RulesOK T Den z rs) (o : Opts) (st : S)
    {tape : ChainTape σ V} (he : EndsT z tape) {η : Nat → Int} {u : ChainTape σ Nat} (hu : TapeIs η tape u) {cfg : Config}
    (hden : Den (tapeDC z u st) cfg) (delta : Int) (hd : 1 ≤ delta) (nv : Nat) {r : Rule σ} {nv' : Nat}
    {adj : Nat → Mins → Mins} (hadj : ∀ m, adj 0 m = m)
    (hp : proveWith adj M o rs (strip valIsOne st tape) st tape delta nv = (.ok r, nv'))
    (hok : PlainRule r ∨ ∀ k m, 0 < k → adj k m = m.map (fun e => (e.1, some 1))) :
    RuleTrue T Den z (strip valIsOne st tape) r := by
  unfold proveWith at hp
  split at hp
  · cases hp
  next gl ml0 nv1 e1 =>
  split at hp
  · cases hp
  next gr mr0 nv2 e2 =>
  have nl : NumHalf z tape.left u.left := num_of (he .L) hu.left e1
  have nr : NumHalf z tape.right u.right := num_of (he .R) hu.right e2
  obtain ⟨gl1, ll, nv1', el, hgl, hnv1, hll, hndl⟩ := genHalf_num nl nv
  have e1' : genHalf tape.left nv = some (gl1, ll.map (fun e => (e.1, some e.2)), nv1') := el
  rw [e1] at e1'
  cases e1'
  obtain ⟨gr1, lr, nv2', er, hgr, hnv2, hlr, hndr⟩ := genHalf_num nr nv1
  have e2' : genHalf tape.right nv1 = some (gr1, lr.map (fun e => (e.1, some e.2)), nv2') := er
  rw [e2] at e2'
  cases e2'
  clear e1 e2 el er
  obtain ⟨hGl, hvl, hml⟩ := genHalf_good hgl
  obtain ⟨hGr, hvr, hmr⟩ := genHalf_good hgr
  have hnd : ((ll ++ lr).map (·.1)).Nodup := by
    rw [List.map_append, List.nodup_append]
    refine ⟨hndl, hndr, fun x hx y hy e => ?_⟩
    subst e
    obtain ⟨e1, he1, rfl⟩ := List.mem_map.1 hx
    obtain ⟨e2, he2, he⟩ := List.mem_map.1 hy
    have := hll e1 he1
    have := hlr e2 he2
    omega
  let mins0 : List (Nat × Option Int) := ll.map (fun e => (e.1, some e.2)) ++ lr.map (fun e => (e.1, some e.2))
  have hm0 : mins0 = (ll ++ lr).map (fun e => (e.1, some e.2)) := by simp [mins0]
  have hk0 : Py.NodupKeys mins0 := by
    unfold Py.NodupKeys
    rw [hm0, List.map_map]; exact hnd
  have hget : ∀ x c, (x, c) ∈ ll ++ lr → Py.dget mins0 x = some (some c) := by
    intro x c hx
    rw [← Py.mem_iff_dget hk0, hm0]
    exact List.mem_map.2 ⟨(x, c), hx, rfl⟩
  let D : Nat → Prop := fun x => x ∈ (ll ++ lr).map (·.1)
  let s0 : SimSt σ S V :=
    { tape := ⟨tape.dir, gl, gr⟩, st := st, dir := tape.dir, steps := .expr ⟨[], 0⟩, loops := 0, seen := [], op := .running
      cell := none, infReason := none, recur := [] }
  let g0 : Sim σ S := ⟨s0, .num 0, 0, nv2⟩
  have hinv : SymInv z D s0 mins0 := by
    refine ⟨⟨?_, ?_, ?_⟩, rfl, ?_, ?_, ?_, ?_, ?_, ?_, rfl⟩
    · intro d; cases d; exacts [hGl, hGr]
    · intro d; cases d
      · show (hvars gl).Nodup; rw [hvl]; exact hndl
      · show (hvars gr).Nodup; rw [hvr]; exact hndr
    · rw [List.map_append, List.nodup_append] at hnd
      intro d x hx hx'
      cases d
      · have h1 : x ∈ hvars gl := hx
        have h2 : x ∈ hvars gr := hx'
        rw [hvl] at h1; rw [hvr] at h2
        exact hnd.2.2 x h1 x h2 rfl
      · have h1 : x ∈ hvars gr := hx
        have h2 : x ∈ hvars gl := hx'
        rw [hvr] at h1; rw [hvl] at h2
        exact hnd.2.2 x h2 x h1 rfl
    · rintro x ⟨d, hx⟩
      show x ∈ (ll ++ lr).map (·.1)
      rw [List.map_append, List.mem_append]
      cases d
      · left; rw [← hvl]; exact hx
      · right; rw [← hvr]; exact hx
    · intro x w hx
      rw [← Py.mem_iff_dget hk0, hm0] at hx
      obtain ⟨e, he, heq⟩ := List.mem_map.1 hx
      cases heq
      exact ⟨_, rfl⟩
    · intro d b hb x c hx
      refine ⟨c, hget x c ?_, le_refl _⟩
      rw [List.mem_append]
      cases d
      · exact Or.inl (hml b hb x c hx)
      · exact Or.inr (hmr b hb x c hx)
    · intro x
      constructor
      · rintro ⟨w, hx⟩
        rw [← Py.mem_iff_dget hk0, hm0] at hx
        obtain ⟨e, he, heq⟩ := List.mem_map.1 hx
        cases heq
        exact List.mem_map.2 ⟨e, he, rfl⟩
      · intro hx
        obtain ⟨e, he, rfl⟩ := List.mem_map.1 hx
        exact ⟨_, hget e.1 e.2 he⟩
    · intro t ht; simp at ht
    · intro e he; simp [s0] at he
  -- the start of a run of the proof
  have hstart : ∀ (y : Nat → Int) (v : ChainTape σ Nat) (c : Config), HalfIs y gl v.left → HalfIs y gr v.right →
      tape.dir = v.dir → Den (tapeDC z v st) c → Inv T Den z y c 0 s0 0 := by
    intro y v c h1 h2 h3 h4
    refine ⟨?_, rfl, v, 0, ⟨h3, h1, h2⟩, le_refl _, h4, ?_, ?_⟩
    · intro d; cases d; exacts [ghalf_ends hGl, ghalf_ends hGr]
    · intro q; simp [s0]
    · intro _; simp [s0, qv, value_expr, value_eq]
  simp only at hp
  split at hp
  · cases hp
  · cases hp
  next g mins hgen =>
  change genLoop M o rs delta.toNat g0 mins0 = .ok (g, mins) at hgen
  split at hp
  · cases hp
  next hkey =>
  simp only [ne_eq, not_not] at hkey
  have hst : g.sim.st = st := congrArg Strip.st hkey
  have hdir : g.sim.tape.dir = tape.dir := congrArg Strip.dir hkey
  have hkl : g.sim.tape.left.dropLast.map (info valIsOne) = gl.dropLast.map (info valIsOne) := by
    rw [← genHalf_info hgl, ← num_info nl]; exact congrArg Strip.left hkey
  have hkr : g.sim.tape.right.dropLast.map (info valIsOne) = gr.dropLast.map (info valIsOne) := by
    rw [← genHalf_info hgr, ← num_info nr]; exact congrArg Strip.right hkey
  have hshape : ∀ l' r' : List (Blk σ V), l'.dropLast.map (info valIsOne) = gl.dropLast.map (info valIsOne) →
      r'.dropLast.map (info valIsOne) = gr.dropLast.map (info valIsOne) →
      strip valIsOne st tape = strip valIsOne st ⟨tape.dir, l', r'⟩ := by
    intro l' r' h1 h2
    unfold strip
    simp only
    rw [h1, h2, ← genHalf_info hgl, ← genHalf_info hgr, num_info nl, num_info nr]
  have hpos : 0 < delta.toNat := by omega
  by_cases hmoves : g.ruleMoves > 0
  · -- a proof with rules
    have hgl0 : LinT D g0.sim.tape := by
      intro d b hb v hv
      cases d
      · have hb' : b ∈ gl := hb
        exact lin_mono (count_lin (ghalf_count hGl b hb' v hv)) (fun x hx => by
          show x ∈ (ll ++ lr).map (·.1)
          rw [List.map_append, List.mem_append]
          left; rw [← hvl]; exact in_hvars hb' hv hx)
      · have hb' : b ∈ gr := hb
        exact lin_mono (count_lin (ghalf_count hGr b hb' v hv)) (fun x hx => by
          show x ∈ (ll ++ lr).map (·.1)
          rw [List.map_append, List.mem_append]
          right; rw [← hvr]; exact in_hvars hb' hv hx)
    have hsim0 : LinSim D g0 := by
      refine ⟨hgl0, fun x hx => ?_⟩
      show x < nv2
      have hx : x ∈ (ll ++ lr).map (·.1) := hx
      obtain ⟨e, he, rfl⟩ := List.mem_map.1 hx
      rcases List.mem_append.1 he with he | he
      · have := hll e he; omega
      · have := hlr e he; omega
    have hall : ∀ (y : Nat → Int) (v : ChainTape σ Nat) (c : Config), (∀ x, 0 ≤ y x) → HalfIs y gl v.left → HalfIs y gr v.right →
        tape.dir = v.dir → Den (tapeDC z v st) c → Inv T Den z y c delta.toNat g.sim (Val.value (qy y) g.ruleSteps) := by
      intro y v c h0 h1 h2 h3 h4
      have := (genLoop_lin F hrs o h0 delta.toNat 0 g0 g mins0 mins rfl (hstart y v c h1 h2 h3 h4) hsim0 hgen).1
      rwa [Nat.zero_add] at this
    have hself : ∃ y2 : Nat → Int, (∀ x, 0 ≤ y2 x) ∧ HalfIs y2 gl u.left ∧ HalfIs y2 gr u.right := by
      obtain ⟨y1, a1, a2, -⟩ := gen_self hgr (fun _ => 0) (fun _ => le_refl _) hndr
      obtain ⟨y2, b1, b2, b3⟩ := gen_self hgl y1 a1 hndl
      refine ⟨y2, b1, b2, gen_congr hgr (y := y1) (fun e he => b3 _ ?_) a2⟩
      intro hx
      rw [List.map_append, List.nodup_append] at hnd
      exact hnd.2.2 e.1 hx e.1 (List.mem_map.2 ⟨e, he, rfl⟩) rfl
    have hends : EndsT z g.sim.tape := by
      obtain ⟨y2, b1, b2, b3⟩ := hself
      exact (hall y2 u cfg b1 b2 b3 hu.dir hden).ends
    split at hp
    · next dl cl dr cr hdl hdr =>
      split at hp
      · next hflag =>
        rw [Bool.and_eq_true] at hflag
        obtain ⟨rfl, rfl⟩ := hflag
        simp only [mkDiff, if_pos hmoves, Prod.mk.injEq, Out.ok.injEq] at hp
        obtain ⟨rfl, -⟩ := hp
        obtain ⟨ql, h1, h2, h3⟩ := meta_half hgl (hends .L) hkl hdl
        obtain ⟨qr, h4, h5, h6⟩ := meta_half hgr (hends .R) hkr hdr
        refine ⟨ql, qr, h1, h4, ?_, hshape _ _ rfl rfl, ?_⟩
        · rw [List.map_append, h2, h5, ← List.map_append]; exact hnd
        · intro y hy v hv c hc
          obtain ⟨u', n, k1, k2, k3, k4, k5⟩ := (hall y v c hy hv.left hv.right hv.dir hc).run
          refine ⟨u', n, ⟨?_, h3 y _ k1.left, h6 y _ k1.right⟩, by omega, ?_, k4,
            fun hs => by rw [asExprQ_value, stepNum_value]; exact k5 hs⟩
          · rw [← k1.dir, hdir]
          · rw [hst] at k3; exact k3
      · split at hp
        · next r' hr' =>
          cases hp
          rcases hok with hm | hones
          · exfalso
            replace hm : r'.isMeta = false := hm
            unfold mkGen at hr'
            split at hr'
            · cases hr'
            split at hr'
            · split at hr'
              · cases hr'
              simp only at hr'
              split at hr'
              · cases hr'
              · cases hr'; simp [hmoves] at hm
              · cases hr'; simp [hmoves] at hm
            · cases hr'
          rw [hones _ _ hmoves] at hr'
          obtain ⟨hlin, hkeys⟩ : LinT D g.sim.tape ∧ ∀ x, Py.dget mins0 x ≠ none → Py.dget mins x ≠ none := by
            obtain ⟨y2, b1, b2, b3⟩ := hself
            exact ⟨(genLoop_lin F hrs o b1 delta.toNat 0 g0 g mins0 mins rfl (hstart y2 u cfg b2 b3 hu.dir hden) hsim0 hgen).2.1,
              genLoop_mins o delta.toNat g0 g mins0 mins hgen⟩
          let asg : List (Nat × V) := ll.map (fun e => (e.1, .expr (varPlus e.1 (- e.2)))) ++
            lr.map (fun e => (e.1, .expr (varPlus e.1 (- e.2))))
          let k : Nat → Int := fun x => match Py.dget mins0 x with | some (some c) => - c | _ => 0
          have hk : ∀ x c, (x, c) ∈ ll ++ lr → k x = -c := by
            intro x c hx
            simp only [k, hget x c hx]
          have hka : Py.NodupKeys asg := by
            unfold Py.NodupKeys
            simp only [asg, List.map_append, List.map_map]
            rw [List.map_append] at hnd
            exact hnd
          have hasg : ∀ x, D x → Py.dget asg x = some (.expr (varPlus x (k x))) := by
            intro x hx
            rw [← Py.mem_iff_dget hka]
            have hx : x ∈ (ll ++ lr).map (·.1) := hx
            obtain ⟨e, he, rfl⟩ := List.mem_map.1 hx
            rw [hk e.1 e.2 he]
            simp only [asg, ← List.map_append]
            exact List.mem_map.2 ⟨e, he, rfl⟩
          have hone : ∀ e ∈ ll ++ lr, Py.dget (mins.map (fun e => (e.1, some (1 : Int)))) e.1 = some (some 1) ∧ k e.1 = - e.2 := by
            intro e he
            refine ⟨dget_ones mins (hkeys _ ?_), hk e.1 e.2 he⟩
            rw [hget e.1 e.2 he]; simp
          obtain ⟨vl, resl, inil, al1, al2, al3, al4, al5, al6, al7, al8, al10⟩ := gen_lin (f := g.sim.tape.left) hasg hgl (hends .L) (hlin .L) hkl
            (fun e he => List.mem_map.2 ⟨e, by simp [he], rfl⟩) (fun e he => hone e (by simp [he]))
          obtain ⟨vr, resr, inir, ar1, ar2, ar3, ar4, ar5, ar6, ar7, ar8, ar10⟩ := gen_lin (f := g.sim.tape.right) hasg hgr (hends .R) (hlin .R) hkr
            (fun e he => List.mem_map.2 ⟨e, by simp [he], rfl⟩) (fun e he => hone e (by simp [he]))
          have hlen : (vl ++ vr).length = (resl.map (·.num) ++ resr.map (·.num)).length := by
            rw [List.length_append, List.length_append, al5, ar5]
          unfold mkGen at hr'
          simp only [asg] at al2 ar2
          simp only [genVars_append _ _ _ _ _ _ _ al1 ar1, List.map_append, substNums_append _ _ _ _ _ al2 ar2] at hr'
          have hrule : ∀ vs, VarsUp vs (vl ++ vr) → ∀ steps b, substSteps asg g.stepNum = .ok steps → RuleTrue T Den z (strip valIsOne st tape)
              (.gen ⟨vs, resl.map (·.num) ++ resr.map (·.num), steps, g.sim.seen.map (·.1),
                isInfinite (vl ++ vr) (resl.map (·.num) ++ resr.map (·.num)), b⟩ : Rule σ) := by
            intro vs hvs steps b hst'
            refine ⟨⟨tape.dir, inil, inir⟩, ⟨tape.dir, resl, resr⟩, vl, vr, D, al3, ar3, rfl, hvs, by simp, ?_, ?_,
              hshape _ _ al6 ar6, fun h => h, ?_⟩
            · intro x hx
              show x ∈ hvars inil ++ hvars inir
              rw [al4, ar4, ← List.map_append]; exact hx
            · show (hvars inil ++ hvars inir).Nodup
              rw [al4, ar4, ← List.map_append]; exact hnd
            · intro y hy0 hy v hv c hc
              have hρ : ∀ x, D x → substAssign (Py.dget asg) y x = y x + k x := by
                intro x hx
                unfold substAssign
                rw [hasg x hx]
                simp only
                rw [varPlus_value]
              have hρ0 : ∀ x, ¬ D x → substAssign (Py.dget asg) y x = y x := by
                intro x hx
                unfold substAssign
                cases hg : Py.dget asg x with
                | none => rfl
                | some v =>
                  exfalso
                  refine hx ?_
                  have hm := (Py.mem_iff_dget hka x v).2 hg
                  show x ∈ (ll ++ lr).map (·.1)
                  simp only [asg, ← List.map_append] at hm
                  obtain ⟨e, he, hee⟩ := List.mem_map.1 hm
                  cases hee
                  exact List.mem_map.2 ⟨e, he, rfl⟩
              have hsv := substSteps_value hst' y
              generalize hρe : substAssign (Py.dget asg) y = ρ at hρ hρ0 hsv
              have hil := (al10 y ρ hρ hρe.symm v.left).1 hv.left
              have hir := (ar10 y ρ hρ hρe.symm v.right).1 hv.right
              have hpos : ∀ x, 0 ≤ ρ x := by
                intro x
                by_cases hx : D x
                · rw [hρ x hx]
                  obtain ⟨e, he, rfl⟩ := List.mem_map.1 hx
                  rw [hk e.1 e.2 he]
                  have : e.2 - 1 + 1 ≤ y e.1 := by
                    rcases List.mem_append.1 he with he | he
                    · exact hy e.1 _ (by rw [List.mem_append]; exact Or.inl (al8 e he))
                    · exact hy e.1 _ (by rw [List.mem_append]; exact Or.inr (ar8 e he))
                  omega
                · rw [hρ0 x hx]; exact hy0 x
              obtain ⟨u', n, k1, k2, k3, k4, k5⟩ := (hall ρ v c hpos hil hir hv.dir hc).run
              refine ⟨u', n, ⟨?_, ?_, ?_⟩, by omega, ?_, k4, fun hs => by rw [hsv, stepNum_value]; exact k5 hs⟩
              · rw [← k1.dir, hdir]
              · exact (al10 y ρ hρ hρe.symm _).2 k1.left
              · exact (ar10 y ρ hρ hρe.symm _).2 k1.right
              · rw [hst] at k3; exact k3
          split at hr'
          · next result steps h1 h2 =>
            cases h1
            split at hr'
            · cases hr'
            split at hr'
            · cases hr'
            · cases hr'; exact hrule _ (varsUp_refl _) _ _ h2
            · next vs' hvs' => cases hr'; exact hrule _ (tryLinear_up _ _ _ hlen hvs') _ _ h2
          · cases hr'
        · cases hp
    · cases hp
  · -- a proof without rules
    have hplain := genLoop_plain (M := M) o rs delta.toNat g0 g mins0 mins rfl hgen (by show g.ruleMoves = 0; omega)
    change Prover.genLoop M delta.toNat s0 mins0 = .ok (g.sim, mins) at hplain
    obtain ⟨hi, hle, -, -⟩ := genLoop_ok M _ _ _ _ _ hinv hplain
    have hall : ∀ (y : Nat → Int) (v : ChainTape σ Nat) (c : Config), GoodRho y mins → HalfIs y gl v.left → HalfIs y gr v.right →
        tape.dir = v.dir → Den (tapeDC z v st) c → Inv T Den z y c delta.toNat g.sim 0 := by
      intro y v c h0 h1 h2 h3 h4
      have := plain_any F delta.toNat 0 s0 g.sim mins0 mins hinv hplain h0 (hstart y v c h1 h2 h3 h4)
      rwa [Nat.zero_add] at this
    have hrs0 : g.ruleSteps = .num 0 :=
      genLoop_ruleSteps (M := M) o rs delta.toNat g0 g mins0 mins hgen (by show g.ruleMoves = 0; omega)
    have hnum : ∀ (ρ : Nat → Int), Val.value (qy ρ) g.stepNum = qv ρ g.sim.steps + 0 := by
      intro ρ; rw [stepNum_value, hrs0, value_num]
    obtain ⟨pl, hpl, hpl'⟩ := pair_of hgl (f := g.sim.tape.left) (hi.tape.good .L) hkl
    obtain ⟨pr, hpr, hpr'⟩ := pair_of hgr (f := g.sim.tape.right) (hi.tape.good .R) hkr
    obtain ⟨dl, fl, el1, el2, el3⟩ := diffHalf_ok hpl
    obtain ⟨dr, fr, er1, er2, er3⟩ := diffHalf_ok hpr
    rw [show g.ruleMoves = 0 by omega, hadj] at hp
    simp only [el1, er1] at hp
    have hminsL := minsOf_le (hinv.minsOf .L) hle
    have hminsR := minsOf_le (hinv.minsOf .R) hle
    let m : Nat → Int := fun x => match Py.dget mins x with | some (some m) => m | _ => 0
    have hm : ∀ x, D x → Py.dget mins x = some (some (m x)) := by
      intro x hx
      obtain ⟨w, hw'⟩ := (hi.dom x).2 hx
      obtain ⟨k, rfl⟩ := hi.fin x w hw'
      simp only [m, hw']
    have hmeq : ∀ x k, Py.dget mins x = some (some k) → m x = k := by
      intro x k hx; simp only [m, hx]
    have hDdom : ∀ x k, Py.dget mins x = some (some k) → D x := fun x k hx => (hi.dom x).1 ⟨_, hx⟩
    by_cases hflag : (fl && fr) = true
    · rw [if_pos hflag] at hp
      rw [Bool.and_eq_true] at hflag
      obtain ⟨ql, hql, hql'⟩ := el3 hflag.1
      obtain ⟨qr, hqr, hqr'⟩ := er3 hflag.2
      have hll' : ql.map (·.1) = ll.map (·.1) := by
        rw [← hpl', ← hql']; simp
      have hlr' : qr.map (·.1) = lr.map (·.1) := by
        rw [← hpr', ← hqr']; simp
      have hDl : ∀ e ∈ ql, D e.1 := by
        intro e he
        show e.1 ∈ (ll ++ lr).map (·.1)
        rw [List.map_append, List.mem_append, ← hll']
        exact Or.inl (List.mem_map.2 ⟨e, he, rfl⟩)
      have hDr : ∀ e ∈ qr, D e.1 := by
        intro e he
        show e.1 ∈ (ll ++ lr).map (·.1)
        rw [List.map_append, List.mem_append, ← hlr']
        exact Or.inr (List.mem_map.2 ⟨e, he, rfl⟩)
      obtain ⟨gl', tl1, tl2, tl3, tl4, tl5⟩ := tighten_ok (mins := mins) (m := m) hql (by
        intro e he
        obtain ⟨⟨a1, h1⟩, a2, h2⟩ := dpair_mem hql e he
        obtain ⟨k1, h3, h4⟩ := hminsL _ h1 e.1 e.2.1 rfl
        obtain ⟨k2, h5, h6⟩ := hi.minsOf .L _ h2 e.1 e.2.2 rfl
        exact ⟨hm _ (hDl e he), by rw [hmeq _ _ h3]; exact h4, by rw [hmeq _ _ h5]; exact h6⟩)
      obtain ⟨gr', tr1, tr2, tr3, tr4, tr5⟩ := tighten_ok (mins := mins) (m := m) hqr (by
        intro e he
        obtain ⟨⟨a1, h1⟩, a2, h2⟩ := dpair_mem hqr e he
        obtain ⟨k1, h3, h4⟩ := hminsR _ h1 e.1 e.2.1 rfl
        obtain ⟨k2, h5, h6⟩ := hi.minsOf .R _ h2 e.1 e.2.2 rfl
        exact ⟨hm _ (hDr e he), by rw [hmeq _ _ h3]; exact h4, by rw [hmeq _ _ h5]; exact h6⟩)
      unfold mkDiff at hp
      rw [if_neg hmoves] at hp
      simp only [tl1, tr1] at hp
      let reps : List (Nat × V) := ql.map (fun e => (e.1, .expr (varPlus e.1 (1 - m e.1)))) ++
        qr.map (fun e => (e.1, .expr (varPlus e.1 (1 - m e.1))))
      have hreps : ∀ x, D x → Py.dget reps x = some (.expr (varPlus x (1 - m x))) := by
        intro x hx
        have hkr : Py.NodupKeys reps := by
          unfold Py.NodupKeys
          simp only [reps, List.map_append, List.map_map]
          have : ((ql.map (·.1)) ++ (qr.map (·.1))).Nodup := by rw [hll', hlr', ← List.map_append]; exact hnd
          exact this
        rw [← Py.mem_iff_dget hkr]
        have hx : x ∈ (ll ++ lr).map (·.1) := hx
        rw [List.map_append, List.mem_append, ← hll', ← hlr'] at hx
        simp only [reps, List.mem_append]
        rcases hx with hx | hx
        · left; obtain ⟨e, he, rfl⟩ := List.mem_map.1 hx; exact List.mem_map.2 ⟨e, he, rfl⟩
        · right; obtain ⟨e, he, rfl⟩ := List.mem_map.1 hx; exact List.mem_map.2 ⟨e, he, rfl⟩
      obtain ⟨nl1, nl2⟩ := substNums_diff tl2 (Py.dget reps)
      obtain ⟨nr1, nr2⟩ := substNums_diff tr2 (Py.dget reps)
      simp only [reps] at nl1 nr1
      rw [nl1, nr1] at hp
      split at hp
      · next r' hr' =>
        cases hp
        split at hr'
        · next dl' dr' steps h1 h2 h3 =>
          cases h1; cases h2
          rw [nl2, nr2] at hr'
          cases hr'
          refine ⟨_, _, DHalf.of tl2, DHalf.of tr2, ?_, hshape _ _ tl3 tr3, ?_⟩
          · rw [List.map_append, List.map_map, List.map_map]
            have : ((ql.map (·.1)) ++ (qr.map (·.1))).Nodup := by rw [hll', hlr', ← List.map_append]; exact hnd
            exact this
          · intro y hy v hv c hc
            have hρ : ∀ x, D x → substAssign (Py.dget reps) y x = y x + (1 - m x) := by
              intro x hx
              unfold substAssign
              rw [hreps x hx]
              simp only
              rw [varPlus_value]
            have hsv := substSteps_value h3 y
            change _ = Val.value (qy (substAssign (Py.dget reps) y)) _ at hsv
            generalize hρe : substAssign (Py.dget reps) y = ρ at hρ hsv
            have hgood : GoodRho ρ mins := by
              intro x k hx
              rw [hρ x (hDdom x k hx), hmeq x k hx]
              have := hy x
              omega
            have hil := (tl5 y ρ (fun e he => hρ _ (hDl e he)) v.left).1 hv.left
            have hir := (tr5 y ρ (fun e he => hρ _ (hDr e he)) v.right).1 hv.right
            obtain ⟨u', n, k1, k2, k3, k4, k5⟩ := (hall ρ v c hgood hil hir hv.dir hc).run
            refine ⟨u', n, ⟨?_, ?_, ?_⟩, by omega, ?_, k4, fun hs => by rw [asExprQ_value, hsv, hnum]; exact k5 hs⟩
            · rw [← k1.dir, hdir]
            · exact (tl5 y ρ (fun e he => hρ _ (hDl e he)) _).2 k1.left
            · exact (tr5 y ρ (fun e he => hρ _ (hDr e he)) _).2 k1.right
            · rw [hst] at k3; exact k3
        · cases hr'
      · cases hp
    · rw [if_neg hflag] at hp
      have hll' : pl.map (·.1) = ll.map (·.1) := by
        rw [← hpl']; simp
      have hlr' : pr.map (·.1) = lr.map (·.1) := by
        rw [← hpr']; simp
      have hDl : ∀ e ∈ pl, D e.1 := by
        intro e he
        show e.1 ∈ (ll ++ lr).map (·.1)
        rw [List.map_append, List.mem_append, ← hll']
        exact Or.inl (List.mem_map.2 ⟨e, he, rfl⟩)
      have hDr : ∀ e ∈ pr, D e.1 := by
        intro e he
        show e.1 ∈ (ll ++ lr).map (·.1)
        rw [List.map_append, List.mem_append, ← hlr']
        exact Or.inr (List.mem_map.2 ⟨e, he, rfl⟩)
      let asg : List (Nat × V) := pl.map (fun e => (e.1, .expr (varPlus e.1 (- e.2.1)))) ++
        pr.map (fun e => (e.1, .expr (varPlus e.1 (- e.2.1))))
      let k : Nat → Int := fun x => match Py.dget mins0 x with | some (some c) => - c | _ => 0
      have hmemL : ∀ e ∈ pl, (e.1, e.2.1) ∈ ll ++ lr := by
        intro e he
        rw [List.mem_append, ← hpl']; exact Or.inl (List.mem_map.2 ⟨e, he, rfl⟩)
      have hmemR : ∀ e ∈ pr, (e.1, e.2.1) ∈ ll ++ lr := by
        intro e he
        rw [List.mem_append, ← hpr']; exact Or.inr (List.mem_map.2 ⟨e, he, rfl⟩)
      have hk : ∀ x c, (x, c) ∈ ll ++ lr → k x = -c := by
        intro x c hx
        simp only [k, hget x c hx]
      have hasg : ∀ x, D x → Py.dget asg x = some (.expr (varPlus x (k x))) := by
        intro x hx
        have hka : Py.NodupKeys asg := by
          unfold Py.NodupKeys
          simp only [asg, List.map_append, List.map_map]
          have : ((pl.map (·.1)) ++ (pr.map (·.1))).Nodup := by rw [hll', hlr', ← List.map_append]; exact hnd
          exact this
        rw [← Py.mem_iff_dget hka]
        have hx : x ∈ (ll ++ lr).map (·.1) := hx
        rw [List.map_append, List.mem_append, ← hll', ← hlr'] at hx
        simp only [asg, List.mem_append]
        rcases hx with hx | hx
        · left; obtain ⟨e, he, rfl⟩ := List.mem_map.1 hx
          rw [hk _ _ (hmemL e he)]; exact List.mem_map.2 ⟨e, he, rfl⟩
        · right; obtain ⟨e, he, rfl⟩ := List.mem_map.1 hx
          rw [hk _ _ (hmemR e he)]; exact List.mem_map.2 ⟨e, he, rfl⟩
      have hmm : ∀ e : Nat × Int × V, (e.1, e.2.1) ∈ ll ++ lr →
          Py.dget mins e.1 = some (some (m e.1)) ∧ m e.1 ≤ e.2.1 ∧ k e.1 = - e.2.1 := by
        intro e he
        obtain ⟨m', h1, h2⟩ := (hle e.1).2 _ (hget _ _ he)
        refine ⟨hm _ (List.mem_map.2 ⟨_, he, rfl⟩), ?_, hk _ _ he⟩
        rw [hmeq _ _ h1]; exact h2
      obtain ⟨vl, resl, inil, al1, al2, al3, al4, al5, al6, al7, al8, al9, al10⟩ := gen_ok (mins := mins) (m := m) hasg hpl
        hDl (fun x hx => hi.vars x ⟨.L, hx⟩) (fun e he => hmm e (hmemL e he))
      obtain ⟨vr, resr, inir, ar1, ar2, ar3, ar4, ar5, ar6, ar7, ar8, ar9, ar10⟩ := gen_ok (mins := mins) (m := m) hasg hpr
        hDr (fun x hx => hi.vars x ⟨.R, hx⟩) (fun e he => hmm e (hmemR e he))
      have hlen : (vl ++ vr).length = (resl.map (·.num) ++ resr.map (·.num)).length := by
        rw [List.length_append, List.length_append, al5, ar5]
      unfold mkGen at hp
      simp only [asg] at al2 ar2
      simp only [genVars_append mins _ _ _ _ _ _ al1 ar1, List.map_append, substNums_append _ _ _ _ _ al2 ar2] at hp
      have hrule : ∀ vs, VarsUp vs (vl ++ vr) → ∀ steps b, substSteps asg g.stepNum = .ok steps → RuleTrue T Den z (strip valIsOne st tape)
          (.gen ⟨vs, resl.map (·.num) ++ resr.map (·.num), steps, g.sim.seen.map (·.1),
            isInfinite (vl ++ vr) (resl.map (·.num) ++ resr.map (·.num)), b⟩ : Rule σ) := by
        intro vs hvs steps b hst'
        refine ⟨⟨tape.dir, inil, inir⟩, ⟨tape.dir, resl, resr⟩, vl, vr, D, al3, ar3, rfl, hvs, by simp, ?_, ?_,
          hshape _ _ al6 ar6, fun h => h, ?_⟩
        · intro x hx
          show x ∈ hvars inil ++ hvars inir
          rw [al4, ar4, hll', hlr', ← List.map_append]; exact hx
        · show (hvars inil ++ hvars inir).Nodup
          rw [al4, ar4, hll', hlr', ← List.map_append]; exact hnd
        · intro y _ hy v hv c hc
          have hρ : ∀ x, D x → substAssign (Py.dget asg) y x = y x + k x := by
            intro x hx
            unfold substAssign
            rw [hasg x hx]
            simp only
            rw [varPlus_value]
          have hsv := substSteps_value hst' y
          generalize hρe : substAssign (Py.dget asg) y = ρ at hρ hsv
          have hgood : GoodRho ρ mins := by
            intro x m' hx
            have hDx := hDdom x m' hx
            rw [hρ x hDx]
            have hx2 : x ∈ pl.map (·.1) ++ pr.map (·.1) := by rw [hll', hlr', ← List.map_append]; exact hDx
            rcases List.mem_append.1 hx2 with hx2 | hx2
            · obtain ⟨e, he, rfl⟩ := List.mem_map.1 hx2
              have := hy e.1 _ (by rw [List.mem_append]; exact Or.inl (al8 e he))
              rw [hk _ _ (hmemL e he)]
              have := hmeq _ _ hx
              omega
            · obtain ⟨e, he, rfl⟩ := List.mem_map.1 hx2
              have := hy e.1 _ (by rw [List.mem_append]; exact Or.inr (ar8 e he))
              rw [hk _ _ (hmemR e he)]
              have := hmeq _ _ hx
              omega
          have hil := (al10 y ρ hρ hρe.symm v.left).1 hv.left
          have hir := (ar10 y ρ hρ hρe.symm v.right).1 hv.right
          obtain ⟨u', n, k1, k2, k3, k4, k5⟩ := (hall ρ v c hgood hil hir hv.dir hc).run
          refine ⟨u', n, ⟨?_, ?_, ?_⟩, by omega, ?_, k4, fun hs => by rw [hsv, hnum]; exact k5 hs⟩
          · rw [← k1.dir, hdir]
          · exact (al10 y ρ hρ hρe.symm _).2 k1.left
          · exact (ar10 y ρ hρ hρe.symm _).2 k1.right
          · rw [hst] at k3; exact k3
      split at hp
      · next r' hr' =>
        cases hp
        split at hr'
        · next result steps h1 h2 =>
          cases h1
          split at hr'
          · cases hr'
          split at hr'
          · cases hr'
          · cases hr'; exact hrule _ (varsUp_refl _) _ _ h2
          · next vs' hvs' => cases hr'; exact hrule _ (tryLinear_up _ _ _ hlen hvs') _ _ h2
        · cases hr'
      · cases hp

end Model.Recursive

import Verif.Lemmas.ProverSafe

/-! # What `prove_rule` proves -/

namespace Model.Prover
open Spec Model Model.Expr
variable {σ S : Type}

/-! ## The generalised tape -/

inductive GenHalf (z : σ) : List (Blk σ Nat) → List (Blk σ V) → List (Nat × Int) → Prop
  | last : GenHalf z [⟨z, none⟩] [⟨z, none⟩] []
  | one (a : σ) {h g l} : GenHalf z h g l → GenHalf z (⟨a, some 1⟩ :: h) (⟨a, some (.num 1)⟩ :: g) l
  | many (a : σ) {n : Nat} {x : Nat} {c : Int} {h g l} : 2 ≤ c → c ≤ n → GenHalf z h g l →
      GenHalf z (⟨a, some n⟩ :: h) (⟨a, some (.expr (varPlus x c))⟩ :: g) ((x, c) :: l)

theorem genHalf_ok {z : σ} : ∀ (h : List (Blk σ Nat)) (nv : Nat), WFHalf z h →
    ∃ g l nv', genHalf h nv = some (g, l.map (fun e => (e.1, some e.2)), nv') ∧ GenHalf z h g l ∧ nv ≤ nv' ∧
      (∀ e ∈ l, nv ≤ e.1 ∧ e.1 < nv') ∧ (l.map (·.1)).Nodup
  | [], nv, h => h.elim
  | ⟨a, none⟩ :: rest, nv, h => by
    obtain ⟨rfl, rfl⟩ := wfHalf_inf h
    exact ⟨_, [], nv, rfl, .last, le_refl _, by simp, by simp⟩
  | ⟨a, some n⟩ :: rest, nv, h => by
    obtain ⟨hn, -, hr⟩ := wfHalf_cons.1 h
    unfold genHalf
    by_cases h1 : n = 1
    · subst h1
      obtain ⟨g, l, nv', e, h2, h3, h4, h5⟩ := genHalf_ok rest nv hr
      simp only [if_pos, e, Option.map_some]
      exact ⟨_, l, nv', rfl, .one a h2, h3, h4, h5⟩
    · obtain ⟨g, l, nv', e, h2, h3, h4, h5⟩ := genHalf_ok rest (nv + 1) hr
      have key : ∀ c : Int, 2 ≤ c → c ≤ n → ∃ g' l' nv'',
          some ((⟨a, some (.expr (varPlus nv c))⟩ : Blk σ V) :: g, (nv, some c) :: l.map (fun e => (e.1, some e.2)), nv') =
            some (g', l'.map (fun e : Nat × Int => (e.1, some e.2)), nv'') ∧ GenHalf z (⟨a, some n⟩ :: rest) g' l' ∧
          nv ≤ nv'' ∧ (∀ e ∈ l', nv ≤ e.1 ∧ e.1 < nv'') ∧ (l'.map (·.1)).Nodup := by
        intro c hc hcn
        refine ⟨_, (nv, c) :: l, nv', rfl, .many a hc hcn h2, by omega, ?_, ?_⟩
        · intro e he
          rcases List.mem_cons.1 he with rfl | he
          · exact ⟨le_refl _, by show nv < nv'; omega⟩
          · have := h4 e he; exact ⟨by omega, this.2⟩
        · rw [List.map_cons, List.nodup_cons]
          refine ⟨?_, h5⟩
          intro hm
          obtain ⟨e, he, heq⟩ := List.mem_map.1 hm
          have := (h4 e he).1
          simp only at heq
          omega
      simp only [if_neg h1, e, Option.map_some]
      by_cases h6 : n > 2 ^ 20
      · rw [if_pos h6]
        exact key (2 ^ 20) (by norm_num) (by exact_mod_cast le_of_lt h6)
      · rw [if_neg h6, if_neg (by omega)]
        exact key n (by omega) (le_refl _)

theorem genHalf_good {z : σ} {h g l} (hg : GenHalf z h g l) : GHalf z g ∧ hvars g = l.map (·.1) ∧
    (∀ b ∈ g, ∀ x c, b.num = some (.expr (varPlus x c)) → (x, c) ∈ l) := by
  induction hg with
  | last => exact ⟨.last, rfl, by simp⟩
  | one a h ih =>
    refine ⟨.cons _ (.num 1 (by decide)) ih.1, ?_, ?_⟩
    · rw [hvars_some, ih.2.1]; rfl
    · intro b hb x c hx
      rcases List.mem_cons.1 hb with rfl | hb
      · cases hx
      · exact ih.2.2 b hb x c hx
  | @many a n x c h g l h1 h2 h3 ih =>
    refine ⟨.cons _ (.var x c) ih.1, ?_, ?_⟩
    · rw [hvars_some, ih.2.1]; simp
    · intro b hb x' c' hx
      rcases List.mem_cons.1 hb with rfl | hb
      · have e : varPlus x c = varPlus x' c' := by simpa using hx
        have ex : x = x' := by simpa [varPlus] using congrArg Expr.terms e
        have ec : c = c' := congrArg Expr.const e
        subst ex; subst ec; simp
      · exact List.mem_cons_of_mem _ (ih.2.2 b hb x' c' hx)

theorem genHalf_all {z : σ} {okS : σ → Prop} {D : Nat → Prop} {h g l} (hg : GenHalf z h g l)
    (ha : ∀ b ∈ h, okS b.sym ∧ ∀ v, b.num = some v → True) (hl : ∀ e ∈ l, D e.1) :
    ∀ b ∈ g, okS b.sym ∧ ∀ v, b.num = some v → LinIn D v := by
  induction hg with
  | last => intro b hb; simp at hb; subst hb; exact ⟨(ha ⟨z, none⟩ (by simp)).1, by simp⟩
  | one a h ih =>
    intro b hb
    rcases List.mem_cons.1 hb with rfl | hb
    · exact ⟨(ha ⟨a, some 1⟩ (by simp)).1, fun v hv => by cases hv; trivial⟩
    · exact ih (fun b hb => ha b (by simp [hb])) hl b hb
  | @many a n x c h g l h1 h2 h3 ih =>
    intro b hb
    rcases List.mem_cons.1 hb with rfl | hb
    · refine ⟨(ha ⟨a, some n⟩ (by simp)).1, fun v hv => ?_⟩
      cases hv
      exact lin_mono (count_lin (.var x c)) (fun y hy => by simp at hy; exact hy ▸ hl (x, c) (by simp))
    · exact ih (fun b hb => ha b (by simp [hb])) (fun e he => hl e (by simp [he])) b hb

theorem ghalf_ne {z : σ} {g : List (Blk σ V)} (h : GHalf z g) : g ≠ [] := by cases h <;> simp

theorem genHalf_ne {z : σ} {h g l} (hg : GenHalf z h g l) : h ≠ [] ∧ g ≠ [] := by cases hg <;> simp

@[simp] theorem info_one (a : σ) : info valIsOne (⟨a, some (.num 1)⟩ : Blk σ V) = .one a := rfl
@[simp] theorem info_var (a : σ) (x c) : info valIsOne (⟨a, some (.expr (varPlus x c))⟩ : Blk σ V) = .many a := by
  have : ¬ valIsOne (.expr (varPlus x c)) = true := by rw [count_isOne (.var x c)]; simp
  simp [info, this]
@[simp] theorem info_none (f : V → Bool) (a : σ) : info f (⟨a, none⟩ : Blk σ V) = .many a := rfl

theorem dropLast_map {α β : Type} (f : α → β) {a : α} {l : List α} (h : l ≠ []) :
    (a :: l).dropLast.map f = f a :: l.dropLast.map f := by
  rw [List.dropLast_cons_of_ne_nil h]; rfl

theorem genHalf_info {z : σ} {h g l} (hg : GenHalf z h g l) :
    h.dropLast.map (info natIsOne) = g.dropLast.map (info valIsOne) := by
  induction hg with
  | last => rfl
  | one a h ih => rw [dropLast_map _ (genHalf_ne h).1, dropLast_map _ (genHalf_ne h).2, ih]; rfl
  | @many a n x c h g l h1 h2 h3 ih =>
    rw [dropLast_map _ (genHalf_ne h3).1, dropLast_map _ (genHalf_ne h3).2, ih, info_var]
    have : ¬ natIsOne n = true := by simp [natIsOne]; omega
    simp [info, this]

/-! ## Initial and final tape -/

/-- The blocks of the initial and the final tape, with the variables: name, initial constant, final value. -/
inductive PairHalf (z : σ) : List (Blk σ V) → List (Blk σ V) → List (Nat × Int × V) → Prop
  | last : PairHalf z [⟨z, none⟩] [⟨z, none⟩] []
  | one (a : σ) {g f l} : PairHalf z g f l → PairHalf z (⟨a, some (.num 1)⟩ :: g) (⟨a, some (.num 1)⟩ :: f) l
  | many (a : σ) {x : Nat} {c : Int} {w : V} {g f l} : CountV w → PairHalf z g f l →
      PairHalf z (⟨a, some (.expr (varPlus x c))⟩ :: g) (⟨a, some w⟩ :: f) ((x, c, w) :: l)

theorem info_count {a : σ} {v : V} (h : CountV v) :
    (v = .num 1 ∧ info valIsOne (⟨a, some v⟩ : Blk σ V) = .one a) ∨
    (v ≠ .num 1 ∧ info valIsOne (⟨a, some v⟩ : Blk σ V) = .many a) := by
  by_cases h1 : v = .num 1
  · subst h1; exact Or.inl ⟨rfl, rfl⟩
  · refine Or.inr ⟨h1, ?_⟩
    have : ¬ valIsOne v = true := by rw [count_isOne h]; exact h1
    simp [info, this]

theorem pair_of {z : σ} {h g l} (hg : GenHalf z h g l) : ∀ {f : List (Blk σ V)}, GHalf z f →
    f.dropLast.map (info valIsOne) = g.dropLast.map (info valIsOne) →
    ∃ l', PairHalf z g f l' ∧ l'.map (fun e => (e.1, e.2.1)) = l := by
  induction hg with
  | last =>
    intro f hf he
    cases hf with
    | last => exact ⟨[], .last, rfl⟩
    | cons a hv hf => rw [dropLast_map _ (ghalf_ne hf)] at he; simp at he
  | one a h ih =>
    intro f hf he
    rw [dropLast_map _ (genHalf_ne h).2] at he
    cases hf with
    | last => simp at he
    | @cons b v f hv hf =>
      rw [dropLast_map _ (ghalf_ne hf)] at he
      obtain ⟨h1, h2⟩ := List.cons.inj he
      obtain ⟨l', h3, h4⟩ := ih hf h2
      rcases info_count (a := b) hv with ⟨rfl, e⟩ | ⟨hne, e⟩
      · simp at h1; subst h1; exact ⟨l', .one b h3, h4⟩
      · rw [e] at h1; simp at h1
  | @many a n x c h g l hc hcn h ih =>
    intro f hf he
    rw [dropLast_map _ (genHalf_ne h).2, info_var] at he
    cases hf with
    | last => simp at he
    | @cons b v f hv hf =>
      rw [dropLast_map _ (ghalf_ne hf)] at he
      obtain ⟨h1, h2⟩ := List.cons.inj he
      obtain ⟨l', h3, h4⟩ := ih hf h2
      rcases info_count (a := b) hv with ⟨rfl, e⟩ | ⟨hne, e⟩
      · rw [e] at h1; simp at h1
      · rw [e] at h1; simp at h1; subst h1
        exact ⟨_, .many b hv h3, by simp [h4]⟩

theorem pair_ne {z : σ} {g f l} (h : PairHalf z g f l) : g ≠ [] ∧ f ≠ [] := by cases h <;> simp

/-! ## Differences -/

theorem varPlus_sub (x : Nat) (c c' : Int) : (Val.expr (varPlus x c')).sub (.expr (varPlus x c)) = .expr ⟨[], c' - c⟩ := by
  simp [Val.sub, Val.neg, Val.add, addE, mulS, varPlus, termSum, mergeTerm, compareTerms, compareVars]
  ring

theorem varPlus_sub_ne (x x' : Nat) (c c' : Int) (h : x' ≠ x) :
    ∃ e : Expr Int, (Val.expr (varPlus x' c')).sub (.expr (varPlus x c)) = .expr e ∧ e.terms ≠ [] := by
  refine ⟨_, rfl, ?_⟩
  simp only [mulS, varPlus, addE, termSum, mergeTerm]
  rw [if_neg (by decide)]
  simp only [List.map_cons, List.map_nil, mergeTerm]
  split
  · next h' => exfalso; rw [compareTerms_eq_zero] at h'; simp at h'; exact h h'
  · split <;> simp

theorem diffNum_many {w : V} (hw : CountV w) (x : Nat) (c : Int) :
    ∃ d fl, diffNum (some w) (some (.expr (varPlus x c))) = some (d, fl) ∧
      (fl = true ↔ ∃ c', w = .expr (varPlus x c')) ∧
      ∀ c', w = .expr (varPlus x c') → d = some (.num (c' - c)) := by
  cases hw with
  | num k hk =>
    have : (Val.num k).sub (.expr (varPlus x c)) = .expr ⟨[⟨[⟨x, 1⟩], 1 * (-1)⟩], c * (-1) + k⟩ := by
      simp [Val.sub, mulS, varPlus, addS]
    exact ⟨_, false, by simp only [diffNum, this]; rfl, by simp, by simp⟩
  | var x' c' =>
    by_cases h : x' = x
    · subst h
      refine ⟨some (.num (c' - c)), true, ?_, by simp, ?_⟩
      · simp only [diffNum, varPlus_sub]; rfl
      · intro c'' e
        have ec : c' = c'' := congrArg Expr.const (Val.expr.inj e)
        rw [ec]
    · obtain ⟨e, he, hne⟩ := varPlus_sub_ne x x' c c' h
      refine ⟨some (.expr e), false, ?_, ?_, ?_⟩
      · simp only [diffNum, he]
        rw [if_neg (by simpa using hne)]
      · simp only [Bool.false_eq_true, false_iff]
        rintro ⟨c'', e⟩
        apply h
        have : (varPlus x' c').terms = (varPlus x c'').terms := by simpa using congrArg (fun v => match v with | Val.expr e => Expr.terms e | _ => []) e
        simpa [varPlus] using this
      · intro c'' e
        exfalso
        apply h
        have : (varPlus x' c').terms = (varPlus x c'').terms := by simpa using congrArg (fun v => match v with | Val.expr e => Expr.terms e | _ => []) e
        simpa [varPlus] using this

/-- Initial and final blocks and the differences, with the variables: name, initial constant, final constant. -/
inductive DPair (z : σ) : List (Blk σ V) → List (Blk σ V) → List (Blk σ V) → List (Nat × Int × Int) → Prop
  | last : DPair z [⟨z, none⟩] [⟨z, none⟩] [⟨z, none⟩] []
  | one (a : σ) {g f d l} : DPair z g f d l →
      DPair z (⟨a, some (.num 1)⟩ :: g) (⟨a, some (.num 1)⟩ :: f) (⟨a, some (.num 0)⟩ :: d) l
  | many (a : σ) {x : Nat} {c c' : Int} {g f d l} : DPair z g f d l →
      DPair z (⟨a, some (.expr (varPlus x c))⟩ :: g) (⟨a, some (.expr (varPlus x c'))⟩ :: f)
        (⟨a, some (.num (c' - c))⟩ :: d) ((x, c, c') :: l)

theorem diffHalf_ok {z : σ} {g f l} (h : PairHalf z g f l) : ∃ d fl, diffHalf f g = some (d, fl) ∧
    (fl = true ↔ ∀ e ∈ l, ∃ c', e.2.2 = .expr (varPlus e.1 c')) ∧
    (fl = true → ∃ l', DPair z g f d l' ∧ l'.map (fun e => (e.1, e.2.1, Val.expr (varPlus e.1 e.2.2))) = l) := by
  induction h with
  | last => exact ⟨_, true, rfl, by simp, fun _ => ⟨[], .last, rfl⟩⟩
  | one a h ih =>
    obtain ⟨d, fl, h1, h2, h3⟩ := ih
    refine ⟨⟨a, some (.num 0)⟩ :: d, fl, ?_, h2, ?_⟩
    · have : diffNum (some (.num 1)) (some (.num 1)) = some (some (.num 0), true) := rfl
      simp [diffHalf, this, h1]
    · intro hf
      obtain ⟨l', h4, h5⟩ := h3 hf
      exact ⟨l', .one a h4, h5⟩
  | @many a x c w g f l hw h ih =>
    obtain ⟨d, fl, h1, h2, h3⟩ := ih
    obtain ⟨d0, fl0, h4, h5, h6⟩ := diffNum_many hw x c
    refine ⟨⟨a, d0⟩ :: d, fl0 && fl, ?_, ?_, ?_⟩
    · simp [diffHalf, h4, h1]
    · rw [Bool.and_eq_true, h5, h2]
      simp
    · intro hf
      rw [Bool.and_eq_true, h5] at hf
      obtain ⟨⟨c', rfl⟩, hf⟩ := hf
      obtain ⟨l', h7, h8⟩ := h3 hf
      rw [h6 c' rfl]
      exact ⟨(x, c, c') :: l', .many a h7, by simp [h8]⟩

theorem dpair_ne {z : σ} {g f d l} (h : DPair z g f d l) : g ≠ [] ∧ f ≠ [] ∧ d ≠ [] := by cases h <;> simp

/-! ## Tightening the minimum -/

theorem subst_varPlus (x : Nat) (c k : Int) (subs : Nat → Option V) (h : subs x = some (.expr (varPlus x k))) :
    (varPlus x c).subst subs = .ok (.expr (varPlus x (c + k))) := by
  simp [Expr.subst, varPlus, substSum, Term.subst, VarPow.subst, h, Val.mul, mulS, Val.add, addS]
  ring

theorem new_eq (x : Nat) (m : Int) : ((Val.expr (varE x)).sub (.num m)).add (.num 1) = .expr (varPlus x (1 - m)) := by
  simp [Val.sub, Val.neg, Val.add, addS, varE, varPlus]
  ring

/-- The blocks of the rule and its differences, with the variables: name, constant, difference. -/
inductive RHalf (z : σ) : List (Blk σ V) → List (Blk σ V) → List (Nat × Int × Int) → Prop
  | last : RHalf z [⟨z, none⟩] [⟨z, none⟩] []
  | one (a : σ) {g d l} : RHalf z g d l → RHalf z (⟨a, some (.num 1)⟩ :: g) (⟨a, some (.num 0)⟩ :: d) l
  | many (a : σ) {x : Nat} {c δ : Int} {g d l} : 1 ≤ c → 1 ≤ c + δ → RHalf z g d l →
      RHalf z (⟨a, some (.expr (varPlus x c))⟩ :: g) (⟨a, some (.num δ)⟩ :: d) ((x, c, δ) :: l)

theorem tighten_ok {z : σ} {mins : List (Nat × Option Int)} {m : Nat → Int} {g f d l} (h : DPair z g f d l)
    (hm : ∀ e ∈ l, Py.dget mins e.1 = some (some (m e.1)) ∧ m e.1 ≤ e.2.1 ∧ m e.1 ≤ e.2.2) :
    ∃ g', tighten mins g = some (g', l.map (fun e => (e.1, .expr (varPlus e.1 (1 - m e.1))))) ∧
      RHalf z g' d (l.map (fun e => (e.1, e.2.1 + (1 - m e.1), e.2.2 - e.2.1))) ∧
      g'.dropLast.map (info valIsOne) = g.dropLast.map (info valIsOne) ∧ g' ≠ [] ∧
      ∀ (y ρ : Nat → Int), (∀ e ∈ l, ρ e.1 = y e.1 + (1 - m e.1)) → ∀ u,
        (HalfIs y g' u → HalfIs ρ g u) ∧ (HalfIs ρ f u → HalfPlus y g' d u) := by
  induction h with
  | last =>
    refine ⟨_, rfl, .last, rfl, by simp, fun y ρ _ u => ⟨fun h => ?_, fun h => ?_⟩⟩
    · cases h with
      | cons h1 h2 => cases h2; exact .cons ⟨h1.1, by (have := numIs_none h1.2; rw [this]; trivial)⟩ .nil
    · cases h with
      | cons h1 h2 => cases h2; exact ⟨h1.1, trivial, by (have := numIs_none h1.2; rw [this]; trivial)⟩
  | one a h ih =>
    obtain ⟨g', h1, h2, h3, h4, h5⟩ := ih hm
    refine ⟨⟨a, some (.num 1)⟩ :: g', ?_, .one a h2, ?_, by simp, fun y ρ hρ u => ⟨fun h => ?_, fun h => ?_⟩⟩
    · simp [tighten, h1]
    · rw [dropLast_map _ h4, dropLast_map _ (dpair_ne h).1, h3]
    · cases h with
      | cons h6 h7 =>
        obtain ⟨n, hn, hv⟩ := numIs_some h6.2
        exact .cons ⟨h6.1, by rw [hn]; exact hv⟩ ((h5 y ρ hρ _).1 h7)
    · cases h with
      | @cons _ b _ u h6 h7 =>
        obtain ⟨n, hn, hv⟩ := numIs_some h6.2
        obtain ⟨bs, bn⟩ := b
        simp only at hn
        subst hn
        exact ⟨h6.1, (h5 y ρ hρ _).2 h7, hv⟩
  | @many a x c c' g f d l h ih =>
    obtain ⟨g', h1, h2, h3, h4, h5⟩ := ih (fun e he => hm e (by simp [he]))
    obtain ⟨m1, m2, m3⟩ := hm (x, c, c') (by simp)
    simp only at m1 m2 m3
    refine ⟨⟨a, some (.expr (varPlus x (c + (1 - m x))))⟩ :: g', ?_, ?_, ?_, by simp, fun y ρ hρ u => ⟨fun h => ?_, fun h => ?_⟩⟩
    · have hs := subst_varPlus x c (1 - m x) (fun v => if v = x then some (.expr (varPlus x (1 - m x))) else none)
        (by simp)
      simp only [tighten, restricted_varPlus, getMin, m1, new_eq, hs, h1]
      rfl
    · exact .many a (by omega) (by omega) h2
    · rw [dropLast_map _ h4, dropLast_map _ (dpair_ne h).1, h3]; simp
    · have hx := hρ (x, c, c') (by simp)
      simp only at hx
      cases h with
      | cons h6 h7 =>
        obtain ⟨n, hn, hv⟩ := numIs_some h6.2
        refine .cons ⟨h6.1, ?_⟩ ((h5 y ρ (fun e he => hρ e (by simp [he])) _).1 h7)
        rw [hn]
        show Val.value ρ _ = (n : Int)
        rw [varPlus_value] at hv ⊢
        omega
    · have hx := hρ (x, c, c') (by simp)
      simp only at hx
      cases h with
      | @cons _ b _ u h6 h7 =>
        obtain ⟨n, hn, hv⟩ := numIs_some h6.2
        obtain ⟨bs, bn⟩ := b
        simp only at hn
        subst hn
        refine ⟨h6.1, (h5 y ρ (fun e he => hρ e (by simp [he])) _).2 h7, ?_⟩
        show Val.value y _ + Val.value y (.num (c' - c)) = (n : Int)
        rw [varPlus_value] at hv ⊢
        rw [value_num]
        omega

/-- The new blocks have the same symbols and variables. -/
theorem tighten_blocks {z : σ} {mins : List (Nat × Option Int)} {m : Nat → Int} {g f d l} (h : DPair z g f d l)
    (hm : ∀ e ∈ l, Py.dget mins e.1 = some (some (m e.1))) : ∀ {g' reps}, tighten mins g = some (g', reps) →
      List.Forall₂ (fun a b => a.sym = b.sym ∧ blkVars a = blkVars b) g g' := by
  induction h with
  | last => intro g' reps ht; cases ht; exact .cons ⟨rfl, rfl⟩ .nil
  | one a h ih =>
    intro g' reps ht
    simp only [tighten] at ht
    cases hr : tighten mins _ with
    | none => rw [hr] at ht; cases ht
    | some p =>
      rw [hr] at ht
      cases ht
      exact .cons ⟨rfl, rfl⟩ (ih hm hr)
  | @many a x c c' g f d l h ih =>
    intro g' reps ht
    have m1 := hm (x, c, c') (by simp)
    simp only at m1
    have hs := subst_varPlus x c (1 - m x) (fun v => if v = x then some (.expr (varPlus x (1 - m x))) else none)
      (by simp)
    simp only [tighten, restricted_varPlus, getMin, m1, new_eq, hs] at ht
    cases hr : tighten mins g with
    | none => rw [hr] at ht; cases ht
    | some p =>
      rw [hr] at ht
      cases ht
      exact .cons ⟨rfl, by simp [blkVars]⟩ (ih (fun e he => hm e (by simp [he])) hr)

theorem substNums_diff {z : σ} {g d l} (h : RHalf z g d l) (subs : Nat → Option V) :
    substNums subs (d.map (·.num)) = some (d.map (·.num)) ∧ setNums d (d.map (·.num)) = d := by
  induction h with
  | last => exact ⟨rfl, rfl⟩
  | one a h ih => exact ⟨by simp [substNums, ih.1, Val.subst], by simp [setNums, ih.2]⟩
  | many a h1 h2 h ih => exact ⟨by simp [substNums, ih.1, Val.subst], by simp [setNums, ih.2]⟩

theorem substSeen_ok {P Q : Nat → Prop} {subs : Nat → Option V} (hs : ∀ x, P x → ∃ w, subs x = some w ∧ LinIn Q w) :
    ∀ (seen : List (Nat × V)), (∀ e ∈ seen, LinIn P e.2) → ∃ r, substSeen subs seen = some r ∧ (∀ e ∈ r, LinIn Q e.2) ∧
      r.map (·.1) = seen.map (·.1) ∧
      ∀ q, (∀ w, Py.dget r q = some w → ∃ v, Py.dget seen q = some v ∧ ∀ y, Val.value y w = Val.value (substAssign subs y) v) ∧
        (Py.dget r q = none → Py.dget seen q = none)
  | [], _ => ⟨[], rfl, by simp, rfl, fun q => ⟨fun w h => by simp [Py.dget] at h, fun _ => rfl⟩⟩
  | (p, v) :: seen, h => by
    obtain ⟨r, h1, h2, h3, h4⟩ := substSeen_ok hs seen (fun e he => h e (by simp [he]))
    obtain ⟨w, h5, h6, h7⟩ := subst_lin (h (p, v) (by simp)) hs
    refine ⟨(p, w) :: r, by simp [substSeen, h5, h1], ?_, by simp [h3], ?_⟩
    · intro e he
      rcases List.mem_cons.1 he with rfl | he
      · exact h6
      · exact h2 e he
    · intro q
      by_cases hq : p = q
      · subst hq
        refine ⟨fun w' hw' => ?_, fun hn => ?_⟩
        · have : w' = w := by simpa [Py.dget] using hw'.symm
          subst this
          exact ⟨v, by simp [Py.dget], h7⟩
        · simp [Py.dget] at hn
      · have e1 : Py.dget ((p, w) :: r) q = Py.dget r q := by simp [Py.dget, hq]
        have e2 : Py.dget ((p, v) :: seen) q = Py.dget seen q := by simp [Py.dget, hq]
        rw [e1, e2]; exact h4 q

theorem dpair_mem {z : σ} {g f d l} (h : DPair z g f d l) : ∀ e ∈ l,
    (∃ a, (⟨a, some (.expr (varPlus e.1 e.2.1))⟩ : Blk σ V) ∈ g) ∧ ∃ a, (⟨a, some (.expr (varPlus e.1 e.2.2))⟩ : Blk σ V) ∈ f := by
  induction h with
  | last => simp
  | one a h ih =>
    intro e he
    obtain ⟨⟨a1, h1⟩, a2, h2⟩ := ih e he
    exact ⟨⟨a1, by simp [h1]⟩, a2, by simp [h2]⟩
  | @many a x c c' g f d l h ih =>
    intro e he
    rcases List.mem_cons.1 he with rfl | he
    · exact ⟨⟨a, by simp⟩, a, by simp⟩
    · obtain ⟨⟨a1, h1⟩, a2, h2⟩ := ih e he
      exact ⟨⟨a1, by simp [h1]⟩, a2, by simp [h2]⟩

/-! ## Difference rules -/

/-- A sound difference rule for the configurations with the given stripped configuration. -/
structure DiffOK [DecidableEq σ] [DecidableEq S] (M : Machine σ S) (z : σ) (key : Strip σ S) (r : DiffRule σ)
    (ll lr : List (Nat × Int × Int)) : Prop where
  left : RHalf z r.init.left r.diff.left ll
  right : RHalf z r.init.right r.diff.right lr
  nodup : ((ll ++ lr).map (·.1)).Nodup
  shape : key = strip valIsOne key.st r.init
  steps : LinIn (· ∈ (ll ++ lr).map (·.1)) r.steps
  seen : ∀ e ∈ r.seen, LinIn (· ∈ (ll ++ lr).map (·.1)) e.2
  keys : Py.NodupKeys r.seen
  loops : 1 ≤ r.loops
  sound : ∀ y : Nat → Int, (∀ x, 0 ≤ y x) → ∀ c : SimSt σ S Nat, c.op = .running → c.st = key.st → c.dir = c.tape.dir →
    TapeIs y r.init c.tape → c.tape.WF z →
    Reaches y r.steps r.seen c ((SimSt.step natOps M)^[r.loops] c) ∧
      TapePlus y r.init r.diff ((SimSt.step natOps M)^[r.loops] c).tape

/-! ## General rules -/

/-- The blocks of a general rule: initial, variable with its minimum, final. -/
inductive GRHalf (z : σ) (D : Nat → Prop) : List (Blk σ V) → List (Option (Nat × Int)) → List (Blk σ V) → Prop
  | last : GRHalf z D [⟨z, none⟩] [none] [⟨z, none⟩]
  | one (a : σ) {w : V} {g vs f} : LinIn D w → (∀ ρ, Val.value ρ w = 1) → GRHalf z D g vs f →
      GRHalf z D (⟨a, some (.num 1)⟩ :: g) (none :: vs) (⟨a, some w⟩ :: f)
  | many (a : σ) {x : Nat} {m : Int} {w : V} {g vs f} : D x → 1 ≤ m → LinIn D w → GRHalf z D g vs f →
      GRHalf z D (⟨a, some (.expr (varPlus x 0))⟩ :: g) (some (x, m) :: vs) (⟨a, some w⟩ :: f)

structure GenOK [DecidableEq σ] [DecidableEq S] (M : Machine σ S) (z : σ) (key : Strip σ S) (r : GenRule)
    (init res : ChainTape σ V) (vl vr : List (Option (Nat × Int))) (D : Nat → Prop) : Prop where
  left : GRHalf z D init.left vl res.left
  right : GRHalf z D init.right vr res.right
  dirs : res.dir = init.dir
  vars : r.vars = vl ++ vr
  result : r.result = (res.left ++ res.right).map (·.num)
  dom : ∀ x, D x → x ∈ hvars init.left ++ hvars init.right
  nodup : (hvars init.left ++ hvars init.right).Nodup
  shape : key = strip valIsOne key.st init
  steps : LinIn D r.steps
  seen : ∀ e ∈ r.seen, LinIn D e.2
  keys : Py.NodupKeys r.seen
  loops : 1 ≤ r.loops
  infinite : r.infinite = isInfinite r.vars r.result
  sound : ∀ y : Nat → Int, (∀ x m, some (x, m) ∈ r.vars → m ≤ y x) → ∀ c : SimSt σ S Nat, c.op = .running →
    c.st = key.st → c.dir = c.tape.dir → TapeIs y init c.tape → c.tape.WF z →
    Reaches y r.steps r.seen c ((SimSt.step natOps M)^[r.loops] c) ∧
      TapeIs y res ((SimSt.step natOps M)^[r.loops] c).tape

def RuleOK [DecidableEq σ] [DecidableEq S] (M : Machine σ S) (z : σ) (key : Strip σ S) : Rule σ → Prop
  | .diff r => ∃ ll lr, DiffOK M z key r ll lr
  | .gen r => ∃ init res vl vr D, GenOK M z key r init res vl vr D

theorem genVars_append (mins : List (Nat × Option Int)) : ∀ (a b : List (Blk σ V)) (ra rb aa ab),
    genVars mins a = some (ra, aa) → genVars mins b = some (rb, ab) → genVars mins (a ++ b) = some (ra ++ rb, aa ++ ab)
  | [], b, ra, rb, aa, ab, h1, h2 => by cases h1; simpa using h2
  | x :: a, b, ra, rb, aa, ab, h1, h2 => by
    rw [List.cons_append]
    unfold genVars at h1 ⊢
    cases hx : x.num with
    | none =>
      rw [hx] at h1
      cases ha : genVars mins a with
      | none => rw [ha] at h1; cases h1
      | some p =>
        rw [ha] at h1; cases h1
        rw [genVars_append mins a b _ _ _ _ ha h2]; rfl
    | some v =>
      cases v with
      | num k =>
        rw [hx] at h1
        cases ha : genVars mins a with
        | none => rw [ha] at h1; cases h1
        | some p =>
          rw [ha] at h1; cases h1
          rw [genVars_append mins a b _ _ _ _ ha h2]; rfl
      | expr e =>
        rw [hx] at h1
        cases hr : e.variableRestricted with
        | error _ => simp [hr] at h1
        | ok v =>
          simp only [hr] at h1 ⊢
          cases hm : getMin mins v with
          | none => simp [hm] at h1
          | some m =>
            cases ha : genVars mins a with
            | none => simp [hm, ha] at h1
            | some p =>
              rw [genVars_append mins a b _ _ _ _ ha h2]
              simp only [hm, ha, Option.some.injEq, Prod.mk.injEq] at h1 ⊢
              rw [← h1.1, ← h1.2]
              simp

theorem substNums_append (subs : Nat → Option V) : ∀ (a b ra rb : List (Option V)),
    substNums subs a = some ra → substNums subs b = some rb → substNums subs (a ++ b) = some (ra ++ rb)
  | [], b, ra, rb, h1, h2 => by cases h1; simpa using h2
  | none :: a, b, ra, rb, h1, h2 => by
    rw [List.cons_append]
    unfold substNums at h1 ⊢
    cases ha : substNums subs a with
    | none => rw [ha] at h1; cases h1
    | some p =>
      rw [ha] at h1; cases h1
      rw [substNums_append subs a b _ _ ha h2]; rfl
  | some v :: a, b, ra, rb, h1, h2 => by
    rw [List.cons_append]
    unfold substNums at h1 ⊢
    cases hv : v.subst subs with
    | error _ => simp [hv] at h1
    | ok w =>
      cases ha : substNums subs a with
      | none => simp [ha, hv] at h1
      | some p =>
        rw [substNums_append subs a b _ _ ha h2]
        simp only [hv, ha, Option.some.injEq] at h1 ⊢
        rw [← h1]; rfl

theorem assign_eq (x : Nat) (c : Int) : (Val.expr (varPlus x c)).sub (.num (2 * (varPlus x c).const)) = .expr (varPlus x (-c)) := by
  simp [Val.sub, Val.neg, Val.add, addS, varPlus]
  ring

theorem count_subst {D : Nat → Prop} {subs : Nat → Option V} {k : Nat → Int}
    (hs : ∀ x, D x → subs x = some (.expr (varPlus x (k x)))) {w : V} (hw : CountV w) (hD : ∀ x ∈ w.variables, D x) :
    ∃ w', w.subst subs = .ok w' ∧ w'.variables = w.variables ∧ LinIn D w' ∧
      ∀ y, Val.value y w' = Val.value (substAssign subs y) w := by
  obtain ⟨w', h1, h2, h3⟩ := subst_lin (P := D) (Q := D) (lin_mono (count_lin hw) hD) (fun x hx =>
    ⟨_, hs x hx, lin_mono (count_lin (.var x (k x))) (fun y hy => by simp at hy; exact hy ▸ hx)⟩)
  refine ⟨w', h1, ?_, h2, h3⟩
  cases hw with
  | num c hc => cases h1; rfl
  | var x c =>
    have : (Val.expr (varPlus x c)).subst subs = .ok (.expr (varPlus x (c + k x))) := by
      have := subst_varPlus x c (k x) subs (hs x (hD x (by simp)))
      simpa [Val.subst, varPlus] using this
    rw [this] at h1
    cases h1
    simp

theorem gen_ok {z : σ} {D : Nat → Prop} {mins : List (Nat × Option Int)} {m k : Nat → Int} {subs : Nat → Option V}
    (hs : ∀ x, D x → subs x = some (.expr (varPlus x (k x)))) {g f l}
    (h : PairHalf z g f l) (hD : ∀ e ∈ l, D e.1) (hv : ∀ x ∈ hvars f, D x)
    (hm : ∀ e ∈ l, Py.dget mins e.1 = some (some (m e.1)) ∧ m e.1 ≤ e.2.1 ∧ k e.1 = - e.2.1) :
    ∃ vs res init, genVars mins g = some (vs, l.map (fun e => (e.1, .expr (varPlus e.1 (- e.2.1))))) ∧
      substNums subs (f.map (·.num)) = some (res.map (·.num)) ∧ GRHalf z D init vs res ∧
      hvars init = l.map (·.1) ∧ vs.length = (res.map (·.num)).length ∧
      init.dropLast.map (info valIsOne) = g.dropLast.map (info valIsOne) ∧ init ≠ [] ∧
      (∀ e ∈ l, some (e.1, e.2.1 - m e.1 + 1) ∈ vs) ∧
      (∀ vs' rs', linearTest (vs ++ vs') (res.map (·.num) ++ rs') = true →
        linearTest vs' rs' = true ∧ ∀ e ∈ l, ∃ c', e.2.2 = .expr (varPlus e.1 c')) ∧
      ∀ (y ρ : Nat → Int), (∀ x, D x → ρ x = y x + k x) → (ρ = substAssign subs y) → ∀ u,
        (HalfIs y init u → HalfIs ρ g u) ∧ (HalfIs ρ f u → HalfIs y res u) := by
  induction h with
  | last =>
    refine ⟨[none], [⟨z, none⟩], [⟨z, none⟩], rfl, rfl, .last, rfl, rfl, rfl, by simp, by simp, ?_, ?_⟩
    · intro vs' rs' h; exact ⟨by simpa [linearTest] using h, by simp⟩
    · intro y ρ _ _ u
      refine ⟨fun h => ?_, fun h => ?_⟩
      · cases h with
        | cons h1 h2 => cases h2; exact .cons ⟨h1.1, by (have := numIs_none h1.2; rw [this]; trivial)⟩ .nil
      · cases h with
        | cons h1 h2 => cases h2; exact .cons ⟨h1.1, by (have := numIs_none h1.2; rw [this]; trivial)⟩ .nil
  | @one a g f l h ih =>
    obtain ⟨vs, res, init, h1, h2, h3, h4, h5, h6, h7, h8, h9, h10⟩ := ih hD (fun x hx => hv x (by simpa using hx)) hm
    refine ⟨none :: vs, ⟨a, some (.num 1)⟩ :: res, ⟨a, some (.num 1)⟩ :: init, ?_, ?_, .one a trivial (fun _ => rfl) h3, ?_, ?_, ?_, by simp,
      ?_, ?_, ?_⟩
    · simp [genVars, h1]
    · simp [substNums, Val.subst, h2]
    · simpa using h4
    · simp [h5]
    · rw [dropLast_map _ h7, dropLast_map _ (pair_ne h).1, h6]
    · intro e he; exact List.mem_cons_of_mem _ (h8 e he)
    · intro vs' rs' ht
      exact h9 vs' rs' (by simpa [linearTest] using ht)
    · intro y ρ hρ hρ' u
      refine ⟨fun h => ?_, fun h => ?_⟩
      · cases h with
        | cons h11 h12 =>
          obtain ⟨n, hn, hv⟩ := numIs_some h11.2
          exact .cons ⟨h11.1, by rw [hn]; exact hv⟩ ((h10 y ρ hρ hρ' _).1 h12)
      · cases h with
        | cons h11 h12 =>
          obtain ⟨n, hn, hv⟩ := numIs_some h11.2
          exact .cons ⟨h11.1, by rw [hn]; exact hv⟩ ((h10 y ρ hρ hρ' _).2 h12)
  | @many a x c w g f l hw h ih =>
    obtain ⟨vs, res, init, h1, h2, h3, h4, h5, h6, h7, h8, h9, h10⟩ := ih (fun e he => hD e (by simp [he]))
      (fun x hx => hv x (by simp [hx])) (fun e he => hm e (by simp [he]))
    obtain ⟨m1, m2, m3⟩ := hm (x, c, w) (by simp)
    simp only at m1 m2 m3
    have hDx := hD (x, c, w) (by simp)
    simp only at hDx
    obtain ⟨w', hw1, hw2, hw3, hw4⟩ := count_subst hs hw (fun x hx => hv x (by simp [hx]))
    refine ⟨some (x, c - m x + 1) :: vs, ⟨a, some w'⟩ :: res, ⟨a, some (.expr (varPlus x 0))⟩ :: init, ?_, ?_,
      .many a hDx (by omega) hw3 h3, ?_, ?_, ?_, by simp, ?_, ?_, ?_⟩
    · simp only [genVars, restricted_varPlus, getMin, m1, h1, assign_eq]; rfl
    · simp [substNums, hw1, h2]
    · simp [h4]
    · simp [h5]
    · rw [dropLast_map _ h7, dropLast_map _ (pair_ne h).1, h6]; simp
    · intro e he
      rcases List.mem_cons.1 he with rfl | he
      · simp
      · exact List.mem_cons_of_mem _ (h8 e he)
    · intro vs' rs' ht
      simp only [List.cons_append, List.map_cons, linearTest, Bool.and_eq_true, decide_eq_true_eq] at ht
      obtain ⟨ht1, ht2⟩ := ht
      obtain ⟨ht3, ht4⟩ := h9 vs' rs' ht2
      refine ⟨ht3, fun e he => ?_⟩
      rcases List.mem_cons.1 he with rfl | he
      · rw [hw2] at ht1
        cases hw with
        | num k hk => simp at ht1
        | var x' c' =>
          simp only [variables_varPlus, List.cons.injEq, and_true] at ht1
          subst ht1
          exact ⟨c', rfl⟩
      · exact ht4 e he
    · intro y ρ hρ hρ' u
      have hx := hρ x hDx
      refine ⟨fun h => ?_, fun h => ?_⟩
      · cases h with
        | cons h11 h12 =>
          obtain ⟨n, hn, hv⟩ := numIs_some h11.2
          refine .cons ⟨h11.1, ?_⟩ ((h10 y ρ hρ hρ' _).1 h12)
          rw [hn]
          show Val.value ρ _ = (n : Int)
          rw [varPlus_value] at hv ⊢
          omega
      · cases h with
        | cons h11 h12 =>
          obtain ⟨n, hn, hv⟩ := numIs_some h11.2
          refine .cons ⟨h11.1, ?_⟩ ((h10 y ρ hρ hρ' _).2 h12)
          rw [hn]
          show Val.value y _ = (n : Int)
          rw [hw4, ← hρ', hv]

variable [DecidableEq σ] [DecidableEq S]

/-- How a difference rule came about: the symbolic run `s0` to `s`, whose variables, steps and times became those of the
rule. -/
structure Traced (M : Machine σ S) (z : σ) (st : S) (tape : ChainTape σ Nat) (delta : Int) (r : DiffRule σ)
    (D : Nat → Prop) (s0 s : SimSt σ S V) (mins0 mins : List (Nat × Option Int)) : Prop where
  inv : SymInv z D s0 mins0
  run : genLoop M delta.toNat s0 mins0 = .ok (s, mins)
  loops : r.loops = delta.toNat
  zero : s0.steps = .expr ⟨[], 0⟩ ∧ s0.seen = []
  syms : ∀ d, (s0.tape.half d).map (·.sym) = (tape.half d).map (·.sym)
  blocks : ∀ d, List.Forall₂ (fun a b => a.sym = b.sym ∧ blkVars a = blkVars b) (s0.tape.half d) (r.init.half d)
  steps : ∀ P, LinIn P s.steps → LinIn P r.steps
  seen : ∀ P, (∀ e ∈ s.seen, LinIn P e.2) → ∀ e ∈ r.seen, LinIn P e.2
  start : ∀ y : Nat → Int, (∀ x, 0 ≤ y x) → ∀ c : SimSt σ S Nat, c.op = .running → c.st = st → c.dir = c.tape.dir →
    TapeIs y r.init c.tape → ∃ ρ, GoodRho ρ mins ∧ SRel ρ c s0 c

omit [DecidableEq σ] [DecidableEq S] in
theorem lin_and {P Q : Nat → Prop} {a : V} (h1 : LinIn P a) (h2 : LinIn Q a) : LinIn (fun x => P x ∧ Q x) a := by
  cases a with
  | num k => trivial
  | expr e =>
    intro t ht
    obtain ⟨x, hx, hp⟩ := h1 t ht
    obtain ⟨x', hx', hq⟩ := h2 t ht
    rw [hx] at hx'
    cases hx'
    exact ⟨x, hx, hp, hq⟩

omit [DecidableEq σ] [DecidableEq S] in
theorem genHalf_syms {z : σ} {h g l} (hg : GenHalf z h g l) : g.map (·.sym) = h.map (·.sym) := by
  induction hg <;> simp_all

/-- **What a proof gives.**  A rule that `prove_rule` returns is sound; it raises only if a transition does. -/
theorem proveRule_full {z : σ} (M : Machine σ S) (st : S) (tape : ChainTape σ Nat) (delta : Int) (nv : Nat)
    (hw : tape.WF z) (hd : 1 ≤ delta) :
    match (proveRule M (strip natIsOne st tape) st tape delta nv).1 with
    | .ok r => RuleOK M z (strip natIsOne st tape) r ∧ ∀ r', r = .diff r' → ∃ gl gr ml mr nv1 nv2 D s mins,
        genHalf tape.left nv = some (gl, ml, nv1) ∧ genHalf tape.right nv1 = some (gr, mr, nv2) ∧
        Traced M z st tape delta r' D
          { tape := ⟨tape.dir, gl, gr⟩, st := st, dir := tape.dir, steps := .expr ⟨[], 0⟩, loops := 0, seen := [], op := .running
            cell := none, infReason := none, recur := [] } s (ml ++ mr) mins
    | .fail => True
    | .raise => ∀ (ok : S → Prop) (okS : σ → Prop), Stays M ok okS → ok st → ¬ tape.All okS (fun _ => True) := by
  obtain ⟨gl, ll, nv1, el, hgl, hnv1, hll, hndl⟩ := genHalf_ok tape.left nv (hw .L)
  obtain ⟨gr, lr, nv2, er, hgr, hnv2, hlr, hndr⟩ := genHalf_ok tape.right nv1 (hw .R)
  obtain ⟨hGl, hvl, hml⟩ := genHalf_good hgl
  obtain ⟨hGr, hvr, hmr⟩ := genHalf_good hgr
  have hnd : ((ll ++ lr).map (·.1)).Nodup := by
    rw [List.map_append, List.nodup_append]
    refine ⟨hndl, hndr, fun x hx y hy e => ?_⟩
    subst e
    obtain ⟨e1, he1, rfl⟩ := List.mem_map.1 hx
    obtain ⟨e2, he2, he⟩ := List.mem_map.1 hy
    have := hll e1 he1
    have := hlr e2 he2
    omega
  let mins0 : List (Nat × Option Int) := ll.map (fun e => (e.1, some e.2)) ++ lr.map (fun e => (e.1, some e.2))
  have hm0 : mins0 = (ll ++ lr).map (fun e => (e.1, some e.2)) := by simp [mins0]
  have hk0 : Py.NodupKeys mins0 := by
    unfold Py.NodupKeys
    rw [hm0, List.map_map]; exact hnd
  have hget : ∀ x c, (x, c) ∈ ll ++ lr → Py.dget mins0 x = some (some c) := by
    intro x c hx
    rw [← Py.mem_iff_dget hk0, hm0]
    exact List.mem_map.2 ⟨(x, c), hx, rfl⟩
  let D : Nat → Prop := fun x => x ∈ (ll ++ lr).map (·.1)
  let s0 : SimSt σ S V :=
    { tape := ⟨tape.dir, gl, gr⟩, st := st, dir := tape.dir, steps := .expr ⟨[], 0⟩, loops := 0, seen := [], op := .running
      cell := none, infReason := none, recur := [] }
  have hinv : SymInv z D s0 mins0 := by
    refine ⟨⟨?_, ?_, ?_⟩, rfl, ?_, ?_, ?_, ?_, ?_, ?_, rfl⟩
    · intro d; cases d; exacts [hGl, hGr]
    · intro d; cases d
      · show (hvars gl).Nodup; rw [hvl]; exact hndl
      · show (hvars gr).Nodup; rw [hvr]; exact hndr
    · rw [List.map_append, List.nodup_append] at hnd
      intro d x hx hx'
      cases d
      · have h1 : x ∈ hvars gl := hx
        have h2 : x ∈ hvars gr := hx'
        rw [hvl] at h1; rw [hvr] at h2
        exact hnd.2.2 x h1 x h2 rfl
      · have h1 : x ∈ hvars gr := hx
        have h2 : x ∈ hvars gl := hx'
        rw [hvr] at h1; rw [hvl] at h2
        exact hnd.2.2 x h2 x h1 rfl
    · rintro x ⟨d, hx⟩
      show x ∈ (ll ++ lr).map (·.1)
      rw [List.map_append, List.mem_append]
      cases d
      · left; rw [← hvl]; exact hx
      · right; rw [← hvr]; exact hx
    · intro x w hx
      rw [← Py.mem_iff_dget hk0, hm0] at hx
      obtain ⟨e, he, heq⟩ := List.mem_map.1 hx
      cases heq
      exact ⟨_, rfl⟩
    · intro d b hb x c hx
      refine ⟨c, hget x c ?_, le_refl _⟩
      rw [List.mem_append]
      cases d
      · exact Or.inl (hml b hb x c hx)
      · exact Or.inr (hmr b hb x c hx)
    · intro x
      constructor
      · rintro ⟨w, hx⟩
        rw [← Py.mem_iff_dget hk0, hm0] at hx
        obtain ⟨e, he, heq⟩ := List.mem_map.1 hx
        cases heq
        exact List.mem_map.2 ⟨e, he, rfl⟩
      · intro hx
        obtain ⟨e, he, rfl⟩ := List.mem_map.1 hx
        exact ⟨_, hget e.1 e.2 he⟩
    · intro t ht; simp [s0] at ht
    · intro e he; simp [s0] at he
  unfold proveRule
  rw [el]
  simp only
  rw [er]
  simp only
  cases hgen : genLoop M delta.toNat s0 mins0 with
  | raise =>
    intro ok okS hM hst ha
    refine genLoop_safe hM _ _ _ hinv ?_ hst hgen
    intro d b hb
    cases d
    · exact genHalf_all hgl (ha .L) (fun e he => List.mem_map.2 ⟨e, List.mem_append_left _ he, rfl⟩) b hb
    · exact genHalf_all hgr (ha .R) (fun e he => List.mem_map.2 ⟨e, List.mem_append_right _ he, rfl⟩) b hb
  | fail => trivial
  | ok p =>
    obtain ⟨s, mins⟩ := p
    have hnds : Py.NodupKeys s.seen := genLoop_nodup M _ _ _ _ _ hgen List.nodup_nil
    obtain ⟨hi, hle, hloops, hrel⟩ := genLoop_ok M _ _ _ _ _ hinv hgen
    simp only
    by_cases hkey : strip valIsOne s.st s.tape ≠ strip natIsOne st tape
    · rw [if_pos hkey]; trivial
    rw [if_neg hkey]
    simp only [ne_eq, not_not] at hkey
    have hst : s.st = st := congrArg Strip.st hkey
    have hdir : s.tape.dir = tape.dir := congrArg Strip.dir hkey
    have hkl : s.tape.left.dropLast.map (info valIsOne) = gl.dropLast.map (info valIsOne) := by
      rw [← genHalf_info hgl]; exact congrArg Strip.left hkey
    have hkr : s.tape.right.dropLast.map (info valIsOne) = gr.dropLast.map (info valIsOne) := by
      rw [← genHalf_info hgr]; exact congrArg Strip.right hkey
    obtain ⟨pl, hpl, hpl'⟩ := pair_of hgl (f := s.tape.left) (hi.tape.good .L) hkl
    obtain ⟨pr, hpr, hpr'⟩ := pair_of hgr (f := s.tape.right) (hi.tape.good .R) hkr
    obtain ⟨dl, fl, el1, el2, el3⟩ := diffHalf_ok hpl
    obtain ⟨dr, fr, er1, er2, er3⟩ := diffHalf_ok hpr
    rw [el1, er1]
    simp only
    have hminsL := minsOf_le (hinv.minsOf .L) hle
    have hminsR := minsOf_le (hinv.minsOf .R) hle
    let m : Nat → Int := fun x => match Py.dget mins x with | some (some m) => m | _ => 0
    have hm : ∀ x, D x → Py.dget mins x = some (some (m x)) := by
      intro x hx
      obtain ⟨w, hw'⟩ := (hi.dom x).2 hx
      obtain ⟨k, rfl⟩ := hi.fin x w hw'
      simp only [m, hw']
    have hmeq : ∀ x k, Py.dget mins x = some (some k) → m x = k := by
      intro x k hx; simp only [m, hx]
    have hDdom : ∀ x k, Py.dget mins x = some (some k) → D x := fun x k hx => (hi.dom x).1 ⟨_, hx⟩
    have hlp : s.loops = delta.toNat := by rw [hloops]; simp [s0]
    have hshape : ∀ l' r' : List (Blk σ V), l'.dropLast.map (info valIsOne) = gl.dropLast.map (info valIsOne) →
        r'.dropLast.map (info valIsOne) = gr.dropLast.map (info valIsOne) →
        strip natIsOne st tape = strip valIsOne st ⟨tape.dir, l', r'⟩ := by
      intro l' r' h1 h2
      unfold strip
      simp only
      rw [h1, h2, genHalf_info hgl, genHalf_info hgr]
    have hstart : ∀ (ρ : Nat → Int) (c : SimSt σ S Nat), c.op = .running → c.st = st → c.dir = c.tape.dir →
        tape.dir = c.tape.dir → HalfIs ρ gl c.tape.left → HalfIs ρ gr c.tape.right → SRel ρ c s0 c := by
      intro ρ c h1 h2 h3 h4 h5 h6
      refine ⟨⟨h4, h5, h6⟩, h2.symm, by rw [h3]; exact h4, h1.symm, ?_, ?_, rfl, rfl, le_refl _⟩
      · simp [s0, Val.value, Expr.value]
      · intro q; exact ⟨fun v hv => by simp [s0, Py.dget] at hv, fun _ => rfl⟩
    by_cases hflag : (fl && fr) = true
    · rw [if_pos hflag]
      rw [Bool.and_eq_true] at hflag
      obtain ⟨ql, hql, hql'⟩ := el3 hflag.1
      obtain ⟨qr, hqr, hqr'⟩ := er3 hflag.2
      have hll' : ql.map (·.1) = ll.map (·.1) := by
        rw [← hpl', ← hql']; simp
      have hlr' : qr.map (·.1) = lr.map (·.1) := by
        rw [← hpr', ← hqr']; simp
      have hDl : ∀ e ∈ ql, D e.1 := by
        intro e he
        show e.1 ∈ (ll ++ lr).map (·.1)
        rw [List.map_append, List.mem_append, ← hll']
        exact Or.inl (List.mem_map.2 ⟨e, he, rfl⟩)
      have hDr : ∀ e ∈ qr, D e.1 := by
        intro e he
        show e.1 ∈ (ll ++ lr).map (·.1)
        rw [List.map_append, List.mem_append, ← hlr']
        exact Or.inr (List.mem_map.2 ⟨e, he, rfl⟩)
      obtain ⟨gl', tl1, tl2, tl3, tl4, tl5⟩ := tighten_ok (mins := mins) (m := m) hql (by
        intro e he
        obtain ⟨⟨a1, h1⟩, a2, h2⟩ := dpair_mem hql e he
        obtain ⟨k1, h3, h4⟩ := hminsL _ h1 e.1 e.2.1 rfl
        obtain ⟨k2, h5, h6⟩ := hi.minsOf .L _ h2 e.1 e.2.2 rfl
        exact ⟨hm _ (hDl e he), by rw [hmeq _ _ h3]; exact h4, by rw [hmeq _ _ h5]; exact h6⟩)
      obtain ⟨gr', tr1, tr2, tr3, tr4, tr5⟩ := tighten_ok (mins := mins) (m := m) hqr (by
        intro e he
        obtain ⟨⟨a1, h1⟩, a2, h2⟩ := dpair_mem hqr e he
        obtain ⟨k1, h3, h4⟩ := hminsR _ h1 e.1 e.2.1 rfl
        obtain ⟨k2, h5, h6⟩ := hi.minsOf .R _ h2 e.1 e.2.2 rfl
        exact ⟨hm _ (hDr e he), by rw [hmeq _ _ h3]; exact h4, by rw [hmeq _ _ h5]; exact h6⟩)
      unfold mkDiff
      simp only
      rw [tl1, tr1]
      simp only
      let reps : List (Nat × V) := ql.map (fun e => (e.1, .expr (varPlus e.1 (1 - m e.1)))) ++
        qr.map (fun e => (e.1, .expr (varPlus e.1 (1 - m e.1))))
      have hreps : ∀ x, D x → Py.dget reps x = some (.expr (varPlus x (1 - m x))) := by
        intro x hx
        have hkr : Py.NodupKeys reps := by
          unfold Py.NodupKeys
          simp only [reps, List.map_append, List.map_map]
          have : ((ql.map (·.1)) ++ (qr.map (·.1))).Nodup := by rw [hll', hlr', ← List.map_append]; exact hnd
          exact this
        rw [← Py.mem_iff_dget hkr]
        have hx : x ∈ (ll ++ lr).map (·.1) := hx
        rw [List.map_append, List.mem_append, ← hll', ← hlr'] at hx
        simp only [reps, List.mem_append]
        rcases hx with hx | hx
        · left; obtain ⟨e, he, rfl⟩ := List.mem_map.1 hx; exact List.mem_map.2 ⟨e, he, rfl⟩
        · right; obtain ⟨e, he, rfl⟩ := List.mem_map.1 hx; exact List.mem_map.2 ⟨e, he, rfl⟩
      have hsubs : ∀ x, D x → ∃ w, Py.dget reps x = some w ∧ LinIn D w := fun x hx =>
        ⟨_, hreps x hx, lin_mono (count_lin (.var x _)) (fun y hy => by simp at hy; exact hy ▸ hx)⟩
      obtain ⟨nl1, nl2⟩ := substNums_diff tl2 (Py.dget reps)
      obtain ⟨nr1, nr2⟩ := substNums_diff tr2 (Py.dget reps)
      obtain ⟨steps, hs1, hs2, hs3⟩ := subst_lin hi.steps hsubs
      obtain ⟨seen, hn1, hn2, hn3, hn4⟩ := substSeen_ok hsubs s.seen hi.seen
      rw [nl1, nr1, hs1, hn1]
      simp only
      rw [nl2, nr2]
      have hDeq : ∀ x, D x ↔ x ∈ ((ql.map (fun e => (e.1, e.2.1 + (1 - m e.1), e.2.2 - e.2.1))) ++
          (qr.map (fun e => (e.1, e.2.1 + (1 - m e.1), e.2.2 - e.2.1)))).map (·.1) := by
        intro x
        show x ∈ (ll ++ lr).map (·.1) ↔ _
        rw [List.map_append, List.map_append, ← hll', ← hlr', List.map_map, List.map_map]; rfl
      have hρ' : ∀ y x, D x → substAssign (Py.dget reps) y x = y x + (1 - m x) := by
        intro y x hx
        unfold substAssign
        rw [hreps x hx]
        simp only
        rw [varPlus_value]
      refine ⟨⟨_, _, tl2, tr2, ?_, hshape _ _ tl3 tr3, ?_, ?_, by rw [Py.NodupKeys, hn3]; exact hnds, ?_, ?_⟩, ?_⟩
      rotate_left 5
      · rintro r' hr'
        cases hr'
        refine ⟨gl, gr, _, _, nv1, nv2, D, s, mins, rfl, er, hinv, hgen, hlp, ⟨rfl, rfl⟩, fun d => ?_, fun d => ?_, ?_, ?_, ?_⟩
        · cases d
          · exact genHalf_syms hgl
          · exact genHalf_syms hgr
        · cases d
          · exact tighten_blocks hql (fun e he => hm _ (hDl e he)) tl1
          · exact tighten_blocks hqr (fun e he => hm _ (hDr e he)) tr1
        · intro P hP
          obtain ⟨steps', e1, e2, -⟩ := subst_lin (lin_and hP hi.steps) (subs := Py.dget reps) (Q := P) (fun x hx =>
            ⟨_, hreps x hx.2, lin_mono (count_lin (.var x _)) (fun y hy => by simp at hy; exact hy ▸ hx.1)⟩)
          rw [hs1] at e1
          cases e1
          cases steps with
          | num k => intro t ht; simp [asExpr] at ht
          | expr e => exact e2
        · intro P hP
          obtain ⟨seen', e1, e2, -⟩ := substSeen_ok (subs := Py.dget reps) (P := fun x => P x ∧ D x) (Q := P) (fun x hx =>
            ⟨_, hreps x hx.2, lin_mono (count_lin (.var x _)) (fun y hy => by simp at hy; exact hy ▸ hx.1)⟩) s.seen
            (fun e he => lin_and (hP e he) (hi.seen e he))
          rw [hn1] at e1
          cases e1
          exact e2
        · intro y hy c h1 h2 h3 h4
          refine ⟨substAssign (Py.dget reps) y, fun x k hx => ?_, hstart _ c h1 h2 h3 h4.dir ?_ ?_⟩
          · rw [hρ' y x (hDdom x k hx), hmeq x k hx]
            have := hy x
            omega
          · exact (tl5 y _ (fun e he => hρ' y _ (hDl e he)) c.tape.left).1 h4.left
          · exact (tr5 y _ (fun e he => hρ' y _ (hDr e he)) c.tape.right).1 h4.right
      · rw [List.map_append, List.map_map, List.map_map]
        have : ((ql.map (·.1)) ++ (qr.map (·.1))).Nodup := by rw [hll', hlr', ← List.map_append]; exact hnd
        exact this
      · refine lin_mono (?_ : LinIn D _) (fun x hx => (hDeq x).1 hx)
        cases steps with
        | num k => intro t ht; simp [asExpr] at ht
        | expr e => exact hs2
      · intro e he; exact lin_mono (hn2 e he) (fun x hx => (hDeq x).1 hx)
      · show 1 ≤ s.loops
        rw [hlp]; omega
      · intro y hy c h1 h2 h3 h4 h5
        have hρ : ∀ x, D x → substAssign (Py.dget reps) y x = y x + (1 - m x) := by
          intro x hx
          unfold substAssign
          rw [hreps x hx]
          simp only
          rw [varPlus_value]
        generalize hρe : substAssign (Py.dget reps) y = ρ at hρ
        have hgood : GoodRho ρ mins := by
          intro x k hx
          rw [hρ x (hDdom x k hx), hmeq x k hx]
          have := hy x
          omega
        have hil := (tl5 y ρ (fun e he => hρ _ (hDl e he)) c.tape.left).1 h4.left
        have hir := (tr5 y ρ (fun e he => hρ _ (hDr e he)) c.tape.right).1 h4.right
        have hR := hrel ρ hgood c c (hstart ρ c h1 h2 h3 h4.dir hil hir) h5
        rw [← hlp] at hR
        show Reaches y (asExpr steps) seen c ((SimSt.step natOps M)^[s.loops] c) ∧ _
        refine ⟨⟨?_, ?_, ?_, ?_, ?_, hR.reason, hR.recur, hR.le⟩, ⟨?_, ?_, ?_⟩⟩
        · rw [← hR.op]; exact hi.op
        · rw [← hR.st, hst, h2]; rfl
        · rw [← hR.dir, hi.dir, hdir, h3]; exact h4.dir
        · rw [hR.steps, ← hρe, ← hs3]
          cases steps with
          | num k => simp [asExpr, Val.value, Expr.value]
          | expr e => rfl
        · intro q
          refine ⟨fun v hv => ?_, fun hv => ?_⟩
          · obtain ⟨v', hv', hval⟩ := (hn4 q).1 v hv
            obtain ⟨n, hn, hn', hle'⟩ := (hR.seen q).1 v' hv'
            exact ⟨n, hn, by rw [hn', hval, hρe], hle'⟩
          · exact (hR.seen q).2 ((hn4 q).2 hv)
        · rw [← hR.tape.dir, hdir]
        · exact (tl5 y ρ (fun e he => hρ _ (hDl e he)) _).2 hR.tape.left
        · exact (tr5 y ρ (fun e he => hρ _ (hDr e he)) _).2 hR.tape.right
    · rw [if_neg hflag]
      have hll' : pl.map (·.1) = ll.map (·.1) := by
        rw [← hpl']; simp
      have hlr' : pr.map (·.1) = lr.map (·.1) := by
        rw [← hpr']; simp
      have hDl : ∀ e ∈ pl, D e.1 := by
        intro e he
        show e.1 ∈ (ll ++ lr).map (·.1)
        rw [List.map_append, List.mem_append, ← hll']
        exact Or.inl (List.mem_map.2 ⟨e, he, rfl⟩)
      have hDr : ∀ e ∈ pr, D e.1 := by
        intro e he
        show e.1 ∈ (ll ++ lr).map (·.1)
        rw [List.map_append, List.mem_append, ← hlr']
        exact Or.inr (List.mem_map.2 ⟨e, he, rfl⟩)
      let asg : List (Nat × V) := pl.map (fun e => (e.1, .expr (varPlus e.1 (- e.2.1)))) ++
        pr.map (fun e => (e.1, .expr (varPlus e.1 (- e.2.1))))
      let k : Nat → Int := fun x => match Py.dget mins0 x with | some (some c) => - c | _ => 0
      have hmemL : ∀ e ∈ pl, (e.1, e.2.1) ∈ ll ++ lr := by
        intro e he
        rw [List.mem_append, ← hpl']; exact Or.inl (List.mem_map.2 ⟨e, he, rfl⟩)
      have hmemR : ∀ e ∈ pr, (e.1, e.2.1) ∈ ll ++ lr := by
        intro e he
        rw [List.mem_append, ← hpr']; exact Or.inr (List.mem_map.2 ⟨e, he, rfl⟩)
      have hk : ∀ x c, (x, c) ∈ ll ++ lr → k x = -c := by
        intro x c hx
        simp only [k, hget x c hx]
      have hasg : ∀ x, D x → Py.dget asg x = some (.expr (varPlus x (k x))) := by
        intro x hx
        have hka : Py.NodupKeys asg := by
          unfold Py.NodupKeys
          simp only [asg, List.map_append, List.map_map]
          have : ((pl.map (·.1)) ++ (pr.map (·.1))).Nodup := by rw [hll', hlr', ← List.map_append]; exact hnd
          exact this
        rw [← Py.mem_iff_dget hka]
        have hx : x ∈ (ll ++ lr).map (·.1) := hx
        rw [List.map_append, List.mem_append, ← hll', ← hlr'] at hx
        simp only [asg, List.mem_append]
        rcases hx with hx | hx
        · left; obtain ⟨e, he, rfl⟩ := List.mem_map.1 hx
          rw [hk _ _ (hmemL e he)]; exact List.mem_map.2 ⟨e, he, rfl⟩
        · right; obtain ⟨e, he, rfl⟩ := List.mem_map.1 hx
          rw [hk _ _ (hmemR e he)]; exact List.mem_map.2 ⟨e, he, rfl⟩
      have hmm : ∀ e : Nat × Int × V, (e.1, e.2.1) ∈ ll ++ lr →
          Py.dget mins e.1 = some (some (m e.1)) ∧ m e.1 ≤ e.2.1 ∧ k e.1 = - e.2.1 := by
        intro e he
        obtain ⟨m', h1, h2⟩ := (hle e.1).2 _ (hget _ _ he)
        refine ⟨hm _ (List.mem_map.2 ⟨_, he, rfl⟩), ?_, hk _ _ he⟩
        rw [hmeq _ _ h1]; exact h2
      obtain ⟨vl, resl, inil, al1, al2, al3, al4, al5, al6, al7, al8, al9, al10⟩ := gen_ok (mins := mins) (m := m) hasg hpl
        hDl (fun x hx => hi.vars x ⟨.L, hx⟩) (fun e he => hmm e (hmemL e he))
      obtain ⟨vr, resr, inir, ar1, ar2, ar3, ar4, ar5, ar6, ar7, ar8, ar9, ar10⟩ := gen_ok (mins := mins) (m := m) hasg hpr
        hDr (fun x hx => hi.vars x ⟨.R, hx⟩) (fun e he => hmm e (hmemR e he))
      unfold mkGen
      simp only
      rw [genVars_append mins _ _ _ _ _ _ al1 ar1]
      simp only
      have hsubs : ∀ x, D x → ∃ w, Py.dget asg x = some w ∧ LinIn D w := fun x hx =>
        ⟨_, hasg x hx, lin_mono (count_lin (.var x _)) (fun y hy => by simp at hy; exact hy ▸ hx)⟩
      obtain ⟨steps, hs1, hs2, hs3⟩ := subst_lin hi.steps hsubs
      obtain ⟨seen, hn1, hn2, hn3, hn4⟩ := substSeen_ok hsubs s.seen hi.seen
      rw [List.map_append, substNums_append (Py.dget asg) _ _ _ _ al2 ar2, hs1, hn1]
      simp only
      have hlin : ¬ linearTest (vl ++ vr) (resl.map (·.num) ++ resr.map (·.num)) = true := by
        intro ht
        apply hflag
        obtain ⟨ht1, ht2⟩ := al9 vr (resr.map (·.num)) ht
        obtain ⟨-, ht3⟩ := ar9 [] [] (by simpa using ht1)
        rw [Bool.and_eq_true, el2, er2]
        exact ⟨ht2, ht3⟩
      rw [if_neg hlin]
      refine ⟨⟨⟨tape.dir, inil, inir⟩, ⟨tape.dir, resl, resr⟩, vl, vr, D, al3, ar3, rfl, rfl, by simp, ?_, ?_,
        hshape _ _ al6 ar6, hs2, hn2, by rw [Py.NodupKeys, hn3]; exact hnds, ?_, rfl, ?_⟩, fun r' hr' => by cases hr'⟩
      · intro x hx
        show x ∈ hvars inil ++ hvars inir
        rw [al4, ar4, hll', hlr', ← List.map_append]; exact hx
      · show (hvars inil ++ hvars inir).Nodup
        rw [al4, ar4, hll', hlr', ← List.map_append]; exact hnd
      · show 1 ≤ s.loops
        rw [hlp]; omega
      · intro y hy c h1 h2 h3 h4 h5
        have hρ : ∀ x, D x → substAssign (Py.dget asg) y x = y x + k x := by
          intro x hx
          unfold substAssign
          rw [hasg x hx]
          simp only
          rw [varPlus_value]
        generalize hρe : substAssign (Py.dget asg) y = ρ at hρ
        have hgood : GoodRho ρ mins := by
          intro x m' hx
          have hDx := hDdom x m' hx
          rw [hρ x hDx]
          have hx2 : x ∈ pl.map (·.1) ++ pr.map (·.1) := by rw [hll', hlr', ← List.map_append]; exact hDx
          rcases List.mem_append.1 hx2 with hx2 | hx2
          · obtain ⟨e, he, rfl⟩ := List.mem_map.1 hx2
            have := hy e.1 _ (by rw [List.mem_append]; exact Or.inl (al8 e he))
            rw [hk _ _ (hmemL e he)]
            have := hmeq _ _ hx
            omega
          · obtain ⟨e, he, rfl⟩ := List.mem_map.1 hx2
            have := hy e.1 _ (by rw [List.mem_append]; exact Or.inr (ar8 e he))
            rw [hk _ _ (hmemR e he)]
            have := hmeq _ _ hx
            omega
        have hil := (al10 y ρ hρ hρe.symm c.tape.left).1 h4.left
        have hir := (ar10 y ρ hρ hρe.symm c.tape.right).1 h4.right
        have hR := hrel ρ hgood c c (hstart ρ c h1 h2 h3 h4.dir hil hir) h5
        rw [← hlp] at hR
        show Reaches y steps seen c ((SimSt.step natOps M)^[s.loops] c) ∧ _
        refine ⟨⟨?_, ?_, ?_, ?_, ?_, hR.reason, hR.recur, hR.le⟩, ⟨?_, ?_, ?_⟩⟩
        · rw [← hR.op]; exact hi.op
        · rw [← hR.st, hst, h2]; rfl
        · rw [← hR.dir, hi.dir, hdir, h3]; exact h4.dir
        · rw [hR.steps, ← hρe, ← hs3]
        · intro q
          refine ⟨fun v hv => ?_, fun hv => ?_⟩
          · obtain ⟨v', hv', hval⟩ := (hn4 q).1 v hv
            obtain ⟨n, hn, hn', hle'⟩ := (hR.seen q).1 v' hv'
            exact ⟨n, hn, by rw [hn', hval, hρe], hle'⟩
          · exact (hR.seen q).2 ((hn4 q).2 hv)
        · rw [← hR.tape.dir, hdir]
        · exact (al10 y ρ hρ hρe.symm _).2 hR.tape.left
        · exact (ar10 y ρ hρ hρe.symm _).2 hR.tape.right

theorem proveRule_ok {z : σ} (M : Machine σ S) (st : S) (tape : ChainTape σ Nat) (delta : Int) (nv : Nat)
    (hw : tape.WF z) (hd : 1 ≤ delta) :
    match (proveRule M (strip natIsOne st tape) st tape delta nv).1 with
    | .ok r => RuleOK M z (strip natIsOne st tape) r
    | .fail => True
    | .raise => ∀ (ok : S → Prop) (okS : σ → Prop), Stays M ok okS → ok st → ¬ tape.All okS (fun _ => True) := by
  have := proveRule_full (z := z) M st tape delta nv hw hd
  match h : (proveRule M (strip natIsOne st tape) st tape delta nv).1, this with
  | .ok r, this => exact this.1
  | .fail, _ => trivial
  | .raise, this => exact this

end Model.Prover

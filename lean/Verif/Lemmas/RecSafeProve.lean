import Verif.Lemmas.RecSafeRun

/-! # Proofs and simulations never raise an exception -/

namespace Model.Recursive
open Spec Model Model.Expr Model.Prover Model.RuleFunc
variable {σ S : Type} {D : Nat → Prop}

/-! ## The parts of a proof -/

theorem num_of_pos {z : σ} {y : Nat → Int} {t : List (Blk σ V)} (he : Ends z t) : ∀ {u : List (Blk σ Nat)}, Pos t → HalfIs y t u →
    NumHalf z t u := by
  induction he with
  | last =>
    intro u _ hu
    cases hu with
    | @cons _ b _ _ h1 h2 =>
      cases h2
      obtain ⟨bs, bn⟩ := b
      obtain ⟨h1, h3⟩ := h1
      have := numIs_none h3
      simp only at h1 this
      subst h1; subst this
      exact .last
  | @cons a v t he ih =>
    intro u hp hu
    rw [pos_cons] at hp
    cases hu with
    | @cons _ b _ u h1 h2 =>
      obtain ⟨bs, bn⟩ := b
      obtain ⟨h1, h3⟩ := h1
      simp only at h1 h3
      subst h1
      obtain ⟨n, rfl, hv⟩ := numIs_some h3
      obtain ⟨k, hk, rfl⟩ := hp.1 v rfl
      rw [value_num] at hv
      subst hv
      exact .cons a (by omega) (ih hp.2 h2)

theorem pos_fine {t : ChainTape σ V} (h : PosT t) : FineT D t := by
  intro d b hb v hv
  obtain ⟨k, -, rfl⟩ := h d b hb v hv
  exact fine_num k

theorem diff_some {z : σ} {f : List (Blk σ V)} (hf : Ends z f) : ∀ {g : List (Blk σ V)}, Ends z g → f.length = g.length →
    ∃ d c, diffHalf f g = some (d, c) ∧ (c = true → Nums d) := by
  induction hf with
  | last =>
    intro g hg hl
    rw [ends_len hg (by simpa using hl.symm)]
    exact ⟨[⟨z, none⟩], true, rfl, fun _ b hb v hv => by simp at hb; subst hb; cases hv⟩
  | @cons a v f hf ih =>
    intro g hg hl
    obtain ⟨a', w, g', rfl, hg', hl'⟩ := ends_len2 hg (n := f.length) (by have := hf.ne; simp [this]) (by simpa using hl.symm)
    obtain ⟨d, c, h1, h2⟩ := ih hg' hl'.symm
    obtain ⟨e, c', h3, h4⟩ : ∃ e c', diffNum (some v) (some w) = some (some e, c') ∧ (c' = true → IsNum e) := by
      unfold diffNum
      simp only
      split
      · exact ⟨_, _, rfl, fun _ => ⟨_, rfl⟩⟩
      · split
        · exact ⟨_, _, rfl, fun _ => ⟨_, rfl⟩⟩
        · exact ⟨_, _, rfl, fun h => by cases h⟩
    refine ⟨⟨a, some e⟩ :: d, c' && c, by simp [diffHalf, h1, h3], fun h => ?_⟩
    rw [Bool.and_eq_true] at h
    rw [nums_cons]
    exact ⟨fun v hv => by cases hv; exact h4 h.1, h2 h.2⟩

theorem substNums_id (subs : Nat → Option V) : ∀ {d : List (Blk σ V)}, Nums d → ∃ r, substNums subs (d.map (·.num)) = some r
  | [], _ => ⟨[], rfl⟩
  | b :: d, h => by
    rw [nums_cons] at h
    obtain ⟨r, hr⟩ := substNums_id subs h.2
    cases hb : b.num with
    | none => exact ⟨none :: r, by simp [substNums, hb, hr]⟩
    | some v =>
      obtain ⟨k, rfl⟩ := h.1 v hb
      exact ⟨some (.num k) :: r, by simp [substNums, hb, hr, Val.subst]⟩

theorem getMin_of {mins : List (Nat × Option Int)} {x : Nat} {c : Int} (h : Py.dget mins x = some (some c)) : getMin mins x = some c := by
  unfold getMin; rw [h]

theorem tighten_some {z : σ} {mins : List (Nat × Option Int)} (hm : GoodM D mins) {h g l} (hg : GenHalf z h g l) :
    (∀ e ∈ l, D e.1) → ∃ r reps, tighten mins g = some (r, reps) ∧ ∀ e ∈ reps, Val.Normal e.2 := by
  induction hg with
  | last => intro _; exact ⟨[⟨z, none⟩], [], rfl, by simp⟩
  | one a hg ih =>
    intro hl
    obtain ⟨r, reps, h1, h2⟩ := ih hl
    exact ⟨⟨a, some (.num 1)⟩ :: r, reps, by simp [tighten, h1], h2⟩
  | @many a n x c h g l _ _ hg ih =>
    intro hl
    obtain ⟨r, reps, h1, h2⟩ := ih (fun e he => hl e (by simp [he]))
    obtain ⟨m, hm'⟩ := hm x (hl (x, c) (by simp))
    have hn : Val.Normal (((Val.expr (varE x)).sub (.num m)).add (.num 1)) :=
      add_normal (sub_normal (a := .expr (varE x)) (varE_normal x) (b := .num m) trivial) (b := .num 1) trivial
    obtain ⟨v, hv, -⟩ := subst_total (K := Int) (subs := fun v => if v = x then some (((Val.expr (varE x)).sub (.num m)).add (.num 1)) else none)
      (fun v w hw => by split at hw <;> cases hw; exact hn) (a := .expr (varPlus x c))
      (fine_varPlus (D := fun _ => True) trivial c).2.1
    refine ⟨⟨a, some v⟩ :: r, (x, ((Val.expr (varE x)).sub (.num m)).add (.num 1)) :: reps, ?_, ?_⟩
    · have hv' : (varPlus x c).subst (fun v => if v = x then some (((Val.expr (varE x)).sub (.num m)).add (.num 1)) else none) = .ok v := hv
      unfold tighten
      simp only [restricted_varPlus, getMin_of hm', hv', h1]
    · intro e he
      rcases List.mem_cons.1 he with rfl | he
      · exact hn
      · exact h2 e he

theorem genVars_some {z : σ} {mins : List (Nat × Option Int)} (hm : GoodM D mins) {h g l} (hg : GenHalf z h g l) :
    (∀ e ∈ l, D e.1) → ∃ vs a, genVars mins g = some (vs, a) ∧ (∀ e ∈ a, Fine D e.2) ∧ a.map (·.1) = l.map (·.1) ∧
      ∀ e ∈ l, ∃ m, some (e.1, m) ∈ vs := by
  induction hg with
  | last => intro _; exact ⟨[none], [], rfl, by simp, rfl, by simp⟩
  | one a hg ih =>
    intro hl
    obtain ⟨vs, as, h1, h2, h3, h4⟩ := ih hl
    refine ⟨none :: vs, as, by simp [genVars, h1], h2, h3, fun e he => ?_⟩
    obtain ⟨m, hm⟩ := h4 e he
    exact ⟨m, by simp [hm]⟩
  | @many a n x c h g l _ _ hg ih =>
    intro hl
    obtain ⟨vs, as, h1, h2, h3, h4⟩ := ih (fun e he => hl e (by simp [he]))
    obtain ⟨m, hm'⟩ := hm x (hl (x, c) (by simp))
    refine ⟨some (x, c - m + 1) :: vs, (x, (Val.expr (varPlus x c)).sub (.num (2 * c))) :: as, ?_, ?_, by simp [h3], ?_⟩
    · unfold genVars
      simp only [restricted_varPlus, getMin_of hm', h1, const_varPlus]
    · intro e he
      rcases List.mem_cons.1 he with rfl | he
      · exact fine_sub (fine_varPlus (hl (x, c) (by simp)) c) _
      · exact h2 e he
    · intro e he
      rcases List.mem_cons.1 he with rfl | he
      · exact ⟨c - m + 1, by simp⟩
      · obtain ⟨m, hm⟩ := h4 e he
        exact ⟨m, by simp [hm]⟩

theorem mem_of_dget {κ ν : Type} [DecidableEq κ] {k : κ} {v : ν} : ∀ {d : List (κ × ν)}, Py.dget d k = some v → (k, v) ∈ d
  | [], h => by cases h
  | e :: d, h => by
    unfold Py.dget at h
    rw [List.find?_cons] at h
    split at h
    · next he => simp at he h; subst he; subst h; simp
    · exact List.mem_cons_of_mem _ (mem_of_dget (d := d) (by unfold Py.dget; exact h))

theorem dget_of_key {κ ν : Type} [DecidableEq κ] {k : κ} : ∀ {d : List (κ × ν)}, k ∈ d.map (·.1) → ∃ v, Py.dget d k = some v
  | [], h => by cases h
  | e :: d, h => by
    unfold Py.dget
    rw [List.find?_cons]
    split
    · exact ⟨_, rfl⟩
    · next he =>
      have hk : k ∈ d.map (·.1) := by
        rcases List.mem_cons.1 h with h | h
        · simp [h] at he
        · exact h
      obtain ⟨v, hv⟩ := dget_of_key hk
      exact ⟨v, by unfold Py.dget at hv; exact hv⟩

theorem asExprQ_normal {w : W} (h : Val.Normal w) : Val.Normal (asExprQ w) := by
  cases w with
  | num k => exact zero_normal k
  | expr e => exact h

theorem substSteps_some {a : List (Nat × V)} (ha : ∀ e ∈ a, Val.Normal e.2) {w : W} (hw : Val.Normal w) :
    ∃ w', substSteps a w = .ok w' ∧ Val.Normal w' := by
  refine subst_total (fun x v hx => ?_) hw
  unfold subsQ at hx
  cases hd : Py.dget a x with
  | none => rw [hd] at hx; cases hx
  | some p => rw [hd] at hx; cases hx; exact toQ_normal (ha _ (mem_of_dget hd))

theorem mult_some (m : Int) {coef : Int} (hc : 0 < coef) (h1 : coef ≠ 1) (const : Int) : ∃ f, Mult.new m coef const = .ok f := by
  unfold Mult.new
  rw [if_pos hc]
  have : ∃ k, Mult.computeMin coef const m = .ok k := by
    unfold Mult.computeMin
    split
    · exact ⟨_, rfl⟩
    · have : ∃ j, ceilDiv (-const) (coef - 1) = .ok j := by
        unfold ceilDiv
        rw [if_neg (by omega)]
        exact ⟨_, rfl⟩
      obtain ⟨j, hj⟩ := this
      rw [hj]
      exact ⟨_, rfl⟩
  obtain ⟨k, hk⟩ := this
  rw [hk]
  exact ⟨_, rfl⟩

theorem tryLinear_safe : ∀ (vs : List (Option (Nat × Int))) (rs : List (Option V)), CFine D rs → tryLinear vs rs ≠ .raise
  | none :: vs, r :: rs, h => by
    have := tryLinear_safe vs rs (fun v hv => h v (by simp [hv]))
    unfold tryLinear
    split
    · simp
    · simp
    · contradiction
  | some (x, m) :: vs, r :: rs, h => by
    have ih := tryLinear_safe vs rs (fun v hv => h v (by simp [hv]))
    unfold tryLinear
    cases r with
    | none => simp
    | some v =>
      simp only
      split
      · simp
      cases hl : strictlyLinear v with
      | none => simp
      | some p =>
        obtain ⟨x', coef, const⟩ := p
        have hc : 0 < coef := by
          have hv := (h v (by simp)).2.2
          cases v with
          | num k => cases hl
          | expr e =>
            unfold strictlyLinear at hl
            simp only at hl
            split at hl
            · next t ht =>
              split at hl
              · split at hl
                · cases hl
                  exact hv t (by rw [ht]; simp)
                · cases hl
              · cases hl
            · cases hl
        simp only
        have : ∃ k, (if coef = 1 then Except.ok m else (Mult.new m coef const).map (·.min)) = .ok k := by
          split
          · exact ⟨_, rfl⟩
          · next h1 =>
            obtain ⟨f, hf⟩ := mult_some m hc h1 const
            rw [hf]; exact ⟨_, rfl⟩
        obtain ⟨k, hk⟩ := this
        rw [hk]
        simp only
        split
        · simp
        · simp
        · contradiction
  | [], rs, _ => by simp [tryLinear]
  | none :: vs, [], _ => by simp [tryLinear]
  | some _ :: vs, [], _ => by simp [tryLinear]

theorem stepNum_normal {g : Sim σ S} (h : SafeSim D g) : Val.Normal g.stepNum := add_normal (toQ_normal h.steps) h.ruleSteps

theorem mkDiff_safe {z : σ} {mins : List (Nat × Option Int)} (hm : GoodM D mins) {hl hr gl gr ll lr} (h1 : GenHalf z hl gl ll)
    (h2 : GenHalf z hr gr lr) (hD : ∀ e ∈ ll ++ lr, D e.1) {dl dr : List (Blk σ V)} (n1 : Nums dl) (n2 : Nums dr) {g : Sim σ S}
    (hg : SafeSim D g) (d d' : Dir) : ∃ r, mkDiff ⟨d, gl, gr⟩ ⟨d', dl, dr⟩ mins g = some r ∧ RuleFine (.diff r) := by
  have hn := stepNum_normal hg
  unfold mkDiff
  split
  · exact ⟨_, rfl, asExprQ_normal hn⟩
  · obtain ⟨r1, a1, e1, f1⟩ := tighten_some hm h1 (fun e he => hD e (by simp [he]))
    obtain ⟨r2, a2, e2, f2⟩ := tighten_some hm h2 (fun e he => hD e (by simp [he]))
    obtain ⟨s1, g1⟩ := substNums_id (Py.dget (a1 ++ a2)) n1
    obtain ⟨s2, g2⟩ := substNums_id (Py.dget (a1 ++ a2)) n2
    obtain ⟨w, hw, hwn⟩ := substSteps_some (a := a1 ++ a2) (fun e he => by
      rcases List.mem_append.1 he with he | he
      · exact f1 e he
      · exact f2 e he) hn
    simp only [e1, e2, g1, g2, hw]
    exact ⟨_, rfl, asExprQ_normal hwn⟩

theorem mkGen_safe {z : σ} {mins : List (Nat × Option Int)} (hm : GoodM D mins) {hl hr gl gr ll lr} (h1 : GenHalf z hl gl ll)
    (h2 : GenHalf z hr gr lr) (hD : ∀ x, D x ↔ x ∈ (ll ++ lr).map (·.1)) {g : Sim σ S} (hg : SafeSim D g) (d : Dir) :
    ∃ r, mkGen ⟨d, gl, gr⟩ mins g = some r ∧ RuleFine (σ := σ) (.gen r) := by
  have hn := stepNum_normal hg
  have hD' : ∀ e ∈ ll ++ lr, D e.1 := fun e he => (hD _).2 (List.mem_map.2 ⟨e, he, rfl⟩)
  obtain ⟨v1, a1, e1, f1, k1, c1⟩ := genVars_some hm h1 (fun e he => hD' e (by simp [he]))
  obtain ⟨v2, a2, e2, f2, k2, c2⟩ := genVars_some hm h2 (fun e he => hD' e (by simp [he]))
  have hf : ∀ e ∈ a1 ++ a2, Fine D e.2 := fun e he => by
    rcases List.mem_append.1 he with he | he
    · exact f1 e he
    · exact f2 e he
  have hv : ∀ x, D x → ∃ m, some (x, m) ∈ v1 ++ v2 := by
    intro x hx
    obtain ⟨e, he, rfl⟩ := List.mem_map.1 ((hD x).1 hx)
    rcases List.mem_append.1 he with he | he
    · obtain ⟨m, h⟩ := c1 e he; exact ⟨m, by simp [h]⟩
    · obtain ⟨m, h⟩ := c2 e he; exact ⟨m, by simp [h]⟩
  obtain ⟨result, s1, s2, -⟩ := substNums_safe (E := D) (D := D) (subs := Py.dget (a1 ++ a2)) (fun x hx => by
      have hx := (hD x).1 hx
      rw [List.map_append, ← k1, ← k2, ← List.map_append] at hx
      obtain ⟨w, hw⟩ := dget_of_key hx
      exact ⟨w, hw, hf _ (mem_of_dget hw)⟩) ((g.sim.tape.left ++ g.sim.tape.right).map (·.num)) (by
      intro v hv
      obtain ⟨b, hb, hbv⟩ := List.mem_map.1 hv
      rcases List.mem_append.1 hb with hb | hb
      · exact hg.tape .L b hb v hbv
      · exact hg.tape .R b hb v hbv)
  obtain ⟨w, hw, hwn⟩ := substSteps_some (a := a1 ++ a2) (fun e he => (hf e he).2.1) hn
  have hvalid : varsValid (v1 ++ v2) result = true := by
    unfold varsValid
    rw [List.all_eq_true]
    intro r hr
    cases r with
    | none => rfl
    | some v =>
      simp only
      rw [List.all_eq_true]
      intro x hx
      obtain ⟨m, hm⟩ := hv x (lin_variables (s2 v hr).1 x hx)
      rw [List.any_eq_true]
      exact ⟨_, hm, by simp⟩
  unfold mkGen
  rw [genVars_append mins gl gr _ _ _ _ e1 e2]
  simp only [s1, hw, hvalid, Bool.not_true, Bool.false_eq_true, if_false]
  have := tryLinear_safe (v1 ++ v2) result s2
  split
  · contradiction
  · exact ⟨_, rfl, hwn, D, s2⟩
  · exact ⟨_, rfl, hwn, D, s2⟩

/-! ## A proof -/

/-- `adj` gives a smallest value for every variable that had one -/
def KeepsMins (adj : Nat → Mins → Mins) : Prop := ∀ (D : Nat → Prop) k m, GoodM D m → GoodM D (adj k m)

theorem keepsMins_lower : KeepsMins lower := fun _ _ _ h => h

theorem keepsMins_keep : KeepsMins keep := by
  intro D k m h
  unfold keep
  split
  · intro x hx
    obtain ⟨c, hc⟩ := h x hx
    exact ⟨1, dget_ones m (by rw [hc]; simp)⟩
  · exact h

variable [Sums] [DecidableEq σ] [DecidableEq S] {T : Table} {M : Machine σ S} {Den : DC σ S → Config → Prop}
  {TDen : DC σ S → (Int → Nat) → Prop} {hs : S → Prop} {z : σ} {y : Nat → Int} {cfg : Config}

theorem prove_safe (hS : SumsTotal) (F : Follows T M Den TDen hs) {rs : Rules σ S} (hrs : RulesOK T Den z rs) (hrf : AllRules RuleFine rs)
    {o : Opts} (ho : o.maxReps ≠ 0) (st : S) {tape : ChainTape σ V} (he : EndsT z tape) (hpos : PosT tape) {u : ChainTape σ Nat}
    (hu : TapeIs y tape u) (hden : Den (tapeDC z u st) cfg) (delta : Int) (nv : Nat) {adj : Nat → Mins → Mins} (hadj : KeepsMins adj) :
    (proveWith adj M o rs (strip valIsOne st tape) st tape delta nv).1 ≠ .raise ∧
      ∀ r, (proveWith adj M o rs (strip valIsOne st tape) st tape delta nv).1 = .ok r → RuleFine r := by
  have nl : NumHalf z tape.left u.left := num_of_pos (he .L) (hpos .L) hu.left
  have nr : NumHalf z tape.right u.right := num_of_pos (he .R) (hpos .R) hu.right
  obtain ⟨gl, ll, nv1, el, hgl, hnv1, hll, hndl⟩ := genHalf_num nl nv
  obtain ⟨gr, lr, nv2, er, hgr, hnv2, hlr, hndr⟩ := genHalf_num nr nv1
  obtain ⟨hGl, hvl, hml⟩ := genHalf_good hgl
  obtain ⟨hGr, hvr, hmr⟩ := genHalf_good hgr
  have hnd : ((ll ++ lr).map (·.1)).Nodup := by
    rw [List.map_append, List.nodup_append]
    refine ⟨hndl, hndr, fun x hx y hy e => ?_⟩
    subst e
    obtain ⟨e1, he1, rfl⟩ := List.mem_map.1 hx
    obtain ⟨e2, he2, he⟩ := List.mem_map.1 hy
    have := hll e1 he1
    have := hlr e2 he2
    omega
  let mins0 : List (Nat × Option Int) := ll.map (fun e => (e.1, some e.2)) ++ lr.map (fun e => (e.1, some e.2))
  have hm0 : mins0 = (ll ++ lr).map (fun e => (e.1, some e.2)) := by simp [mins0]
  let D : Nat → Prop := fun x => x ∈ (ll ++ lr).map (·.1)
  have hD : ∀ x, D x ↔ x ∈ (ll ++ lr).map (·.1) := fun _ => Iff.rfl
  have hM0 : GoodM D mins0 := by
    intro x hx
    have hk0 : Py.NodupKeys mins0 := by
      unfold Py.NodupKeys
      rw [hm0, List.map_map]; exact hnd
    obtain ⟨e, he, rfl⟩ := List.mem_map.1 ((hD x).1 hx)
    refine ⟨e.2, ?_⟩
    rw [← Py.mem_iff_dget hk0, hm0]
    exact List.mem_map.2 ⟨e, he, rfl⟩
  let s0 : SimSt σ S V :=
    { tape := ⟨tape.dir, gl, gr⟩, st := st, dir := tape.dir, steps := .expr ⟨[], 0⟩, loops := 0, seen := [], op := .running
      cell := none, infReason := none, recur := [] }
  let g0 : Sim σ S := ⟨s0, .num 0, 0, nv2⟩
  have hfine : ∀ {h : List (Blk σ Nat)} {g : List (Blk σ V)} {l : List (Nat × Int)}, GenHalf z h g l → (∀ e ∈ l, D e.1) → FineH D g := by
    intro h g l hg
    induction hg with
    | last => intro _ b hb v hv; simp at hb; subst hb; cases hv
    | one a hg ih =>
      intro hl
      rw [fineH_cons]
      exact ⟨fun v hv => by cases hv; exact fine_num _, ih hl⟩
    | @many a n x c _ _ _ _ _ hg ih =>
      intro hl
      rw [fineH_cons]
      exact ⟨fun v hv => by cases hv; exact fine_varPlus (hl (x, c) (by simp)) _, ih (fun e he => hl e (by simp [he]))⟩
  have hDe : ∀ e ∈ ll ++ lr, D e.1 := fun e he => (hD _).2 (List.mem_map.2 ⟨e, he, rfl⟩)
  have hsafe0 : SafeSim D g0 := by
    refine ⟨?_, fun x hx => ?_, zero_normal 0, trivial⟩
    · intro d
      cases d
      · exact hfine hgl (fun e he => hDe e (by simp [he]))
      · exact hfine hgr (fun e he => hDe e (by simp [he]))
    · show x < nv2
      obtain ⟨e, he, rfl⟩ := List.mem_map.1 ((hD x).1 hx)
      rcases List.mem_append.1 he with he | he
      · have := hll e he; omega
      · have := hlr e he; omega
  obtain ⟨y2, b1, b2, b3⟩ : ∃ y2 : Nat → Int, (∀ x, 0 ≤ y2 x) ∧ HalfIs y2 gl u.left ∧ HalfIs y2 gr u.right := by
    obtain ⟨y1, a1, a2, -⟩ := gen_self hgr (fun _ => 0) (fun _ => le_refl _) hndr
    obtain ⟨y2, b1, b2, b3⟩ := gen_self hgl y1 a1 hndl
    refine ⟨y2, b1, b2, gen_congr hgr (y := y1) (fun e he => b3 _ ?_) a2⟩
    intro hx
    rw [List.map_append, List.nodup_append] at hnd
    exact hnd.2.2 e.1 hx e.1 (List.mem_map.2 ⟨e, he, rfl⟩) rfl
  have hinv : Inv T Den z y2 cfg 0 s0 0 := by
    refine ⟨?_, rfl, u, 0, ⟨hu.dir, b2, b3⟩, le_refl _, hden, ?_, ?_⟩
    · intro d; cases d; exacts [ghalf_ends hGl, ghalf_ends hGr]
    · intro q; simp [s0]
    · intro _; simp [s0, qv, value_expr, value_eq]
  obtain ⟨L1, L2⟩ := genLoop_safe (D := D) hS F hrs hrf ho b1 delta.toNat 0 g0 mins0 rfl hsafe0 hM0 hinv
  unfold proveWith
  rw [el]
  simp only
  rw [er]
  simp only
  change (match genLoop M o rs delta.toNat g0 mins0 with | .raise => _ | .fail => _ | .ok (g, mins) => _ : Out (Rule σ) × Nat).1 ≠ .raise ∧
    ∀ r, (match genLoop M o rs delta.toNat g0 mins0 with | .raise => _ | .fail => _ | .ok (g, mins) => _ : Out (Rule σ) × Nat).1 = .ok r → _
  cases hgen : genLoop M o rs delta.toNat g0 mins0 with
  | raise => exact absurd hgen L1
  | fail => simp
  | ok p =>
    obtain ⟨g, mins⟩ := p
    obtain ⟨hg, hm⟩ := L2 _ _ hgen
    have hends := (genLoop_lin F hrs o b1 delta.toNat 0 g0 g mins0 mins rfl hinv (safe_lin hsafe0) hgen).1.ends
    simp only
    split
    · simp
    next hkey =>
    simp only [ne_eq, not_not] at hkey
    have hkl : g.sim.tape.left.dropLast.map (info valIsOne) = gl.dropLast.map (info valIsOne) := by
      rw [← genHalf_info hgl, ← num_info nl]; exact congrArg Strip.left hkey
    have hkr : g.sim.tape.right.dropLast.map (info valIsOne) = gr.dropLast.map (info valIsOne) := by
      rw [← genHalf_info hgr, ← num_info nr]; exact congrArg Strip.right hkey
    obtain ⟨dl, cl, d1, d2⟩ := diff_some (hends .L) (ghalf_ends hGl)
      (len_of_dropLast (a := g.sim.tape.left) (by simpa using congrArg List.length hkl) (hends .L).ne (ghalf_ends hGl).ne)
    obtain ⟨dr, cr, d3, d4⟩ := diff_some (hends .R) (ghalf_ends hGr)
      (len_of_dropLast (a := g.sim.tape.right) (by simpa using congrArg List.length hkr) (hends .R).ne (ghalf_ends hGr).ne)
    replace d1 : diffHalf g.sim.tape.left gl = some (dl, cl) := d1
    replace d3 : diffHalf g.sim.tape.right gr = some (dr, cr) := d3
    rw [d1, d3]
    simp only
    split
    · next hc =>
      rw [Bool.and_eq_true] at hc
      obtain ⟨r, h1, h2⟩ := mkDiff_safe hm hgl hgr hDe (d2 hc.1) (d4 hc.2) hg tape.dir g.sim.tape.dir
      rw [h1]
      exact ⟨by simp, fun r' h => by cases h; exact h2⟩
    · obtain ⟨r, h1, h2⟩ := mkGen_safe (hadj D g.ruleMoves mins hm) hgl hgr hD hg tape.dir
      rw [h1]
      exact ⟨by simp, fun r' h => by cases h; exact h2⟩

/-! ## The simulation -/

variable {P : Rule σ → Prop} {adj : Nat → Mins → Mins}

theorem log_safe (hS : SumsTotal) (hadj : KeepsMins adj) (hP : Proves P adj) (F : Follows T M Den TDen hs) {b : Base σ S} {loop : Nat}
    (hk : Known P T Den z b loop) (he : EndsT z b.g.sim.tape) (hpos : PosT b.g.sim.tape) (hy : ∀ x, 0 ≤ y x) {u : ChainTape σ Nat}
    (hu : TapeIs y b.g.sim.tape u) (hden : Den (tapeDC z u b.g.sim.st) cfg) {o : Opts} (ho : o.maxReps ≠ 0)
    (hrf : AllRules RuleFine b.rules) {b' : Base σ S} {out : Out (Res σ)} (h : logWith adj M o b loop = (b', out)) (hp : AllRules P b'.rules) :
    out ≠ .raise ∧ AllRules RuleFine b'.rules := by
  obtain ⟨-, -, hgrow, hall⟩ := log_ok (z := z) (y := y) hP F hk he hpos hy hu hden o h
  obtain ⟨hk', -⟩ := hall hp
  have hrs : RulesOK T Den z b.rules := fun key r hr => hk.rules key r hr (hp key r (hgrow key r hr))
  unfold logWith at h
  simp only at h
  cases hr : Py.dget b.rules (strip valIsOne b.g.sim.st b.g.sim.tape) with
  | some r =>
    obtain ⟨a1, a2⟩ := applyRule_safe hS (hrs _ _ hr) (hrf _ _ hr) (tape := b.g.sim.tape) rfl he (pos_fine (D := fun _ => True) hpos) ho b.g.nv
    rw [hr] at h
    simp only at h
    split at h
    · next ha => exact absurd (congrArg Prod.fst ha) a1
    · cases h; exact ⟨by simp, hrf⟩
    · cases h
      refine ⟨by simp, ?_⟩
      split <;> exact hrf
  | none =>
    rw [hr] at h
    simp only at h
    obtain ⟨a1, a2⟩ := prove_safe hS F hrs hrf ho b.g.sim.st he hpos hu hden
      ((loop : Int) - (((Py.dget b.past (strip valIsOne b.g.sim.st b.g.sim.tape)).getD ⟨none, none⟩).log loop).1.lastLoop.getD 0) b.g.nv hadj
    split at h
    · split at h
      · next ha => exact absurd (congrArg Prod.fst ha) a1
      · cases h; exact ⟨by simp, hrf⟩
      · next r nv hpr =>
        have hfr := a2 r (congrArg Prod.fst hpr)
        cases h
        have hget : Py.dget (Py.dset b.rules (strip valIsOne b.g.sim.st b.g.sim.tape) r) (strip valIsOne b.g.sim.st b.g.sim.tape) = some r := by
          rw [Py.dget_dset, if_pos rfl]
        refine ⟨(applyRule_safe hS (hk'.rules _ _ hget (hp _ _ hget)) hfr (tape := b.g.sim.tape) rfl he
          (pos_fine (D := fun _ => True) hpos) ho nv).1, fun key r' h' => ?_⟩
        simp only at h'
        rw [Py.dget_dset] at h'
        split at h'
        · cases h'; exact hfr
        · exact hrf _ _ h'
    · split at h
      · cases h; exact ⟨by simp, hrf⟩
      · cases h; exact ⟨by simp, hrf⟩

/-- **The simulator never raises an exception.** -/
theorem base_safe (hS : SumsTotal) (hadj : KeepsMins adj) (hP : Proves P adj) (F : Follows T M Den TDen hs) (hi : Den (initDC M) Spec.init)
    {o : Opts} (ho : o.maxReps ≠ 0) : ∀ n, AllRules P (afterWith adj M o n).rules →
      (afterWith adj M o n).g.sim.op ≠ .raised ∧ AllRules RuleFine (afterWith adj M o n).rules
  | 0, _ => ⟨by simp [afterWith, Base.init, SimSt.init], fun _ _ h => (by cases h)⟩
  | n + 1, h => by
    have hb : BInv (fun _ => 0) P T M Den TDen n (afterWith adj M o n) := by
      unfold afterWith at h
      rw [Function.iterate_succ_apply'] at h
      exact binv_after (fun _ => le_rfl) hP F hi o n (step_rules o h)
    have ih : (afterWith adj M o n).g.sim.op ≠ .raised ∧ AllRules RuleFine (afterWith adj M o n).rules := by
      unfold afterWith at h
      rw [Function.iterate_succ_apply'] at h
      exact base_safe hS hadj hP F hi ho n (step_rules o h)
    unfold afterWith at h ⊢
    rw [Function.iterate_succ_apply'] at h ⊢
    change AllRules P (stepWith adj M o (afterWith adj M o n)).rules at h
    change (stepWith adj M o (afterWith adj M o n)).g.sim.op ≠ _ ∧ AllRules _ (stepWith adj M o (afterWith adj M o n)).rules
    generalize afterWith adj M o n = b at *
    unfold stepWith at h ⊢
    by_cases hop : b.g.sim.op ≠ .running
    · rw [if_pos hop] at h ⊢; exact ih
    rw [if_neg hop] at h ⊢
    push Not at hop
    simp only at h ⊢
    obtain ⟨hl, hk, hinv⟩ := hb.running hop
    obtain ⟨u, k, hu, -, hden, -⟩ := hinv.run
    cases hla : logWith adj M o { b with g := { b.g with sim := { b.g.sim with loops := b.g.sim.loops + 1 } } } b.g.sim.loops with
    | mk b' out =>
      have hp' : AllRules P b'.rules := by
        rw [hla] at h
        cases out <;> exact h
      have hk1 : Known P T Den M.initSym ({ b with g := { b.g with sim := { b.g.sim with loops := b.g.sim.loops + 1 } } } : Base σ S) b.g.sim.loops := by
        rw [hl]; exact ⟨hk.rules, hk.past⟩
      obtain ⟨es, -, -, hall⟩ := log_ok (z := M.initSym) (y := fun _ => 0) hP F hk1 hb.ends hb.pos (fun _ => le_rfl) hu hden o hla
      obtain ⟨s1, s2⟩ := log_safe hS hadj hP F hk1 hb.ends hb.pos (fun _ => le_rfl) hu hden ho ih.2 hla hp'
      cases out with
      | raise => exact absurd rfl s1
      | fail =>
        refine ⟨?_, s2⟩
        simp only
        rw [es]
        exact (macroStep_safe (D := fun _ => True) (s := { b.g.sim with loops := b.g.sim.loops + 1 }) F hb.ends hinv.dir hu (pos_top (hb.pos _)) hden (pos_fine hb.pos)).1
      | ok res =>
        refine ⟨?_, ?_⟩
        · cases res with
          | inf states => simp [Sim.result]
          | apply tape steps states large => simp [Sim.result, es, hop]
        · cases res <;> exact s2

end Model.Recursive

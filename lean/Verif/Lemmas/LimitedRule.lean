import Verif.Lemmas.LimitedRun
import Verif.Lemmas.ProverStacks

/-! # Limited rules are sound in every surrounding -/

namespace Model.Prover
open Spec Model Model.Expr
variable {σ S ν : Type}

/-! ## Cutting -/

theorem takeL_dropL {α : Type} (k : Nat) (l : List α) : takeL k l ++ dropL k l = l := by
  unfold takeL dropL
  by_cases h : k = 0
  · simp [h]
  · simp [h]

theorem takeL_map {α β : Type} (f : α → β) (k : Nat) (l : List α) : (takeL k l).map f = takeL k (l.map f) := by
  unfold takeL; split <;> simp

theorem takeL_mem {α : Type} {k : Nat} {l : List α} {a : α} (h : a ∈ takeL k l) : a ∈ l := by
  unfold takeL at h
  split at h
  · exact h
  · exact List.mem_of_mem_take h

theorem takeL_len {α β : Type} (k : Nat) {l : List α} {l' : List β} (h : l.length = l'.length) :
    (takeL k l).length = (takeL k l').length := by
  unfold takeL; split <;> simp [h]

theorem takeL_forall₂ {α β : Type} {R : α → β → Prop} (k : Nat) {l : List α} {l' : List β} (h : List.Forall₂ R l l') :
    List.Forall₂ R (takeL k l) (takeL k l') := by
  unfold takeL; split
  · exact h
  · exact List.forall₂_take _ h

theorem takeL_unique {α : Type} {k : Nat} {l A B : List α} (h : l = A ++ B) (hA : A.length = (takeL k l).length) :
    A = takeL k l := by
  have h2 : A ++ B = takeL k l ++ dropL k l := by rw [takeL_dropL, h]
  exact (List.append_inj h2 hA).1

theorem half_cut (d : Sides Nat) (t : ChainTape σ ν) (e : Dir) : (cut d t).half e = takeL (d.get e) (t.half e) := by
  cases e <;> rfl

theorem halfPlus_take {y : Nat → Int} : ∀ (k : Nat) {g d : List (Blk σ V)} {u : List (Blk σ Nat)}, HalfPlus y g d u →
    HalfPlus y (g.take k) (d.take k) (u.take k)
  | 0, _, _, _, _ => trivial
  | _ + 1, [], [], [], _ => trivial
  | k + 1, _ :: _, _ :: _, _ :: _, h => ⟨h.1, halfPlus_take k h.2.1, h.2.2⟩

theorem halfPlus_takeL {y : Nat → Int} (k : Nat) {g d : List (Blk σ V)} {u : List (Blk σ Nat)} (h : HalfPlus y g d u) :
    HalfPlus y (takeL k g) (takeL k d) (takeL k u) := by
  unfold takeL; split
  · exact h
  · exact halfPlus_take _ h

theorem halfPlus_len {y : Nat → Int} : ∀ {g d : List (Blk σ V)} {u : List (Blk σ Nat)}, HalfPlus y g d u → u.length = g.length
  | [], [], [], _ => rfl
  | a :: g, b :: d, c :: u, h => by simp [halfPlus_len h.2.1]

/-! ## The tape given by values of the variables -/

def inst (y : Nat → Int) (g : List (Blk σ V)) : List (Blk σ Nat) :=
  g.map (fun b => ⟨b.sym, b.num.map (fun v => (Val.value y v).toNat)⟩)

theorem halfIs_inst {y : Nat → Int} : ∀ {g : List (Blk σ V)}, (∀ b ∈ g, ∀ v, b.num = some v → 1 ≤ Val.value y v) →
    HalfIs y g (inst y g)
  | [], _ => .nil
  | ⟨a, none⟩ :: g, h => .cons ⟨rfl, trivial⟩ (halfIs_inst (fun b hb => h b (by simp [hb])))
  | ⟨a, some v⟩ :: g, h => .cons ⟨rfl, by
      have := h ⟨a, some v⟩ (by simp) v rfl
      show Val.value y v = ((Val.value y v).toNat : Int)
      omega⟩ (halfIs_inst (fun b hb => h b (by simp [hb])))

theorem halfIs_eq {y : Nat → Int} {g : List (Blk σ V)} {u : List (Blk σ Nat)} (h : HalfIs y g u) : u = inst y g := by
  induction h with
  | nil => rfl
  | @cons a b g u h1 h2 ih =>
    obtain ⟨s, n⟩ := a
    obtain ⟨s', n'⟩ := b
    obtain ⟨e1, e2⟩ := h1
    simp only at e1 e2
    subst e1
    cases n with
    | none =>
      have := numIs_none e2
      subst this
      rw [ih]; rfl
    | some v =>
      obtain ⟨m, hm, hv⟩ := numIs_some e2
      subst hm
      rw [ih]
      show _ = (⟨s, some (Val.value y v).toNat⟩ : Blk σ Nat) :: inst y g
      rw [hv]; simp

theorem rhalf_pos {z : σ} {g d l} (h : RHalf z g d l) {y : Nat → Int} (hy : ∀ x, 0 ≤ y x) :
    ∀ b ∈ g, ∀ v, b.num = some v → 1 ≤ Val.value y v := by
  induction h with
  | last => intro b hb v hv; simp at hb; subst hb; cases hv
  | one a h ih =>
    intro b hb v hv
    rcases List.mem_cons.1 hb with rfl | hb
    · cases hv; simp [value_num]
    · exact ih b hb v hv
  | @many a x c δ g d l h1 h2 h ih =>
    intro b hb v hv
    rcases List.mem_cons.1 hb with rfl | hb
    · cases hv
      rw [varPlus_value]
      have := hy x
      omega
    · exact ih b hb v hv

/-- two half tapes with the same symbols whose last blocks are infinite -/
theorem wf_inst {z : σ} {g d l} (h : RHalf z g d l) {y : Nat → Int} (hy : ∀ x, 0 ≤ y x) : ∀ {u : List (Blk σ Nat)},
    WFHalf z u → g.map (·.sym) = u.map (·.sym) → WFHalf z (inst y g) := by
  induction h with
  | last => intro u _ _; rfl
  | one a h ih =>
    intro u hw he
    match u, hw, he with
    | ⟨b, none⟩ :: rest, hw, he =>
      obtain ⟨rfl, rfl⟩ := wfHalf_inf hw
      have h2 := congrArg List.length he
      simp only [List.map_cons, List.length_cons, List.map_nil, List.length_nil, List.length_map] at h2
      exact absurd (List.eq_nil_of_length_eq_zero (by omega)) (rhalf_ne h).1
    | ⟨b, some n⟩ :: rest, hw, he =>
      obtain ⟨h1, ⟨b', r, rfl, h2⟩, h3⟩ := wfHalf_cons.1 hw
      have he' := List.cons.inj he
      have hi := ih h3 he'.2
      show WFHalf z (⟨a, some _⟩ :: inst y _)
      refine wfHalf_cons.2 ⟨by simp [value_num], ?_, hi⟩
      cases h with
      | last => exact ⟨_, _, rfl, by have k1 : a = b := he'.1; have k2 := (List.cons.inj he'.2).1; simp only at k2; rw [k1]; simpa [k2] using h2⟩
      | one a' h => exact ⟨_, _, rfl, by have k1 : a = b := he'.1; have k2 := (List.cons.inj he'.2).1; simp only at k2; rw [k1]; simpa [k2] using h2⟩
      | many a' _ _ h => exact ⟨_, _, rfl, by have k1 : a = b := he'.1; have k2 := (List.cons.inj he'.2).1; simp only at k2; rw [k1]; simpa [k2] using h2⟩
  | @many a x c δ g d l hc hc' h ih =>
    intro u hw he
    match u, hw, he with
    | ⟨b, none⟩ :: rest, hw, he =>
      obtain ⟨rfl, rfl⟩ := wfHalf_inf hw
      have h2 := congrArg List.length he
      simp only [List.map_cons, List.length_cons, List.map_nil, List.length_nil, List.length_map] at h2
      exact absurd (List.eq_nil_of_length_eq_zero (by omega)) (rhalf_ne h).1
    | ⟨b, some n⟩ :: rest, hw, he =>
      obtain ⟨h1, ⟨b', r, rfl, h2⟩, h3⟩ := wfHalf_cons.1 hw
      have he' := List.cons.inj he
      have hi := ih h3 he'.2
      show WFHalf z (⟨a, some _⟩ :: inst y _)
      refine wfHalf_cons.2 ⟨?_, ?_, hi⟩
      · simp only [varPlus_value]
        have := hy x
        omega
      cases h with
      | last => exact ⟨_, _, rfl, by have k1 : a = b := he'.1; have k2 := (List.cons.inj he'.2).1; simp only at k2; rw [k1]; simpa [k2] using h2⟩
      | one a' h => exact ⟨_, _, rfl, by have k1 : a = b := he'.1; have k2 := (List.cons.inj he'.2).1; simp only at k2; rw [k1]; simpa [k2] using h2⟩
      | many a' _ _ h => exact ⟨_, _, rfl, by have k1 : a = b := he'.1; have k2 := (List.cons.inj he'.2).1; simp only at k2; rw [k1]; simpa [k2] using h2⟩

/-! ## The `id`s at the start -/

theorem startIds_ok {k n : Nat} {l : List (Blk σ V)} (hl : l.length = n) :
    IdsHalf k (takeL k l).length (dropL k l).length (startIds n) := by
  subst hl
  by_cases h : k = 0
  · subst h
    exact ⟨startIds l.length, [], by simp, by simp [takeL, startIds], rfl, by simp⟩
  · refine ⟨(startIds l.length).take k, (startIds l.length).drop k, (List.take_append_drop _ _).symm, ?_, ?_, ?_⟩
    · simp [takeL, h, startIds]
    · simp [dropL, h, startIds]
    · intro x hx
      obtain ⟨j, hj, rfl⟩ := List.getElem_of_mem hx
      simp only [List.getElem_drop, startIds, List.getElem_map, List.getElem_range]
      exact ⟨_, rfl, by omega⟩

/-! ## The rule -/

variable [DecidableEq σ] [DecidableEq S]

/-- A sound limited rule, proved for the stripped configuration `key`. -/
structure LRuleOK (T : Table) (Den : DC σ S → Config → Prop) (z : σ) (key : Strip σ S) (r : LimRule σ) : Prop where
  full : ∃ (g d : ChainTape σ V) (ll lr : List (Nat × Int × Int)), RHalf z g.left d.left ll ∧ RHalf z g.right d.right lr ∧
    ((ll ++ lr).map (·.1)).Nodup ∧ key = strip valIsOne key.st g ∧ r.rule.init = cut r.dist g ∧ r.rule.diff = cut r.dist d
  steps : LinIn (· ∈ hvars r.rule.init.left ++ hvars r.rule.init.right) r.rule.steps
  seen : ∀ e ∈ r.rule.seen, LinIn (· ∈ hvars r.rule.init.left ++ hvars r.rule.init.right) e.2
  keys : Py.NodupKeys r.rule.seen
  sound : LimSound T Den key.st r.rule

/-- The proof is the same as without the option, only cut. -/
theorem proveRuleL_erase (M : Machine σ S) (key : Strip σ S) (st : S) (tape : ChainTape σ Nat) (delta : Int) (num nv : Nat) :
    match proveRuleL M key st tape delta num nv with
    | (.raise, nv') => proveRule M key st tape delta nv = (.raise, nv')
    | (.fail, nv') => proveRule M key st tape delta nv = (.fail, nv')
    | (.ok (.gen r), nv') => proveRule M key st tape delta nv = (.ok (.gen r), nv')
    | (.ok (.lim r), nv') => ∃ r0, proveRule M key st tape delta nv = (.ok (.diff r0), nv') ∧
        r.rule = { r0 with init := cut r.dist r0.init, diff := cut r.dist r0.diff } ∧ r.num = num ∧
        ∃ gl ml nv1 gr mr nv2 s mins, genHalf tape.left nv = some (gl, ml, nv1) ∧
          genHalf tape.right nv1 = some (gr, mr, nv2) ∧ genLoopL M delta.toNat
          { tape := ⟨tape.dir, gl, gr⟩, st := st, dir := tape.dir, steps := .expr ⟨[], 0⟩, loops := 0, seen := [], op := .running
            cell := none, infReason := none, recur := [] } (ml ++ mr) ⟨startIds gl.length, startIds gr.length⟩ ⟨0, 0⟩ =
              .ok (s, mins, r.dist) := by
  unfold proveRuleL proveRule
  cases hl : genHalf tape.left nv with
  | none => rfl
  | some p =>
    obtain ⟨gl, ml, nv1⟩ := p
    simp only
    cases hr : genHalf tape.right nv1 with
    | none => rfl
    | some p =>
      obtain ⟨gr, mr, nv2⟩ := p
      simp only
      have her := genLoopL_erase M delta.toNat
        ({ tape := ⟨tape.dir, gl, gr⟩, st := st, dir := tape.dir, steps := .expr ⟨[], 0⟩, loops := 0, seen := [], op := .running
           cell := none, infReason := none, recur := [] } : SimSt σ S V)
        (ml ++ mr) ⟨startIds gl.length, startIds gr.length⟩ ⟨0, 0⟩ rfl
      cases hg : genLoopL M delta.toNat
        ({ tape := ⟨tape.dir, gl, gr⟩, st := st, dir := tape.dir, steps := .expr ⟨[], 0⟩, loops := 0, seen := [], op := .running
           cell := none, infReason := none, recur := [] } : SimSt σ S V)
        (ml ++ mr) ⟨startIds gl.length, startIds gr.length⟩ ⟨0, 0⟩ with
      | raise => rw [hg] at her; simp only at her; rw [her]
      | fail => rw [hg] at her; simp only at her; rw [her]
      | ok p =>
        obtain ⟨s, mins, dist⟩ := p
        rw [hg] at her
        simp only at her
        rw [her]
        simp only
        by_cases hk : strip valIsOne s.st s.tape ≠ key
        · simp only [if_pos hk]
        simp only [if_neg hk]
        cases hdl : diffHalf s.tape.left gl with
        | none => rfl
        | some p =>
          obtain ⟨dl, cl⟩ := p
          cases hdr : diffHalf s.tape.right gr with
          | none => rfl
          | some p =>
            obtain ⟨dr, cr⟩ := p
            simp only
            by_cases hc : (cl && cr) = true
            · simp only [if_pos hc]
              cases hm : mkDiff ⟨tape.dir, gl, gr⟩ { s.tape with left := dl, right := dr } mins s with
              | none => rfl
              | some r => exact ⟨r, rfl, rfl, rfl, gl, ml, nv1, gr, mr, nv2, s, mins, rfl, hr, hg⟩
            · simp only [if_neg hc]
              cases hm : mkGen ⟨tape.dir, gl, gr⟩ mins s with
              | none => rfl
              | some r => rfl

omit [DecidableEq σ] in
theorem hvars_mem {h : List (Blk σ V)} {x : Nat} : x ∈ hvars h ↔ ∃ b ∈ h, x ∈ blkVars b := List.mem_flatMap

/-- **A cut rule is sound in every surrounding.** -/
theorem proveRuleL_ok {T : Table} {M : Machine σ S} {Den TDen hs} (F : Follows T M Den TDen hs) {z : σ} (st : S)
    (tape : ChainTape σ Nat) (delta : Int) (num nv : Nat) (hw : tape.WF z) (hd : 1 ≤ delta) :
    match (proveRuleL M (strip natIsOne st tape) st tape delta num nv).1 with
    | .ok (.lim r) => LRuleOK T Den z (strip natIsOne st tape) r
    | .ok (.gen r) => RuleOK M z (strip natIsOne st tape) (.gen r)
    | .fail => True
    | .raise => ∀ (ok : S → Prop) (okS : σ → Prop), Stays M ok okS → ok st → ¬ tape.All okS (fun _ => True) := by
  have hfull := proveRule_full (z := z) M st tape delta nv hw hd
  have her := proveRuleL_erase M (strip natIsOne st tape) st tape delta num nv
  generalize hkey : strip natIsOne st tape = key at *
  match hp : proveRuleL M key st tape delta num nv, her with
  | (.raise, nv'), her => simp only at her ⊢; rw [her] at hfull; exact hfull
  | (.fail, nv'), her => trivial
  | (.ok (.gen r), nv'), her => simp only at her ⊢; rw [her] at hfull; exact hfull.1
  | (.ok (.lim r), nv'), her =>
    simp only at her ⊢
    obtain ⟨r0, hr0, hrule, -, gl, ml, nv1, gr, mr, nv2, s, mins, el, er, hloop⟩ := her
    rw [hr0] at hfull
    simp only at hfull
    obtain ⟨⟨ll, lr, hok⟩, htr⟩ := hfull
    obtain ⟨gl', gr', ml', mr', nv1', nv2', D, s', mins', el', er', ht⟩ := htr r0 rfl
    rw [el] at el'
    cases el'
    rw [er] at er'
    cases er'
    generalize hs0 : ({ tape := ⟨tape.dir, gl, gr⟩, st := st, dir := tape.dir, steps := .expr ⟨[], 0⟩, loops := 0, seen := []
                        op := .running, cell := none, infReason := none, recur := [] } : SimSt σ S V) = s0 at *
    have hg := genLoopL_erase M delta.toNat s0 (ml ++ mr) ⟨startIds gl.length, startIds gr.length⟩ ⟨0, 0⟩ ht.inv.op
    rw [hloop] at hg
    simp only at hg
    rw [ht.run] at hg
    cases hg
    have hst : key.st = st := by rw [← hkey]; rfl
    -- near and far part
    have htape0 : s0.tape = ⟨tape.dir, gl, gr⟩ := by rw [← hs0]
    let P0 : Dir → List (Blk σ V) := fun d => takeL (r.dist.get d) (s0.tape.half d)
    let U0 : Dir → List (Blk σ V) := fun d => dropL (r.dist.get d) (s0.tape.half d)
    let Dz : Nat → Prop := (· ∈ hvars r.rule.init.left ++ hvars r.rule.init.right)
    have hinit : r.rule.init = cut r.dist r0.init := by rw [hrule]
    have hdiff : r.rule.diff = cut r.dist r0.diff := by rw [hrule]
    have hDz : ∀ d x, (∃ b ∈ P0 d, x ∈ blkVars b) → Dz x := by
      rintro d x ⟨b, hb, hx⟩
      have hf := takeL_forall₂ (r.dist.get d) (ht.blocks d)
      obtain ⟨b', hb', e⟩ : ∃ b' ∈ takeL (r.dist.get d) (r0.init.half d), b.sym = b'.sym ∧ blkVars b = blkVars b' := by
        have hb : b ∈ takeL (r.dist.get d) (s0.tape.half d) := hb
        generalize takeL (r.dist.get d) (s0.tape.half d) = A at hb hf
        generalize takeL (r.dist.get d) (r0.init.half d) = B at hf
        clear hx
        induction hf with
        | nil => simp at hb
        | cons h1 h2 ih =>
          rcases List.mem_cons.1 hb with rfl | hb
          · exact ⟨_, by simp, h1⟩
          · obtain ⟨b', e1, e2⟩ := ih hb
            exact ⟨b', by simp [e1], e2⟩
      show x ∈ hvars r.rule.init.left ++ hvars r.rule.init.right
      rw [List.mem_append]
      rw [e.2] at hx
      have : x ∈ hvars (r.rule.init.half d) := by
        rw [hinit, half_cut]; exact hvars_mem.2 ⟨b', hb', hx⟩
      cases d
      · exact Or.inl this
      · exact Or.inr this
    have hlin0 : LinSim Dz s0 P0 := by
      refine ⟨fun d b hb v hv => ?_, ?_, ?_⟩
      · have hc := ghalf_count (ht.inv.tape.good d) b (takeL_mem hb) v hv
        refine lin_mono (count_lin hc) (fun x hx => hDz d x ⟨b, hb, ?_⟩)
        unfold blkVars; rw [hv]; exact hx
      · rw [ht.zero.1]; intro t ht; simp at ht
      · rw [ht.zero.2]; intro e he; simp at he
    have hids : IdsOK r.dist.get P0 U0 ⟨startIds gl.length, startIds gr.length⟩ := by
      intro d
      cases d
      · exact startIds_ok (by rw [htape0]; rfl)
      · exact startIds_ok (by rw [htape0]; rfl)
    obtain ⟨-, P', hs', hl', hrun⟩ := genLoopL_ok F (Dz := Dz) _ _ _ _ _ _ _ _ P0 ht.inv hloop
      (fun d => (takeL_dropL _ _).symm) hids hlin0
    have hsteps : r.rule.steps = r0.steps := by rw [hrule]
    have hseen : r.rule.seen = r0.seen := by rw [hrule]
    refine ⟨⟨r0.init, r0.diff, ll, lr, hok.left, hok.right, hok.nodup, hok.shape, hinit, hdiff⟩, ?_, ?_, ?_, ?_⟩
    · rw [hsteps]; exact ht.steps Dz hl'.steps
    · rw [hseen]; exact ht.seen Dz hl'.seen
    · rw [hseen]; exact hok.keys
    · intro y hy t htis ctx cfg hden
      rw [hst] at hden ⊢
      -- the virtual tape
      let w : ChainTape σ Nat := ⟨t.dir, inst y r0.init.left, inst y r0.init.right⟩
      have hRH : ∀ d, ∃ l, RHalf z (r0.init.half d) (r0.diff.half d) l := by
        intro d; cases d
        · exact ⟨_, hok.left⟩
        · exact ⟨_, hok.right⟩
      have hwh : ∀ d, w.half d = inst y (r0.init.half d) := by intro d; cases d <;> rfl
      have hsym : ∀ d, (r0.init.half d).map (·.sym) = (tape.half d).map (·.sym) := by
        intro d
        rw [← ht.syms d]
        have := ht.blocks d
        generalize s0.tape.half d = A at this
        generalize r0.init.half d = B at this
        induction this with
        | nil => rfl
        | cons h1 h2 ih => simp [h1.1, ih]
      have hww : w.WF z := by
        intro d
        obtain ⟨l, hl⟩ := hRH d
        rw [hwh]
        exact wf_inst hl hy (hw d) (hsym d)
      have hwis : TapeIs y r0.init w := by
        rw [tapeIs_iff]
        refine ⟨?_, fun d => ?_⟩
        · have := htis.dir; rw [hinit] at this; exact this
        · obtain ⟨l, hl⟩ := hRH d
          rw [hwh]
          exact halfIs_inst (rhalf_pos hl hy)
      have hts : ∀ d, t.half d = takeL (r.dist.get d) (w.half d) := by
        intro d
        have h1 := halfIs_eq ((tapeIs_iff.1 htis).2 d)
        rw [hinit, half_cut] at h1
        rw [h1, hwh]
        exact takeL_map _ _ _
      let W : Dir → List (Blk σ Nat) := fun d => dropL (r.dist.get d) (w.half d)
      have hws : ∀ d, w.half d = t.half d ++ W d := by
        intro d; rw [hts]; exact (takeL_dropL _ _).symm
      obtain ⟨hreach, hplus⟩ := hok.sound y hy (fresh w st) rfl hst.symm rfl hwis hww
      obtain ⟨ρ, hgood, hsrel⟩ := ht.start y hy (fresh w st) rfl rfl rfl hwis
      have hlen0 : ∀ d, (t.half d).length = (P0 d).length := by
        intro d
        rw [hts]
        refine takeL_len _ ?_
        have := ((tapeIs_iff.1 hsrel.tape).2 d).length_eq
        exact this.symm
      obtain ⟨Q', e1, e2, e3, e4⟩ := hrun ρ hgood (fresh w st) (fresh w st) (fun d => t.half d) W ctx cfg hsrel hww hws hlen0
        ⟨hden, seenExact_nil _ _⟩
      rw [← ht.loops] at e1 e3 e4
      have hwf' := steps_wf M r0.loops (c := fresh w st) hww
      generalize (SimSt.step natOps M)^[r0.loops] (fresh w st) = c' at *
      have hQ : ∀ d, Q' d = takeL (r.dist.get d) (c'.tape.half d) := by
        intro d
        refine takeL_unique (e1 d) ?_
        have h1 : (c'.tape.half d).length = (w.half d).length := by
          have : HalfPlus y (r0.init.half d) (r0.diff.half d) (c'.tape.half d) := by
            cases d
            · exact hplus.left
            · exact hplus.right
          rw [halfPlus_len this, hwh]; simp [inst]
        have h2 := congrArg List.length (e1 d)
        have h3 := congrArg List.length (hws d)
        rw [List.length_append] at h2 h3
        rw [takeL_len _ h1, ← hts d]
        omega
      have hr1 := hreach.st
      have hr2 := hreach.dir
      have hr3 := hreach.steps
      have hsp : (fresh w st).steps = 0 := rfl
      rw [hsp] at hr3 e4
      refine ⟨⟨t.dir, Q' .L, Q' .R⟩, c'.steps, ⟨htis.dir, ?_, ?_⟩, ?_, ?_, ?_, ?_, ?_⟩
      · rw [hinit, hdiff]
        show HalfPlus y (takeL _ _) (takeL _ _) (Q' .L)
        rw [hQ]; exact halfPlus_takeL _ hplus.left
      · rw [hinit, hdiff]
        show HalfPlus y (takeL _ _) (takeL _ _) (Q' .R)
        rw [hQ]; exact halfPlus_takeL _ hplus.right
      · intro d b hb h0
        have hb : b ∈ Q' d := by cases d <;> exact hb
        rw [hQ] at hb
        exact absurd (wf_pos (hwf' d) b (takeL_mem hb) 0 h0) (by omega)
      · have := hok.loops
        omega
      · rw [hsteps, hr3]; simp
      · have h1 := e3.1
        rw [hr1, hr2] at h1
        have : zoneDC ctx ⟨t.dir, Q' .L, Q' .R⟩ st = (⟨(fresh w st).st, (fresh w st).dir, fun d => unrollOn (ctx d) (Q' d)⟩ : DC σ S) := by
          unfold zoneDC
          ext1
          · rfl
          · rfl
          · rename_i d; cases d <;> rfl
        rw [this]; exact h1
      · rw [hseen]
        intro q
        refine ⟨fun v hv => ?_, fun hv k' hk' hvis => ?_⟩
        · obtain ⟨n, k1, k2, -⟩ := (hreach.seen q).1 v hv
          rw [hsp] at k2
          exact ⟨n, by simpa using k2, (e3.2.2 q n).1 k1⟩
        · have e := (hreach.seen q).2 hv
          obtain ⟨t', ht'⟩ := lastSeen_exists hk' hvis
          rw [(e3.2.2 q t').2 ht'] at e
          cases e

end Model.Prover

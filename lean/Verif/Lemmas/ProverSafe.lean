import Verif.Lemmas.ProverGen

/-! # The symbolic run raises only if a transition raises -/

namespace Model
open Spec
variable {σ S ν : Type}

/-- every block has a symbol with `Ps` and a count with `Pn` -/
def ChainTape.All (Ps : σ → Prop) (Pn : ν → Prop) (t : ChainTape σ ν) : Prop :=
  ∀ d, ∀ b ∈ t.half d, Ps b.sym ∧ ∀ v, b.num = some v → Pn v

structure NumOps.Closed (N : NumOps ν) (Pn : ν → Prop) : Prop where
  add : ∀ a b, Pn a → Pn b → Pn (N.add a b)
  pred : ∀ a, Pn a → Pn (N.sub a (N.ofNat 1))
  one : Pn (N.ofNat 1)

/-- Transitions with these states and symbols do not raise and stay within them. -/
structure Stays (M : Machine σ S) (ok : S → Prop) (okS : σ → Prop) : Prop where
  safe : ∀ a q d, ok q → okS a → (M.trans a q d).cond ≠ .raised
  next : ∀ a q d, ok q → okS a → (M.trans a q d).cond = .running → ok (M.trans a q d).st ∧ okS (M.trans a q d).sym

theorem popOne_all {N : NumOps ν} {Ps : σ → Prop} {Pn : ν → Prop} (hN : N.Closed Pn) {h h' : List (Blk σ ν)}
    (ha : ∀ b ∈ h, Ps b.sym ∧ ∀ v, b.num = some v → Pn v) (he : ChainTape.popOne N h = some h') :
    ∀ b ∈ h', Ps b.sym ∧ ∀ v, b.num = some v → Pn v := by
  match h, he with
  | b :: rest, he =>
    unfold ChainTape.popOne at he
    simp only at he
    have hb := ha b (by simp)
    cases hn : b.num with
    | none => rw [hn] at he; cases he; exact ha
    | some n =>
      rw [hn] at he
      simp only at he
      by_cases hz : N.isZero (N.sub n (N.ofNat 1)) = true
      · rw [if_pos hz] at he; cases he
        exact fun b' hb' => ha b' (by simp [hb'])
      · rw [if_neg hz] at he; cases he
        intro b' hb'
        rcases List.mem_cons.1 hb' with rfl | hb'
        · exact ⟨hb.1, fun v hv => by cases hv; exact hN.pred _ (hb.2 n hn)⟩
        · exact ha b' (by simp [hb'])

theorem push_all [DecidableEq σ] {N : NumOps ν} {Ps : σ → Prop} {Pn : ν → Prop} (hN : N.Closed Pn) {sym : σ} {num : ν}
    (hs : Ps sym) (hnum : Pn num) {h h' : List (Blk σ ν)}
    (ha : ∀ b ∈ h, Ps b.sym ∧ ∀ v, b.num = some v → Pn v) (he : ChainTape.push N sym num h = some h') :
    ∀ b ∈ h', Ps b.sym ∧ ∀ v, b.num = some v → Pn v := by
  match h, he with
  | b :: rest, he =>
    unfold ChainTape.push at he
    simp only at he
    have hb := ha b (by simp)
    by_cases hsym : b.sym = sym
    · rw [if_pos hsym] at he
      cases hn : b.num with
      | none => rw [hn] at he; cases he; exact ha
      | some n =>
        rw [hn] at he
        cases he
        intro b' hb'
        rcases List.mem_cons.1 hb' with rfl | hb'
        · exact ⟨hb.1, fun v hv => by cases hv; exact hN.add _ _ (hb.2 n hn) hnum⟩
        · exact ha b' (by simp [hb'])
    · rw [if_neg hsym] at he
      cases he
      intro b' hb'
      rcases List.mem_cons.1 hb' with rfl | hb'
      · exact ⟨hs, fun v hv => by cases hv; exact hnum⟩
      · exact ha b' hb'

theorem all_setHalf {Ps : σ → Prop} {Pn : ν → Prop} {t : ChainTape σ ν} (ha : t.All Ps Pn) (d : Dir) {h : List (Blk σ ν)}
    (hh : ∀ b ∈ h, Ps b.sym ∧ ∀ v, b.num = some v → Pn v) : (t.setHalf d h).All Ps Pn := by
  intro e b hb
  cases d <;> cases e
  · exact hh b hb
  · exact ha .R b hb
  · exact ha .L b hb
  · exact hh b hb

theorem singleMove_all [DecidableEq σ] {N : NumOps ν} {Ps : σ → Prop} {Pn : ν → Prop} (hN : N.Closed Pn)
    {t t' : ChainTape σ ν} (ha : t.All Ps Pn) {sym : σ} (hs : Ps sym) (d : Dir) (he : t.singleMove N sym d = some t') :
    t'.All Ps Pn := by
  unfold ChainTape.singleMove at he
  cases h1 : ChainTape.popOne N (t.half t.dir) with
  | none => rw [h1] at he; cases he
  | some h =>
    rw [h1] at he
    have ha1 := all_setHalf ha t.dir (popOne_all hN (ha _) h1)
    cases h2 : ChainTape.push N sym (N.ofNat 1) ((t.setHalf t.dir h).half d.other) with
    | none => simp [h2] at he
    | some h' =>
      simp [h2] at he
      subst he
      have := all_setHalf ha1 d.other (push_all hN hs hN.one (ha1 _) h2)
      intro e b hb
      refine this e b ?_
      cases e <;> exact hb

theorem chainMove_all [DecidableEq σ] {N : NumOps ν} {Ps : σ → Prop} {Pn : ν → Prop} (hN : N.Closed Pn)
    {t t' : ChainTape σ ν} (ha : t.All Ps Pn) {sym : σ} (hs : Ps sym) {n : Option ν}
    (he : t.chainMove N sym = some (t', n)) : t'.All Ps Pn := by
  unfold ChainTape.chainMove at he
  cases hh : t.half t.dir with
  | nil => rw [hh] at he; cases he
  | cons b rest =>
    rw [hh] at he
    simp only at he
    have hb := ha t.dir b (by rw [hh]; simp)
    have hrest : ∀ b ∈ rest, Ps b.sym ∧ ∀ v, b.num = some v → Pn v := fun b' hb' => ha t.dir b' (by rw [hh]; simp [hb'])
    cases hn : b.num with
    | none => rw [hn] at he; cases he; exact ha
    | some k =>
      rw [hn] at he
      simp only at he
      have ha1 := all_setHalf ha t.dir hrest
      cases h2 : ChainTape.push N sym k ((t.setHalf t.dir rest).half (t.setHalf t.dir rest).dir.other) with
      | none => rw [h2] at he; cases he
      | some h' =>
        rw [h2] at he
        cases he
        exact all_setHalf ha1 _ (push_all hN hs (hb.2 k hn) (ha1 _) h2)

variable [DecidableEq σ] [DecidableEq S]

theorem step_all {N : NumOps ν} {M : Machine σ S} {ok : S → Prop} {okS : σ → Prop} (hM : Stays M ok okS) {Pn : ν → Prop}
    (hN : N.Closed Pn) {s : SimSt σ S ν} (ha : s.tape.All okS Pn) (hs : ok s.st) (hr : (s.step N M).op = .running) :
    (s.step N M).tape.All okS Pn ∧ ok (s.step N M).st := by
  unfold SimSt.step at hr ⊢
  by_cases hop : s.op ≠ .running
  · rw [if_pos hop]; exact ⟨ha, hs⟩
  rw [if_neg hop] at hr ⊢
  unfold SimSt.macroStep at hr ⊢
  simp only at hr ⊢
  cases htop : s.tape.topSymbol with
  | none => rw [htop] at hr; simp [SimSt.raise] at hr
  | some cur =>
    rw [htop] at hr
    simp only at hr ⊢
    have hcur : okS cur := by
      unfold ChainTape.topSymbol at htop
      cases hh : s.tape.half s.tape.dir with
      | nil => rw [hh] at htop; cases htop
      | cons b rest => rw [hh] at htop; cases htop; exact (ha s.tape.dir b (by rw [hh]; simp)).1
    have hnext := hM.next cur s.st s.dir hs hcur
    generalize M.trans cur s.st s.dir = t at hr hnext ⊢
    by_cases h1 : t.cond = .raised
    · rw [if_pos h1] at hr; simp [h1] at hr
    rw [if_neg h1] at hr ⊢
    by_cases h2 : t.cond = .infRepeat
    · rw [if_pos h2] at hr; simp [h2] at hr
    rw [if_neg h2] at hr ⊢
    by_cases h3 : t.st = s.st ∧ t.dir = s.dir ∧ t.cond = .running
    · rw [if_pos h3] at hr ⊢
      obtain ⟨h4, h5⟩ := hnext h3.2.2
      cases hc : s.tape.chainMove N t.sym with
      | none => exact ⟨ha, hs⟩
      | some p =>
        obtain ⟨t', n⟩ := p
        have := chainMove_all hN ha h5 hc
        cases n <;> exact ⟨this, hs⟩
    · rw [if_neg h3] at hr ⊢
      by_cases h4 : t.cond ≠ .gaveUp
      · rw [if_pos h4] at hr ⊢
        cases hc : s.tape.singleMove N t.sym t.dir with
        | none => exact ⟨ha, hs⟩
        | some t' =>
          rw [hc] at hr
          obtain ⟨h5, h6⟩ := hnext hr
          exact ⟨singleMove_all hN ha h6 _ hc, h5⟩
      · rw [if_neg h4] at hr ⊢; exact ⟨ha, hs⟩

theorem step_nodup {N : NumOps ν} (M : Machine σ S) {s : SimSt σ S ν} (h : Py.NodupKeys s.seen) :
    Py.NodupKeys (s.step N M).seen := by
  have hadd : ∀ (new : List (Nat × Nat)) (d : List (Nat × ν)) (b : ν), Py.NodupKeys d → Py.NodupKeys (SimSt.addSeen N d b new) := by
    intro new
    induction new with
    | nil => exact fun d b h => h
    | cons e new ih => exact fun d b h => ih _ _ (Py.nodup_dset h _ _)
  unfold SimSt.step
  split
  · exact h
  unfold SimSt.macroStep
  simp only
  split
  · exact h
  split
  · exact h
  split
  · exact h
  split
  · split
    · exact h
    · exact h
    · exact hadd _ _ _ h
  split
  · split
    · exact h
    · exact hadd _ _ _ h
  · exact h

end Model

namespace Model.Prover
open Spec Model Model.Expr
variable {σ S : Type}

theorem lin_variables {P : Nat → Prop} {v : V} (h : LinIn P v) : ∀ x ∈ v.variables, P x := by
  match v with
  | .num k => intro x hx; simp at hx
  | .expr e =>
    intro x hx
    simp only [Val.variables, List.mem_dedup, List.mem_flatMap, List.mem_map] at hx
    obtain ⟨t, ht, vp, hvp, rfl⟩ := hx
    obtain ⟨x, h1, h2⟩ := h t ht
    rw [h1] at hvp
    simp at hvp
    subst hvp
    exact h2

theorem valOps_closed (D : Nat → Prop) : valOps.Closed (LinIn (K := Int) D) where
  add _ _ h1 h2 := add_lin h1 h2
  pred _ h := sub_lin (b := .num 1) h trivial
  one := trivial

theorem updMins_safe {D : Nat → Prop} : ∀ (h : List (Blk σ V)) (mins : List (Nat × Option Int)),
    (∀ b ∈ h, ∀ v, b.num = some v → LinIn D v) → (∀ x, D x → Dom mins x) → updMins h mins ≠ .raise
  | [], mins, _, _ => by simp [updMins]
  | b :: h, mins, hl, hd => by
    unfold updMins
    have ih := fun mins hd => updMins_safe h mins (fun b hb => hl b (by simp [hb])) hd
    cases hb : b.num with
    | none => exact ih mins hd
    | some v =>
      have hv := lin_variables (hl b (by simp) v hb)
      unfold updMin
      simp only
      match hvs : v.variables with
      | [] => exact ih mins hd
      | [x] =>
        simp only
        obtain ⟨w, hw⟩ := hd x (hv x (by rw [hvs]; simp))
        rw [hw]
        simp only
        refine ih _ (fun x' hx' => ?_)
        unfold Dom
        rw [Py.dget_dset]
        split
        · exact ⟨_, rfl⟩
        · exact hd x' hx'
      | x :: x' :: l => simp

variable [DecidableEq σ] [DecidableEq S]

theorem step_safe {z : σ} {D : Nat → Prop} {M : Machine σ S} {ok : S → Prop} {okS : σ → Prop} (hM : Stays M ok okS)
    {s : SimSt σ S V} {mins : List (Nat × Option Int)} (h : SymInv z D s mins) (ha : s.tape.All okS (LinIn D)) (hs : ok s.st) :
    (s.step valOps M).op ≠ .raised := by
  unfold SimSt.step
  rw [if_neg (by rw [h.op]; simp)]
  unfold SimSt.macroStep
  simp only
  have hgd := h.tape.good s.tape.dir
  cases htop : s.tape.topSymbol with
  | none =>
    unfold ChainTape.topSymbol at htop
    cases hh : s.tape.half s.tape.dir with
    | nil => rw [hh] at hgd; cases hgd
    | cons b r => rw [hh] at htop; simp at htop
  | some cur =>
    simp only
    have hcur : okS cur := by
      unfold ChainTape.topSymbol at htop
      cases hh : s.tape.half s.tape.dir with
      | nil => rw [hh] at htop; cases htop
      | cons b rest => rw [hh] at htop; cases htop; exact (ha s.tape.dir b (by rw [hh]; simp)).1
    have hsafe := hM.safe cur s.st s.dir hs hcur
    generalize M.trans cur s.st s.dir = t at hsafe ⊢
    rw [if_neg hsafe]
    split
    · exact hsafe
    split
    · obtain ⟨t', reps, hcm, -⟩ := chainMove_good h.tape t.sym
      rw [hcm]
      cases reps
      · simp
      · exact hsafe
    split
    · obtain ⟨t', hsm, -⟩ := singleMove_good h.tape t.sym t.dir
      rw [hsm]; exact hsafe
    · exact hsafe

/-- The symbolic run does not raise. -/
theorem genLoop_safe {z : σ} {D : Nat → Prop} {M : Machine σ S} {ok : S → Prop} {okS : σ → Prop} (hM : Stays M ok okS) :
    ∀ (k : Nat) (s : SimSt σ S V) (mins : List (Nat × Option Int)), SymInv z D s mins → s.tape.All okS (LinIn D) → ok s.st →
      genLoop M k s mins ≠ .raise := by
  intro k
  induction k with
  | zero => intro s mins _ _ _; simp [genLoop]
  | succ k ih =>
    intro s mins h ha hs
    unfold genLoop
    have hgd := h.tape.good s.tape.dir
    cases hh : s.tape.half s.tape.dir with
    | nil => rw [hh] at hgd; cases hgd
    | cons b r =>
      simp only
      split
      · simp
      rw [if_neg (step_safe hM h ha hs)]
      by_cases hr : (s.step valOps M).op ≠ .running
      · rw [if_pos hr]; simp
      rw [if_neg hr]
      simp only [ne_eq, not_not] at hr
      obtain ⟨ha', hs'⟩ := step_all hM (valOps_closed D) ha hs hr
      cases hu : updMins ((s.step valOps M).tape.left ++ (s.step valOps M).tape.right) mins with
      | raise =>
        exfalso
        refine updMins_safe (D := D) _ _ (fun b hb v hv => ?_) (fun x hx => (h.dom x).2 hx) hu
        rcases List.mem_append.1 hb with hb | hb
        · exact (ha' .L b hb).2 v hv
        · exact (ha' .R b hb).2 v hv
      | fail => simp
      | ok mins' =>
        simp only
        exact ih _ _ (step_inv M h hr hu).1 ha' hs'

theorem genLoop_nodup (M : Machine σ S) : ∀ (k : Nat) (s s' : SimSt σ S V) (mins mins' : List (Nat × Option Int)),
    genLoop M k s mins = .ok (s', mins') → Py.NodupKeys s.seen → Py.NodupKeys s'.seen := by
  intro k
  induction k with
  | zero => intro s s' mins mins' h hn; cases h; exact hn
  | succ k ih =>
    intro s s' mins mins' h hn
    unfold genLoop at h
    split at h
    · cases h
    split at h
    · cases h
    simp only at h
    split at h
    · cases h
    split at h
    · cases h
    split at h
    · cases h
    · cases h
    · exact ih _ _ _ _ h (step_nodup M hn)

end Model.Prover

import Verif.Lemmas.TNF2

/-!
# Lemmas about `brute_lnf`
-/

set_option linter.unusedSectionVars false

namespace Model.Permute
open Spec (Dir Instr Table Renaming Renamed run init Config AtCell InRange Fits)
open Model.IO

theorem mem_iterPerms (fuel : Nat) : ∀ xs ys : List Nat, xs.length ≤ fuel → (ys ∈ iterPerms fuel xs ↔ ys.Perm xs) := by
  induction fuel with
  | zero =>
    intro xs ys h
    have : xs = [] := List.length_eq_zero_iff.1 (by omega)
    subst this
    simp [iterPerms]
  | succ fuel ih =>
    intro xs ys h
    unfold iterPerms
    by_cases hl : xs.length ≤ 1
    · rw [if_pos hl]
      rcases xs with _ | ⟨x, _ | ⟨y, xs⟩⟩
      · simp
      · simp
      · simp at hl
    · rw [if_neg hl]
      simp only [List.mem_flatMap, List.mem_range]
      constructor
      · rintro ⟨i, hi, hy⟩
        rw [List.getElem?_eq_getElem hi] at hy
        simp only [List.mem_map] at hy
        obtain ⟨z, hz, rfl⟩ := hy
        rw [ih _ _ (by rw [List.length_eraseIdx_of_lt hi]; omega)] at hz
        exact (hz.cons _).trans (List.getElem_cons_eraseIdx_perm hi)
      · intro hp
        cases ys with
        | nil =>
          have := hp.length_eq
          simp at this
          omega
        | cons y ys =>
          have hy : y ∈ xs := hp.mem_iff.1 (by simp)
          obtain ⟨i, hi, rfl⟩ := List.getElem_of_mem hy
          refine ⟨i, hi, ?_⟩
          rw [List.getElem?_eq_getElem hi]
          simp only [List.mem_map]
          refine ⟨ys, ?_, rfl⟩
          rw [ih _ _ (by rw [List.length_eraseIdx_of_lt hi]; omega)]
          exact (hp.trans (List.getElem_cons_eraseIdx_perm hi).symm).cons_inv

theorem mem_perms {n : Nat} {ys : List Nat} : ys ∈ perms n ↔ ys.Perm (List.range n) :=
  mem_iterPerms n _ _ (by simp)

/-- the direction that `LNF.permute` chooses -/
def lnfSwap (m : SM) (so : List Nat) : Bool := decide ((cell m (so.getD 0 0) 0).dir = 1)

variable {m : SM} {so syo : List Nat}

theorem idxOf?_of_mem {l : List Nat} {x : Nat} (h : x ∈ l) : l.idxOf? x = some (l.idxOf x) := by
  induction l with
  | nil => simp at h
  | cons y l ih =>
    rw [List.idxOf?_cons, List.idxOf_cons]
    by_cases e : y = x
    · simp [e]
    · have hb : (y == x) = false := by simpa using e
      have : x ∈ l := by
        rcases List.mem_cons.1 h with h | h
        · exact absurd h.symm e
        · exact h
      simp [hb, ih this]

theorem lnfPermute_eq (h : m.WF) (hd : m.Moves) (hso : so.Perm (List.range m.nStates)) (hsyo : syo.Perm (List.range m.nSyms)) :
    lnfPermute m so syo =
      some { tm := permuted m so syo (lnfSwap m so), state := so.idxOf 0, sym := syo.idxOf 0 } := by
  have h1 : 0 < so.length := by rw [perm_length hso]; exact h.states
  have e1 : so[0]? = some (so.getD 0 0) := by
    rw [List.getD_eq_getElem?_getD, List.getElem?_eq_getElem h1]; rfl
  have e2 : so.idxOf? 0 = some (so.idxOf 0) := by
    exact idxOf?_of_mem ((perm_mem hso).2 h.states)
  have e3 : syo.idxOf? 0 = some (syo.idxOf 0) := by
    exact idxOf?_of_mem ((perm_mem hsyo).2 h.syms)
  unfold lnfPermute
  rw [e1, Option.bind_some, cell_get h (getD_lt hso h.states) h.syms, Option.bind_some, permuteTable_eq h hd hso hsyo, Option.bind_some,
    e2, e3]
  rfl

theorem toStr_some {m : SM} (h : m.WF) (hd : m.Moves) : ∃ s, m.toStr = some s := by
  by_cases hs : m.nStates < 25 ∧ m.nSyms < 10
  · exact ⟨_, toStr_eq h hd hs.1 hs.2⟩
  · exact ⟨[], by unfold SM.toStr; rw [if_neg hs]⟩

theorem toStr_inj {m m' : SM} (h : m.WF) (hd : m.Moves) (h' : m'.WF) (hd' : m'.Moves) (hn : m.nStates < 25) (hk : m.nSyms < 10)
    (hn' : m'.nStates < 25) (hk' : m'.nSyms < 10) (he : m.toStr = m'.toStr) : m = m' := by
  rw [toStr_eq h hd hn hk, toStr_eq h' hd' hn' hk'] at he
  have h1 := parse_print h hd hn hk
  have h2 := parse_print h' hd' hn' hk'
  rw [Option.some.inj he, h2] at h1
  exact (Option.some.inj h1).symm

theorem lnfLoop_spec (m : SM) (os : List (List Nat × List Nat))
    (hos : ∀ o ∈ os, ∃ p s, lnfPermute m o.1 o.2 = some p ∧ p.tm.toStr = some s) :
    ∀ best : Started × List Char, ∃ r, lnfLoop m os best = some r ∧
      (r = best ∨ ∃ o ∈ os, lnfPermute m o.1 o.2 = some r.1 ∧ r.1.tm.toStr = some r.2) ∧ ¬ best.2 < r.2 ∧
      ∀ o ∈ os, ∀ p s, lnfPermute m o.1 o.2 = some p → p.tm.toStr = some s → ¬ s < r.2 := by
  induction os with
  | nil => intro best; exact ⟨best, rfl, Or.inl rfl, List.lt_irrefl _, by simp⟩
  | cons o os ih =>
    intro best
    obtain ⟨p, s, h1, h2⟩ := hos o (by simp)
    have e : lnfTry m best o = some (if s < best.2 then (p, s) else best) := by
      unfold lnfTry
      rw [h1, Option.bind_some, h2]
      rfl
    obtain ⟨r, g1, g2, g3, g4⟩ := ih (fun o ho => hos o (List.mem_cons_of_mem _ ho)) (if s < best.2 then (p, s) else best)
    refine ⟨r, by unfold lnfLoop; rw [e, Option.bind_some, g1], ?_, ?_, ?_⟩
    · rcases g2 with g2 | ⟨o', ho', g2⟩
      · by_cases hc : s < best.2
        · rw [if_pos hc] at g2
          right
          exact ⟨o, by simp, by rw [g2]; exact ⟨h1, h2⟩⟩
        · rw [if_neg hc] at g2
          exact Or.inl g2
      · exact Or.inr ⟨o', List.mem_cons_of_mem _ ho', g2⟩
    · by_cases hc : s < best.2
      · rw [if_pos hc] at g3
        intro hlt
        exact g3 (List.lt_trans hc hlt)
      · rw [if_neg hc] at g3; exact g3
    · intro o' ho' p' s' k1 k2
      rcases List.mem_cons.1 ho' with rfl | ho'
      · rw [h1] at k1; cases k1
        rw [h2] at k2; cases k2
        by_cases hc : s < best.2
        · rw [if_pos hc] at g3; exact g3
        · rw [if_neg hc] at g3
          intro hlt
          exact g3 (List.lt_of_le_of_lt hc hlt)
      · exact g4 o' ho' p' s' k1 k2

theorem bruteLnf_spec (h : m.WF) (hd : m.Moves) (hk : 1 < m.nSyms) :
    ∃ r s, bruteLnf m = some r ∧ r.tm.toStr = some s ∧
      (r = { tm := m, state := 0, sym := 0 } ∨ ∃ so syo, so.Perm (List.range m.nStates) ∧ syo.Perm (List.range m.nSyms) ∧
        lnfPermute m so syo = some r) ∧
      (∀ s0, m.toStr = some s0 → ¬ s0 < s) ∧
      ∀ so syo, so.Perm (List.range m.nStates) → syo.Perm (List.range m.nSyms) → ∀ p s', lnfPermute m so syo = some p →
        p.tm.toStr = some s' → ¬ s' < s := by
  obtain ⟨s0, hs0⟩ := toStr_some h hd
  have hmem : ∀ o : List Nat × List Nat, o ∈ ((perms m.nStates).flatMap fun so => (perms m.nSyms).map fun syo => (so, syo)) ↔
      o.1.Perm (List.range m.nStates) ∧ o.2.Perm (List.range m.nSyms) := by
    rintro ⟨a, b⟩
    simp only [List.mem_flatMap, List.mem_map, Prod.mk.injEq, mem_perms]
    constructor
    · rintro ⟨so, h1, syo, h2, rfl, rfl⟩; exact ⟨h1, h2⟩
    · rintro ⟨h1, h2⟩; exact ⟨a, h1, b, h2, rfl, rfl⟩
  obtain ⟨r, g1, g2, g3, g4⟩ := lnfLoop_spec m ((perms m.nStates).flatMap fun so => (perms m.nSyms).map fun syo => (so, syo))
    (fun o ho => by
      obtain ⟨h1, h2⟩ := (hmem o).1 ho
      have hw := permuted_wf (swap := lnfSwap m o.1) h hd hk h1 h2
      obtain ⟨s, hs⟩ := toStr_some hw.1 hw.2
      exact ⟨_, s, lnfPermute_eq h hd h1 h2, hs⟩) ({ tm := m, state := 0, sym := 0 }, s0)
  refine ⟨r.1, r.2, ?_, ?_, ?_, ?_, ?_⟩
  · unfold bruteLnf
    rw [hs0, Option.bind_some, g1]
    rfl
  · rcases g2 with rfl | ⟨o, -, -, g2⟩
    · exact hs0
    · exact g2
  · rcases g2 with rfl | ⟨o, ho, g2, -⟩
    · exact Or.inl rfl
    · exact Or.inr ⟨o.1, o.2, ((hmem o).1 ho).1, ((hmem o).1 ho).2, g2⟩
  · intro s1 hs1
    rw [hs0] at hs1; cases hs1
    exact g3
  · intro so syo h1 h2 p s' k1 k2
    exact g4 (so, syo) ((hmem _).2 ⟨h1, h2⟩) p s' k1 k2

/-! ## Canonicity -/

/-- the machines that `brute_lnf` considers -/
def Considered (m p : SM) : Prop :=
  ∃ so syo, so.Perm (List.range m.nStates) ∧ syo.Perm (List.range m.nSyms) ∧ p = permuted m so syo (lnfSwap m so)

/-- every transition on symbol 0 is a running one, and the halting transitions are "write 1, move right" -/
structure Regular (m : SM) : Prop where
  running : ∀ q < m.nStates, (cell m q 0).cond = .running
  std : ∀ q < m.nStates, ∀ a < m.nSyms, (cell m q a).cond = .halt → (cell m q a).sym = 1 ∧ (cell m q a).dir = 1

theorem newTrans_std {t : BTrans} (so syo : List Nat) (b : Bool) (h : (newTrans so syo b t).cond = .halt) :
    (newTrans so syo b t).sym = 1 ∧ (newTrans so syo b t).dir = 1 := by
  obtain ⟨c, s, d, q⟩ := t
  cases c <;> simp_all [newTrans]

theorem newTrans_cond (t : BTrans) (so syo : List Nat) (b : Bool) : (newTrans so syo b t).cond = t.cond := by
  obtain ⟨c, s, d, q⟩ := t
  cases c <;> rfl

theorem permuted_regular (hm : Regular m) (hso : so.Perm (List.range m.nStates)) (hsyo : syo.Perm (List.range m.nSyms))
    (h0 : 0 < m.nSyms) (h1 : syo.head? = some 0) (b : Bool) : Regular (permuted m so syo b) := by
  constructor
  · intro q hq
    rw [permuted_cell hso hsyo hq h0, newTrans_cond]
    have : syo.getD 0 0 = 0 := by cases syo <;> simp_all
    rw [this]
    exact hm.running _ (getD_lt hso hq)
  · intro q hq a ha h
    rw [permuted_cell hso hsyo hq ha] at h ⊢
    exact newTrans_std so syo b h

theorem newTrans_id {n k : Nat} {t : BTrans} (hw : t.WF n k) (hs : t.cond = .halt → t.sym = 1 ∧ t.dir = 1) :
    newTrans (List.range n) (List.range k) false t = t := by
  obtain ⟨c, s, d, q⟩ := t
  unfold BTrans.WF at hw
  have key : ∀ {n x : Nat}, x < n → (List.range n).idxOf x = x := by
    intro n x hx
    have := (List.nodup_range (n := n)).idxOf_getElem x (by simpa using hx)
    simpa using this
  cases c with
  | running =>
    simp only at hw
    obtain ⟨h1, h2, h3, h4⟩ := hw
    unfold newTrans
    simp only [BTrans.mk.injEq, true_and, Bool.false_eq_true, if_false]
    rw [key (by omega), key (by omega)]
    omega
  | halt =>
    obtain ⟨h1, h2⟩ := hs rfl
    simp only at hw h1 h2
    simp [newTrans, h1, h2, hw.2.2]
  | undefined => simp only [undefTrans, BTrans.mk.injEq] at hw; simp [newTrans, hw]

theorem permuted_id (h : m.WF) (hm : Regular m) : permuted m (List.range m.nStates) (List.range m.nSyms) false = m := by
  have : (permuted m (List.range m.nStates) (List.range m.nSyms) false).rows = m.rows := by
    conv_rhs => rw [rows_eq h]
    unfold permuted
    simp only
    apply List.map_congr_left
    intro q hq
    apply List.map_congr_left
    intro a ha
    have hq := List.mem_range.1 hq
    have ha := List.mem_range.1 ha
    exact newTrans_id (cell_wf h hq ha) (hm.std q hq a ha)
  unfold permuted at this ⊢
  simp only at this
  rw [this]

theorem considered_subset (h : m.WF) (hd : m.Moves) (hm : Regular m) (hso : so.Perm (List.range m.nStates))
    (hsyo : syo.Perm (List.range m.nSyms)) (h1 : syo.head? = some 0) (b : Bool) {p : SM}
    (hp : Considered (permuted m so syo b) p) : Considered m p := by
  obtain ⟨so', syo', p1, p2, rfl⟩ := hp
  change so'.Perm (List.range m.nStates) at p1
  change syo'.Perm (List.range m.nSyms) at p2
  refine ⟨compose so so', compose syo syo', compose_perm hso p1, compose_perm hsyo p2, ?_⟩
  rw [permuted_comp h hso p1 hsyo p2]
  congr 1
  unfold lnfSwap
  rw [getD_compose p1 h.states, permuted_cell hso hsyo (getD_lt p1 h.states) h.syms]
  have e : syo.getD 0 0 = 0 := by cases syo <;> simp_all
  rw [e]
  have hq := getD_lt hso (getD_lt p1 h.states)
  have hr := hm.running _ hq
  have hmv := cell_moves h hd hq h.syms
  unfold newTrans
  rw [hr]
  simp only
  rcases hmv with e | e <;> rw [e] <;> cases b <;> simp

/-- the inverse order -/
def inverse (n : Nat) (so : List Nat) : List Nat := (List.range n).map fun q => so.idxOf q

theorem inverse_perm {n : Nat} (h : so.Perm (List.range n)) : (inverse n so).Perm (List.range n) := by
  have nd : (inverse n so).Nodup := by
    refine (List.nodup_map_iff_inj_on List.nodup_range).2 ?_
    intro x hx y _ e
    exact (List.idxOf_inj ((perm_mem h).2 (List.mem_range.1 hx))).1 e
  refine List.Subperm.perm_of_length_le (List.subperm_of_subset nd ?_) (by simp [inverse])
  intro y hy
  simp only [inverse, List.mem_map, List.mem_range] at hy
  obtain ⟨x, hx, rfl⟩ := hy
  exact List.mem_range.2 (idxOf_lt' h hx)

theorem compose_inverse {n : Nat} (h : so.Perm (List.range n)) : compose so (inverse n so) = List.range n :=
  compose_map_idxOf h fun _ hx => List.mem_range.1 hx

theorem considered_iff (h : m.WF) (hd : m.Moves) (hk : 1 < m.nSyms) (hm : Regular m) (hso : so.Perm (List.range m.nStates))
    (hsyo : syo.Perm (List.range m.nSyms)) (h1 : syo.head? = some 0) (b : Bool) (p : SM) :
    Considered (permuted m so syo b) p ↔ Considered m p := by
  refine ⟨considered_subset h hd hm hso hsyo h1 b, fun hp => ?_⟩
  have hw := permuted_wf (swap := b) h hd hk hso hsyo
  have e : permuted (permuted m so syo b) (inverse m.nStates so) (inverse m.nSyms syo) b = m := by
    rw [permuted_comp h hso (inverse_perm hso) hsyo (inverse_perm hsyo), compose_inverse hso, compose_inverse hsyo, Bool.xor_self,
      permuted_id h hm]
  refine considered_subset hw.1 hw.2 (permuted_regular hm hso hsyo h.syms h1 b) (so := inverse m.nStates so)
    (syo := inverse m.nSyms syo) (b := b) (inverse_perm hso) (inverse_perm hsyo) ?_ (p := p) (by rw [e]; exact hp)
  unfold inverse
  have : 0 < m.nSyms := h.syms
  obtain ⟨j, hj⟩ : ∃ j, m.nSyms = j + 1 := ⟨m.nSyms - 1, by omega⟩
  rw [hj, List.range_succ_eq_map]
  simp [idxOf_head h1]

/-- if the first move is to the right, the mirrored machine is smaller -/
theorem mirror_lt (h : m.WF) (hd : m.Moves) (hk : 1 < m.nSyms) (hn : m.nStates < 25) (hk' : m.nSyms < 10) (hm : Regular m)
    (hR : (cell m 0 0).dir = 1) {s s' : List Char} (hs : m.toStr = some s)
    (hs' : (permuted m (List.range m.nStates) (List.range m.nSyms) true).toStr = some s') : s' < s := by
  have hw := permuted_wf (so := List.range m.nStates) (syo := List.range m.nSyms) (swap := true) h hd hk (List.Perm.refl _) (List.Perm.refl _)
  rw [toStr_eq h hd hn hk'] at hs
  rw [toStr_eq hw.1 hw.2 hn hk'] at hs'
  cases hs; cases hs'
  obtain ⟨n, hn0⟩ : ∃ n, m.nStates = n + 1 := ⟨m.nStates - 1, by have := h.states; omega⟩
  obtain ⟨k, hk0⟩ : ∃ k, m.nSyms = k + 1 := ⟨m.nSyms - 1, by have := h.syms; omega⟩
  have first : ∀ m' : SM, m'.WF → m'.nStates = n + 1 → m'.nSyms = k + 1 →
      ∃ rest, Py.join '_' (m'.rows.map rowStr) = Spec.cellText (cell m' 0 0).instr ++ rest := by
    intro m' h' e1 e2
    rw [rows_eq h', e1, e2, List.range_succ_eq_map, List.range_succ_eq_map, List.map_cons, List.map_cons, List.map_cons]
    generalize (List.map (fun q => _) (List.map Nat.succ (List.range n))) = tl
    unfold rowStr
    rw [List.map_cons, List.flatten_cons]
    cases tl with
    | nil => exact ⟨_, rfl⟩
    | cons x tl =>
      unfold Py.join
      rw [List.map_cons]
      exact ⟨_, List.append_assoc _ _ _⟩
  obtain ⟨r1, e1⟩ := first m h hn0 hk0
  obtain ⟨r2, e2⟩ := first (permuted m (List.range m.nStates) (List.range m.nSyms) true) hw.1 hn0 hk0
  rw [e1, e2, permuted_cell (List.Perm.refl _) (List.Perm.refl _) h.states h.syms]
  have g0 : (List.range m.nStates).getD 0 0 = 0 := by rw [hn0, List.range_succ_eq_map]; rfl
  have g1 : (List.range m.nSyms).getD 0 0 = 0 := by rw [hk0, List.range_succ_eq_map]; rfl
  rw [g0, g1]
  have hr := hm.running 0 h.states
  have hc := cell_wf h h.states h.syms
  generalize cell m 0 0 = t at *
  obtain ⟨c, w, d, q⟩ := t
  simp only at hr hR
  subst hr hR
  unfold BTrans.WF at hc
  simp only at hc
  have hidx : ∀ {n x : Nat}, x < n → (List.range n).idxOf x = x := by
    intro n x hx
    have := (List.nodup_range (n := n)).idxOf_getElem x (by simpa using hx)
    simpa using this
  simp only [newTrans, BTrans.instr, Spec.cellText, Spec.dirChar, if_true]
  rw [hidx (show w.toNat < m.nSyms by omega)]
  simp only [Int.toNat_natCast, List.cons_append]
  refine List.Lex.cons (List.Lex.rel ?_)
  simp only [Int.sub_self, if_true, one_ne_zero, if_false]
  decide

theorem bruteLnf_considered (h : m.WF) (hd : m.Moves) (hk : 1 < m.nSyms) (hn : m.nStates < 25) (hk' : m.nSyms < 10) (hm : Regular m) :
    ∃ r s, bruteLnf m = some r ∧ r.tm.toStr = some s ∧ Considered m r.tm ∧ ∀ p s', Considered m p → p.toStr = some s' → ¬ s' < s := by
  obtain ⟨r, s, h1, h2, h3, h4, h5⟩ := bruteLnf_spec h hd hk
  refine ⟨r, s, h1, h2, ?_, ?_⟩
  · rcases h3 with rfl | ⟨so, syo, p1, p2, h3⟩
    · refine ⟨List.range m.nStates, List.range m.nSyms, List.Perm.refl _, List.Perm.refl _, ?_⟩
      obtain ⟨n, hn0⟩ : ∃ n, m.nStates = n + 1 := ⟨m.nStates - 1, by have := h.states; omega⟩
      have g0 : (List.range m.nStates).getD 0 0 = 0 := by rw [hn0, List.range_succ_eq_map]; rfl
      rcases cell_moves h hd h.states h.syms with e | e
      · have : lnfSwap m (List.range m.nStates) = false := by
          unfold lnfSwap
          rw [g0, e]
          rfl
        rw [this, permuted_id h hm]
      · exfalso
        have hsw : lnfSwap m (List.range m.nStates) = true := by
          unfold lnfSwap
          rw [g0, e]
          rfl
        have hw := permuted_wf (so := List.range m.nStates) (syo := List.range m.nSyms) (swap := true) h hd hk (List.Perm.refl _) (List.Perm.refl _)
        obtain ⟨s', hs'⟩ := toStr_some hw.1 hw.2
        refine h5 _ _ (List.Perm.refl _) (List.Perm.refl _) _ s' (lnfPermute_eq h hd (List.Perm.refl _) (List.Perm.refl _)) ?_ ?_
        · rw [hsw]; exact hs'
        · exact mirror_lt h hd hk hn hk' hm e h2 hs'
    · rw [lnfPermute_eq h hd p1 p2] at h3
      cases h3
      exact ⟨so, syo, p1, p2, rfl⟩
  · rintro p s' ⟨so, syo, p1, p2, rfl⟩ hs'
    exact h5 so syo p1 p2 _ s' (lnfPermute_eq h hd p1 p2) hs'

theorem considered_wf (h : m.WF) (hd : m.Moves) (hk : 1 < m.nSyms) {p : SM} (hp : Considered m p) :
    p.WF ∧ p.Moves ∧ p.nStates = m.nStates ∧ p.nSyms = m.nSyms := by
  obtain ⟨so, syo, p1, p2, rfl⟩ := hp
  have := permuted_wf (swap := lnfSwap m so) h hd hk p1 p2
  exact ⟨this.1, this.2, rfl, rfl⟩

theorem bruteLnf_canonical (h : m.WF) (hd : m.Moves) (hk : 1 < m.nSyms) (hn : m.nStates < 25) (hk' : m.nSyms < 10) (hm : Regular m)
    (hso : so.Perm (List.range m.nStates)) (hsyo : syo.Perm (List.range m.nSyms)) (h1 : syo.head? = some 0) (b : Bool) :
    ∃ r r', bruteLnf m = some r ∧ bruteLnf (permuted m so syo b) = some r' ∧ r'.tm = r.tm := by
  have hw := permuted_wf (swap := b) h hd hk hso hsyo
  obtain ⟨r, s, a1, a2, a3, a4⟩ := bruteLnf_considered h hd hk hn hk' hm
  obtain ⟨r', s', b1, b2, b3, b4⟩ := bruteLnf_considered hw.1 hw.2 hk hn hk' (permuted_regular hm hso hsyo h.syms h1 b)
  refine ⟨r, r', a1, b1, ?_⟩
  have b3' := (considered_iff h hd hk hm hso hsyo h1 b r'.tm).1 b3
  have a3' := (considered_iff h hd hk hm hso hsyo h1 b r.tm).2 a3
  have e : s' = s := List.le_antisymm (b4 _ _ a3' a2) (a4 _ _ b3' b2)
  obtain ⟨c1, c2, c3, c4⟩ := considered_wf h hd hk a3
  obtain ⟨d1, d2, d3, d4⟩ := considered_wf h hd hk b3'
  exact toStr_inj d1 d2 c1 c2 (by omega) (by omega) (by omega) (by omega) (by rw [a2, b2, e])

end Model.Permute

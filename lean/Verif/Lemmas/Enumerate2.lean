import Verif.Lemmas.Enumerate
import Verif.Lemmas.Tree
import Mathlib.Tactic.Linarith

/-!
# The enumerator raises no exception and ends
-/

namespace Model.IO
open Model.Status (BBStatus)
open Spec (Instr Dir Table TwoUndefined AllowedNext)

/-- a transition object of an instruction fits its machine -/
theorem fillCell_wf {m : SM} (hw : m.WF) (hd : m.Moves) (q a : Nat) {i : Instr} (hi : (BTrans.ofInstr i).WF m.nStates m.nSyms) :
    (m.fill q a i).WF ∧ (m.fill q a i).Moves := by
  have hdi : (BTrans.ofInstr i).dir = 0 ∨ (BTrans.ofInstr i).dir = 1 := by
    cases i with
    | undef => exact Or.inr rfl
    | halt w d => cases d <;> simp [BTrans.ofInstr]
    | go w d q => cases d <;> simp [BTrans.ofInstr]
  have key : ∀ r ∈ (m.fill q a i).rows, r.length = m.nSyms ∧
      ∀ t ∈ r, t.WF m.nStates m.nSyms ∧ (t.dir = 0 ∨ t.dir = 1) := by
    intro r hr
    unfold SM.fill at hr
    simp only at hr
    obtain ⟨j, hj, rfl⟩ := List.mem_iff_getElem.1 hr
    have hj' : j < m.rows.length := by simpa using hj
    rw [List.getElem_modify]
    have hm := List.getElem_mem hj'
    split
    · refine ⟨by simp [hw.width _ hm], fun t ht => ?_⟩
      rcases List.mem_or_eq_of_mem_set ht with ht | rfl
      · exact ⟨hw.cells _ hm t ht, hd _ hm t ht⟩
      · exact ⟨hi, hdi⟩
    · exact ⟨hw.width _ hm, fun t ht => ⟨hw.cells _ hm t ht, hd _ hm t ht⟩⟩
  exact ⟨⟨hw.states, hw.syms, by simp [SM.fill, hw.height], fun r hr => (key r hr).1, fun r hr t ht => ((key r hr).2 t ht).1⟩,
    fun r hr t ht => ((key r hr).2 t ht).2⟩

theorem TMEnum.Good.storable {e : TMEnum} (h : e.Good) : e.tm.Storable := by
  intro _ r hr t ht hu
  have hc := h.wf.cells r hr t ht
  have h7 := h.syms
  unfold BTrans.WF at hc
  cases hcond : t.cond with
  | undefined => exact absurd hcond hu
  | halt => simp only [hcond] at hc; omega
  | running => simp only [hcond] at hc; omega

theorem TMEnum.Good.fits {e : TMEnum} (h : e.Good) : ∀ r ∈ e.tm.rows, ∀ t ∈ r, t.Fits :=
  fits_of_storable h.wf h.storable ⟨h.states, by have := h.syms; omega⟩

/-- a new record stores its machine exactly -/
theorem newRec_good {e : TMEnum} (h : e.Good) :
    ∃ p, newRec e = some { proto := p, tme := e, status := .empty } ∧ readTM p = some e.tm ∧ p.allowNoHalt = false := by
  have h7 := h.syms
  obtain ⟨p, m', h1, -, h3, h4⟩ := writeTM_ok h.wf h.moves ⟨by have := h.states; omega, by omega⟩ h.storable
    { ttable := .unset, allowNoHalt := false }
  obtain ⟨rfl, h5⟩ := h4 ⟨h.states, by omega⟩
  refine ⟨p, ?_, h5, h3⟩
  unfold newRec mkRecord
  rw [h1]
  rfl

theorem TMEnum.Good.fill {e : TMEnum} (h : e.Good) {q a w q' : Nat} (d : Dir) (hw : w < e.tm.nSyms) (hq' : q' < e.tm.nStates) :
    TMEnum.Good { e with tm := e.tm.fill q a (.go w d q') } := by
  obtain ⟨h1, h2⟩ := fillCell_wf h.wf h.moves q a (i := .go w d q')
    (show BTrans.WF _ _ _ by unfold BTrans.WF BTrans.ofInstr; simp only; omega)
  exact ⟨h1, h2, h.states, h.syms, h.two⟩

/-- the record of a machine that stopped at cell (`q`, `a`) -/
theorem expand_good {r : Rec} (h : r.tme.Good) (hq : r.status.halt.fromState < r.tme.tm.nStates)
    (ha : r.status.halt.fromSymbol < r.tme.tm.nSyms) :
    ∃ es kids, r.tme.enumChildren r.status.halt.fromState r.status.halt.fromSymbol = some es ∧ expand r = some kids ∧
      kids.map (·.tme) = es ∧ es.length ≤ 98 ∧
      (∀ k ∈ kids, k.tme.Good ∧ newRec k.tme = some k) ∧
      ∀ e ∈ es, ∃ w d q', e = { r.tme with tm := r.tme.tm.fill r.status.halt.fromState r.status.halt.fromSymbol (.go w d q') } := by
  have hsane := h.wf.sane h.moves
  obtain ⟨xs, hp, hm, hc1, hc2⟩ := enumChildren_eq hsane hq ha
  have main : ∀ es, r.tme.enumChildren r.status.halt.fromState r.status.halt.fromSymbol = some es →
      es.length ≤ 98 → (∀ e ∈ es, e.Good ∧ ∃ w d q', e = { r.tme with tm := r.tme.tm.fill r.status.halt.fromState r.status.halt.fromSymbol (.go w d q') }) →
      ∃ es kids, r.tme.enumChildren r.status.halt.fromState r.status.halt.fromSymbol = some es ∧ expand r = some kids ∧
      kids.map (·.tme) = es ∧ es.length ≤ 98 ∧
      (∀ k ∈ kids, k.tme.Good ∧ newRec k.tme = some k) ∧
      ∀ e ∈ es, ∃ w d q', e = { r.tme with tm := r.tme.tm.fill r.status.halt.fromState r.status.halt.fromSymbol (.go w d q') } := by
    intro es he hlen hes
    have hrec : ∀ e ∈ es, newRec e = some ((newRec e).getD r) := by
      intro e hm
      obtain ⟨p, h1, -⟩ := newRec_good (hes e hm).1
      rw [h1]; rfl
    refine ⟨es, es.map fun e => (newRec e).getD r, he, ?_, ?_, hlen, ?_, fun e hm => (hes e hm).2⟩
    · unfold expand
      rw [he, Option.bind_some, mapO_eq_some hrec]
    · rw [List.map_map]
      conv_rhs => rw [← List.map_id es]
      apply List.map_congr_left
      intro e hm
      obtain ⟨p, h1, -⟩ := newRec_good (hes e hm).1
      simp [h1]
    · intro k hk
      obtain ⟨e, hm, rfl⟩ := List.mem_map.1 hk
      obtain ⟨p, h1, -⟩ := newRec_good (hes e hm).1
      rw [h1]
      exact ⟨(hes e hm).1, h1⟩
  by_cases hc : r.tme.allowNoHalt = true ∨ TwoUndefined r.tme.tm.table r.tme.tm.nStates r.tme.tm.nSyms
  · refine main _ (hc1 hc) ?_ ?_
    · rw [List.length_map]
      have hnd : xs.Nodup := hp.imp (by
        rintro x y hxy rfl
        unfold TripleLt at hxy
        omega)
      have hsub : xs.toFinset ⊆ Finset.range 7 ×ˢ Finset.range 7 ×ˢ Finset.range 2 := by
        intro x hx
        obtain ⟨g1, g2⟩ := (hm x).1 (List.mem_toFinset.1 hx)
        have := g2.sym
        have := g2.st
        have := h.states
        have := h.syms
        simp only [Finset.mem_product, Finset.mem_range]
        omega
      have := Finset.card_le_card hsub
      rw [List.toFinset_card_of_nodup hnd] at this
      simpa using this
    · intro e he
      obtain ⟨x, hx, rfl⟩ := List.mem_map.1 he
      obtain ⟨g1, g2⟩ := (hm x).1 hx
      exact ⟨h.fill _ g2.sym g2.st, _, _, _, rfl⟩
  · exact main _ (hc2 hc) (by simp) (by simp)

theorem standardize_good {r : Rec} (h : r.tme.Good) (hq : r.status.halt.fromState < r.tme.tm.nStates)
    (ha : r.status.halt.fromSymbol < r.tme.tm.nSyms) :
    ∃ r', standardize r = some r' ∧ readTM r'.proto = some r'.tme.tm ∧ r'.status = r.status ∧
      r'.tme = { r.tme with tm := r.tme.tm.fill r.status.halt.fromState r.status.halt.fromSymbol (.halt 1 .R) } := by
  have h2 := h.two
  have hset := setCell_fill (h.wf.sane h.moves) hq ha (.halt 1 .R)
  obtain ⟨g1, g2⟩ := fillCell_wf h.wf h.moves r.status.halt.fromState r.status.halt.fromSymbol (i := .halt 1 .R)
    (show BTrans.WF _ _ _ by unfold BTrans.WF BTrans.ofInstr; exact ⟨by decide, by show ((1 : Nat) : Int) < _; omega, rfl⟩)
  have hgood : TMEnum.Good { r.tme with tm := r.tme.tm.fill r.status.halt.fromState r.status.halt.fromSymbol (.halt 1 .R) } :=
    ⟨g1, g2, h.states, h.syms, h.two⟩
  have hp := packTM_eq hgood.wf hgood.moves hgood.fits
  have hu := unpack_pack hgood.wf hgood.moves hgood.fits
  unfold standardize TMEnum.setHaltTrans
  have e1 : ({ cond := .halt, sym := 1, dir := 1, st := -1 } : BTrans) = BTrans.ofInstr (.halt 1 .R) := rfl
  rw [e1, hset]
  simp only [Option.map_some, Option.bind_some]
  rw [hp]
  exact ⟨_, rfl, hu, rfl, rfl⟩

noncomputable def weight (r : Rec) : Nat := 99 ^ Spec.undefCount r.tme.tm.table r.tme.tm.nStates r.tme.tm.nSyms

noncomputable def totalWeight (l : List Rec) : Nat := (l.map weight).sum

theorem totalWeight_append (l l' : List Rec) : totalWeight (l ++ l') = totalWeight l + totalWeight l' := by
  simp [totalWeight]

theorem totalWeight_cons (r : Rec) (l : List Rec) : totalWeight (r :: l) = weight r + totalWeight l := by
  simp [totalWeight]

theorem totalWeight_perm {l l' : List Rec} (h : l.Perm l') : totalWeight l = totalWeight l' := (h.map _).sum_eq

theorem weight_pos (r : Rec) : 0 < weight r := Nat.pos_of_ne_zero (by unfold weight; positivity)

theorem length_le_totalWeight (l : List Rec) : l.length ≤ totalWeight l := by
  induction l with
  | nil => simp [totalWeight]
  | cons r l ih => rw [totalWeight_cons, List.length_cons]; have := weight_pos r; omega

theorem kids_weight {r : Rec} (h : r.tme.Good) (hx : HaltsUndefined r.status r.tme) :
    totalWeight r.kids < weight r ∧ r.Handled ∧ ∀ k ∈ r.kids, k.tme.Good ∧ newRec k.tme = some k := by
  by_cases hh : r.Halted
  · obtain ⟨hq, ha, hu⟩ := hx hh.1 hh.2
    obtain ⟨es, kids, -, h2, h3, h4, h5, h6⟩ := expand_good h hq ha
    obtain ⟨r', s1, -⟩ := standardize_good h hq ha
    have hk : r.kids = kids := by simp [Rec.kids, hh, h2]
    rw [hk]
    refine ⟨?_, fun _ => by simp [h2, s1], h5⟩
    have hw : ∀ k ∈ kids, 99 * weight k ≤ weight r := by
      intro k hkk
      obtain ⟨w, d, q', he⟩ := h6 k.tme (by rw [← h3]; exact List.mem_map_of_mem hkk)
      unfold weight
      rw [he]
      simp only
      rw [sm_fill_table (h.wf.sane h.moves) hq ha]
      have hlt := Spec.undefCount_fill (n := r.tme.tm.nStates) (k := r.tme.tm.nSyms) hq ha (i := .go w d q') (by simp) hu
      have e1 : (r.tme.tm.fill r.status.halt.fromState r.status.halt.fromSymbol (.go w d q')).nStates = r.tme.tm.nStates := rfl
      have e2 : (r.tme.tm.fill r.status.halt.fromState r.status.halt.fromSymbol (.go w d q')).nSyms = r.tme.tm.nSyms := rfl
      rw [e1, e2, ← Nat.pow_succ']
      exact Nat.pow_le_pow_right (by norm_num) hlt
    have hlen : kids.length ≤ 98 := by rw [← List.length_map (f := fun k : Rec => k.tme), h3]; exact h4
    have hsum : ∀ l : List Rec, (∀ k ∈ l, 99 * weight k ≤ weight r) → 99 * totalWeight l ≤ l.length * weight r := by
      intro l hl
      induction l with
      | nil => simp [totalWeight]
      | cons k l ih =>
        rw [totalWeight_cons, List.length_cons]
        have := hl k (by simp)
        have := ih (fun x hx => hl x (by simp [hx]))
        nlinarith
    have := hsum kids hw
    have hp := weight_pos r
    nlinarith
  · have : r.kids = [] := by simp [Rec.kids, hh]
    rw [this]
    exact ⟨by simpa [totalWeight] using weight_pos r, fun x => absurd x hh, by simp⟩

theorem kids_allow {r : Rec} (h : r.tme.Good) (hx : HaltsUndefined r.status r.tme) :
    ∀ k ∈ r.kids, k.tme.allowNoHalt = r.tme.allowNoHalt := by
  intro k hk
  by_cases hh : r.Halted
  · obtain ⟨hq, ha, hu⟩ := hx hh.1 hh.2
    obtain ⟨es, kids, -, h2, h3, -, -, h6⟩ := expand_good h hq ha
    have e : r.kids = kids := by simp [Rec.kids, hh, h2]
    rw [e] at hk
    obtain ⟨w, d, q', he⟩ := h6 k.tme (by rw [← h3]; exact List.mem_map_of_mem hk)
    rw [he]
  · simp [Rec.kids, hh] at hk

theorem explores_inv {J : Type} {ch : J → Multiset J} {P : J → Prop} (hP : ∀ x, P x → ∀ k ∈ ch x, P k) {s d l : Multiset J}
    (h : Spec.Explores ch s d l) (hs : ∀ x ∈ s, P x) : ∀ x ∈ l, P x := by
  induction h with
  | stop s => exact hs
  | @take x s d l h ih =>
    apply ih
    intro y hy
    rcases Multiset.mem_add.1 hy with hy | hy
    · exact hP x (hs x (by simp)) y hy
    · exact hs y (by simp [hy])

section
variable {σ : Type} {I : QueueImpl σ Rec} {contents : σ → List Rec} {shuf : Nat → List Rec → List Rec}
  {decide : Nat → TMEnum → BBStatus}

theorem addResult_some {s : EState σ} {r : Rec} (h : r.Handled) : ∃ s', addResult I shuf s r = some s' := by
  unfold addResult
  by_cases h1 : r.status.halt.decided = true
  · by_cases h2 : r.status.halt.halting = true
    · obtain ⟨g1, g2⟩ := h ⟨h1, h2⟩
      obtain ⟨ks, hk⟩ := Option.isSome_iff_exists.1 g1
      obtain ⟨r', hr⟩ := Option.isSome_iff_exists.1 g2
      simp [h1, h2, hk, hr]
    · simp only [h1, h2, not_true_eq_false, if_false]
      by_cases h3 : r.status.quasi.decided = true
      · by_cases h4 : r.status.quasi.quasihalting = true <;> simp [h3, h4]
      · simp [h3]
  · simp [h1]

theorem enumLoop_total (hI : LawfulQueue I contents) (hs : ∀ i l, (shuf i l).Perm l) (hd : ∀ i e, HaltsUndefined (decide i e) e)
    (numEnum : Nat) : ∀ (fuel : Nat) (s : EState σ), (∀ r ∈ contents s.stack, r.tme.Good) → totalWeight (contents s.stack) < fuel →
      ∃ s', enumLoop I shuf decide numEnum fuel s = .ok s' ∧ totalWeight (contents s'.stack) ≤ totalWeight (contents s.stack)
  | 0, s, _, h => absurd h (by omega)
  | fuel + 1, s, hg, h => by
    unfold enumLoop
    split
    · exact ⟨_, rfl, le_rfl⟩
    · split
      · rename_i st hp
        obtain ⟨c1, c2⟩ := hI.pop_none s.stack (by rw [hp])
        rw [hp] at c2
        exact ⟨_, rfl, by simp only [c1, c2]; exact le_rfl⟩
      · rename_i r st hp
        have hperm := hI.pop_some s.stack r (by rw [hp])
        rw [hp] at hperm
        simp only at hperm
        have hr : r.tme.Good := hg r (hperm.mem_iff.2 (by simp))
        obtain ⟨k1, k2, k3⟩ := kids_weight (r := r.ran (decide s.tmNum r.tme)) hr (hd _ _)
        obtain ⟨s1, ha⟩ := addResult_some (I := I) (shuf := shuf) (s := { s with stack := st }) k2
        have ha' : addResult I shuf { s with stack := st } { r with status := decide s.tmNum r.tme } = some s1 := ha
        rw [ha']
        simp only
        obtain ⟨-, -, o3, -⟩ := addResult_spec hI hs ha
        simp only at o3
        have hw := totalWeight_perm hperm
        have hw' := totalWeight_perm o3
        rw [totalWeight_cons] at hw
        rw [totalWeight_append] at hw'
        have e : weight (r.ran (decide s.tmNum r.tme)) = weight r := rfl
        rw [e] at k1
        obtain ⟨s', i1, i2⟩ := enumLoop_total hI hs hd numEnum fuel s1
          (fun x hx => by
            rcases List.mem_append.1 (o3.mem_iff.1 hx) with hx | hx
            · exact (k3 x hx).1
            · exact hg x (hperm.mem_iff.2 (by simp [hx])))
          (by omega)
        exact ⟨s', i1, by omega⟩

theorem drainLoop_total (hI : LawfulQueue I contents) (hs : ∀ i l, (shuf i l).Perm l) :
    ∀ (fuel : Nat) (s : EState σ), Fresh (contents s.stack) → (contents s.stack).length < fuel →
      ∃ s', drainLoop I shuf fuel s = .ok s'
  | 0, s, _, h => absurd h (by omega)
  | fuel + 1, s, hf, h => by
    unfold drainLoop
    split
    · exact ⟨_, rfl⟩
    · rename_i r st hp
      have hperm := hI.pop_some s.stack r (by rw [hp])
      rw [hp] at hperm
      simp only at hperm
      obtain ⟨k1, -, k3⟩ := ran_empty (hf r (hperm.mem_iff.2 (by simp)))
      obtain ⟨s1, ha⟩ := addResult_some (I := I) (shuf := shuf) (s := { s with stack := st }) (r := r) (fun x => absurd x k3)
      rw [ha]
      simp only
      obtain ⟨-, -, o3, -⟩ := addResult_spec hI hs ha
      simp only [k1, List.nil_append] at o3
      have hl := hperm.length_eq
      have hl' := o3.length_eq
      rw [List.length_cons] at hl
      exact drainLoop_total hI hs fuel s1 (Fresh.perm (fun x hx => hf x (hperm.mem_iff.2 (by simp [hx]))) o3.symm) (by omega)

theorem enumMain_total (hI : LawfulQueue I contents) (hs : ∀ i l, (shuf i l).Perm l) (hd : ∀ i e, HaltsUndefined (decide i e) e)
    (numEnum fuel : Nat) : ∀ (inits : List Rec) (s : EState σ), (∀ r ∈ inits, r.tme.Good ∧ weight r < fuel) → Fresh inits →
      contents s.stack = [] → ∃ s', enumMain I shuf decide numEnum fuel inits s = .ok s'
  | [], s, _, _, _ => ⟨s, rfl⟩
  | r :: rs, s, hg, hf, hc => by
    unfold enumMain
    have hperm := hI.push s.stack r
    rw [hc] at hperm
    have hw := totalWeight_perm hperm
    rw [totalWeight_cons] at hw
    have h0 : totalWeight [] = 0 := rfl
    have hwr := (hg r (by simp)).2
    have hf' : Fresh (contents (I.push s.stack r)) :=
      Fresh.perm (fun x hx => hf x (by simp only [List.mem_singleton] at hx; simp [hx])) hperm.symm
    obtain ⟨s1, h1, h2⟩ := enumLoop_total hI hs hd numEnum fuel { s with stack := I.push s.stack r }
      (fun x hx => (hg x (by
        have := hperm.mem_iff.1 hx
        simp only [List.mem_singleton] at this
        simp [this])).1) (by simp only; omega)
    simp only at h2
    have hcont : ∃ s2, continueEnum I shuf decide numEnum fuel { s with stack := I.push s.stack r } = .ok s2 := by
      unfold continueEnum
      rw [h1]
      simp only
      split
      · obtain ⟨ran, -, -, -, -, -, i6, -⟩ := enumLoop_spec hI hs numEnum fuel _ s1 h1 hf'
        exact drainLoop_total hI hs fuel s1 i6 (by have := length_le_totalWeight (contents s1.stack); omega)
      · exact ⟨_, rfl⟩
    obtain ⟨s2, h3⟩ := hcont
    obtain ⟨-, -, -, -, -, -, -, i6, -⟩ := continueEnum_spec hI hs numEnum fuel _ s2 h3 hf'
    rw [h3]
    simp only
    exact enumMain_total hI hs hd numEnum fuel rs s2 (fun x hx => hg x (by simp [hx])) (fun x hx => hf x (by simp [hx])) i6

end

end Model.IO

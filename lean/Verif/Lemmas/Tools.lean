import Verif.Model.Tools
import Verif.Spec.Tools
import Verif.Lemmas.Permute
import Verif.Lemmas.Enumerate2
import Mathlib.Tactic.Ring
import Mathlib.Algebra.Group.Action.Defs

/-!
# Lemmas about `Zero_Reflexive.py` and `Adjacent.py`
-/

namespace Model.Tools
open Spec Model.IO Model.Permute

variable {m : SM}

theorem instr_st {t : BTrans} {n k q : Nat} (h : t.WF n k) : (q : Int) = t.st ↔ t.instr.next = some q := by
  obtain ⟨c, s, d, st⟩ := t
  unfold BTrans.WF at h
  unfold BTrans.instr
  cases c <;> simp only at h ⊢
  · simp only [Instr.next, Option.some.injEq]; omega
  · simp only [Instr.next, reduceCtorEq, iff_false]; omega
  · simp only [undefTrans, BTrans.mk.injEq, true_and] at h
    simp only [Instr.next, reduceCtorEq, iff_false]; omega

theorem zeroReflexiveLoop_eq (h : m.WF) (qs : List Nat) (hq : ∀ q ∈ qs, q < m.nStates) :
    ∃ b, zeroReflexiveLoop m qs = some b ∧
      (b = true ↔ ∃ q ∈ qs, (m.table q 0).next = some q ∨ m.table q 0 = .undef) := by
  induction qs with
  | nil => exact ⟨false, rfl, by simp⟩
  | cons q qs ih =>
    obtain ⟨b, h1, h2⟩ := ih (fun x hx => hq x (List.mem_cons_of_mem _ hx))
    have hqn := hq q (List.mem_cons_self ..)
    unfold zeroReflexiveLoop
    rw [cell_get h hqn h.syms]
    simp only
    by_cases hc : (q : Int) = (cell m q 0).st ∨ (cell m q 0).cond = .undefined
    · refine ⟨true, if_pos hc, ?_⟩
      rw [instr_st (cell_wf h hqn h.syms), ← instr_undef, ← table_cell] at hc
      simp only [true_iff]
      exact ⟨q, List.mem_cons_self .., hc⟩
    · refine ⟨b, by rw [if_neg hc, h1], ?_⟩
      rw [instr_st (cell_wf h hqn h.syms), ← instr_undef, ← table_cell] at hc
      rw [h2]
      simp [hc]

theorem zrLoop_eq (h : ∀ m ∈ ms, SM.WF m) (zr nzr : List SM) :
    zrLoop ms zr nzr = some (zr ++ ms.filter (fun m => isZeroReflexive m = some true),
      nzr ++ ms.filter (fun m => isZeroReflexive m = some false)) := by
  induction ms generalizing zr nzr with
  | nil => simp [zrLoop]
  | cons m ms ih =>
    obtain ⟨b, h1, -⟩ := zeroReflexiveLoop_eq (h m (List.mem_cons_self ..)) (List.range m.nStates) (fun q => List.mem_range.1)
    change isZeroReflexive m = some b at h1
    have ih := ih (fun x hx => h x (List.mem_cons_of_mem _ hx))
    unfold zrLoop
    rw [h1]
    cases b
    · simp only [ih]
      rw [List.filter_cons_of_neg (by simp [h1]), List.filter_cons_of_pos (by simp [h1])]
      simp
    · simp only [ih]
      rw [List.filter_cons_of_pos (by simp [h1]), List.filter_cons_of_neg (by simp [h1])]
      simp

/-! ## Adjacent machines -/

theorem ofInstr_instr {n k : Nat} {t : BTrans} (h : t.WF n k) (hd : t.dir = 0 ∨ t.dir = 1) : BTrans.ofInstr t.instr = t := by
  obtain ⟨c, s, d, st⟩ := t
  unfold BTrans.WF at h
  simp only at h hd
  cases c <;> simp only at h
  · simp only [BTrans.instr, BTrans.ofInstr, BTrans.mk.injEq, true_and]
    rcases hd with rfl | rfl <;> simp <;> omega
  · simp only [BTrans.instr, BTrans.ofInstr, BTrans.mk.injEq, true_and]
    rcases hd with rfl | rfl <;> simp <;> omega
  · rw [h]; rfl

/-- the instructions that are tried -/
def tried (n k : Nat) : List Instr :=
  (List.range n).flatMap fun q' => (List.range k).flatMap fun w => [.go w .L q', .go w .R q']

theorem newTransitions_eq (m : SM) : newTransitions m = (tried m.nStates m.nSyms).map BTrans.ofInstr := by
  unfold newTransitions tried
  simp only [List.map_flatMap]
  rfl

theorem mem_tried {n k : Nat} {i : Instr} : i ∈ tried n k ↔ ∃ w < k, ∃ d, ∃ p < n, i = .go w d p := by
  unfold tried
  simp only [List.mem_flatMap, List.mem_range, List.mem_cons, List.not_mem_nil, or_false]
  constructor
  · rintro ⟨p, hp, w, hw, rfl | rfl⟩
    · exact ⟨w, hw, .L, p, hp, rfl⟩
    · exact ⟨w, hw, .R, p, hp, rfl⟩
  · rintro ⟨w, hw, d, p, hp, rfl⟩
    exact ⟨p, hp, w, hw, by cases d <;> simp⟩

theorem nodup_tried (n k : Nat) : (tried n k).Nodup := by
  unfold tried
  rw [List.nodup_flatMap]
  refine ⟨fun q _ => ?_, ?_⟩
  · rw [List.nodup_flatMap]
    refine ⟨fun w _ => by simp, ?_⟩
    refine List.Pairwise.imp ?_ List.nodup_range
    intro w w' hne x hx hx'
    simp only [List.mem_cons, List.not_mem_nil, or_false] at hx hx'
    rcases hx with rfl | rfl <;> rcases hx' with h | h <;> simp at h <;> exact hne h
  · refine List.Pairwise.imp ?_ List.nodup_range
    intro q q' hne x hx hx'
    simp only [List.mem_flatMap, List.mem_range, List.mem_cons, List.not_mem_nil, or_false] at hx hx'
    obtain ⟨w, -, hx⟩ := hx
    obtain ⟨w', -, hx'⟩ := hx'
    rcases hx with rfl | rfl <;> rcases hx' with h | h <;> simp at h <;> exact hne h.2

theorem length_tried (n k : Nat) : (tried n k).length = 2 * n * k := by
  unfold tried
  simp only [List.length_flatMap, List.length_cons, List.length_nil, List.map_const', List.sum_replicate, List.length_range,
    smul_eq_mul]
  ring

theorem ofInstr_inj {i j : Instr} (h : BTrans.ofInstr i = BTrans.ofInstr j) : i = j := by
  have key : ∀ i : Instr, (BTrans.ofInstr i).instr = i := by
    intro i
    cases i with
    | undef => rfl
    | halt w d => cases d <;> rfl
    | go w d q => cases d <;> rfl
  rw [← key i, h, key j]

theorem transEquals_iff (t u : BTrans) : transEquals t u = true ↔ t = u := by
  obtain ⟨a, b, c, d⟩ := t
  obtain ⟨a', b', c', d'⟩ := u
  simp only [transEquals, Bool.and_eq_true, decide_eq_true_eq, BTrans.mk.injEq]
  tauto

/-- what is yielded for one cell -/
def cellResults (m : SM) (q a : Nat) : List SM :=
  if (m.table q a).next ≠ none then
    ((tried m.nStates m.nSyms).filter fun i => i ≠ m.table q a).map (m.fill q a)
  else []

theorem running_iff {t : BTrans} : t.cond = .running ↔ t.instr.next ≠ none := by
  unfold BTrans.instr
  cases t.cond <;> simp [Instr.next]

theorem enumCell_eq (h : m.WF) (hd : m.Moves) {q a : Nat} (hq : q < m.nStates) (ha : a < m.nSyms) :
    enumCell m q a = some (((tried m.nStates m.nSyms).filter fun i => i ≠ m.table q a).map (m.fill q a)) := by
  unfold enumCell
  rw [cell_get h hq ha]
  simp only [newTransitions_eq, Option.some.injEq]
  rw [List.filter_map, List.map_map]
  have e : (((fun t => !transEquals (cell m q a) t) ∘ BTrans.ofInstr : Instr → Bool)) =
      fun i => decide (i ≠ m.table q a) := by
    funext i
    rw [Bool.eq_iff_iff]
    simp only [Function.comp, Bool.not_eq_true', decide_eq_true_eq, ← Bool.not_eq_true, transEquals_iff]
    rw [not_iff_not, table_cell]
    constructor
    · intro e
      rw [← ofInstr_instr (cell_wf h hq ha) (cell_moves h hd hq ha)] at e
      exact (ofInstr_inj e).symm
    · rintro rfl
      exact (ofInstr_instr (cell_wf h hq ha) (cell_moves h hd hq ha)).symm
  rw [e]
  rfl

theorem adjacent_eq (h : m.WF) (hd : m.Moves) :
    adjacent m = some (((List.range m.nStates).flatMap fun q => (List.range m.nSyms).map fun a => (q, a)).flatMap
      fun x => cellResults m x.1 x.2) := by
  unfold adjacent
  rw [mapO_eq_some (g := fun q => ((List.range m.nSyms).map fun a => cellResults m q a).flatten)]
  · simp only [Option.map_some, Option.some.injEq]
    rw [List.flatMap_assoc, List.flatMap_def]
    simp only [List.flatMap_def, List.map_map]
    rfl
  · intro q hq
    rw [mapO_eq_some (g := fun a => cellResults m q a)]
    · rfl
    · intro a ha
      have hq := List.mem_range.1 hq
      have ha := List.mem_range.1 ha
      rw [cell_get h hq ha]
      simp only [running_iff, ← table_cell]
      unfold cellResults
      split
      · exact enumCell_eq h hd hq ha
      · rfl

theorem sm_eq_of_table {m m' : SM} (h : m.WF) (hd : m.Moves) (h' : m'.WF) (hd' : m'.Moves) (hn : m.nStates = m'.nStates)
    (hk : m.nSyms = m'.nSyms) (ht : m.table = m'.table) : m = m' := by
  apply sm_ext h h' hn hk
  intro q hq a ha
  have e := congrFun (congrFun ht q) a
  rw [table_cell, table_cell] at e
  rw [← ofInstr_instr (cell_wf h hq ha) (cell_moves h hd hq ha), e,
    ofInstr_instr (cell_wf h' (hn ▸ hq) (hk ▸ ha)) (cell_moves h' hd' (hn ▸ hq) (hk ▸ ha))]

theorem go_wf {n k w p : Nat} (d : Dir) (hw : w < k) (hp : p < n) : (BTrans.ofInstr (.go w d p)).WF n k := by
  unfold BTrans.WF
  simp only [BTrans.ofInstr]
  omega

theorem mem_adjacent (h : m.WF) (hd : m.Moves) {ms : List SM} (he : adjacent m = some ms) (m' : SM) :
    m' ∈ ms ↔ m'.WF ∧ m'.Moves ∧ m'.nStates = m.nStates ∧ m'.nSyms = m.nSyms ∧
      Adjacent m.table m'.table m.nStates m.nSyms := by
  rw [adjacent_eq h hd, Option.some.injEq] at he
  rw [← he]
  rw [List.mem_flatMap]
  simp only [mem_pairs]
  constructor
  · rintro ⟨⟨q, a⟩, ⟨hq, ha⟩, hm⟩
    simp only at hq ha hm
    unfold cellResults at hm
    split at hm
    · rename_i hr
      obtain ⟨i, hi, rfl⟩ := List.mem_map.1 hm
      rw [List.mem_filter, mem_tried, decide_eq_true_eq] at hi
      obtain ⟨⟨w, hw, d, p, hp, rfl⟩, hne⟩ := hi
      obtain ⟨g1, g2⟩ := fillCell_wf h hd q a (go_wf d hw hp)
      refine ⟨g1, g2, rfl, rfl, q, hq, a, ha, hr, ?_⟩
      rw [sm_fill_table (h.sane hd) hq ha]
      have e : Table.fill m.table q a (.go w d p) q a = .go w d p := by simp [Table.fill]
      refine ⟨⟨w, hw, d, p, hp, e⟩, by rw [e]; exact hne, fun q' a' hne => ?_⟩
      unfold Table.fill
      rw [if_neg]
      rintro ⟨rfl, rfl⟩
      exact hne rfl
    · simp at hm
  · rintro ⟨w1, w2, w3, w4, q, hq, a, ha, hr, ⟨w, hw, d, p, hp, e⟩, hne, ho⟩
    refine ⟨(q, a), ⟨hq, ha⟩, ?_⟩
    unfold cellResults
    rw [if_pos hr]
    refine List.mem_map.2 ⟨.go w d p, ?_, ?_⟩
    · rw [List.mem_filter, mem_tried, decide_eq_true_eq]
      exact ⟨⟨w, hw, d, p, hp, rfl⟩, e ▸ hne⟩
    · obtain ⟨g1, g2⟩ := fillCell_wf h hd q a (go_wf d hw hp)
      refine sm_eq_of_table g1 g2 w1 w2 w3.symm w4.symm ?_
      rw [sm_fill_table (h.sane hd) hq ha]
      funext q' a'
      unfold Table.fill
      split
      · rename_i hc
        rw [hc.1, hc.2, e]
      · rename_i hc
        exact (ho q' a' (fun x => hc (by simpa using x))).symm

theorem nodup_cellResults (h : m.WF) (hd : m.Moves) {q a : Nat} (hq : q < m.nStates) (ha : a < m.nSyms) :
    (cellResults m q a).Nodup := by
  unfold cellResults
  split
  · exact List.Nodup.map (fun i j e => fill_inj (h.sane hd) hq ha e) ((nodup_tried _ _).filter _)
  · simp

theorem nodup_adjacent (h : m.WF) (hd : m.Moves) {ms : List SM} (he : adjacent m = some ms) : ms.Nodup := by
  rw [adjacent_eq h hd, Option.some.injEq] at he
  rw [← he, List.nodup_flatMap]
  refine ⟨fun x hx => nodup_cellResults h hd (mem_pairs.1 hx).1 (mem_pairs.1 hx).2, ?_⟩
  refine List.Pairwise.imp_of_mem ?_ (nodup_pairs m.nStates m.nSyms)
  rintro ⟨q, a⟩ ⟨q', a'⟩ hx hx' hne m' hm hm'
  have hx := mem_pairs.1 hx
  have hx' := mem_pairs.1 hx'
  simp only at hx hx' hm hm'
  unfold cellResults at hm hm'
  split at hm
  · split at hm'
    · obtain ⟨i, hi, rfl⟩ := List.mem_map.1 hm
      obtain ⟨j, hj, e⟩ := List.mem_map.1 hm'
      rw [List.mem_filter, decide_eq_true_eq] at hi
      have e := congrArg SM.table e
      rw [sm_fill_table (h.sane hd) hx.1 hx.2, sm_fill_table (h.sane hd) hx'.1 hx'.2] at e
      have e := congrFun (congrFun e q) a
      unfold Table.fill at e
      rw [if_neg (by rintro ⟨h1, h2⟩; exact hne (by rw [h1, h2])), if_pos ⟨rfl, rfl⟩] at e
      exact hi.2 e.symm
    · simp at hm'
  · simp at hm

theorem length_cellResults (h : m.WF) (hd : m.Moves) {q a : Nat} (hq : q < m.nStates) (ha : a < m.nSyms) :
    (cellResults m q a).length = if (m.table q a).next ≠ none then 2 * m.nStates * m.nSyms - 1 else 0 := by
  unfold cellResults
  split
  · rename_i hr
    rw [List.length_map]
    have hmem : m.table q a ∈ tried m.nStates m.nSyms := by
      rw [mem_tried, table_cell]
      have hw := cell_wf h hq ha
      rw [table_cell, ← running_iff] at hr
      unfold BTrans.WF at hw
      rw [hr] at hw
      simp only at hw
      unfold BTrans.instr
      rw [hr]
      refine ⟨_, ?_, _, _, ?_, rfl⟩ <;> omega
    have := List.length_erase_of_mem hmem
    rw [(nodup_tried _ _).erase_eq_filter, length_tried] at this
    rw [← this]
    congr 2
    funext i
    simp [bne, beq_eq_decide]
  · rfl

theorem length_adjacent (h : m.WF) (hd : m.Moves) {ms : List SM} (he : adjacent m = some ms) :
    ms.length = runningCells m.table m.nStates m.nSyms * (2 * m.nStates * m.nSyms - 1) := by
  rw [adjacent_eq h hd, Option.some.injEq] at he
  rw [← he, List.length_flatMap]
  have e : (((List.range m.nStates).flatMap fun q => (List.range m.nSyms).map fun a => (q, a)).map
      fun x => (cellResults m x.1 x.2).length) =
      ((List.range m.nStates).flatMap fun q => (List.range m.nSyms).map fun a => (q, a)).map
        fun x => if (m.table x.1 x.2).next ≠ none then 2 * m.nStates * m.nSyms - 1 else 0 :=
    List.map_congr_left fun x hx => length_cellResults h hd (mem_pairs.1 hx).1 (mem_pairs.1 hx).2
  rw [e, ← List.sum_toFinset _ (nodup_pairs _ _)]
  have e2 : ((List.range m.nStates).flatMap fun q => (List.range m.nSyms).map fun a => (q, a)).toFinset =
      Finset.range m.nStates ×ˢ Finset.range m.nSyms := by
    ext x
    rw [List.mem_toFinset, mem_pairs, Finset.mem_product, Finset.mem_range, Finset.mem_range]
  rw [e2, ← Finset.sum_filter, Finset.sum_const, smul_eq_mul]
  rfl

end Model.Tools

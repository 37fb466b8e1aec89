import Verif.Model.Permute
import Verif.Lemmas.Enum
import Verif.Lemmas.Rename

/-!
# Lemmas about `permute_table`
-/

set_option linter.unusedSectionVars false

namespace Spec

/-- The renaming that gives old state `so[i]` the new number `i`, and old symbol `syo[j]` the number `j`. -/
def Renaming.ofOrders {n k : Nat} (so syo : List Nat) (swap : Bool) (hso : so.Perm (List.range n))
    (hsyo : syo.Perm (List.range k)) : Renaming n k where
  st := fun q => so.idxOf q
  sy := fun a => syo.idxOf a
  mirror := swap
  st_lt := fun q hq => by
    have := List.idxOf_lt_length_of_mem (hso.mem_iff.2 (List.mem_range.2 hq))
    rwa [hso.length_eq, List.length_range] at this
  st_inj := fun q hq q' _ h => List.idxOf_inj (hso.mem_iff.2 (List.mem_range.2 hq)) |>.1 h
  sy_lt := fun a ha => by
    have := List.idxOf_lt_length_of_mem (hsyo.mem_iff.2 (List.mem_range.2 ha))
    rwa [hsyo.length_eq, List.length_range] at this
  sy_inj := fun a ha a' _ h => List.idxOf_inj (hsyo.mem_iff.2 (List.mem_range.2 ha)) |>.1 h

end Spec

namespace Model.Permute
open Spec (Dir Instr Table Renaming Renamed)
open Model.IO

theorem enumModify_eq {α β : Type} {f : α → β → Option β} {g : α → β} (xs : List α) :
    ∀ (i : Nat) (l : List β), i + xs.length = l.length → (∀ x ∈ xs, ∀ (b : β), (∃ j ≥ i, l[j]? = some b) → f x b = some (g x)) →
      enumModify f i xs l = some (l.take i ++ xs.map g) := by
  induction xs with
  | nil =>
    intro i l h _
    simp only [List.length_nil, Nat.add_zero] at h
    simp [enumModify, h]
  | cons x xs ih =>
    intro i l h hf
    simp only [List.length_cons] at h
    have hi : i < l.length := by omega
    unfold enumModify
    rw [List.getElem?_eq_getElem hi]
    simp only
    rw [hf x (by simp) _ ⟨i, le_refl _, List.getElem?_eq_getElem hi⟩]
    simp only
    rw [ih (i + 1) _ (by rw [List.length_set]; omega)]
    · rw [List.take_add_one, List.getElem?_set_self hi, List.take_set_of_le (Nat.le_refl i)]
      simp
    · intro y hy b ⟨j, hj, hb⟩
      refine hf y (List.mem_cons_of_mem _ hy) b ⟨j, by omega, ?_⟩
      rw [List.getElem?_set_ne (by omega)] at hb
      exact hb

theorem old2new_eq {order : List Nat} (hn : order.Nodup) {x : Nat} (hx : x ∈ order) :
    old2new order (x : Int) = some (order.idxOf x) := by
  unfold old2new
  have hlt := List.idxOf_lt_length_of_mem hx
  have hget : order[order.idxOf x] = x := List.getElem_idxOf hlt
  cases hf : (order.zipIdx.reverse).find? fun p => decide ((p.1 : Int) = (x : Int)) with
  | none =>
    rw [List.find?_eq_none] at hf
    have := hf (x, order.idxOf x) (by
      rw [List.mem_reverse, List.mem_zipIdx_iff_getElem?]
      rw [List.getElem?_eq_getElem hlt, hget])
    simp at this
  | some p =>
    have h1 := List.find?_some hf
    have h2 := List.mem_of_find?_eq_some hf
    rw [List.mem_reverse, List.mem_zipIdx_iff_getElem?] at h2
    simp only [decide_eq_true_eq, Int.natCast_inj] at h1
    simp only [Option.map_some, Option.some.injEq]
    rw [h1] at h2
    obtain ⟨h3, h4⟩ := List.getElem?_eq_some_iff.1 h2
    exact (List.nodup_iff_injective_getElem.1 hn (a₁ := ⟨p.2, h3⟩) (a₂ := ⟨order.idxOf x, hlt⟩) (by
      show order[p.2] = order[order.idxOf x]
      rw [h4, hget])) |> Fin.mk.inj_iff.1

/-- the transition object in a cell -/
def cell (m : SM) (q a : Nat) : BTrans := ((m.rows[q]?).bind (·[a]?)).getD undefTrans

theorem table_cell {m : SM} (q a : Nat) : m.table q a = (cell m q a).instr := by
  unfold SM.table cell
  cases (m.rows[q]?).bind (·[a]?) <;> rfl

theorem cell_get {m : SM} (h : m.WF) {q a : Nat} (hq : q < m.nStates) (ha : a < m.nSyms) :
    (m.rows[q]?).bind (·[a]?) = some (cell m q a) := by
  have hq' : q < m.rows.length := by rw [h.height]; exact hq
  have hr := List.getElem_mem hq'
  have ha' : a < m.rows[q].length := by rw [h.width _ hr]; exact ha
  unfold cell
  rw [List.getElem?_eq_getElem hq', Option.bind_some, List.getElem?_eq_getElem ha']
  rfl

theorem cell_mem {m : SM} (h : m.WF) {q a : Nat} (hq : q < m.nStates) (ha : a < m.nSyms) :
    ∃ r ∈ m.rows, cell m q a ∈ r := by
  have := cell_get h hq ha
  rw [Option.bind_eq_some_iff] at this
  obtain ⟨r, h1, h2⟩ := this
  exact ⟨r, List.mem_of_getElem? h1, List.mem_of_getElem? h2⟩

theorem cell_wf {m : SM} (h : m.WF) {q a : Nat} (hq : q < m.nStates) (ha : a < m.nSyms) :
    (cell m q a).WF m.nStates m.nSyms := by
  obtain ⟨r, h1, h2⟩ := cell_mem h hq ha
  exact h.cells r h1 _ h2

theorem cell_moves {m : SM} (h : m.WF) (hd : m.Moves) {q a : Nat} (hq : q < m.nStates) (ha : a < m.nSyms) :
    (cell m q a).dir = 0 ∨ (cell m q a).dir = 1 := by
  obtain ⟨r, h1, h2⟩ := cell_mem h hq ha
  exact hd r h1 _ h2

/-- the rows of a machine are determined by its cells -/
theorem rows_eq {m : SM} (h : m.WF) :
    m.rows = (List.range m.nStates).map fun q => (List.range m.nSyms).map fun a => cell m q a := by
  apply List.ext_getElem
  · rw [h.height]; simp
  · intro q h1 h2
    rw [List.getElem_map, List.getElem_range]
    have hr := List.getElem_mem h1
    apply List.ext_getElem
    · rw [h.width _ hr]; simp
    · intro a h3 h4
      rw [List.getElem_map, List.getElem_range]
      unfold cell
      rw [List.getElem?_eq_getElem h1, Option.bind_some, List.getElem?_eq_getElem h3]
      rfl

theorem sm_ext {m m' : SM} (h : m.WF) (h' : m'.WF) (hn : m.nStates = m'.nStates) (hk : m.nSyms = m'.nSyms)
    (hc : ∀ q < m.nStates, ∀ a < m.nSyms, cell m q a = cell m' q a) : m = m' := by
  have h1 := rows_eq h
  have h2 := rows_eq h'
  rw [← hn, ← hk] at h2
  have : m.rows = m'.rows := by
    rw [h1, h2]
    apply List.map_congr_left
    intro q hq
    apply List.map_congr_left
    intro a ha
    exact hc q (List.mem_range.1 hq) a (List.mem_range.1 ha)
  obtain ⟨r, n, k⟩ := m
  obtain ⟨r', n', k'⟩ := m'
  simp only at hn hk this
  rw [hn, hk, this]

/-- the transition that `permute_table` writes -/
def newTrans (so syo : List Nat) (swap : Bool) (t : BTrans) : BTrans :=
  match t.cond with
  | .running => { cond := .running, sym := (syo.idxOf t.sym.toNat : Nat), dir := if swap then 1 - t.dir else t.dir,
                  st := (so.idxOf t.st.toNat : Nat) }
  | c => { cond := c, sym := 1, dir := 1, st := -1 }

theorem permuteTrans_eq {n k : Nat} {so syo : List Nat} (hso : so.Perm (List.range n)) (hsyo : syo.Perm (List.range k))
    (swap : Bool) {t : BTrans} (hw : t.WF n k) (hd : t.dir = 0 ∨ t.dir = 1) :
    permuteTrans so syo swap t = some (newTrans so syo swap t) := by
  obtain ⟨c, s, d, q⟩ := t
  unfold permuteTrans newTrans
  unfold BTrans.WF at hw
  simp only at hd
  cases c with
  | running =>
    simp only at hw ⊢
    obtain ⟨h1, h2, h3, h4⟩ := hw
    have e1 : old2new syo s = some (syo.idxOf s.toNat) := by
      have := old2new_eq (hsyo.nodup_iff.2 List.nodup_range) (x := s.toNat) (hsyo.mem_iff.2 (List.mem_range.2 (by omega)))
      rwa [Int.toNat_of_nonneg h1] at this
    have e2 : old2new so q = some (so.idxOf q.toNat) := by
      have := old2new_eq (hso.nodup_iff.2 List.nodup_range) (x := q.toNat) (hso.mem_iff.2 (List.mem_range.2 (by omega)))
      rwa [Int.toNat_of_nonneg h3] at this
    have e3 : (if swap then otherDir d else some d) = some (if swap then 1 - d else d) := by
      cases swap
      · rfl
      · rcases hd with rfl | rfl <;> rfl
    rw [e1, e2, e3]
  | halt => rfl
  | undefined => rfl

/-- `permute_table` succeeds, and this is the result. -/
theorem permuteTable_eq {m : SM} (h : m.WF) (hd : m.Moves) {so syo : List Nat} (hso : so.Perm (List.range m.nStates))
    (hsyo : syo.Perm (List.range m.nSyms)) (swap : Bool) :
    permuteTable m so syo swap = some { m with rows := so.map fun q => syo.map fun a => newTrans so syo swap (cell m q a) } := by
  unfold permuteTable
  rw [enumModify_eq (g := fun q => syo.map fun a => newTrans so syo swap (cell m q a))]
  · simp
  · rw [hso.length_eq, h.height]; simp
  · intro q hq row ⟨j, _, hj⟩
    have hq' := List.mem_range.1 (hso.mem_iff.1 hq)
    unfold permuteRow
    rw [enumModify_eq (g := fun a => newTrans so syo swap (cell m q a))]
    · simp
    · rw [hsyo.length_eq, h.width row (List.mem_of_getElem? hj)]; simp
    · intro a ha b _
      have ha' := List.mem_range.1 (hsyo.mem_iff.1 ha)
      rw [cell_get h hq' ha', Option.bind_some]
      exact permuteTrans_eq hso hsyo swap (cell_wf h hq' ha') (cell_moves h hd hq' ha')

theorem newTrans_wf {n k : Nat} (hk : 1 < k) {so syo : List Nat} (hso : so.Perm (List.range n)) (hsyo : syo.Perm (List.range k))
    (swap : Bool) {t : BTrans} (hw : t.WF n k) (hd : t.dir = 0 ∨ t.dir = 1) :
    (newTrans so syo swap t).WF n k ∧ ((newTrans so syo swap t).dir = 0 ∨ (newTrans so syo swap t).dir = 1) := by
  obtain ⟨c, s, d, q⟩ := t
  unfold newTrans
  unfold BTrans.WF at hw ⊢
  simp only at hd
  cases c with
  | running =>
    simp only at hw ⊢
    obtain ⟨h1, h2, h3, h4⟩ := hw
    have e1 := List.idxOf_lt_length_of_mem (hsyo.mem_iff.2 (List.mem_range.2 (show s.toNat < k by omega)))
    have e2 := List.idxOf_lt_length_of_mem (hso.mem_iff.2 (List.mem_range.2 (show q.toNat < n by omega)))
    rw [hsyo.length_eq, List.length_range] at e1
    rw [hso.length_eq, List.length_range] at e2
    refine ⟨⟨by omega, by omega, by omega, by omega⟩, ?_⟩
    cases swap
    · simpa using hd
    · simp only [if_true]; omega
  | halt =>
    refine ⟨⟨Int.zero_le_ofNat 1, ?_, rfl⟩, Or.inr rfl⟩
    show (1 : Int) < k
    omega
  | undefined => exact ⟨rfl, Or.inr rfl⟩

theorem newTrans_instr {n k : Nat} {so syo : List Nat} (hso : so.Perm (List.range n)) (hsyo : syo.Perm (List.range k))
    (swap : Bool) {t : BTrans} (hd : t.dir = 0 ∨ t.dir = 1) :
    (newTrans so syo swap t).instr = ((Renaming.ofOrders so syo swap hso hsyo).instr t.instr).std := by
  obtain ⟨c, s, d, q⟩ := t
  unfold newTrans BTrans.instr Renaming.instr Instr.std Renaming.dir Renaming.ofOrders
  simp only at hd
  cases c with
  | running =>
    rcases hd with rfl | rfl <;> cases swap <;> simp [Dir.other]
  | halt => rfl
  | undefined => rfl

/-- the permuted machine -/
def permuted (m : SM) (so syo : List Nat) (swap : Bool) : SM :=
  { m with rows := so.map fun q => syo.map fun a => newTrans so syo swap (cell m q a) }

variable {m : SM} {so syo : List Nat} {swap : Bool}

theorem permuted_cell (hso : so.Perm (List.range m.nStates)) (hsyo : syo.Perm (List.range m.nSyms)) {i j : Nat}
    (hi : i < m.nStates) (hj : j < m.nSyms) :
    cell (permuted m so syo swap) i j = newTrans so syo swap (cell m (so.getD i 0) (syo.getD j 0)) := by
  have h1 : i < so.length := by rw [hso.length_eq, List.length_range]; exact hi
  have h2 : j < syo.length := by rw [hsyo.length_eq, List.length_range]; exact hj
  conv_lhs => unfold cell permuted
  simp [h1, h2]

theorem permuted_wf (h : m.WF) (hd : m.Moves) (hk : 1 < m.nSyms) (hso : so.Perm (List.range m.nStates))
    (hsyo : syo.Perm (List.range m.nSyms)) : (permuted m so syo swap).WF ∧ (permuted m so syo swap).Moves := by
  have key : ∀ r ∈ (permuted m so syo swap).rows, r.length = m.nSyms ∧
      ∀ t ∈ r, t.WF m.nStates m.nSyms ∧ (t.dir = 0 ∨ t.dir = 1) := by
    intro r hr
    unfold permuted at hr
    simp only [List.mem_map] at hr
    obtain ⟨q, hq, rfl⟩ := hr
    have hq' := List.mem_range.1 (hso.mem_iff.1 hq)
    refine ⟨by rw [List.length_map, hsyo.length_eq, List.length_range], ?_⟩
    intro t ht
    simp only [List.mem_map] at ht
    obtain ⟨a, ha, rfl⟩ := ht
    have ha' := List.mem_range.1 (hsyo.mem_iff.1 ha)
    exact newTrans_wf hk hso hsyo swap (cell_wf h hq' ha') (cell_moves h hd hq' ha')
  refine ⟨⟨h.states, h.syms, ?_, fun r hr => (key r hr).1, fun r hr t ht => ((key r hr).2 t ht).1⟩,
    fun r hr t ht => ((key r hr).2 t ht).2⟩
  show (so.map _).length = m.nStates
  rw [List.length_map, hso.length_eq, List.length_range]

theorem permuted_renamed (h : m.WF) (hd : m.Moves) (hso : so.Perm (List.range m.nStates))
    (hsyo : syo.Perm (List.range m.nSyms)) :
    Renamed (Renaming.ofOrders so syo swap hso hsyo) m.table (permuted m so syo swap).table := by
  intro q hq a ha
  have e1 := (Renaming.ofOrders so syo swap hso hsyo).st_lt q hq
  have e2 := (Renaming.ofOrders so syo swap hso hsyo).sy_lt a ha
  rw [table_cell, table_cell, permuted_cell hso hsyo e1 e2]
  have h1 : so.getD ((Renaming.ofOrders so syo swap hso hsyo).st q) 0 = q := by
    have := List.idxOf_lt_length_of_mem (hso.mem_iff.2 (List.mem_range.2 hq))
    show so.getD (so.idxOf q) 0 = q
    simp [this]
  have h2 : syo.getD ((Renaming.ofOrders so syo swap hso hsyo).sy a) 0 = a := by
    have := List.idxOf_lt_length_of_mem (hsyo.mem_iff.2 (List.mem_range.2 ha))
    show syo.getD (syo.idxOf a) 0 = a
    simp [this]
  rw [h1, h2]
  exact newTrans_instr hso hsyo swap (cell_moves h hd hq ha)

end Model.Permute

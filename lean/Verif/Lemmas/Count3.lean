import Verif.Model.Tools
import Verif.Lemmas.Tools
import Verif.Lemmas.Count2
import Mathlib.Data.Nat.Factorial.Basic
import Mathlib.Tactic.Ring
import Mathlib.Tactic.Push

/-!
# Lemmas about `Count.py`
-/

namespace Model.Tools
open Spec Spec.Count Model.IO Model.Permute

variable {m : SM}

theorem fact2Loop_eq (d n : Nat) (h : d ≤ n) : fact2Loop d n = (n.descFactorial d : Nat) := by
  induction d generalizing n with
  | zero => simp [fact2Loop]
  | succ d ih =>
    obtain ⟨n, rfl⟩ : ∃ n', n = n' + 1 := ⟨n - 1, by omega⟩
    unfold fact2Loop
    have e : ((n + 1 : Nat) : Int) - 1 = n := by omega
    rw [e, ih n (by omega), Nat.succ_descFactorial_succ]
    push_cast
    rfl

theorem fact2_eq {n s : Nat} (h1 : 1 ≤ s) (h2 : s < n) : fact2 ((n : Int) - 2) (n - ((s : Int) + 1)) =
    some (((n - 2).descFactorial (s - 1) : Nat) : Int) := by
  unfold fact2
  rw [if_pos (by omega), ← fact2Loop_eq _ _ (by omega)]
  have e1 : ((n : Int) - 2 - (n - ((s : Int) + 1))).toNat = s - 1 := by omega
  have e2 : (n : Int) - 2 = ((n - 2 : Nat) : Int) := by omega
  rw [e1, e2]

theorem foldl_count (l : List BTrans) (s : CountSt) :
    (l.foldl CountSt.add s).numUndefs = s.numUndefs + (l.filter (·.cond = .undefined)).length ∧
    ((l.foldl CountSt.add s).hasHalt = true ↔ s.hasHalt = true ∨ ∃ t ∈ l, t.cond = .halt) ∧
    (∀ x : Int, x ≤ (l.foldl CountSt.add s).maxState ↔ x ≤ s.maxState ∨ ∃ t ∈ l, t.cond = .running ∧ x ≤ t.st) ∧
    (∀ x : Int, x ≤ (l.foldl CountSt.add s).maxSymbol ↔ x ≤ s.maxSymbol ∨ ∃ t ∈ l, t.cond = .running ∧ x ≤ t.sym) := by
  induction l generalizing s with
  | nil => simp
  | cons t l ih =>
    rw [List.foldl_cons]
    obtain ⟨h1, h2, h3, h4⟩ := ih (s.add t)
    rw [h1, h2]
    simp only [h3, h4, List.mem_cons]
    unfold CountSt.add
    cases hc : t.cond with
    | undefined =>
      simp only [List.filter_cons, hc, decide_true, if_true, List.length_cons]
      refine ⟨by omega, ?_, fun x => ?_, fun x => ?_⟩
      · simp [hc]
      · simp [hc]
      · simp [hc]
    | halt =>
      simp only [List.filter_cons, hc, reduceCtorEq, decide_false, Bool.false_eq_true, if_false]
      refine ⟨trivial, ?_, fun x => ?_, fun x => ?_⟩
      · simp [hc]
      · simp [hc]
      · simp [hc]
    | running =>
      simp only [List.filter_cons, hc, reduceCtorEq, decide_false, Bool.false_eq_true, if_false]
      refine ⟨trivial, ?_, fun x => ?_, fun x => ?_⟩
      · simp [hc]
      · simp [hc, or_assoc]
      · simp [hc, or_assoc]

theorem sane_fits_wf (h : m.WF) : Fits m.table m.nStates m.nSyms := by
  intro q hq a ha
  have hw := cell_wf h hq ha
  rw [table_cell]
  unfold BTrans.WF at hw
  unfold BTrans.instr
  cases hc : (cell m q a).cond <;> rw [hc] at hw <;> simp only at hw ⊢ <;> omega

/-- some cell halts -/
def HasHalt (P : Table) (n k : Nat) : Prop := ∃ q < n, ∃ a < k, (P q a).halts = true

theorem cells_pairs (h : m.WF) : m.cells =
    some (((List.range m.nStates).flatMap fun q => (List.range m.nSyms).map fun a => (q, a)).map fun x => cell m x.1 x.2) := by
  rw [cells_eq h]
  congr 1
  conv_lhs => rw [rows_eq h]
  rw [List.map_flatMap, List.flatMap_def]
  simp only [List.map_map]
  rfl

theorem mem_cells_iff (p : BTrans → Prop) :
    (∃ t ∈ ((List.range m.nStates).flatMap fun q => (List.range m.nSyms).map fun a => (q, a)).map fun x => cell m x.1 x.2, p t) ↔
      ∃ q < m.nStates, ∃ a < m.nSyms, p (cell m q a) := by
  constructor
  · rintro ⟨t, ht, hp⟩
    obtain ⟨x, hx, rfl⟩ := List.mem_map.1 ht
    exact ⟨x.1, (mem_pairs.1 hx).1, x.2, (mem_pairs.1 hx).2, hp⟩
  · rintro ⟨q, hq, a, ha, hp⟩
    exact ⟨_, List.mem_map.2 ⟨(q, a), mem_pairs.2 ⟨hq, ha⟩, rfl⟩, hp⟩

theorem halt_iff {t : BTrans} : t.cond = .halt ↔ t.instr.halts = true := by
  unfold BTrans.instr
  cases t.cond <;> simp [Instr.halts]

theorem undCells_list (T : Table) (n k : Nat) : undCells T n k =
    (((List.range n).flatMap fun q => (List.range k).map fun a => (q, a)).filter fun x => T x.1 x.2 = .undef).length := by
  unfold undCells
  rw [← List.toFinset_card_of_nodup ((nodup_pairs n k).filter _)]
  apply Finset.card_bij (fun x _ => ((x.1 : Nat), (x.2 : Nat)))
  · rintro ⟨q, a⟩ h
    simp only [Finset.mem_filter, Finset.mem_univ, true_and] at h
    rw [List.mem_toFinset, List.mem_filter, mem_pairs, decide_eq_true_eq]
    exact ⟨⟨q.2, a.2⟩, h⟩
  · rintro ⟨q, a⟩ - ⟨q', a'⟩ - h
    simp only [Prod.mk.injEq] at h
    exact Prod.ext (Fin.ext h.1) (Fin.ext h.2)
  · rintro ⟨q, a⟩ h
    rw [List.mem_toFinset, List.mem_filter, mem_pairs, decide_eq_true_eq] at h
    exact ⟨(⟨q, h.1.1⟩, ⟨a, h.1.2⟩), by simpa using h.2, rfl⟩

theorem running_cell (h : m.WF) {q a : Nat} (hq : q < m.nStates) (ha : a < m.nSyms) (hr : (cell m q a).cond = .running) :
    ∃ x d p : Nat, ∃ d : Dir, m.table q a = .go x d p ∧ (cell m q a).sym = x ∧ (cell m q a).st = p := by
  have hw := cell_wf h hq ha
  rw [table_cell]
  unfold BTrans.WF at hw
  rw [hr] at hw
  simp only at hw
  unfold BTrans.instr
  rw [hr]
  exact ⟨_, 0, _, _, rfl, by omega, by omega⟩

theorem go_cell (h : m.WF) {q a x p : Nat} {d : Dir} (hq : q < m.nStates) (ha : a < m.nSyms) (e : m.table q a = .go x d p) :
    (cell m q a).cond = .running ∧ (cell m q a).sym = x ∧ (cell m q a).st = p := by
  have hr : (cell m q a).cond = .running := by rw [running_iff, ← table_cell, e]; simp [Instr.next]
  obtain ⟨x', -, p', d', e', h1, h2⟩ := running_cell h hq ha hr
  rw [e] at e'
  simp only [Instr.go.injEq] at e'
  obtain ⟨rfl, rfl, rfl⟩ := e'
  exact ⟨hr, h1, h2⟩

open Classical in
/-- what is computed, in terms of the table -/
theorem count_eq (h : m.WF) {s w : Nat} (hm : Maxes m.table m.nStates m.nSyms s w) (hs : 1 ≤ s) (hw : 1 ≤ w) (allow : Bool) :
    count m allow = some (((m.nSyms - 2).descFactorial (w - 1) : Nat) * ((m.nStates - 2).descFactorial (s - 1) : Nat) *
      countMult m.nStates m.nSyms (decide (HasHalt m.table m.nStates m.nSyms)) allow (undCells m.table m.nStates m.nSyms)) := by
  have hsn : s < m.nStates := by
    obtain ⟨q, hq, a, ha, x, d, e⟩ := hm.st
    have := sane_fits_wf h q hq a ha
    rw [e] at this
    exact this.2
  have hwk : w < m.nSyms := by
    obtain ⟨q, hq, a, ha, x, d, e⟩ := hm.sy
    have := sane_fits_wf h q hq a ha
    rw [e] at this
    exact this.1
  unfold count
  rw [cells_pairs h]
  simp only
  obtain ⟨h1, h2, h3, h4⟩ := foldl_count (((List.range m.nStates).flatMap fun q => (List.range m.nSyms).map fun a => (q, a)).map
    fun x => cell m x.1 x.2) { numUndefs := 0, hasHalt := false, maxSymbol := 0, maxState := 0 }
  generalize (List.foldl CountSt.add _ _) = r at h1 h2 h3 h4 ⊢
  have e1 : r.numUndefs = undCells m.table m.nStates m.nSyms := by
    rw [h1, undCells_list, List.filter_map, List.length_map]
    simp only [Nat.zero_add]
    congr 2
    funext x
    simp only [Function.comp]
    rw [Bool.eq_iff_iff, decide_eq_true_eq, decide_eq_true_eq, table_cell, instr_undef]
  have e2 : r.hasHalt = decide (HasHalt m.table m.nStates m.nSyms) := by
    rw [Bool.eq_iff_iff, decide_eq_true_eq, h2, mem_cells_iff]
    simp only [Bool.false_eq_true, false_or, HasHalt, halt_iff, ← table_cell]
  have e3 : r.maxState = s := by
    apply le_antisymm
    · rcases (h3 r.maxState).1 (le_refl _) with hle | hle
      · simp only at hle; omega
      · rw [mem_cells_iff (fun t => t.cond = .running ∧ r.maxState ≤ t.st)] at hle
        obtain ⟨q, hq, a, ha, hr, hle⟩ := hle
        obtain ⟨x, -, p, d, e, -, e'⟩ := running_cell h hq ha hr
        have := (hm.le q hq a ha _ _ _ e).1
        omega
    · rw [h3, mem_cells_iff (fun t => t.cond = .running ∧ (s : Int) ≤ t.st)]
      obtain ⟨q, hq, a, ha, x, d, e⟩ := hm.st
      obtain ⟨g1, g2, g3⟩ := go_cell h hq ha e
      exact Or.inr ⟨q, hq, a, ha, g1, by omega⟩
  have e4 : r.maxSymbol = w := by
    apply le_antisymm
    · rcases (h4 r.maxSymbol).1 (le_refl _) with hle | hle
      · simp only at hle; omega
      · rw [mem_cells_iff (fun t => t.cond = .running ∧ r.maxSymbol ≤ t.sym)] at hle
        obtain ⟨q, hq, a, ha, hr, hle⟩ := hle
        obtain ⟨x, -, p, d, e, e', -⟩ := running_cell h hq ha hr
        have := (hm.le q hq a ha _ _ _ e).2
        omega
    · rw [h4, mem_cells_iff (fun t => t.cond = .running ∧ (w : Int) ≤ t.sym)]
      obtain ⟨q, hq, a, ha, d, p, e⟩ := hm.sy
      obtain ⟨g1, g2, g3⟩ := go_cell h hq ha e
      exact Or.inr ⟨q, hq, a, ha, g1, by omega⟩
  rw [e1, e2, e3, e4, fact2_eq hs hsn, fact2_eq hw hwk]

theorem hasHalt_iff {P : Table} {n k : Nat} (h : haltCells P n k ≤ 1) : HasHalt P n k ↔ haltCells P n k = 1 := by
  have : HasHalt P n k ↔ 0 < haltCells P n k := by
    unfold haltCells HasHalt
    rw [Finset.card_pos]
    constructor
    · rintro ⟨q, hq, a, ha, e⟩
      exact ⟨(q, a), by simp [hq, ha, e]⟩
    · rintro ⟨⟨q, a⟩, hx⟩
      simp only [Finset.mem_filter, Finset.mem_product, Finset.mem_range] at hx
      exact ⟨q, hx.1.1, a, hx.1.2, hx.2⟩
  rw [this]
  omega

open Classical in
theorem countMult_eq {P : Table} {n k : Nat} (h : haltCells P n k ≤ 1) (d : Nat) (allow : Bool) :
    countMult n k (decide (HasHalt P n k)) allow d = (mult n k (haltCells P n k) d allow : Nat) := by
  unfold countMult mult
  simp only [decide_eq_true_eq, hasHalt_iff h]
  split
  · push_cast; rfl
  · by_cases hd : d ≥ 1
    · rw [if_pos hd]
      split <;> push_cast <;> rfl
    · have : d = 0 := by omega
      subst this
      split <;> simp

/-- a table with some transition has maxima -/
theorem exists_maxes {P : Table} {n k : Nat} (h0 : 0 < n) (h1 : 0 < k) (hst : ∃ x d p, P 0 0 = .go x d p) : ∃ s w, Maxes P n k s w := by
  classical
  obtain ⟨x0, d0, p0, e0⟩ := hst
  let G := ((Finset.range n ×ˢ Finset.range k).filter fun x => (P x.1 x.2).next ≠ none)
  have hG : G.Nonempty := ⟨(0, 0), by
    simp only [G, Finset.mem_filter, Finset.mem_product, Finset.mem_range]
    exact ⟨⟨h0, h1⟩, by rw [e0]; simp [Instr.next]⟩⟩
  obtain ⟨y, hy, hy'⟩ := Finset.exists_max_image G (fun x => ((P x.1 x.2).next.getD 0)) hG
  obtain ⟨z, hz, hz'⟩ := Finset.exists_max_image G (fun x => (P x.1 x.2).write) hG
  have mem : ∀ q a, (q, a) ∈ G ↔ q < n ∧ a < k ∧ ∃ x d p, P q a = .go x d p := by
    intro q a
    simp only [G, Finset.mem_filter, Finset.mem_product, Finset.mem_range, and_assoc]
    refine and_congr_right fun _ => and_congr_right fun _ => ?_
    cases P q a <;> simp [Instr.next]
  obtain ⟨yq, ya⟩ := y
  obtain ⟨zq, za⟩ := z
  obtain ⟨y1, y2, x, d, p, ey⟩ := (mem _ _).1 hy
  obtain ⟨z1, z2, x', d', p', ez⟩ := (mem _ _).1 hz
  refine ⟨p, x', ⟨fun q hq a ha u v r e => ?_, ⟨yq, y1, ya, y2, x, d, ey⟩, ⟨zq, z1, za, z2, d', p', ez⟩⟩⟩
  have a1 := hy' (q, a) ((mem q a).2 ⟨hq, ha, u, v, r, e⟩)
  have a2 := hz' (q, a) ((mem q a).2 ⟨hq, ha, u, v, r, e⟩)
  simp only [e, ey, ez, Instr.next, Instr.write, Option.getD_some] at a1 a2
  exact ⟨a1, a2⟩

theorem count_represented (h : m.WF) (hP : TreeMachine m.table m.nStates m.nSyms) (allow : Bool) :
    count m allow = some ((represented m.table m.nStates m.nSyms allow).ncard : Int) := by
  obtain ⟨s, w, hm⟩ := exists_maxes h.states h.syms ⟨_, _, _, hP.start⟩
  have hf := sane_fits_wf h
  obtain ⟨b1, b2, b3, b4⟩ := bounds hf hP hm
  rw [count_eq h hm b1 b3, represented_card hf hP hm, countMult_eq hP.oneHalt]
  push_cast
  congr 2
  ring

end Model.Tools

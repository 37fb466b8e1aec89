import Verif.Model.Direct
import Verif.Lemmas.TM
import Mathlib.Tactic.Ring
import Mathlib.Data.Finset.Card
import Mathlib.Data.List.Count
import Mathlib.Data.Finset.Range

/-! Abstraction of the buffer tape to a function on the integers. -/

namespace Model.DirectTape
open Spec (Dir)
variable {α : Type}

/-- Entry number `i` of the buffer, `d` outside. -/
def cell (l : List α) (d : α) (i : Int) : α := if 0 ≤ i then l.getD i.toNat d else d

/-- Contents of the cell at position `p`. -/
def abs (t : DirectTape α) (p : Int) : α := cell t.tape t.initSymbol (p - t.position + t.index)

/-- The head is inside the buffer. -/
def WF (t : DirectTape α) : Prop := 0 ≤ t.index ∧ t.index < t.tape.length

theorem wf_new (s : α) : (new s).WF := by simp [WF, new]

theorem abs_new (s : α) : (new s).abs = fun _ => s := by
  funext p
  unfold abs cell new
  simp only [Int.sub_zero, Int.add_zero]
  by_cases h : 0 ≤ p
  · rw [if_pos h]
    cases hp : p.toNat <;> simp
  · rw [if_neg h]

theorem read_eq {t : DirectTape α} (h : t.WF) : t.read = some (t.abs t.position) := by
  obtain ⟨h0, h1⟩ := h
  unfold read abs Py.get cell
  rw [Py.pyIdx_of_range h0 h1]
  have : t.position - t.position + t.index = t.index := by omega
  rw [this, if_pos h0]
  have hlt : t.index.toNat < t.tape.length := by omega
  simp [List.getD, hlt]

theorem readPos_eq (t : DirectTape α) (p : Int) : t.readPos p = some (t.abs p) := by
  unfold readPos abs Py.get pos2index cell
  generalize p - t.position + t.index = i
  by_cases h : 0 ≤ i ∧ i < t.tape.length
  · simp only [h, and_self, if_true]
    rw [Py.pyIdx_of_range h.1 h.2]
    have hlt : i.toNat < t.tape.length := by omega
    simp [List.getD, hlt]
  · simp only [h, if_false]
    split
    · have hge : t.tape.length ≤ i.toNat := by omega
      simp [List.getD, List.getElem?_eq_none hge]
    · rfl

theorem cell_set (l : List α) (d s : α) (k : Nat) (hk : k < l.length) (i : Int) :
    cell (l.set k s) d i = if i = k then s else cell l d i := by
  unfold cell
  by_cases h : i = k
  · subst h
    simp [List.getD, hk]
  · rw [if_neg h]
    by_cases h0 : 0 ≤ i
    · rw [if_pos h0, if_pos h0]
      have hne : k ≠ i.toNat := by omega
      simp [List.getD, List.getElem?_set_ne hne]
    · rw [if_neg h0, if_neg h0]

theorem write_eq {t : DirectTape α} (h : t.WF) (s : α) :
    ∃ t', t.write s = some t' ∧ t'.WF ∧ t'.position = t.position ∧ t'.initSymbol = t.initSymbol ∧
      t'.posLeftmost = t.posLeftmost ∧ t'.posRightmost = t.posRightmost ∧
      t'.abs = Function.update t.abs t.position s := by
  obtain ⟨h0, h1⟩ := h
  refine ⟨{ t with tape := t.tape.set t.index.toNat s }, ?_, ?_, rfl, rfl, rfl, ?_, ?_⟩
  · unfold write Py.set
    rw [Py.pyIdx_of_range h0 h1]; rfl
  · simp [WF, h0, h1]
  · simp [posRightmost, index2pos]
  · funext p
    unfold abs
    simp only
    rw [cell_set _ _ _ _ (by omega)]
    by_cases hp : p = t.position
    · subst hp
      rw [if_pos (by omega), Function.update_self]
    · rw [Function.update_of_ne hp, if_neg (by omega)]

theorem cell_append_replicate (l : List α) (k : Nat) (d : α) (i : Int) :
    cell (l ++ List.replicate k d) d i = cell l d i := by
  unfold cell
  split
  · simp only [List.getD]
    by_cases h : i.toNat < l.length
    · rw [List.getElem?_append_left h]
    · rw [List.getElem?_append_right (by omega), List.getElem?_eq_none (l := l) (by omega)]
      by_cases h2 : i.toNat - l.length < k
      · simp [h2]
      · rw [List.getElem?_eq_none (by simp; omega)]
  · rfl

theorem cell_replicate_append (l : List α) (k : Nat) (d : α) (i : Int) :
    cell (List.replicate k d ++ l) d i = cell l d (i - k) := by
  unfold cell
  by_cases h0 : 0 ≤ i
  · rw [if_pos h0]
    simp only [List.getD]
    by_cases h : i.toNat < k
    · rw [List.getElem?_append_left (by simpa using h), if_neg (by omega)]
      simp [h]
    · rw [List.getElem?_append_right (by simp; omega), if_pos (by omega)]
      have : i.toNat - (List.replicate k d).length = (i - k).toNat := by
        rw [List.length_replicate]; omega
      rw [this]
  · rw [if_neg h0, if_neg (by omega)]

/-- Expanding to a position: contents unchanged, visited range extended to exactly that position. -/
theorem expand_eq (t : DirectTape α) (np : Option Int) (hne : 0 < t.tape.length) :
    ∃ t', t.expandTape np = some t' ∧ t'.position = t.position ∧ t'.initSymbol = t.initSymbol ∧
      t'.abs = t.abs ∧ 0 < t'.tape.length ∧
      t'.posLeftmost = min t.posLeftmost (np.getD t.position) ∧
      t'.posRightmost = max t.posRightmost (np.getD t.position) := by
  have hidx : t.indexDefault np = t.pos2index (np.getD t.position) := by
    cases np <;> simp [indexDefault, pos2index]
  generalize hp : np.getD t.position = p at *
  unfold expandTape
  simp only [hidx]
  by_cases h1 : t.pos2index p < 0
  · simp only [h1, if_true]
    have hd : ∀ t' : DirectTape α, t'.position = t.position →
        t'.indexDefault np = t'.pos2index p := by
      intro t' ht'
      cases np <;> simp_all [indexDefault, pos2index]
    refine ⟨_, if_pos ?_, rfl, rfl, ?_, ?_, ?_, ?_⟩
    · rw [hd]
      · simp only [pos2index, List.length_append, List.length_replicate] at *
        constructor <;> omega
      · rfl
    · funext x
      unfold abs
      simp only [pos2index] at *
      rw [cell_replicate_append]
      congr 1; omega
    · simp; omega
    · simp only [posLeftmost, index2pos, pos2index] at *; omega
    · simp only [posRightmost, index2pos, pos2index, List.length_append, List.length_replicate] at *
      omega
  · simp only [h1, if_false]
    have hd : ∀ t' : DirectTape α, t'.position = t.position →
        t'.indexDefault np = t'.pos2index p := by
      intro t' ht'
      cases np <;> simp_all [indexDefault, pos2index]
    by_cases h2 : t.pos2index p ≥ t.tape.length
    · simp only [h2, if_true]
      refine ⟨_, if_pos ?_, rfl, rfl, ?_, ?_, ?_, ?_⟩
      · rw [hd]
        · simp only [pos2index, List.length_append, List.length_replicate] at *
          constructor <;> omega
        · rfl
      · funext x
        unfold abs
        simp only [cell_append_replicate]
      · simp; omega
      · simp only [posLeftmost, index2pos, pos2index] at *; omega
      · simp only [posRightmost, index2pos, pos2index, List.length_append, List.length_replicate] at *
        omega
    · simp only [h2, if_false, hidx]
      refine ⟨t, if_pos ⟨by omega, by omega⟩, rfl, rfl, rfl, hne, ?_, ?_⟩
      · simp only [posLeftmost, index2pos, pos2index] at *; omega
      · simp only [posRightmost, index2pos, pos2index] at *; omega

theorem wf_iff {t : DirectTape α} :
    t.WF ↔ t.posLeftmost ≤ t.position ∧ t.position ≤ t.posRightmost := by
  unfold WF posLeftmost posRightmost index2pos
  omega

theorem move_eq {t : DirectTape α} (h : t.WF) (d : Dir) :
    ∃ t', t.move d = some t' ∧ t'.WF ∧ t'.position = t.position + d.delta ∧
      t'.initSymbol = t.initSymbol ∧ t'.abs = t.abs ∧
      t'.posLeftmost = min t.posLeftmost (t.position + d.delta) ∧
      t'.posRightmost = max t.posRightmost (t.position + d.delta) := by
  have hlen : 0 < t.tape.length := by have := h.1; have := h.2; omega
  cases d with
  | R =>
    obtain ⟨t', e, hp, hi, ha, _, hl, hr⟩ :=
      expand_eq { t with position := t.position + 1, index := t.index + 1 } none hlen
    have hl0 : ({ t with position := t.position + 1, index := t.index + 1 } : DirectTape α).posLeftmost
        = t.posLeftmost := by simp only [posLeftmost, index2pos]; omega
    have hr0 : ({ t with position := t.position + 1, index := t.index + 1 } : DirectTape α).posRightmost
        = t.posRightmost := by simp only [posRightmost, index2pos]; omega
    rw [hl0] at hl; rw [hr0] at hr
    simp only [Option.getD_none] at hl hr hp
    refine ⟨t', e, ?_, by simp [hp, Dir.delta], hi, ?_, by simpa [Dir.delta] using hl,
      by simpa [Dir.delta] using hr⟩
    · rw [wf_iff] at *; omega
    · rw [ha]; funext p; simp only [abs]
      have : p - (t.position + 1) + (t.index + 1) = p - t.position + t.index := by omega
      rw [this]
  | L =>
    obtain ⟨t', e, hp, hi, ha, _, hl, hr⟩ :=
      expand_eq { t with position := t.position - 1, index := t.index - 1 } none hlen
    have hl0 : ({ t with position := t.position - 1, index := t.index - 1 } : DirectTape α).posLeftmost
        = t.posLeftmost := by simp only [posLeftmost, index2pos]; omega
    have hr0 : ({ t with position := t.position - 1, index := t.index - 1 } : DirectTape α).posRightmost
        = t.posRightmost := by simp only [posRightmost, index2pos]; omega
    rw [hl0] at hl; rw [hr0] at hr
    simp only [Option.getD_none] at hl hr hp
    refine ⟨t', e, ?_, by simp [hp, Dir.delta]; omega, hi, ?_, by simp only [Dir.delta]; omega,
      by simp only [Dir.delta]; omega⟩
    · rw [wf_iff] at *; omega
    · rw [ha]; funext p; simp only [abs]
      have : p - (t.position - 1) + (t.index - 1) = p - t.position + t.index := by omega
      rw [this]

theorem writePos_eq {t : DirectTape α} (h : t.WF) (s : α) (p : Int) :
    ∃ t', t.writePos s p = some t' ∧ t'.WF ∧ t'.position = t.position ∧
      t'.initSymbol = t.initSymbol ∧ t'.abs = Function.update t.abs p s ∧
      t'.posLeftmost = min t.posLeftmost p ∧ t'.posRightmost = max t.posRightmost p := by
  have hlen : 0 < t.tape.length := by have := h.1; have := h.2; omega
  obtain ⟨t', e, hp, hi, ha, hlen', hl, hr⟩ := expand_eq t (some p) hlen
  simp only [Option.getD_some] at hl hr
  have hrange : 0 ≤ t'.pos2index p ∧ t'.pos2index p < t'.tape.length := by
    simp only [posLeftmost, posRightmost, index2pos, pos2index] at *
    omega
  refine ⟨{ t' with tape := t'.tape.set (t'.pos2index p).toNat s }, ?_, ?_, hp, hi, ?_, hl, ?_⟩
  · unfold writePos
    rw [e]
    simp only [Option.bind_some]
    unfold Py.set
    rw [Py.pyIdx_of_range hrange.1 hrange.2]; rfl
  · rw [wf_iff] at h ⊢
    simp only [posLeftmost, posRightmost, index2pos, pos2index, List.length_set] at *
    omega
  · rw [← ha]
    funext x
    unfold abs
    simp only
    rw [cell_set _ _ _ _ (by omega)]
    unfold pos2index at *
    by_cases hx : x = p
    · subst hx
      rw [Function.update_self, if_pos (by omega)]
    · rw [Function.update_of_ne hx, if_neg (by omega)]
  · simpa [posRightmost, index2pos] using hr

theorem countP_eq_card (l : List α) (P : α → Bool) (d : α) :
    l.countP P = ((Finset.range l.length).filter (fun i => P (l.getD i d) = true)).card := by
  induction l using List.reverseRecOn with
  | nil => simp
  | append_singleton l a ih =>
    rw [List.countP_append, List.length_append, List.length_singleton, Finset.range_add_one,
      Finset.filter_insert]
    have hcongr : (Finset.range l.length).filter (fun i => P ((l ++ [a]).getD i d) = true)
        = (Finset.range l.length).filter (fun i => P (l.getD i d) = true) := by
      apply Finset.filter_congr
      intro i hi
      rw [Finset.mem_range] at hi
      simp [List.getD, List.getElem?_append_left hi]
    have hlast : (l ++ [a]).getD l.length d = a := by simp [List.getD]
    rw [hlast, hcongr]
    by_cases ha : P a = true
    · rw [if_pos ha, Finset.card_insert_of_notMem (by simp), ih]
      simp [ha]
    · rw [if_neg ha, ih]
      simp [ha]

/-- The counter counts the cells that differ from the blank symbol. -/
theorem countNonzero_eq [DecidableEq α] (t : DirectTape α) :
    t.countNonzero = Set.ncard {p : Int | t.abs p ≠ t.initSymbol} := by
  unfold countNonzero
  rw [countP_eq_card _ _ t.initSymbol]
  rw [← Set.ncard_coe_finset]
  symm
  refine Set.ncard_congr (fun p _ => (p - t.position + t.index).toNat) ?_ ?_ ?_
  · intro p hp
    simp only [Set.mem_ofPred_eq] at hp
    unfold abs cell at hp
    split at hp
    · simp only [Finset.coe_filter, Finset.mem_range, Set.mem_ofPred_eq, decide_eq_true_eq]
      refine ⟨?_, hp⟩
      by_contra hge
      apply hp
      simp [List.getD, List.getElem?_eq_none (Nat.le_of_not_lt hge)]
    · exact absurd rfl hp
  · intro p q hp hq hpq
    simp only [Set.mem_ofPred_eq] at hp hq
    unfold abs cell at hp hq
    split at hp
    · split at hq
      · omega
      · exact absurd rfl hq
    · exact absurd rfl hp
  · intro i hi
    simp only [Finset.coe_filter, Finset.mem_range, Set.mem_ofPred_eq, decide_eq_true_eq] at hi
    refine ⟨i - t.index + t.position, ?_, ?_⟩
    · simp only [Set.mem_ofPred_eq]
      unfold abs cell
      have : (i : Int) - t.index + t.position - t.position + t.index = i := by omega
      rw [this, if_pos (by omega)]
      simpa using hi.2
    · omega

end Model.DirectTape

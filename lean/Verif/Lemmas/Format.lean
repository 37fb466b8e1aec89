import Verif.Lemmas.Table

set_option linter.unusedSectionVars false

/-!
# Lemmas about the packed and the text format
-/

namespace Model.IO
open Spec (Dir Instr Table)

/-! ## Packed bytes -/

theorem pack_byte : ∀ (s q d b : Fin 8), d.1 < 2 → b.1 < 2 →
    (s.1 ||| (q.1 <<< 3) ||| (d.1 <<< 6) ||| (b.1 <<< 7)) = s.1 + 8 * q.1 + 64 * d.1 + 128 * b.1 := by
  decide +kernel

theorem unpack_byte : ∀ (s q d b : Fin 8), d.1 < 2 → b.1 < 2 →
    ((s.1 + 8 * q.1 + 64 * d.1 + 128 * b.1) &&& 7) = s.1 ∧
    (((s.1 + 8 * q.1 + 64 * d.1 + 128 * b.1) >>> 3) &&& 7) = q.1 ∧
    (((s.1 + 8 * q.1 + 64 * d.1 + 128 * b.1) >>> 6) &&& 1) = d.1 ∧
    (((s.1 + 8 * q.1 + 64 * d.1 + 128 * b.1) >>> 7) &&& 1) = b.1 := by
  decide +kernel

theorem packTransInts_eq {s d q : Int} {new : Bool} (hs : -1 ≤ s ∧ s < 7) (hq : -1 ≤ q ∧ q < 7)
    (hd : d = 0 ∨ d = 1) :
    packTransInts s d q new = some ((s + 1).toNat + 8 * (q + 1).toNat + 64 * d.toNat + 128 * new.toNat) := by
  unfold packTransInts
  simp only [if_pos hd]
  rw [if_neg (not_not.2 hs), if_neg (not_not.2 hq), if_neg (not_not.2 hd)]
  have h1 : (s + 1).toNat < 8 := by omega
  have h2 : (q + 1).toNat < 8 := by omega
  have h3 : d.toNat < 2 := by rcases hd with rfl | rfl <;> decide
  have h4 : new.toNat < 2 := by cases new <;> decide
  have := pack_byte ⟨_, h1⟩ ⟨_, h2⟩ ⟨d.toNat, by omega⟩ ⟨new.toNat, by omega⟩ h3 h4
  simp only at this
  rw [this, if_pos (by omega)]

theorem unpackTransInts_eq {s d q : Int} {new : Bool} (hs : -1 ≤ s ∧ s < 7) (hq : -1 ≤ q ∧ q < 7)
    (hd : d = 0 ∨ d = 1) :
    unpackTransInts ((s + 1).toNat + 8 * (q + 1).toNat + 64 * d.toNat + 128 * new.toNat) = (s, d, q, new) := by
  have h1 : (s + 1).toNat < 8 := by omega
  have h2 : (q + 1).toNat < 8 := by omega
  have h3 : d.toNat < 2 := by rcases hd with rfl | rfl <;> decide
  have h4 : new.toNat < 2 := by cases new <;> decide
  obtain ⟨e1, e2, e3, e4⟩ := unpack_byte ⟨_, h1⟩ ⟨_, h2⟩ ⟨d.toNat, by omega⟩ ⟨new.toNat, by omega⟩ h3 h4
  simp only at e1 e2 e3 e4
  unfold unpackTransInts
  rw [e1, e2, e3, e4]
  have a1 : (((s + 1).toNat : Nat) : Int) - 1 = s := by omega
  have a2 : (((q + 1).toNat : Nat) : Int) - 1 = q := by omega
  have a3 : ((d.toNat : Nat) : Int) = d := by rcases hd with rfl | rfl <;> rfl
  rw [a1, a2, a3]
  cases new <;> rfl

/-- fits the packed format -/
def BTrans.Fits (t : BTrans) : Prop := t.cond = .undefined ∨ (-1 ≤ t.sym ∧ t.sym < 7 ∧ -1 ≤ t.st ∧ t.st < 7)

theorem packTransInts_isSome {s d q : Int} {new : Bool} {b : Nat} (h : packTransInts s d q new = some b) :
    (-1 ≤ s ∧ s < 7) ∧ (-1 ≤ q ∧ q < 7) := by
  unfold packTransInts at h
  by_cases h1 : -1 ≤ s ∧ s < 7
  · by_cases h2 : -1 ≤ q ∧ q < 7
    · exact ⟨h1, h2⟩
    · simp only [if_neg (not_not.2 h1), if_pos h2] at h
      cases h
  · simp only [if_pos h1] at h
    cases h

/-- the byte of a transition -/
def BTrans.byte (t : BTrans) (new : Bool) : Nat :=
  (if t.cond = .undefined then 0 else (t.sym + 1).toNat + 8 * (t.st + 1).toNat + 64 * t.dir.toNat) +
    128 * new.toNat

theorem packTrans_eq {t : BTrans} {new : Bool} (hf : t.Fits) (hd : t.dir = 0 ∨ t.dir = 1) :
    packTrans t new = some (t.byte new) := by
  unfold packTrans BTrans.byte
  by_cases hu : t.cond = .undefined
  · rw [if_pos hu, if_pos hu, packTransInts_eq (by decide) (by decide) (Or.inl rfl)]
    rfl
  · rw [if_neg hu, if_neg hu]
    rcases hf with h | ⟨h1, h2, h3, h4⟩
    · exact absurd h hu
    · rw [packTransInts_eq ⟨h1, h2⟩ ⟨h3, h4⟩ hd]

theorem packTrans_fits {t : BTrans} {new : Bool} {b : Nat} (h : packTrans t new = some b) : t.Fits := by
  unfold packTrans at h
  by_cases hu : t.cond = .undefined
  · exact Or.inl hu
  · rw [if_neg hu] at h
    obtain ⟨h1, h2⟩ := packTransInts_isSome h
    exact Or.inr ⟨h1.1, h1.2, h2.1, h2.2⟩

theorem packRow_eq {new : Bool} {row : List BTrans} (hf : ∀ t ∈ row, t.Fits) (hd : ∀ t ∈ row, t.dir = 0 ∨ t.dir = 1) :
    packRow new row = some (match row with | [] => [] | t :: ts => t.byte new :: ts.map (·.byte false)) := by
  induction row generalizing new with
  | nil => rfl
  | cons t ts ih =>
    unfold packRow
    rw [packTrans_eq (hf t (by simp)) (hd t (by simp)),
      ih (fun x hx => hf x (List.mem_cons_of_mem _ hx)) (fun x hx => hd x (List.mem_cons_of_mem _ hx))]
    cases ts <;> rfl

theorem packRow_fits {new : Bool} {row : List BTrans} {bs : List Nat} (h : packRow new row = some bs) :
    ∀ t ∈ row, t.Fits := by
  induction row generalizing new bs with
  | nil => simp
  | cons t ts ih =>
    unfold packRow at h
    split at h
    · next b bs' hb hbs =>
      intro x hx
      rcases List.mem_cons.1 hx with rfl | hx
      · exact packTrans_fits hb
      · exact ih hbs x hx
    · cases h

/-- the bytes of a row -/
def rowBytes : List BTrans → List Nat
  | [] => []
  | t :: ts => t.byte true :: ts.map (·.byte false)

theorem length_rowBytes (row : List BTrans) : (rowBytes row).length = row.length := by
  cases row <;> simp [rowBytes]

theorem flatten_length_const {α : Type} {ls : List (List α)} {k : Nat} (h : ∀ l ∈ ls, l.length = k) :
    ls.flatten.length = ls.length * k := by
  induction ls with
  | nil => simp
  | cons l ls ih =>
    rw [List.flatten_cons, List.length_append, ih (fun x hx => h x (List.mem_cons_of_mem _ hx)), h l (by simp),
      List.length_cons, Nat.succ_mul]
    omega

theorem packTM_eq {m : SM} (hw : m.WF) (hd : m.Moves) (hf : ∀ r ∈ m.rows, ∀ t ∈ r, t.Fits) :
    packTM m = some ((m.rows.map rowBytes).flatten) := by
  unfold packTM
  rw [mapO_eq_some (g := rowBytes) (fun r hr => by
    rw [packRow_eq (hf r hr) (hd r hr)]; cases r <;> rfl)]
  have hl : (m.rows.map rowBytes).flatten.length = m.nStates * m.nSyms := by
    rw [flatten_length_const (k := m.nSyms) (by
      intro l hl
      obtain ⟨r, hr, rfl⟩ := List.mem_map.1 hl
      rw [length_rowBytes, hw.width r hr]), List.length_map, hw.height]
  simp [hl]

theorem packTM_fits {m : SM} {b : List Nat} (h : packTM m = some b) : ∀ r ∈ m.rows, ∀ t ∈ r, t.Fits := by
  unfold packTM at h
  split at h
  · cases h
  · next bs hbs =>
    intro r hr
    obtain ⟨i, hi⟩ := List.mem_iff_getElem?.1 hr
    obtain ⟨y, -, hy⟩ := (mapO_some hbs).2 i r hi
    exact packRow_fits hy

theorem unpack_cell {t : BTrans} {new : Bool} (hf : t.Fits) (hd : t.dir = 0 ∨ t.dir = 1) :
    unpackTransInts (t.byte new) = if t.cond = .undefined then (-1, 0, -1, new) else (t.sym, t.dir, t.st, new) := by
  unfold BTrans.byte
  by_cases hu : t.cond = .undefined
  · rw [if_pos hu, if_pos hu]
    have := unpackTransInts_eq (s := -1) (d := 0) (q := -1) (new := new) (by decide) (by decide) (Or.inl rfl)
    simpa using this
  · rw [if_neg hu, if_neg hu]
    rcases hf with h | ⟨h1, h2, h3, h4⟩
    · exact absurd h hu
    · exact unpackTransInts_eq ⟨h1, h2⟩ ⟨h3, h4⟩ hd

theorem unpack_cells {n k : Nat} (q : Nat) (ts : List BTrans) :
    ∀ (a : Nat) (rest : List Nat) (quints : List (Quint Int Int)),
      (∀ t ∈ ts, t.Fits ∧ (t.dir = 0 ∨ t.dir = 1) ∧ t.WF n k) →
      unpackLoop (ts.map (·.byte false) ++ rest) q (some a) quints =
        unpackLoop rest q (some (a + ts.length)) (quints ++ rowQuints q a ts) := by
  induction ts with
  | nil => intro a rest quints _; simp [rowQuints]
  | cons t ts ih =>
    intro a rest quints h
    obtain ⟨hf, hd, hw⟩ := h t (by simp)
    have hrest := fun (x : BTrans) hx => h x (List.mem_cons_of_mem _ hx)
    simp only [List.map_cons, List.cons_append]
    conv_lhs => unfold unpackLoop
    rw [unpack_cell hf hd]
    by_cases hu : t.cond = .undefined
    · simp only [if_pos hu]
      have : rowQuints q a (t :: ts) = rowQuints q (a + 1) ts := by
        simp [rowQuints, cellQuint, hu]
      rw [this]
      simp only [Bool.false_eq_true, if_false]
      rw [if_neg (by decide), ih _ _ _ hrest]
      simp [Nat.add_comm, Nat.add_left_comm]
    · simp only [if_neg hu]
      have hs := (wf_sym hw hu).1
      have : rowQuints q a (t :: ts) = ((q : Int), (a : Int), some t.sym, t.dir, haltOr t.st) :: rowQuints q (a + 1) ts := by
        simp [rowQuints, cellQuint, hu]
      rw [this]
      simp only [Bool.false_eq_true, if_false]
      rw [if_pos hs, ih _ _ _ hrest]
      simp [Nat.add_comm, Nat.add_left_comm]

theorem unpack_row {n k : Nat} (q : Nat) (row : List BTrans) (hr : row ≠ []) (sym : Option Nat) (rest : List Nat)
    (quints : List (Quint Int Int)) (h : ∀ t ∈ row, t.Fits ∧ (t.dir = 0 ∨ t.dir = 1) ∧ t.WF n k) :
    unpackLoop (rowBytes row ++ rest) ((q : Int) - 1) sym quints =
      unpackLoop rest q (some row.length) (quints ++ rowQuints q 0 row) := by
  cases row with
  | nil => exact absurd rfl hr
  | cons t ts =>
    obtain ⟨hf, hd, hw⟩ := h t (by simp)
    have hrest := fun (x : BTrans) hx => h x (List.mem_cons_of_mem _ hx)
    show unpackLoop (t.byte true :: (ts.map (·.byte false) ++ rest)) _ sym quints = _
    conv_lhs => unfold unpackLoop
    rw [unpack_cell hf hd]
    have e : (q : Int) - 1 + 1 = q := by omega
    by_cases hu : t.cond = .undefined
    · simp only [if_pos hu, e]
      have : rowQuints q 0 (t :: ts) = rowQuints q 1 ts := by
        simp [rowQuints, cellQuint, hu]
      rw [this]
      simp only [if_true]
      rw [if_neg (by decide), unpack_cells q ts _ _ _ hrest]
      simp [Nat.add_comm]
    · simp only [if_neg hu, e]
      have hs := (wf_sym hw hu).1
      have : rowQuints q 0 (t :: ts) = ((q : Int), (0 : Int), some t.sym, t.dir, haltOr t.st) :: rowQuints q 1 ts := by
        simp [rowQuints, cellQuint, hu]
      rw [this]
      simp only [if_true]
      rw [if_pos hs, unpack_cells q ts _ _ _ hrest]
      simp [Nat.add_comm]

theorem unpack_rows {n k : Nat} (rows : List (List BTrans)) :
    ∀ (q : Nat) (sym : Option Nat) (quints : List (Quint Int Int)), rows ≠ [] →
      (∀ r ∈ rows, r ≠ [] ∧ r.length = k ∧ ∀ t ∈ r, t.Fits ∧ (t.dir = 0 ∨ t.dir = 1) ∧ t.WF n k) →
      unpackLoop (rows.map rowBytes).flatten ((q : Int) - 1) sym quints =
        some (((q + rows.length : Nat) : Int) - 1, some k, quints ++ tableQuints q rows) := by
  induction rows with
  | nil => intro _ _ _ h; exact absurd rfl h
  | cons r rows ih =>
    intro q sym quints _ h
    obtain ⟨h1, h2, h3⟩ := h r (by simp)
    rw [List.map_cons, List.flatten_cons, unpack_row q r h1 sym _ quints h3]
    by_cases hrows : rows = []
    · subst hrows
      simp [unpackLoop, tableQuints, h2]
    · have := ih (q + 1) (some r.length) (quints ++ rowQuints q 0 r) hrows (fun r' hr' => h r' (List.mem_cons_of_mem _ hr'))
      have e : ((q + 1 : Nat) : Int) - 1 = q := by omega
      rw [e] at this
      rw [this]
      simp [tableQuints, Nat.add_comm, Nat.add_left_comm]

theorem unpack_pack {m : SM} (hw : m.WF) (hd : m.Moves) (hf : ∀ r ∈ m.rows, ∀ t ∈ r, t.Fits) :
    unpackTM ((m.rows.map rowBytes).flatten) = some m := by
  unfold unpackTM
  have hne : m.rows ≠ [] := by
    intro h
    have := hw.height
    rw [h] at this
    have := hw.states
    simp at *; omega
  have := unpack_rows (n := m.nStates) (k := m.nSyms) m.rows 0 none [] hne (fun r hr => ⟨by
    intro h
    have := hw.width r hr
    rw [h] at this
    have := hw.syms
    simp at *; omega, hw.width r hr, fun t ht => ⟨hf r hr t ht, hd r hr t ht, hw.cells r hr t ht⟩⟩)
  simp only [Nat.cast_zero, Int.zero_sub, Nat.zero_add, List.nil_append] at this
  rw [this]
  simp only
  have e : ((m.rows.length : Int) - 1 + 1).toNat = m.nStates := by rw [hw.height]; omega
  rw [e]
  exact tmFromQuints_table hw

/-! ## Tables and rows -/

theorem range_map {α β : Type} (l : List α) (f : Option α → β) {k : Nat} (hk : l.length = k) :
    (List.range k).map (fun i => f l[i]?) = l.map (fun x => f (some x)) := by
  subst hk
  apply List.ext_getElem?
  intro i
  rw [List.getElem?_map, List.getElem?_map]
  by_cases h : i < l.length
  · rw [List.getElem?_range h, List.getElem?_eq_getElem h]
    simp [List.getElem?_eq_getElem h]
  · rw [List.getElem?_eq_none (by simpa using h), List.getElem?_eq_none (by simpa using h)]
    rfl

/-- a table traversed by row and column is the list of rows -/
theorem table_map {β : Type} {m : SM} (hw : m.WF) (f : Instr → β) :
    ((List.range m.nStates).map fun q => (List.range m.nSyms).map fun a => f (m.table q a)) =
      m.rows.map (·.map fun t => f t.instr) := by
  have h1 : ∀ (o : Option (List BTrans)), o ∈ m.rows.map some →
      ((List.range m.nSyms).map fun a => f (((o.bind (·[a]?)).map BTrans.instr).getD .undef)) =
      (o.getD []).map fun t => f t.instr := by
    intro o ho
    obtain ⟨r, hr, rfl⟩ := List.mem_map.1 ho
    exact range_map r (fun x => f ((x.map BTrans.instr).getD .undef)) (hw.width r hr)
  have h2 := range_map m.rows (fun o => (List.range m.nSyms).map fun a =>
    f (((o.bind (·[a]?)).map BTrans.instr).getD .undef)) hw.height
  unfold SM.table
  rw [h2]
  apply List.map_congr_left
  intro r hr
  exact h1 (some r) (List.mem_map.2 ⟨r, hr, rfl⟩)

theorem byte_instr {n k : Nat} {t : BTrans} (hw : t.WF n k) (hd : t.dir = 0 ∨ t.dir = 1) (new : Bool) :
    t.byte new = Spec.cellByte t.instr + if new then 128 else 0 := by
  obtain ⟨c, s, d, q⟩ := t
  unfold BTrans.byte BTrans.instr
  unfold BTrans.WF at hw
  have hb : (if new then 128 else 0) = 128 * new.toNat := by cases new <;> rfl
  rw [hb]
  cases c with
  | undefined => rfl
  | halt =>
    obtain ⟨h1, h2, h3⟩ := hw
    simp only at h1 h2 h3 hd ⊢
    subst h3
    have hs : (s + 1).toNat = s.toNat + 1 := by omega
    rcases hd with rfl | rfl <;> simp [Spec.cellByte, Spec.dirBit, hs]
  | running =>
    obtain ⟨h1, h2, h3, h4⟩ := hw
    simp only at h1 h2 h3 h4 hd ⊢
    have hs : (s + 1).toNat = s.toNat + 1 := by omega
    have hq : (q + 1).toNat = q.toNat + 1 := by omega
    rcases hd with rfl | rfl <;> simp [Spec.cellByte, Spec.dirBit, hs, hq]

theorem rowBytes_spec {n k : Nat} (row : List BTrans) (hk : row.length = k) (h : ∀ t ∈ row, t.WF n k ∧ (t.dir = 0 ∨ t.dir = 1)) :
    rowBytes row = (List.range k).map fun a => (row[a]?.map fun t => Spec.cellByte t.instr).getD 0 + if a = 0 then 128 else 0 := by
  subst hk
  apply List.ext_getElem?
  intro i
  rw [List.getElem?_map]
  by_cases hi : i < row.length
  · rw [List.getElem?_range hi]
    simp only [Option.map_some, List.getElem?_eq_getElem hi, Option.getD_some]
    cases row with
    | nil => simp at hi
    | cons t ts =>
      cases i with
      | zero =>
        obtain ⟨h1, h2⟩ := h t (by simp)
        simp [rowBytes, byte_instr h1 h2]
      | succ i =>
        simp only [List.length_cons, Nat.add_lt_add_iff_right] at hi
        obtain ⟨h1, h2⟩ := h ts[i] (by simp)
        simp [rowBytes, List.getElem?_eq_getElem hi, byte_instr h1 h2]
  · rw [List.getElem?_eq_none (by rw [length_rowBytes]; omega), List.getElem?_eq_none (by simpa using hi)]
    rfl

theorem tableBytes_eq {m : SM} (hw : m.WF) (hd : m.Moves) :
    (m.rows.map rowBytes).flatten = Spec.tableBytes m.table m.nStates m.nSyms := by
  unfold Spec.tableBytes
  congr 1
  have h2 := range_map m.rows (fun o => (List.range m.nSyms).map fun a =>
    Spec.cellByte (((o.bind (·[a]?)).map BTrans.instr).getD .undef) + if a = 0 then 128 else 0) hw.height
  unfold SM.table
  rw [h2]
  apply List.map_congr_left
  intro r hr
  rw [rowBytes_spec (n := m.nStates) r (hw.width r hr) (fun t ht => ⟨hw.cells r hr t ht, hd r hr t ht⟩)]
  apply List.map_congr_left
  intro a ha
  congr 1
  simp only [Option.bind_some]
  cases r[a]? <;> rfl

/-! ## Text -/

theorem digit_facts : ∀ s : Fin 10, Py.get Py.digits (s.1 : Int) = some (Char.ofNat (48 + s.1)) ∧
    Py.find Py.digits (Char.ofNat (48 + s.1)) = (s.1 : Int) ∧ Char.ofNat (48 + s.1) ≠ '-' ∧
    Char.ofNat (48 + s.1) ≠ '_' ∧ Py.isSpace (Char.ofNat (48 + s.1)) = false := by
  decide +kernel

theorem letter_facts : ∀ s : Fin 26, Py.get Py.uppercase (s.1 : Int) = some (Char.ofNat (65 + s.1)) ∧
    Py.find Py.uppercase (Char.ofNat (65 + s.1)) = (s.1 : Int) ∧
    Char.ofNat (65 + s.1) ≠ '_' ∧ Py.isSpace (Char.ofNat (65 + s.1)) = false := by
  decide +kernel

theorem getL : Py.get ['L', 'R', 'S'] 0 = some 'L' := rfl
theorem getR : Py.get ['L', 'R', 'S'] 1 = some 'R' := rfl

/-- everything about the text of a cell -/
theorem cell_text {n k : Nat} (hn : n < 25) (hk : k < 10) {t : BTrans} (hw : t.WF n k) (hd : t.dir = 0 ∨ t.dir = 1) :
    t.toStr = some (Spec.cellText t.instr) ∧
    ∃ x y z, Spec.cellText t.instr = [x, y, z] ∧ (∀ c ∈ [x, y, z], c ≠ '_' ∧ Py.isSpace c = false) ∧
      (if t.cond = .undefined then [x, y, z] = ['-', '-', '-'] else
        x ≠ '-' ∧ Py.find Py.digits x = t.sym ∧ Py.find ['L', 'R'] y = t.dir ∧
        (if Py.find Py.uppercase z ≥ n then (-1 : Int) else Py.find Py.uppercase z) = t.st) := by
  obtain ⟨c, s, d, q⟩ := t
  unfold BTrans.toStr BTrans.instr
  unfold BTrans.WF at hw
  cases c with
  | undefined =>
    refine ⟨rfl, '-', '-', '-', rfl, by decide, rfl⟩
  | halt =>
    obtain ⟨h1, h2, h3⟩ := hw
    simp only at h1 h2 h3 hd ⊢
    subst h3
    obtain ⟨f1, f2, f3, f4, f5⟩ := digit_facts ⟨s.toNat, by omega⟩
    simp only [Int.toNat_of_nonneg h1] at f1 f2
    have g : (if Py.find Py.uppercase 'Z' ≥ (n : Int) then (-1 : Int) else Py.find Py.uppercase 'Z') = -1 := by
      have : Py.find Py.uppercase 'Z' = 25 := by decide
      rw [this, if_pos (by omega)]
    rcases hd with rfl | rfl
    · refine ⟨?_, Char.ofNat (48 + s.toNat), 'L', 'Z', rfl, ?_, ?_⟩
      · simp [f1, Spec.cellText, Spec.dirChar, getL, getR]
      · intro c hc
        simp only [List.mem_cons, List.not_mem_nil, or_false] at hc
        rcases hc with rfl | rfl | rfl
        · exact ⟨f4, f5⟩
        · decide
        · decide
      · rw [if_neg (by simp)]
        exact ⟨f3, f2, by decide, g⟩
    · refine ⟨?_, Char.ofNat (48 + s.toNat), 'R', 'Z', rfl, ?_, ?_⟩
      · simp [f1, Spec.cellText, Spec.dirChar, getL, getR]
      · intro c hc
        simp only [List.mem_cons, List.not_mem_nil, or_false] at hc
        rcases hc with rfl | rfl | rfl
        · exact ⟨f4, f5⟩
        · decide
        · decide
      · rw [if_neg (by simp)]
        exact ⟨f3, f2, by decide, g⟩
  | running =>
    obtain ⟨h1, h2, h3, h4⟩ := hw
    simp only at h1 h2 h3 h4 hd ⊢
    obtain ⟨f1, f2, f3, f4, f5⟩ := digit_facts ⟨s.toNat, by omega⟩
    obtain ⟨g1, g2, g3, g4⟩ := letter_facts ⟨q.toNat, by omega⟩
    simp only [Int.toNat_of_nonneg h1] at f1 f2
    simp only [Int.toNat_of_nonneg h3] at g1 g2
    have g : (if Py.find Py.uppercase (Char.ofNat (65 + q.toNat)) ≥ (n : Int) then (-1 : Int)
        else Py.find Py.uppercase (Char.ofNat (65 + q.toNat))) = q := by
      rw [g2, if_neg (by omega)]
    rcases hd with rfl | rfl
    · refine ⟨?_, Char.ofNat (48 + s.toNat), 'L', Char.ofNat (65 + q.toNat), rfl, ?_, ?_⟩
      · simp [f1, g1, Spec.cellText, Spec.dirChar, getL, getR]
      · intro c hc
        simp only [List.mem_cons, List.not_mem_nil, or_false] at hc
        rcases hc with rfl | rfl | rfl
        · exact ⟨f4, f5⟩
        · decide
        · exact ⟨g3, g4⟩
      · rw [if_neg (by simp)]
        exact ⟨f3, f2, by decide, g⟩
    · refine ⟨?_, Char.ofNat (48 + s.toNat), 'R', Char.ofNat (65 + q.toNat), rfl, ?_, ?_⟩
      · simp [f1, g1, Spec.cellText, Spec.dirChar, getL, getR]
      · intro c hc
        simp only [List.mem_cons, List.not_mem_nil, or_false] at hc
        rcases hc with rfl | rfl | rfl
        · exact ⟨f4, f5⟩
        · decide
        · exact ⟨g3, g4⟩
      · rw [if_neg (by simp)]
        exact ⟨f3, f2, by decide, g⟩

/-- the text of a row -/
def rowStr (row : List BTrans) : List Char := (row.map fun t => Spec.cellText t.instr).flatten

theorem parse_row {n k : Nat} (hn : n < 25) (hk : k < 10) (q : Nat) (row : List BTrans) :
    ∀ (fuel a : Nat), row.length ≤ fuel → (∀ t ∈ row, t.WF n k ∧ (t.dir = 0 ∨ t.dir = 1)) →
      parseRow n q fuel a (rowStr row) = some (rowQuints q a row) := by
  induction row with
  | nil => intro fuel a _ _; cases fuel <;> rfl
  | cons t row ih =>
    intro fuel a hf h
    cases fuel with
    | zero => simp at hf
    | succ fuel =>
      simp only [List.length_cons, Nat.add_le_add_iff_right] at hf
      obtain ⟨hw, hd⟩ := h t (by simp)
      have hr := ih fuel (a + 1) hf (fun x hx => h x (List.mem_cons_of_mem _ hx))
      obtain ⟨-, x, y, z, e, -, hc⟩ := cell_text hn hk hw hd
      have er : rowStr (t :: row) = x :: y :: z :: rowStr row := by
        unfold rowStr
        rw [List.map_cons, List.flatten_cons, e]
        rfl
      rw [er]
      unfold parseRow
      by_cases hu : t.cond = .undefined
      · rw [if_pos hu] at hc
        rw [if_pos hc, hr]
        simp [rowQuints, cellQuint, hu]
      · rw [if_neg hu] at hc
        obtain ⟨c1, c2, c3, c4⟩ := hc
        rw [if_neg (by intro hh; exact c1 (by injection hh))]
        simp only [ge_iff_le] at c4
        simp only [c2, c3, ge_iff_le, c4]
        have hs := (wf_sym hw hu).1
        have hq : -1 ≤ t.st := by
          obtain ⟨c, s, d, q⟩ := t
          unfold BTrans.WF at hw
          cases c with
          | undefined => exact absurd rfl hu
          | halt => simp only at hw ⊢; omega
          | running => simp only at hw ⊢; omega
        rw [if_neg (not_not.2 hs), if_neg (not_not.2 hd), if_neg (not_not.2 hq), hr]
        simp [rowQuints, cellQuint, hu]

theorem length_rowStr {n k : Nat} (hn : n < 25) (hk : k < 10) (row : List BTrans)
    (h : ∀ t ∈ row, t.WF n k ∧ (t.dir = 0 ∨ t.dir = 1)) : (rowStr row).length = 3 * row.length := by
  unfold rowStr
  rw [flatten_length_const (k := 3) (by
    intro l hl
    obtain ⟨t, ht, rfl⟩ := List.mem_map.1 hl
    obtain ⟨-, x, y, z, e, -⟩ := cell_text hn hk (h t ht).1 (h t ht).2
    rw [e]; rfl), List.length_map, Nat.mul_comm]

theorem rowStr_chars {n k : Nat} (hn : n < 25) (hk : k < 10) (row : List BTrans)
    (h : ∀ t ∈ row, t.WF n k ∧ (t.dir = 0 ∨ t.dir = 1)) : ∀ c ∈ rowStr row, c ≠ '_' ∧ Py.isSpace c = false := by
  intro c hc
  unfold rowStr at hc
  obtain ⟨l, hl, hc⟩ := List.mem_flatten.1 hc
  obtain ⟨t, ht, rfl⟩ := List.mem_map.1 hl
  obtain ⟨-, x, y, z, e, hx, -⟩ := cell_text hn hk (h t ht).1 (h t ht).2
  rw [e] at hc
  exact hx c hc

theorem parse_rows {n k : Nat} (hn : n < 25) (hk : k < 10) (rows : List (List BTrans)) :
    ∀ q, (∀ r ∈ rows, ∀ t ∈ r, t.WF n k ∧ (t.dir = 0 ∨ t.dir = 1)) →
      parseRows n q (rows.map rowStr) = some (tableQuints q rows) := by
  induction rows with
  | nil => intro q _; rfl
  | cons r rows ih =>
    intro q h
    rw [List.map_cons]
    unfold parseRows
    rw [parse_row hn hk q r _ 0 (by rw [length_rowStr hn hk r (h r (by simp))]; omega) (h r (by simp)),
      ih (q + 1) (fun r' hr => h r' (List.mem_cons_of_mem _ hr))]
    rfl

theorem split_noSep (c : Char) (l : List Char) (h : c ∉ l) : Py.split c l = [l] := by
  induction l with
  | nil => rfl
  | cons x l ih =>
    rw [List.mem_cons, not_or] at h
    unfold Py.split
    rw [if_neg (Ne.symm h.1), ih h.2]

theorem split_append (c : Char) (l rest : List Char) (h : c ∉ l) :
    Py.split c (l ++ c :: rest) = l :: Py.split c rest := by
  induction l with
  | nil => simp [Py.split]
  | cons x l ih =>
    rw [List.mem_cons, not_or] at h
    rw [List.cons_append]
    conv_lhs => unfold Py.split
    rw [if_neg (Ne.symm h.1), ih h.2]

theorem split_join (c : Char) (rows : List (List Char)) (hne : rows ≠ []) (h : ∀ r ∈ rows, c ∉ r) :
    Py.split c (Py.join c rows) = rows := by
  induction rows with
  | nil => exact absurd rfl hne
  | cons r rows ih =>
    cases rows with
    | nil => exact split_noSep c r (h r (by simp))
    | cons r' rows =>
      show Py.split c (r ++ c :: Py.join c (r' :: rows)) = _
      rw [split_append c _ _ (h r (by simp)), ih (by simp) (fun x hx => h x (List.mem_cons_of_mem _ hx))]

theorem join_eq (c : Char) (rows : List (List Char)) : Py.join c rows = List.intercalate [c] rows := by
  induction rows with
  | nil => rfl
  | cons r rows ih =>
    cases rows with
    | nil => simp [Py.join, List.intercalate]
    | cons r' rows =>
      show r ++ c :: Py.join c (r' :: rows) = _
      rw [ih]
      simp [List.intercalate, List.intersperse]

theorem join_chars (c : Char) (rows : List (List Char)) : ∀ x ∈ Py.join c rows, x = c ∨ ∃ r ∈ rows, x ∈ r := by
  induction rows with
  | nil => intro x hx; cases hx
  | cons r rows ih =>
    cases rows with
    | nil => intro x hx; exact Or.inr ⟨r, by simp, hx⟩
    | cons r' rows =>
      intro x hx
      rcases List.mem_append.1 (show x ∈ r ++ c :: Py.join c (r' :: rows) from hx) with h | h
      · exact Or.inr ⟨r, by simp, h⟩
      · rcases List.mem_cons.1 h with h | h
        · exact Or.inl h
        · rcases ih x h with h | ⟨r0, h0, h⟩
          · exact Or.inl h
          · exact Or.inr ⟨r0, List.mem_cons_of_mem _ h0, h⟩

theorem dropWhile_noop (l : List Char) (h : ∀ c ∈ l, Py.isSpace c = false) : l.dropWhile Py.isSpace = l := by
  cases l with
  | nil => rfl
  | cons x l => simp [List.dropWhile_cons, h x (by simp)]

theorem strip_noop (l : List Char) (h : ∀ c ∈ l, Py.isSpace c = false) : Py.strip l = l := by
  unfold Py.strip
  rw [dropWhile_noop l h, dropWhile_noop l.reverse (fun c hc => h c (List.mem_reverse.1 hc)), List.reverse_reverse]

theorem toStr_eq {m : SM} (hw : m.WF) (hd : m.Moves) (hn : m.nStates < 25) (hk : m.nSyms < 10) :
    m.toStr = some (Py.join '_' (m.rows.map rowStr)) := by
  unfold SM.toStr
  rw [if_pos ⟨hn, hk⟩, mapO_eq_some (g := rowStr)]
  · rfl
  · intro r hr
    rw [mapO_eq_some (g := fun t => Spec.cellText t.instr)]
    · rfl
    · intro t ht
      exact (cell_text hn hk (hw.cells r hr t ht) (hd r hr t ht)).1

theorem tableText_eq {m : SM} (hw : m.WF) :
    Py.join '_' (m.rows.map rowStr) = Spec.tableText m.table m.nStates m.nSyms := by
  rw [join_eq]
  unfold Spec.tableText
  congr 1
  have := table_map hw Spec.cellText
  have := congrArg (List.map List.flatten) this
  rw [List.map_map, List.map_map] at this
  exact this.symm

theorem maxSymbol_eq (k : Nat) (hk : 0 < k) (rows : List (List Char)) (hne : rows ≠ [])
    (h : ∀ r ∈ rows, r.length = 3 * k) : maxSymbol rows + 1 = k := by
  unfold maxSymbol
  have key : ∀ rows : List (List Char), (∀ r ∈ rows, r.length = 3 * k) → ∀ m, m ≤ k - 1 → (rows ≠ [] ∨ m = k - 1) →
      rows.foldl (fun m row => max m (rowCells row - 1)) m = k - 1 := by
    intro rows
    induction rows with
    | nil => intro _ m _ h; simpa using h
    | cons r rows ih =>
      intro h m hm _
      rw [List.foldl_cons]
      have : rowCells r = k := by unfold rowCells; rw [h r (by simp)]; omega
      rw [this]
      exact ih (fun r' hr => h r' (List.mem_cons_of_mem _ hr)) _ (by omega) (Or.inr (by omega))
  rw [key rows h 0 (by omega) (Or.inl hne)]
  omega

theorem parse_print {m : SM} (hw : m.WF) (hd : m.Moves) (hn : m.nStates < 25) (hk : m.nSyms < 10) :
    parseTM (Py.join '_' (m.rows.map rowStr)) = some m := by
  have hcells : ∀ r ∈ m.rows, ∀ t ∈ r, t.WF m.nStates m.nSyms ∧ (t.dir = 0 ∨ t.dir = 1) :=
    fun r hr t ht => ⟨hw.cells r hr t ht, hd r hr t ht⟩
  have hchars : ∀ c ∈ Py.join '_' (m.rows.map rowStr), Py.isSpace c = false := by
    intro c hc
    rcases join_chars _ _ c hc with rfl | ⟨r, hr, hc⟩
    · decide
    · obtain ⟨r0, h0, rfl⟩ := List.mem_map.1 hr
      exact (rowStr_chars hn hk r0 (hcells r0 h0) c hc).2
  have hne : m.rows ≠ [] := by
    intro h
    have := hw.height
    have := hw.states
    rw [h] at *; simp at *; omega
  have hlen : (m.rows.map rowStr).length = m.nStates := by rw [List.length_map, hw.height]
  unfold parseTM
  rw [if_neg (by
    intro h
    have := hchars ' ' h
    revert this; decide), strip_noop _ hchars, split_join _ _ (by simpa using hne) (by
      intro r hr
      obtain ⟨r0, h0, rfl⟩ := List.mem_map.1 hr
      intro hh
      exact (rowStr_chars hn hk r0 (hcells r0 h0) _ hh).1 rfl)]
  simp only [hlen]
  rw [parse_rows hn hk m.rows 0 hcells]
  simp only
  rw [maxSymbol_eq m.nSyms hw.syms _ (by simpa using hne) (by
    intro r hr
    obtain ⟨r0, h0, rfl⟩ := List.mem_map.1 hr
    rw [length_rowStr hn hk r0 (hcells r0 h0), hw.width r0 h0])]
  exact tmFromQuints_table hw

end Model.IO

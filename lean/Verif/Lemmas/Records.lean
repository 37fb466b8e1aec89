import Verif.Lemmas.Format
import Verif.Model.Records

set_option linter.unusedSectionVars false

/-!
# Lemmas about record files
-/

namespace Model.IO
open Spec (Dir Instr Table)

/-! ## Machine objects of tables -/

theorem ofInstr_wf {n k : Nat} {i : Instr} (h : match i with
    | .undef => True
    | .halt w _ => w < k
    | .go w _ q' => w < k ∧ q' < n) : (BTrans.ofInstr i).WF n k ∧ ((BTrans.ofInstr i).dir = 0 ∨ (BTrans.ofInstr i).dir = 1) ∧
    (BTrans.ofInstr i).instr = i := by
  cases i with
  | undef => exact ⟨rfl, Or.inr rfl, rfl⟩
  | halt w d =>
    refine ⟨⟨by simp [BTrans.ofInstr], by simpa [BTrans.ofInstr] using h, rfl⟩, by cases d <;> simp [BTrans.ofInstr],
      by cases d <;> simp [BTrans.ofInstr, BTrans.instr]⟩
  | go w d q =>
    refine ⟨⟨by simp [BTrans.ofInstr], by simpa [BTrans.ofInstr] using h.1, by simp [BTrans.ofInstr],
      by simpa [BTrans.ofInstr] using h.2⟩, by cases d <;> simp [BTrans.ofInstr],
      by cases d <;> simp [BTrans.ofInstr, BTrans.instr]⟩

theorem ofTable_wf {T : Table} {n k : Nat} (hn : 0 < n) (hk : 0 < k) (h : Spec.Fits T n k) :
    (SM.ofTable T n k).WF ∧ (SM.ofTable T n k).Moves := by
  refine ⟨⟨hn, hk, by simp [SM.ofTable], ?_, ?_⟩, ?_⟩
  · intro r hr
    obtain ⟨q, hq, rfl⟩ := List.mem_map.1 hr
    simp [SM.ofTable]
  · intro r hr t ht
    obtain ⟨q, hq, rfl⟩ := List.mem_map.1 hr
    obtain ⟨a, ha, rfl⟩ := List.mem_map.1 ht
    exact (ofInstr_wf (h q (List.mem_range.1 hq) a (List.mem_range.1 ha))).1
  · intro r hr t ht
    obtain ⟨q, hq, rfl⟩ := List.mem_map.1 hr
    obtain ⟨a, ha, rfl⟩ := List.mem_map.1 ht
    exact (ofInstr_wf (h q (List.mem_range.1 hq) a (List.mem_range.1 ha))).2.1

theorem ofTable_table {T : Table} {n k : Nat} (h : Spec.Fits T n k) {q a : Nat} (hq : q < n) (ha : a < k) :
    (SM.ofTable T n k).table q a = T q a := by
  unfold SM.table SM.ofTable
  simp only
  rw [List.getElem?_map, List.getElem?_range hq]
  simp only [Option.map_some, Option.bind_some]
  rw [List.getElem?_map, List.getElem?_range ha]
  simp only [Option.map_some, Option.getD_some]
  exact (ofInstr_wf (h q hq a ha)).2.2

/-! ## Records -/

theorem listTrans_instr (t : BTrans) : (listTrans t).instr = t.instr := by
  unfold listTrans
  split
  · next h => simp [BTrans.instr, h]
  · rfl

theorem listTrans_table (m : SM) : ({ m with rows := m.rows.map (·.map listTrans) } : SM).table = m.table := by
  funext q a
  unfold SM.table
  simp only [List.getElem?_map]
  cases m.rows[q]? with
  | none => rfl
  | some r =>
    simp only [Option.map_some, Option.bind_some, List.getElem?_map]
    cases r[a]? with
    | none => rfl
    | some t => simp [listTrans_instr]

theorem cells_eq {m : SM} (hw : m.WF) : m.cells = some m.rows.flatten := by
  unfold SM.cells
  rw [mapO_eq_some (g := fun q => (m.rows[q]?).getD [])]
  · simp only [Option.map_some, Option.some.injEq]
    congr 1
    rw [range_map m.rows (fun o => o.getD []) hw.height]
    exact (List.map_congr_left (fun x _ => rfl)).trans (List.map_id _)
  · intro q hq
    have hq := List.mem_range.1 hq
    rw [← hw.height] at hq
    rw [mapO_eq_some (g := fun a => (m.rows[q][a]?).getD undefTrans)]
    · rw [List.getElem?_eq_getElem hq]
      simp only [Option.getD_some, Option.some.injEq]
      rw [range_map m.rows[q] (fun o => o.getD undefTrans) (hw.width _ (List.getElem_mem hq))]
      exact (List.map_congr_left (fun x _ => rfl)).trans (List.map_id _)
    · intro a ha
      have ha := List.mem_range.1 ha
      rw [← hw.width _ (List.getElem_mem hq)] at ha
      rw [List.getElem?_eq_getElem hq, Option.bind_some, List.getElem?_eq_getElem ha]
      rfl

/-- size limits that keep every number within the `sint32` fields -/
def SM.Small (m : SM) : Prop := m.nStates < 2 ^ 31 ∧ m.nSyms < 2 ^ 31

theorem tmToList_eq {m : SM} (hw : m.WF) (hd : m.Moves) (hs : m.Small) :
    tmToList m = some ({ nStates := m.nStates, nSyms := m.nSyms
                         ttable := (m.rows.flatten.map fun t => listInts (listTrans t)).flatten },
      { m with rows := m.rows.map (·.map listTrans) }) := by
  unfold tmToList
  rw [cells_eq hw]
  simp only
  rw [if_pos]
  obtain ⟨h1, h2⟩ := hs
  simp only [Bool.and_eq_true, List.all_eq_true]
  refine ⟨⟨by unfold sint32; simp; omega, by unfold sint32; simp; omega⟩, ?_⟩
  intro x hx
  obtain ⟨l, hl, hx⟩ := List.mem_flatten.1 hx
  obtain ⟨t, ht, rfl⟩ := List.mem_map.1 hl
  obtain ⟨r, hr, ht⟩ := List.mem_flatten.1 ht
  have hc := hw.cells r hr t ht
  have hdd := hd r hr t ht
  obtain ⟨c, s, d, q⟩ := t
  unfold BTrans.WF at hc
  unfold sint32
  simp only [decide_eq_true_eq]
  simp only at hdd
  cases c with
  | undefined =>
    simp only [undefTrans, BTrans.mk.injEq] at hc
    simp only [listInts, listTrans, if_true, List.mem_cons, List.not_mem_nil, or_false] at hx
    omega
  | halt =>
    simp only at hc
    simp [listInts, listTrans] at hx
    omega
  | running =>
    simp only at hc
    simp [listInts, listTrans] at hx
    omega

/-- the packed format has no room for symbol 7, but is used for up to 8 symbols -/
def SM.Storable (m : SM) : Prop :=
  m.nStates ≤ 7 ∧ m.nSyms ≤ 8 → ∀ r ∈ m.rows, ∀ t ∈ r, t.cond ≠ .undefined → t.sym < 7

theorem fits_of_storable {m : SM} (hw : m.WF) (hst : m.Storable) (h : m.nStates ≤ 7 ∧ m.nSyms ≤ 8) :
    ∀ r ∈ m.rows, ∀ t ∈ r, t.Fits := by
  intro r hr t ht
  by_cases hu : t.cond = .undefined
  · exact Or.inl hu
  · have hc := hw.cells r hr t ht
    have hs := hst h r hr t ht hu
    have h0 := wf_sym hc hu
    right
    obtain ⟨c, s, d, q⟩ := t
    unfold BTrans.WF at hc
    cases c with
    | undefined => exact absurd rfl hu
    | halt => simp only at hc hs h0 ⊢; omega
    | running => simp only at hc hs h0 ⊢; omega

theorem writeTM_ok {m : SM} (hw : m.WF) (hd : m.Moves) (hs : m.Small) (hst : m.Storable) (p : ProtoTM) :
    ∃ p' m', writeTM m p = some (p', m') ∧ m.Same m' ∧ p'.allowNoHalt = p.allowNoHalt ∧
      (m.nStates ≤ 7 ∧ m.nSyms ≤ 8 → m' = m ∧ readTM p' = some m) := by
  unfold writeTM
  by_cases h : m.nStates ≤ 7 ∧ m.nSyms ≤ 8
  · rw [if_pos h]
    have hf := fits_of_storable hw hst h
    rw [packTM_eq hw hd hf]
    exact ⟨_, _, rfl, ⟨rfl, rfl, rfl⟩, rfl, fun _ => ⟨rfl, unpack_pack hw hd hf⟩⟩
  · rw [if_neg h, tmToList_eq hw hd hs]
    exact ⟨_, _, rfl, ⟨rfl, rfl, (listTrans_table m).symm⟩, rfl, fun h' => absurd h' h⟩

/-! ## The list message -/

theorem listInts_instr {n k : Nat} {t : BTrans} (hw : t.WF n k) (hd : t.dir = 0 ∨ t.dir = 1) :
    listInts (listTrans t) = Spec.listCell t.instr := by
  obtain ⟨c, s, d, q⟩ := t
  unfold BTrans.WF at hw
  simp only at hd
  cases c with
  | undefined =>
    simp only [undefTrans, BTrans.mk.injEq] at hw
    obtain ⟨-, rfl, rfl, rfl⟩ := hw
    rfl
  | halt =>
    simp only at hw
    obtain ⟨h1, h2, rfl⟩ := hw
    rcases hd with rfl | rfl <;> simp [listInts, listTrans, BTrans.instr, Spec.listCell, Spec.dirBit, h1]
  | running =>
    simp only at hw
    obtain ⟨h1, h2, h3, h4⟩ := hw
    rcases hd with rfl | rfl <;> simp [listInts, listTrans, BTrans.instr, Spec.listCell, Spec.dirBit, h1, h3]

theorem tableList_eq {m : SM} (hw : m.WF) (hd : m.Moves) :
    (m.rows.flatten.map fun t => listInts (listTrans t)).flatten = Spec.tableList m.table m.nStates m.nSyms := by
  unfold Spec.tableList
  have h := table_map hw Spec.listCell
  have e : ((List.range m.nStates).map fun q => ((List.range m.nSyms).map fun a => Spec.listCell (m.table q a)).flatten) =
      ((List.range m.nStates).map fun q => (List.range m.nSyms).map fun a => Spec.listCell (m.table q a)).map List.flatten := by
    rw [List.map_map]; rfl
  rw [e, h, List.map_map]
  have e2 : ∀ rows : List (List BTrans), (∀ r ∈ rows, ∀ t ∈ r, t.WF m.nStates m.nSyms ∧ (t.dir = 0 ∨ t.dir = 1)) →
      (rows.flatten.map fun t => listInts (listTrans t)).flatten =
      (rows.map (List.flatten ∘ fun r => r.map fun t => Spec.listCell t.instr)).flatten := by
    intro rows
    induction rows with
    | nil => intro _; rfl
    | cons r rows ih =>
      intro h
      rw [List.flatten_cons, List.map_append, List.flatten_append, ih (fun r' hr' => h r' (List.mem_cons_of_mem _ hr')),
        List.map_cons, List.flatten_cons]
      congr 2
      exact List.map_congr_left fun t ht => listInts_instr (h r (by simp) t ht).1 (h r (by simp) t ht).2
  exact e2 m.rows fun r hr t ht => ⟨hw.cells r hr t ht, hd r hr t ht⟩

/-! ## Text files -/

theorem readline_append (l rest : List Char) (h : '\n' ∉ l) :
    Py.readline (l ++ '\n' :: rest) = (l ++ ['\n'], rest) := by
  induction l with
  | nil => simp [Py.readline]
  | cons x l ih =>
    rw [List.mem_cons, not_or] at h
    rw [List.cons_append]
    conv_lhs => unfold Py.readline
    rw [if_neg (Ne.symm h.1), ih h.2]
    rfl

theorem readline_length (s : List Char) (h : s ≠ []) : (Py.readline s).2.length < s.length := by
  induction s with
  | nil => exact absurd rfl h
  | cons x s ih =>
    unfold Py.readline
    split
    · simp
    · by_cases hs : s = []
      · subst hs; simp [Py.readline]
      · have := ih hs
        simp only [List.length_cons]; omega

theorem rstrip_spec (s t : List Char) (hs : s ≠ []) (h : ∀ c ∈ s, Py.isSpace c = false) :
    ∃ t', t' <+: t ∧ ((s ++ t).reverse.dropWhile Py.isSpace).reverse = s ++ t' := by
  induction t using List.reverseRecOn with
  | nil =>
    refine ⟨[], List.prefix_refl _, ?_⟩
    rw [dropWhile_noop _ (by
      intro c hc
      rw [List.append_nil, List.mem_reverse] at hc
      exact h c hc), List.reverse_reverse]
  | append_singleton t x ih =>
    rw [← List.append_assoc, List.reverse_append, List.reverse_singleton, List.singleton_append,
      List.dropWhile_cons]
    split
    · obtain ⟨t', h1, h2⟩ := ih
      exact ⟨t', h1.trans (List.prefix_append _ _), h2⟩
    · refine ⟨t ++ [x], List.prefix_refl _, ?_⟩
      simp

theorem strip_append (s t : List Char) (hs : s ≠ []) (h : ∀ c ∈ s, Py.isSpace c = false) :
    ∃ t', t' <+: t ∧ Py.strip (s ++ t) = s ++ t' := by
  unfold Py.strip
  have : (s ++ t).dropWhile Py.isSpace = s ++ t := by
    cases s with
    | nil => exact absurd rfl hs
    | cons x s => simp [h x (by simp)]
  rw [this]
  exact rstrip_spec s t hs h

theorem wordsAux_noSpace (s rest cur : List Char) (h : ∀ c ∈ s, Py.isSpace c = false) :
    Py.wordsAux (s ++ rest) cur = Py.wordsAux rest (cur ++ s) := by
  induction s generalizing cur with
  | nil => simp
  | cons x s ih =>
    rw [List.cons_append]
    conv_lhs => unfold Py.wordsAux
    rw [if_neg (by simp [h x (by simp)]), ih _ (fun c hc => h c (List.mem_cons_of_mem _ hc))]
    simp

theorem words_first (s t : List Char) (hs : s ≠ []) (h : ∀ c ∈ s, Py.isSpace c = false)
    (ht : t = [] ∨ ∃ x r, t = x :: r ∧ Py.isSpace x = true) : ∃ ws, Py.words (s ++ t) = s :: ws := by
  unfold Py.words
  rw [wordsAux_noSpace s t [] h, List.nil_append]
  rcases ht with rfl | ⟨x, r, rfl, hx⟩
  · cases s with
    | nil => exact absurd rfl hs
    | cons x s => exact ⟨[], by simp [Py.wordsAux]⟩
  · refine ⟨Py.wordsAux r [], ?_⟩
    conv_lhs => unfold Py.wordsAux
    rw [if_pos hx, if_neg hs]

/-- a record that the text format can hold -/
structure TextRec.OK (r : TextRec) : Prop where
  wf : r.m.WF
  moves : r.m.Moves
  states : r.m.nStates < 25
  syms : r.m.nSyms < 10
  storable : r.m.Storable
  halt : ∀ steps score, r.halt = some (steps, score) → '\n' ∉ steps ∧ '\n' ∉ score

/-- the text of the machine -/
def TextRec.text (r : TextRec) : List Char := Py.join '_' (r.m.rows.map rowStr)

theorem text_facts {r : TextRec} (h : r.OK) : r.text ≠ [] ∧ (∀ c ∈ r.text, Py.isSpace c = false) := by
  have hcells : ∀ row ∈ r.m.rows, ∀ t ∈ row, t.WF r.m.nStates r.m.nSyms ∧ (t.dir = 0 ∨ t.dir = 1) :=
    fun row hr t ht => ⟨h.wf.cells row hr t ht, h.moves row hr t ht⟩
  constructor
  · intro he
    have h1 := h.wf.height
    have h2 := h.wf.states
    have h3 := h.wf.syms
    unfold TextRec.text at he
    obtain ⟨row, rows, hrows⟩ := List.exists_cons_of_ne_nil (show r.m.rows ≠ [] by
      intro hh; rw [hh] at h1; simp at h1; omega)
    have hl := length_rowStr h.states h.syms row (hcells row (by rw [hrows]; simp))
    rw [h.wf.width row (by rw [hrows]; simp)] at hl
    rw [hrows, List.map_cons] at he
    have hnil : rowStr row = [] := by
      cases rows with
      | nil => exact he
      | cons r' rows =>
        have : rowStr row ++ '_' :: Py.join '_' (rowStr r' :: rows.map rowStr) = [] := he
        simp at this
    rw [hnil] at hl
    simp at hl
    omega
  · intro c hc
    rcases join_chars _ _ c hc with rfl | ⟨row, hr, hc⟩
    · decide
    · obtain ⟨r0, h0, rfl⟩ := List.mem_map.1 hr
      exact (rowStr_chars h.states h.syms r0 (hcells r0 h0) c hc).2

theorem small_of_ok {r : TextRec} (h : r.OK) : r.m.Small := by
  have := h.states; have := h.syms
  constructor <;> omega

/-- reading a line that begins with the text of a machine -/
theorem readText_line {r : TextRec} (h : r.OK) : ∃ m', r.m.Same m' ∧ (r.m.nStates ≤ 7 ∧ r.m.nSyms ≤ 8 → m' = r.m) ∧
    ∀ t rest, '\n' ∉ t → (t = [] ∨ ∃ x, t = ' ' :: x) → (Py.readline (r.text ++ t ++ ['\n'] ++ rest)).2 = rest ∧
      readText (r.text ++ t ++ ['\n'] ++ rest) = .got m' rest := by
  obtain ⟨p', m', hw, hsame, -, hpk⟩ := writeTM_ok h.wf h.moves (small_of_ok h) h.storable
    { ttable := .unset, allowNoHalt := false }
  obtain ⟨hne, hsp⟩ := text_facts h
  refine ⟨m', hsame, fun hb => (hpk hb).1, fun t rest hnl hsp0 => ?_⟩
  have hnotin : '\n' ∉ r.text ++ t := by
    rw [List.mem_append, not_or]
    refine ⟨fun hc => ?_, hnl⟩
    have := hsp _ hc
    revert this; decide
  have hrl : Py.readline (r.text ++ t ++ ['\n'] ++ rest) = (r.text ++ t ++ ['\n'], rest) := by
    rw [List.append_assoc (r.text ++ t), List.singleton_append]
    exact readline_append _ _ hnotin
  refine ⟨by rw [hrl], ?_⟩
  unfold readText
  rw [hrl]
  simp only
  obtain ⟨t', hpre, hstrip⟩ := strip_append r.text (t ++ ['\n']) hne hsp
  rw [List.append_assoc, hstrip, if_neg (by simp [hne])]
  obtain ⟨ws, hws⟩ := words_first r.text t' hne hsp (by
    rcases hsp0 with rfl | ⟨x, rfl⟩
    · cases t' with
      | nil => exact Or.inl rfl
      | cons c t' =>
        obtain ⟨u, hu⟩ := hpre
        rw [List.nil_append, List.cons_append] at hu
        injection hu with h1 h2
        exact Or.inr ⟨c, t', rfl, by rw [h1]; decide⟩
    · cases t' with
      | nil => exact Or.inl rfl
      | cons c t' =>
        obtain ⟨u, hu⟩ := hpre
        rw [List.cons_append, List.cons_append] at hu
        injection hu with h1 h2
        exact Or.inr ⟨c, t', rfl, by rw [h1]; decide⟩)
  rw [hws]
  simp only
  have hparse : parseTM r.text = some r.m := parse_print h.wf h.moves h.states h.syms
  rw [hparse]
  simp only
  unfold mkRecord
  rw [hw]

/-- reading the record just written -/
theorem readText_write {r : TextRec} (h : r.OK) : ∃ s m', r.write = some s ∧ s ≠ [] ∧ r.m.Same m' ∧
    (r.m.nStates ≤ 7 ∧ r.m.nSyms ≤ 8 → m' = r.m) ∧
    ∀ rest, (Py.readline (s ++ rest)).2 = rest ∧ readText (s ++ rest) = .got m' rest := by
  obtain ⟨m', hsame, hpk, hline⟩ := readText_line h
  have htext : r.m.toStr = some r.text := toStr_eq h.wf h.moves h.states h.syms
  -- the part after the machine
  obtain ⟨t, ht, hnl, hsp0⟩ : ∃ t, r.write = some (r.text ++ t ++ ['\n']) ∧ '\n' ∉ t ∧
      (t = [] ∨ ∃ x, t = ' ' :: x) := by
    unfold TextRec.write
    rw [htext]
    cases hh : r.halt with
    | none => exact ⟨[], rfl, by simp, Or.inl rfl⟩
    | some p =>
      obtain ⟨steps, score⟩ := p
      obtain ⟨n1, n2⟩ := h.halt steps score hh
      refine ⟨[' ', 'H', 'a', 'l', 't', ' '] ++ steps ++ [' '] ++ score, rfl, ?_, Or.inr ⟨_, rfl⟩⟩
      simp only [List.mem_append, not_or]
      exact ⟨⟨⟨by decide, n1⟩, by decide⟩, n2⟩
  exact ⟨_, m', ht, by simp, hsame, hpk, fun rest => hline t rest hnl hsp0⟩

/-! ## Binary files -/

theorem fread_append (pre rest : List Nat) (n : Nat) :
    fread (pre ++ rest) pre.length n = (rest.take n, pre.length + (rest.take n).length) := by
  unfold fread
  rw [List.drop_left]

theorem packLE_spec {n : Nat} (h : n < 2 ^ 32) : ∃ b, packLE n = some b ∧ b.length = 4 ∧ unpackLE b = n := by
  unfold packLE
  rw [if_pos h]
  refine ⟨_, rfl, rfl, ?_⟩
  simp only [unpackLE]
  omega

/-- one frame -/
theorem writeFrame_spec {p : List Nat} (h : p.length < 2 ^ 32) :
    ∃ b, writeFrame p = some (b ++ p) ∧ b.length = 4 ∧ unpackLE b = p.length := by
  obtain ⟨b, h1, h2, h3⟩ := packLE_spec h
  exact ⟨b, by unfold writeFrame; rw [h1]; rfl, h2, h3⟩

theorem readLen_frame {b : List Nat} (hb : b.length = 4) (pre rest : List Nat) :
    readLen (pre ++ (b ++ rest)) pre.length = .got (unpackLE b) (pre.length + 4) := by
  unfold readLen
  rw [fread_append, List.take_left' hb]
  simp [hb]

section
variable {α : Type}

theorem readFrame_frame (parse : List Nat → Option α) {b p : List Nat} (hb : b.length = 4) (hp : unpackLE b = p.length)
    {a : α} (ha : parse p = some a) (pre rest : List Nat) :
    readFrame parse (pre ++ (b ++ p ++ rest)) pre.length = .got a (pre ++ (b ++ p)).length := by
  unfold readFrame
  rw [List.append_assoc, readLen_frame hb]
  simp only
  have e : pre ++ (b ++ (p ++ rest)) = (pre ++ b) ++ (p ++ rest) := by simp
  have el : pre.length + 4 = (pre ++ b).length := by simp [hb]
  rw [e, el, fread_append, hp]
  simp only [List.take_left, ne_eq, not_true_eq_false, if_false, ha]
  simp [Nat.add_assoc]

theorem skipFrame_frame {b p : List Nat} (hb : b.length = 4) (hp : unpackLE b = p.length)
    (pre rest : List Nat) :
    skipFrame (pre ++ (b ++ p ++ rest)) pre.length = some (true, (pre ++ (b ++ p)).length) := by
  unfold skipFrame
  rw [List.append_assoc, readLen_frame hb, hp]
  simp [hb, Nat.add_assoc]

theorem readLen_end (pre : List Nat) : readLen pre pre.length = .eof := by
  have := fread_append pre [] 4
  rw [List.append_nil] at this
  unfold readLen
  rw [this]
  simp

theorem readFrame_end (parse : List Nat → Option α) (pre : List Nat) : readFrame parse pre pre.length = .eof := by
  unfold readFrame
  rw [readLen_end]

/-- a frame cut short -/
theorem readFrame_cut (parse : List Nat → Option α) {b p : List Nat} (hb : b.length = 4) (hp : unpackLE b = p.length)
    (pre : List Nat) {n : Nat} (hn : 0 < n) (hlt : n < (b ++ p).length) :
    readFrame parse (pre ++ (b ++ p).take n) pre.length = .raise := by
  have hlen : ((b ++ p).take n).length = n := by simp only [List.length_take]; omega
  unfold readFrame
  by_cases h4 : n < 4
  · have : readLen (pre ++ (b ++ p).take n) pre.length = .raise := by
      unfold readLen
      rw [fread_append]
      have : ((b ++ p).take n).take 4 = (b ++ p).take n := by
        rw [List.take_take, Nat.min_eq_right (by omega)]
      rw [this]
      simp only [hlen]
      rw [if_pos hn, if_pos (by omega)]
    rw [this]
  · have e : (b ++ p).take n = b ++ p.take (n - 4) := by
      rw [List.take_append, List.take_of_length_le (by omega), hb]
    rw [e, readLen_frame hb]
    simp only
    have e' : pre ++ (b ++ p.take (n - 4)) = (pre ++ b) ++ p.take (n - 4) := by simp
    have el : pre.length + 4 = (pre ++ b).length := by simp [hb]
    rw [e', el, fread_append, hp]
    simp only [List.length_append] at hlt
    have hs : ((p.take (n - 4)).take p.length).length ≠ p.length := by
      simp only [List.length_take]
      omega
    rw [if_pos hs]

/-- the bytes of a frame -/
def frame (p : List Nat) : List Nat := (writeFrame p).getD []

theorem frame_spec {p : List Nat} (h : p.length < 2 ^ 32) :
    ∃ b, frame p = b ++ p ∧ b.length = 4 ∧ unpackLE b = p.length ∧ writeFrame p = some (frame p) := by
  obtain ⟨b, h1, h2, h3⟩ := writeFrame_spec h
  exact ⟨b, by unfold frame; rw [h1]; rfl, h2, h3, by unfold frame; rw [h1]; rfl⟩

theorem readAll_cut (parse : List Nat → Option α) (enc : α → List Nat) (hdec : ∀ a, parse (enc a) = some a)
    (as : List α) (hlen : ∀ a ∈ as, (enc a).length < 2 ^ 32) :
    ∀ (pre : List Nat) (n fuel : Nat), n ≤ ((as.map fun a => frame (enc a)).flatten).length → as.length < fuel →
      ∃ j ≤ as.length, ((as.take j).map fun a => frame (enc a)).flatten.length ≤ n ∧
        (j < as.length → n < ((as.take (j + 1)).map fun a => frame (enc a)).flatten.length) ∧
        readAllFrames parse (pre ++ ((as.map fun a => frame (enc a)).flatten).take n) fuel pre.length =
          (as.take j, if ((as.take j).map fun a => frame (enc a)).flatten.length = n then .eof else .raise) := by
  induction as with
  | nil =>
    intro pre n fuel hn hf
    refine ⟨0, le_refl _, by simp, fun h => by simp at h, ?_⟩
    simp at hn
    subst hn
    cases fuel with
    | zero => simp at hf
    | succ fuel =>
      unfold readAllFrames
      simp only [List.map_nil, List.flatten_nil, List.take_nil, List.append_nil]
      rw [readFrame_end]
      simp
  | cons a as ih =>
    intro pre n fuel hn hf
    obtain ⟨b, hb1, hb2, hb3, -⟩ := frame_spec (hlen a (by simp))
    cases fuel with
    | zero => simp at hf
    | succ fuel =>
      simp only [List.length_cons, Nat.add_lt_add_iff_right] at hf
      simp only [List.map_cons, List.flatten_cons, List.length_append] at hn
      by_cases hcut : n < (frame (enc a)).length
      · refine ⟨0, by simp, by simp, fun _ => by simpa using hcut, ?_⟩
        simp only [List.map_cons, List.flatten_cons, List.take_zero, List.map_nil, List.flatten_nil, List.length_nil]
        rw [List.take_append_of_le_length (by omega)]
        unfold readAllFrames
        by_cases h0 : n = 0
        · subst h0
          simp only [List.take_zero, List.append_nil]
          rw [readFrame_end]
          simp
        · rw [hb1, readFrame_cut parse hb2 hb3 pre (by omega) (by rw [← hb1]; exact hcut)]
          simp only
          rw [if_neg (by omega)]
      · obtain ⟨j, j1, j2, j3, j4⟩ := ih (fun x hx => hlen x (List.mem_cons_of_mem _ hx)) (pre ++ frame (enc a))
          (n - (frame (enc a)).length) fuel (by omega) hf
        refine ⟨j + 1, by simpa using j1, ?_, fun h => ?_, ?_⟩
        · simp only [List.take_succ_cons, List.map_cons, List.flatten_cons, List.length_append]
          omega
        · have := j3 (by simpa using h)
          simp only [List.take_succ_cons, List.map_cons, List.flatten_cons, List.length_append] at this ⊢
          omega
        · simp only [List.map_cons, List.flatten_cons, List.take_succ_cons, List.length_append]
          rw [List.take_append, List.take_of_length_le (by omega)]
          unfold readAllFrames
          have hr := readFrame_frame parse hb2 hb3 (hdec a) pre
            (((as.map fun a => frame (enc a)).flatten).take (n - (frame (enc a)).length))
          rw [← hb1] at hr
          rw [hr]
          simp only
          rw [List.append_assoc] at j4
          rw [j4]
          simp only [Prod.mk.injEq, true_and]
          by_cases hc : (((as.take j).map fun a => frame (enc a)).flatten).length = n - (frame (enc a)).length
          · rw [if_pos hc, if_pos (by omega)]
          · rw [if_neg hc, if_neg (by omega)]

theorem load_frames (parse : List Nat → Option α) (enc : α → List Nat) (hdec : ∀ a, parse (enc a) = some a)
    (as : List α) (hlen : ∀ a ∈ as, (enc a).length < 2 ^ 32) :
    ∀ (pre : List Nat) (n : Nat),
      loadFrame parse (pre ++ (as.map fun a => frame (enc a)).flatten) n pre.length = some as[n]? := by
  induction as with
  | nil =>
    intro pre n
    simp only [List.map_nil, List.flatten_nil, List.append_nil]
    induction n with
    | zero =>
      unfold loadFrame
      rw [readFrame_end]
      rfl
    | succ n ih =>
      unfold loadFrame skipFrame
      rw [readLen_end]
      simpa using ih
  | cons a as ih =>
    intro pre n
    obtain ⟨b, hb1, hb2, hb3, -⟩ := frame_spec (hlen a (by simp))
    simp only [List.map_cons, List.flatten_cons]
    cases n with
    | zero =>
      unfold loadFrame
      have hr := readFrame_frame parse hb2 hb3 (hdec a) pre ((as.map fun a => frame (enc a)).flatten)
      rw [← hb1] at hr
      rw [hr]
      rfl
    | succ n =>
      unfold loadFrame
      have hr := skipFrame_frame hb2 hb3 pre ((as.map fun a => frame (enc a)).flatten)
      rw [← hb1] at hr
      rw [hr]
      simp only
      have := ih (fun x hx => hlen x (List.mem_cons_of_mem _ hx)) (pre ++ frame (enc a)) n
      rw [List.append_assoc] at this
      rw [this]
      simp

end

end Model.IO

import Verif.Lemmas.PrintCGA
import Verif.Props.Morphett

/-!
# C81: printed transition tables show the machine, converted tables are the machine

`Spec/Print.lean` says how a table drawn with bars is read (`tableCells`), what the text of a transition is (`cell`), what a sheet of
machines in words says (`Says`, `rowsTable`) and what a file in the format "Marxen2" looks like (`marxenFile`).
-/

namespace Props
open Spec Spec.Print Model Model.IO Model.Print

/-- **C81.** The markdown table of a machine with at most 70 states, writing symbols up to 10: the cells are the numbers of the symbols,
the marks for centred columns, and a row for every state with the text of each transition. -/
theorem C81_markdown (m : SM) (hw : m.WF) (hd : Dirs m) (hn : m.nStates ≤ 70)
    (hs : ∀ r ∈ m.rows, ∀ t ∈ r, t.cond ≠ .undefined → t.sym ≤ 10) :
    ∃ text, toMarkdown m = some text ∧
      tableCells text = ([] :: columns m.nSyms) :: List.replicate (m.nSyms + 1) ":-:".toList :: rows m := by
  have hc := cellOK_of hw hd hn hs
  exact ⟨_, toMarkdown_lines hw hn hc, toMarkdown_cells hw hn hc⟩

/-- **C81.** The same for the table that the simulators print. -/
theorem C81_box (m : SM) (hw : m.WF) (hd : Dirs m) (hn : m.nStates ≤ 70)
    (hs : ∀ r ∈ m.rows, ∀ t ∈ r, t.cond ≠ .undefined → t.sym ≤ 10) :
    ∃ text, toBox m = some text ∧ tableCells text = columns m.nSyms :: rows m := by
  have hc := cellOK_of hw hd hn hs
  exact ⟨_, toBox_lines hw hn hc, toBox_cells hw hn hc⟩

/-- **C81.** With at most ten symbols all lines of that drawing are equally long. -/
theorem C81_box_aligned (m : SM) (hw : m.WF) (hd : Dirs m) (hn : m.nStates ≤ 70) (hk : m.nSyms ≤ 10) :
    ∃ text, toBox m = some text ∧ ∀ line ∈ text.splitOn '\n',
      line = [] ∨ line = "Transition table:".toList ∨ line.length = 8 + 6 * m.nSyms := by
  have hc := cellOK_of hw hd hn fun r hr t ht hu => by
    have := wf_sym (hw.cells r hr t ht) hu
    omega
  refine ⟨_, toBox_lines hw hn hc, fun line hl => ?_⟩
  rw [splitOn_unlines _ (toBox_no_newline hw hn hc)] at hl
  rcases List.mem_append.1 hl with hl | hl
  · exact box_aligned hw hn hk hc line hl
  · exact Or.inl (by simpa using hl)

/-- **C81.** Two machines with the same markdown table are the same machine object, also with respect to undefined and halting
transitions, if no step of theirs leads into the state number 25 (the next theorem). -/
theorem C81_markdown_determines (m m' : SM) (hw : m.WF) (hw' : m'.WF) (hd : Dirs m) (hd' : Dirs m')
    (hn : m.nStates ≤ 70) (hn' : m'.nStates ≤ 70)
    (hs : ∀ r ∈ m.rows, ∀ t ∈ r, t.cond ≠ .undefined → t.sym ≤ 10)
    (hs' : ∀ r ∈ m'.rows, ∀ t ∈ r, t.cond ≠ .undefined → t.sym ≤ 10) (hz : NoZ m) (hz' : NoZ m')
    (h : toMarkdown m = toMarkdown m') : m = m' := by
  obtain ⟨t1, e1, c1⟩ := C81_markdown m hw hd hn hs
  obtain ⟨t2, e2, c2⟩ := C81_markdown m' hw' hd' hn' hs'
  rw [e1, e2, Option.some.injEq] at h
  rw [h, c2] at c1
  simp only [List.cons.injEq, true_and] at c1
  exact rows_inj hw hw' hn hn' (cellOK_of hw hd hn hs) (cellOK_of hw' hd' hn' hs') hz hz' c1.2.2.symm c1.1.symm

theorem C81_box_determines (m m' : SM) (hw : m.WF) (hw' : m'.WF) (hd : Dirs m) (hd' : Dirs m')
    (hn : m.nStates ≤ 70) (hn' : m'.nStates ≤ 70)
    (hs : ∀ r ∈ m.rows, ∀ t ∈ r, t.cond ≠ .undefined → t.sym ≤ 10)
    (hs' : ∀ r ∈ m'.rows, ∀ t ∈ r, t.cond ≠ .undefined → t.sym ≤ 10) (hz : NoZ m) (hz' : NoZ m')
    (h : toBox m = toBox m') : m = m' := by
  obtain ⟨t1, e1, c1⟩ := C81_box m hw hd hn hs
  obtain ⟨t2, e2, c2⟩ := C81_box m' hw' hd' hn' hs'
  rw [e1, e2, Option.some.injEq] at h
  rw [h, c2] at c1
  simp only [List.cons.injEq] at c1
  exact rows_inj hw hw' hn hn' (cellOK_of hw hd hn hs) (cellOK_of hw' hd' hn' hs') hz hz' c1.2.symm c1.1.symm

/-- a machine with 26 states that has a single transition -/
def wide26 (t : BTrans) : SM := ⟨[t] :: List.replicate 25 [undefTrans], 26, 1⟩

/-- **C81, negation.** State 25 and halting are both printed as Z: two sensible machines, of which one halts at its first step and the
other one does not, have the same printed tables. -/
theorem C81_z_false : ∃ m m' : SM, m.WF ∧ m'.WF ∧ m.Moves ∧ m'.Moves ∧ m.table 0 0 = .halt 0 .R ∧ m'.table 0 0 = .go 0 .R 25 ∧
    toMarkdown m = toMarkdown m' ∧ toBox m = toBox m' := by
  refine ⟨wide26 ⟨.halt, 0, 1, -1⟩, wide26 ⟨.running, 0, 1, 25⟩, ?_, ?_, ?_, ?_, by decide, by decide, by decide +kernel, by decide +kernel⟩
  · refine ⟨by decide, by decide, by decide, by decide, ?_⟩
    intro r hr t ht
    simp only [wide26, List.mem_cons, List.mem_replicate] at hr
    rcases hr with rfl | ⟨-, rfl⟩ <;> (simp only [List.mem_cons, List.not_mem_nil, or_false] at ht; subst ht)
    · exact ⟨by decide, by decide, rfl⟩
    · exact rfl
  · refine ⟨by decide, by decide, by decide, by decide, ?_⟩
    intro r hr t ht
    simp only [wide26, List.mem_cons, List.mem_replicate] at hr
    rcases hr with rfl | ⟨-, rfl⟩ <;> (simp only [List.mem_cons, List.not_mem_nil, or_false] at ht; subst ht)
    · exact ⟨by decide, by decide, by decide, by decide⟩
    · exact rfl
  · unfold SM.Moves wide26; decide
  · unfold SM.Moves wide26; decide

/-- **C81.** Printing raises an exception exactly for machines with more than 71 states or that write a symbol above 10. -/
theorem C81_markdown_fails (m : SM) (hw : m.WF) (hd : Dirs m) :
    toMarkdown m = none ↔ 71 < m.nStates ∨ ∃ r ∈ m.rows, ∃ t ∈ r, t.cond ≠ .undefined ∧ 11 ≤ t.sym := by
  refine ⟨fun h => ?_, toMarkdown_none hw⟩
  by_contra hc
  push Not at hc
  obtain ⟨text, e⟩ := toMarkdown_some hw hd hc.1 fun r hr t ht hu => by
    have := hc.2 r hr t ht hu
    omega
  rw [e] at h
  exact absurd h (by simp)

theorem C81_box_fails (m : SM) (hw : m.WF) (hd : Dirs m) :
    toBox m = none ↔ 71 < m.nStates ∨ ∃ r ∈ m.rows, ∃ t ∈ r, t.cond ≠ .undefined ∧ 11 ≤ t.sym := toBox_none_iff hw hd

/-! ## `IO_CGA_to_Morphett.py` -/

theorem join_newline (ls : List (List Char)) : List.intercalate ['\n'] ls = Py.join '\n' ls := by
  induction ls with
  | nil => rfl
  | cons l ls ih =>
    cases ls with
    | nil => simp [Py.join]
    | cons l' ls =>
      rw [List.intercalate_cons_cons, ih]
      simp [Py.join]

/-- **C81.** A sheet that describes a machine line by line, with blanks, empty lines and comments anywhere, is read as that machine, with
the names of its states in the order of the rows. -/
theorem C81_sheet (rs : List Row) (h : Sheet rs) (said : List (Option Row)) (hs : said.filterMap id = rs)
    (lines : List (List Char)) (hl : List.Forall₂ Says said lines) :
    ∃ m, cgaParse (List.intercalate ['\n'] lines) = some (m, rs.map (·.state)) ∧ m.nStates = rs.length ∧ m.nSyms = 2 ∧
      ∀ q < rs.length, ∀ a < 2, m.table q a = rowsTable rs q a := by
  refine ⟨SM.ofTable (rowsTable rs) rs.length 2, ?_, rfl, rfl, fun q hq a ha => ofTable_table (rowsTable_fits h) hq ha⟩
  rw [join_newline, cgaParse_sheet h hs hl]

/-- **C81, partial.** The file that is written then is read as the same machine, if every state has a transition, some transition reads
1, and the names are possible in that format (C51). -/
theorem C81_sheet_morphett_partial (rs : List Row) (h : Sheet rs) (said : List (Option Row)) (hs : said.filterMap id = rs)
    (lines : List (List Char)) (hl : List.Forall₂ Says said lines) (hsmall : rs.length < 2 ^ 31)
    (hnames : ∀ r ∈ rs, (∀ c ∈ r.state, c ≠ ';' ∧ c ≠ '!') ∧ isHaltName r.state = false)
    (hall : ∀ r ∈ rs, r.on0 ≠ .undef ∨ r.on1 ≠ .undef) (hone : ∃ r ∈ rs, r.on1 ≠ .undef) :
    ∃ text m, cgaMain (List.intercalate ['\n'] lines) = some text ∧ morphRead text = some m ∧
      m.nStates = rs.length ∧ m.nSyms = 2 ∧ ∀ q < rs.length, ∀ a < 2, m.table q a = rowsTable rs q a := by
  obtain ⟨m, e, h1, h2, h3⟩ := C81_sheet rs h said hs lines hl
  have hpos : 0 < rs.length := List.length_pos_of_ne_nil h.rows
  have hm : m = SM.ofTable (rowsTable rs) rs.length 2 := by
    rw [join_newline, cgaParse_sheet h hs hl, Option.some.injEq, Prod.mk.injEq] at e
    exact e.1.symm
  obtain ⟨hw, hd⟩ := ofTable_wf hpos (by decide : 0 < 2) (rowsTable_fits h)
  rw [← hm] at hw hd
  have hS : (rs.map (·.state)).length = m.nStates := by rw [List.length_map, h1]
  have hN : Names m (rs.map (·.state)) [['0'], ['1']] := by
    refine ⟨hS, by rw [h2]; rfl, ?_, ?_, h.distinct, by decide⟩
    · intro s hs'
      obtain ⟨r, hr, rfl⟩ := List.mem_map.1 hs'
      have hwd := h.words r hr
      exact ⟨⟨hwd.1, fun c hc => ⟨(hwd.2 c hc).1, (hnames r hr).1 c hc⟩⟩, (hnames r hr).2⟩
    · intro s hs'
      simp only [List.mem_cons, List.not_mem_nil, or_false] at hs'
      rcases hs' with rfl | rfl <;> exact ⟨by simp, by decide⟩
  have hinstr : ∀ a : Act, a ≠ .undef → a.instr (rs.map (·.state)) ≠ .undef := by
    intro a ha
    cases a with
    | undef => exact absurd rfl ha
    | halt => simp [Act.instr]
    | go w d q => simp [Act.instr]
  have cell0 : ∀ q (hq : q < rs.length), rowsTable rs q 0 = rs[q].on0.instr (rs.map (·.state)) := by
    intro q hq
    unfold rowsTable
    rw [List.getElem?_eq_getElem hq]
    rfl
  have cell1 : ∀ q (hq : q < rs.length), rowsTable rs q 1 = rs[q].on1.instr (rs.map (·.state)) := by
    intro q hq
    unfold rowsTable
    rw [List.getElem?_eq_getElem hq]
    rfl
  have hO : InOrder m := by
    refine ⟨?_, ?_, ?_⟩
    · intro q hq
      rw [h1] at hq
      rcases hall _ (List.getElem_mem hq) with h0 | h0
      · refine ⟨0, by rw [h2]; decide, ?_⟩
        rw [h3 q hq 0 (by decide), cell0 q hq]
        exact hinstr _ h0
      · refine ⟨1, by rw [h2]; decide, ?_⟩
        rw [h3 q hq 1 (by decide), cell1 q hq]
        exact hinstr _ h0
    · intro a ha h0
      rw [h2] at ha
      obtain rfl : a = 1 := by omega
      obtain ⟨r, hr, h0⟩ := hone
      obtain ⟨q, hq, rfl⟩ := List.getElem_of_mem hr
      refine ⟨q, by rw [h1]; exact hq, ?_⟩
      rw [h3 q hq 1 (by decide), cell1 q hq]
      exact hinstr _ h0
    · intro q' _ a' ha' _ a ha h0
      rw [h2] at ha'
      omega
  have hst : m.Storable := by
    intro _ r hr t ht hu
    have := wf_sym (hw.cells r hr t ht) hu
    rw [h2] at this
    omega
  have hsm : m.Small := ⟨by rw [h1]; exact hsmall, by rw [h2]; decide⟩
  obtain ⟨p', mr, hrec, -, -, -⟩ := writeTM_ok hw hd hsm hst { ttable := .unset, allowNoHalt := false }
  have hrec : mkRecord m = some (p', mr) := hrec
  obtain ⟨text, m', w1, w2, w3, -⟩ := morph_roundtrip hw hd hsm hst hN hO
  refine ⟨text, m', ?_, w2, by rw [← w3.1, h1], by rw [← w3.2.1, h2], fun q hq a ha => by rw [← w3.2.2, h3 q hq a ha]⟩
  unfold cgaMain
  rw [e]
  simp only [Option.bind_some]
  rw [hrec]
  simp only [Option.bind_some]
  rw [morphWrite_record hrec, w1]

/-- **C81, negation.** A direction that is neither L nor R is not refused: it is written as a move to the right. -/
theorem C81_direction_false : cgaMain "A 1 X A 0 L A".toList = some "A _ 1 r A\nA 1 _ l A\n".toList := by decide +kernel

/-! ## `Convert_Format.py` -/

/-- **C81.** A file in the format "Marxen2" with one machine and nothing after it: the rows of the table are the machine. -/
theorem C81_marxen (T : Table) (n k : Nat) (hn : 0 < n) (hn' : n ≤ 25) (hk : 0 < k) (hk' : k ≤ 10) (hf : Fits T n k)
    (ht : ∀ q < n, ∀ a < k, T q a ≠ .undef) (info : List (List Char)) (hi : ∀ l ∈ info, l.take 3 ≠ "A: ".toList) :
    convert (marxenFile info T n k) = .written ((List.range n).map fun q => (List.range k).map fun a => triple (T q a)) := by
  have hi' : ∀ l ∈ info, l.take 3 ≠ ['A', ':', ' '] := hi
  have hskip : convSkip (marxenFile info T n k) = (List.range n).map (marxenLine T k) := by
    unfold marxenFile
    have := convSkip_info ("%% Format: Marxen2\n".toList :: info) ((List.range n).map (marxenLine T k)) (by
      intro l hl
      rcases List.mem_cons.1 hl with rfl | hl
      · decide
      · exact hi' l hl)
    rw [List.cons_append] at this
    rw [this]
    obtain ⟨n, rfl⟩ : ∃ n', n = n' + 1 := ⟨n - 1, by omega⟩
    obtain ⟨k, rfl⟩ : ∃ k', k = k' + 1 := ⟨k - 1, by omega⟩
    rw [List.range_succ_eq_map, List.map_cons]
    refine if_pos ?_
    unfold marxenLine
    rw [List.range_succ_eq_map, List.map_cons, List.flatten_cons, List.cons_append]
    rfl
  have hrows := convRows_file T n k hn' hk' hf ht (List.range n) fun q hq => List.mem_range.1 hq
  unfold convert
  have e1 : ((marxenFile info T n k).headD []).take 11 = "%% Format: ".toList := by
    unfold marxenFile
    rw [List.headD_cons]
    decide
  have e2 : (((marxenFile info T n k).headD []).drop 11).dropLast = "Marxen2".toList := by
    unfold marxenFile
    rw [List.headD_cons]
    decide
  dsimp only
  rw [if_pos e1, if_pos e2, hskip]
  cases hc : (List.range n).map (marxenLine T k) with
  | nil =>
    have := congrArg List.length hc
    simp at this
    omega
  | cons l ls =>
    rw [hc] at hrows
    simp only
    rw [hrows]

/-- **C81.** A tagged file without a line for the state A: the program does not end. -/
theorem C81_marxen_hangs (rest : List (List Char)) (h : ∀ l ∈ rest, l.take 3 ≠ "A: ".toList) :
    convert ("%% Format: Marxen2\n".toList :: rest) = .loops := by
  have := convSkip_nil ("%% Format: Marxen2\n".toList :: rest) (by
    intro l hl
    rcases List.mem_cons.1 hl with rfl | hl
    · decide
    · exact h l hl)
  unfold convert
  have e1 : (("%% Format: Marxen2\n".toList :: rest).headD []).take 11 = "%% Format: ".toList := by
    rw [List.headD_cons]; decide
  have e2 : ((("%% Format: Marxen2\n".toList :: rest).headD []).drop 11).dropLast = "Marxen2".toList := by
    rw [List.headD_cons]; decide
  dsimp only
  rw [if_pos e1, if_pos e2, this]

/-- the beginning of `Machines/Tools/Pavel.Kropitz.6x2.bb.marxen`, with two states -/
def pavel2 : List (List Char) := ["%% Format: Marxen2\n".toList, "A: B1R B0L\n".toList, "B: A1L H1L\n".toList]

/-- **C81, negation.** Halting written as H, as in a file of the repository, becomes a step to state number 7, whatever the number of
states. -/
theorem C81_marxen_h_false : convert pavel2 = .written [[(1, 1, 1), (0, 0, 1)], [(1, 0, 0), (1, 0, 7)]] := by decide +kernel

/-- a file with two machines, as `Machines/Tools/Marxen2-6x2` -/
def two2 : List (List Char) := ["%% Format: Marxen2\n".toList, "A: B1R Z1R\n".toList, "B: A1L A0L\n".toList, "\n".toList,
  "Name  = b\n".toList, "A: B1R Z1R\n".toList, "B: A1L A1L\n".toList]

/-- **C81, negation.** A file with several machines raises an exception at the data of the second one; an empty line at the end
becomes a state without transitions. -/
theorem C81_marxen_two_false : convert two2 = .raises ∧
    convert (two2.take 4) = .written [[(1, 1, 1), (1, 1, -1)], [(1, 0, 0), (0, 0, 0)], []] := by decide +kernel

/-! ## Concrete cases -/

/-- the champion of two states and four symbols -/
def champ24 : SM := SM.ofTable (fun q a => match q, a with
  | 0, 0 => .go 1 .R 1 | 0, 1 => .go 2 .L 0 | 0, 2 => .go 1 .R 0 | 0, 3 => .go 1 .R 0
  | 1, 0 => .go 1 .L 1 | 1, 1 => .go 1 .L 0 | 1, 2 => .go 3 .R 1 | _, _ => .halt 1 .R) 2 4

-- the text in the comment of `TM_Print.py`
example : toMarkdown champ24 = some ("|     |  0  |  1  |  2  |  3  |\n| :-: | :-: | :-: | :-: | :-: |\n|  A  | 1RB | 2LA | 1RA | 1RA |\n" ++
    "|  B  | 1LB | 1LA | 3RB | 1RZ |\n").toList := by decide +kernel

theorem champ24_ok : champ24.WF ∧ champ24.Moves := ofTable_wf (by decide) (by decide) (by decide)

example : ∃ text, toMarkdown champ24 = some text ∧ tableCells text = [["", "0", "1", "2", "3"].map String.toList,
    [":-:", ":-:", ":-:", ":-:", ":-:"].map String.toList, ["A", "1RB", "2LA", "1RA", "1RA"].map String.toList,
    ["B", "1LB", "1LA", "3RB", "1RZ"].map String.toList] := by
  obtain ⟨t, h1, h2⟩ := C81_markdown champ24 champ24_ok.1 (fun r hr t ht _ => (champ24_ok.2 r hr t ht).imp id Or.inl) (by decide)
    (by unfold champ24; decide)
  exact ⟨t, h1, h2.trans (by decide +kernel)⟩

-- machines to which the theorem on equal tables applies
example : NoZ champ24 ∧ Dirs champ24 := by unfold NoZ Dirs champ24; decide

/-- a sheet with two rows -/
def sheet2 : List Row := [⟨['A'], .go 1 .R ['B'], .go 1 .L ['B']⟩, ⟨['B'], .go 1 .L ['A'], .halt⟩]

theorem sheet2_ok : Sheet sheet2 := by
  refine ⟨by simp [sheet2], ?_, by decide, ?_⟩
  · unfold StateWord; decide
  · intro r hr a ha w d q e
    simp only [sheet2, List.mem_cons, List.not_mem_nil, or_false] at hr
    rcases hr with rfl | rfl <;> rcases ha with rfl | rfl <;> simp at e <;> simp [sheet2, ← e.2.2]

theorem sheet2_says : List.Forall₂ Says [none, some ⟨['A'], .go 1 .R ['B'], .go 1 .L ['B']⟩, some ⟨['B'], .go 1 .L ['A'], .halt⟩]
    ["# two states".toList, "A 1 R B 1 L B ".toList, "B 1 L A\tH H H# halt".toList] := by
  have bl : ∀ c ∈ ([] : List Char), blank c := by simp
  refine .cons ⟨[], _, bl, Or.inr ⟨_, rfl, by decide⟩, rfl⟩ (.cons ?_ (.cons ?_ .nil))
  · refine ⟨"A 1 R B 1 L B ".toList, [], ?_, Or.inl rfl, rfl⟩
    exact .cons (pre := []) (b := ' ') bl (Or.inl rfl) (by decide) (.cons (pre := []) (b := ' ') bl (Or.inl rfl) (by decide)
      (.cons (pre := []) (b := ' ') bl (Or.inl rfl) (by decide) (.cons (pre := []) (b := ' ') bl (Or.inl rfl) (by decide)
      (.cons (pre := []) (b := ' ') bl (Or.inl rfl) (by decide) (.cons (pre := []) (b := ' ') bl (Or.inl rfl) (by decide)
      (.last (pre := []) (post := [' ']) bl (by intro c hc; exact Or.inl (by simpa using hc))))))))
  · refine ⟨"B 1 L A\tH H H".toList, "# halt".toList, ?_, Or.inr ⟨_, rfl, by decide⟩, rfl⟩
    exact .cons (pre := []) (b := ' ') bl (Or.inl rfl) (by decide) (.cons (pre := []) (b := ' ') bl (Or.inl rfl) (by decide)
      (.cons (pre := []) (b := ' ') bl (Or.inl rfl) (by decide) (.cons (pre := []) (b := '\t') bl (Or.inr rfl) (by decide)
      (.cons (pre := []) (b := ' ') bl (Or.inl rfl) (by decide) (.cons (pre := []) (b := ' ') bl (Or.inl rfl) (by decide)
      (.last (pre := []) (post := []) bl bl))))))

example : ∃ text m, cgaMain "# two states\nA 1 R B 1 L B \nB 1 L A\tH H H# halt".toList = some text ∧ morphRead text = some m ∧
    m.nStates = 2 ∧ m.nSyms = 2 ∧ ∀ q < 2, ∀ a < 2, m.table q a = rowsTable sheet2 q a :=
  C81_sheet_morphett_partial sheet2 sheet2_ok _ rfl _ sheet2_says (by decide) (by decide) (by decide) (by decide)

example : rowsTable sheet2 0 0 = .go 1 .R 1 ∧ rowsTable sheet2 1 1 = .halt 1 .R := by decide

example : convert (marxenFile ["ones = 4\n".toList] (fun q a => match q, a with
    | 0, 0 => .go 1 .R 1 | 0, _ => .go 1 .L 1 | _, 0 => .go 1 .L 0 | _, _ => .halt 1 .R) 2 2) =
    .written [[(1, 1, 1), (1, 0, 1)], [(1, 0, 0), (1, 1, -1)]] :=
  C81_marxen _ 2 2 (by decide) (by decide) (by decide) (by decide) (by decide) (by decide) _ (by decide)

end Props

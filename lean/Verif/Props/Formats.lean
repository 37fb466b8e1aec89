import Verif.Lemmas.Records2
import Verif.Props.Macro

/-!
# C25 to C30: machine formats and record files

`SM` is a machine object as Python stores it.  `m.WF`: a full table of transitions whose symbols and states
are in range; `m.Moves`: every direction is left or right; `m.table` is the transition table it stands for.
The formats themselves are written down in `Spec/Format.lean` (`tableBytes`, `tableText`, `tableList`,
`bbcBytes`) as functions of a transition table.
-/

namespace Props
open Spec Model Model.IO

/-! ## Example machines -/

/-- the 5-state champion `1RB1LC_1RC1RB_1RD0LE_1LA1LD_1RZ0LA` -/
def bb5 : Table := tbl [[.go 1 .R 1, .go 1 .L 2], [.go 1 .R 2, .go 1 .R 1], [.go 1 .R 3, .go 0 .L 4],
  [.go 1 .L 0, .go 1 .L 3], [.halt 1 .R, .go 0 .L 0]]

def bb5m : SM := SM.ofTable bb5 5 2

theorem bb5_fits : Fits bb5 5 2 := by decide

/-- a table with an undefined cell and 3 symbols: `1RB0LB2LA_2LA1RB---` -/
def part3 : Table := tbl [[.go 1 .R 1, .go 0 .L 1, .go 2 .L 0], [.go 2 .L 0, .go 1 .R 1, .undef]]

def part3m : SM := SM.ofTable part3 2 3

theorem part3_fits : Fits part3 2 3 := by decide

/-- an 8-state machine: state i, reading 0, writes 1, moves right and goes to state i+1; the last one halts -/
def walk8 : Table := tbl [[.go 1 .R 1, .go 0 .L 0], [.go 1 .R 2, .go 0 .L 0], [.go 1 .R 3, .go 0 .L 0],
  [.go 1 .R 4, .go 0 .L 0], [.go 1 .R 5, .go 0 .L 0], [.go 1 .R 6, .go 0 .L 0], [.go 1 .R 7, .go 0 .L 0],
  [.halt 1 .R, .undef]]

def walk8m : SM := SM.ofTable walk8 8 2

theorem walk8_fits : Fits walk8 8 2 := by decide

/-! ## C25 -/

/-- **C25.** A machine with at most 7 states that writes only the symbols 0 to 6 packs to one byte per
transition, laid out as specified. -/
theorem C25_pack_layout (m : SM) (hw : m.WF) (hd : m.Moves) (hn : m.nStates ≤ 7)
    (hs : ∀ r ∈ m.rows, ∀ t ∈ r, t.sym < 7) :
    packTM m = some (tableBytes m.table m.nStates m.nSyms) := by
  rw [packTM_eq hw hd, tableBytes_eq hw hd]
  intro r hr t ht
  by_cases hu : t.cond = .undefined
  · exact Or.inl hu
  · have hc := hw.cells r hr t ht
    have := wf_sym hc hu
    have := hs r hr t ht
    right
    obtain ⟨c, s, d, q⟩ := t
    unfold BTrans.WF at hc
    cases c with
    | undefined => exact absurd rfl hu
    | halt => simp only at *; omega
    | running => simp only at *; omega

/-- **C25, partial.** Whatever packs, unpacks to the same machine -- provided every direction is left or
right.  Missing: machines with another direction, see `C25_stay_is_lost`. -/
theorem C25_unpack_pack_partial (m : SM) (hw : m.WF) (hd : m.Moves) (b : List Nat) (h : packTM m = some b) :
    unpackTM b = some m ∧ b.length = m.nStates * m.nSyms := by
  have hf := packTM_fits h
  rw [packTM_eq hw hd hf] at h
  cases h
  refine ⟨unpack_pack hw hd hf, ?_⟩
  rw [flatten_length_const (k := m.nSyms)]
  · simp [hw.height]
  · intro l hl
    obtain ⟨r, hr, rfl⟩ := List.mem_map.1 hl
    rw [length_rowBytes, hw.width r hr]

/-- **C25.** Packing is refused exactly when a transition writes a symbol above 6 or goes to a state above 6. -/
theorem C25_reject (m : SM) (hw : m.WF) (hd : m.Moves) :
    packTM m = none ↔ ∃ r ∈ m.rows, ∃ t ∈ r, t.cond ≠ .undefined ∧ (7 ≤ t.sym ∨ 7 ≤ t.st) := by
  constructor
  · intro h
    by_contra hc
    push Not at hc
    rw [packTM_eq hw hd] at h
    · cases h
    intro r hr t ht
    by_cases hu : t.cond = .undefined
    · exact Or.inl hu
    · have hb := hc r hr t ht hu
      have hc := hw.cells r hr t ht
      right
      obtain ⟨c, s, d, q⟩ := t
      unfold BTrans.WF at hc
      cases c with
      | undefined => exact absurd rfl hu
      | halt => simp only at *; omega
      | running => simp only at *; omega
  · rintro ⟨r, hr, t, ht, hu, hb⟩
    cases hp : packTM m with
    | none => rfl
    | some b =>
      rcases packTM_fits hp r hr t ht with h | h
      · exact absurd h hu
      · omega

/-- **C25.** Any byte string is either refused or read as a proper machine. -/
theorem C25_unpack_sane (b : List Nat) (m : SM) (h : unpackTM b = some m) : m.WF ∧ m.Moves := unpackTM_wf h

/-- **C25 fails for other directions.** A transition that stays in place (direction 2, `STAY`) is packed
without an error and comes back as a move to the left. -/
theorem C25_stay_is_lost : ∃ (m m' : SM) (b : List Nat), m.WF ∧ packTM m = some b ∧ unpackTM b = some m' ∧ m' ≠ m ∧
    m.rows = [[{ cond := .running, sym := 0, dir := 2, st := 0 }]] ∧
    m'.rows = [[{ cond := .running, sym := 0, dir := 0, st := 0 }]] := by
  refine ⟨{ rows := [[{ cond := .running, sym := 0, dir := 2, st := 0 }]], nStates := 1, nSyms := 1 },
    { rows := [[{ cond := .running, sym := 0, dir := 0, st := 0 }]], nStates := 1, nSyms := 1 }, [137],
    ⟨by decide, by decide, rfl, by simp, by simp [BTrans.WF]⟩, by decide, by decide, by decide, rfl, rfl⟩

-- the champion meets the hypotheses; its ten bytes
example : bb5m.WF ∧ bb5m.Moves ∧ bb5m.nStates ≤ 7 ∧ (∀ r ∈ bb5m.rows, ∀ t ∈ r, t.sym < 7) :=
  ⟨(ofTable_wf (by decide) (by decide) bb5_fits).1, (ofTable_wf (by decide) (by decide) bb5_fits).2, by decide, by decide⟩
example : packTM bb5m = some [210, 26, 218, 82, 226, 41, 138, 34, 194, 9] := by decide
example : unpackTM [210, 26, 218, 82, 226, 41, 138, 34, 194, 9] = some bb5m := by decide
-- 8 states do not fit
example : packTM walk8m = none := by decide
-- malformed strings
example : unpackTM [] = none ∧ unpackTM [1] = none ∧ unpackTM [128, 0, 129, 1, 1] ≠ none := by decide

/-! ## C26 -/

/-- **C26, partial.** Up to 7 states and 8 symbols: a machine that can be written is read back unchanged.
Missing: larger machines, see `C26_large_machine_lost`. -/
theorem C26_message_roundtrip_partial (m : SM) (hw : m.WF) (hd : m.Moves) (hn : m.nStates ≤ 7) (hk : m.nSyms ≤ 8)
    (p p' : ProtoTM) (m' : SM) (h : writeTM m p = some (p', m')) : readTM p' = some m ∧ m' = m := by
  unfold writeTM at h
  rw [if_pos ⟨hn, hk⟩, Option.map_eq_some_iff] at h
  obtain ⟨b, hb, h⟩ := h
  cases h
  exact ⟨(C25_unpack_pack_partial m hw hd b hb).1, rfl⟩

/-- **C26.** Up to 7 states and 7 symbols writing never fails. -/
theorem C26_message_writable (m : SM) (hw : m.WF) (hd : m.Moves) (hn : m.nStates ≤ 7) (hk : m.nSyms ≤ 7) (p : ProtoTM) :
    ∃ p', writeTM m p = some (p', m) ∧ readTM p' = some m := by
  obtain ⟨p', m', h1, -, -, h4⟩ := writeTM_ok hw hd ⟨by omega, by omega⟩ (fun _ r hr t ht hu => by
    have := wf_sym (hw.cells r hr t ht) hu
    omega) p
  obtain ⟨rfl, h5⟩ := h4 ⟨hn, by omega⟩
  exact ⟨p', h1, h5⟩

/-- **C26.** A larger machine is written correctly: the message holds its size and the three numbers of each
transition, row by row; the machine itself is (observably) unchanged. -/
theorem C26_list_contents (m : SM) (hw : m.WF) (hd : m.Moves) (hbig : 7 < m.nStates ∨ 8 < m.nSyms)
    (hs : m.nStates < 2 ^ 31) (hk : m.nSyms < 2 ^ 31) (p : ProtoTM) :
    ∃ m', m.Same m' ∧ writeTM m p = some ({ p with ttable := .list { nStates := m.nStates, nSyms := m.nSyms
                                                                     ttable := tableList m.table m.nStates m.nSyms } }, m') := by
  refine ⟨{ m with rows := m.rows.map (·.map listTrans) }, ⟨rfl, rfl, (listTrans_table m).symm⟩, ?_⟩
  unfold writeTM
  rw [if_neg (by omega), tmToList_eq hw hd ⟨hs, hk⟩, tableList_eq hw hd]
  rfl

/-- **C26 fails for every larger machine that is not constant.** Whatever list message is read, all
transitions of the resulting machine are the same. -/
theorem C26_list_read_is_constant (l : TMList) (al : Bool) (m : SM) (hn : 0 < l.nStates) (hk : 0 < l.nSyms)
    (h : readTM { ttable := .list l, allowNoHalt := al } = some m) :
    ∀ q < m.nStates, ∀ a < m.nSyms, m.table q a = m.table 0 0 := by
  obtain ⟨t, rfl, -⟩ := tmFromList_const hn hk h
  intro q hq a ha
  simp only at hq ha
  rw [table_replicate _ _ t hq ha, table_replicate _ _ t (by omega) (by omega)]

/-- The witness: an 8-state machine is written without an error and read back as a different one. -/
theorem C26_large_machine_lost : walk8m.WF ∧ walk8m.Moves ∧ ∃ p' m' m'', writeTM walk8m { ttable := .unset, allowNoHalt := false } =
    some (p', m') ∧ readTM p' = some m'' ∧ m''.table 1 0 ≠ walk8m.table 1 0 := by
  have hw := ofTable_wf (by decide) (by decide) walk8_fits
  refine ⟨hw.1, hw.2, ?_⟩
  obtain ⟨m', -, h⟩ := C26_list_contents walk8m hw.1 hw.2 (Or.inl (by decide)) (by decide) (by decide) { ttable := .unset, allowNoHalt := false }
  exact ⟨_, m', _, h, rfl, by decide⟩

/-- **C26: the bounds do not match.** A machine with 8 symbols is sent to the packed format, which has no code
for the symbol 7: writing it is refused. -/
theorem C26_eight_symbols : ∃ m : SM, m.WF ∧ m.Moves ∧ m.nStates = 1 ∧ m.nSyms = 8 ∧
    ∀ p, writeTM m p = none := by
  refine ⟨SM.ofTable (tbl [[.go 7 .R 0]]) 1 8, ?_, ?_, rfl, rfl, fun p => ?_⟩
  · exact (ofTable_wf (by decide) (by decide) (by decide)).1
  · exact (ofTable_wf (by decide) (by decide) (by decide)).2
  · unfold writeTM
    rw [if_pos (by decide), show packTM (SM.ofTable (tbl [[.go 7 .R 0]]) 1 8) = none by decide]
    rfl

example : ∃ p', writeTM part3m { ttable := .unset, allowNoHalt := false } = some (p', part3m) ∧ readTM p' = some part3m :=
  C26_message_writable _ (ofTable_wf (by decide) (by decide) part3_fits).1
    (ofTable_wf (by decide) (by decide) part3_fits).2 (by decide) (by decide) _

/-! ## C27 -/

/-- **C27.** Printing gives the standard text. -/
theorem C27_print (m : SM) (hw : m.WF) (hd : m.Moves) (hn : m.nStates < 25) (hk : m.nSyms < 10) :
    m.toStr = some (tableText m.table m.nStates m.nSyms) := by
  rw [toStr_eq hw hd hn hk, tableText_eq hw]

/-- **C27.** Parsing the printed text gives the machine back. -/
theorem C27_parse_print (m : SM) (hw : m.WF) (hd : m.Moves) (hn : m.nStates < 25) (hk : m.nSyms < 10) :
    ∃ s, m.toStr = some s ∧ parseTM s = some m :=
  ⟨_, toStr_eq hw hd hn hk, parse_print hw hd hn hk⟩

/-- **C27.** Parsing the standard text of any transition table gives a machine with that table, and printing
it gives the text back. -/
theorem C27_print_parse (T : Table) (n k : Nat) (hn : 0 < n) (hk : 0 < k) (hn' : n < 25) (hk' : k < 10) (h : Fits T n k) :
    ∃ m, parseTM (tableText T n k) = some m ∧ m.nStates = n ∧ m.nSyms = k ∧
      (∀ q < n, ∀ a < k, m.table q a = T q a) ∧ m.toStr = some (tableText T n k) := by
  have hw := ofTable_wf hn hk h
  have ht : tableText (SM.ofTable T n k).table n k = tableText T n k := by
    unfold tableText rowText
    congr 1
    apply List.map_congr_left
    intro q hq
    congr 1
    apply List.map_congr_left
    intro a ha
    rw [ofTable_table h (List.mem_range.1 hq) (List.mem_range.1 ha)]
  have hp := C27_print _ hw.1 hw.2 hn' hk'
  obtain ⟨s, h1, h2⟩ := C27_parse_print _ hw.1 hw.2 hn' hk'
  have hs : s = tableText T n k := by
    rw [hp] at h1
    cases h1
    exact ht
  exact ⟨_, by rw [← hs]; exact h2, rfl, rfl, fun q hq a ha => ofTable_table h hq ha, by rw [h1, hs]⟩

/-- **C27.** Outside the bounds the text is empty. -/
theorem C27_outside (m : SM) (h : 25 ≤ m.nStates ∨ 10 ≤ m.nSyms) : m.toStr = some [] := by
  unfold SM.toStr
  rw [if_neg (by omega)]

/-- **C27.** Any text is either refused or read as a proper machine. -/
theorem C27_parse_sane (s : List Char) (m : SM) (h : parseTM s = some m) : m.WF ∧ m.Moves := parseTM_wf h

example : bb5m.toStr = some "1RB1LC_1RC1RB_1RD0LE_1LA1LD_1RZ0LA".toList := by decide
example : parseTM "1RB1LC_1RC1RB_1RD0LE_1LA1LD_1RZ0LA".toList = some bb5m := by decide +kernel
example : parseTM "1RB0LB2LA_2LA1RB---".toList = some part3m := by decide +kernel
example : tableText part3 2 3 = "1RB0LB2LA_2LA1RB---".toList := by decide
example : parseTM "1RB 1LC".toList = none ∧ parseTM "1RB1L".toList = none ∧ parseTM "1XB".toList = none := by decide

/-! ## C28 -/

/-- **C28, partial.** For records of machines with fewer than 25 states and 10 symbols (and which a record can
hold at all), with rendered step counts and scores: the written file reads back as the same machines in the same
order, and record number `n` is the `n`-th.  Missing: larger machines, see `C28_later_records_lost`. -/
theorem C28_text_file_partial (rs : List TextRec) (h : ∀ r ∈ rs, r.OK) :
    ∃ s ms, writeText rs = some s ∧ ms.length = rs.length ∧
      (∀ (i : Nat) (hi : i < rs.length) (hi' : i < ms.length), rs[i].m.Same ms[i] ∧
        (rs[i].m.nStates ≤ 7 ∧ rs[i].m.nSyms ≤ 8 → ms[i] = rs[i].m)) ∧
      (∀ fuel, rs.length < fuel → readAllText fuel s = some ms) ∧ ∀ n, loadText n s = some ms[n]? :=
  textFile rs h

/-- a machine with 10 symbols, which has no text form -/
def ten : SM := SM.ofTable (tbl [[.go 1 .R 0]]) 1 10

/-- **C28 fails for machines outside the bounds of the text format.** The record of such a machine is written
without an error as an empty line, which the reader takes for the end of the file: the records after it are lost. -/
theorem C28_later_records_lost : ten.WF ∧ ten.Moves ∧ ∃ s, writeText [{ m := ten, halt := none }, { m := bb5m, halt := none }] = some s ∧
    ∀ fuel, 0 < fuel → readAllText fuel s = some [] := by
  have hw := ofTable_wf (T := tbl [[.go 1 .R 0]]) (n := 1) (k := 10) (by decide) (by decide) (by decide)
  refine ⟨hw.1, hw.2, "\n1RB1LC_1RC1RB_1RD0LE_1LA1LD_1RZ0LA\n".toList, by decide, fun fuel hf => ?_⟩
  cases fuel with
  | zero => omega
  | succ fuel =>
    unfold readAllText
    rw [show readText "\n1RB1LC_1RC1RB_1RD0LE_1LA1LD_1RZ0LA\n".toList = .eof by decide +kernel]

theorem bb5_storable : bb5m.Storable := by
  intro _
  decide

def exRecs : List TextRec := [{ m := bb5m, halt := some ("47176870".toList, "4098".toList) },
  { m := part3m, halt := none }]

-- a case meeting the hypotheses, and its file
example : ∀ r ∈ exRecs, r.OK := by
  have hb := ofTable_wf (by decide) (by decide) bb5_fits
  have hp := ofTable_wf (by decide) (by decide) part3_fits
  intro r hr
  rcases List.mem_cons.1 hr with rfl | hr
  · refine ⟨hb.1, hb.2, by decide, by decide, bb5_storable, ?_⟩
    intro s t h
    cases h
    decide
  · rw [List.mem_singleton.1 hr]
    refine ⟨hp.1, hp.2, by decide, by decide, fun _ => by decide, ?_⟩
    intro s t h
    cases h
example : writeText exRecs = some "1RB1LC_1RC1RB_1RD0LE_1LA1LD_1RZ0LA Halt 47176870 4098\n1RB0LB2LA_2LA1RB---\n".toList := by
  decide

/-! ## C29

`enc` and `parse` stand for protobuf's `SerializeToString` and `ParseFromString`. -/

section
variable {α : Type}

/-- the bytes of a file: every record is preceded by the length of its serialisation -/
def fileBytes (enc : α → List Nat) (as : List α) : List Nat :=
  (as.map fun a => ((writeFrame (enc a)).getD [])).flatten

/-- **C29.** A file truncated anywhere yields a prefix of the records -- all those that are complete -- and then
the end of the file, or an error if the cut is inside a record. -/
theorem C29_truncated (parse : List Nat → Option α) (enc : α → List Nat) (hdec : ∀ a, parse (enc a) = some a)
    (as : List α) (hlen : ∀ a ∈ as, (enc a).length < 2 ^ 32) (cut fuel : Nat) (hcut : cut ≤ (fileBytes enc as).length)
    (hf : as.length < fuel) :
    ∃ j ≤ as.length, (fileBytes enc (as.take j)).length ≤ cut ∧
      (j < as.length → cut < (fileBytes enc (as.take (j + 1))).length) ∧
      readAllFrames parse ((fileBytes enc as).take cut) fuel 0 =
        (as.take j, if (fileBytes enc (as.take j)).length = cut then .eof else .raise) := by
  have := readAll_cut parse enc hdec as hlen [] cut fuel hcut hf
  simpa [fileBytes, frame] using this

/-- **C29.** A complete file reads back as the written sequence. -/
theorem C29_complete (parse : List Nat → Option α) (enc : α → List Nat) (hdec : ∀ a, parse (enc a) = some a)
    (as : List α) (hlen : ∀ a ∈ as, (enc a).length < 2 ^ 32) (fuel : Nat) (hf : as.length < fuel) :
    readAllFrames parse (fileBytes enc as) fuel 0 = (as, .eof) := by
  obtain ⟨j, j1, j2, j3, j4⟩ := C29_truncated parse enc hdec as hlen (fileBytes enc as).length fuel (le_refl _) hf
  have hj : j = as.length := by
    by_contra hc
    have hlt := j3 (by omega)
    have : (fileBytes enc (as.take (j + 1))).length ≤ (fileBytes enc as).length := by
      have : fileBytes enc as = fileBytes enc (as.take (j + 1)) ++ fileBytes enc (as.drop (j + 1)) := by
        unfold fileBytes
        rw [← List.flatten_append, ← List.map_append, List.take_append_drop]
      rw [this, List.length_append]
      omega
    omega
  subst hj
  rw [List.take_length] at j4
  rw [List.take_length] at j4
  simpa using j4

/-- **C29.** Record number `n` is the `n`-th one written, found by skipping `n` records. -/
theorem C29_load (parse : List Nat → Option α) (enc : α → List Nat) (hdec : ∀ a, parse (enc a) = some a)
    (as : List α) (hlen : ∀ a ∈ as, (enc a).length < 2 ^ 32) (n : Nat) :
    loadFrame parse (fileBytes enc as) n 0 = some as[n]? := by
  have := load_frames parse enc hdec as hlen [] n
  simpa [fileBytes, frame] using this

/-- **C29.** On any file: where a record can be read, skipping has the same effect on the position; where the
end is found, skipping reports it. -/
theorem C29_skip_read (parse : List Nat → Option α) (data : List Nat) (pos : Nat) :
    (∀ a pos', readFrame parse data pos = .got a pos' → skipFrame data pos = some (true, pos')) ∧
    (readFrame parse data pos = .eof → skipFrame data pos = some (false, pos)) := by
  unfold readFrame skipFrame
  cases hl : readLen data pos with
  | raise => simp
  | eof => simp
  | got n p =>
    simp only
    constructor
    · intro a pos' h
      split at h
      · cases h
      · next hn =>
        split at h
        · cases h
        · cases h
          rw [not_not] at hn
          simp only [fread] at hn ⊢
          rw [hn]
    · intro h
      split at h
      · cases h
      · split at h <;> cases h

/-- The writer fails only for records of 4 GiB and more. -/
theorem C29_writable (p : List Nat) : writeFrame p = none ↔ 2 ^ 32 ≤ p.length := by
  unfold writeFrame packLE
  split
  · next h => simp; omega
  · next h => simp; omega

end

/-- Beyond the claim: on a file that ends within a record, skipping that record reports success, and the next
read then reports a regular end of the file. -/
theorem C29_skip_truncated : skipFrame [5, 0, 0, 0, 1] 0 = some (true, 9) ∧
    readFrame (α := List Nat) some [5, 0, 0, 0, 1] 9 = .eof ∧ readFrame (α := List Nat) some [5, 0, 0, 0, 1] 0 = .raise := by
  decide

-- three records, one of them empty; a cut within the last one
example : fileBytes id [[7, 8], [], [9]] = [2, 0, 0, 0, 7, 8, 0, 0, 0, 0, 1, 0, 0, 0, 9] := by decide
example : readAllFrames some (fileBytes id [[7, 8], [], [9]]) 5 0 = ([[7, 8], [], [9]], .eof) := by decide
example : readAllFrames some ((fileBytes id [[7, 8], [], [9]]).take 14) 5 0 = ([[7, 8], []], .raise) := by decide
example : readAllFrames some ((fileBytes id [[7, 8], [], [9]]).take 10) 5 0 = ([[7, 8], []], .eof) := by decide

/-! ## C30 -/

/-- **C30, partial.** Decoding the 30 bytes of a 5-state machine gives the machine back, if no halting transition
writes 0.  Missing: halting transitions that write 0, see `C30_halt_writing_zero`. -/
theorem C30_decode_partial (T : Table) (h : Fits T 5 2) (hz : ∀ q < 5, ∀ a < 2, ∀ d, T q a ≠ .halt 0 d) :
    ∃ m, bbcUnpack (bbcBytes T) = some m ∧ m.WF ∧ m.Moves ∧ m.nStates = 5 ∧ m.nSyms = 2 ∧ ∀ q < 5, ∀ a < 2, m.table q a = T q a := by
  have hw := ofTable_wf (T := bbcSeen T) (n := 5) (k := 2) (by omega) (by omega) (bbcSeen_fits h)
  refine ⟨_, bbcUnpack_bytes h, hw.1, hw.2, rfl, rfl, fun q hq a ha => ?_⟩
  rw [ofTable_table (bbcSeen_fits h) hq ha]
  have := hz q hq a ha
  unfold bbcSeen
  split
  · next d hd => exact absurd hd (this d)
  · rfl

/-- **C30.** Reading machine number `n` of a database file returns the machine stored in the `n`-th 30-byte
record after the header (`get_tm`, and `load_record` which skips records), or the end of the file if there is no such
record; reading on from there starts at the next record. -/
theorem C30_address (hdr : List Nat) (hh : hdr.length = 30) (Ts : List Table) (hT : ∀ T ∈ Ts, Fits T 5 2)
    (hz : ∀ T ∈ Ts, ∀ q < 5, ∀ a < 2, ∀ d, T q a ≠ .halt 0 d) (n : Nat) :
    (∀ hn : n < Ts.length, ∃ m, bbcGet (hdr ++ (Ts.map bbcBytes).flatten) n = .got m (30 + (n + 1) * 30) ∧
      bbcLoad (hdr ++ (Ts.map bbcBytes).flatten) n = .got m (30 + (n + 1) * 30) ∧
      m.WF ∧ m.Moves ∧ m.nStates = 5 ∧ m.nSyms = 2 ∧ ∀ q < 5, ∀ a < 2, m.table q a = Ts[n] q a) ∧
    (Ts.length ≤ n → bbcGet (hdr ++ (Ts.map bbcBytes).flatten) n = .eof ∧
      bbcLoad (hdr ++ (Ts.map bbcBytes).flatten) n = .eof) := by
  rw [bbcLoad_eq]
  obtain ⟨h1, h2⟩ := bbcGet_spec Ts hT hdr hh n
  refine ⟨fun hn => ?_, fun hn => ⟨h2 hn, h2 hn⟩⟩
  have hmem := List.getElem_mem hn
  obtain ⟨m, m1, m2⟩ := C30_decode_partial _ (hT _ hmem) (hz _ hmem)
  rw [bbcUnpack_bytes (hT _ hmem)] at m1
  cases m1
  exact ⟨_, h1 hn, h1 hn, m2⟩

/-- **C30.** Iterating over the file returns all machines in order. -/
theorem C30_iterate (hdr : List Nat) (hh : hdr.length = 30) (Ts : List Table) (hT : ∀ T ∈ Ts, Fits T 5 2)
    (hz : ∀ T ∈ Ts, ∀ q < 5, ∀ a < 2, ∀ d, T q a ≠ .halt 0 d) (fuel : Nat) (hf : Ts.length < fuel) :
    ∃ ms, bbcAll (hdr ++ (Ts.map bbcBytes).flatten) fuel 30 = (ms, .eof) ∧ ms.length = Ts.length ∧
      ∀ (i : Nat) (hi : i < Ts.length) (hi' : i < ms.length), ms[i].nStates = 5 ∧ ms[i].nSyms = 2 ∧
        ∀ q < 5, ∀ a < 2, ms[i].table q a = Ts[i] q a := by
  have := bbcAll_spec Ts hT hdr fuel hf
  rw [hh] at this
  refine ⟨_, this, by simp, fun i hi hi' => ?_⟩
  have hmem := List.getElem_mem hi
  obtain ⟨m, m1, -, -, m2⟩ := C30_decode_partial _ (hT _ hmem) (hz _ hmem)
  rw [bbcUnpack_bytes (hT _ hmem)] at m1
  cases m1
  simpa using m2

/-- **C30 fails for a halting transition that writes 0 and moves left**: its code differs from that of an
undefined transition, but it is read as one. -/
theorem C30_halt_writing_zero : bbcCell (.halt 0 .L) ≠ bbcCell .undef ∧ Fits (tbl [[.halt 0 .L]]) 5 2 ∧
    ∃ m, bbcUnpack (bbcBytes (tbl [[.halt 0 .L]])) = some m ∧ m.table 0 0 = .undef := by
  refine ⟨by decide, by decide, _, bbcUnpack_bytes (by decide), by decide⟩

/-- Beyond the claim: `skip_record` reports the end of the file for every record after the header. -/
theorem C30_skip_flag (pos : Nat) (h : 0 < pos) : (bbcSkip pos).1 = false := by
  unfold bbcSkip
  simp
  omega

/-- four bytes, most significant first -/
def be4 (n : Nat) : List Nat := [n / 16777216 % 256, n / 65536 % 256, n / 256 % 256, n % 256]

/-- Index files: a sequence of 32-bit big-endian numbers is read back; a file cut within a number raises. -/
theorem C30_index_file (ns : List Nat) (h : ∀ n ∈ ns, n < 2 ^ 32) (rest : List Nat) (hr : rest.length < 4) (fuel : Nat)
    (hf : ns.length < fuel) : bbcIndexes fuel ((ns.map be4).flatten ++ rest) = (ns, if rest = [] then .eof else .raise) := by
  induction ns generalizing fuel with
  | nil =>
    cases fuel with
    | zero => simp at hf
    | succ fuel =>
      match rest, hr with
      | [], _ => rfl
      | [_], _ => rfl
      | [_, _], _ => rfl
      | [_, _, _], _ => rfl
  | cons n ns ih =>
    cases fuel with
    | zero => simp at hf
    | succ fuel =>
      have hn := h n (by simp)
      simp only [List.map_cons, List.flatten_cons, be4, List.cons_append, List.nil_append]
      unfold bbcIndexes
      simp only
      have := ih (fun x hx => h x (List.mem_cons_of_mem _ hx)) fuel (by simpa using hf)
      rw [this]
      simp only [Prod.mk.injEq, and_true, List.cons.injEq]
      omega

-- the champion in the database format (with its halting cell as `1RZ`)
example : bbcBytes bb5 = [1, 0, 2, 1, 1, 3, 1, 0, 3, 1, 0, 2, 1, 0, 4, 0, 1, 5, 1, 1, 1, 1, 1, 4, 1, 0, 0, 0, 1, 1] := by decide
example : Fits bb5 5 2 ∧ ∀ q < 5, ∀ a < 2, ∀ d, bb5 q a ≠ .halt 0 d := ⟨bb5_fits, by
  intro q hq a ha d
  cases d <;> revert a ha <;> revert q hq <;> decide⟩

end Props

import Verif.Spec.Convert
import Verif.Lemmas.Records2
import Verif.Lemmas.Morphett

/-!
# Lemmas on file conversion
-/

namespace Model.Convert
open Model.IO Model.Status

/-! ## Storing a machine twice -/

/-- what storing a machine as a list does to the machine object -/
def listed (m : SM) : SM := { m with rows := m.rows.map (·.map listTrans) }

theorem listTrans_idem (t : BTrans) : listTrans (listTrans t) = listTrans t := by
  unfold listTrans
  split <;> simp_all

theorem mapO_map {α β γ : Type} (g : β → γ) (f : α → Option β) (f' : α → Option γ) (h : ∀ x, f' x = (f x).map g) (l : List α) :
    Py.mapO f' l = (Py.mapO f l).map (·.map g) := by
  induction l with
  | nil => rfl
  | cons x l ih =>
    unfold Py.mapO
    rw [h x, ih]
    cases f x <;> cases Py.mapO f l <;> rfl

theorem cells_listed (m : SM) : (listed m).cells = m.cells.map (·.map listTrans) := by
  unfold SM.cells
  rw [mapO_map (List.map listTrans) (fun q => Py.mapO (fun a => (m.rows[q]?).bind (·[a]?)) (List.range m.nSyms))]
  · show (Option.map _ (Py.mapO _ (List.range m.nStates))).map List.flatten = _
    cases Py.mapO (fun q => Py.mapO (fun a => (m.rows[q]?).bind (·[a]?)) (List.range m.nSyms)) (List.range m.nStates) with
    | none => rfl
    | some l => simp [List.map_flatten]
  · intro q
    apply mapO_map
    intro a
    simp only [listed, List.getElem?_map]
    cases m.rows[q]? with
    | none => rfl
    | some r => simp

theorem mkRecord_again {m m' : SM} {p : ProtoTM} (h : mkRecord m = some (p, m')) : mkRecord m' = some (p, m') := by
  unfold mkRecord writeTM at h ⊢
  by_cases hs : m.nStates ≤ 7 ∧ m.nSyms ≤ 8
  · rw [if_pos hs, Option.map_eq_some_iff] at h
    obtain ⟨b, hb, e⟩ := h
    cases e
    rw [if_pos hs, hb]; rfl
  · rw [if_neg hs, Option.map_eq_some_iff] at h
    obtain ⟨⟨l, m1⟩, hl, e⟩ := h
    cases e
    have hl0 := hl
    unfold tmToList at hl
    cases hc : m.cells with
    | none => rw [hc] at hl; cases hl
    | some cells =>
      rw [hc] at hl
      simp only at hl
      split at hl
      · next hi =>
        cases hl
        rw [if_neg hs]
        have hc' : (listed m).cells = some (cells.map listTrans) := by rw [cells_listed, hc]; rfl
        unfold tmToList
        rw [show SM.cells { m with rows := m.rows.map (·.map listTrans) } = _ from hc']
        have e1 : ((cells.map listTrans).map fun t => listInts (listTrans t)) = cells.map fun t => listInts (listTrans t) := by
          rw [List.map_map]
          apply List.map_congr_left
          intro t _
          simp [Function.comp, listTrans_idem]
        have e2 : (m.rows.map (·.map listTrans)).map (·.map listTrans) = m.rows.map (·.map listTrans) := by
          rw [List.map_map]
          apply List.map_congr_left
          intro r _
          simp only [Function.comp, List.map_map]
          apply List.map_congr_left
          intro t _
          exact listTrans_idem t
        simp only [e1, e2]
        rw [if_pos hi]
        rfl
      · cases hl

/-- what `mkRecord` does to the machine -/
theorem mkRecord_machine {m m' : SM} {p : ProtoTM} (h : mkRecord m = some (p, m')) :
    m' = m ∨ m' = listed m := by
  unfold mkRecord writeTM at h
  split at h
  · rw [Option.map_eq_some_iff] at h
    obtain ⟨b, hb, e⟩ := h
    cases e
    exact Or.inl rfl
  · rw [Option.map_eq_some_iff] at h
    obtain ⟨⟨l, m1⟩, hl, e⟩ := h
    cases e
    unfold tmToList at hl
    split at hl
    · cases hl
    · simp only at hl
      split at hl
      · cases hl; exact Or.inr rfl
      · cases hl

theorem toStr_listed (m : SM) : (listed m).toStr = m.toStr := by
  unfold SM.toStr listed
  simp only
  split
  · congr 1
    induction m.rows with
    | nil => rfl
    | cons r rs ih =>
      rw [List.map_cons]
      unfold Py.mapO
      rw [ih]
      congr 1
      congr 1
      induction r with
      | nil => rfl
      | cons t r ih2 =>
        rw [List.map_cons]
        unfold Py.mapO
        rw [ih2]
        have : (listTrans t).toStr = t.toStr := by
          unfold listTrans
          split
          · next hu => unfold BTrans.toStr; simp [hu]
          · rfl
        rw [this]
  · rfl

theorem same_listed (m : SM) : m.Same (listed m) := ⟨rfl, rfl, (listTrans_table m).symm⟩

/-! ## Readers -/

section
variable {I E : Type} (L : Lib I E)

theorem newRec_spec {m : SM} {S Y : List Name} {r : Rec I} (h : newRec L m S Y = some r) :
    ∃ p m', mkRecord m = some (p, m') ∧ r = { msg := p, tme := some (m', S, Y), info := L.fresh } := by
  unfold newRec at h
  rw [Option.map_eq_some_iff] at h
  obtain ⟨⟨p, m'⟩, h1, h2⟩ := h
  exact ⟨p, m', h1, h2.symm⟩

theorem readText_got {s rest : List Char} {m' : SM} (h : readText s = .got m' rest) :
    ∃ m p, m.WF ∧ m.Moves ∧ mkRecord m = some (p, m') := by
  unfold readText at h
  simp only at h
  split at h
  · cases h
  · split at h
    · cases h
    · next w _ _ =>
      split at h
      · cases h
      · next m hm =>
        split at h
        · cases h
        · next p m1 hr =>
          cases h
          obtain ⟨h1, h2⟩ := parseTM_wf hm
          exact ⟨m, p, h1, h2, hr⟩

theorem reading_put (fs : FS) (f : Fmt) {p q : List Char} (b : List Nat) (h : p ≠ q) :
    reading L (fs.put q b) f p = reading L fs f p := by
  unfold reading FS.put
  rw [if_neg h]

theorem packTM_sym {m : SM} {b : List Nat} (h : packTM m = some b) :
    ∀ r ∈ m.rows, ∀ t ∈ r, t.cond ≠ .undefined → t.sym < 7 := by
  intro r hr t ht hu
  rcases packTM_fits h r hr t ht with h | h
  · exact absurd h hu
  · exact h.2.1

/-- a machine that has been stored, being small, can be read from the message -/
theorem readTM_of_mkRecord {m m' : SM} {p : ProtoTM} (hw : m.WF) (hd : m.Moves) (hs : m.nStates ≤ 7 ∧ m.nSyms ≤ 8)
    (h : mkRecord m = some (p, m')) : m' = m ∧ readTM p = some m := by
  unfold mkRecord writeTM at h
  rw [if_pos hs, Option.map_eq_some_iff] at h
  obtain ⟨b, hb, e⟩ := h
  cases e
  have hf := packTM_fits hb
  refine ⟨rfl, ?_⟩
  have h1 := packTM_eq hw hd hf
  rw [h1] at hb
  cases hb
  exact unpack_pack hw hd hf

/-! ## Writing text -/

theorem note_remark (i : I) (t : List Char) : textNote L i = some t ↔ Remark L i t := by
  unfold textNote Remark
  dsimp only
  cases (L.status i).halt.halting
  · exact ⟨fun h => by cases h; rfl, fun h => by rw [h]; rfl⟩
  · cases getBigInt L.loads (L.status i).halt.steps with
    | none => exact ⟨fun h => (by cases h), fun ⟨_, _, h, _⟩ => (by cases h)⟩
    | some a =>
      cases getBigInt L.loads (L.status i).halt.score with
      | none => exact ⟨fun h => (by cases h), fun ⟨_, _, _, h, _⟩ => (by cases h)⟩
      | some b =>
        constructor
        · intro h
          cases h
          exact ⟨a, b, rfl, rfl, by rw [List.append_assoc _ [' '] _]; rfl⟩
        · rintro ⟨_, _, h1, h2, rfl⟩
          cases h1
          cases h2
          rw [List.append_assoc _ [' '] _]
          rfl

theorem note_facts (hL : L.Laws) {i : I} {t : List Char} (h : textNote L i = some t) :
    '\n' ∉ t ∧ '\r' ∉ t ∧ (t = [] ∨ ∃ x, t = ' ' :: x) := by
  unfold textNote at h
  simp only at h
  split at h
  · split at h
    · next a b _ _ =>
      cases h
      obtain ⟨a1, a2⟩ := hL.approx a
      obtain ⟨b1, b2⟩ := hL.approx b
      refine ⟨?_, ?_, Or.inr ⟨_, rfl⟩⟩
      · simp only [List.mem_append, List.mem_cons, not_or]
        exact ⟨⟨by decide, a1⟩, by decide, b1⟩
      · simp only [List.mem_append, List.mem_cons, not_or]
        exact ⟨⟨by decide, a2⟩, by decide, b2⟩
    · cases h
  · cases h
    exact ⟨by simp, by simp, Or.inl rfl⟩

theorem writable_text {m : SM} (h : Writable m) :
    m.toStr = some (Spec.tableText m.table m.nStates m.nSyms) ∧ Spec.tableText m.table m.nStates m.nSyms ≠ [] ∧
    (∀ c ∈ Spec.tableText m.table m.nStates m.nSyms, Py.isSpace c = false) ∧
    ∃ m', m.Same m' ∧ (m.nStates ≤ 7 ∧ m.nSyms ≤ 8 → m.WF → m' = m) ∧ ∀ t rest, '\n' ∉ t → (t = [] ∨ ∃ x, t = ' ' :: x) →
      readText (textLine m t ++ rest) = .got m' rest := by
  obtain ⟨m0, hw, hd, hn, hk, hst, hm⟩ := h
  have hok : TextRec.OK { m := m0, halt := none } := ⟨hw, hd, hn, hk, hst, by simp⟩
  have htab : m.table = m0.table ∧ m.nStates = m0.nStates ∧ m.nSyms = m0.nSyms ∧ m.toStr = m0.toStr := by
    rcases hm with rfl | rfl
    · exact ⟨rfl, rfl, rfl, rfl⟩
    · exact ⟨listTrans_table m0, rfl, rfl, toStr_listed m0⟩
  have htext : (TextRec.text { m := m0, halt := none }) = Spec.tableText m0.table m0.nStates m0.nSyms := tableText_eq hw
  obtain ⟨f1, f2⟩ := text_facts hok
  rw [htext] at f1 f2
  rw [htab.1, htab.2.1, htab.2.2.1, htab.2.2.2]
  refine ⟨by rw [toStr_eq hw hd hn hk, tableText_eq hw], f1, f2, ?_⟩
  obtain ⟨m', h1, h2, h3⟩ := readText_line hok
  refine ⟨m', ⟨htab.2.1.trans h1.1, htab.2.2.1.trans h1.2.1, htab.1.trans h1.2.2⟩, ?_, ?_⟩
  · intro hs hw'
    rw [h2 hs]
    rcases hm with rfl | rfl
    · rfl
    · -- a sensible machine is not marked
      have : m0.rows.map (·.map listTrans) = m0.rows := by
        have e : ∀ r ∈ m0.rows, r.map listTrans = r := by
          intro r hr
          have e2 : ∀ t ∈ r, listTrans t = t := by
            intro t ht
            unfold listTrans
            split
            · next hu =>
              have := hw'.cells (r.map listTrans) (List.mem_map.2 ⟨r, hr, rfl⟩) (listTrans t) (List.mem_map.2 ⟨t, ht, rfl⟩)
              unfold listTrans BTrans.WF at this
              rw [if_pos hu] at this
              simp only [hu] at this
              have := congrArg BTrans.sym this
              simp [undefTrans] at this
            · rfl
          conv_rhs => rw [← List.map_id r]
          exact List.map_congr_left e2
        conv_rhs => rw [← List.map_id m0.rows]
        exact List.map_congr_left e
      show m0 = { m0 with rows := m0.rows.map (·.map listTrans) }
      rw [this]
  · intro t rest ht hsp
    have := (h3 t rest ht hsp).2
    rw [htext] at this
    unfold textLine
    rw [htab.1, htab.2.1, htab.2.2.1]
    exact this

theorem enc_nil (hL : L.Laws) : L.enc [] = [] := by
  have := congrArg List.length (hL.enc_append [] [])
  simp only [List.nil_append, List.length_append] at this
  exact List.eq_nil_of_length_eq_zero (by omega)

/-- the line of a record -/
def LineOf (r : Rec I) (l : List Char) : Prop :=
  ∃ x t, r.machine L = some x ∧ textNote L r.info = some t ∧ l = textLine x.1 t

theorem writeAll_text (hL : L.Laws) {p : List Char} (hp : isGz p = false) (rs : List (Rec I))
    (h : ∀ r ∈ rs, ∃ x t, r.machine L = some x ∧ Writable x.1 ∧ textNote L r.info = some t) :
    ∃ lines, List.Forall₂ (LineOf L) rs lines ∧ writeAll L .text p rs = (L.enc lines.flatten, rs.length, true) := by
  induction rs with
  | nil => exact ⟨[], .nil, by simp [writeAll, enc_nil L hL]⟩
  | cons r rs ih =>
    obtain ⟨lines, h1, h2⟩ := ih fun r hr => h r (List.mem_cons_of_mem _ hr)
    obtain ⟨x, t, hx, hw, ht⟩ := h r List.mem_cons_self
    obtain ⟨s1, -, -, -⟩ := writable_text hw
    have e : writeTextRec L r = (textLine x.1 t, true) := by
      unfold writeTextRec
      rw [hx]
      simp only [Option.bind_some]
      rw [s1]
      simp only
      rw [ht]
      rfl
    refine ⟨textLine x.1 t :: lines, .cons ⟨x, t, hx, ht, rfl⟩ h1, ?_⟩
    have e2 : writeRec L .text p r = (L.enc (textLine x.1 t), true) := by
      unfold writeRec
      simp only [hp, e]
      rfl
    unfold writeAll
    rw [e2, h2]
    simp [hL.enc_append]

theorem textRecs_lines (hL : L.Laws) (rs : List (Rec I)) (lines : List (List Char)) (h : List.Forall₂ (LineOf L) rs lines)
    (hw : ∀ r ∈ rs, ∀ x, r.machine L = some x → Writable x.1) (fuel : Nat) (hf : rs.length < fuel) :
    ∃ rs', textRecs L fuel lines.flatten = (rs', .eof) ∧
      List.Forall₂ (fun r r' => SameMachine L r r' ∧ r'.info = L.fresh) rs rs' := by
  induction h generalizing fuel with
  | nil =>
    cases fuel with
    | zero => simp at hf
    | succ fuel => exact ⟨[], rfl, .nil⟩
  | @cons r l rs lines hl _ ih =>
    cases fuel with
    | zero => simp at hf
    | succ fuel =>
      obtain ⟨x, t, hx, ht, rfl⟩ := hl
      obtain ⟨-, -, -, m', hs, -, hread⟩ := writable_text (hw r List.mem_cons_self x hx)
      obtain ⟨n1, n2, n3⟩ := note_facts L hL ht
      obtain ⟨rs', h1, h2⟩ := ih (fun r hr => hw r (List.mem_cons_of_mem _ hr)) fuel (by simp at hf; omega)
      have hg := hread t lines.flatten n1 n3
      obtain ⟨m0, p, -, -, hr⟩ := readText_got hg
      have hr' := mkRecord_again hr
      refine ⟨{ msg := p, tme := some (m', numNames L m'.nStates, numNames L m'.nSyms), info := L.fresh } :: rs', ?_, .cons ?_ h2⟩
      · unfold textRecs
        rw [List.flatten_cons, hg]
        simp only
        unfold newRec
        rw [hr']
        simp only [Option.map_some]
        rw [h1]
      · exact ⟨⟨x, _, hx, rfl, hs⟩, rfl⟩

theorem lines_length (rs : List (Rec I)) (lines : List (List Char)) (h : List.Forall₂ (LineOf L) rs lines) :
    rs.length ≤ lines.flatten.length := by
  induction h with
  | nil => simp
  | cons hl _ ih =>
    obtain ⟨x, t, -, -, rfl⟩ := hl
    simp only [List.length_cons, List.flatten_cons, List.length_append, textLine]
    omega

theorem lines_clean (hL : L.Laws) (rs : List (Rec I)) (lines : List (List Char)) (h : List.Forall₂ (LineOf L) rs lines)
    (hw : ∀ r ∈ rs, ∀ x, r.machine L = some x → Writable x.1) : '\r' ∉ lines.flatten := by
  induction h with
  | nil => simp
  | @cons r l rs lines hl _ ih =>
    obtain ⟨x, t, hx, ht, rfl⟩ := hl
    obtain ⟨-, -, hsp, -⟩ := writable_text (hw r List.mem_cons_self x hx)
    obtain ⟨-, n2, -⟩ := note_facts L hL ht
    rw [List.flatten_cons, List.mem_append, not_or]
    refine ⟨?_, ih fun r hr => hw r (List.mem_cons_of_mem _ hr)⟩
    unfold textLine
    simp only [List.mem_append, not_or]
    refine ⟨⟨fun hc => ?_, n2⟩, by decide⟩
    have := hsp _ hc
    revert this; decide

/-! ## Writing messages -/

theorem writeAll_proto {p : List Char} (rs : List (Rec I)) (h : ∀ r ∈ rs, (L.ser r.msg r.info).length < 2 ^ 32) :
    writeAll L .proto p rs = ((rs.map fun r => frame (L.ser r.msg r.info)).flatten, rs.length, true) := by
  induction rs with
  | nil => rfl
  | cons r rs ih =>
    obtain ⟨b, h1, -, -, h4⟩ := frame_spec (h r List.mem_cons_self)
    have e : writeRec L .proto p r = (frame (L.ser r.msg r.info), true) := by
      unfold writeRec
      simp only
      rw [h4]
    unfold writeAll
    rw [e, ih fun r hr => h r (List.mem_cons_of_mem _ hr)]
    simp

theorem frames_length (l : List (List Nat)) (h : ∀ x ∈ l, x.length < 2 ^ 32) : l.length ≤ (l.map frame).flatten.length := by
  induction l with
  | nil => simp
  | cons x l ih =>
    obtain ⟨b, h1, h2, -, -⟩ := frame_spec (h x List.mem_cons_self)
    have := ih fun x hx => h x (List.mem_cons_of_mem _ hx)
    simp only [List.map_cons, List.flatten_cons, List.length_append, List.length_cons, h1]
    omega

theorem readFrames (hL : L.Laws) (as : List (ProtoTM × I)) (h : ∀ a ∈ as, (L.ser a.1 a.2).length < 2 ^ 32) (fuel : Nat)
    (hf : as.length < fuel) :
    readAllFrames L.parse ((as.map fun a => frame (L.ser a.1 a.2)).flatten) fuel 0 = (as, .eof) := by
  obtain ⟨j, j1, -, j3, j4⟩ := readAll_cut L.parse (fun a => L.ser a.1 a.2) (fun a => hL.parse_ser a.1 a.2) as h [] _ fuel (le_refl _) hf
  rw [List.take_length, List.nil_append] at j4
  have hj : j = as.length := by
    by_contra hc
    have hlt := j3 (by omega)
    have h2 : (as.map fun a => frame (L.ser a.1 a.2)).flatten =
        ((as.take (j + 1)).map fun a => frame (L.ser a.1 a.2)).flatten ++ ((as.drop (j + 1)).map fun a => frame (L.ser a.1 a.2)).flatten := by
      rw [← List.flatten_append, ← List.map_append, List.take_append_drop]
    rw [h2, List.length_append] at hlt
    omega
  subst hj
  rw [List.take_length] at j4
  simpa using j4

/-! ## What a text or message file contains -/

/-- the machine object of a record is in its message -/
def Coherent (r : Rec I) : Prop := ∀ m S Y, r.tme = some (m, S, Y) → mkRecord m = some (r.msg, m)

theorem newRec_coherent {m : SM} {S Y : List Name} {r : Rec I} (h : newRec L m S Y = some r) : Coherent r := by
  obtain ⟨p, m', h1, rfl⟩ := newRec_spec L h
  intro m2 S2 Y2 e
  simp only [Option.some.injEq, Prod.mk.injEq] at e
  obtain ⟨rfl, -, -⟩ := e
  exact mkRecord_again h1

theorem textRecs_coherent (fuel : Nat) : ∀ s, ∀ r ∈ (textRecs L fuel s).1, Coherent r := by
  induction fuel with
  | zero => intro s r hr; simp [textRecs] at hr
  | succ fuel ih =>
    intro s r hr
    unfold textRecs at hr
    split at hr
    · simp at hr
    · simp at hr
    · next m rest _ =>
      split at hr
      · simp at hr
      · next r0 h0 =>
        rcases List.mem_cons.1 hr with rfl | hr
        · exact newRec_coherent L h0
        · exact ih _ _ hr

theorem recsOf_coherent (ms : List SM) (e : End) : ∀ r ∈ (recsOf L ms e).1, Coherent r := by
  induction ms with
  | nil => intro r hr; simp [recsOf] at hr
  | cons m ms ih =>
    intro r hr
    unfold recsOf at hr
    split at hr
    · simp at hr
    · next r0 h0 =>
      rcases List.mem_cons.1 hr with rfl | hr
      · exact newRec_coherent L h0
      · exact ih _ hr

theorem morphRecs_coherent (s : List Char) : ∀ r ∈ (morphRecs L s).1, Coherent r := by
  intro r hr
  unfold morphRecs at hr
  split at hr
  · simp at hr
  · next r0 h0 =>
    simp only [List.mem_singleton] at hr
    subst hr
    rw [Option.bind_eq_some_iff] at h0
    obtain ⟨m, -, h0⟩ := h0
    exact newRec_coherent L h0

theorem textGz_nil (b : List Nat) : (textGzRecs (I := I) b).1 = [] := by
  unfold textGzRecs; split <;> rfl

theorem reading_coherent (fs : FS) (f : Fmt) (p : List Char) : ∀ r ∈ (reading L fs f p).1, Coherent r := by
  intro r hr
  unfold reading at hr
  split at hr
  · simp at hr
  · cases f with
    | text =>
      simp only at hr
      split at hr
      · split at hr
        · simp at hr
        · rw [textGz_nil] at hr; simp at hr
      · split at hr
        · simp at hr
        · exact textRecs_coherent L _ _ r hr
    | proto =>
      simp only at hr
      split at hr
      · simp at hr
      · obtain ⟨a, -, rfl⟩ := List.mem_map.1 hr
        intro m S Y e
        cases e
    | morphett =>
      simp only at hr
      split at hr
      · split at hr
        · simp at hr
        · split at hr
          · exact morphRecs_coherent L _ r hr
          · simp at hr
      · split at hr
        · simp at hr
        · exact morphRecs_coherent L _ r hr
    | bbcDb =>
      simp only at hr
      split at hr
      · simp at hr
      · exact recsOf_coherent L _ _ r hr
    | bbcIndex => simp at hr
    | bbcIndexText => simp at hr
    | textOld => simp at hr

end

end Model.Convert

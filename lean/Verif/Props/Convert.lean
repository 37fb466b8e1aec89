import Verif.Lemmas.Convert
import Verif.Lemmas.ConvertNames
import Verif.Props.Formats
import Verif.Props.Morphett

/-!
# C72: converting files

`Lib` stands for the libraries, `Lib.Laws` for what is assumed of them.  `reading L fs f p` is what the reader of format `f` finds in
the file `p`: the records before the end or the first error.
-/

namespace Props
open Spec Model Model.IO Model.Status Model.Convert

section
variable {I E : Type} (L : Lib I E)

/-! ## Formats -/

/-- the format by the extensions of the name, the first line that applies -/
def formatOf (name : List Char) (f : Fmt) : Prop :=
  let ext (s : String) := HasExt s.toList name
  match f with
  | .proto => ext "pb"
  | .morphett => ¬ ext "pb" ∧ ext "morphett"
  | .bbcDb => ¬ ext "pb" ∧ ¬ ext "morphett" ∧ ext "db"
  | .bbcIndexText => ¬ ext "pb" ∧ ¬ ext "morphett" ∧ ¬ ext "db" ∧ ext "index" ∧ ext "txt"
  | .bbcIndex => ¬ ext "pb" ∧ ¬ ext "morphett" ∧ ¬ ext "db" ∧ ext "index" ∧ ¬ ext "txt"
  | .textOld => ¬ ext "pb" ∧ ¬ ext "morphett" ∧ ¬ ext "db" ∧ ¬ ext "index" ∧ ext "old"
  | .text => ¬ ext "pb" ∧ ¬ ext "morphett" ∧ ¬ ext "db" ∧ ¬ ext "index" ∧ ¬ ext "old"

private theorem detect_aux (a b c d e g : Prop) [Decidable a] [Decidable b] [Decidable c] [Decidable d] [Decidable e] [Decidable g]
    (f : Fmt) :
    ((if a then Fmt.proto else if b then .morphett else if c then .bbcDb
      else if d then if e then .bbcIndexText else .bbcIndex else if g then .textOld else .text) = f) ↔
    match f with
    | .proto => a
    | .morphett => ¬ a ∧ b
    | .bbcDb => ¬ a ∧ ¬ b ∧ c
    | .bbcIndexText => ¬ a ∧ ¬ b ∧ ¬ c ∧ d ∧ e
    | .bbcIndex => ¬ a ∧ ¬ b ∧ ¬ c ∧ d ∧ ¬ e
    | .textOld => ¬ a ∧ ¬ b ∧ ¬ c ∧ ¬ d ∧ g
    | .text => ¬ a ∧ ¬ b ∧ ¬ c ∧ ¬ d ∧ ¬ g := by
  by_cases ha : a
  · cases f <;> simp [ha]
  by_cases hb : b
  · cases f <;> simp [ha, hb]
  by_cases hc : c
  · cases f <;> simp [ha, hb, hc]
  by_cases hd : d
  · by_cases he : e <;> cases f <;> simp [ha, hb, hc, hd, he]
  by_cases hg : g <;> cases f <;> simp [ha, hb, hc, hd, hg]

/-- **C72.** The format is detected from the extensions of the file name. -/
theorem C72_detect (p name : List Char) (h : IsName p name) (f : Fmt) : detect p = f ↔ formatOf name f := by
  have e (s : String) (hs : '.' ∉ s.toList) : ('.' :: s.toList) ∈ suffixes p ↔ HasExt s.toList name := mem_suffixes h hs
  have h1 := e "pb" (by decide)
  have h2 := e "morphett" (by decide)
  have h3 := e "db" (by decide)
  have h4 := e "index" (by decide)
  have h5 := e "txt" (by decide)
  have h6 := e "old" (by decide)
  unfold detect formatOf
  simp only [← h1, ← h2, ← h3, ← h4, ← h5, ← h6]
  exact detect_aux _ _ _ _ _ _ f

example : IsName "data/bb/unknown.4x2.pb.gz".toList "unknown.4x2.pb.gz".toList ∧ HasExt "pb".toList "unknown.4x2.pb.gz".toList :=
  ⟨⟨by decide, Or.inr ⟨"data/bb".toList, by decide⟩⟩, by decide, "unknown.4x2".toList, ".gz".toList, by decide, ⟨'u', by decide, by decide⟩,
    Or.inr ⟨_, rfl⟩⟩
example : detect "data/bb/unknown.4x2.pb.gz".toList = .proto ∧ detect "x.pb/unknown.txt".toList = .text ∧
    detect "bb5.index.txt".toList = .bbcIndexText ∧ detect ".pb".toList = .text ∧ detect "old/seed.db.zip".toList = .bbcDb := by decide

/-- **C72.** The other programs, which know three formats, agree with the detection of those; a file in one of the remaining formats
is standard text to them. -/
theorem C72_guess (p : List Char) :
    guess p = match detect p with
      | .proto => .proto
      | .morphett => .morphett
      | _ => .text := by
  unfold guess detect
  simp only
  split_ifs <;> rfl

/-! ## What is converted -/

/-- **C72.** Converting to text.  Whatever the format of the input, if it can be read to the end and its machines have a text form, the
program reports the number of records, the output has one line per record in the same order, the standard text of its machine and the
halting remark of its record, nothing else is touched, and reading the output gives the same machines. -/
theorem C72_to_text (hL : L.Laws) (fs : FS) (fi fo : Option Fmt) (inp outp : List Char) (hne : inp ≠ outp)
    (ho : fo.getD (detect outp) = .text) (hz : isGz outp = false) (rs : List (Rec I))
    (hr : reading L fs (fi.getD (detect inp)) inp = (rs, .eof))
    (hm : ∀ r ∈ rs, ∃ x note, r.machine L = some x ∧ Writable x.1 ∧ Remark L r.info note) :
    ∃ fs' lines rs', convert L fs fi fo inp outp = (fs', some rs.length) ∧
      (∀ q, q ≠ outp → fs' q = fs q) ∧ fs' outp = some (L.enc lines.flatten) ∧
      List.Forall₂ (fun r l => ∃ x note, r.machine L = some x ∧ Remark L r.info note ∧ l = textLine x.1 note) rs lines ∧
      reading L fs' .text outp = (rs', .eof) ∧ List.Forall₂ (fun r r' => SameMachine L r r' ∧ r'.info = L.fresh) rs rs' := by
  simp only [← note_remark] at hm ⊢
  obtain ⟨lines, h1, h2⟩ := writeAll_text L hL hz rs hm
  have hw : ∀ r ∈ rs, ∀ x, r.machine L = some x → Writable x.1 := by
    intro r hr x hx
    obtain ⟨x', -, hx', hw, -⟩ := hm r hr
    rw [hx] at hx'
    cases hx'
    exact hw
  obtain ⟨rs', h3, h4⟩ := textRecs_lines L hL rs lines h1 hw (lines.flatten.length + 1)
    (by have := lines_length L rs lines h1; omega)
  refine ⟨fs.put outp (L.enc lines.flatten), lines, rs', ?_, ?_, ?_, h1, ?_, h4⟩
  · unfold convert
    simp only [ho]
    rw [if_pos (show canWrite _ = true from rfl), reading_put L fs _ [] hne, hr]
    simp only
    rw [h2]
    unfold closed
    simp [hz]
  · intro q hq
    unfold FS.put
    rw [if_neg hq]
  · unfold FS.put
    rw [if_pos rfl]
  · unfold reading FS.put
    rw [if_pos rfl]
    simp only [hz]
    rw [hL.dec_enc _ (lines_clean L hL rs lines h1 hw)]
    exact h3

/-- **C72.** Converting to the binary format keeps every record, with all it says about its machine. -/
theorem C72_to_proto (hL : L.Laws) (fs : FS) (fi fo : Option Fmt) (inp outp : List Char) (hne : inp ≠ outp)
    (ho : fo.getD (detect outp) = .proto) (rs : List (Rec I))
    (hr : reading L fs (fi.getD (detect inp)) inp = (rs, .eof)) (hs : ∀ r ∈ rs, (L.ser r.msg r.info).length < 2 ^ 32) :
    ∃ fs', convert L fs fi fo inp outp = (fs', some rs.length) ∧ (∀ q, q ≠ outp → fs' q = fs q) ∧
      reading L fs' .proto outp = (rs.map fun r => { r with tme := none }, .eof) := by
  refine ⟨fs.put outp (closed L .proto outp ((rs.map fun r => frame (L.ser r.msg r.info)).flatten)), ?_, ?_, ?_⟩
  · unfold convert
    simp only [ho]
    rw [if_pos (show canWrite _ = true from rfl), reading_put L fs _ [] hne, hr]
    simp only
    rw [writeAll_proto L rs hs]
    simp
  · intro q hq
    unfold FS.put
    rw [if_neg hq]
  · unfold reading FS.put
    rw [if_pos rfl]
    simp only
    have e : (if isGz outp then L.gunzip (closed L .proto outp ((rs.map fun r => frame (L.ser r.msg r.info)).flatten))
        else some (closed L .proto outp ((rs.map fun r => frame (L.ser r.msg r.info)).flatten))) =
        some (((rs.map fun r => (r.msg, r.info)).map fun a => frame (L.ser a.1 a.2)).flatten) := by
      rw [List.map_map]
      unfold closed
      by_cases hz : isGz outp = true
      · rw [if_pos hz, if_pos ⟨by simp, hz⟩, hL.gunzip_gz]
        rfl
      · rw [if_neg hz, if_neg (by tauto)]
        rfl
    rw [e]
    simp only
    rw [readFrames L hL _ (by
      intro a ha
      obtain ⟨r, hr, rfl⟩ := List.mem_map.1 ha
      exact hs r hr) _ (by
      have := frames_length (rs.map fun r => L.ser r.msg r.info) (by
        intro a ha
        obtain ⟨r, hr, rfl⟩ := List.mem_map.1 ha
        exact hs r hr)
      rw [List.map_map] at this ⊢
      simp only [List.length_map] at this ⊢
      exact Nat.lt_succ_of_le this)]
    simp only [List.map_map]
    rfl

/-- **C72.** ... so up to 7 states and 8 symbols it is the same machine.  (Larger machines are not read correctly from the binary
format: C26.) -/
theorem C72_proto_machine (fs : FS) (f : Fmt) (p : List Char) (r : Rec I) (hr : r ∈ (reading L fs f p).1)
    (x : SM × List Name × List Name) (hx : r.machine L = some x) (hw : x.1.WF) (hd : x.1.Moves)
    (hn : x.1.nStates ≤ 7) (hk : x.1.nSyms ≤ 8) : SameMachine L r { r with tme := none } := by
  have hc := reading_coherent L fs f p r hr
  cases ht : r.tme with
  | none =>
    refine ⟨x, x, hx, ?_, rfl, rfl, rfl⟩
    unfold Rec.machine at hx ⊢
    rw [ht] at hx
    exact hx
  | some y =>
    obtain ⟨m, S, Y⟩ := y
    have hx' : x = (m, S, Y) := by
      unfold Rec.machine at hx
      rw [ht] at hx
      cases hx; rfl
    subst hx'
    obtain ⟨-, h2⟩ := readTM_of_mkRecord hw hd ⟨hn, hk⟩ (hc m S Y ht)
    refine ⟨_, (m, numNames L m.nStates, numNames L m.nSyms), hx, ?_, rfl, rfl, rfl⟩
    unfold Rec.machine
    simp only
    rw [h2]
    rfl

/-- **C72.** Copying a binary file that was written by the program gives the same bytes. -/
theorem C72_proto_copy (hL : L.Laws) (fs : FS) (inp outp : List Char) (hne : inp ≠ outp) (hi : isGz inp = false)
    (ho : isGz outp = false) (as : List (ProtoTM × I)) (hs : ∀ a ∈ as, (L.ser a.1 a.2).length < 2 ^ 32)
    (hf : fs inp = some (fileBytes (fun a => L.ser a.1 a.2) as)) :
    (convert L fs (some .proto) (some .proto) inp outp).1 outp = fs inp ∧
      (convert L fs (some .proto) (some .proto) inp outp).2 = some as.length := by
  have hr : reading L fs .proto inp = (as.map fun a => { msg := a.1, tme := none, info := a.2 }, .eof) := by
    unfold reading
    rw [hf]
    simp only [hi, Bool.false_eq_true, if_false]
    rw [C29_complete L.parse (fun a => L.ser a.1 a.2) (fun a => hL.parse_ser a.1 a.2) as hs]
    · have := frames_length (as.map fun a => L.ser a.1 a.2) (by
        intro a ha
        obtain ⟨r, hr, rfl⟩ := List.mem_map.1 ha
        exact hs r hr)
      rw [List.map_map] at this
      simp only [List.length_map] at this
      exact Nat.lt_succ_of_le this
  unfold convert
  simp only [Option.getD_some]
  rw [if_pos (show canWrite _ = true from rfl), reading_put L fs _ [] hne, hr]
  simp only
  rw [writeAll_proto L _ (by
    intro r hr
    obtain ⟨a, ha, rfl⟩ := List.mem_map.1 hr
    exact hs a ha)]
  refine ⟨?_, by simp⟩
  unfold FS.put closed
  rw [if_pos rfl, if_neg (by simp [ho]), hf]
  unfold fileBytes
  rw [List.map_map]
  rfl

/-- **C72.** A text file: every record that is read has a sensible machine, which has a text form if it has fewer than 25 states and 10
symbols, and nothing is known about it -- whatever remarks follow the machines in the file. -/
theorem C72_text_input (fs : FS) (p : List Char) (r : Rec I) (hr : r ∈ (reading L fs .text p).1) :
    r.info = L.fresh ∧ ∃ x, r.machine L = some x ∧ (x.1.nStates < 25 → x.1.nSyms < 10 → Writable x.1) := by
  have key : ∀ fuel s, ∀ r ∈ (textRecs L fuel s).1, r.info = L.fresh ∧
      ∃ x, r.machine L = some x ∧ (x.1.nStates < 25 → x.1.nSyms < 10 → Writable x.1) := by
    intro fuel
    induction fuel with
    | zero => intro s r hr; simp [textRecs] at hr
    | succ fuel ih =>
      intro s r hr
      unfold textRecs at hr
      split at hr
      · simp at hr
      · simp at hr
      · next m rest hg =>
        split at hr
        · simp at hr
        · next r0 h0 =>
          rcases List.mem_cons.1 hr with rfl | hr
          · obtain ⟨p1, m1, h1, rfl⟩ := newRec_spec L h0
            obtain ⟨m0, p0, hw, hd, h2⟩ := readText_got hg
            have h3 := mkRecord_again h2
            rw [h1] at h3
            cases h3
            refine ⟨rfl, _, rfl, fun hn hk => ?_⟩
            rcases mkRecord_machine h2 with e | e
            · subst e
              refine ⟨m, hw, hd, hn, hk, fun hs => ?_, Or.inl rfl⟩
              unfold mkRecord writeTM at h2
              rw [if_pos hs, Option.map_eq_some_iff] at h2
              obtain ⟨b, hb, -⟩ := h2
              exact packTM_sym hb
            · subst e
              refine ⟨m0, hw, hd, hn, hk, fun hs => ?_, Or.inr rfl⟩
              unfold mkRecord writeTM at h2
              rw [if_pos hs, Option.map_eq_some_iff] at h2
              obtain ⟨b, hb, -⟩ := h2
              exact packTM_sym hb
          · exact ih _ _ hr
  unfold reading at hr
  split at hr
  · simp at hr
  · simp only at hr
    split at hr
    · split at hr
      · simp at hr
      · rw [textGz_nil] at hr; simp at hr
    · split at hr
      · simp at hr
      · exact key _ _ _ hr

/-- **C72.** A bbchallenge database: the records are its machines, in order (those of which no halting transition writes 0, see C30). -/
theorem C72_bbc_input (fs : FS) (p : List Char) (data hdr : List Nat) (hd : fs p = some data) (hh : hdr.length = 30)
    (Ts : List Table) (hT : ∀ T ∈ Ts, Fits T 5 2) (hz : ∀ T ∈ Ts, ∀ q < 5, ∀ a < 2, ∀ d, T q a ≠ .halt 0 d)
    (hu : L.unzip data = some (hdr ++ (Ts.map bbcBytes).flatten)) :
    ∃ rs, reading L fs .bbcDb p = (rs, .eof) ∧ List.Forall₂ (fun T r => r.info = L.fresh ∧
      ∃ x, r.machine L = some x ∧ Writable x.1 ∧ x.1.nStates = 5 ∧ x.1.nSyms = 2 ∧ ∀ q < 5, ∀ a < 2, x.1.table q a = T q a) Ts rs := by
  have hlen : (hdr ++ (Ts.map bbcBytes).flatten).length = 30 + 30 * Ts.length := by
    rw [List.length_append, hh]
    congr 1
    clear hT hz hu
    induction Ts with
    | nil => rfl
    | cons T Ts ih =>
      rw [List.map_cons, List.flatten_cons, List.length_append, ih]
      have : (bbcBytes T).length = 30 := by
        unfold bbcBytes
        have e : ∀ i, (bbcCell i).length = 3 := by intro i; cases i <;> rfl
        simp [e, List.range_succ]
      rw [this, List.length_cons]
      omega
  have hall := bbcAll_spec Ts hT hdr ((hdr ++ (Ts.map bbcBytes).flatten).length + 1) (by rw [hlen]; omega)
  rw [hh] at hall
  have key : ∀ Ts : List Table, (∀ T ∈ Ts, Fits T 5 2) → (∀ T ∈ Ts, ∀ q < 5, ∀ a < 2, ∀ d, T q a ≠ .halt 0 d) →
      ∃ rs, recsOf L (Ts.map fun T => SM.ofTable (bbcSeen T) 5 2) .eof = (rs, .eof) ∧ List.Forall₂ (fun T r => r.info = L.fresh ∧
      ∃ x, r.machine L = some x ∧ Writable x.1 ∧ x.1.nStates = 5 ∧ x.1.nSyms = 2 ∧ ∀ q < 5, ∀ a < 2, x.1.table q a = T q a) Ts rs := by
    intro Ts
    induction Ts with
    | nil => intro _ _; exact ⟨[], rfl, .nil⟩
    | cons T Ts ih =>
      intro hT hz
      obtain ⟨rs, h1, h2⟩ := ih (fun T h => hT T (List.mem_cons_of_mem _ h)) (fun T h => hz T (List.mem_cons_of_mem _ h))
      have hF := bbcSeen_fits (hT T List.mem_cons_self)
      have hw := ofTable_wf (T := bbcSeen T) (n := 5) (k := 2) (by omega) (by omega) hF
      obtain ⟨p', h3, -⟩ := C26_message_writable _ hw.1 hw.2 (show 5 ≤ 7 by omega) (show 2 ≤ 7 by omega) { ttable := .unset, allowNoHalt := false }
      refine ⟨{ msg := p', tme := some (SM.ofTable (bbcSeen T) 5 2, numNames L 5, numNames L 2), info := L.fresh } :: rs, ?_, .cons ?_ h2⟩
      · rw [List.map_cons]
        unfold recsOf newRec mkRecord
        rw [h3]
        simp only [Option.map_some]
        rw [h1]
        rfl
      · refine ⟨rfl, _, rfl, ⟨_, hw.1, hw.2, show 5 < 25 by omega, show 2 < 10 by omega, ?_, Or.inl rfl⟩, rfl, rfl, ?_⟩
        · intro _ r hr t ht hu
          have h2 := wf_sym (hw.1.cells r hr t ht) hu
          have : (SM.ofTable (bbcSeen T) 5 2).nSyms = 2 := rfl
          omega
        · intro q hq a ha
          simp only
          rw [ofTable_table hF hq ha]
          have := hz T List.mem_cons_self q hq a ha
          unfold bbcSeen
          split
          · next d hd => exact absurd hd (this d)
          · rfl
  obtain ⟨rs, h1, h2⟩ := key Ts hT hz
  refine ⟨rs, ?_, h2⟩
  unfold reading
  rw [hd]
  simp only
  rw [hu]
  simp only
  rw [hall]
  exact h1

/-- **C72.** Converting one machine to the Morphett format: it is read back if its states and symbols have distinct proper names and
its symbols appear in order (C51). -/
theorem C72_to_morphett (hL : L.Laws) (fs : FS) (fi fo : Option Fmt) (inp outp : List Char) (hne : inp ≠ outp)
    (ho : fo.getD (detect outp) = .morphett) (hz : isGz outp = false) (r : Rec I)
    (hr : reading L fs (fi.getD (detect inp)) inp = ([r], .eof)) (m : SM) (S Y : List Name) (hm : r.machine L = some (m, S, Y))
    (hw : m.WF) (hd : m.Moves) (hn : m.nStates ≤ 7) (hk : m.nSyms ≤ 7) (hN : Names m S Y) (hO : InOrder m) :
    ∃ fs' r', convert L fs fi fo inp outp = (fs', some 1) ∧ (∀ q, q ≠ outp → fs' q = fs q) ∧
      reading L fs' .morphett outp = ([r'], .eof) ∧ SameMachine L r r' ∧ r'.info = L.fresh := by
  obtain ⟨text, h1, h2⟩ := C51_morphett_exact m hw hd hn hk S Y hN hO
  have hcr : '\r' ∉ text := by
    have e := morphWrite_eq hw hd hN.states hN.syms
    rw [h1] at e
    injection e with e
    have hYl : (blankFirst Y).length = m.nSyms := by unfold blankFirst; rw [List.length_set, hN.syms]
    have hYok : ∀ s ∈ blankFirst Y, '\r' ∉ s := by
      intro s hs
      unfold blankFirst at hs
      rcases List.mem_or_eq_of_mem_set hs with hs | rfl
      · intro hc
        exact absurd ((hN.okY s hs).2 _ hc).1 (by decide)
      · decide
    have hSok : ∀ s ∈ S, '\r' ∉ s := by
      intro s hs hc
      exact absurd ((hN.okS s hs).1.2 _ hc).1 (by decide)
    have hget : ∀ (l : List Name), (∀ s ∈ l, '\r' ∉ s) → ∀ i : Int, '\r' ∉ nameOf l i := by
      intro l hl i hc
      unfold nameOf at hc
      cases hg : l[i.toNat]? with
      | none => rw [hg] at hc; simp at hc
      | some s => rw [hg] at hc; exact hl s (List.mem_of_getElem? hg) hc
    rw [e]
    intro hc
    obtain ⟨l, hl, hcl⟩ := List.mem_flatten.1 hc
    obtain ⟨x, -, rfl⟩ := List.mem_map.1 hl
    obtain ⟨q, a, w, d, q'⟩ := x
    have g1 := hget S hSok
    have g2 := hget (blankFirst Y) hYok
    unfold lineOf renQ at hcl
    simp only [List.mem_append, List.mem_cons, Char.reduceEq, List.not_mem_nil, or_false, false_or] at hcl
    rcases hcl with hcl | hcl | hcl | hcl | hcl
    · exact g1 _ hcl
    · exact g2 _ hcl
    · cases w with
      | none => simp at hcl
      | some w => exact g2 w hcl
    · revert hcl
      split <;> decide
    · cases q' with
      | none => exact absurd hcl (show '\r' ∉ ['h', 'a', 'l', 't'] by decide)
      | some q' => exact g1 q' hcl
  obtain ⟨p', h3, -⟩ := C26_message_writable m hw hd hn hk { ttable := .unset, allowNoHalt := false }
  refine ⟨fs.put outp (L.enc text), { msg := p', tme := some (m, (morphNames text).1, (morphNames text).2), info := L.fresh },
    ?_, ?_, ?_, ?_, rfl⟩
  · unfold convert
    simp only [ho]
    rw [if_pos (show canWrite _ = true from rfl), reading_put L fs _ [] hne, hr]
    have hwr : writeAll L .morphett outp [r] = (L.enc text, 1, true) := by
      unfold writeAll writeRec writeMorphRec
      simp only [hz, hm, Option.bind_some, h1]
      simp [writeAll]
    simp only
    rw [hwr]
    unfold closed
    simp [hz]
  · intro q hq
    unfold FS.put
    rw [if_neg hq]
  · unfold reading FS.put
    rw [if_pos rfl]
    simp only [hz]
    rw [hL.dec_enc _ hcr]
    simp only [Bool.false_eq_true, if_false]
    unfold morphRecs newRec mkRecord
    rw [h2]
    simp only [Option.bind_some]
    rw [h3]
    rfl
  · exact ⟨_, _, hm, rfl, rfl, rfl, rfl⟩

/-! ## What goes wrong -/

/-- **C72.** Only the output file is changed, whatever happens. -/
theorem C72_others (fs : FS) (fi fo : Option Fmt) (inp outp q : List Char) (hq : q ≠ outp) :
    (convert L fs fi fo inp outp).1 q = fs q := by
  unfold convert
  simp only
  split
  · show FS.put _ _ _ q = _
    generalize closed L _ _ _ = b
    unfold FS.put; rw [if_neg hq]
  · rfl

/-- **C72.** Success means that the input was read to its end, and the number that is reported is that of its records. -/
theorem C72_count (fs : FS) (fi fo : Option Fmt) (inp outp : List Char) (hne : inp ≠ outp) (n : Nat)
    (h : (convert L fs fi fo inp outp).2 = some n) :
    ∃ rs, reading L fs (fi.getD (detect inp)) inp = (rs, .eof) ∧ rs.length = n := by
  have key : ∀ f p rs, (writeAll L f p rs).2.2 = true → (writeAll L f p rs).2.1 = rs.length := by
    intro f p rs
    induction rs with
    | nil => intro _; rfl
    | cons r rs ih =>
      unfold writeAll
      split
      · intro h; simp only at h ⊢; rw [ih h]; rfl
      · intro h; simp at h
  unfold convert at h
  simp only at h
  split at h
  · rw [reading_put L fs _ [] hne] at h
    simp only at h
    split at h
    · next hc =>
      injection h with h
      exact ⟨_, Prod.ext rfl hc.2, by rw [← h, key _ _ _ hc.1]⟩
    · cases h
  · cases h

/-- **C72.** The contents the output file had before do not matter -- it is overwritten also when the conversion fails. -/
theorem C72_overwrites (fs : FS) (b : List Nat) (fi fo : Option Fmt) (inp outp : List Char) (hc : canWrite (fo.getD (detect outp)) = true) :
    convert L (fs.put outp b) fi fo inp outp = convert L fs fi fo inp outp := by
  unfold convert
  simp only
  rw [if_pos hc, if_pos hc]
  have e : ∀ c, (fs.put outp b).put outp c = fs.put outp c := by
    intro c; funext q; unfold FS.put; split <;> rfl
  rw [e, e]

/-- **C72.** The bbchallenge formats cannot be written: an error, and no file is touched. -/
theorem C72_refused (fs : FS) (fi fo : Option Fmt) (inp outp : List Char)
    (ho : fo.getD (detect outp) = .bbcDb ∨ fo.getD (detect outp) = .bbcIndex ∨ fo.getD (detect outp) = .bbcIndexText) :
    convert L fs fi fo inp outp = (fs, none) := by
  unfold convert
  rcases ho with h | h | h <;> simp [h, canWrite]

/-- **C72, negation.** The index formats and the old text format, and a missing file, cannot be read although the program offers the
formats: an error, after the output file has been emptied. -/
theorem C72_unreadable (fs : FS) (fi fo : Option Fmt) (inp outp : List Char) (hne : inp ≠ outp)
    (hi : fi.getD (detect inp) = .bbcIndex ∨ fi.getD (detect inp) = .bbcIndexText ∨ fi.getD (detect inp) = .textOld ∨ fs inp = none)
    (hc : canWrite (fo.getD (detect outp)) = true) :
    (convert L fs fi fo inp outp).2 = none ∧
      (fo.getD (detect outp) = .text → isGz outp = false → (convert L fs fi fo inp outp).1 outp = some []) := by
  have hr : reading L fs (fi.getD (detect inp)) inp = ([], .raise) := by
    unfold reading
    cases hf : fs inp with
    | none => rfl
    | some d => rcases hi with h | h | h | h <;> simp_all
  unfold convert
  simp only
  rw [if_pos hc, reading_put L fs _ [] hne, hr]
  refine ⟨by simp, fun h1 h2 => ?_⟩
  unfold FS.put closed writeAll
  simp [h2]

/-- **C72, negation.** Compressed text: nothing can be written ... -/
theorem C72_gz_text_output (fs : FS) (fi fo : Option Fmt) (inp outp : List Char) (hne : inp ≠ outp)
    (ho : fo.getD (detect outp) = .text) (hz : isGz outp = true) (r : Rec I) (rs : List (Rec I))
    (hr : (reading L fs (fi.getD (detect inp)) inp).1 = r :: rs) :
    (convert L fs fi fo inp outp).2 = none ∧ (convert L fs fi fo inp outp).1 outp = some (L.gz []) := by
  unfold convert
  simp only [ho]
  rw [if_pos (show canWrite _ = true from rfl), reading_put L fs _ [] hne, hr]
  have hw : writeAll L .text outp (r :: rs) = ([], 1, false) := by
    unfold writeAll writeRec
    simp [hz]
  simp only
  rw [hw]
  refine ⟨by simp, ?_⟩
  unfold FS.put closed
  simp [hz]

/-- **C72, negation.** ... or read, if there is anything on the first line. -/
theorem C72_gz_text_input (fs : FS) (fo : Option Fmt) (inp outp : List Char) (hne : inp ≠ outp) (hz : isGz inp = true)
    (data : List Nat) (hd : fs inp = some data) (x : Nat) (rest : List Nat) (hu : L.gunzip data = some (x :: rest))
    (hx : 33 ≤ x) : (convert L fs (some .text) fo inp outp).2 = none := by
  have hr : reading L fs .text inp = ([], .raise) := by
    unfold reading
    rw [hd]
    simp only [hz, if_true, hu]
    unfold textGzRecs
    rw [if_neg]
    rw [List.takeWhile_cons, if_pos (by simp; omega), List.all_cons]
    have : byteSpace x = false := by unfold byteSpace; rw [decide_eq_false_iff_not]; omega
    rw [this]
    simp
  unfold convert
  simp only [Option.getD_some]
  split
  · rw [reading_put L fs _ [] hne, hr]
    simp
  · rfl

/-- **C72, negation.** A file converted into itself is destroyed, and the program reports success, with no records. -/
theorem C72_in_place (hL : L.Laws) (fs : FS) (p : List Char) (hz : isGz p = false) (f : Fmt) (hf : f = .text ∨ f = .proto) :
    convert L fs (some f) (some f) p p = (fs.put p [], some 0) := by
  have hr : reading L (fs.put p []) f p = ([], .eof) := by
    have hd : L.dec [] = some [] := by
      have := hL.dec_enc [] (by simp)
      rwa [enc_nil L hL] at this
    unfold reading FS.put
    rw [if_pos rfl]
    rcases hf with rfl | rfl
    · simp only [hz, hd]
      rfl
    · simp only [hz]
      rfl
  unfold convert
  simp only [Option.getD_some]
  rw [if_pos (by rcases hf with rfl | rfl <;> rfl), hr]
  unfold writeAll closed
  simp [hz]

/-- **C72, negation.** A Morphett file is read as a single machine, also one to which several machines were written ... -/
theorem C72_morphett_one (fs : FS) (p : List Char) : (reading L fs .morphett p).1.length ≤ 1 := by
  have key : ∀ s, (morphRecs L s).1.length ≤ 1 := by
    intro s
    unfold morphRecs
    split <;> simp
  unfold reading
  split
  · simp
  · simp only
    split
    · split
      · simp
      · split
        · exact key _
        · simp
    · split
      · simp
      · exact key _

/-! ## The old text format -/

/-- **C72.** A halting machine stored in the packed format, with scores that are integers, in the old text format: its table, and the
score and the number of steps. -/
theorem C72_old_halt (r : Rec I) (m : SM) (hw : m.WF) (hd : m.Moves) (hn : m.nStates ≤ 7) (hk : m.nSyms ≤ 7)
    (hm : (mkRecord m).map (·.1) = some r.msg) (score steps : Int) (hs : (L.status r.info).halt.decided = true)
    (hh : (L.status r.info).halt.halting = true) (h1 : getBigInt L.loads (L.status r.info).halt.score = some (some (.int score)))
    (h2 : getBigInt L.loads (L.status r.info).halt.steps = some (some (.int steps))) :
    writeOldRec L r = (oldText m.table m.nStates m.nSyms ++ " | None Halt ".toList ++ L.decimal score ++ ' ' :: L.decimal steps ++ ['\n'],
      true) := by
  have hu : unpackTM (RecordTools.packedField r.msg) = some m := by
    obtain ⟨⟨p, m'⟩, h, e⟩ := Option.map_eq_some_iff.1 hm
    rw [← e]
    obtain ⟨-, h'⟩ := readTM_of_mkRecord hw hd ⟨hn, by omega⟩ h
    unfold mkRecord writeTM at h
    rw [if_pos ⟨hn, by omega⟩, Option.map_eq_some_iff] at h
    obtain ⟨b, -, e⟩ := h
    cases e
    exact h'
  unfold writeOldRec
  rw [hu]
  simp only
  unfold oldAttrs
  simp only [hs, hh, h1, h2, Bool.true_eq_false, if_false, if_true]
  rw [displayTable_eq hw hd (by omega) (by omega)]
  simp [attrText, numAttr]

/-- **C72, negation.** Backtracking and closed graphs are reasons of non-halting unknown to the old text format: an error. -/
theorem C72_old_reason (r : Rec I) (hs : (L.status r.info).halt.decided = true) (hh : (L.status r.info).halt.halting = false)
    (hi : 7 ≤ (L.status r.info).halt.infReason) : (writeOldRec L r).2 = false := by
  unfold writeOldRec
  have e : oldAttrs L r.info = none := by
    unfold oldAttrs
    have : infReason (L.status r.info).halt.infReason = none := by
      generalize (L.status r.info).halt.infReason = n at hi
      unfold infReason
      split <;> first | omega | rfl
    simp [hs, hh, this]
  rw [e]
  split <;> rfl

/-- **C72, negation.** So is a machine that is not stored in the packed format, that is one of more than 7 states or 8 symbols: an error. -/
theorem C72_old_large (r : Rec I) (l : TMList) (h : r.msg.ttable = .list l) : writeOldRec L r = ([], false) := by
  unfold writeOldRec RecordTools.packedField
  rw [h]
  rfl

/-- **C72, negation.** A score that is not written out as an integer: an error, in the middle of the line. -/
theorem C72_old_formula (r : Rec I) (hs : (L.status r.info).halt.decided = true) (hh : (L.status r.info).halt.halting = true) (e : E)
    (h1 : getBigInt L.loads (L.status r.info).halt.score = some (some (.exp e))) : (writeOldRec L r).2 = false := by
  unfold writeOldRec
  cases unpackTM (RecordTools.packedField r.msg) with
  | none => rfl
  | some m =>
    simp only
    unfold oldAttrs
    simp only [hs, hh, h1, Bool.true_eq_false, if_false, if_true]
    cases getBigInt L.loads (L.status r.info).halt.steps with
    | none => rfl
    | some b =>
      simp only
      cases displayTable m with
      | none => rfl
      | some s => simp [attrText, numAttr]

end

/-! ## A library, and conversions with it -/

namespace ConvertDemo

def encInt (i : Int) : List Nat := [if 0 ≤ i then 1 else 0, i.natAbs]

def encInts : List Int → List Nat
  | [] => []
  | i :: l => encInt i ++ encInts l

def decInts : List Nat → List Int
  | a :: b :: l => (if a = 1 then (b : Int) else -(b : Int)) :: decInts l
  | _ => []

theorem decInts_enc (l : List Int) : decInts (encInts l) = l := by
  induction l with
  | nil => rfl
  | cons i l ih =>
    show (if (if 0 ≤ i then 1 else 0) = 1 then (i.natAbs : Int) else -(i.natAbs : Int)) :: decInts (encInts l) = _
    rw [ih]
    congr 1
    by_cases h : 0 ≤ i
    · simp [h]
    · rw [if_neg h, if_neg (by decide)]; omega

def demoSer (p : ProtoTM) (i : Nat) : List Nat :=
  let f := if p.allowNoHalt then 1 else 0
  match p.ttable with
  | .unset => [0, f, i]
  | .packed b => 1 :: f :: i :: b
  | .list l => 2 :: f :: i :: encInts (l.nStates :: l.nSyms :: l.ttable)
  | .str s => 3 :: f :: i :: s.map Char.toNat

def demoParse : List Nat → Option (ProtoTM × Nat)
  | t :: f :: i :: rest =>
    let h : Bool := decide (f = 1)
    match t with
    | 0 => some ({ ttable := .unset, allowNoHalt := h }, i)
    | 1 => some ({ ttable := .packed rest, allowNoHalt := h }, i)
    | 2 =>
      match decInts rest with
      | n :: k :: l => some ({ ttable := .list { nStates := n, nSyms := k, ttable := l }, allowNoHalt := h }, i)
      | _ => none
    | 3 => some ({ ttable := .str (rest.map Char.ofNat), allowNoHalt := h }, i)
    | _ => none
  | _ => none

/-- records carry a number of steps, 0 if nothing is known; numbers are printed with strokes -/
def demo : Lib Nat Unit where
  enc s := s.map Char.toNat
  dec b := some (b.map Char.ofNat)
  gz b := 31 :: b
  gunzip
    | [] => some []
    | 31 :: b => some b
    | _ => none
  unzip b := some b
  ser := demoSer
  parse := demoParse
  fresh := 0
  status i :=
    if i = 0 then BBStatus.empty
    else { BBStatus.empty with halt := { BBStatus.empty.halt with decided := true, halting := true, steps := .int i, score := .int 1 } }
  unk _ := .none
  loads _ := none
  approx
    | some (.int v) => List.replicate v.toNat '1'
    | _ => ['?']
  decimal v := List.replicate (v.toNat + 1) '1'

theorem ofNat_toNat_map (s : List Char) : (s.map Char.toNat).map Char.ofNat = s := by
  induction s with
  | nil => rfl
  | cons c s ih => rw [List.map_cons, List.map_cons, ih, Char.ofNat_toNat]

theorem demo_laws : demo.Laws where
  enc_append s t := List.map_append
  dec_enc s _ := congrArg some (ofNat_toNat_map s)
  gunzip_gz b := rfl
  gunzip_nil := rfl
  parse_ser p i := by
    obtain ⟨t, h⟩ := p
    cases t with
    | unset => cases h <;> rfl
    | packed b => cases h <;> rfl
    | list l =>
      have e := decInts_enc (l.nStates :: l.nSyms :: l.ttable)
      show demoParse (2 :: _ :: i :: encInts (l.nStates :: l.nSyms :: l.ttable)) = _
      unfold demoParse
      simp only
      rw [e]
      cases h <;> rfl
    | str s =>
      show demoParse (3 :: _ :: i :: s.map Char.toNat) = _
      unfold demoParse
      simp only
      rw [ofNat_toNat_map]
      cases h <;> rfl
  approx v := by
    show '\n' ∉ (match v with | some (.int v) => List.replicate v.toNat '1' | _ => ['?']) ∧ _
    cases v with
    | none => exact ⟨by decide, by decide⟩
    | some v =>
      cases v with
      | int v =>
        exact ⟨fun h => absurd (List.eq_of_mem_replicate h) (by decide), fun h => absurd (List.eq_of_mem_replicate h) (by decide)⟩
      | exp e => exact ⟨(show '\n' ∉ ['?'] by decide), (show '\r' ∉ ['?'] by decide)⟩
      | other => exact ⟨(show '\n' ∉ ['?'] by decide), (show '\r' ∉ ['?'] by decide)⟩
  fresh := rfl

/-- the file `in.txt` with two machines, the first with a remark -/
def start : FS := fun p =>
  if p = "in.txt".toList then some (demo.enc "1RB1LC_1RC1RB_1RD0LE_1LA1LD_1RZ0LA Halt 47 4\n1RB0LB2LA_2LA1RB---\n".toList) else none

/-- two binary records, of which the first is known to halt after three steps -/
def start2 : FS := fun p =>
  if p = "in.pb".toList then
    some (fileBytes (fun a : ProtoTM × Nat => demo.ser a.1 a.2)
      [({ ttable := .packed [210, 26, 218, 82, 226, 41, 138, 34, 194, 9], allowNoHalt := false }, 3),
       ({ ttable := .packed [210, 26, 218, 82, 226, 41, 138, 34, 194, 9], allowNoHalt := false }, 0)])
  else none

-- to the binary format: the remark is not kept
example : (convert demo start none none "in.txt".toList "out.pb".toList).2 = some 2 ∧
    (reading demo (convert demo start none none "in.txt".toList "out.pb".toList).1 .proto "out.pb".toList).1.map
      (fun r => (r.machine demo).map (·.1)) = [some bb5m, some part3m] ∧
    (reading demo (convert demo start none none "in.txt".toList "out.pb".toList).1 .proto "out.pb".toList).1.map (·.info) = [0, 0] := by
  decide +kernel

-- to text: what is known is written as a remark
example : (convert demo start2 none none "in.pb".toList "out.txt".toList).2 = some 2 ∧
    (convert demo start2 none none "in.pb".toList "out.txt".toList).1 "out.txt".toList =
      some (demo.enc "1RB1LC_1RC1RB_1RD0LE_1LA1LD_1RZ0LA Halt 111 1\n1RB1LC_1RC1RB_1RD0LE_1LA1LD_1RZ0LA\n".toList) := by
  decide +kernel

-- an index file, a file of the old format
example : (convert demo start (some .bbcIndex) none "in.txt".toList "out.txt".toList).2 = none ∧
    (convert demo start (some .textOld) none "in.txt".toList "out.txt".toList).2 = none ∧
    (convert demo start none none "in.txt".toList "out.db".toList).2 = none ∧
    (convert demo start none none "in.txt".toList "out.txt.gz".toList).2 = none := by decide +kernel

-- to the old format
example : (convert demo start2 none none "in.pb".toList "out.old".toList).1 "out.old".toList =
    some (demo.enc ("1RB 1LC  1RC 1RB  1RD 0LE  1LA 1LD  1RZ 0LA | None Halt 11 1111\n" ++
      "1RB 1LC  1RC 1RB  1RD 0LE  1LA 1LD  1RZ 0LA | None Unknown Not_Run\n").toList) := by decide +kernel

-- the hypotheses of the theorem about text
example : ∃ (fs' : FS) (lines : List (List Char)) (rs' : List (Rec Nat)), convert demo start2 none none "in.pb".toList "out.txt".toList = (fs', some 2) ∧
    fs' "out.txt".toList = some (demo.enc lines.flatten) ∧ reading demo fs' .text "out.txt".toList = (rs', .eof) ∧ rs'.length = 2 := by
  have hr : (reading demo start2 .proto "in.pb".toList).2 = .eof ∧
      (reading demo start2 .proto "in.pb".toList).1.map (fun r => (r.machine demo).map (·.1)) = [some bb5m, some bb5m] := by decide +kernel
  obtain ⟨fs', lines, rs', h1, -, h2, -, h3, h4⟩ := C72_to_text demo demo_laws start2 none none "in.pb".toList "out.txt".toList
    (by decide) (by decide) (by decide) (reading demo start2 .proto "in.pb".toList).1 (Prod.ext rfl hr.1) (by
      intro r hrm
      have h5 : (r.machine demo).map (·.1) ∈ [some bb5m, some bb5m] := hr.2 ▸ List.mem_map_of_mem hrm
      have h6 : (r.machine demo).map (·.1) = some bb5m := by simpa using h5
      obtain ⟨x, hx, e⟩ := Option.map_eq_some_iff.1 h6
      have hw := ofTable_wf (T := bb5) (n := 5) (k := 2) (by decide) (by decide) bb5_fits
      refine ⟨x, if r.info = 0 then [] else " Halt ".toList ++ List.replicate r.info '1' ++ " 1".toList, hx, ?_, ?_⟩
      · rw [e]
        exact ⟨bb5m, hw.1, hw.2, by decide, by decide, by intro _; decide, Or.inl rfl⟩
      · rw [← note_remark]
        show textNote demo r.info = _
        generalize r.info = i
        by_cases hi : i = 0
        · subst hi; rfl
        · rw [if_neg hi]
          unfold textNote demo
          simp [hi, getBigInt])
  have hl : (reading demo start2 .proto "in.pb".toList).1.length = 2 := by simpa using congrArg List.length hr.2
  exact ⟨fs', lines, rs', hl ▸ h1, h2, h3, h4.length_eq ▸ hl⟩

-- the hypotheses of the theorem about binary files
example : ∃ fs', convert demo start none none "in.txt".toList "out.pb.gz".toList = (fs', some 2) ∧
    ∃ rs, reading demo fs' .proto "out.pb.gz".toList = (rs, .eof) ∧ rs.length = 2 := by
  have hr : (reading demo start .text "in.txt".toList).2 = .eof ∧ (reading demo start .text "in.txt".toList).1.length = 2 ∧
      ∀ r ∈ (reading demo start .text "in.txt".toList).1, (demo.ser r.msg r.info).length < 100 := by decide +kernel
  obtain ⟨fs', h1, -, h2⟩ := C72_to_proto demo demo_laws start none none "in.txt".toList "out.pb.gz".toList (by decide) (by decide)
    (reading demo start .text "in.txt".toList).1 (Prod.ext rfl hr.1) (fun r h => Nat.lt_trans (hr.2.2 r h) (by decide))
  exact ⟨fs', hr.2.1 ▸ h1, _, h2, by rw [List.length_map, hr.2.1]⟩

-- a machine in the Morphett format
example : (convert demo (fun p => if p = "in.txt".toList then some (demo.enc "1RB1LC_1RC1RB_1RD0LE_1LA1LD_1RZ0LA\n".toList) else none)
    none none "in.txt".toList "out.morphett".toList).2 = some 1 ∧
    Names bb5m (numNames demo 5) (numNames demo 2) ∧ InOrder bb5m := by
  refine ⟨by decide +kernel, ⟨by decide, by decide, by unfold NameOK; decide, by unfold NameOK; decide, by decide, by decide⟩, ?_⟩
  refine ⟨by decide, by decide, ?_⟩
  intro q' _ a' ha' _ a ha h0
  exact absurd ha' (by have : bb5m.nSyms = 2 := rfl; omega)

/-- **C72, negation.** ... such as this one, whose first two states are those of the second machine and whose others are those of the
first. -/
theorem C72_morphett_merges :
    (convert demo start (some .text) (some .morphett) "in.txt".toList "out.morphett".toList).2 = some 2 ∧
    (reading demo (convert demo start (some .text) (some .morphett) "in.txt".toList "out.morphett".toList).1 .morphett
      "out.morphett".toList).1.map (fun r => (r.machine demo).bind (·.1.toStr)) =
      [some "1RB0LB2LA_2LA1RB---_1RD0LE---_1LA1LD---_1RZ0LA---".toList] := by
  decide +kernel

end ConvertDemo

end Props

import Verif.Lemmas.RecordTools
import Verif.Props.Formats

/-!
# C70: counting and finding records

`IO_Count.py`, `IO_Find.py`, `Find_Record.py` and `get_tm`.  As in C29, `enc` and `parse` stand for protobuf's `SerializeToString` and
`ParseFromString`, and `fileBytes enc as` are the bytes of the file with the records `as`.  `tm a` is the machine message of a
record.
-/

namespace Props
open Spec Model Model.IO Model.RecordTools

section
variable {α : Type}

/-- the record has the packed machine `mach a` -/
def Stored (tm : α → ProtoTM) (mach : α → SM) (a : α) : Prop :=
  (mach a).WF ∧ (mach a).Moves ∧ ∃ b, packTM (mach a) = some b ∧ (tm a).ttable = .packed b

/-! ### The shape of truncated files -/

theorem file_len (enc : α → List Nat) (as : List α) (hlen : ∀ a ∈ as, (enc a).length < 2 ^ 32) :
    4 * as.length ≤ (fileBytes enc as).length := by
  induction as with
  | nil => simp
  | cons a as ih =>
    obtain ⟨b, h1, h2, -, -⟩ := frame_spec (hlen a (by simp))
    have := ih fun x hx => hlen x (by simp [hx])
    have e : fileBytes enc (a :: as) = frame (enc a) ++ fileBytes enc as := by simp [fileBytes, frame]
    rw [e, h1]
    simp only [List.length_append, List.length_cons]
    omega

theorem file_take (enc : α → List Nat) (as : List α) (hlen : ∀ a ∈ as, (enc a).length < 2 ^ 32) (cut : Nat) :
    (fileBytes enc as).take cut = (fileBytes enc (as.take cut)).take cut := by
  by_cases h : as.length ≤ cut
  · rw [List.take_of_length_le h]
  · have h1 := file_len enc (as.take cut) fun a ha => hlen a (List.mem_of_mem_take ha)
    have e : fileBytes enc as = fileBytes enc (as.take cut) ++ fileBytes enc (as.drop cut) := by
      unfold fileBytes
      rw [← List.flatten_append, ← List.map_append, List.take_append_drop]
    rw [List.length_take] at h1
    rw [e, List.take_append_of_le_length (by omega)]

/-- the bounds on the number of complete records, from the records that can matter to all records -/
theorem file_bounds (enc : α → List Nat) (as : List α) (hlen : ∀ a ∈ as, (enc a).length < 2 ^ 32) {cut j : Nat}
    (j1 : j ≤ (as.take cut).length) (j2 : (fileBytes enc ((as.take cut).take j)).length ≤ cut)
    (j3 : j < (as.take cut).length → cut < (fileBytes enc ((as.take cut).take (j + 1))).length) :
    j ≤ as.length ∧ (as.take cut).take j = as.take j ∧ (fileBytes enc (as.take j)).length ≤ cut ∧
      (j < as.length → cut < (fileBytes enc (as.take (j + 1))).length) := by
  rw [List.length_take] at j1 j3
  have e : (as.take cut).take j = as.take j := by rw [List.take_take, Nat.min_eq_left (by omega)]
  refine ⟨by omega, e, e ▸ j2, fun h => ?_⟩
  by_cases hj : j < cut
  · have := j3 (by omega)
    rwa [List.take_take, Nat.min_eq_left (by omega)] at this
  · have h1 := file_len enc (as.take (j + 1)) fun a ha => hlen a (List.mem_of_mem_take ha)
    rw [List.length_take] at h1
    omega

theorem file_cut_le (enc : α → List Nat) (as : List α) (hlen : ∀ a ∈ as, (enc a).length < 2 ^ 32) {cut : Nat}
    (h : cut ≤ (fileBytes enc as).length) : cut ≤ (fileBytes enc (as.take cut)).length := by
  by_cases hc : as.length ≤ cut
  · rwa [List.take_of_length_le hc]
  · have h1 := file_len enc (as.take cut) fun a ha => hlen a (List.mem_of_mem_take ha)
    rw [List.length_take] at h1
    omega

/-! ### Counting -/

/-- **C70.** A file that was cut anywhere: with `j` complete records, the number reported is `j` if the cut is between two records
(no error) or inside the length of the next one (error); it is `j + 1` **without an error** if the cut is inside the data of a record. -/
theorem C70_count_truncated (enc : α → List Nat) (as : List α) (hlen : ∀ a ∈ as, (enc a).length < 2 ^ 32) (cut : Nat)
    (hcut : cut ≤ (fileBytes enc as).length) :
    ∃ j ≤ as.length, (fileBytes enc (as.take j)).length ≤ cut ∧
      (j < as.length → cut < (fileBytes enc (as.take (j + 1))).length) ∧
      countFile ((fileBytes enc as).take cut) (((fileBytes enc as).take cut).length + 1) 0 =
        (if (fileBytes enc (as.take j)).length = cut then (j, .eof)
         else if cut < (fileBytes enc (as.take j)).length + 4 then (j, .raise) else (j + 1, .eof)) := by
  have hlen' : ∀ a ∈ as.take cut, (enc a).length < 2 ^ 32 := fun a ha => hlen a (List.mem_of_mem_take ha)
  have hc := file_cut_le enc as hlen hcut
  obtain ⟨j, j1, j2, j3, j4⟩ := countFile_cut enc (as.take cut) hlen' [] cut (cut + 1) hc (by simp)
  obtain ⟨b1, b2, b3, b4⟩ := file_bounds enc as hlen j1 j2 j3
  refine ⟨j, b1, b3, b4, ?_⟩
  rw [List.length_take, Nat.min_eq_left hcut, file_take enc as hlen, ← b2]
  exact j4

/-- **C70.** Complete files are counted right, file by file and in total. -/
theorem C70_count (enc : α → List Nat) (files : List (List α)) (hlen : ∀ as ∈ files, ∀ a ∈ as, (enc a).length < 2 ^ 32) :
    countFiles (files.map (fileBytes enc)) = (files.map fun as => (as.length, .eof), (files.map List.length).sum) := by
  induction files with
  | nil => rfl
  | cons as files ih =>
    have h0 := hlen as (by simp)
    obtain ⟨j, j1, j2, j3, j4⟩ := C70_count_truncated enc as h0 (fileBytes enc as).length (le_refl _)
    have hj : j = as.length := by
      by_contra hc
      have hlt := j3 (by omega)
      have : (fileBytes enc (as.take (j + 1))).length ≤ (fileBytes enc as).length := by
        have : fileBytes enc as = fileBytes enc (as.take (j + 1)) ++ fileBytes enc (as.drop (j + 1)) := by
          unfold fileBytes
          rw [← List.flatten_append, ← List.map_append, List.take_append_drop]
        rw [this, List.length_append]
        omega
      omega
    subst hj
    rw [List.take_length, List.take_length, if_pos rfl] at j4
    simp only [List.map_cons, countFiles, List.sum_cons, j4, ih fun as h => hlen as (by simp [h])]

/-! ### Finding -/

theorem stored_read {tm : α → ProtoTM} {mach : α → SM} {a : α} (h : Stored tm mach a) : readTM (tm a) = some (mach a) := by
  obtain ⟨hw, hd, b, h1, h2⟩ := h
  unfold readTM
  rw [h2]
  exact (C25_unpack_pack_partial (mach a) hw hd b h1).1

theorem stored_key {tm : α → ProtoTM} {mach : α → SM} {a : α} (h : Stored tm mach a) {m : SM} (hw : m.WF) (hd : m.Moves)
    (hn : m.nStates < 25) (hk : m.nSyms < 10) {s : List Char} (hs : m.toStr = some s) :
    ((readTM (tm a)).bind SM.toStr).map (fun t => decide (t = s)) = some (decide (mach a = m)) := by
  rw [stored_read h]
  have hi := toStr_inj hw hd hn hk h.1 h.2.1 hs
  have : ∃ t, (mach a).toStr = some t := by
    by_cases hsm : (mach a).nStates < 25 ∧ (mach a).nSyms < 10
    · exact ⟨_, toStr_eq h.1 h.2.1 hsm.1 hsm.2⟩
    · exact ⟨[], by unfold SM.toStr; rw [if_neg hsm]⟩
  obtain ⟨t, ht⟩ := this
  rw [ht, Option.some.injEq] at hi
  simp only [Option.bind_some, ht, Option.map_some, Option.some.injEq]
  exact decide_eq_decide.2 hi

theorem stored_bytes {tm : α → ProtoTM} {mach : α → SM} {a : α} (h : Stored tm mach a) {m : SM} (hw : m.WF) (hd : m.Moves)
    {b : List Nat} (hb : packTM m = some b) : packedField (tm a) = b ↔ mach a = m := by
  obtain ⟨hw', hd', b', h1, h2⟩ := h
  unfold packedField
  rw [h2]
  constructor
  · rintro rfl
    have e1 := (C25_unpack_pack_partial _ hw' hd' _ h1).1
    rw [(C25_unpack_pack_partial _ hw hd _ hb).1] at e1
    exact (Option.some.inj e1).symm
  · intro e
    rw [e, hb] at h1
    exact (Option.some.inj h1).symm

/-- **C70.** `IO_Find` on a file that was cut anywhere: the first of the complete records with the machine is found; if there is
none, the search fails with an error if the cut is inside a record, and otherwise reports that there is none. -/
theorem C70_find_truncated (parse : List Nat → Option α) (enc : α → List Nat) (hdec : ∀ a, parse (enc a) = some a) (tm : α → ProtoTM)
    (mach : α → SM) (as : List α) (hlen : ∀ a ∈ as, (enc a).length < 2 ^ 32) (hst : ∀ a ∈ as, Stored tm mach a) (cut : Nat)
    (hcut : cut ≤ (fileBytes enc as).length) (m : SM) (hw : m.WF) (hd : m.Moves) (hn : m.nStates < 25) (hk : m.nSyms < 10)
    (s : List Char) (hs : m.toStr = some s) :
    ∃ j ≤ as.length, (fileBytes enc (as.take j)).length ≤ cut ∧
      (j < as.length → cut < (fileBytes enc (as.take (j + 1))).length) ∧
      ioFindFile parse tm s ((fileBytes enc as).take cut) (((fileBytes enc as).take cut).length + 1) 0 0 =
        match (as.take j).findIdx? (fun a => decide (mach a = m)) with
        | some i => .at i
        | none => if (fileBytes enc (as.take j)).length = cut then .no else .raise := by
  have hlen' : ∀ a ∈ as.take cut, (enc a).length < 2 ^ 32 := fun a ha => hlen a (List.mem_of_mem_take ha)
  have hc := file_cut_le enc as hlen hcut
  obtain ⟨j, j1, j2, j3, j4⟩ := C29_truncated parse enc hdec (as.take cut) hlen' cut (cut + 1) hc (by simp)
  obtain ⟨b1, b2, b3, b4⟩ := file_bounds enc as hlen j1 j2 j3
  refine ⟨j, b1, b3, b4, ?_⟩
  rw [List.length_take, Nat.min_eq_left hcut, file_take enc as hlen, ioFindFile_eq, j4, b2,
    search_spec (P := fun a => mach a = m) _ fun a ha => stored_key (hst a (List.mem_of_mem_take ha)) hw hd hn hk hs]
  cases (as.take j).findIdx? (fun a => decide (mach a = m)) with
  | some i => simp
  | none => simp only; split <;> simp_all

theorem find_file (parse : List Nat → Option α) (enc : α → List Nat) (hdec : ∀ a, parse (enc a) = some a) (tm : α → ProtoTM)
    (mach : α → SM) (as : List α) (hlen : ∀ a ∈ as, (enc a).length < 2 ^ 32) (hst : ∀ a ∈ as, Stored tm mach a)
    (m : SM) (hw : m.WF) (hd : m.Moves) (hn : m.nStates < 25) (hk : m.nSyms < 10)
    (s : List Char) (hs : m.toStr = some s) :
    ioFindFile parse tm s (fileBytes enc as) ((fileBytes enc as).length + 1) 0 0 =
      match as.findIdx? (fun a => decide (mach a = m)) with
      | some i => .at i
      | none => .no := by
  have h1 := file_len enc as hlen
  rw [ioFindFile_eq, C29_complete parse enc hdec as hlen _ (by omega),
    search_spec (P := fun a => mach a = m) _ fun a ha => stored_key (hst a ha) hw hd hn hk hs]
  cases as.findIdx? (fun a => decide (mach a = m)) <;> simp

/-- **C70.** `IO_Find` finds the first record with the machine: the place it reports has the machine and no earlier place has;
if it reports that there is none, there is none.  It never fails. -/
theorem C70_find (parse : List Nat → Option α) (enc : α → List Nat) (hdec : ∀ a, parse (enc a) = some a) (tm : α → ProtoTM)
    (mach : α → SM) (files : List (List α)) (hlen : ∀ as ∈ files, ∀ a ∈ as, (enc a).length < 2 ^ 32)
    (hst : ∀ as ∈ files, ∀ a ∈ as, Stored tm mach a) (m : SM) (hw : m.WF) (hd : m.Moves) (hn : m.nStates < 25) (hk : m.nSyms < 10)
    (s : List Char) (hs : m.toStr = some s) :
    ∃ r, ioFind parse tm s (files.map (fileBytes enc)) 0 = some r ∧
      (r = none → ∀ as ∈ files, ∀ a ∈ as, mach a ≠ m) ∧
      ∀ f i, r = some (f, i) →
        (∃ as a, files[f]? = some as ∧ as[i]? = some a ∧ mach a = m) ∧
        ∀ (f' i' : Nat) (as : List α) (a : α), f' < f ∨ f' = f ∧ i' < i → files[f']? = some as → as[i']? = some a → mach a ≠ m := by
  have gen : ∀ k, ∃ r, ioFind parse tm s (files.map (fileBytes enc)) k = some r ∧
      (r = none → ∀ as ∈ files, ∀ a ∈ as, mach a ≠ m) ∧
      ∀ f i, r = some (f, i) → k ≤ f ∧
        (∃ as a, files[f - k]? = some as ∧ as[i]? = some a ∧ mach a = m) ∧
        ∀ (f' i' : Nat) (as : List α) (a : α), f' < f - k ∨ f' = f - k ∧ i' < i → files[f']? = some as → as[i']? = some a →
          mach a ≠ m := by
    induction files with
    | nil => intro k; exact ⟨none, rfl, fun _ as h => by simp at h, fun f i h => by cases h⟩
    | cons as files ih =>
      intro k
      have hf := find_file parse enc hdec tm mach as (hlen as (by simp)) (hst as (by simp)) m hw hd hn hk s hs
      rw [List.map_cons]
      unfold ioFind
      rw [hf]
      cases hi : as.findIdx? (fun a => decide (mach a = m)) with
      | some i =>
        simp only
        refine ⟨_, rfl, fun h => (by cases h), ?_⟩
        rintro f i' h
        cases h
        rw [List.findIdx?_eq_some_iff_getElem] at hi
        obtain ⟨h1, h2, h3⟩ := hi
        refine ⟨le_refl _, ⟨as, as[i], by simp, by simp [h1], by simpa using h2⟩, ?_⟩
        rintro f' i' as' a' (h | ⟨h, h'⟩) e1 e2
        · omega
        · rw [h, Nat.sub_self] at e1
          simp only [List.getElem?_cons_zero, Option.some.injEq] at e1
          subst e1
          have := h3 i' h'
          rw [List.getElem?_eq_getElem (by omega), Option.some.injEq] at e2
          rw [← e2]
          simpa using this
      | none =>
        simp only
        rw [List.findIdx?_eq_none_iff] at hi
        obtain ⟨r, r1, r2, r3⟩ := ih (fun as h => hlen as (by simp [h])) (fun as h => hst as (by simp [h])) (k + 1)
        refine ⟨r, r1, fun h as' h' => ?_, fun f i h => ?_⟩
        · rw [List.mem_cons] at h'
          rcases h' with rfl | h'
          · intro a ha; simpa using hi a ha
          · exact r2 h as' h'
        · obtain ⟨g1, ⟨as', a', g2, g3, g4⟩, g5⟩ := r3 f i h
          have ef : f - k = f - (k + 1) + 1 := by omega
          refine ⟨by omega, ⟨as', a', by rw [ef, List.getElem?_cons_succ]; exact g2, g3, g4⟩, fun f' i' as'' a'' h e1 e2 => ?_⟩
          cases f' with
          | zero =>
            simp only [List.getElem?_cons_zero, Option.some.injEq] at e1
            subst e1
            have := List.mem_of_getElem? e2
            simpa using hi a'' this
          | succ f' =>
            rw [List.getElem?_cons_succ] at e1
            exact g5 f' i' as'' a'' (by omega) e1 e2
  obtain ⟨r, r1, r2, r3⟩ := gen 0
  exact ⟨r, r1, r2, fun f i h => (r3 f i h).2⟩

/-- **C70.** The search through several files ends with an error at the first file that is cut inside a record, unless the machine was
found before: later files are not searched. -/
theorem C70_find_error (parse : List Nat → Option α) (enc : α → List Nat) (hdec : ∀ a, parse (enc a) = some a) (tm : α → ProtoTM)
    (mach : α → SM) (files : List (List α)) (as : List α) (hlen : ∀ as' ∈ as :: files, ∀ a ∈ as', (enc a).length < 2 ^ 32)
    (hst : ∀ as' ∈ as :: files, ∀ a ∈ as', Stored tm mach a) (m : SM) (hw : m.WF) (hd : m.Moves) (hn : m.nStates < 25)
    (hk : m.nSyms < 10) (s : List Char) (hs : m.toStr = some s) (hno : ∀ as' ∈ as :: files, ∀ a ∈ as', mach a ≠ m)
    (cut : Nat) (hcut : cut ≤ (fileBytes enc as).length) (hin : ∀ j ≤ as.length, (fileBytes enc (as.take j)).length ≠ cut)
    (rest : List (List Nat)) :
    ioFind parse tm s (files.map (fileBytes enc) ++ (fileBytes enc as).take cut :: rest) 0 = none := by
  have gen : ∀ k, ioFind parse tm s (files.map (fileBytes enc) ++ (fileBytes enc as).take cut :: rest) k = none := by
    induction files with
    | nil =>
      intro k
      obtain ⟨j, j1, -, -, j4⟩ := C70_find_truncated parse enc hdec tm mach as (hlen as (by simp)) (hst as (by simp)) cut hcut m hw hd
        hn hk s hs
      have : (as.take j).findIdx? (fun a => decide (mach a = m)) = none := by
        rw [List.findIdx?_eq_none_iff]
        intro a ha
        simpa using hno as (by simp) a (List.mem_of_mem_take ha)
      rw [this] at j4
      simp only [if_neg (hin j j1)] at j4
      rw [List.map_nil, List.nil_append]
      unfold ioFind
      rw [j4]
    | cons f files ih =>
      intro k
      have hf := find_file parse enc hdec tm mach f (hlen f (by simp)) (hst f (by simp)) m hw hd hn hk s hs
      have : f.findIdx? (fun a => decide (mach a = m)) = none := by
        rw [List.findIdx?_eq_none_iff]
        intro a ha
        simpa using hno f (by simp) a ha
      rw [this] at hf
      rw [List.map_cons, List.cons_append]
      unfold ioFind
      rw [hf]
      refine ih (fun as' h => hlen as' ?_) (fun as' h => hst as' ?_) (fun as' h => hno as' ?_) (k + 1) <;>
        (rcases List.mem_cons.1 h with rfl | h <;> simp [*])
  exact gen 0

/-- **C70.** `Find_Record` finds the same record as `IO_Find`, in complete and in cut files, for every machine that can be packed. -/
theorem C70_find_agree (parse : List Nat → Option α) (enc : α → List Nat) (hdec : ∀ a, parse (enc a) = some a) (tm : α → ProtoTM)
    (mach : α → SM) (as : List α) (hlen : ∀ a ∈ as, (enc a).length < 2 ^ 32) (hst : ∀ a ∈ as, Stored tm mach a) (cut : Nat)
    (hcut : cut ≤ (fileBytes enc as).length) (m : SM) (hw : m.WF) (hd : m.Moves) (hn : m.nStates < 25) (hk : m.nSyms < 10)
    (s : List Char) (hs : m.toStr = some s) (b : List Nat) (hb : packTM m = some b) :
    findRecord parse tm s ((fileBytes enc as).take cut) =
      ioFindFile parse tm s ((fileBytes enc as).take cut) (((fileBytes enc as).take cut).length + 1) 0 0 := by
  have hp : parseTM s = some m := by
    have e := toStr_eq hw hd hn hk
    rw [hs] at e
    rw [Option.some.inj e]
    exact parse_print hw hd hn hk
  unfold findRecord
  rw [hp, Option.bind_some, hb]
  have hlen' : ∀ a ∈ as.take cut, (enc a).length < 2 ^ 32 := fun a ha => hlen a (List.mem_of_mem_take ha)
  have hc := file_cut_le enc as hlen hcut
  obtain ⟨j, j1, j2, j3, j4⟩ := C29_truncated parse enc hdec (as.take cut) hlen' cut (cut + 1) hc (by simp)
  obtain ⟨b1, b2, b3, b4⟩ := file_bounds enc as hlen j1 j2 j3
  simp only
  rw [List.length_take, Nat.min_eq_left hcut, file_take enc as hlen, ioFindFile_eq, findPacked_eq, j4, b2,
    search_spec (P := fun a => mach a = m) _ fun a ha => stored_key (hst a (List.mem_of_mem_take ha)) hw hd hn hk hs,
    search_spec (P := fun a => mach a = m) _ fun a ha =>
      congrArg some (decide_eq_decide.2 (stored_bytes (hst a (List.mem_of_mem_take ha)) hw hd hb))]

end

/-- **C70.** `Find_Record` on a text file written by the tools finds the line of the first record with the machine. -/
theorem C70_find_text (rs : List TextRec) (h : ∀ r ∈ rs, r.OK) (hsm : ∀ r ∈ rs, r.m.nStates ≤ 7 ∧ r.m.nSyms ≤ 8) (m : SM) (hw : m.WF)
    (hd : m.Moves) (hn : m.nStates < 25) (hk : m.nSyms < 10) (s : List Char) (hs : m.toStr = some s) (b : List Nat)
    (hb : packTM m = some b) :
    ∃ file, writeText rs = some file ∧ findRecordText s file =
      match rs.findIdx? (fun r => decide (r.m = m)) with
      | some i => .at i
      | none => .no := by
  obtain ⟨file, ms, h1, h2, h3, h4, -⟩ := textFile rs h
  have hms : ms = rs.map (·.m) := by
    apply List.ext_getElem (by simpa using h2)
    intro i hi hi'
    rw [List.getElem_map]
    exact (h3 i (by omega) hi).2 (hsm _ (List.getElem_mem _))
  have hlen : rs.length ≤ file.length := by
    clear h2 h3 h4 hms hsm
    induction rs generalizing file with
    | nil => simp
    | cons r rs ih =>
      obtain ⟨t, m', w1, w2, -⟩ := readText_write (h r (by simp))
      unfold writeText Py.mapO at h1
      rw [w1] at h1
      cases hr : Py.mapO TextRec.write rs with
      | none => simp [hr] at h1
      | some rest =>
        simp [hr] at h1
        subst h1
        have := ih (fun r hr => h r (by simp [hr])) rest.flatten (by simp [writeText, hr])
        have := List.length_pos_of_ne_nil w2
        simp only [List.length_cons, List.length_append, List.length_flatten] at *
        omega
  have hp : parseTM s = some m := by
    have e := toStr_eq hw hd hn hk
    rw [hs] at e
    rw [Option.some.inj e]
    exact parse_print hw hd hn hk
  refine ⟨file, h1, ?_⟩
  unfold findRecordText
  rw [hp, Option.bind_some, hb]
  simp only
  have hin : ∀ x ∈ ms, x.WF ∧ x.Moves ∧ x.nStates ≤ 7 ∧ x.nSyms ≤ 8 := by
    intro x hx
    rw [hms] at hx
    obtain ⟨r, hr, rfl⟩ := List.mem_map.1 hx
    exact ⟨(h r hr).wf, (h r hr).moves, hsm r hr⟩
  rw [findText_eq b _ file 0 ms (h4 _ (by omega)) fun x hx => (hin x hx).2.2,
    search_spec (P := fun x => x = m) ms]
  · rw [hms, List.findIdx?_map]
    have : ((fun x => decide (x = m)) ∘ fun r : TextRec => r.m) = fun r => decide (r.m = m) := rfl
    rw [this]
    cases rs.findIdx? (fun r => decide (r.m = m)) <;> simp
  · intro x hx
    have hx := hin x hx
    refine congrArg some (decide_eq_decide.2 ⟨fun hx' => ?_, fun e => by rw [e]; exact hb⟩)
    have e1 := (C25_unpack_pack_partial _ hx.1 hx.2.1 _ hx').1
    rw [(C25_unpack_pack_partial _ hw hd _ hb).1] at e1
    exact (Option.some.inj e1).symm

/-! ### `get_tm` -/

/-- **C70.** The text of a machine is always taken as that machine, whatever files there are. -/
theorem C70_literal (load : List Char → Nat → Option SM) (T : Table) (n k : Nat) (hn : 0 < n) (hk : 0 < k) (hn' : n < 25)
    (hk' : k < 10) (hT : Fits T n k) :
    ∃ m, getTM load (tableText T n k) = some m ∧ m.nStates = n ∧ m.nSyms = k ∧ ∀ q < n, ∀ a < k, m.table q a = T q a := by
  obtain ⟨m, h1, h2, h3, h4, h5⟩ := C27_print_parse T n k hn hk hn' hk' hT
  refine ⟨m, ?_, h2, h3, h4⟩
  have hne : tableText T n k ≠ [] := by
    intro e
    rw [e] at h1 h5
    have : (parseTM []).bind SM.toStr = some [] := by rw [h1]; exact h5
    revert this
    decide
  unfold getTM isLiteral
  rw [literalGo_table (by omega) (by omega) hT]
  simp [hne, h1]

theorem getTM_number (load : List Char → Nat → Option SM) (name : List Char) (n : Nat) (hc : ':' ∉ name) :
    getTM load (name ++ ':' :: Nat.toDigits 10 n) = load name n := by
  have hl : isLiteral (name ++ ':' :: Nat.toDigits 10 n) = false := by
    by_contra h
    unfold isLiteral at h
    simp only [Bool.not_eq_false, Bool.and_eq_true] at h
    exact literalGo_colon _ h.2 (by simp)
  unfold getTM
  rw [hl, if_neg (by simp), if_pos (by simp), split_two _ _ hc]
  · simp [pyInt_show]
  · intro h
    exact (digit_not (mem_digits_of_isDigit (Nat.isDigit_of_mem_toDigits (by decide) (by decide) h))).2.2.2 rfl

section
variable {α : Type}

/-- **C70.** `name:n` is the machine of record number `n` of the file, `name` alone is that of the first record (unless the name
looks like a machine); it fails if there is no such record.  `file` gives the records of the files by their names. -/
theorem C70_by_number (parse : List Nat → Option α) (enc : α → List Nat) (hdec : ∀ a, parse (enc a) = some a) (tm : α → ProtoTM)
    (mach : α → SM) (file : List Char → List α) (name : List Char) (hc : ':' ∉ name)
    (hlen : ∀ a ∈ file name, (enc a).length < 2 ^ 32) (hst : ∀ a ∈ file name, Stored tm mach a) :
    (∀ n, getTM (fun f => loadTM parse tm (fileBytes enc (file f))) (name ++ ':' :: Nat.toDigits 10 n) = (file name)[n]?.map mach) ∧
    (isLiteral name = false →
      getTM (fun f => loadTM parse tm (fileBytes enc (file f))) name = (file name)[0]?.map mach) := by
  have hload : ∀ n, loadTM parse tm (fileBytes enc (file name)) n = (file name)[n]?.map mach := by
    intro n
    unfold loadTM
    rw [C29_load parse enc hdec _ hlen]
    cases h : (file name)[n]? with
    | none => rfl
    | some a => exact stored_read (hst a (List.mem_of_getElem? h))
  refine ⟨fun n => ?_, fun h => ?_⟩
  · rw [getTM_number _ _ _ hc, hload]
  · unfold getTM
    rw [h, if_neg (by simp), if_neg hc]
    exact hload 0

end

/-! ### Where the claims end -/

/-- `IO_Find` compares texts, `Find_Record` compares machines: another text of the same machine (`H` for the halting state instead
of `Z`) is found only by the latter. -/
theorem C70_other_text : ∃ (m : SM) (b : List Nat) (s : List Char), packTM m = some b ∧ parseTM s = some m ∧
    findRecord some (fun b => { ttable := .packed b, allowNoHalt := false }) s (fileBytes id [b]) = .at 0 ∧
    ioFind some (fun b => { ttable := .packed b, allowNoHalt := false }) s [fileBytes id [b]] 0 = some none := by
  refine ⟨bb5m, [210, 26, 218, 82, 226, 41, 138, 34, 194, 9], "1RB1LC_1RC1RB_1RD0LE_1LA1LD_1RH0LA".toList, ?_, ?_, ?_, ?_⟩ <;>
    decide +kernel

/-- `Find_Record` fails for a machine with eight states (whose records are lists, not packed), even on an empty file; `IO_Find`
does not. -/
theorem C70_large : findRecord (α := List Nat) some (fun b => { ttable := .packed b, allowNoHalt := false })
      (tableText walk8 8 2) [] = .raise ∧
    ioFind (α := List Nat) some (fun b => { ttable := .packed b, allowNoHalt := false }) (tableText walk8 8 2) [[]] 0 = some none := by
  decide +kernel

/-- A file cut inside the data of its second record: `IO_Count` counts two records and reports no error; reading it fails after the
first. -/
theorem C70_overcount : countFiles [(fileBytes id [[7, 8], [9, 9, 9]]).take 11] = ([(2, .eof)], 2) ∧
    readAllFrames some ((fileBytes id [[7, 8], [9, 9, 9]]).take 11) 12 0 = ([[7, 8]], .raise) := by
  decide +kernel

-- two files of packed machines: the theorems' hypotheses and results
def packTwo : List (List (List Nat)) := [[[210, 26, 218, 82, 226, 41, 138, 34, 194, 9]], [[128, 0], [210, 26, 218, 82, 226, 41, 138, 34, 194, 9]]]
def packMach (b : List Nat) : SM := (unpackTM b).getD bb5m
def packMsg (b : List Nat) : ProtoTM := { ttable := .packed b, allowNoHalt := false }

theorem packTwo_stored : ∀ as ∈ packTwo, ∀ a ∈ as, Stored packMsg packMach a := by
  intro as h1 a h2
  have : a = [210, 26, 218, 82, 226, 41, 138, 34, 194, 9] ∨ a = [128, 0] := by
    simp only [packTwo, List.mem_cons, List.not_mem_nil, or_false] at h1
    rcases h1 with rfl | rfl <;> simp at h2 <;> tauto
  have hs : (unpackTM a).isSome = true ∧ (packTM (packMach a)) = some a := by rcases this with rfl | rfl <;> decide
  obtain ⟨m, hm⟩ := Option.isSome_iff_exists.1 hs.1
  have e : packMach a = m := by unfold packMach; rw [hm]; rfl
  have hw := C25_unpack_sane a m hm
  refine ⟨e ▸ hw.1, e ▸ hw.2, a, hs.2, rfl⟩

example : countFiles (packTwo.map (fileBytes id)) = ([(1, .eof), (2, .eof)], 3) := by
  exact C70_count id packTwo (by decide)
example : ioFind some packMsg "1RB1LC_1RC1RB_1RD0LE_1LA1LD_1RZ0LA".toList (packTwo.map (fileBytes id)) 0 = some (some (0, 0)) := by
  decide +kernel
example : ioFind some packMsg "------".toList (packTwo.map (fileBytes id)) 0 = some (some (1, 0)) := by decide +kernel
example : ioFind some packMsg "------".toList [fileBytes id packTwo[0], (fileBytes id packTwo[0]).take 3, fileBytes id packTwo[1]] 0 =
    none := by decide +kernel
example : findRecord some packMsg "1RB1LC_1RC1RB_1RD0LE_1LA1LD_1RZ0LA".toList (fileBytes id packTwo[1]) = .at 1 := by decide +kernel
example : getTM (fun f => loadTM some packMsg (fileBytes id (if f = "x.pb".toList then packTwo[1] else [])))
    "x.pb:1".toList = some bb5m := by decide +kernel
example : getTM (fun _ _ => none) "1RB1LC_1RC1RB_1RD0LE_1LA1LD_1RZ0LA".toList = some bb5m := by decide +kernel
example : findRecordText "1RB0LB2LA_2LA1RB---".toList
    "1RB1LC_1RC1RB_1RD0LE_1LA1LD_1RZ0LA Halt 47176870 4098\n1RB0LB2LA_2LA1RB---\n".toList = .at 1 := by decide +kernel

end Props

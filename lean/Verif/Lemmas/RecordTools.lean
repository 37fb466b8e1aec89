import Verif.Model.RecordTools
import Verif.Lemmas.Records2
import Verif.Lemmas.Format

/-!
# Lemmas about the tools that count and find records
-/

namespace Model.RecordTools
open Model.IO

/-! ### Counting -/

/-- skipping a frame that is cut short -/
theorem skipFrame_cut {b p : List Nat} (hb : b.length = 4) (hp : unpackLE b = p.length) (pre : List Nat) {n : Nat} (hn : 0 < n)
    (hlt : n < (b ++ p).length) :
    skipFrame (pre ++ (b ++ p).take n) pre.length = if n < 4 then none else some (true, pre.length + 4 + p.length) := by
  have hlen : ((b ++ p).take n).length = n := by simp only [List.length_take]; omega
  unfold skipFrame
  by_cases h4 : n < 4
  · have : readLen (pre ++ (b ++ p).take n) pre.length = .raise := by
      unfold readLen
      rw [fread_append]
      have : ((b ++ p).take n).take 4 = (b ++ p).take n := by
        rw [List.take_take, Nat.min_eq_right (by omega)]
      rw [this]
      simp only [hlen]
      rw [if_pos hn, if_pos (by omega)]
    rw [this, if_pos h4]
  · have e : (b ++ p).take n = b ++ p.take (n - 4) := by
      rw [List.take_append, List.take_of_length_le (by omega), hb]
    rw [e, readLen_frame hb, if_neg h4, hp]

theorem skipFrame_end {data : List Nat} {pos : Nat} (h : data.length ≤ pos) : skipFrame data pos = some (false, pos) := by
  unfold skipFrame readLen fread
  rw [List.drop_eq_nil_of_le h]
  simp

theorem countFile_cut {α : Type} (enc : α → List Nat) (as : List α) (hlen : ∀ a ∈ as, (enc a).length < 2 ^ 32) :
    ∀ (pre : List Nat) (n fuel : Nat), n ≤ ((as.map fun a => frame (enc a)).flatten).length → as.length < fuel →
      ∃ j ≤ as.length, ((as.take j).map fun a => frame (enc a)).flatten.length ≤ n ∧
        (j < as.length → n < ((as.take (j + 1)).map fun a => frame (enc a)).flatten.length) ∧
        countFile (pre ++ ((as.map fun a => frame (enc a)).flatten).take n) fuel pre.length =
          (if ((as.take j).map fun a => frame (enc a)).flatten.length = n then (j, .eof)
           else if n < ((as.take j).map fun a => frame (enc a)).flatten.length + 4 then (j, .raise) else (j + 1, .eof)) := by
  induction as with
  | nil =>
    intro pre n fuel hn hf
    refine ⟨0, le_refl _, by simp, fun h => by simp at h, ?_⟩
    simp at hn
    subst hn
    cases fuel with
    | zero => simp at hf
    | succ fuel =>
      unfold countFile
      simp only [List.map_nil, List.flatten_nil, List.take_nil, List.append_nil]
      rw [skipFrame_end (le_refl _)]
      simp
  | cons a as ih =>
    intro pre n fuel hn hf
    obtain ⟨b, hb1, hb2, hb3, -⟩ := frame_spec (hlen a (by simp))
    cases fuel with
    | zero => simp at hf
    | succ fuel =>
      simp only [List.length_cons, Nat.add_lt_add_iff_right] at hf
      simp only [List.map_cons, List.flatten_cons, List.length_append] at hn
      by_cases hcut : n < (frame (enc a)).length
      · refine ⟨0, by simp, by simp, fun _ => by simpa using hcut, ?_⟩
        simp only [List.map_cons, List.flatten_cons, List.take_zero, List.map_nil, List.flatten_nil, List.length_nil]
        rw [List.take_append_of_le_length (by omega)]
        by_cases h0 : n = 0
        · subst h0
          unfold countFile
          simp only [List.take_zero, List.append_nil]
          rw [skipFrame_end (le_refl _)]
          simp
        · rw [if_neg (fun h => h0 h.symm)]
          have hcut' := hcut
          rw [hb1] at hcut'
          unfold countFile
          rw [hb1, skipFrame_cut hb2 hb3 pre (by omega) hcut']
          by_cases h4 : n < 4
          · rw [if_pos h4, if_pos (by omega)]
          · rw [if_neg h4, if_neg (by omega)]
            simp only
            obtain ⟨f, rfl⟩ : ∃ f, fuel = f + 1 := ⟨fuel - 1, by omega⟩
            have : countFile (pre ++ (b ++ enc a).take n) (f + 1) (pre.length + 4 + (enc a).length) = (0, .eof) := by
              unfold countFile
              rw [skipFrame_end]
              simp only [List.length_append, List.length_take]
              omega
            rw [this]
      · obtain ⟨j, j1, j2, j3, j4⟩ := ih (fun x hx => hlen x (List.mem_cons_of_mem _ hx)) (pre ++ frame (enc a))
          (n - (frame (enc a)).length) fuel (by omega) hf
        refine ⟨j + 1, by simpa using j1, ?_, fun h => ?_, ?_⟩
        · simp only [List.take_succ_cons, List.map_cons, List.flatten_cons, List.length_append]
          omega
        · have := j3 (by simpa using h)
          simp only [List.take_succ_cons, List.map_cons, List.flatten_cons, List.length_append] at this ⊢
          omega
        · simp only [List.map_cons, List.flatten_cons, List.take_succ_cons, List.length_append]
          rw [List.take_append, List.take_of_length_le (by omega)]
          unfold countFile
          have hr := skipFrame_frame hb2 hb3 pre
            (((as.map fun a => frame (enc a)).flatten).take (n - (frame (enc a)).length))
          rw [← hb1] at hr
          rw [hr]
          simp only
          rw [List.append_assoc] at j4
          rw [j4]
          generalize (((as.take j).map fun a => frame (enc a)).flatten).length = L
          clear j4 hr ih
          by_cases hc : L = n - (frame (enc a)).length
          · have : (frame (enc a)).length + L = n := by omega
            simp only [if_pos hc, if_pos this]
          · have h1 : ¬ (frame (enc a)).length + L = n := by omega
            by_cases hc' : n - (frame (enc a)).length < L + 4
            · have h2 : n < (frame (enc a)).length + L + 4 := by omega
              simp only [if_neg hc, if_neg h1, if_pos hc', if_pos h2]
            · have h2 : ¬ n < (frame (enc a)).length + L + 4 := by omega
              simp only [if_neg hc, if_neg h1, if_neg hc', if_neg h2]

/-! ### Finding -/

/-- The search through the records that a reader yields: `key` may raise. -/
def search {α : Type} (key : α → Option Bool) : List α → End → Nat → Find
  | [], .eof, _ => .no
  | [], .raise, _ => .raise
  | a :: as, e, i =>
    match key a with
    | none => .raise
    | some true => .at i
    | some false => search key as e (i + 1)

theorem ioFindFile_eq {α : Type} (parse : List Nat → Option α) (tm : α → ProtoTM) (text : List Char) (data : List Nat) (fuel : Nat) :
    ∀ pos i, ioFindFile parse tm text data fuel pos i =
      search (fun a => ((readTM (tm a)).bind SM.toStr).map fun s => decide (s = text))
        (readAllFrames parse data fuel pos).1 (readAllFrames parse data fuel pos).2 i := by
  induction fuel with
  | zero => intro pos i; rfl
  | succ fuel ih =>
    intro pos i
    unfold ioFindFile readAllFrames
    cases readFrame parse data pos with
    | raise => rfl
    | eof => rfl
    | got a pos =>
      simp only [search]
      cases (readTM (tm a)).bind SM.toStr with
      | none => rfl
      | some s =>
        simp only [Option.map_some]
        by_cases h : s = text
        · simp [h]
        · simp only [h, decide_false, if_false]; exact ih pos (i + 1)

theorem findPacked_eq {α : Type} (parse : List Nat → Option α) (tm : α → ProtoTM) (bytes : List Nat) (data : List Nat) (fuel : Nat) :
    ∀ pos i, findPacked parse tm bytes data fuel pos i =
      search (fun a => some (decide (packedField (tm a) = bytes)))
        (readAllFrames parse data fuel pos).1 (readAllFrames parse data fuel pos).2 i := by
  induction fuel with
  | zero => intro pos i; rfl
  | succ fuel ih =>
    intro pos i
    unfold findPacked readAllFrames
    cases readFrame parse data pos with
    | raise => rfl
    | eof => rfl
    | got a pos =>
      simp only [search]
      by_cases h : packedField (tm a) = bytes
      · simp [h]
      · simp only [h, decide_false, if_false]; exact ih pos (i + 1)

/-- Machines of the packed format that a text reader yields are compared by their packed bytes. -/
theorem findText_eq (bytes : List Nat) (fuel : Nat) : ∀ (s : List Char) (i : Nat) (ms : List SM), readAllText fuel s = some ms →
    (∀ m ∈ ms, m.nStates ≤ 7 ∧ m.nSyms ≤ 8) →
    findText bytes fuel s i = search (fun m => some (decide (packTM m = some bytes))) ms .eof i := by
  induction fuel with
  | zero => intro s i ms h; cases h
  | succ fuel ih =>
    intro s i ms h hs
    unfold readAllText readText at h
    unfold findText
    simp only at h ⊢
    by_cases hl : Py.strip (Py.readline s).1 = []
    · rw [if_pos hl] at h
      simp only [Option.some.injEq] at h
      subst h
      rw [if_pos hl]
      rfl
    · rw [if_neg hl] at h
      rw [if_neg hl]
      cases hw : Py.words (Py.strip (Py.readline s).1) with
      | nil => rw [hw] at h; cases h
      | cons w ws =>
        rw [hw] at h
        simp only at h ⊢
        cases hp : parseTM w with
        | none => rw [hp] at h; cases h
        | some m =>
          rw [hp] at h
          simp only [Option.bind_some] at h ⊢
          cases hm : mkRecord m with
          | none => rw [hm] at h; cases h
          | some pm =>
            obtain ⟨p, m'⟩ := pm
            rw [hm] at h
            simp only [Option.map_eq_some_iff] at h ⊢
            obtain ⟨ms', h1, rfl⟩ := h
            have hsm := hs m' (by simp)
            have hpk : packedField p = bytes ↔ packTM m' = some bytes := by
              unfold mkRecord writeTM at hm
              by_cases hsz : m.nStates ≤ 7 ∧ m.nSyms ≤ 8
              · rw [if_pos hsz, Option.map_eq_some_iff] at hm
                obtain ⟨b, hb, he⟩ := hm
                cases he
                rw [hb]
                simp [packedField]
              · rw [if_neg hsz, Option.map_eq_some_iff] at hm
                obtain ⟨⟨l, m''⟩, hb, he⟩ := hm
                cases he
                exfalso
                unfold tmToList at hb
                split at hb
                · cases hb
                · simp only at hb
                  split at hb
                  · cases hb; exact hsz hsm
                  · cases hb
            simp only [search]
            by_cases hb : packedField p = bytes
            · simp [hb, hpk.1 hb]
            · have hb' : ¬ packTM m' = some bytes := fun h => hb (hpk.2 h)
              simp only [hb, hb', decide_false, if_false]
              exact ih _ (i + 1) ms' h1 fun m hm => hs m (by simp [hm])

/-- If no key raises, the first match is found. -/
theorem search_spec {α : Type} {key : α → Option Bool} {P : α → Prop} [DecidablePred P] (as : List α)
    (h : ∀ a ∈ as, key a = some (decide (P a))) : ∀ (e : End) (i : Nat),
    search key as e i = match as.findIdx? (fun a => decide (P a)) with
      | some k => .at (i + k)
      | none => if e = .eof then .no else .raise := by
  induction as with
  | nil => intro e i; cases e <;> rfl
  | cons a as ih =>
    intro e i
    unfold search
    rw [h a (by simp), List.findIdx?_cons]
    by_cases hP : P a
    · simp [hP]
    · simp only [hP, decide_false, Bool.false_eq_true, if_false]
      rw [ih (fun x hx => h x (by simp [hx]))]
      cases as.findIdx? (fun a => decide (P a)) with
      | none => simp
      | some k => simp [Nat.add_comm, Nat.add_left_comm]

/-! ### Texts of machines -/

theorem toStr_inj {m m' : SM} {s : List Char} (hw : m.WF) (hd : m.Moves) (hn : m.nStates < 25) (hk : m.nSyms < 10)
    (hw' : m'.WF) (hd' : m'.Moves) (h : m.toStr = some s) : m'.toStr = some s ↔ m' = m := by
  constructor
  · intro h'
    have e := toStr_eq hw hd hn hk
    have pe := parse_print hw hd hn hk
    rw [h] at e
    rw [← Option.some.inj e] at pe
    by_cases hsm : m'.nStates < 25 ∧ m'.nSyms < 10
    · have e' := toStr_eq hw' hd' hsm.1 hsm.2
      have pe' := parse_print hw' hd' hsm.1 hsm.2
      rw [h'] at e'
      rw [← Option.some.inj e', pe] at pe'
      exact (Option.some.inj pe').symm
    · unfold SM.toStr at h'
      rw [if_neg hsm] at h'
      obtain rfl := Option.some.inj h'
      exfalso
      have : (parseTM []).bind SM.toStr = some [] := by rw [pe]; exact h
      revert this
      decide
  · rintro rfl; exact h

/-! ### Literal machines -/

theorem digit_char {w : Nat} (h : w < 10) : Char.ofNat (48 + w) ∈ Py.digits ∧ Char.ofNat (48 + w) ≠ '_' ∧ Char.ofNat (48 + w) ≠ '-' := by
  interval_cases w <;> decide

theorem upper_char {q : Nat} (h : q < 26) : Char.ofNat (65 + q) ∈ Py.uppercase := by
  interval_cases q <;> decide

theorem literalGo_cell {a b c : Char} (s : List Char) (ha : a ∈ Py.digits) (h1 : a ≠ '_') (h2 : a ≠ '-') (hb : b = 'L' ∨ b = 'R')
    (hc : c ∈ Py.uppercase) : literalGo (a :: b :: c :: s) = literalGo s := by
  rw [literalGo.eq_3 _ _ _ _ h1, if_neg h2]
  simp [ha, hb, hc]

theorem literalGo_instr {n k : Nat} (hn : n ≤ 26) (hk : k ≤ 10) {i : Spec.Instr} (h : match i with
    | .undef => True
    | .halt w _ => w < k
    | .go w _ q => w < k ∧ q < n) (s : List Char) : literalGo (Spec.cellText i ++ s) = literalGo s := by
  have hdir : ∀ d, Spec.dirChar d = 'L' ∨ Spec.dirChar d = 'R' := fun d => by cases d <;> simp [Spec.dirChar]
  cases i with
  | undef => show literalGo ('-' :: '-' :: '-' :: s) = _; rw [literalGo.eq_def]; simp
  | halt w d =>
    obtain ⟨h1, h2, h3⟩ := digit_char (w := w) (by simp only at h; omega)
    exact literalGo_cell s h1 h2 h3 (hdir d) (by decide)
  | go w d q =>
    obtain ⟨h1, h2, h3⟩ := digit_char (w := w) (by simp only at h; omega)
    exact literalGo_cell s h1 h2 h3 (hdir d) (upper_char (by simp only at h; omega))

theorem literalGo_row {T : Spec.Table} {n k : Nat} (hn : n ≤ 26) (hk : k ≤ 10) (hT : Spec.Fits T n k) {q : Nat} (hq : q < n)
    (s : List Char) : literalGo (Spec.rowText T k q ++ s) = literalGo s := by
  unfold Spec.rowText
  have : ∀ as : List Nat, (∀ a ∈ as, a < k) → literalGo ((as.map fun a => Spec.cellText (T q a)).flatten ++ s) = literalGo s := by
    intro as
    induction as with
    | nil => intro _; rfl
    | cons a as ih =>
      intro h
      rw [List.map_cons, List.flatten_cons, List.append_assoc, literalGo_instr hn hk (hT q hq a (h a (by simp)))]
      exact ih fun x hx => h x (by simp [hx])
  exact this _ fun a ha => List.mem_range.1 ha

theorem literalGo_table {T : Spec.Table} {n k : Nat} (hn : n ≤ 26) (hk : k ≤ 10) (hT : Spec.Fits T n k) :
    literalGo (Spec.tableText T n k) = true := by
  unfold Spec.tableText
  have : ∀ qs : List Nat, (∀ q ∈ qs, q < n) → literalGo (List.intercalate ['_'] (qs.map (Spec.rowText T k))) = true := by
    intro qs
    induction qs with
    | nil => intro _; rfl
    | cons q qs ih =>
      intro h
      cases qs with
      | nil =>
        have := literalGo_row hn hk hT (h q (by simp)) []
        simpa [List.intercalate, literalGo] using this
      | cons q' qs =>
        have e : List.intercalate ['_'] ((q :: q' :: qs).map (Spec.rowText T k)) =
            Spec.rowText T k q ++ ('_' :: List.intercalate ['_'] ((q' :: qs).map (Spec.rowText T k))) := by
          simp [List.intercalate]
        rw [e, literalGo_row hn hk hT (h q (by simp))]
        have := ih fun x hx => h x (by simp [hx])
        rw [literalGo.eq_def]
        exact this
  exact this _ fun q hq => List.mem_range.1 hq

theorem literalGo_colon (s : List Char) (h : literalGo s = true) : ':' ∉ s := by
  induction s using literalGo.induct with
  | case1 => simp
  | case2 s ih =>
    rw [literalGo.eq_2] at h
    simp [ih h]
  | case3 b c s h1 ih =>
    rw [literalGo.eq_3 _ _ _ _ h1, if_pos rfl] at h
    simp only [Bool.and_eq_true, decide_eq_true_eq] at h
    obtain ⟨⟨rfl, rfl⟩, h⟩ := h
    simp [ih h]
  | case4 a b c s h1 h2 ih =>
    rw [literalGo.eq_3 _ _ _ _ h1, if_neg h2] at h
    simp only [Bool.and_eq_true, decide_eq_true_eq] at h
    obtain ⟨⟨ha, hb, hc⟩, h⟩ := h
    intro hm
    simp only [List.mem_cons] at hm
    rcases hm with rfl | rfl | rfl | hm
    · revert ha; decide
    · revert hb; decide
    · revert hc; decide
    · exact ih h hm
  | case5 s h1 h2 h3 =>
    rw [literalGo.eq_4 _ h1 h2 h3] at h
    cases h

/-! ### Numbers -/

theorem mem_digits_of_isDigit {c : Char} (h : c.isDigit = true) : c ∈ Py.digits := by
  unfold Char.isDigit at h
  simp only [Bool.and_eq_true, decide_eq_true_eq] at h
  have h1 : 48 ≤ c.toNat := h.1
  have h2 : c.toNat ≤ 57 := h.2
  have : c = Char.ofNat c.toNat := (Char.ofNat_toNat c).symm
  rw [this]
  generalize c.toNat = k at h1 h2
  interval_cases k <;> decide

theorem digit_not {c : Char} (h : c ∈ Py.digits) : Py.isSpace c = false ∧ c ≠ '-' ∧ c ≠ '+' ∧ c ≠ ':' := by
  revert c
  decide

theorem pyInt_show (n : Nat) : pyInt (Nat.toDigits 10 n) = some n := by
  have hd : ∀ c ∈ Nat.toDigits 10 n, c ∈ Py.digits := fun c hc =>
    mem_digits_of_isDigit (Nat.isDigit_of_mem_toDigits (by decide) (by decide) hc)
  have hne : Nat.toDigits 10 n ≠ [] := by
    have := Nat.length_toDigits_pos (b := 10) (n := n)
    intro h
    rw [h] at this
    simp at this
  have hs : Py.strip (Nat.toDigits 10 n) = Nat.toDigits 10 n := by
    have := strip_append (Nat.toDigits 10 n) [] hne (fun c hc => (digit_not (hd c hc)).1)
    simpa using this
  unfold pyInt
  rw [hs]
  have hall : (Nat.toDigits 10 n).all (· ∈ Py.digits) = true := by
    rw [List.all_eq_true]
    intro c hc
    simpa using hd c hc
  have hofd : Nat.ofDigitChars 10 (Nat.toDigits 10 n) 0 = n := Nat.ofDigitChars_toDigits (by decide) (by decide)
  split
  · rename_i ds e
    exact absurd rfl (digit_not (hd '-' (by rw [e]; simp))).2.1
  · rename_i ds e
    exact absurd rfl (digit_not (hd '+' (by rw [e]; simp))).2.2.1
  · rw [if_pos ⟨hne, hall⟩, hofd]

theorem split_two {c : Char} (a b : List Char) (h : c ∉ a) (hb : c ∉ b) : Py.split c (a ++ c :: b) = [a, b] := by
  induction a with
  | nil =>
    have : ∀ l : List Char, c ∉ l → Py.split c l = [l] := by
      intro l
      induction l with
      | nil => intro _; rfl
      | cons x l ih =>
        intro hl
        simp only [List.mem_cons, not_or] at hl
        unfold Py.split
        rw [if_neg (fun h => hl.1 h.symm), ih hl.2]
    simp [Py.split, this b hb]
  | cons x a ih =>
    simp only [List.mem_cons, not_or] at h
    rw [List.cons_append]
    unfold Py.split
    rw [if_neg (fun e => h.1 e.symm), ih h.2]

end Model.RecordTools

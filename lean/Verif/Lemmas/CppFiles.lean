import Verif.Model.CppFiles
import Verif.Spec.CppFiles
import Verif.Lemmas.CppText
import Verif.Lemmas.CppRecurEnum
import Verif.Lemmas.Records2
import Verif.Lemmas.ValidatorText
import Verif.Spec.Validator

/-!
# Text files of machines in the three languages
-/

namespace Spec
open Model.IO

theorem intercalate_cons {α : Type} (sep x : List α) (xs : List (List α)) :
    List.intercalate sep (x :: xs) = x ++ (xs.map (sep ++ ·)).flatten := by
  induction xs generalizing x with
  | nil => simp [List.intercalate]
  | cons y ys ih =>
    have : List.intercalate sep (x :: y :: ys) = x ++ sep ++ List.intercalate sep (y :: ys) := by simp [List.intercalate]
    rw [this, ih]
    simp

theorem text_eq (T : Table) (n k : Nat) :
    tableText T (n + 1) k = ((List.range (n + 1)).map fun q => (if q ≠ 0 then ['_'] else []) ++ rowText T k q).flatten := by
  unfold tableText
  rw [List.range_succ_eq_map, List.map_cons, intercalate_cons, List.map_cons, List.flatten_cons]
  simp only [List.map_map, ne_eq, not_true_eq_false, if_false, List.nil_append]
  congr 2

theorem tableText_congr {T T' : Table} {n k : Nat} (h : ∀ q < n, ∀ a < k, T q a = T' q a) : tableText T n k = tableText T' n k := by
  unfold tableText rowText
  congr 1
  apply List.map_congr_left
  intro q hq
  congr 1
  apply List.map_congr_left
  intro a ha
  rw [h q (List.mem_range.1 hq) a (List.mem_range.1 ha)]

end Spec

namespace Model.Cpp
open Spec

theorem mapOut_map {α β : Type} {f : α → Out β} {g : α → β} : ∀ {l : List α}, (∀ x ∈ l, f x = .ok (g x)) → mapOut f l = .ok (l.map g)
  | [], _ => rfl
  | a :: l, h => by
    unfold mapOut
    rw [h a (by simp), ok_bind, mapOut_map fun x hx => h x (by simp [hx]), ok_bind]
    rfl

theorem writeTrans_text {n m : Nat} {t : Trans} (h : t.Fits n m) (hm : m < 10) : writeTrans t = .ok (cellText t.instr) := by
  unfold writeTrans Trans.instr
  cases hu : t.undecided with
  | true => rfl
  | false =>
    have hs := h.sym
    have hdig := (digit_facts t.symbol (by omega)).1
    have hl := h.low
    simp only [Bool.false_eq_true, if_false]
    by_cases h0 : t.state < 0
    · have h1 : ¬ 0 ≤ t.state := by omega
      rcases h.dir with hd | hd <;> rw [hdig] <;> simp [hd, h0, h1, cellText, dirChar, Nat.add_comm]
    · have h1 : 0 ≤ t.state := by omega
      rcases h.dir with hd | hd <;> rw [hdig] <;> simp [hd, h0, h1, cellText, dirChar, Nat.add_comm]

/-- the C++ writer writes the standard text -/
theorem write_text {tm : TM} {n m : Nat} (h : tm.Shaped n m) (hn0 : 0 < n) (hn : n < 26) (hm : m < 10) :
    tm.write = .ok (tableText tm.table n m) := by
  obtain ⟨n, rfl⟩ : ∃ n', n = n' + 1 := ⟨n - 1, by omega⟩
  unfold TM.write
  rw [h.states, h.symbols, if_neg (not_not.2 hn), if_neg (not_not.2 hm)]
  rw [mapOut_map (g := fun q => (if q ≠ 0 then ['_'] else []) ++ Spec.rowText tm.table m q), ok_bind, text_eq]
  intro q hq
  rw [mapOut_map (g := fun a => cellText (tm.table q a)), ok_bind]
  · rfl
  · intro a ha
    obtain ⟨r, t, -, -, -, -, hf, ht, hl⟩ := shaped_cell h (List.mem_range.1 hq) (List.mem_range.1 ha)
    rw [hl, ok_bind, ht, writeTrans_text hf hm]

/-- the transition of an instruction -/
def Trans.ofInstr : Instr → Trans
  | .undef => emptyTrans
  | .halt w d => ⟨w, d.delta, -1, false⟩
  | .go w d q => ⟨w, d.delta, q, false⟩

/-- the rows of a machine -/
def rowsOf (T : Table) (n m : Nat) : List (List Trans) := (List.range n).map fun q => (List.range m).map fun a => Trans.ofInstr (T q a)

theorem ofInstr_instr (i : Instr) : (Trans.ofInstr i).instr = i := by
  cases i with
  | undef => rfl
  | halt w d => cases d <;> rfl
  | go w d q => cases d <;> rfl

theorem rowsOf_fits {T : Table} {n m : Nat} (h : Spec.Fits T n m) (hm : 1 < m) : ∀ r ∈ rowsOf T n m, ∀ t ∈ r, t.Fits n m := by
  intro r hr t ht
  obtain ⟨q, hq, rfl⟩ := List.mem_map.1 hr
  obtain ⟨a, ha, rfl⟩ := List.mem_map.1 ht
  have := h q (List.mem_range.1 hq) a (List.mem_range.1 ha)
  cases hi : T q a with
  | undef => exact ⟨fun _ => rfl, hm, Or.inl rfl, by decide, by show (-1 : Int) < n; omega⟩
  | halt w d =>
    rw [hi] at this
    exact ⟨by simp [Trans.ofInstr], this, by cases d <;> simp [Trans.ofInstr, Dir.delta], by simp [Trans.ofInstr],
      by show (-1 : Int) < n; omega⟩
  | go w d q' =>
    rw [hi] at this
    exact ⟨by simp [Trans.ofInstr], this.1, by cases d <;> simp [Trans.ofInstr, Dir.delta], by show (-1 : Int) ≤ q'; omega,
      by show (q' : Int) < n; have := this.2; omega⟩

theorem rowsOf_width {T : Table} {n m : Nat} : ∀ r ∈ rowsOf T n m, r.length = m := by
  intro r hr
  obtain ⟨q, -, rfl⟩ := List.mem_map.1 hr
  simp

theorem ofTable_shaped {rows : List (List Trans)} {n m : Nat} (hn : 0 < n) (hl : rows.length = n) (hw : ∀ r ∈ rows, r.length = m)
    (hc : ∀ r ∈ rows, ∀ t ∈ r, t.Fits n m) : ∃ tm, TM.ofTable rows = .ok tm ∧ tm.transitions = rows ∧ tm.Shaped n m := by
  cases hrows : rows with
  | nil => rw [hrows] at hl; simp at hl; omega
  | cons r0 rest =>
    subst hrows
    exact ⟨_, rfl, rfl, hl, hw r0 (by simp), hl, hw, hc⟩

/-- The C++ reader reads the text of a machine, whatever follows after a space. -/
theorem readTM_text {M : Sized} (h : M.Writable) {rest : List Char} (hr : Remark rest) :
    ∃ tm, readTM (M.text ++ rest) = .ok tm ∧ tm.Shaped M.states M.syms ∧ M.Is tm.table := by
  obtain ⟨tm, e, er, hs⟩ := ofTable_shaped (rows := rowsOf M.table M.states M.syms) h.low (by simp [rowsOf]) rowsOf_width
    (rowsOf_fits h.fits h.lowSyms)
  have his : M.Is tm.table := by
    intro q hq a ha
    unfold TM.table
    rw [er]
    simp [rowsOf, hq, ha, ofInstr_instr]
  have hlow := h.low; have hhigh := h.high; have hls := h.lowSyms
  obtain ⟨s, ew, ert⟩ := readTM_write hs (by omega) h.highSyms (by omega) rest (by
    rcases hr.2 with rfl | ⟨x, rfl⟩
    · exact Or.inl rfl
    · exact Or.inr ⟨' ', x, rfl, by decide⟩)
  rw [write_text hs h.low (by omega) h.highSyms] at ew
  obtain rfl := Out.ok.inj ew
  refine ⟨tm, ?_, hs, his⟩
  rw [er, e] at ert
  rw [← ert]
  unfold Sized.text
  rw [tableText_congr his]

theorem text_chars {M : Sized} (h : M.Writable) : '\n' ∉ M.text := by
  obtain ⟨tm, e, er, hs⟩ := ofTable_shaped (rows := rowsOf M.table M.states M.syms) h.low (by simp [rowsOf]) rowsOf_width
    (rowsOf_fits h.fits h.lowSyms)
  have his : M.Is tm.table := by
    intro q hq a ha
    unfold TM.table
    rw [er]
    simp [rowsOf, hq, ha, ofInstr_instr]
  have hlow := h.low; have hhigh := h.high; have hls := h.lowSyms
  obtain ⟨s, ew, hc, -⟩ := write_read hs (by omega) h.highSyms (by omega)
  rw [write_text hs h.low (by omega) h.highSyms] at ew
  obtain rfl := Out.ok.inj ew
  rw [tableText_congr his] at hc
  intro hm
  have := hc _ hm
  revert this
  decide

theorem text_ne {M : Sized} (h : M.Writable) : M.text ≠ [] := by
  intro he
  obtain ⟨tm, e, hs, -⟩ := readTM_text h (rest := []) ⟨by simp, Or.inl rfl⟩
  rw [he] at e
  cases e

/-! ### Streams -/

theorem getline_append {l : List Char} (h : '\n' ∉ l) (s : List Char) : getline (l ++ '\n' :: s) = some (l, s) := by
  have h1 : (l ++ '\n' :: s).takeWhile (· != '\n') = l := by
    rw [List.takeWhile_append_of_pos (by intro c hc; simp only [bne_iff_ne]; rintro rfl; exact h hc)]
    simp
  have h2 : (l ++ '\n' :: s).dropWhile (· != '\n') = '\n' :: s := by
    rw [List.dropWhile_append_of_pos (by intro c hc; simp only [bne_iff_ne]; rintro rfl; exact h hc)]
    simp
  cases hl : l ++ '\n' :: s with
  | nil => simp at hl
  | cons c r =>
    show some _ = _
    rw [← hl, h1, h2]
    rfl

/-- a line of the file can be read -/
def Line (l : Sized × List Char) : Prop := l.1.Writable ∧ Remark l.2

theorem line_chars {l : Sized × List Char} (h : Line l) : '\n' ∉ l.1.text ++ l.2 := by
  rw [List.mem_append, not_or]
  exact ⟨text_chars h.1, h.2.1⟩

theorem file_cons (l : Sized × List Char) (ls : Lines) : Lines.file (l :: ls) = l.1.text ++ l.2 ++ '\n' :: Lines.file ls := by
  simp [Lines.file]

theorem getline_file {l : Sized × List Char} (h : Line l) (ls : Lines) :
    getline (Lines.file (l :: ls)) = some (l.1.text ++ l.2, Lines.file ls) := by
  rw [file_cons]
  exact getline_append (line_chars h) _

theorem readStream_file {l : Sized × List Char} (h : Line l) (ls : Lines) :
    ∃ tm, readStream (Lines.file (l :: ls)) = .ok (some (tm, Lines.file ls)) ∧ tm.Shaped l.1.states l.1.syms ∧ l.1.Is tm.table := by
  obtain ⟨tm, e, hs, hi⟩ := readTM_text h.1 h.2
  refine ⟨tm, ?_, hs, hi⟩
  unfold readStream
  rw [getline_file h]
  simp only [e, ok_bind]

theorem skipLines_file {ls : Lines} (h : ∀ l ∈ ls, Line l) (k : Nat) : skipLines k (Lines.file ls) = Lines.file (ls.drop k) := by
  induction k generalizing ls with
  | zero => rfl
  | succ k ih =>
    cases ls with
    | nil =>
      have : ∀ k, skipLines k [] = [] := by
        intro k
        induction k with
        | zero => rfl
        | succ k ih => exact ih
      exact this (k + 1)
    | cons l ls =>
      unfold skipLines
      rw [getline_file (h l (by simp))]
      exact ih fun x hx => h x (by simp [hx])

theorem readLine_file {ls : Lines} (h : ∀ l ∈ ls, Line l) (i : Int) :
    match ls[(i - 1).toNat]? with
    | none => readLine (Lines.file ls) i = .ok none
    | some l => ∃ tm, readLine (Lines.file ls) i = .ok (some tm) ∧ tm.Shaped l.1.states l.1.syms ∧ l.1.Is tm.table := by
  unfold readLine
  rw [skipLines_file h]
  cases hl : ls[(i - 1).toNat]? with
  | none =>
    rw [List.drop_eq_nil_of_le (by simpa using hl)]
    rfl
  | some l =>
    obtain ⟨hi, rfl⟩ := List.getElem?_eq_some_iff.1 hl
    rw [List.drop_eq_getElem_cons hi]
    obtain ⟨tm, e, hs, his⟩ := readStream_file (h _ (List.getElem_mem hi)) (ls.drop ((i - 1).toNat + 1))
    refine ⟨tm, ?_, hs, his⟩
    rw [e]
    rfl

theorem run_is {M : Sized} {T : Table} (h : M.Is T) (hf : Fits T M.states M.syms) (hn : 0 < M.states) (hm : 0 < M.syms) (k : Nat) :
    run T k init = run M.table k init := by
  induction k with
  | zero => rfl
  | succ k ih =>
    rw [run_succ', run_succ', ← ih]
    cases hq : (run T k init).state with
    | none => unfold Spec.step; rw [hq]
    | some q =>
      have hr := inRange_run hf (inRange_init hn hm) k (by rw [hq]; simp)
      have := h q (hr.1 q hq) _ (hr.2 (run T k init).pos)
      unfold Spec.step
      rw [hq]
      simp only [this]

theorem haltsAt_is {M : Sized} {T : Table} (h : M.Is T) (hf : Fits T M.states M.syms) (hn : 0 < M.states) (hm : 0 < M.syms) (k : Nat) :
    HaltsAt T init k ↔ HaltsAt M.table init k := by
  unfold HaltsAt
  simp only [run_is h hf hn hm]

/-- running to a number of steps -/
theorem seek_new {tm : TM} {n m : Nat} (hs : tm.Shaped n m) (hn : 0 < n) (hm : 0 < m) (N : Int) :
    ∃ s, seek tm N Sim.new = .ok s ∧
      (s.isHalted = true ∧ s.stepNum ≤ N.toNat ∧ HaltsAt tm.table init s.stepNum ∨
        s.isHalted = false ∧ s.stepNum = N.toNat ∧ (run tm.table N.toNat init).state ≠ none) := by
  have hk : (N - (Sim.new.stepNum : Nat)).toNat = N.toNat := by simp [Sim.new]
  obtain ⟨s, j, e, hj, hr, hst, h1, h2, -⟩ := seekN_spec hs N.toNat rel_new (inRange_init hn hm)
  refine ⟨s, by unfold seek; rw [hk, e], ?_⟩
  have hsj : s.stepNum = j := by rw [hst]; simp [Sim.new]
  rw [hsj]
  cases hh : s.isHalted with
  | true =>
    left
    exact ⟨rfl, hj, (rel_halted hr).1 hh, h1⟩
  | false =>
    right
    have hne : (run tm.table j init).state ≠ none := fun hc => by rw [(rel_halted hr).2 hc] at hh; cases hh
    have : j = N.toNat := by
      by_contra hc
      exact hne (h2 (by omega))
    subst this
    exact ⟨rfl, rfl, hne⟩

theorem known_text {M : Sized} (h : M.Writable) {tm : TM} (hs : tm.Shaped M.states M.syms) (hi : M.Is tm.table) (N : Int) :
    ∃ s w, seek tm N Sim.new = .ok s ∧ Known M N.toNat w ∧
      w.toList = (if s.isHalted then " Halt ".toList else " Unknown ".toList) ++ Nat.toDigits 10 s.stepNum ∧
      (s.isHalted = true ↔ ∃ k ≤ N.toNat, HaltsAt M.table init k) := by
  have hls := h.lowSyms
  obtain ⟨s, e, h1⟩ := seek_new hs h.low (by omega) N
  have hrun := run_is hi (shaped_fits hs) h.low (by omega)
  have hh := haltsAt_is hi (shaped_fits hs) h.low (by omega)
  rcases h1 with ⟨a1, a2, a3⟩ | ⟨a1, a2, a3⟩
  · refine ⟨s, _, e, .halt s.stepNum a2 ((hh _).1 a3), ?_, ?_⟩
    · rw [a1]; simp [String.toList_append]; rfl
    · exact ⟨fun _ => ⟨_, a2, (hh _).1 a3⟩, fun _ => a1⟩
  · refine ⟨s, _, e, .unknown (by rw [← hrun]; exact a3), ?_, ?_⟩
    · rw [a1, a2]; simp [String.toList_append]; rfl
    · rw [a1]
      refine ⟨by simp, ?_⟩
      rintro ⟨k, hk, hk'⟩
      exact absurd (run_none_mono hk ((hh k).2 hk').1) a3

theorem digits_noNewline (k : Nat) : '\n' ∉ Nat.toDigits 10 k := by
  intro h
  have := Nat.isDigit_of_mem_toDigits (by omega) (by omega) h
  revert this
  decide

theorem known_remark {M : Sized} {N : Nat} {w : String} (h : Known M N w) : Remark w.toList := by
  cases h with
  | halt k _ _ =>
    have : (s!" Halt {k}").toList = " Halt ".toList ++ Nat.toDigits 10 k := by simp [String.toList_append]; rfl
    rw [this]
    refine ⟨?_, Or.inr ⟨_, rfl⟩⟩
    rw [List.mem_append, not_or]
    exact ⟨by decide, digits_noNewline k⟩
  | unknown _ =>
    have : (s!" Unknown {N}").toList = " Unknown ".toList ++ Nat.toDigits 10 N := by simp [String.toList_append]; rfl
    rw [this]
    refine ⟨?_, Or.inr ⟨_, rfl⟩⟩
    rw [List.mem_append, not_or]
    exact ⟨by decide, digits_noNewline N⟩

theorem known_unique {M : Sized} {N : Nat} {w w' : String} (h : Known M N w) (h' : Known M N w') : w = w' := by
  cases h with
  | halt k h1 h2 =>
    cases h' with
    | halt k' h3 h4 => rw [h2.unique h4]
    | unknown h3 => exact absurd (run_none_mono h1 h2.1) h3
  | unknown h1 =>
    cases h' with
    | halt k h3 h4 => exact absurd (run_none_mono h3 h4.1) h1
    | unknown h3 => rfl

/-- the remark says that the machine has halted -/
def saysHalt (l : Sized × List Char) : Bool := " Halt ".toList.isPrefixOf l.2

theorem simAll_spec (N : Int) {ls : Lines} (h : ∀ l ∈ ls, Line l) : ∀ (fuel : Nat) (st : SimAll), ls.length ≤ fuel →
    ∃ out : Lines, out.map (·.1) = ls.map (·.1) ∧ (∀ o ∈ out, ∃ w : String, o.2 = w.toList ∧ Known o.1 N.toNat w) ∧
      simAll N fuel (Lines.file ls) st = .ok
        { out := st.out ++ Lines.file out
          total := st.total + out.length
          halted := st.halted + (out.filter saysHalt).length
          unknown := st.unknown + (out.filter (!saysHalt ·)).length } := by
  induction ls with
  | nil =>
    intro fuel st _
    refine ⟨[], rfl, by simp, ?_⟩
    unfold simAll
    simp [Lines.file, readStream, getline]
  | cons l ls ih =>
    intro fuel st hf
    cases fuel with
    | zero => simp at hf
    | succ fuel =>
      have hl := h l (by simp)
      obtain ⟨tm, e, hs, hi⟩ := readStream_file hl ls
      obtain ⟨s, w, es, hw, ew, -⟩ := known_text hl.1 hs hi N
      have hlow := hl.1.high
      have et : tm.write = .ok l.1.text := by
        rw [write_text hs hl.1.low (by omega) hl.1.highSyms]
        unfold Sized.text
        rw [tableText_congr hi]
      unfold simAll
      rw [e]
      simp only [ok_bind, es, et]
      cases hh : s.isHalted with
      | true =>
        rw [hh] at ew
        obtain ⟨out, o1, o2, o3⟩ := ih (fun x hx => h x (by simp [hx])) fuel
          { st with total := st.total + 1, halted := st.halted + 1,
                    out := st.out ++ l.1.text ++ " Halt ".toList ++ Nat.toDigits 10 s.stepNum ++ ['\n'] } (by simpa using hf)
        have hsay : saysHalt (l.1, w.toList) = true := by unfold saysHalt; rw [ew]; simp [List.isPrefixOf]
        refine ⟨(l.1, w.toList) :: out, by simp [o1], ?_, ?_⟩
        · intro o ho
          rcases List.mem_cons.1 ho with rfl | ho
          · exact ⟨w, rfl, hw⟩
          · exact o2 o ho
        · simp only [if_true]
          rw [o3, file_cons, List.filter_cons_of_pos hsay, List.filter_cons_of_neg (by simp [hsay]), ew]
          simp only [if_true, List.length_cons, List.append_assoc, List.cons_append, List.nil_append, Nat.add_assoc, Nat.add_comm 1]
      | false =>
        rw [hh] at ew
        obtain ⟨out, o1, o2, o3⟩ := ih (fun x hx => h x (by simp [hx])) fuel
          { st with total := st.total + 1, unknown := st.unknown + 1,
                    out := st.out ++ l.1.text ++ " Unknown ".toList ++ Nat.toDigits 10 s.stepNum ++ ['\n'] } (by simpa using hf)
        have hsay : saysHalt (l.1, w.toList) = false := by unfold saysHalt; rw [ew]; simp [List.isPrefixOf]
        refine ⟨(l.1, w.toList) :: out, by simp [o1], ?_, ?_⟩
        · intro o ho
          rcases List.mem_cons.1 ho with rfl | ho
          · exact ⟨w, rfl, hw⟩
          · exact o2 o ho
        · simp only [Bool.false_eq_true, if_false]
          rw [o3, file_cons, List.filter_cons_of_neg (by simp [hsay]), List.filter_cons_of_pos (by simp [hsay]), ew]
          simp only [Bool.false_eq_true, if_false, List.length_cons, List.append_assoc, List.cons_append, List.nil_append, Nat.add_assoc, Nat.add_comm 1]

end Model.Cpp

namespace Model.IO
open Spec
open Model.Cpp (Line)

theorem ofTable_ok {M : Sized} (h : M.Writable) (hp : M.Packable) :
    TextRec.OK ⟨SM.ofTable M.table M.states M.syms, none⟩ := by
  have hls := h.lowSyms
  have hw := ofTable_wf h.low (by omega) h.fits
  refine ⟨hw.1, hw.2, h.high, h.highSyms, ?_, by simp⟩
  rintro ⟨h1, h2⟩ r hr t ht hc
  obtain ⟨q, hq, rfl⟩ := List.mem_map.1 hr
  obtain ⟨a, ha, rfl⟩ := List.mem_map.1 ht
  have := hp h1 h2 q (List.mem_range.1 hq) a (List.mem_range.1 ha)
  cases hi : M.table q a with
  | undef => rw [hi] at hc; exact absurd rfl hc
  | halt w d => rw [hi] at this; show (w : Int) < 7; have : w < 7 := this; omega
  | go w d q' => rw [hi] at this; show (w : Int) < 7; have : w < 7 := this; omega

theorem ofTable_text {M : Sized} (h : M.Writable) :
    TextRec.text ⟨SM.ofTable M.table M.states M.syms, none⟩ = M.text := by
  have hls := h.lowSyms
  have hw := ofTable_wf h.low (by omega) h.fits
  unfold TextRec.text
  rw [tableText_eq hw.1]
  exact tableText_congr fun q hq a ha => ofTable_table h.fits hq ha

theorem readAllText_lines {ls : Lines} (h : ∀ l ∈ ls, Line l) (hp : ∀ l ∈ ls, l.1.Packable) :
    ∃ ms : List SM, List.Forall₂ (fun l m => l.1.Object m) ls ms ∧ (∀ fuel, ls.length < fuel → readAllText fuel (Lines.file ls) = some ms) ∧
      ∀ n, loadText n (Lines.file ls) = some ms[n]? := by
  induction ls with
  | nil =>
    obtain ⟨s, ms, hs, hl, -, h1, h2⟩ := textFile [] (by simp)
    obtain rfl : s = [] := by simpa [writeText, Py.mapO] using hs.symm
    obtain rfl : ms = [] := by simpa using hl
    exact ⟨[], .nil, h1, h2⟩
  | cons l ls ih =>
    have hl := h l (by simp)
    obtain ⟨ms, i1, i2, i3⟩ := ih (fun x hx => h x (by simp [hx])) (fun x hx => hp x (by simp [hx]))
    obtain ⟨m', hsame, -, hline⟩ := readText_line (ofTable_ok hl.1 (hp l (by simp)))
    rw [ofTable_text hl.1] at hline
    obtain ⟨r1, r2⟩ := hline l.2 (Lines.file ls) hl.2.1 hl.2.2
    have hfile : l.1.text ++ l.2 ++ ['\n'] ++ Lines.file ls = Lines.file (l :: ls) := by simp [Lines.file]
    rw [hfile] at r1 r2
    refine ⟨m' :: ms, .cons ⟨hsame.1.symm, hsame.2.1.symm, fun q hq a ha => ?_⟩ i1, ?_, ?_⟩
    · rw [← hsame.2.2]
      exact ofTable_table hl.1.fits hq ha
    · intro fuel hf
      cases fuel with
      | zero => simp at hf
      | succ fuel =>
        unfold readAllText
        rw [r2]
        simp only
        rw [i2 fuel (by simpa using hf)]
        rfl
    · intro n
      cases n with
      | zero =>
        unfold loadText
        rw [r2]
        rfl
      | succ n =>
        unfold loadText
        rw [r1, i3]
        simp

end Model.IO

namespace Model.Validator
open Spec

/-- the transition of an instruction -/
def Trans.ofInstr : Instr → Trans
  | .undef => .undef
  | .halt w d => .to w d none
  | .go w d q => .to w d (some q)

def rustRows (T : Table) (n m : Nat) : TM := (List.range n).map fun q => (List.range m).map fun a => Trans.ofInstr (T q a)

theorem showTrans_text (i : Instr) (h : match i with | .undef => True | .halt w _ => w < 10 | .go w _ _ => w < 10) :
    showTrans (Trans.ofInstr i) = cellText i := by
  cases i with
  | undef => rfl
  | halt w d =>
    show Nat.toDigits 10 w ++ showDir d :: showState none = _
    rw [(Model.Cpp.digit_facts w h).1, Nat.add_comm]
    cases d <;> rfl
  | go w d q =>
    show Nat.toDigits 10 w ++ showDir d :: showState (some q) = _
    rw [(Model.Cpp.digit_facts w h).1, Nat.add_comm w]
    cases d <;> rfl

theorem rust_text {M : Sized} (h : M.Writable) : showTM (rustRows M.table M.states M.syms) = M.text := by
  unfold showTM rustRows Sized.text tableText
  rw [Model.IO.join_eq, List.map_map]
  congr 1
  apply List.map_congr_left
  intro q hq
  unfold rowText
  rw [Function.comp, List.map_map]
  congr 1
  apply List.map_congr_left
  intro a ha
  have hf := h.fits q (List.mem_range.1 hq) a (List.mem_range.1 ha)
  have hs := h.highSyms
  apply showTrans_text
  cases hi : M.table q a with
  | undef => trivial
  | halt w d => rw [hi] at hf; have : w < M.syms := hf; show w < 10; omega
  | go w d q' => rw [hi] at hf; have := hf.1; show w < 10; omega

theorem rust_read_rows {M : Sized} (h : M.Writable) (m : Mode) : readTM m M.text = .ok (rustRows M.table M.states M.syms) := by
  rw [← rust_text h]
  apply readTM_show
  · have := h.low
    intro he
    have : (rustRows M.table M.states M.syms).length = 0 := by rw [he]; rfl
    simp [rustRows] at this
    omega
  · intro row hr t ht
    obtain ⟨q, hq, rfl⟩ := List.mem_map.1 hr
    obtain ⟨a, ha, rfl⟩ := List.mem_map.1 ht
    have hf := h.fits q (List.mem_range.1 hq) a (List.mem_range.1 ha)
    have hs := h.highSyms
    have hn := h.high
    cases hi : M.table q a with
    | undef => trivial
    | halt w d => rw [hi] at hf; have : w < M.syms := hf; show w ≤ 9; omega
    | go w d q' => rw [hi] at hf; obtain ⟨h1, h2⟩ := hf; show w ≤ 9 ∧ q' ≤ 24; omega

theorem rust_read {M : Sized} (h : M.Writable) (m : Mode) : ∃ tm, readTM m M.text = .ok tm ∧ tm.length = M.states ∧
    (∀ row ∈ tm, row.length = M.syms) ∧ M.Is (Spec.Validator.table tm) := by
  refine ⟨rustRows M.table M.states M.syms, rust_read_rows h m, by simp [rustRows], ?_, ?_⟩
  · intro row hr
    obtain ⟨q, -, rfl⟩ := List.mem_map.1 hr
    simp
  · intro q hq a ha
    unfold Spec.Validator.table rustRows
    simp only [List.getElem?_map, List.getElem?_range hq, List.getElem?_range ha, Option.map_some]
    cases M.table q a <;> rfl

end Model.Validator

namespace Model.Cpp
open Spec Model.IO

/-- the lines of a file with their ends -/
def fileOf (F : List (List Char)) : List Char := (F.map (· ++ ['\n'])).flatten

/-- a line that a machine of the enumeration wrote -/
def WrittenBy (n m : Nat) (l : List Char) : Prop := ∃ (tm : TM) (rest : List Char), tm.Good n m ∧ Remark rest ∧ l = tableText tm.table n m ++ rest

theorem showInt_noNewline (z : Int) : '\n' ∉ showInt z := by
  unfold showInt
  split
  · rw [List.mem_cons, not_or]
    exact ⟨by decide, digits_noNewline _⟩
  · exact digits_noNewline _

theorem Trace.written {n m : Nat} {L : Int} {allow only : Bool} {tr : List TM} {H I U : List (List Char)}
    (t : Trace n m L allow only tr H I U) (hn : 0 < n) (hn' : n < 26) (hm' : m < 10) : ∀ l ∈ H ++ I ++ U, WrittenBy n m l := by
  intro l hl
  have key : ∃ tm ∈ tr, ∃ h i u, Entry L only tm h i u ∧ (l ∈ h ∨ l ∈ i ∨ l ∈ u) := by
    rcases List.mem_append.1 hl with hl | hl
    · rcases List.mem_append.1 hl with hl | hl
      · obtain ⟨tm, h1, h, i, u, h2, h3⟩ := t.halt l hl
        exact ⟨tm, h1, h, i, u, h2, Or.inl h3⟩
      · obtain ⟨tm, h1, h, i, u, h2, h3⟩ := t.inf l hl
        exact ⟨tm, h1, h, i, u, h2, Or.inr (Or.inl h3)⟩
    · obtain ⟨tm, h1, h, i, u, h2, h3⟩ := t.unknown l hl
      exact ⟨tm, h1, h, i, u, h2, Or.inr (Or.inr h3)⟩
  obtain ⟨tm, htm, h, i, u, he, hl⟩ := key
  have hg := t.good tm htm
  have hw := write_text hg.toShaped hn hn' hm'
  cases he with
  | halt s k e1 _ _ =>
    rw [hw] at e1
    obtain rfl := Out.ok.inj e1
    obtain rfl : l = haltLine (tableText tm.table n m) k := by
      cases only
      · simpa using hl
      · simp at hl
    refine ⟨tm, " | Halt ".toList ++ Nat.toDigits 10 k, hg, ⟨?_, Or.inr ⟨_, rfl⟩⟩, by simp [haltLine]⟩
    rw [List.mem_append, not_or]
    exact ⟨by decide, digits_noNewline k⟩
  | inf s p o st e1 _ =>
    rw [hw] at e1
    obtain rfl := Out.ok.inj e1
    obtain rfl : l = infLine (tableText tm.table n m) p o st := by
      cases only
      · simpa using hl
      · simp at hl
    refine ⟨tm, " | Lin_Recur ".toList ++ Nat.toDigits 10 p ++ [' '] ++ showInt o ++ " <".toList ++ Nat.toDigits 10 st, hg,
      ⟨?_, Or.inr ⟨_, rfl⟩⟩, by simp [infLine]⟩
    simp only [List.mem_append, not_or]
    exact ⟨⟨⟨⟨⟨by decide, digits_noNewline p⟩, by decide⟩, showInt_noNewline o⟩, by decide⟩, digits_noNewline st⟩
  | unknown s e1 _ _ =>
    rw [hw] at e1
    obtain rfl := Out.ok.inj e1
    obtain rfl : l = tableText tm.table n m := by simpa using hl
    exact ⟨tm, [], hg, ⟨by simp, Or.inl rfl⟩, by simp⟩

theorem written_lines {n m : Nat} (hn : 1 < n) (hm : 1 < m) (hn' : n < 25) (hm' : m < 10) {F : List (List Char)} (h : ∀ l ∈ F, WrittenBy n m l) :
    ∃ ls : Lines, Lines.file ls = fileOf F ∧ (∀ l ∈ ls, Line l ∧ l.1.states = n ∧ l.1.syms = m) ∧
      List.Forall₂ (fun s l => ReadsAs n m s l.1.table) F ls := by
  induction F with
  | nil => exact ⟨[], rfl, by simp, .nil⟩
  | cons s F ih =>
    obtain ⟨ls, e, h1, h2⟩ := ih fun l hl => h l (by simp [hl])
    obtain ⟨tm, rest, hg, hr, rfl⟩ := h s (by simp)
    obtain ⟨tm', e1, e2, e3⟩ := readsAs_write hg hn hm (by omega) hm' (write_text hg.toShaped (by omega) (by omega) hm') rest (by
      rcases hr.2 with rfl | ⟨x, rfl⟩
      · exact Or.inl rfl
      · exact Or.inr ⟨' ', x, rfl, by decide⟩)
    refine ⟨(⟨tm.table, n, m⟩, rest) :: ls, ?_, ?_, .cons ⟨tm', e1, e2.toShaped, e3⟩ h2⟩
    · rw [file_cons, e]
      simp [fileOf, Sized.text]
    · intro l hl
      rcases List.mem_cons.1 hl with rfl | hl
      · exact ⟨⟨⟨shaped_fits hg.toShaped, by simp only; omega, hn', hm, hm'⟩, hr⟩, rfl, rfl⟩
      · exact h1 l hl

/-- Python reads the lines as the machines that C++ reads. -/
theorem python_reads {n m : Nat} (hn : 1 < n) (hm : 1 < m) (hn' : n < 25) (hm' : m < 10) (h8 : n ≤ 7 → m ≠ 8) {F : List (List Char)}
    (h : ∀ l ∈ F, WrittenBy n m l) {fuel : Nat} (hf : F.length < fuel) :
    ∃ ms, readAllText fuel (fileOf F) = some ms ∧
      List.Forall₂ (fun l o => ∃ M, ReadsAs n m l M ∧ (⟨M, n, m⟩ : Sized).Object o) F ms := by
  obtain ⟨ls, e, h1, h2⟩ := written_lines hn hm hn' hm' h
  obtain ⟨ms, g1, g2, -⟩ := readAllText_lines (fun l hl => (h1 l hl).1) (fun l hl ha hb => by
    obtain ⟨h3, h4, h5⟩ := h1 l hl
    have h7 : l.1.syms ≤ 7 := by have := h8 (by omega); omega
    intro q hq a ha
    have := h3.1.fits q hq a ha
    cases hi : l.1.table q a with
    | undef => show 1 < 7; omega
    | halt w d => rw [hi] at this; have : w < l.1.syms := this; show w < 7; omega
    | go w d q' => rw [hi] at this; have := this.1; show w < 7; omega)
  refine ⟨ms, ?_, ?_⟩
  · rw [← e]
    exact g2 fuel (by rw [← h2.length_eq]; exact hf)
  · clear e g2 hf h
    induction h2 generalizing ms with
    | nil => cases g1; exact .nil
    | @cons s l F ls hs _ ih =>
      cases g1 with
      | @cons _ o _ ms ho g1 =>
        refine .cons ⟨l.1.table, hs, ?_⟩ (ih (fun l hl => h1 l (by simp [hl])) ms g1)
        obtain ⟨-, h3, h4⟩ := h1 l (by simp)
        have : l.1 = ⟨l.1.table, n, m⟩ := by rw [← h3, ← h4]
        rw [← this]
        exact ho

end Model.Cpp

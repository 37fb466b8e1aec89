import Verif.Lemmas.CppFiles
import Verif.Props.Formats
import Verif.Props.CppRecur

/-!
# C67: text files of machines are shared by the Python, C++ and Rust programs

A line of a file is the text of a machine (`Spec.tableText`, which is stated without reference to any of the programs), possibly
followed by a remark after a space.  `Model.Cpp.readTM` and `TM.write` are those of C++, `Model.IO.parseTM` and `SM.toStr` those
of Python, `Model.Validator.readTM` and `showTM` those of the Rust validator.
-/

namespace Props
open Spec Model.Cpp

/-- The readers of the three languages read the text of a machine as the same machine. -/
theorem C67_readers_agree {M : Sized} (h : M.Writable) (mode : Model.Validator.Mode) :
    (∃ tm, readTM M.text = .ok tm ∧ tm.numStates = M.states ∧ tm.numSymbols = M.syms ∧ M.Is tm.table) ∧
    (∃ m, Model.IO.parseTM M.text = some m ∧ M.Object m) ∧
    ∃ tm, Model.Validator.readTM mode M.text = .ok tm ∧ tm.length = M.states ∧ (∀ row ∈ tm, row.length = M.syms) ∧
      M.Is (Spec.Validator.table tm) := by
  have hs := h.lowSyms
  refine ⟨?_, ?_, Model.Validator.rust_read h mode⟩
  · obtain ⟨tm, e, hs, hi⟩ := readTM_text h (rest := []) ⟨by simp, Or.inl rfl⟩
    rw [List.append_nil] at e
    exact ⟨tm, e, hs.states, hs.symbols, hi⟩
  · obtain ⟨m, e, h1, h2, h3, -⟩ := C27_print_parse M.table M.states M.syms h.low (by omega) h.high h.highSyms h.fits
    exact ⟨m, e, h1, h2, h3⟩

/-- What one of the programs has read, it writes as the same text. -/
theorem C67_writers_agree {M : Sized} (h : M.Writable) (mode : Model.Validator.Mode) :
    (∃ tm, readTM M.text = .ok tm ∧ tm.write = .ok M.text) ∧
    (∃ m, Model.IO.parseTM M.text = some m ∧ m.toStr = some M.text) ∧
    ∃ tm, Model.Validator.readTM mode M.text = .ok tm ∧ Model.Validator.showTM tm = M.text := by
  have hs := h.lowSyms
  have hh := h.high
  refine ⟨?_, ?_, ?_⟩
  · obtain ⟨tm, e, hs, hi⟩ := readTM_text h (rest := []) ⟨by simp, Or.inl rfl⟩
    rw [List.append_nil] at e
    refine ⟨tm, e, ?_⟩
    rw [write_text hs h.low (by omega) h.highSyms]
    exact congrArg Out.ok (tableText_congr hi)
  · obtain ⟨m, e, -, -, -, h4⟩ := C27_print_parse M.table M.states M.syms h.low (by omega) h.high h.highSyms h.fits
    exact ⟨m, e, h4⟩
  · exact ⟨_, Model.Validator.rust_read_rows h mode, Model.Validator.rust_text h⟩

/-- Python and C++ read a file as the same machines, in the same order, whatever the remarks.  Python counts the lines from 0,
C++ from 1 and takes numbers below 1 for 1. -/
theorem C67_files_agree {ls : Lines} (h : ∀ l ∈ ls, l.1.Writable ∧ Remark l.2) (hp : ∀ l ∈ ls, l.1.Packable) :
    (∃ ms, List.Forall₂ (fun l m => l.1.Object m) ls ms ∧
      (∀ fuel, ls.length < fuel → Model.IO.readAllText fuel ls.file = some ms) ∧ ∀ n, Model.IO.loadText n ls.file = some ms[n]?) ∧
    (∀ (n : Nat) (hn : n < ls.length), ∃ tm, readLine ls.file (n + 1) = .ok (some tm) ∧ tm.numStates = ls[n].1.states ∧
      tm.numSymbols = ls[n].1.syms ∧ ls[n].1.Is tm.table) ∧
    (∀ n : Nat, ls.length ≤ n → readLine ls.file (n + 1) = .ok none) ∧
    ∀ i : Int, i ≤ 1 → readLine ls.file i = readLine ls.file 1 := by
  refine ⟨Model.IO.readAllText_lines h hp, fun n hn => ?_, fun n hn => ?_, fun i hi => ?_⟩
  · have := readLine_file h ((n : Int) + 1)
    rw [show ((n : Int) + 1 - 1).toNat = n by omega, List.getElem?_eq_getElem hn] at this
    obtain ⟨tm, e, hs, hi⟩ := this
    exact ⟨tm, e, hs.states, hs.symbols, hi⟩
  · have := readLine_file h ((n : Int) + 1)
    rwa [show ((n : Int) + 1 - 1).toNat = n by omega, List.getElem?_eq_none hn] at this
  · unfold readLine
    rw [show (i - 1).toNat = 0 by omega]
    rfl

/-- `direct_sim` on a line of a file: it reports halting exactly for the machines that halt within the number of steps, with the
exact number, and otherwise that all the steps were run. -/
theorem C67_direct_sim {ls : Lines} (h : ∀ l ∈ ls, l.1.Writable ∧ Remark l.2) {n : Nat} (hn : n < ls.length) (N : Nat) :
    (∀ k ≤ N, HaltsAt ls[n].1.table init k → directSim ls.file (n + 1) N = .ok (k, true)) ∧
    ((run ls[n].1.table N init).state ≠ none → directSim ls.file (n + 1) N = .ok (N, false)) := by
  have := readLine_file h ((n : Int) + 1)
  rw [show ((n : Int) + 1 - 1).toNat = n by omega, List.getElem?_eq_getElem hn] at this
  obtain ⟨tm, e, hs, hi⟩ := this
  obtain ⟨hw, -⟩ := h _ (List.getElem_mem hn)
  have h0 := hw.low
  have h1 := hw.lowSyms
  have hrun := run_is hi (shaped_fits hs) h0 (by omega)
  obtain ⟨s, es, hc⟩ := seek_new hs h0 (by omega) (N : Int)
  have ed : directSim ls.file (n + 1) N = .ok (s.stepNum, s.isHalted) := by
    unfold directSim
    rw [e, ok_bind]
    simp only [es, ok_bind]
  simp only [Int.toNat_natCast] at hc
  refine ⟨fun k hk hh => ?_, fun hr => ?_⟩
  · rw [← haltsAt_is hi (shaped_fits hs) h0 (by omega)] at hh
    rcases hc with ⟨c1, c2, c3⟩ | ⟨c1, c2, c3⟩
    · rw [ed, c1, c3.unique hh]
    · exact absurd (run_none_mono hk hh.1) c3
  · rcases hc with ⟨c1, c2, c3⟩ | ⟨c1, c2, c3⟩
    · rw [← hrun] at hr
      exact absurd (run_none_mono c2 c3.1) hr
    · rw [ed, c1, c2]

/-- Past the end of the file `direct_sim` and `lin_recur` use a null pointer. -/
theorem C67_line_missing {ls : Lines} (h : ∀ l ∈ ls, l.1.Writable ∧ Remark l.2) {n : Nat} (hn : ls.length ≤ n) (N : Int) (e : Nat) :
    directSim ls.file (n + 1) N = .ub ∧ lrMain ls.file (n + 1) e = .ub := by
  have := readLine_file h ((n : Int) + 1)
  rw [show ((n : Int) + 1 - 1).toNat = n by omega, List.getElem?_eq_none hn] at this
  constructor
  · unfold directSim; rw [this, ok_bind]
  · unfold lrMain; rw [this, ok_bind]

/-- `lin_recur` on a line of a file: it comes to an end; what it reports of the machine in the line is true. -/
theorem C67_lin_recur {ls : Lines} (h : ∀ l ∈ ls, l.1.Writable ∧ Remark l.2) {n : Nat} (hn : n < ls.length) (e : Nat) :
    ∃ r, lrMain ls.file (n + 1) e = .ok r ∧
      (r.isLinRecurrent = true → NeverHalts ls[n].1.table init ∧ 0 < r.period ∧
        ∀ t, r.start ≤ t → (run ls[n].1.table (t + r.period) init).state = (run ls[n].1.table t init).state ∧
          (run ls[n].1.table (t + r.period) init).scanned = (run ls[n].1.table t init).scanned ∧
          (run ls[n].1.table (t + r.period) init).pos = (run ls[n].1.table t init).pos + r.offset) ∧
      (r.isHalted = true → HaltsAt ls[n].1.table init r.stepsRun) ∧
      (r.isHalted = false → r.isLinRecurrent = false → 0 < e → (run ls[n].1.table (2 ^ e) init).state ≠ none) := by
  have := readLine_file h ((n : Int) + 1)
  rw [show ((n : Int) + 1 - 1).toNat = n by omega, List.getElem?_eq_getElem hn] at this
  obtain ⟨tm, er, hs, hi⟩ := this
  obtain ⟨hw, -⟩ := h _ (List.getElem_mem hn)
  have h0 := hw.low
  have h1 : 0 < ls[n].1.syms := by have := hw.lowSyms; omega
  have hrun := run_is hi (shaped_fits hs) h0 h1
  obtain ⟨r, ed, -, -⟩ := C64_ends hs h0 h1 (2 ^ e)
  refine ⟨r, ?_, fun hr => ?_, fun hr => ?_, fun hr hr' he => ?_⟩
  · unfold lrMain
    rw [er, ok_bind]
    exact ed
  · obtain ⟨g1, g2, g3, -⟩ := C64_recur_sound hs h0 h1 ed hr
    refine ⟨fun t => ?_, g1, fun t ht => ?_⟩
    · rw [← hrun]; exact g2 t
    · rw [← hrun, ← hrun]; exact g3 t ht
  · exact (haltsAt_is hi (shaped_fits hs) h0 h1 _).1 (C64_halting hs h0 h1 ed hr).1
  · have h2 : (2 : Int) ≤ 2 ^ e := by
      obtain ⟨e, rfl⟩ : ∃ e', e = e' + 1 := ⟨e - 1, by omega⟩
      have : (1 : Int) ≤ 2 ^ e := Int.pow_pos (by omega)
      rw [Int.pow_succ]; omega
    obtain ⟨g1, g2⟩ := C64_unknown hs h0 h1 h2 ed hr hr'
    rw [hrun] at g2
    intro hh
    refine g2 (run_none_mono ?_ hh)
    have : ((2 ^ e : Nat) : Int) ≤ r.stepsRun := by push_cast; exact g1
    omega

/-- `direct_sim_all`: the file that it writes has the same machines in the same order, each with a remark that is true of it; the
counters are the numbers of the remarks of either kind. -/
theorem C67_sim_all {ls : Lines} (h : ∀ l ∈ ls, l.1.Writable ∧ Remark l.2) (N : Nat) {fuel : Nat} (hf : ls.length ≤ fuel) :
    ∃ (st : SimAll) (out : Lines), simAll N fuel ls.file {} = .ok st ∧ st.out = out.file ∧ out.map (·.1) = ls.map (·.1) ∧
      (∀ o ∈ out, ∃ w : String, o.2 = w.toList ∧ Known o.1 N w) ∧ st.total = ls.length ∧ st.halted + st.unknown = st.total ∧
      st.halted = (out.filter fun o => " Halt ".toList.isPrefixOf o.2).length := by
  obtain ⟨out, h1, h2, h3⟩ := simAll_spec N h fuel {} hf
  have hlen : out.length = ls.length := by have := congrArg List.length h1; simpa using this
  refine ⟨_, out, h3, by simp, h1, by simpa using h2, by simp [hlen], ?_, ?_⟩
  · simp only [Nat.zero_add]
    have := List.length_eq_length_filter_add (l := out) saysHalt
    omega
  · simp only [Nat.zero_add]
    rfl

/-- The file that `direct_sim_all` writes can be read again by Python and by C++, as the same machines. -/
theorem C67_sim_all_again {ls : Lines} (h : ∀ l ∈ ls, l.1.Writable ∧ Remark l.2) (hp : ∀ l ∈ ls, l.1.Packable) (N : Nat) {fuel : Nat}
    (hf : ls.length ≤ fuel) {st : SimAll} (hr : simAll N fuel ls.file {} = .ok st) :
    (∃ ms, List.Forall₂ (fun l m => l.1.Object m) ls ms ∧ Model.IO.readAllText (ls.length + 1) st.out = some ms) ∧
    ∃ st', simAll N fuel st.out {} = .ok st' ∧ st' = st := by
  obtain ⟨out, h1, h2, h3⟩ := simAll_spec N h fuel {} hf
  rw [hr] at h3
  have h4 := Out.ok.inj h3
  have ho : ∀ o ∈ out, o.1.Writable ∧ Remark o.2 := fun o ho => by
    obtain ⟨w, e, hk⟩ := h2 o ho
    have : o.1 ∈ ls.map (·.1) := h1 ▸ List.mem_map_of_mem ho
    obtain ⟨l, hl, el⟩ := List.mem_map.1 this
    exact ⟨el ▸ (h l hl).1, e ▸ known_remark hk⟩
  have hlen : out.length = ls.length := by have := congrArg List.length h1; simpa using this
  have eo : st.out = out.file := by rw [h4]; simp
  constructor
  · obtain ⟨ms, m1, m2, -⟩ := Model.IO.readAllText_lines ho (fun o ho => by
      have : o.1 ∈ ls.map (·.1) := h1 ▸ List.mem_map_of_mem ho
      obtain ⟨l, hl, el⟩ := List.mem_map.1 this
      exact el ▸ hp l hl)
    refine ⟨ms, ?_, eo ▸ m2 _ (by omega)⟩
    have m3 : List.Forall₂ (fun (M : Sized) (m : Model.IO.SM) => M.Object m) (out.map (·.1)) ms := List.forall₂_map_left_iff.2 m1
    rw [h1] at m3
    exact List.forall₂_map_left_iff.1 m3
  · obtain ⟨out', g1, g2, g3⟩ := simAll_spec N ho fuel {} (by omega)
    have : out' = out := by
      clear g3 h3 h4 hr eo hf hlen hp ho h
      induction out generalizing ls out' with
      | nil =>
        cases out' with
        | nil => rfl
        | cons a b => simp at g1
      | cons o out ih =>
        cases out' with
        | nil => simp at g1
        | cons o' out' =>
          cases ls with
          | nil => simp at h1
          | cons l ls =>
            simp only [List.map_cons, List.cons.injEq] at g1 h1
            obtain ⟨w, e, hk⟩ := h2 o (by simp)
            obtain ⟨w', e', hk'⟩ := g2 o' (by simp)
            rw [g1.1] at hk'
            have : w = w' := known_unique hk hk'
            rw [ih h1.2 (fun x hx => h2 x (by simp [hx])) out' g1.2 fun x hx => g2 x (by simp [hx])]
            congr 1
            exact Prod.ext g1.1 (by rw [e, e', this])
    subst this
    refine ⟨_, by rw [eo]; exact g3, h4.symm⟩

/-- The three files of `lr_enum` can be read by Python, as the machines that C++ reads. -/
theorem C67_lr_enum_python {fuel n m : Nat} (hn : 1 < n) (hm : 1 < m) (hn' : n < 25) (hm' : m < 10) (h8 : n ≤ 7 → m ≠ 8) {L : Int}
    {allow only : Bool} {st : LrFiles} (h : lrEnum fuel n m L allow only = .ok st) :
    ∀ F ∈ [st.halt, st.inf, st.unknown], ∃ ms,
      Model.IO.readAllText (F.length + 1) (F.map (· ++ ['\n'])).flatten = some ms ∧
      List.Forall₂ (fun l o => ∃ M, ReadsAs n m l M ∧ (⟨M, n, m⟩ : Sized).Object o) F ms := by
  obtain ⟨tr, ht, -⟩ := lrEnum_trace hn hm (by omega) hm' h
  have hw := ht.written (by omega) (by omega) hm'
  intro F hF
  refine python_reads hn hm hn' hm' h8 (fun l hl => hw l ?_) (Nat.lt_succ_self _)
  simp only [List.mem_cons, List.not_mem_nil, or_false] at hF
  rcases hF with rfl | rfl | rfl <;> simp [hl]

/-! ### Where the programs disagree -/

/-- The halt state must be written `Z`.  Python takes any letter that is not the name of a state for the halt state and the machine
then halts after 6 steps; C++ and Rust take `H` for the eighth state, and C++ leaves the table when it gets there. -/
theorem C67_halt_letter_false :
    (Model.IO.parseTM "1RB1LB_1LA1RH".toList).bind (·.toStr) = some "1RB1LB_1LA1RZ".toList ∧
    directSim "1RB1LB_1LA1RZ\n".toList 1 100 = .ok (6, true) ∧ directSim "1RB1LB_1LA1RH\n".toList 1 100 = .ub ∧
    (match Model.Validator.readTM ⟨true, false⟩ "1RB1LB_1LA1RH".toList with
      | .ok tm => decide (Spec.Validator.table tm 1 1 = .go 1 .R 7)
      | _ => false) = true := by decide +kernel

/-- A remark must begin with a space: after a comma, a bar or a hash sign only C++ finds the end of the machine, and what
Python's reader makes of the line is an exception. -/
theorem C67_remark_false : ∀ c ∈ [',', '|', '#'],
    readTM ("1RB1LB_1LA1RZ".toList ++ [c, 'x']) = readTM "1RB1LB_1LA1RZ".toList ∧
    Model.IO.parseTM ("1RB1LB_1LA1RZ".toList ++ [c, 'x']) = none := by decide +kernel

/-- A short dash for the last transition is read by C++ only. -/
theorem C67_dash_false :
    readTM "1RB1LB_1LA-".toList = readTM "1RB1LB_1LA---".toList ∧ Model.IO.parseTM "1RB1LB_1LA-".toList = none := by decide +kernel

/-- A blank line ends the file for Python, without an error and whatever follows; C++ leaves an array. -/
theorem C67_blank_line_false :
    (Model.IO.readAllText 5 "1RB1LB_1LA1RZ\n\n1RB1RZ_1LA1RB\n".toList).map (·.map (·.toStr)) = some [some "1RB1LB_1LA1RZ".toList] ∧
    simAll 100 5 "1RB1LB_1LA1RZ\n\n1RB1RZ_1LA1RB\n".toList {} = .ub := by decide +kernel

/-! ### A concrete case -/

/-- the busy beaver with two states and two symbols -/
def fileBB2 : Sized where
  table q a := match q, a with
    | 0, 0 => .go 1 .R 1
    | 0, 1 => .go 1 .L 1
    | 1, 0 => .go 1 .L 0
    | 1, 1 => .halt 1 .R
    | _, _ => .undef
  states := 2
  syms := 2

/-- one that moves to the right for ever -/
def fileRun2 : Sized where
  table q a := match q, a with
    | 0, 0 => .go 1 .R 1
    | 1, 0 => .go 1 .R 0
    | _, _ => .undef
  states := 2
  syms := 2

theorem fileMachines_ok : fileBB2.Writable ∧ fileBB2.Packable ∧ fileRun2.Writable ∧ fileRun2.Packable :=
  ⟨⟨by decide, by decide, by decide, by decide, by decide⟩, fun _ _ => by decide,
    ⟨by decide, by decide, by decide, by decide, by decide⟩, fun _ _ => by decide⟩

example : fileBB2.text = "1RB1LB_1LA1RZ".toList ∧ fileRun2.text = "1RB---_1RA---".toList := by decide

/-- The hypotheses are met by a file of two lines with a remark; the model runs on it. -/
theorem C67_example :
    (∀ l ∈ ([(fileBB2, []), (fileRun2, " first".toList)] : Lines), (l.1.Writable ∧ Remark l.2) ∧ l.1.Packable) ∧
    Lines.file [(fileBB2, []), (fileRun2, " first".toList)] = "1RB1LB_1LA1RZ\n1RB---_1RA--- first\n".toList ∧
    simAll 50 2 "1RB1LB_1LA1RZ\n1RB---_1RA--- first\n".toList {} =
      .ok { out := "1RB1LB_1LA1RZ Halt 6\n1RB---_1RA--- Unknown 50\n".toList, total := 2, halted := 1, unknown := 1 } ∧
    directSim "1RB1LB_1LA1RZ\n1RB---_1RA--- first\n".toList 2 50 = .ok (50, false) ∧
    (match lrMain "1RB1LB_1LA1RZ\n1RB---_1RA--- first\n".toList 2 5 with
      | .ok r => decide (r.isLinRecurrent = true ∧ r.period = 2 ∧ r.offset = 2)
      | _ => false) = true := by
  refine ⟨?_, by decide, by decide +kernel, by decide +kernel, by decide +kernel⟩
  obtain ⟨h1, h2, h3, h4⟩ := fileMachines_ok
  intro l hl
  simp only [List.mem_cons, List.not_mem_nil, or_false] at hl
  rcases hl with rfl | rfl
  · exact ⟨⟨h1, by simp [Remark]⟩, h2⟩
  · exact ⟨⟨h3, by decide, Or.inr ⟨_, rfl⟩⟩, h4⟩

end Props

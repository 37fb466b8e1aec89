import Verif.Model.CppRecurEnum
import Verif.Spec.CppEnum
import Verif.Lemmas.CppRecur
import Verif.Lemmas.CppLazy

/-!
# The enumeration with the linear recurrence detector
-/

namespace Model.Cpp
open Spec Model.IO

/-- the machine halts early enough for the detector with the given limit -/
def DetHalts (M : Table) (L : Int) : Prop := ∃ e t : Nat, HaltsAt M init t ∧ ((2 ^ e : Nat) : Int) < L ∧ t ≤ 2 ^ (e + 1)

theorem DetHalts.mono {M : Table} {L L' : Int} (h : DetHalts M L) (hl : L ≤ L') : DetHalts M L' := by
  obtain ⟨e, t, h1, h2, h3⟩ := h
  exact ⟨e, t, h1, by omega, h3⟩

/-- what the filter answers -/
def lrRes (maxSteps : Int) (tm : TM) : Expand :=
  match lrDetect tm maxSteps with
  | .ok r => ⟨r.isHalted, r.lastState, r.lastSymbol⟩
  | _ => ⟨false, none, none⟩

theorem lrDetect_cases {tm : TM} {n m : Nat} (h : tm.Good n m) (hn : 0 < n) (hm : 0 < m) (maxSteps : Int) :
    ∃ r, lrDetect tm maxSteps = .ok r ∧ lrRes maxSteps tm = ⟨r.isHalted, r.lastState, r.lastSymbol⟩ ∧
      (r.isHalted = true ∧ DetHalts tm.table maxSteps ∧ HaltsAt tm.table init r.stepsRun ∧
          (∃ t q a, r.stepsRun = t + 1 ∧ q < n ∧ a < m ∧ StuckAt tm.table t q a ∧ r.lastState = some (q : Int) ∧ r.lastSymbol = some a) ∨
        r.isHalted = false ∧ r.isLinRecurrent = true ∧ Recurs tm.table r.period r.offset r.start ∨
        r.isHalted = false ∧ r.isLinRecurrent = false ∧ ¬ DetHalts tm.table maxSteps ∧
          (2 ≤ maxSteps → (run tm.table maxSteps.toNat init).state ≠ none)) := by
  obtain ⟨r, er, hd⟩ := lrDetect_spec h.toShaped hn hm maxSteps
  refine ⟨r, er, by unfold lrRes; rw [er], ?_⟩
  cases hd with
  | halted e t q a h1 h2 h3 h4 h5 h6 hr =>
    subst hr
    refine Or.inl ⟨rfl, ⟨e, t, h3, h2, h4⟩, h3, t - 1, q, a, by show t = _; omega, ?_⟩
    have hir := inRange_run (shaped_fits h.toShaped) (inRange_init hn hm) (t - 1) (by rw [h5]; simp)
    have hq := hir.1 q h5
    have ha : a < m := by rw [← h6]; exact hir.2 _
    refine ⟨hq, ha, ⟨⟨h5, h6⟩, ?_⟩, rfl, rfl⟩
    have hnext := h3.1
    rw [show t = (t - 1) + 1 by omega, run_succ', step_state h5] at hnext
    rw [show (run tm.table (t - 1) init).tape (run tm.table (t - 1) init).pos = a from h6] at hnext
    cases hi : tm.table q a with
    | undef => rfl
    | halt w d => exact absurd hi (good_noHalt h q a hq ha w d)
    | go w d q' => rw [hi] at hnext; cases hnext
  | found e p h1 h2 h3 h4 h5 h6 hr =>
    subst hr
    exact Or.inr (Or.inl ⟨rfl, rfl, h2, h4.neverHalts, fun t ht => ⟨(h4 t ht).2.1, (h4 t ht).2.2, h4.pos ht⟩⟩)
  | unknown e h1 h2 h3 h4 hr =>
    subst hr
    refine Or.inr (Or.inr ⟨rfl, rfl, ?_, fun h2' hc => ?_⟩)
    · rintro ⟨e', t, g1, g2, g3⟩
      have hlt : e' < e := by
        by_contra hc
        have := Nat.pow_le_pow_right (show 0 < 2 by omega) (show e ≤ e' by omega)
        omega
      have := Nat.pow_le_pow_right (show 0 < 2 by omega) (show e' + 1 ≤ e by omega)
      exact h2 (by omega) (run_none_mono (show t ≤ 2 ^ e by omega) g1.1)
    · have : 0 < e := by
        by_contra h0
        obtain rfl : e = 0 := by omega
        simp at h1
        omega
      exact h2 this (run_none_mono (show maxSteps.toNat ≤ 2 ^ e by omega) hc)

theorem lrRes_right {tm : TM} {n m : Nat} (h : tm.Good n m) (hn : 0 < n) (hm : 0 < m) (maxSteps : Int) :
    ResultRight n m tm (lrRes maxSteps tm) := by
  obtain ⟨r, -, e, h1⟩ := lrDetect_cases h hn hm maxSteps
  rw [e]
  intro hu
  rcases h1 with ⟨-, -, -, t, q, a, -, hq, ha, h2, h3, h4⟩ | ⟨h1, -⟩ | ⟨h1, -⟩
  · exact ⟨t, q, a, hq, ha, h2, h3, h4⟩
  · simp only at hu; rw [h1] at hu; cases hu
  · simp only at hu; rw [h1] at hu; cases hu

/-- what a machine adds to the three files -/
inductive Entry (L : Int) (only : Bool) (tm : TM) : List (List Char) → List (List Char) → List (List Char) → Prop
  | halt (s : List Char) (k : Nat) : tm.write = .ok s → DetHalts tm.table L → HaltsAt tm.table init k →
      Entry L only tm (if only then [] else [haltLine s k]) [] []
  | inf (s : List Char) (p : Nat) (o : Int) (st : Nat) : tm.write = .ok s → Recurs tm.table p o st →
      Entry L only tm [] (if only then [] else [infLine s p o st]) []
  | unknown (s : List Char) : tm.write = .ok s → ¬ DetHalts tm.table L → (2 ≤ L → (run tm.table L.toNat init).state ≠ none) →
      Entry L only tm [] [] [s]

theorem lrFilter_entry {tm : TM} {n m : Nat} (h : tm.Good n m) (hn : 0 < n) (hm : 0 < m) (hn' : n < 26) (hm' : m < 10) (L : Int)
    (only : Bool) (st : LrFiles) : ∃ st' h i u, lrFilter L only st tm = .ok (st', lrRes L tm) ∧ Entry L only tm h i u ∧
      st'.halt = st.halt ++ h ∧ st'.inf = st.inf ++ i ∧ st'.unknown = st.unknown ++ u ∧ st'.numTotal = st.numTotal + 1 ∧
      st'.numUnknown = st.numUnknown + u.length ∧
      st'.numHalt + st'.numInf + st'.numUnknown = st.numHalt + st.numInf + st.numUnknown + 1 ∧
      (only = false → st'.numHalt = st.numHalt + h.length ∧ st'.numInf = st.numInf + i.length) := by
  obtain ⟨r, e, er, h1⟩ := lrDetect_cases h hn hm L
  obtain ⟨s, ew, -⟩ := readTM_write h.toShaped hn' hm' hm [] (Or.inl rfl)
  rw [er]
  unfold lrFilter
  rw [e]
  simp only [ok_bind, ew]
  rcases h1 with ⟨hh, hd, hk, -⟩ | ⟨hh, hl, hr⟩ | ⟨hh, hl, hd, hr⟩
  · rw [if_pos hh]
    cases only with
    | true => exact ⟨_, _, _, _, rfl, .halt s _ ew hd hk, by simp; omega⟩
    | false => exact ⟨_, _, _, _, rfl, .halt s _ ew hd hk, by simp; omega⟩
  · rw [if_neg (by rw [hh]; simp), if_pos hl]
    cases only with
    | true => exact ⟨_, _, _, _, rfl, .inf s _ _ _ ew hr, by simp; omega⟩
    | false => exact ⟨_, _, _, _, rfl, .inf s _ _ _ ew hr, by simp; omega⟩
  · rw [if_neg (by rw [hh]; simp), if_neg (by rw [hl]; simp)]
    exact ⟨_, _, _, _, rfl, .unknown s ew hd hr, by simp; omega⟩

/-- the counters agree with the files -/
def LrFiles.Counts (only : Bool) (st : LrFiles) : Prop :=
  st.numHalt + st.numInf + st.numUnknown = st.numTotal ∧ st.numUnknown = st.unknown.length ∧
    (only = false → st.numHalt = st.halt.length ∧ st.numInf = st.inf.length)

/-- What is in the files after a number of machines. -/
theorem folds_lr {n m : Nat} (hn : 0 < n) (hm : 0 < m) (hn' : n < 26) (hm' : m < 10) {L : Int} {only : Bool} {tr : List TM}
    {st st' : LrFiles} (h : Folds (lrFilter L only) tr st st') (hg : ∀ tm ∈ tr, tm.Good n m) :
    (∀ l ∈ st'.halt, l ∈ st.halt ∨ ∃ tm ∈ tr, ∃ h i u, Entry L only tm h i u ∧ l ∈ h) ∧
    (∀ l ∈ st'.inf, l ∈ st.inf ∨ ∃ tm ∈ tr, ∃ h i u, Entry L only tm h i u ∧ l ∈ i) ∧
    (∀ l ∈ st'.unknown, l ∈ st.unknown ∨ ∃ tm ∈ tr, ∃ h i u, Entry L only tm h i u ∧ l ∈ u) ∧
    (∀ tm ∈ tr, ∃ h i u, Entry L only tm h i u ∧ (∀ l ∈ h, l ∈ st'.halt) ∧ (∀ l ∈ i, l ∈ st'.inf) ∧ (∀ l ∈ u, l ∈ st'.unknown)) ∧
    ((∀ l ∈ st.halt, l ∈ st'.halt) ∧ (∀ l ∈ st.inf, l ∈ st'.inf) ∧ (∀ l ∈ st.unknown, l ∈ st'.unknown)) ∧
    (st.Counts only → st'.Counts only) ∧ st'.numTotal = st.numTotal + tr.length := by
  induction h with
  | nil s => exact ⟨fun _ h => Or.inl h, fun _ h => Or.inl h, fun _ h => Or.inl h, by simp, ⟨fun _ h => h, fun _ h => h, fun _ h => h⟩, id, rfl⟩
  | @cons tm tr s s1 s2 r hf _ ih =>
    obtain ⟨i1, i2, i3, i4, ⟨i5, i6, i7⟩, i8, i9⟩ := ih fun x hx => hg x (by simp [hx])
    obtain ⟨st', h, i, u, e, hent, e1, e2, e3, e4, e5, e6, e7⟩ := lrFilter_entry (hg tm (by simp)) hn hm hn' hm' L only s
    rw [hf] at e
    obtain ⟨rfl, -⟩ := Prod.mk.inj (Out.ok.inj e)
    refine ⟨fun l hl => ?_, fun l hl => ?_, fun l hl => ?_, fun x hx => ?_, ⟨fun l hl => ?_, fun l hl => ?_, fun l hl => ?_⟩, fun hc => i8 ?_, ?_⟩
    · rcases i1 l hl with hl | ⟨x, hx, hl⟩
      · rw [e1] at hl
        rcases List.mem_append.1 hl with hl | hl
        · exact Or.inl hl
        · exact Or.inr ⟨tm, by simp, h, i, u, hent, hl⟩
      · exact Or.inr ⟨x, by simp [hx], hl⟩
    · rcases i2 l hl with hl | ⟨x, hx, hl⟩
      · rw [e2] at hl
        rcases List.mem_append.1 hl with hl | hl
        · exact Or.inl hl
        · exact Or.inr ⟨tm, by simp, h, i, u, hent, hl⟩
      · exact Or.inr ⟨x, by simp [hx], hl⟩
    · rcases i3 l hl with hl | ⟨x, hx, hl⟩
      · rw [e3] at hl
        rcases List.mem_append.1 hl with hl | hl
        · exact Or.inl hl
        · exact Or.inr ⟨tm, by simp, h, i, u, hent, hl⟩
      · exact Or.inr ⟨x, by simp [hx], hl⟩
    · rcases List.mem_cons.1 hx with rfl | hx
      · exact ⟨h, i, u, hent, fun l hl => i5 l (by rw [e1]; simp [hl]), fun l hl => i6 l (by rw [e2]; simp [hl]),
          fun l hl => i7 l (by rw [e3]; simp [hl])⟩
      · exact i4 x hx
    · exact i5 l (by rw [e1]; simp [hl])
    · exact i6 l (by rw [e2]; simp [hl])
    · exact i7 l (by rw [e3]; simp [hl])
    · obtain ⟨c1, c2, c3⟩ := hc
      refine ⟨by omega, by rw [e5, c2, e3, List.length_append], fun ho => ?_⟩
      obtain ⟨d1, d2⟩ := c3 ho
      obtain ⟨f1, f2⟩ := e7 ho
      rw [e1, e2, List.length_append, List.length_append]
      omega
    · rw [i9, e4, List.length_cons]; omega

/-- the machines looked at and the three files they lead to -/
structure Trace (n m : Nat) (L : Int) (allow only : Bool) (tr : List TM) (H I U : List (List Char)) : Prop where
  good : ∀ tm ∈ tr, tm.Good n m
  children : ∀ tm ∈ tr, (lrRes L tm).reachedUndecided = true → ∃ cs, expandTM allow tm (lrRes L tm) = .ok cs ∧ ∀ c ∈ cs, c ∈ tr
  entry : ∀ tm ∈ tr, ∃ h i u, Entry L only tm h i u ∧ (∀ l ∈ h, l ∈ H) ∧ (∀ l ∈ i, l ∈ I) ∧ (∀ l ∈ u, l ∈ U)
  halt : ∀ l ∈ H, ∃ tm ∈ tr, ∃ h i u, Entry L only tm h i u ∧ l ∈ h
  inf : ∀ l ∈ I, ∃ tm ∈ tr, ∃ h i u, Entry L only tm h i u ∧ l ∈ i
  unknown : ∀ l ∈ U, ∃ tm ∈ tr, ∃ h i u, Entry L only tm h i u ∧ l ∈ u

theorem Trace.nil (n m : Nat) (L : Int) (allow only : Bool) : Trace n m L allow only [] [] [] [] :=
  ⟨by simp, by simp, by simp, by simp, by simp, by simp⟩

theorem Trace.append {n m : Nat} {L : Int} {allow only : Bool} {tr tr' : List TM} {H I U H' I' U' : List (List Char)}
    (a : Trace n m L allow only tr H I U) (b : Trace n m L allow only tr' H' I' U') :
    Trace n m L allow only (tr ++ tr') (H ++ H') (I ++ I') (U ++ U') := by
  refine ⟨fun tm h => ?_, fun tm h hu => ?_, fun tm h => ?_, fun l h => ?_, fun l h => ?_, fun l h => ?_⟩
  · exact (List.mem_append.1 h).elim (a.good tm) (b.good tm)
  · rcases List.mem_append.1 h with h | h
    · obtain ⟨cs, e, g⟩ := a.children tm h hu
      exact ⟨cs, e, fun c hc => by simp [g c hc]⟩
    · obtain ⟨cs, e, g⟩ := b.children tm h hu
      exact ⟨cs, e, fun c hc => by simp [g c hc]⟩
  · rcases List.mem_append.1 h with h | h
    · obtain ⟨x, y, z, e, g1, g2, g3⟩ := a.entry tm h
      exact ⟨x, y, z, e, fun l hl => by simp [g1 l hl], fun l hl => by simp [g2 l hl], fun l hl => by simp [g3 l hl]⟩
    · obtain ⟨x, y, z, e, g1, g2, g3⟩ := b.entry tm h
      exact ⟨x, y, z, e, fun l hl => by simp [g1 l hl], fun l hl => by simp [g2 l hl], fun l hl => by simp [g3 l hl]⟩
  · rcases List.mem_append.1 h with h | h
    · obtain ⟨tm, htm, e⟩ := a.halt l h
      exact ⟨tm, by simp [htm], e⟩
    · obtain ⟨tm, htm, e⟩ := b.halt l h
      exact ⟨tm, by simp [htm], e⟩
  · rcases List.mem_append.1 h with h | h
    · obtain ⟨tm, htm, e⟩ := a.inf l h
      exact ⟨tm, by simp [htm], e⟩
    · obtain ⟨tm, htm, e⟩ := b.inf l h
      exact ⟨tm, by simp [htm], e⟩
  · rcases List.mem_append.1 h with h | h
    · obtain ⟨tm, htm, e⟩ := a.unknown l h
      exact ⟨tm, by simp [htm], e⟩
    · obtain ⟨tm, htm, e⟩ := b.unknown l h
      exact ⟨tm, by simp [htm], e⟩

theorem lrFilter_res {tm : TM} {n m : Nat} (h : tm.Good n m) (hn : 0 < n) (hm : 0 < m) (hn' : n < 26) (hm' : m < 10) {L : Int} {only : Bool}
    {st st' : LrFiles} {r : Expand} (hf : lrFilter L only st tm = .ok (st', r)) : r = lrRes L tm ∧ ResultRight n m tm r := by
  obtain ⟨st'', _, _, _, e, -⟩ := lrFilter_entry h hn hm hn' hm' L only st
  rw [hf] at e
  obtain ⟨-, rfl⟩ := Prod.mk.inj (Out.ok.inj e)
  exact ⟨rfl, lrRes_right h hn hm L⟩

/-- a trace from folding the filter, started with empty files -/
theorem trace_of_folds {n m : Nat} (hn : 0 < n) (hm : 0 < m) (hn' : n < 26) (hm' : m < 10) {L : Int} {allow only : Bool} {tr : List TM}
    {st : LrFiles} (h : Folds (lrFilter L only) tr {} st) (hg : ∀ tm ∈ tr, tm.Good n m)
    (hc : ∀ tm ∈ tr, (lrRes L tm).reachedUndecided = true → ∃ cs, expandTM allow tm (lrRes L tm) = .ok cs ∧ ∀ c ∈ cs, c ∈ tr) :
    Trace n m L allow only tr st.halt st.inf st.unknown ∧ st.Counts only ∧ st.numTotal = tr.length := by
  obtain ⟨h1, h2, h3, h4, -, h6, h7⟩ := folds_lr hn hm hn' hm' h hg
  refine ⟨⟨hg, hc, h4, fun l hl => ?_, fun l hl => ?_, fun l hl => ?_⟩, h6 ⟨rfl, rfl, fun _ => ⟨rfl, rfl⟩⟩, by rw [h7]; exact Nat.zero_add _⟩
  · exact (h1 l hl).resolve_left (by simp)
  · exact (h2 l hl).resolve_left (by simp)
  · exact (h3 l hl).resolve_left (by simp)

/-- the table of the machine the enumeration starts with -/
def root1RB : Table := Table.fill (fun _ _ => .undef) 0 0 (.go 1 .R 1)

theorem root_good {n m : Nat} (hn : 1 < n) (hm : 1 < m) :
    ∃ c, (TM.empty n m).child 0 0 ⟨1, 1, 1, false⟩ = .ok c ∧ c.Good n m ∧ c.table = root1RB := by
  obtain ⟨c, e, h1, h2, -⟩ := child_good (empty_good hn hm) (q := 0) (a := 0) (by omega) (by omega) (by rw [empty_table])
    (t := ⟨1, 1, 1, false⟩) (mem_nextTrans.2 ⟨rfl, by decide, by show (1 : Int) ≤ 1; omega, by show (1 : Int) ≤ 1; omega, Or.inl rfl⟩)
  refine ⟨c, e, h1, ?_⟩
  rw [h2, empty_table]
  rfl

theorem lrEnum_trace {fuel n m : Nat} (hn : 1 < n) (hm : 1 < m) (hn' : n < 26) (hm' : m < 10) {L : Int} {allow only : Bool} {st : LrFiles}
    (h : lrEnum fuel n m L allow only = .ok st) :
    ∃ tr, Trace n m L allow only tr st.halt st.inf st.unknown ∧ (∃ tm ∈ tr, tm.table = root1RB) ∧ st.Counts only ∧ st.numTotal = tr.length := by
  obtain ⟨c, e, hc, ht⟩ := root_good hn hm
  unfold lrEnum at h
  rw [e, ok_bind] at h
  obtain ⟨tr, g1, g2, g3, g4⟩ := enumLoop_trace (n := n) (m := m) (lrRes L)
    (fun s tm s' r hg hf => lrFilter_res hg (by omega) (by omega) hn' hm' hf) fuel _ _ _
    (fun tm htm => by rw [List.mem_singleton.1 htm]; exact hc) h
  obtain ⟨t1, t2, t3⟩ := trace_of_folds (by omega) (by omega) hn' hm' g1 g3 g4
  exact ⟨tr, t1, ⟨c, g2 c (by simp), ht⟩, t2, t3⟩

/-- a text of a good machine is read as the same table -/
theorem readsAs_write {tm : TM} {n m : Nat} (hg : tm.Good n m) (hn : 1 < n) (hm : 1 < m) (hn' : n < 26) (hm' : m < 10) {s : List Char}
    (hw : tm.write = .ok s) (rest : List Char) (hrest : rest = [] ∨ ∃ c r, rest = c :: r ∧ lineEnds.contains c = true) :
    ∃ tm', readTM (s ++ rest) = .ok tm' ∧ tm'.Good n m ∧ tm'.table = tm.table := by
  obtain ⟨s', e1, e2⟩ := readTM_write hg.toShaped hn' hm' (by omega) rest hrest
  rw [hw] at e1
  obtain rfl := Out.ok.inj e1
  obtain ⟨tm', e3, e4, e5⟩ := ofTable_good hg hn hm
  refine ⟨tm', by rw [e2, e3], e5, ?_⟩
  unfold TM.table
  rw [e4]

theorem lrContinue_trace {fuel n m : Nat} (hn : 1 < n) (hm : 1 < m) (hn' : n < 26) (hm' : m < 10) {L : Int} {allow only : Bool} :
    ∀ {lines : List (List Char)} {st st' : LrFiles}, (∀ l ∈ lines, ∃ tm : TM, tm.Good n m ∧ tm.write = .ok l) →
      lrContinue fuel L allow only lines st = .ok st' →
      ∃ tr, Folds (lrFilter L only) tr st st' ∧ (∀ tm ∈ tr, tm.Good n m) ∧
        (∀ tm : TM, tm.Good n m → (∃ l ∈ lines, tm.write = .ok l) → ∃ tm' ∈ tr, tm'.table = tm.table) ∧
        ∀ tm ∈ tr, (lrRes L tm).reachedUndecided = true → ∃ cs, expandTM allow tm (lrRes L tm) = .ok cs ∧ ∀ c ∈ cs, c ∈ tr := by
  intro lines
  induction lines with
  | nil =>
    intro st st' _ h
    obtain rfl := Out.ok.inj h
    exact ⟨[], .nil _, by simp, by simp, by simp⟩
  | cons l lines ih =>
    intro st st' hl h
    rw [lrContinue] at h
    obtain ⟨tm0, hread, h⟩ := bind_ok h
    obtain ⟨st1, henum, h⟩ := bind_ok h
    have hsame : ∀ tm : TM, tm.Good n m → tm.write = .ok l → tm0.Good n m ∧ tm0.table = tm.table := by
      intro tm hgt hw
      obtain ⟨tm', e1, e2, e3⟩ := readsAs_write hgt hn hm hn' hm' hw [] (Or.inl rfl)
      rw [List.append_nil, hread] at e1
      obtain rfl := Out.ok.inj e1
      exact ⟨e2, e3⟩
    obtain ⟨tmw, hgw, hww⟩ := hl l (by simp)
    have hg0 := (hsame tmw hgw hww).1
    obtain ⟨tr1, a1, a2, a3, a4⟩ := enumLoop_trace (n := n) (m := m) (lrRes L)
      (fun s tm s' r hg hf => lrFilter_res hg (by omega) (by omega) hn' hm' hf) fuel _ _ _
      (fun tm htm => by rw [List.mem_singleton.1 htm]; exact hg0) henum
    obtain ⟨tr2, b1, b2, b3, b4⟩ := ih (fun l hl' => hl l (by simp [hl'])) h
    refine ⟨tr1 ++ tr2, folds_append a1 b1, ?_, ?_, ?_⟩
    · intro tm htm
      rcases List.mem_append.1 htm with htm | htm
      · exact a3 tm htm
      · exact b2 tm htm
    · rintro tm hgt ⟨l', hl', hw⟩
      rcases List.mem_cons.1 hl' with rfl | hl'
      · exact ⟨tm0, by simp [a2 tm0 (by simp)], (hsame tm hgt hw).2⟩
      · obtain ⟨tm', c1, c2⟩ := b3 tm hgt ⟨l', hl', hw⟩
        exact ⟨tm', by simp [c1], c2⟩
    · intro tm htm hu
      rcases List.mem_append.1 htm with htm | htm
      · obtain ⟨cs, c1, c2⟩ := a4 tm htm hu
        exact ⟨cs, c1, fun c hc => by simp [c2 c hc]⟩
      · obtain ⟨cs, c1, c2⟩ := b4 tm htm hu
        exact ⟨cs, c1, fun c hc => by simp [c2 c hc]⟩

theorem chunks_trace {fuel n m : Nat} (hn : 1 < n) (hm : 1 < m) (hn' : n < 26) (hm' : m < 10) {L : Int} {allow only : Bool} :
    ∀ {chunks : List (List (List Char))} {parts : List LrFiles}, (∀ c ∈ chunks, ∀ l ∈ c, ∃ tm : TM, tm.Good n m ∧ tm.write = .ok l) →
      mapOut (fun lines => lrContinue fuel L allow only lines {}) chunks = .ok parts →
      ∃ tr, Trace n m L allow only tr (parts.map LrFiles.halt).flatten (parts.map LrFiles.inf).flatten (parts.map LrFiles.unknown).flatten ∧
        ∀ tm : TM, tm.Good n m → (∃ l ∈ chunks.flatten, tm.write = .ok l) → ∃ tm' ∈ tr, tm'.table = tm.table := by
  intro chunks
  induction chunks with
  | nil =>
    intro parts _ h
    obtain rfl := Out.ok.inj h
    exact ⟨[], Trace.nil .., by simp⟩
  | cons c chunks ih =>
    intro parts hl h
    rw [mapOut] at h
    obtain ⟨b, hb, h⟩ := bind_ok h
    obtain ⟨r', hr, h⟩ := bind_ok h
    obtain rfl := Out.ok.inj h
    obtain ⟨tr1, a1, a2, a3, a4⟩ := lrContinue_trace hn hm hn' hm' (hl c (by simp)) hb
    obtain ⟨t1, -⟩ := trace_of_folds (by omega) (by omega) hn' hm' a1 a2 a4
    obtain ⟨tr2, b1, b2⟩ := ih (fun x hx => hl x (by simp [hx])) hr
    refine ⟨tr1 ++ tr2, by simpa using t1.append b1, ?_⟩
    rintro tm hgt ⟨l, hl', hw⟩
    rw [List.flatten_cons] at hl'
    rcases List.mem_append.1 hl' with hl' | hl'
    · obtain ⟨tm', c1, c2⟩ := a3 tm hgt ⟨l, hl', hw⟩
      exact ⟨tm', by simp [c1], c2⟩
    · obtain ⟨tm', c1, c2⟩ := b2 tm hgt ⟨l, hl', hw⟩
      exact ⟨tm', by simp [c1], c2⟩

/-! ### Completeness -/

theorem normal_runs {n m : Nat} (hn : 0 < n) (hm : 0 < m) {M P : Table} (hf : Fits M n m) (h : StandsIn n m M P) {t : Nat}
    (hr : (run P t init).state ≠ none) : (run M t init).state ≠ none := by
  obtain ⟨ρ, h0, h00, hres⟩ := h
  exact (run_restricts ρ hf hn hm h0 h00 hres t hr).2

theorem lr_complete {n m : Nat} (hn : 1 < n) (hm : 1 < m) {M : Table} (hf : Fits M n m) (total : ∀ q < n, ∀ a < m, M q a ≠ .undef)
    (allow : Bool) (hh : allow = true ∨ ∃ q < n, ∃ a < m, ∃ w d, M q a = .halt w d) {w q' : Nat} {d : Dir} (h1 : M 0 0 = .go w d q')
    (hw : w ≠ 0) (hq : q' ≠ 0) (L : Int) (Tree : Table → Prop) (hfit : ∀ P, Tree P → Fits P n m) (root : Tree root1RB)
    (closed : ∀ P t q a w d q', Tree P → DetHalts P L → StuckAt P t q a → q < n → a < m → (allow = true ∨ TwoUndefined P n m) →
      AllowedNext P n m w d q' → Tree (P.fill q a (.go w d q'))) :
    ∃ P, Tree P ∧ StandsIn n m M P ∧ (¬ DetHalts P L ∨ ∃ k, HaltsAt M init k ∧ HaltsAt P init k) := by
  have hb := hf 0 (by omega) 0 (by omega)
  rw [h1] at hb
  have hinv := root_inv hn hm h1 hw hq hb.2 hb.1
  have ht : ((blankSM n m).fill 0 0 (.go 1 .R 1)).table = root1RB := by
    rw [sm_fill_table (blank_sane (by omega) (by omega)) (show 0 < n by omega) (show 0 < m by omega)]
    unfold root1RB
    congr 1
    funext q a
    exact blank_table n m q a
  rw [ht] at hinv
  obtain ⟨P, ρ, g1, g2, g3⟩ := tree_complete_gen hf (by omega) (by omega) total (allow = true) hh Tree (fun P => DetHalts P L) hfit closed
    _ _ _ hinv (le_refl _) root
  refine ⟨P, g1, ⟨ρ, g2.st0, g2.sy0, g2.restr⟩, ?_⟩
  rcases g3 with g3 | g3 | ⟨t, q, a, g3, g4⟩
  · exact Or.inl g3
  · exact Or.inl fun ⟨e, t, h, _⟩ => g3 t h.1
  · exact Or.inr ⟨t + 1, g4, stuck_halts g3⟩

/-- a machine that halts in time is expanded, and all allowed children are there -/
theorem Trace.closed {n m : Nat} (hn : 0 < n) (hm : 0 < m) {L : Int} {allow only : Bool} {tr : List TM} {H I U : List (List Char)}
    (h : Trace n m L allow only tr H I U) {tm : TM} (htm : tm ∈ tr) {t q a w q' : Nat} {d : Dir} (hd : DetHalts tm.table L)
    (hst : StuckAt tm.table t q a) (h2 : allow = true ∨ TwoUndefined tm.table n m) (hall : AllowedNext tm.table n m w d q') :
    ∃ c ∈ tr, c.table = Table.fill tm.table q a (.go w d q') := by
  have hgt := h.good tm htm
  obtain ⟨r, -, hr, h1⟩ := lrDetect_cases hgt hn hm L
  rcases h1 with ⟨hh, -, hha, t1, q1, a1, e1, hq1, ha1, hst1, l1, l2⟩ | ⟨-, -, hrec⟩ | ⟨-, -, hno, -⟩
  · have ht : t1 = t := by
      have := haltsAt_unique hha (stuck_halts hst)
      omega
    subst ht
    have eq : q1 = q := by
      have := hst1.1.1
      rw [hst.1.1] at this
      exact (Option.some.inj this).symm
    have ea : a1 = a := by rw [← hst1.1.2, hst.1.2]
    subst eq; subst ea
    obtain ⟨cs, hcs, hsub⟩ := h.children tm htm (by rw [hr]; exact hh)
    obtain ⟨cs', hcs', -, g⟩ := expand_spec allow hgt (r := lrRes L tm) hq1 ha1 hst (by rw [hr]; exact l1) (by rw [hr]; exact l2)
    rw [hcs] at hcs'
    obtain rfl := Out.ok.inj hcs'
    obtain ⟨c, hcm, hct⟩ := g h2 w d q' hall
    exact ⟨c, hsub c hcm, hct⟩
  · exact absurd (stuck_halts hst).1 (hrec.runs _)
  · exact absurd hd hno

/-! ### What the lines mean -/

theorem showInt_eq (z : Int) : showInt z = (toString z).toList := by
  unfold showInt
  cases z with
  | ofNat k =>
    have : ¬ (Int.ofNat k < 0) := by simp
    rw [if_neg this]
    show Nat.toDigits 10 k = (Nat.repr k).toList
    simp [Nat.repr]
  | negSucc k =>
    rw [if_pos (Int.negSucc_lt_zero k)]
    show _ = ("-" ++ Nat.repr (k + 1)).toList
    simp [Nat.repr, String.toList_append]

theorem haltLine_eq (text : List Char) (k : Nat) : haltLine text k = (s!"{String.ofList text} | Halt {k}").toList := by
  unfold haltLine
  simp [String.toList_append, toString, Nat.repr]

theorem infLine_eq (text : List Char) (p : Nat) (o : Int) (st : Nat) : infLine text p o st = (s!"{String.ofList text} | Lin_Recur {p} {o} <{st}").toList := by
  unfold infLine
  rw [showInt_eq]
  simp [String.toList_append, toString, Nat.repr]

theorem Trace.halt_sound {n m : Nat} (hn : 1 < n) (hm : 1 < m) (hn' : n < 26) (hm' : m < 10) {L : Int} {allow only : Bool} {tr : List TM}
    {H I U : List (List Char)} (h : Trace n m L allow only tr H I U) {l : List Char} (hl : l ∈ H) :
    ∃ (M : Table) (text : String) (k : Nat), String.ofList l = s!"{text} | Halt {k}" ∧ ReadsAs n m l M ∧ HaltsAt M init k := by
  obtain ⟨tm, htm, hh, ii, uu, e, hm1⟩ := h.halt l hl
  cases e with
  | halt s k hw _ hk =>
    cases only with
    | true => simp at hm1
    | false =>
      obtain rfl : l = haltLine s k := by simpa using hm1
      obtain ⟨tm', e1, e2, e3⟩ := readsAs_write (h.good tm htm) hn hm hn' hm' hw (" | Halt ".toList ++ Nat.toDigits 10 k)
        (Or.inr ⟨' ', _, rfl, rfl⟩)
      refine ⟨tm.table, String.ofList s, k, ?_, ⟨tm', ?_, e2.toShaped, e3⟩, hk⟩
      · rw [haltLine_eq, String.ofList_toList]
      · unfold haltLine; rw [List.append_assoc]; exact e1
  | inf => simp at hm1
  | unknown => simp at hm1

theorem Trace.inf_sound {n m : Nat} (hn : 1 < n) (hm : 1 < m) (hn' : n < 26) (hm' : m < 10) {L : Int} {allow only : Bool} {tr : List TM}
    {H I U : List (List Char)} (h : Trace n m L allow only tr H I U) {l : List Char} (hl : l ∈ I) :
    ∃ (M : Table) (text : String) (p : Nat) (o : Int) (st : Nat), String.ofList l = s!"{text} | Lin_Recur {p} {o} <{st}" ∧
      ReadsAs n m l M ∧ Recurs M p o st := by
  obtain ⟨tm, htm, hh, ii, uu, e, hm1⟩ := h.inf l hl
  cases e with
  | inf s p o st hw hk =>
    cases only with
    | true => simp at hm1
    | false =>
      obtain rfl : l = infLine s p o st := by simpa using hm1
      obtain ⟨tm', e1, e2, e3⟩ := readsAs_write (h.good tm htm) hn hm hn' hm' hw
        (" | Lin_Recur ".toList ++ (Nat.toDigits 10 p ++ ([' '] ++ (showInt o ++ (" <".toList ++ Nat.toDigits 10 st)))))
        (Or.inr ⟨' ', _, rfl, rfl⟩)
      refine ⟨tm.table, String.ofList s, p, o, st, ?_, ⟨tm', ?_, e2.toShaped, e3⟩, hk⟩
      · rw [infLine_eq, String.ofList_toList]
      · unfold infLine; simp only [List.append_assoc]; exact e1
  | halt => simp at hm1
  | unknown => simp at hm1

theorem Trace.unknown_sound {n m : Nat} (hn : 1 < n) (hm : 1 < m) (hn' : n < 26) (hm' : m < 10) {L : Int} {allow only : Bool} {tr : List TM}
    {H I U : List (List Char)} (h : Trace n m L allow only tr H I U) {l : List Char} (hl : l ∈ U) :
    ∃ M : Table, ReadsAs n m l M ∧ (2 ≤ L → (run M L.toNat init).state ≠ none) := by
  obtain ⟨tm, htm, hh, ii, uu, e, hm1⟩ := h.unknown l hl
  cases e with
  | unknown s hw _ hk =>
    obtain rfl : l = s := by simpa using hm1
    obtain ⟨tm', e1, e2, e3⟩ := readsAs_write (h.good tm htm) hn hm hn' hm' hw [] (Or.inl rfl)
    exact ⟨tm.table, ⟨tm', by rw [← e1, List.append_nil], e2.toShaped, e3⟩, hk⟩
  | halt => simp at hm1
  | inf => simp at hm1

/-- the texts of the unknown machines -/
theorem Trace.unknown_texts {n m : Nat} {L : Int} {allow only : Bool} {tr : List TM} {H I U : List (List Char)}
    (h : Trace n m L allow only tr H I U) {l : List Char} (hl : l ∈ U) : ∃ tm : TM, tm.Good n m ∧ tm.write = .ok l := by
  obtain ⟨tm, htm, hh, ii, uu, e, hm1⟩ := h.unknown l hl
  cases e with
  | unknown s hw _ hk =>
    obtain rfl : l = s := by simpa using hm1
    exact ⟨tm, h.good tm htm, hw⟩
  | halt => simp at hm1
  | inf => simp at hm1

/-- what a machine of the trace says about those it stands for -/
theorem Trace.covers {n m : Nat} (hn : 1 < n) (hm : 1 < m) (hn' : n < 26) (hm' : m < 10) {L : Int} {allow only : Bool} {tr : List TM}
    {H I U : List (List Char)} (h : Trace n m L allow only tr H I U) {tm : TM} (htm : tm ∈ tr) {M : Table} (hf : Fits M n m)
    (hN : StandsIn n m M tm.table) (hd : DetHalts tm.table L → ∃ k, HaltsAt M init k ∧ HaltsAt tm.table init k) :
    (only = false → ∃ k, HaltsAt M init k ∧ ∃ text : String, (s!"{text} | Halt {k}").toList ∈ H ∧ ReadsAs n m text.toList tm.table ∧
        HaltsAt tm.table init k) ∧ (∃ k, HaltsAt M init k ∧ ∃ e : Nat, ((2 ^ e : Nat) : Int) < L ∧ k ≤ 2 ^ (e + 1)) ∨
    NeverHalts M init ∧ (only = false → ∃ line ∈ I, ReadsAs n m line tm.table) ∨
    (∃ line ∈ U, tm.write = .ok line ∧ ReadsAs n m line tm.table ∧ ¬ DetHalts tm.table L) := by
  obtain ⟨hh, ii, uu, e, s1, s2, s3⟩ := h.entry tm htm
  have hgt := h.good tm htm
  cases e with
  | halt s k hw hd' hk =>
    obtain ⟨k', g1, g2⟩ := hd hd'
    obtain rfl := haltsAt_unique hk g2
    refine Or.inl ⟨fun ho => ⟨k, g1, String.ofList s, ?_, ?_, hk⟩, ?_⟩
    · subst ho
      rw [← haltLine_eq]
      exact s1 _ (by simp)
    · obtain ⟨tm', e1, e2, e3⟩ := readsAs_write hgt hn hm hn' hm' hw [] (Or.inl rfl)
      rw [List.append_nil] at e1
      exact ⟨tm', by rw [String.toList_ofList]; exact e1, e2.toShaped, e3⟩
    · obtain ⟨e, t, a1, a2, a3⟩ := hd'
      obtain rfl := haltsAt_unique hk a1
      exact ⟨k, g1, e, a2, a3⟩
  | inf s p o st hw hk =>
    refine Or.inr (Or.inl ⟨fun t => normal_runs (by omega) (by omega) hf hN (hk.runs t), fun ho => ?_⟩)
    subst ho
    obtain ⟨tm', e1, e2, e3⟩ := readsAs_write hgt hn hm hn' hm' hw
      (" | Lin_Recur ".toList ++ (Nat.toDigits 10 p ++ ([' '] ++ (showInt o ++ (" <".toList ++ Nat.toDigits 10 st)))))
      (Or.inr ⟨' ', _, rfl, rfl⟩)
    refine ⟨infLine s p o st, s2 _ (by simp), tm', ?_, e2.toShaped, e3⟩
    unfold infLine; simp only [List.append_assoc]; exact e1
  | unknown s hw hd' hk =>
    obtain ⟨tm', e1, e2, e3⟩ := readsAs_write hgt hn hm hn' hm' hw [] (Or.inl rfl)
    rw [List.append_nil] at e1
    exact Or.inr (Or.inr ⟨s, s3 _ (by simp), hw, ⟨tm', e1, e2.toShaped, e3⟩, hd'⟩)

/-- The enumeration accounts for every machine: with its halting time, as one that never halts, or as unknown. -/
theorem lrEnum_complete {fuel n m : Nat} (hn : 1 < n) (hm : 1 < m) (hn' : n < 26) (hm' : m < 10) {L : Int} {allow only : Bool} {st : LrFiles}
    (h : lrEnum fuel n m L allow only = .ok st) {M : Table} (hf : Fits M n m) (total : ∀ q < n, ∀ a < m, M q a ≠ .undef)
    (hh : allow = true ∨ ∃ q < n, ∃ a < m, ∃ w d, M q a = .halt w d) {w q' : Nat} {d : Dir} (h1 : M 0 0 = .go w d q')
    (hw : w ≠ 0) (hq : q' ≠ 0) :
    (only = false → Covered n m M st.halt st.inf st.unknown) ∧
    ((∃ k, HaltsAt M init k ∧ (k : Int) < 2 * L) ∨ NeverHalts M init ∨ ∃ line ∈ st.unknown, ∃ P, ReadsAs n m line P ∧ StandsIn n m M P) := by
  obtain ⟨tr, ht, ⟨r, hr, hrt⟩, -⟩ := lrEnum_trace hn hm hn' hm' h
  obtain ⟨P, ⟨tm, htm, rfl⟩, hN, h3⟩ := lr_complete hn hm hf total allow hh h1 hw hq L (fun P => ∃ tm ∈ tr, tm.table = P)
    (by rintro P ⟨tm, htm, rfl⟩; exact shaped_fits (ht.good tm htm).toShaped) ⟨r, hr, hrt⟩
    (by
      rintro P t q a w d q' ⟨tm, htm, rfl⟩ c1 c2 c3 c4 c5 c6
      exact ht.closed (by omega) (by omega) htm c1 c2 c5 c6)
  rcases ht.covers hn hm hn' hm' htm hf hN (fun hd => h3.resolve_left (fun hc => hc hd)) with ⟨a1, k, a2, e, a3, a4⟩ | ⟨a1, a2⟩ | ⟨l, a1, -, a2, -⟩
  · refine ⟨fun ho => ?_, Or.inl ⟨k, a2, ?_⟩⟩
    · obtain ⟨k, b1, text, b2, b3, b4⟩ := a1 ho
      exact Or.inl ⟨k, text, tm.table, b1, b2, b3, hN, b4⟩
    · rw [Nat.pow_succ] at a4; omega
  · refine ⟨fun ho => ?_, Or.inr (Or.inl a1)⟩
    obtain ⟨l, b1, b2⟩ := a2 ho
    exact Or.inr (Or.inl ⟨l, b1, tm.table, a1, b2, hN⟩)
  · exact ⟨fun _ => Or.inr (Or.inr ⟨l, a1, tm.table, a2, hN⟩), Or.inr (Or.inr ⟨l, a1, tm.table, a2, hN⟩)⟩

/-! ### The parallel version -/

theorem lrParallel_trace {fuel n m : Nat} (hn : 1 < n) (hm : 1 < m) (hn' : n < 26) (hm' : m < 10) {L1 L2 : Int} {allow only : Bool}
    {split : List (List Char) → List (List (List Char))} (hs : ∀ f l, l ∈ (split f).flatten ↔ l ∈ f) {H I U : List (List Char)}
    (h : lrParallel fuel n m L1 L2 allow only split = .ok (H, I, U)) :
    ∃ tr1 H1 I1 U1 tr2 H2 I2, Trace n m L1 allow only tr1 H1 I1 U1 ∧ Trace n m L2 allow only tr2 H2 I2 U ∧
      H = H1 ++ H2 ∧ I = I1 ++ I2 ∧ (∃ tm ∈ tr1, tm.table = root1RB) ∧
      ∀ tm : TM, tm.Good n m → (∃ l ∈ U1, tm.write = .ok l) → ∃ tm' ∈ tr2, tm'.table = tm.table := by
  unfold lrParallel at h
  obtain ⟨st, e1, h⟩ := bind_ok h
  obtain ⟨parts, e2, h⟩ := bind_ok h
  obtain ⟨rfl, h'⟩ := Prod.mk.inj (Out.ok.inj h)
  obtain ⟨rfl, rfl⟩ := Prod.mk.inj h'
  obtain ⟨tr1, t1, t2, -⟩ := lrEnum_trace hn hm hn' hm' e1
  obtain ⟨tr2, u1, u2⟩ := chunks_trace hn hm hn' hm' (fun c hc l hl =>
    t1.unknown_texts ((hs _ l).1 (List.mem_flatten.2 ⟨c, hc, hl⟩))) e2
  exact ⟨tr1, _, _, _, tr2, _, _, t1, u1, rfl, rfl, t2, fun tm hg ⟨l, hl, hw⟩ => u2 tm hg ⟨l, (hs _ l).2 hl, hw⟩⟩

theorem lrParallel_complete {fuel n m : Nat} (hn : 1 < n) (hm : 1 < m) (hn' : n < 26) (hm' : m < 10) {L1 L2 : Int} {allow only : Bool}
    {split : List (List Char) → List (List (List Char))} (hs : ∀ f l, l ∈ (split f).flatten ↔ l ∈ f) {H I U : List (List Char)}
    (h : lrParallel fuel n m L1 L2 allow only split = .ok (H, I, U))
    {M : Table} (hf : Fits M n m) (total : ∀ q < n, ∀ a < m, M q a ≠ .undef)
    (hh : allow = true ∨ ∃ q < n, ∃ a < m, ∃ w d, M q a = .halt w d) {w q' : Nat} {d : Dir} (h1 : M 0 0 = .go w d q')
    (hw : w ≠ 0) (hq : q' ≠ 0) :
    (only = false → Covered n m M H I U) ∧
    ((∃ k, HaltsAt M init k ∧ (k : Int) < 2 * max L1 L2) ∨ NeverHalts M init ∨ ∃ line ∈ U, ∃ P, ReadsAs n m line P ∧ StandsIn n m M P) := by
  obtain ⟨tr1, H1, I1, U1, tr2, H2, I2, t1, t2, rfl, rfl, ⟨r, hr, hrt⟩, twin⟩ := lrParallel_trace hn hm hn' hm' hs h
  have hn0 : 0 < n := by omega
  have hm0 : 0 < m := by omega
  -- a machine of the second stage accounts for those it stands for
  have second : ∀ tm ∈ tr2, StandsIn n m M tm.table → (DetHalts tm.table (max L1 L2) → ∃ k, HaltsAt M init k ∧ HaltsAt tm.table init k) →
      (only = false → Covered n m M (H1 ++ H2) (I1 ++ I2) U) ∧
      ((∃ k, HaltsAt M init k ∧ (k : Int) < 2 * max L1 L2) ∨ NeverHalts M init ∨ ∃ line ∈ U, ∃ P, ReadsAs n m line P ∧ StandsIn n m M P) := by
    intro tm htm hN hd
    rcases t2.covers hn hm hn' hm' htm hf hN (fun h => hd (h.mono (le_max_right _ _))) with ⟨a1, k, a2, e, a3, a4⟩ | ⟨a1, a2⟩ | ⟨l, a1, -, a2, -⟩
    · refine ⟨fun ho => ?_, Or.inl ⟨k, a2, ?_⟩⟩
      · obtain ⟨k, b1, text, b2, b3, b4⟩ := a1 ho
        exact Or.inl ⟨k, text, tm.table, b1, List.mem_append_right _ b2, b3, hN, b4⟩
      · rw [Nat.pow_succ] at a4; omega
    · refine ⟨fun ho => ?_, Or.inr (Or.inl a1)⟩
      obtain ⟨l, b1, b2⟩ := a2 ho
      exact Or.inr (Or.inl ⟨l, List.mem_append_right _ b1, tm.table, a1, b2, hN⟩)
    · exact ⟨fun _ => Or.inr (Or.inr ⟨l, a1, tm.table, a2, hN⟩), Or.inr (Or.inr ⟨l, a1, tm.table, a2, hN⟩)⟩
  have first : ∀ tm ∈ tr1, StandsIn n m M tm.table → (DetHalts tm.table (max L1 L2) → ∃ k, HaltsAt M init k ∧ HaltsAt tm.table init k) →
      (only = false → Covered n m M (H1 ++ H2) (I1 ++ I2) U) ∧
      ((∃ k, HaltsAt M init k ∧ (k : Int) < 2 * max L1 L2) ∨ NeverHalts M init ∨ ∃ line ∈ U, ∃ P, ReadsAs n m line P ∧ StandsIn n m M P) := by
    intro tm htm hN hd
    rcases t1.covers hn hm hn' hm' htm hf hN (fun h => hd (h.mono (le_max_left _ _))) with ⟨a1, k, a2, e, a3, a4⟩ | ⟨a1, a2⟩ | ⟨l, a1, aw, a2, -⟩
    · refine ⟨fun ho => ?_, Or.inl ⟨k, a2, ?_⟩⟩
      · obtain ⟨k, b1, text, b2, b3, b4⟩ := a1 ho
        exact Or.inl ⟨k, text, tm.table, b1, List.mem_append_left _ b2, b3, hN, b4⟩
      · rw [Nat.pow_succ] at a4; omega
    · refine ⟨fun ho => ?_, Or.inr (Or.inl a1)⟩
      obtain ⟨l, b1, b2⟩ := a2 ho
      exact Or.inr (Or.inl ⟨l, List.mem_append_left _ b1, tm.table, a1, b2, hN⟩)
    · obtain ⟨tm', htm', et⟩ := twin tm (t1.good tm htm) ⟨l, a1, aw⟩
      exact second tm' htm' (by rw [et]; exact hN) (by rw [et]; exact hd)
  rcases le_total L1 L2 with hle | hle
  · obtain ⟨P, ⟨tm, htm, rfl⟩, hN, h3⟩ := lr_complete hn hm hf total allow hh h1 hw hq (max L1 L2) (fun P => ∃ tm ∈ tr1 ++ tr2, tm.table = P)
      (by
        rintro P ⟨tm, htm, rfl⟩
        rcases List.mem_append.1 htm with htm | htm
        · exact shaped_fits (t1.good tm htm).toShaped
        · exact shaped_fits (t2.good tm htm).toShaped) ⟨r, by simp [hr], hrt⟩
      (by
        rintro P t q a w d q' ⟨tm, htm, rfl⟩ c1 c2 c3 c4 c5 c6
        rw [max_eq_right hle] at c1
        rcases List.mem_append.1 htm with htm | htm
        · obtain ⟨hh, ii, uu, e, -, -, s3⟩ := t1.entry tm htm
          cases e with
          | halt s k _ hd _ =>
            obtain ⟨c, hc, hct⟩ := t1.closed hn0 hm0 htm hd c2 c5 c6
            exact ⟨c, by simp [hc], hct⟩
          | inf s p o st _ hk => exact absurd (stuck_halts c2).1 (hk.runs _)
          | unknown s hw' _ _ =>
            obtain ⟨tm', htm', et⟩ := twin tm (t1.good tm htm) ⟨s, s3 s (by simp), hw'⟩
            rw [← et] at c1 c2 c5 c6 ⊢
            obtain ⟨c, hc, hct⟩ := t2.closed hn0 hm0 htm' c1 c2 c5 c6
            exact ⟨c, by simp [hc], hct⟩
        · obtain ⟨c, hc, hct⟩ := t2.closed hn0 hm0 htm c1 c2 c5 c6
          exact ⟨c, by simp [hc], hct⟩)
    rcases List.mem_append.1 htm with htm | htm
    · exact first tm htm hN fun hd => h3.resolve_left (fun hc => hc hd)
    · exact second tm htm hN fun hd => h3.resolve_left (fun hc => hc hd)
  · obtain ⟨P, ⟨tm, htm, rfl⟩, hN, h3⟩ := lr_complete hn hm hf total allow hh h1 hw hq (max L1 L2) (fun P => ∃ tm ∈ tr1, tm.table = P)
      (by rintro P ⟨tm, htm, rfl⟩; exact shaped_fits (t1.good tm htm).toShaped) ⟨r, hr, hrt⟩
      (by
        rintro P t q a w d q' ⟨tm, htm, rfl⟩ c1 c2 c3 c4 c5 c6
        rw [max_eq_left hle] at c1
        exact t1.closed hn0 hm0 htm c1 c2 c5 c6)
    exact first tm htm hN fun hd => h3.resolve_left (fun hc => hc hd)

/-! ### The enumeration comes to its end -/

theorem lrFilter_ok {tm : TM} {n m : Nat} (h : tm.Good n m) (hn : 0 < n) (hm : 0 < m) (hn' : n < 26) (hm' : m < 10) (L : Int)
    (only : Bool) (st : LrFiles) : ∃ st', lrFilter L only st tm = .ok (st', lrRes L tm) := by
  obtain ⟨st', _, _, _, e, -⟩ := lrFilter_entry h hn hm hn' hm' L only st
  exact ⟨st', e⟩

theorem lrEnum_ends {n m : Nat} (hn : 1 < n) (hm : 1 < m) (hn' : n < 26) (hm' : m < 10) (L : Int) (allow only : Bool) :
    ∃ f st, ∀ k, lrEnum (f + k) n m L allow only = .ok st := by
  obtain ⟨c, e, hc, -⟩ := root_good hn hm
  obtain ⟨f, h⟩ := enumLoop_ends (n := n) (m := m) (allow := allow) (filter := lrFilter L only) (lrRes L)
    (fun s tm hg => lrFilter_ok hg (by omega) (by omega) hn' hm' L only s)
    (fun tm hg => lrRes_right hg (by omega) (by omega) L) [c] (fun tm htm => by rw [List.mem_singleton.1 htm]; exact hc)
  obtain ⟨st, h⟩ := h {}
  refine ⟨f, st, fun k => ?_⟩
  unfold lrEnum
  rw [e, ok_bind, h]

theorem lrContinue_ends {n m : Nat} (hn : 1 < n) (hm : 1 < m) (hn' : n < 26) (hm' : m < 10) (L : Int) (allow only : Bool) :
    ∀ lines : List (List Char), (∀ l ∈ lines, ∃ tm : TM, tm.Good n m ∧ tm.write = .ok l) →
      ∃ f, ∀ st, ∃ st', ∀ k, lrContinue (f + k) L allow only lines st = .ok st' := by
  intro lines
  induction lines with
  | nil => exact fun _ => ⟨0, fun st => ⟨st, fun _ => rfl⟩⟩
  | cons l lines ih =>
    intro hl
    obtain ⟨f2, h2⟩ := ih fun x hx => hl x (by simp [hx])
    obtain ⟨tm, hgt, hw⟩ := hl l (by simp)
    obtain ⟨tm', e2, e5, -⟩ := readsAs_write hgt hn hm hn' hm' hw [] (Or.inl rfl)
    rw [List.append_nil] at e2
    obtain ⟨f1, h1⟩ := enumLoop_ends (n := n) (m := m) (allow := allow) (filter := lrFilter L only) (lrRes L)
      (fun s tm hg => lrFilter_ok hg (by omega) (by omega) hn' hm' L only s)
      (fun tm hg => lrRes_right hg (by omega) (by omega) L) [tm'] (fun tm htm => by rw [List.mem_singleton.1 htm]; exact e5)
    refine ⟨f1 + f2, fun st => ?_⟩
    obtain ⟨st1, g1⟩ := h1 st
    obtain ⟨st2, g2⟩ := h2 st1
    refine ⟨st2, fun k => ?_⟩
    rw [lrContinue, e2, ok_bind, show f1 + f2 + k = f1 + (f2 + k) by omega, g1, ok_bind, show f1 + (f2 + k) = f2 + (f1 + k) by omega, g2]

theorem lrChunks_ends {n m : Nat} (hn : 1 < n) (hm : 1 < m) (hn' : n < 26) (hm' : m < 10) (L : Int) (allow only : Bool) :
    ∀ chunks : List (List (List Char)), (∀ c ∈ chunks, ∀ l ∈ c, ∃ tm : TM, tm.Good n m ∧ tm.write = .ok l) →
      ∃ f parts, ∀ k, mapOut (fun lines => lrContinue (f + k) L allow only lines {}) chunks = .ok parts := by
  intro chunks
  induction chunks with
  | nil => exact fun _ => ⟨0, [], fun _ => rfl⟩
  | cons c chunks ih =>
    intro h
    obtain ⟨f2, parts, h2⟩ := ih fun x hx => h x (by simp [hx])
    obtain ⟨f1, h1⟩ := lrContinue_ends hn hm hn' hm' L allow only c (h c (by simp))
    obtain ⟨st, g1⟩ := h1 {}
    refine ⟨f1 + f2, st :: parts, fun k => ?_⟩
    have g2 := h2 (f1 + k)
    rw [mapOut, show f1 + f2 + k = f1 + (f2 + k) by omega, g1, ok_bind, show f1 + (f2 + k) = f2 + (f1 + k) by omega, g2, ok_bind]

theorem lrParallel_ends {n m : Nat} (hn : 1 < n) (hm : 1 < m) (hn' : n < 26) (hm' : m < 10) (L1 L2 : Int) (allow only : Bool)
    {split : List (List Char) → List (List (List Char))} (hs : ∀ f l, l ∈ (split f).flatten ↔ l ∈ f) :
    ∃ f r, ∀ k, lrParallel (f + k) n m L1 L2 allow only split = .ok r := by
  obtain ⟨f1, st, h1⟩ := lrEnum_ends hn hm hn' hm' L1 allow only
  obtain ⟨tr1, t1, -⟩ := lrEnum_trace hn hm hn' hm' (h1 0)
  obtain ⟨f2, parts, h2⟩ := lrChunks_ends hn hm hn' hm' L2 allow only (split st.unknown) (fun c hc l hl =>
    t1.unknown_texts ((hs _ l).1 (List.mem_flatten.2 ⟨c, hc, hl⟩)))
  refine ⟨f1 + f2, (st.halt ++ (parts.map LrFiles.halt).flatten, st.inf ++ (parts.map LrFiles.inf).flatten,
    (parts.map LrFiles.unknown).flatten), fun k => ?_⟩
  unfold lrParallel
  rw [show f1 + f2 + k = f1 + (f2 + k) by omega, h1, ok_bind, show f1 + (f2 + k) = f2 + (f1 + k) by omega, h2, ok_bind]

end Model.Cpp

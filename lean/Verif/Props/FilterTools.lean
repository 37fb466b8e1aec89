import Verif.Spec.FilterTools
import Verif.Props.RevEng
import Verif.Props.Backtrack
import Verif.Props.CTL
import Verif.Props.CPS

/-!
# C58: the filter programs

`mainLoop f rs` is what the program with filter `f` does with a file with the records `rs`: the records written, and whether it came
to its end.  The filters: `revEng` (`Reverse_Engineer_Filter.py`), `backtrack` (`Backtracking_Filter.py`), `ctl`
(`CTL_Filter.py`), `cps` (`CPS_Filter.py`).
-/

namespace Props
open Spec Model Model.Status Model.FilterTools

/-! ## The loop -/

theorem mainLoop_mem (f : Record → Option BBStatus) (rs : List Record) :
    ∀ r' ∈ (mainLoop f rs).1, ∃ r ∈ rs, ∃ s, f r = some s ∧ r' = { r with status := s } := by
  induction rs with
  | nil => intro r' h; simp [mainLoop] at h
  | cons r rs ih =>
    intro r' h
    unfold mainLoop at h
    cases hf : f r with
    | none => rw [hf] at h; simp at h
    | some s =>
      rw [hf] at h
      rcases List.mem_cons.1 h with h | h
      · exact ⟨r, by simp, s, hf, h⟩
      · obtain ⟨r0, h0, h1⟩ := ih r' h
        exact ⟨r0, List.mem_cons_of_mem _ h0, h1⟩

theorem mainLoop_get (f : Record → Option BBStatus) (rs : List Record) :
    ∀ (i : Nat) (r r' : Record), rs[i]? = some r → (mainLoop f rs).1[i]? = some r' →
      r ∈ rs ∧ ∃ s, f r = some s ∧ r' = { r with status := s } := by
  induction rs with
  | nil => intro i r r' h; simp at h
  | cons a rs ih =>
    intro i r r' h h'
    unfold mainLoop at h'
    cases hf : f a with
    | none => rw [hf] at h'; simp at h'
    | some s =>
      rw [hf] at h'
      cases i with
      | zero =>
        simp only [List.getElem?_cons_zero, Option.some.injEq] at h h'
        subst h
        exact ⟨by simp, s, hf, h'.symm⟩
      | succ i =>
        simp only [List.getElem?_cons_succ] at h h'
        obtain ⟨h1, h2⟩ := ih i r r' h h'
        exact ⟨List.mem_cons_of_mem _ h1, h2⟩

/-- **C58.** Every filter program writes the machines that it reads, in their order. -/
theorem C58_same_machines (f : Record → Option BBStatus) : SameMachines f := by
  intro rs
  induction rs with
  | nil => exact ⟨by simp [mainLoop], fun _ => rfl⟩
  | cons r rs ih =>
    unfold mainLoop
    cases hf : f r with
    | none => exact ⟨by simp, by simp⟩
    | some s =>
      refine ⟨?_, fun h => ?_⟩
      · simp only [List.map_cons]
        exact List.cons_prefix_cons.2 ⟨rfl, ih.1⟩
      · simp only [List.length_cons]
        rw [ih.2 h]

theorem finishes_of (f : Record → Option BBStatus) (h : ∀ r, WFTable r.table r.nS r.nK → f r ≠ none) : Finishes f := by
  intro rs
  induction rs with
  | nil => intro _; rfl
  | cons r rs ih =>
    intro hw
    unfold mainLoop
    cases hf : f r with
    | none => exact absurd hf (h r (hw r (by simp)))
    | some s => exact ih (fun r hr => hw r (List.mem_cons_of_mem _ hr))

/-! ## Marking a machine as infinite -/

theorem right_infinite {r : Record} (hr : Right r) (reason : Nat) (h : NeverHalts r.table init) :
    Right { r with status := setNotHalting r.status reason } := by
  obtain ⟨-, -, -, h4⟩ := hr
  exact ⟨fun _ => ⟨fun h' => (by cases h'), fun _ => h⟩, fun _ h' => (by cases h'), fun _ h' => (by cases h'), h4⟩

theorem right_forget {r : Record} (hr : Right r) : Right { r with status := forgetQuasi r.status } :=
  ⟨hr.1, hr.2.1, hr.2.2.1, fun h' => (by cases h')⟩

theorem right_empty (T : Table) (nS nK : Nat) : Right ⟨T, nS, nK, .empty⟩ :=
  ⟨fun h => (by cases h), fun h => (by cases h), fun h => (by cases h), fun h => (by cases h)⟩

theorem not_both {T : Table} (h : NeverHalts T init) (h' : ∃ n, HaltsAt T init n) : False := by
  obtain ⟨n, hn, _⟩ := h'
  exact h n hn

/-- A filter that leaves the status alone or marks a machine that never halts as infinite, maybe forgetting about
quasihalting -/
theorem marks (f : Record → Option BBStatus) (reason : Nat)
    (hf : ∀ r s, f r = some s → s = r.status ∨ s = forgetQuasi (setNotHalting r.status reason))
    (hs : ∀ r s, WFTable r.table r.nS r.nK → f r = some s → s = r.status ∨ NeverHalts r.table init) :
    StaysRight f ∧ KeepsHalting f ∧ ChangesOnlyInfinite f reason := by
  refine ⟨fun rs hrs r' hr' => ?_, fun rs hrs i r r' hi hi' hd => ?_, fun rs i r r' hi hi' => ?_⟩
  · obtain ⟨r, hr, s, hfs, rfl⟩ := mainLoop_mem f rs r' hr'
    obtain ⟨hw, hri⟩ := hrs r hr
    rcases hs r s hw hfs with h | h
    · rw [h]; exact hri
    · rcases hf r s hfs with h' | h'
      · rw [h']; exact hri
      · rw [h']; exact right_forget (right_infinite hri reason h)
  · obtain ⟨hr, s, hfs, rfl⟩ := mainLoop_get f rs i r r' hi hi'
    obtain ⟨hw, hri⟩ := hrs r hr
    rcases hs r s hw hfs with h | h
    · rw [h]; exact ⟨hd, rfl, fun _ => rfl⟩
    · have hh : r.status.halt.halting = false := by
        cases hh : r.status.halt.halting with
        | false => rfl
        | true => exact (not_both h ((hri.1 hd).1 hh)).elim
      rcases hf r s hfs with h' | h'
      · rw [h']; exact ⟨hd, rfl, fun _ => rfl⟩
      · rw [h']
        exact ⟨rfl, hh.symm ▸ rfl, fun h0 => (by rw [hh] at h0; cases h0)⟩
  · obtain ⟨hr, s, hfs, rfl⟩ := mainLoop_get f rs i r r' hi hi'
    rcases hf r s hfs with h' | h'
    · exact .inl h'
    · exact .inr (by subst h'; exact ⟨rfl, rfl, rfl⟩)

/-! ## `Reverse_Engineer_Filter.py` -/

/-- **C58.** The reverse engineering filter: comes to the end of every file; right statuses stay right; verdicts on halting are not
forgotten; a record is changed only to mark its machine as infinite. -/
theorem C58_reverse_engineer : Finishes revEng ∧ StaysRight revEng ∧ KeepsHalting revEng ∧
    ChangesOnlyInfinite revEng Pipeline.INF_REVERSE_ENGINEER := by
  refine ⟨finishes_of _ (fun r _ h => ?_), marks _ _ (fun r s h => ?_) (fun r s hw h => ?_)⟩
  · obtain ⟨b, hb⟩ := C14_reverse_engineer_total r.table r.nS r.nK
    unfold revEng at h
    rw [hb] at h
    cases b <;> cases h
  · unfold revEng at h
    split at h
    · cases h
    · exact .inr (Option.some.inj h).symm
    · exact .inl (Option.some.inj h).symm
  · unfold revEng at h
    split at h
    · cases h
    · rename_i h1
      exact .inr (C14_reverse_engineer_sound _ _ _ hw h1)
    · exact .inl (Option.some.inj h).symm

/-- **C58.** It marks every machine for which the test succeeds. -/
theorem C58_reverse_engineer_marks :
    MarksInfinite revEng (fun r => RevEng.isInfinite r.table r.nS r.nK) Pipeline.INF_REVERSE_ENGINEER := by
  intro rs i r r' hi hi' hd
  obtain ⟨hr, s, hfs, rfl⟩ := mainLoop_get _ rs i r r' hi hi'
  unfold revEng at hfs
  simp only at hd
  rw [hd] at hfs
  cases hfs
  exact ⟨rfl, rfl, rfl⟩

/-! ## `CTL_Filter.py` -/

theorem testCTL_sound' (a : CTLArgs) (h4 : a.type ≠ .ctl4) (T : Table) (k offset : Nat) (h : testCTL a T k offset = some true) :
    NeverHalts T init := by
  have key : ∀ k off, off < k → SoundFor (fun M => testOf a.type a.rounds M a.cutoff) T k off a.maxSim a.maxSim := by
    intro k off ho
    cases ht : a.type with
    | ctl1 => exact C21_ctl1_sound T k off a.maxSim a.maxSim ho a.cutoff a.rounds
    | ctl2 => exact C22_ctl2_sound T k off a.maxSim a.maxSim ho a.cutoff a.rounds
    | ctl3 => exact C23_ctl3_sound T k off a.maxSim a.maxSim ho a.cutoff a.rounds
    | ctl4 => exact absurd ht h4
  unfold testCTL at h
  split at h
  · split at h
    · cases h
    · split at h
      · cases h
      · have ho : offset < k := by omega
        obtain ⟨_, h2, _, h3⟩ := key k offset ho
        split at h
        · exact h3 (Option.some.inj h)
        · exact h2 (Option.some.inj h)
  · obtain ⟨h1, _, h2, _⟩ := key 1 0 (by omega)
    split at h
    · exact h2 (Option.some.inj h)
    · exact h1 (Option.some.inj h)

theorem tryOffsets_sound (a : CTLArgs) (h4 : a.type ≠ .ctl4) (T : Table) (k : Nat) (os : List Nat)
    (h : tryOffsets a T k os = some true) : NeverHalts T init := by
  induction os with
  | nil => simp [tryOffsets] at h
  | cons o os ih =>
    unfold tryOffsets at h
    split at h
    · cases h
    · rename_i h1; exact testCTL_sound' a h4 T k o h1
    · exact ih h

theorem tryBlock_sound (a : CTLArgs) (h4 : a.type ≠ .ctl4) (T : Table) (k : Nat)
    (h : tryBlock a T k = some true) : NeverHalts T init := by
  unfold tryBlock at h
  split at h
  · exact tryOffsets_sound a h4 T k _ h
  · exact testCTL_sound' a h4 T k _ h

theorem ctlSuccess_sound (a : CTLArgs) (h4 : a.type ≠ .ctl4) (T : Table)
    (h : ctlSuccess a T = some true) : NeverHalts T init := by
  unfold ctlSuccess at h
  split at h
  · generalize List.range' a.minBlock (a.maxBlock + 1 - a.minBlock) = ks at h
    induction ks with
    | nil => simp [tryBlocks] at h
    | cons k ks ih =>
      unfold tryBlocks at h
      split at h
      · cases h
      · rename_i h1; exact tryBlock_sound a h4 T k h1
      · exact ih h
  · split at h
    · cases h
    · exact tryBlock_sound a h4 T _ h

/-- **C58 (partial).** The closed tape language filters, except CTL4, with any options: right statuses stay right; verdicts on
halting are not forgotten; a record is changed only to mark its machine as infinite.  CTL4 marks machines that halt
(`C24_claim_false`). -/
theorem C58_ctl_partial (a : CTLArgs) (h4 : a.type ≠ .ctl4) : StaysRight (ctl a) ∧ KeepsHalting (ctl a) ∧
    ChangesOnlyInfinite (ctl a) Pipeline.INF_CTL := by
  refine marks _ _ (fun r s h => ?_) (fun r s hw h => ?_)
  · unfold ctl at h
    split at h
    · cases h
    · exact .inr (Option.some.inj h).symm
    · exact .inl (Option.some.inj h).symm
  · unfold ctl at h
    split at h
    · cases h
    · rename_i h1
      exact .inr (ctlSuccess_sound a h4 _ h1)
    · exact .inl (Option.some.inj h).symm

/-- **C58.** The machines for which one of the attempts succeeds, and no others, are marked (all four algorithms). -/
theorem C58_ctl_marks (a : CTLArgs) :
    MarksInfinite (ctl a) (fun r => ctlSuccess a r.table) Pipeline.INF_CTL ∧
    ∀ rs, ∀ (i : Nat) (r r' : Record), rs[i]? = some r → (mainLoop (ctl a) rs).1[i]? = some r' →
      ctlSuccess a r.table = some false → r' = r := by
  refine ⟨fun rs i r r' hi hi' hd => ?_, fun rs i r r' hi hi' hd => ?_⟩
  · obtain ⟨hr, s, hfs, rfl⟩ := mainLoop_get _ rs i r r' hi hi'
    unfold ctl at hfs
    simp only at hd
    rw [hd] at hfs
    cases hfs
    exact ⟨rfl, rfl, rfl⟩
  · obtain ⟨hr, s, hfs, rfl⟩ := mainLoop_get _ rs i r r' hi hi'
    unfold ctl at hfs
    rw [hd] at hfs
    cases hfs
    rfl

/-- **C58.** The search over block sizes and offsets succeeds if and only if one of the attempts does, provided none
of them raises. -/
theorem C58_ctl_search (a : CTLArgs) (T : Table) (hmax : a.maxBlock ≠ 0) (hall : a.allOffsets = true)
    (hmin : 0 < a.minBlock) :
    ∃ b, ctlSuccess a T = some b ∧
      (b = true ↔ ∃ k off, a.minBlock ≤ k ∧ k ≤ a.maxBlock ∧ off < k ∧ testCTL a T k off = some true) := by
  have h1 : ∀ k os, 0 < k → (∀ o ∈ os, o < k) →
      ∃ b, tryOffsets a T k os = some b ∧ (b = true ↔ ∃ o ∈ os, testCTL a T k o = some true) := by
    intro k os hk
    induction os with
    | nil => intro _; exact ⟨false, rfl, by simp⟩
    | cons o os ih =>
      intro ho
      obtain ⟨b, hb, hb'⟩ := ih (fun o h => ho o (List.mem_cons_of_mem _ h))
      have ho := ho o (by simp)
      unfold tryOffsets
      cases ht : testCTL a T k o with
      | none =>
        unfold testCTL at ht
        split at ht
        · rw [if_neg (by omega), if_neg (by omega)] at ht
          split at ht <;> cases ht
        · split at ht <;> cases ht
      | some c =>
        cases c with
        | true => exact ⟨true, rfl, by simp [ht]⟩
        | false =>
          refine ⟨b, hb, hb'.trans ⟨fun ⟨o', h1, h2⟩ => ⟨o', List.mem_cons_of_mem _ h1, h2⟩, fun ⟨o', h1, h2⟩ => ?_⟩⟩
          rcases List.mem_cons.1 h1 with h | h
          · subst h; rw [ht] at h2; cases h2
          · exact ⟨o', h, h2⟩
  have h2 : ∀ ks, (∀ k ∈ ks, 0 < k) → ∃ b, tryBlocks a T ks = some b ∧
      (b = true ↔ ∃ k ∈ ks, ∃ o, o < k ∧ testCTL a T k o = some true) := by
    intro ks
    induction ks with
    | nil => intro _; exact ⟨false, rfl, by simp⟩
    | cons k ks ih =>
      intro hk
      obtain ⟨b, hb, hb'⟩ := ih (fun k h => hk k (List.mem_cons_of_mem _ h))
      obtain ⟨c, hc, hc'⟩ := h1 k (List.range k) (hk k (by simp)) (fun o h => List.mem_range.1 h)
      unfold tryBlocks tryBlock
      rw [hall, if_pos rfl, hc]
      cases c with
      | true =>
        obtain ⟨o, ho, ht⟩ := hc'.1 rfl
        exact ⟨true, rfl, fun _ => ⟨k, by simp, o, List.mem_range.1 ho, ht⟩, fun _ => rfl⟩
      | false =>
        refine ⟨b, hb, hb'.trans ⟨fun ⟨k', h1, h2⟩ => ⟨k', List.mem_cons_of_mem _ h1, h2⟩, fun ⟨k', h1, o, h2, h3⟩ => ?_⟩⟩
        rcases List.mem_cons.1 h1 with h | h
        · subst h
          have := hc'.2 ⟨o, List.mem_range.2 h2, h3⟩
          cases this
        · exact ⟨k', h, o, h2, h3⟩
  unfold ctlSuccess
  rw [if_pos hmax]
  obtain ⟨b, hb, hb'⟩ := h2 (List.range' a.minBlock (a.maxBlock + 1 - a.minBlock))
    (fun k h => by have := List.mem_range'_1.1 h; omega)
  refine ⟨b, hb, hb'.trans ⟨fun ⟨k, h1, o, h2, h3⟩ => ?_, fun ⟨k, o, h1, h1', h2, h3⟩ => ?_⟩⟩
  · have := List.mem_range'_1.1 h1
    exact ⟨k, o, this.1, by omega, h2, h3⟩
  · exact ⟨k, List.mem_range'_1.2 ⟨h1, by omega⟩, o, h2, h3⟩

/-! ## `CPS_Filter.py` -/

/-- **C58.** The closed position set filter comes to the end of every file, whatever the limits and the order in which Python iterates
over sets, and everything it writes is right: also if what it read was not, because it clears all statuses first. -/
theorem C58_cps (a : CPSArgs) (hmin : 0 < a.minBlock)
    (ordC : List (CPS.Cfg Nat (Option Nat)) → List (CPS.Cfg Nat (Option Nat))) (hC : Iterates ordC)
    (ordB : List (List Nat) → List (List Nat)) (hB : Iterates ordB) :
    Finishes (cps a ordC ordB) ∧ ∀ rs, ∀ r ∈ (mainLoop (cps a ordC ordB) rs).1, Right r := by
  refine ⟨finishes_of _ (fun r _ h => ?_), fun rs r' hr' => ?_⟩
  · obtain ⟨b, hb, _⟩ := C20_cps_filter_sound r.table a.minBlock a.maxBlock a.maxWindow hmin a.lim ordC hC ordB hB
    unfold cps at h
    rw [hb] at h
    cases b <;> cases h
  · obtain ⟨r, hr, s, hfs, rfl⟩ := mainLoop_mem _ rs r' hr'
    obtain ⟨b, hb, hb'⟩ := C20_cps_filter_sound r.table a.minBlock a.maxBlock a.maxWindow hmin a.lim ordC hC ordB hB
    unfold cps at hfs
    rw [hb] at hfs
    cases b with
    | false =>
      cases hfs
      exact right_empty _ _ _
    | true =>
      cases hfs
      exact right_infinite (right_empty _ r.nS r.nK) _ (hb' rfl)

/-- **C58.** It marks exactly the machines for which one of the sizes succeeds. -/
theorem C58_cps_marks (a : CPSArgs) (ordC : List (CPS.Cfg Nat (Option Nat)) → List (CPS.Cfg Nat (Option Nat)))
    (ordB : List (List Nat) → List (List Nat)) :
    ∀ rs, ∀ (i : Nat) (r r' : Record), rs[i]? = some r → (mainLoop (cps a ordC ordB) rs).1[i]? = some r' →
      (r'.status.halt.decided = true ↔ CPS.filterAll (simple r.table) a.lim ordC ordB
        (CPS.filterSizes a.minBlock a.maxBlock a.maxWindow) = some true) ∧
      (r'.status.halt.decided = true → r'.status.halt.halting = false ∧ r'.status.halt.infReason = INF_CLOSED_GRAPH) := by
  intro rs i r r' hi hi'
  obtain ⟨hr, s, hfs, rfl⟩ := mainLoop_get _ rs i r r' hi hi'
  unfold cps at hfs
  split at hfs
  · cases hfs
  · rename_i h1
    cases hfs
    exact ⟨⟨fun _ => h1, fun _ => rfl⟩, fun _ => ⟨rfl, rfl⟩⟩
  · rename_i h1
    cases hfs
    refine ⟨⟨fun h => (by cases h), fun h => ?_⟩, fun h => (by cases h)⟩
    rw [h1] at h
    cases h

/-! ## `Backtracking_Filter.py` -/

/-- **C58, violated.** The backtracking program stops with an exception at the first record of any file and writes nothing: it calls
`IO.parse_ttable`, which does not exist. -/
theorem C58_backtrack_raises (steps width : Nat) (rs : List Record) (h : rs ≠ []) :
    mainLoop (backtrack steps width) rs = ([], false) := by
  cases rs with
  | nil => exact absurd rfl h
  | cons r rs => rfl

/-- **C58 (partial).** What it would do if the function existed: right statuses stay right and verdicts on halting are kept, for files
of machines that do not halt in their first step (for those it is wrong: `C15_backtrack_unsound_on_first_step`). -/
theorem C58_backtrack_partial (names : List String) (steps width : Nat) (rs : List Record) (hrs : RightFile rs)
    (h0 : ∀ r ∈ rs, (r.table 0 0).next ≠ none) :
    (∀ r ∈ (mainLoop (backtrackWith names steps width) rs).1, Right r) ∧
    ∀ (i : Nat) (r r' : Record), rs[i]? = some r → (mainLoop (backtrackWith names steps width) rs).1[i]? = some r' →
      r.status.halt.decided = true → r'.status.halt.decided = true ∧ r'.status.halt.halting = r.status.halt.halting := by
  have key : ∀ r ∈ rs, ∀ s, backtrackWith names steps width r = some s →
      s = forgetQuasi r.status ∨ (s = setNotHalting (forgetQuasi r.status) INF_BACKTRACK ∧ NeverHalts r.table init) := by
    intro r hr s hfs
    unfold backtrackWith at hfs
    split at hfs
    · split at hfs
      · cases hfs
      · cases hfs
      · rename_i res h1
        split at hfs
        · rename_i h2
          split at hfs
          · cases hfs
          · cases hfs
            exact .inr ⟨rfl, C15_backtrack_sound_partial _ _ _ _ _ (hrs r hr).1 (h0 r hr) res h1 h2⟩
        · cases hfs
          exact .inl rfl
    · cases hfs
  refine ⟨fun r' hr' => ?_, fun i r r' hi hi' hd => ?_⟩
  · obtain ⟨r, hr, s, hfs, rfl⟩ := mainLoop_mem _ rs r' hr'
    obtain ⟨hw, hri⟩ := hrs r hr
    rcases key r hr s hfs with h | ⟨h, hn⟩
    · rw [h]; exact right_forget hri
    · rw [h]; exact right_infinite (right_forget hri) _ hn
  · obtain ⟨hr, s, hfs, rfl⟩ := mainLoop_get _ rs i r r' hi hi'
    obtain ⟨hw, hri⟩ := hrs r hr
    rcases key r hr s hfs with h | ⟨h, hn⟩
    · rw [h]; exact ⟨hd, rfl⟩
    · rw [h]
      refine ⟨rfl, ?_⟩
      cases hh : r.status.halt.halting with
      | false => rfl
      | true => exact (not_both hn ((hri.1 hd).1 hh)).elim

/-! ## What is forgotten -/

/-- the one-state machine `0RA`, known not to quasihalt -/
def walker : Record :=
  { table := tbl [[.go 0 .R 0]], nS := 1, nK := 1, status := setNotQuasihalting (setNotHalting .empty Pipeline.INF_MACRO_STEP) }

theorem walker_state (n : Nat) : (run walker.table n init).state = some 0 ∧ (run walker.table n init).tape = fun _ => 0 := by
  induction n with
  | zero => exact ⟨rfl, rfl⟩
  | succ n ih =>
    rw [run_succ']
    unfold step
    rw [ih.1, ih.2]
    refine ⟨rfl, ?_⟩
    funext p
    show Function.update (fun _ => 0) _ ((walker.table 0 0).write) p = _
    rw [Function.update_apply]
    split <;> rfl

theorem walker_right : WFTable walker.table walker.nS walker.nK ∧ Right walker := by
  refine ⟨⟨by decide, by decide, fun q a w d q' hq ha h => ?_⟩, fun _ => ⟨fun h => (by cases h), fun _ n => ?_⟩,
    fun _ h => (by cases h), fun _ h => (by cases h), fun _ => ⟨fun _ => .inr fun q t h => ?_, fun h => (by cases h)⟩⟩
  · have hq : q = 0 := by have : q < 1 := hq; omega
    have ha : a = 0 := by have : a < 1 := ha; omega
    subst hq ha
    cases h
    exact ⟨by decide, by decide⟩
  · rw [(walker_state n).1]; simp
  · have h' : (run walker.table t init).state = some q := h
    rw [(walker_state t).1] at h'
    cases h'
    exact fun t => ⟨t, Nat.le_refl t, (walker_state t).1⟩

/-- **C58, violated.** The reverse engineering filter forgets what is known about quasihalting (and so do the others). -/
theorem C58_quasihalting_forgotten : ¬ KeepsQuasihalting revEng := by
  intro h
  have := h [walker] (fun r hr => by rw [List.mem_singleton.1 hr]; exact walker_right) 0 walker _ rfl rfl rfl
  exact absurd this (by decide +kernel)

/-- a machine that halts at once, with the right status -/
def stopper : Record :=
  { table := tbl [[.halt 0 .R]], nS := 1, nK := 1
    status := { BBStatus.empty with halt := ⟨true, true, .int 1, .int 0, 0, 0, 0⟩, quasi := ⟨true, false, .unset, 0⟩ } }

theorem stopper_right : WFTable stopper.table stopper.nS stopper.nK ∧ Right stopper := by
  have hh : HaltsAt stopper.table init 1 := by
    refine ⟨rfl, fun m hm => ?_⟩
    have : m = 0 := by omega
    subst this
    simp [init]
  have hw : WFTable stopper.table stopper.nS stopper.nK := by
    refine ⟨by decide, by decide, fun q a w d q' hq ha h => ?_⟩
    have hq : q = 0 := by have : q < 1 := hq; omega
    have ha : a = 0 := by have : a < 1 := ha; omega
    subst hq ha
    cases h
  refine ⟨hw, fun _ => ⟨fun _ => ⟨1, hh⟩, fun h => (by cases h)⟩, fun _ _ => ⟨1, hh, rfl⟩, fun _ _ => ⟨1, hh, ?_, rfl, rfl⟩,
    fun _ => ⟨fun _ => .inl ⟨1, hh⟩, fun h => (by cases h)⟩⟩
  have : score (run stopper.table 1 init) = 0 := by
    unfold score
    have : {p : Int | (run stopper.table 1 init).tape p ≠ 0} = ∅ := by
      ext p
      simp only [Set.mem_ofPred_eq, Set.mem_empty_iff_false, iff_false, not_not]
      show Function.update _ _ _ p = _
      rw [Function.update_apply]
      split <;> rfl
    rw [this, Set.ncard_empty]
  rw [this]
  rfl

/-- **C58, violated.** The closed position set filter forgets every earlier verdict: a record that says that its machine halts after one
step is written as undecided. -/
theorem C58_cps_forgets : ¬ KeepsHalting (cps ⟨1, 2, 0, exLim⟩ id id) := by
  intro h
  have := h [stopper] (fun r hr => by rw [List.mem_singleton.1 hr]; exact stopper_right) 0 stopper _ rfl rfl rfl
  exact absurd this.1 (by decide +kernel)

/-- **C58, violated.** With `--type=CTL4` a right file does not stay right. -/
theorem C58_ctl4_false : ∃ a : CTLArgs, a.type = .ctl4 ∧ ¬ StaysRight (ctl a) := by
  refine ⟨⟨.ctl4, some 1, 0, false, 6, 1, 0, false, 10000, 10⟩, rfl, fun h => ?_⟩
  have hw : WFTable c24T 9 4 := by decide +kernel
  have := (h [⟨c24T, 9, 4, .empty⟩] (fun r hr => by
    rw [List.mem_singleton.1 hr]; exact ⟨hw, right_empty _ _ _⟩) ⟨c24T, 9, 4, _⟩ (by
      show _ ∈ (mainLoop _ _).1
      unfold mainLoop ctl
      rw [show ctlSuccess _ c24T = some true by decide +kernel]
      exact List.mem_singleton.2 rfl)).1 rfl
  exact absurd (this.2 rfl 11) (by decide +kernel)

/-! ## Examples -/

/-- a file with an undecided, a halting and an infinite machine -/
def exFile : List Record := [⟨bouncer2, 2, 2, .empty⟩, stopper, walker]

theorem exFile_right : RightFile exFile := by
  intro r hr
  rcases List.mem_cons.1 hr with rfl | hr
  · exact ⟨(by decide +kernel : WFTable bouncer2 2 2), right_empty _ _ _⟩
  · rcases List.mem_cons.1 hr with rfl | hr
    · exact stopper_right
    · rw [List.mem_singleton.1 hr]; exact walker_right

/-- what a file says: decided, halting, reason, quasihalting decided -/
def verdicts (rs : List Record) : List (Bool × Bool × Nat × Bool) :=
  rs.map fun r => (r.status.halt.decided, r.status.halt.halting, r.status.halt.infReason, r.status.quasi.decided)

example : verdicts exFile = [(false, false, 0, false), (true, true, 0, true), (true, false, 1, true)] := by decide +kernel
example : verdicts (mainLoop revEng exFile).1 =
    [(true, false, 4, false), (true, true, 0, true), (true, false, 4, false)] := by decide +kernel

/-- all offsets, block sizes 1 and 2 -/
def exCTL : CTLArgs := ⟨.ctl1, none, 0, true, 10, 1, 2, true, 100, 20⟩

example : verdicts (mainLoop (ctl exCTL) exFile).1 =
    [(true, false, 6, false), (true, true, 0, true), (true, false, 1, true)] := by decide +kernel
example : (mainLoop (ctl exCTL) exFile).2 = true := by decide +kernel
-- an offset that is too large, no block size at all
example : mainLoop (ctl { exCTL with maxBlock := 0, blockSize := some 2, offset := 3, allOffsets := false }) exFile = ([], false) := rfl
example : mainLoop (ctl { exCTL with maxBlock := 0 }) exFile = ([], false) := rfl
example : verdicts (mainLoop (cps ⟨1, 2, 0, exLim⟩ id id) exFile).1 =
    [(true, false, 8, false), (false, false, 0, false), (true, false, 8, false)] := by decide +kernel
-- backtracking, with and without the missing function
example : mainLoop (backtrack 10 10) exFile = ([], false) := C58_backtrack_raises 10 10 exFile (by decide +kernel)
example : verdicts (mainLoop (backtrackWith ["parse_ttable"] 10 10) [stopper]).1 = [(true, false, 7, false)] := by decide +kernel
example : (mainLoop (backtrackWith ["parse_ttable"] 10 10) [walker]).2 = false := by decide +kernel
example : verdicts (mainLoop (backtrackWith ["parse_ttable"] 10 10) [⟨backSample, 2, 2, .empty⟩]).1 =
    [(true, false, 7, false)] := by decide +kernel

end Props

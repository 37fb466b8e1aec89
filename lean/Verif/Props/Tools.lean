import Verif.Lemmas.Tools
import Verif.Lemmas.Count5
import Verif.Props.Enumerate

/-!
# C52: zero-reflexive machines, adjacent machines, counting machines
-/

namespace Props
open Spec
open Model Model.IO Model.Status Model.Tools

/-! ## Zero-reflexive machines -/

/-- **C52.** The test never fails, and answers yes exactly if the undefined cells can be filled such that some state,
reading the blank, stays the same state. -/
theorem C52_zero_reflexive {m : SM} (h : m.WF) : ∃ b, isZeroReflexive m = some b ∧
    (b = true ↔ ∃ T', Fits T' m.nStates m.nSyms ∧ Fills m.table T' ∧ ZeroReflexive T' m.nStates) := by
  obtain ⟨b, h1, h2⟩ := zeroReflexiveLoop_eq h (List.range m.nStates) (fun q => List.mem_range.1)
  refine ⟨b, h1, h2.trans ?_⟩
  have hf := sane_fits_wf h
  constructor
  · rintro ⟨q, hq, hc | hc⟩
    · exact ⟨m.table, hf, fun _ _ _ => rfl, q, List.mem_range.1 hq, hc⟩
    · refine ⟨Table.fill m.table q 0 (.go 0 .R q), ?_, ?_, q, List.mem_range.1 hq, by rw [Table.fill_self]; rfl⟩
      · intro q' hq' a' ha'
        by_cases hx : q' = q ∧ a' = 0
        · rw [hx.1, hx.2, Table.fill_self]
          exact ⟨h.syms, List.mem_range.1 hq⟩
        · rw [Table.fill_ne hx]
          exact hf q' hq' a' ha'
      · intro q' a' hd
        rw [Table.fill_ne]
        rintro ⟨rfl, rfl⟩
        exact hd hc
  · rintro ⟨T', -, hT, q, hq, hc⟩
    refine ⟨q, List.mem_range.2 hq, ?_⟩
    by_cases hu : m.table q 0 = .undef
    · exact Or.inr hu
    · left
      rw [← hT q 0 hu]
      exact hc

/-- **C52.** If no state is undefined on the blank, the answer is yes exactly if some state, reading the blank, stays the
same state. -/
theorem C52_zero_reflexive_defined {m : SM} (h : m.WF) (hu : ∀ q < m.nStates, m.table q 0 ≠ .undef) :
    ∃ b, isZeroReflexive m = some b ∧ (b = true ↔ ZeroReflexive m.table m.nStates) := by
  obtain ⟨b, h1, h2⟩ := C52_zero_reflexive h
  refine ⟨b, h1, h2.trans ⟨?_, ?_⟩⟩
  · rintro ⟨T', -, hT, q, hq, hc⟩
    exact ⟨q, hq, by rw [← hT q 0 (hu q hq)]; exact hc⟩
  · intro hz
    exact ⟨m.table, sane_fits_wf h, fun _ _ _ => rfl, hz⟩

/-- `1RB 1LA / 1LB ---` (B stays B on the blank), and `1RB 1LA / 1LA ---` -/
example : isZeroReflexive (SM.ofTable (tbl [[.go 1 .R 1, .go 1 .L 0], [.go 1 .L 1, .undef]]) 2 2) = some true ∧
    isZeroReflexive (SM.ofTable (tbl [[.go 1 .R 1, .go 1 .L 0], [.go 1 .L 0, .undef]]) 2 2) = some false ∧
    isZeroReflexive (SM.ofTable (tbl [[.go 1 .R 1, .go 1 .L 0], [.undef, .undef]]) 2 2) = some true := by decide +kernel

/-- **C52.** The program distributes the machines of its input to the two files: those that pass the test to the first,
those that do not to the second, in order.  On an empty input it fails afterwards (in the division for its last line). -/
theorem C52_zero_reflexive_main {ms : List SM} (h : ∀ m ∈ ms, m.WF) :
    ∃ zr nzr e, zrMain ms = some ((zr, nzr), e) ∧ (e = true ↔ ms = []) ∧ (zr ++ nzr).Perm ms ∧ zr.Sublist ms ∧ nzr.Sublist ms ∧
      (∀ m ∈ zr, isZeroReflexive m = some true) ∧ ∀ m ∈ nzr, isZeroReflexive m = some false := by
  refine ⟨_, _, _, by unfold zrMain; rw [zrLoop_eq h]; rfl, by simp, ?_, by simp, by simp, by simp, by simp⟩
  simp only [List.nil_append]
  have e : ms.filter (fun m => isZeroReflexive m = some false) = ms.filter (fun m => ! decide (isZeroReflexive m = some true)) := by
    apply List.filter_congr
    intro m hm
    obtain ⟨b, hb, -⟩ := C52_zero_reflexive (h m hm)
    rw [hb]
    cases b <;> rfl
  rw [e]
  exact List.filter_append_perm _ _

example : (zrMain [SM.ofTable (tbl [[.go 1 .R 1, .go 1 .L 0], [.go 1 .L 1, .undef]]) 2 2,
      SM.ofTable (tbl [[.go 1 .R 1, .go 1 .L 0], [.go 1 .L 0, .undef]]) 2 2]).map (fun r => (r.1.1.length, r.1.2.length, r.2)) =
    some (1, 1, false) := by decide +kernel

/-! ## Adjacent machines -/

/-- **C52.** The generator yields exactly the machines of the same size that differ from the given one in one running
transition, replaced by another running one; each of them once; `2nk − 1` for each running transition. -/
theorem C52_adjacent {m : SM} (h : m.WF) (hd : m.Moves) : ∃ ms, adjacent m = some ms ∧
    (∀ m', m' ∈ ms ↔ m'.WF ∧ m'.Moves ∧ m'.nStates = m.nStates ∧ m'.nSyms = m.nSyms ∧
      Adjacent m.table m'.table m.nStates m.nSyms) ∧
    ms.Nodup ∧ ms.length = runningCells m.table m.nStates m.nSyms * (2 * m.nStates * m.nSyms - 1) := by
  obtain ⟨ms, e⟩ : ∃ ms, adjacent m = some ms := ⟨_, adjacent_eq h hd⟩
  exact ⟨ms, e, mem_adjacent h hd e, nodup_adjacent h hd e, length_adjacent h hd e⟩

/-- the champion `1RB 1LB / 1LA 1RZ`: three running transitions, 7 alternatives each -/
example : (adjacent (SM.ofTable (tbl [[.go 1 .R 1, .go 1 .L 1], [.go 1 .L 0, .halt 1 .R]]) 2 2)).map
    (fun ms => (ms.length, decide ms.Nodup)) = some (21, true) := by decide +kernel

/-- **C52.** What is written for a machine: the variants of it and of each adjacent machine, with each start state. -/
theorem C52_write_adjacent {m : SM} (h : m.WF) (hd : m.Moves) {maxSteps : Int} {out : List SM}
    (ho : writeAdjacent m maxSteps = some out) (x : SM) :
    x ∈ out ↔ ∃ m', (m' = m ∨ m'.WF ∧ m'.Moves ∧ m'.nStates = m.nStates ∧ m'.nSyms = m.nSyms ∧
      Adjacent m.table m'.table m.nStates m.nSyms) ∧ ∃ l, Permute.permuteStartState m' maxSteps = some l ∧ x ∈ l := by
  obtain ⟨ms, e, hmem, -⟩ := C52_adjacent h hd
  unfold writeAdjacent at ho
  rw [e] at ho
  simp only [Option.map_eq_some_iff] at ho
  obtain ⟨ls, hl, rfl⟩ := ho
  have hiff : ∀ l, l ∈ ls ↔ ∃ m' ∈ m :: ms, Permute.permuteStartState m' maxSteps = some l := by
    intro l
    constructor
    · intro hx
      exact mapO_mem hl l hx
    · rintro ⟨m', hm', hp⟩
      obtain ⟨i, hi⟩ := List.mem_iff_getElem?.1 hm'
      obtain ⟨l', h1, h2⟩ := (mapO_some hl).2 i m' hi
      rw [hp, Option.some.injEq] at h2
      subst h2
      exact List.mem_of_getElem? h1
  rw [List.mem_flatten]
  constructor
  · rintro ⟨l, hl', hx⟩
    obtain ⟨m', hm', hp⟩ := (hiff l).1 hl'
    refine ⟨m', ?_, l, hp, hx⟩
    rcases List.mem_cons.1 hm' with rfl | hm'
    · exact Or.inl rfl
    · exact Or.inr ((hmem m').1 hm')
  · rintro ⟨m', hm', l, hp, hx⟩
    refine ⟨l, (hiff l).2 ⟨m', ?_, hp⟩, hx⟩
    rcases hm' with rfl | hm'
    · exact List.mem_cons_self ..
    · exact List.mem_cons_of_mem _ ((hmem m').2 hm')

/-! ## Counting machines -/

/-- **C52.** For a machine of the kind that the enumeration makes, the count is the number of complete machines, with
exactly one halting transition (or, with the option, at most one), that agree with it up to the names of the states other
than A, B and of the symbols other than 0, 1. -/
theorem C52_count {m : SM} (h : m.WF) (hP : TreeMachine m.table m.nStates m.nSyms) (allow : Bool) :
    count m allow = some ((represented m.table m.nStates m.nSyms allow).ncard : Int) := count_represented h hP allow

/-- the start `1RB` is of this kind -/
example : TreeMachine ((blankSM 3 2).fill 0 0 (.go 1 .R 1)).table 3 2 := treeMachine_root (by decide) (by decide)

/-- `1RB 1LC / --- --- / --- ---`: C could be any of the 1 states other than A, B; 4 undefined cells, of which one is 1RZ -/
example : count (SM.ofTable (tbl [[.go 1 .R 1, .undef], [.go 1 .L 2, .undef], [.undef, .undef]]) 3 2) false =
    some (1 * (4 * 12 ^ 3)) := by decide +kernel

/-- **C52.** All machines in the tree of the enumeration from `1RB` are of this kind, and so are the records written for
them when they reach an undefined cell: the count is the number of machines that they represent. -/
theorem C52_count_tree {n k : Nat} (hn : 1 < n) (hk : 1 < k) {allow : Bool} {root e : TMEnum}
    (hr : blankTMEnum n k true allow = some root) (he : InTree root e) (al : Bool) :
    count e.tm al = some ((represented e.tm.table n k al).ncard : Int) ∧
    ∀ t q a, StuckAt e.tm.table t q a → count (e.tm.fill q a (.halt 1 .R)) al =
      some ((represented (Table.fill e.tm.table q a (.halt 1 .R)) n k al).ncard : Int) := by
  obtain ⟨w1, w2, w3, w4, -, w6, w7⟩ := inTree_treeMachine hn hk hr he
  subst w3 w4
  refine ⟨count_represented w1 w6 al, fun t q a hs => ?_⟩
  have hf := sane_fits_wf w1
  have hrange := inRange_run hf (inRange_init w1.states w1.syms) t (by rw [hs.1.1]; simp)
  have hq : q < e.tm.nStates := hrange.1 q hs.1.1
  have ha : a < e.tm.nSyms := by rw [← hs.1.2]; exact hrange.2 _
  have ht : (e.tm.fill q a (.halt 1 .R)).table = Table.fill e.tm.table q a (.halt 1 .R) := sm_fill_table (w1.sane w2) hq ha _
  have hw : (e.tm.fill q a (.halt 1 .R)).WF :=
    (fillCell_wf w1 w2 q a (i := .halt 1 .R) ⟨by decide, by change (1 : Int) < _; omega, rfl⟩).1
  have := count_represented hw (by rw [ht]; exact treeMachine_fill w6 w7 hs hq ha (Or.inl rfl)) al
  rw [ht] at this
  exact this

/-- **C52.** The start of the enumeration, `1RB`, represents the machines that start with `1RB`, and counts
`(nk − 1)(2nk)^(nk−2)` of them, or with the option `(2nk)^(nk−1)` more. -/
theorem C52_count_root {n k : Nat} (hn : 1 < n) (hk : 1 < k) (allow : Bool) :
    ∃ root, blankTMEnum n k true allow = some root ∧
      (∀ T, StandsFor root.tm.table T n k ↔ T 0 0 = .go 1 .R 1) ∧
      count root.tm allow = some (((n * k - 1 : Nat) : Int) * (2 * n * k) ^ (n * k - 2) +
        if allow = true then (2 * n * k : Int) ^ (n * k - 1) else 0) :=
  ⟨_, blank_root_1rb allow hn hk, represents_root hn hk, count_root hn hk allow⟩

section
variable {σ : Type} {I : QueueImpl σ Rec} {contents : σ → List Rec}

/-- **C52.** No machine is lost or counted twice by an enumeration: whatever the decider says (as long as it reports
halting at undefined cells only), in whatever order the machines are taken and even with a limit, the counts of the records
written add up to the count of the start `1RB`. -/
theorem C52_count_total (hI : LawfulQueue I contents) (shuf : Nat → List Rec → List Rec) (hs : ∀ i l, (shuf i l).Perm l)
    (decide : Nat → TMEnum → BBStatus) (hd : ∀ i e, HaltsUndefined (decide i e) e)
    {n k : Nat} (hn : 1 < n) (hk : 1 < k) (hn' : n ≤ 7) (hk' : k ≤ 7) (allow : Bool)
    {root : TMEnum} (hr : blankTMEnum n k true allow = some root) {r : Rec} (hrec : newRec root = some r)
    (numEnum fuel : Nat) (s : EState σ)
    (h : enumMain I shuf decide numEnum fuel [r] (EState.init I.new) = .ok s) :
    countAll (s.out.map (·.tme.tm)) allow = some (((n * k - 1 : Nat) : Int) * (2 * n * k) ^ (n * k - 2) +
        if allow = true then (2 * n * k : Int) ^ (n * k - 1) else 0) := by
  obtain ⟨w1, w2, w3, w4, w5, w6, w7⟩ := inTree_treeMachine hn hk hr (.root)
  obtain ⟨e3, e4⟩ : r.tme = root ∧ r.status = .empty := by
    obtain ⟨p, hp, -, -⟩ := newRec_good (e := root) ⟨w1, w2, by omega, by omega, by omega⟩
    rw [hp, Option.some.injEq] at hrec
    subst hrec
    exact ⟨rfl, rfl⟩
  have hp : Proper allow r ∧ r.status = .empty := by
    rw [← e3] at w1 w2 w3 w4 w5 w6 w7
    exact ⟨⟨⟨w1, w2, by omega, by omega, by omega⟩, w6.start, by rw [w3, w4]; exact w7, w5⟩, e4⟩
  obtain ⟨k1, k2, k3⟩ := enumMain_sum hI hs hd numEnum fuel [r] _ s h (by simpa using hp) hI.new
    ⟨by rw [show contents (EState.init I.new).stack = [] from hI.new]; simp, by simp [EState.init]⟩
  rw [countAll_eq k1.2]
  unfold total at k2
  rw [k3, show contents (EState.init I.new).stack = [] from hI.new] at k2
  simp only [EState.init, List.map_nil, List.sum_nil, List.map_cons, add_zero, zero_add] at k2
  rw [k2]
  unfold val
  rw [e3]
  rw [blank_root_1rb allow hn hk, Option.some.injEq] at hr
  subst hr
  rw [count_root hn hk allow]
  simp

end

/-- the enumeration of the 2-state machines with the toy decider: `3 · 8² = 192` machines in all -/
example : (((blankTMEnum 2 2 true false).bind newRec).bind fun r =>
    (enumMain (lifoImpl Rec) (fun _ l => l) (fun _ => toySim) 0 100 [r] (EState.init LIFO.new)).get.bind fun s =>
      countAll (s.out.map (·.tme.tm)) false) = some 192 := by decide +kernel

end Props

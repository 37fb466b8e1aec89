import Verif.Lemmas.LNF
import Verif.Props.Formats

/-!
# C40, C41, C42: renaming, tree normal form and lexical normal form
-/

namespace Props
open Spec Model Model.IO Model.Permute

/-! ## C40 -/

/-- `ρ` is the renaming that the two orders stand for: the `i`-th number of an order is renamed to `i`. -/
structure OrdersOf {n k : Nat} (ρ : Renaming n k) (so syo : List Nat) (swap : Bool) : Prop where
  st : ∀ i q, so[i]? = some q → ρ.st q = i
  sy : ∀ i a, syo[i]? = some a → ρ.sy a = i
  mirror : ρ.mirror = swap

theorem ordersOf {n k : Nat} {so syo : List Nat} {swap : Bool} (hso : so.Perm (List.range n)) (hsyo : syo.Perm (List.range k)) :
    OrdersOf (Renaming.ofOrders so syo swap hso hsyo) so syo swap := by
  refine ⟨?_, ?_, rfl⟩
  · intro i q h
    obtain ⟨h1, h2⟩ := List.getElem?_eq_some_iff.1 h
    subst h2
    exact (perm_nodup hso).idxOf_getElem i h1
  · intro i q h
    obtain ⟨h1, h2⟩ := List.getElem?_eq_some_iff.1 h
    subst h2
    exact (perm_nodup hsyo).idxOf_getElem i h1

/-- **C40.** Permuting a machine never fails.  It gives a machine of the same size whose table is the renamed table, with
halting transitions in standard form. -/
theorem C40_permute (m : SM) (h : m.WF) (hd : m.Moves) (so syo : List Nat) (hso : so.Perm (List.range m.nStates))
    (hsyo : syo.Perm (List.range m.nSyms)) (swap : Bool) :
    ∃ m', permuteTable m so syo swap = some m' ∧ m'.nStates = m.nStates ∧ m'.nSyms = m.nSyms ∧
      (1 < m.nSyms → m'.WF ∧ m'.Moves) ∧
      ∃ ρ : Renaming m.nStates m.nSyms, OrdersOf ρ so syo swap ∧ Renamed ρ m.table m'.table :=
  ⟨permuted m so syo swap, permuteTable_eq h hd hso hsyo swap, rfl, rfl, fun hk => permuted_wf h hd hk hso hsyo,
    Renaming.ofOrders so syo swap hso hsyo, ordersOf hso hsyo, permuted_renamed h hd hso hsyo⟩

/-- **C40.** The run of the permuted machine is the renamed run of the original, step by step, until the machine halts; and
both halt at the same step or not at all.  From the blank tape if 0 stays first in both orders. -/
theorem C40_run (m : SM) (h : m.WF) (hd : m.Moves) (so syo : List Nat) (hso : so.Perm (List.range m.nStates))
    (hsyo : syo.Perm (List.range m.nSyms)) (swap : Bool) :
    ∃ m', permuteTable m so syo swap = some m' ∧ ∃ ρ : Renaming m.nStates m.nSyms, OrdersOf ρ so syo swap ∧
      (∀ c, InRange m.nStates m.nSyms c →
        (∀ t, (run m.table t c).state ≠ none → run m'.table t (ρ.config c) = ρ.config (run m.table t c)) ∧
        (∀ t, HaltsAt m'.table (ρ.config c) t ↔ HaltsAt m.table c t) ∧
        (NeverHalts m'.table (ρ.config c) ↔ NeverHalts m.table c)) ∧
      (so.head? = some 0 → syo.head? = some 0 → ρ.config init = init) := by
  refine ⟨permuted m so syo swap, permuteTable_eq h hd hso hsyo swap, Renaming.ofOrders so syo swap hso hsyo,
    ordersOf hso hsyo, ?_, ?_⟩
  · intro c hc
    have hr := permuted_renamed (swap := swap) h hd hso hsyo
    exact ⟨fun t ht => run_renamed _ (table_fits h) hr hc t ht, (halts_renamed _ (table_fits h) hr hc).1,
      (halts_renamed _ (table_fits h) hr hc).2⟩
  · intro h0 h1
    exact config_init _ (idxOf_head h0) (idxOf_head h1)

/-- **C40, partial.** The scores agree if the halting transition writes a non-blank symbol.
Missing: halting transitions that write a blank, see `C40_score_changes`. -/
theorem C40_score_partial (m : SM) (h : m.WF) (hd : m.Moves) (so syo : List Nat) (hso : so.Perm (List.range m.nStates))
    (hsyo : syo.Perm (List.range m.nSyms)) (h0 : so.head? = some 0) (h1 : syo.head? = some 0) (swap : Bool)
    (t q a : Nat) (hh : HaltsAt m.table init (t + 1)) (hq : AtCell (run m.table t init) q a) (hw : (m.table q a).write ≠ 0) :
    ∃ m', permuteTable m so syo swap = some m' ∧ HaltsAt m'.table init (t + 1) ∧
      score (run m'.table (t + 1) init) = score (run m.table (t + 1) init) := by
  refine ⟨permuted m so syo swap, permuteTable_eq h hd hso hsyo swap, ?_, ?_⟩
  · have := (halts_renamed _ (table_fits h) (permuted_renamed (swap := swap) h hd hso hsyo) (inRange_init h.states h.syms)).1 (t + 1)
    rw [config_init _ (idxOf_head h0) (idxOf_head h1)] at this
    exact this.2 hh
  · have := score_renamed _ (table_fits h) (permuted_renamed (swap := swap) h hd hso hsyo) (inRange_init h.states h.syms)
      h.syms (idxOf_head h1) hh hq hw
    rwa [config_init _ (idxOf_head h0) (idxOf_head h1)] at this

/-- "write 0, move right, halt" -/
def haltZero : SM := SM.ofTable (fun _ _ => .halt 0 .R) 1 2

/-- **C40, negative.** Even the identity permutation changes the score of a machine whose halting transition writes a blank. -/
theorem C40_score_changes : haltZero.WF ∧ haltZero.Moves ∧ ∃ m', permuteTable haltZero [0] [0, 1] false = some m' ∧
    HaltsAt haltZero.table init 1 ∧ HaltsAt m'.table init 1 ∧
    score (run haltZero.table 1 init) = 0 ∧ score (run m'.table 1 init) = 1 := by
  have hw := ofTable_wf (T := fun _ _ => .halt 0 .R) (n := 1) (k := 2) (by decide) (by decide) (by decide)
  refine ⟨hw.1, hw.2, SM.ofTable (fun _ _ => .halt 1 .R) 1 2, by decide, ⟨rfl, ?_⟩, ⟨rfl, ?_⟩, ?_, ?_⟩
  · intro s hs
    have : s = 0 := by omega
    subst this
    decide
  · intro s hs
    have : s = 0 := by omega
    subst this
    decide
  · unfold score
    have : {p : Int | (run haltZero.table 1 init).tape p ≠ 0} = ∅ := by
      ext p
      simp only [Set.mem_setOf_eq, Set.mem_empty_iff_false, iff_false, not_not]
      show Function.update (fun _ => 0) (0 : Int) 0 p = 0
      by_cases hp : p = 0
      · subst hp; simp
      · simp [hp]
    rw [this, Set.ncard_empty]
  · unfold score
    have : {p : Int | (run (SM.ofTable (fun _ _ => .halt 1 .R) 1 2).table 1 init).tape p ≠ 0} = {0} := by
      ext p
      simp only [Set.mem_setOf_eq, Set.mem_singleton_iff]
      show Function.update (fun _ => 0) (0 : Int) 1 p ≠ 0 ↔ p = 0
      by_cases hp : p = 0
      · subst hp; simp
      · simp [hp]
    rw [this, Set.ncard_singleton]

-- the mirrored busy beaver for 5 states, with states B and C exchanged
example : bb5m.WF ∧ bb5m.Moves ∧ [0, 2, 1, 3, 4].Perm (List.range bb5m.nStates) ∧ [0, 1].Perm (List.range bb5m.nSyms) ∧
    ((permuteTable bb5m [0, 2, 1, 3, 4] [0, 1] true).bind SM.toStr) = some "1LC1RB_1LD0RE_1LB1LC_1RA1RD_1RZ0RA".toList :=
  ⟨(ofTable_wf (by decide) (by decide) bb5_fits).1, (ofTable_wf (by decide) (by decide) bb5_fits).2, by decide, by decide, by decide⟩
-- errors: an order that is too long, an order in which a state is missing
example : permuteTable bb5m [0, 2, 1, 3, 4, 5] [0, 1] true = none ∧ permuteTable bb5m [0, 2, 1, 3] [0, 1] true = none := by decide

/-! ## C41 -/

/-- **C41.** The conversion never raises: it gives a machine or `None`. -/
theorem C41_total (m : SM) (h : m.WF) (hd : m.Moves) (maxSteps : Int) :
    toTNF m maxSteps = .failed ∨ ∃ m', toTNF m maxSteps = .ok m' := by
  rcases toTNF_cases h hd maxSteps with ⟨t, -, -, h1⟩ | ⟨h1, -⟩
  · exact Or.inr ⟨_, h1⟩
  · exact Or.inl h1

/-- **C41.** The result is a renaming of the machine that keeps the start state and the blank, mirrored if the first move is to
the left. -/
theorem C41_isomorphic (m : SM) (h : m.WF) (hd : m.Moves) (maxSteps : Int) (m' : SM) (hm : toTNF m maxSteps = .ok m') :
    m'.nStates = m.nStates ∧ m'.nSyms = m.nSyms ∧ (1 < m.nSyms → m'.WF ∧ m'.Moves) ∧
    ∃ ρ : Renaming m.nStates m.nSyms, ρ.st 0 = 0 ∧ ρ.sy 0 = 0 ∧ (ρ.mirror = true ↔ (m.table 0 0).dir = .L) ∧
      Renamed ρ m.table m'.table := by
  rcases toTNF_cases h hd maxSteps with ⟨t, h1, h2, h3⟩ | ⟨h1, -⟩
  · rw [h3] at hm
    cases hm
    have p1 := ordS_done_perm h.states h1.1
    have p2 := ordY_done_perm h.syms h1.2
    refine ⟨rfl, rfl, fun hk => permuted_wf h hd hk p1 p2, Renaming.ofOrders _ _ _ p1 p2, idxOf_head (ordS_head t),
      idxOf_head (ordY_head t), ?_, permuted_renamed h hd p1 p2⟩
    show decide ((cell m 0 0).dir = 0) = true ↔ _
    rw [decide_eq_true_iff, table_cell]
    have hc := cell_wf h h.states h.syms
    generalize cell m 0 0 = t at hc
    obtain ⟨c, w, d, q⟩ := t
    cases c with
    | running => by_cases e : d = 0 <;> simp [BTrans.instr, Instr.dir, e]
    | halt => by_cases e : d = 0 <;> simp [BTrans.instr, Instr.dir, e]
    | undefined =>
      have e : d = 1 := congrArg BTrans.dir hc
      subst e
      simp [BTrans.instr, Instr.dir]
  · rw [h1] at hm; cases hm

/-- **C41.** Conversion keeps the halting behaviour: the result halts at the same step, or does not halt either. -/
theorem C41_halting (m : SM) (h : m.WF) (hd : m.Moves) (maxSteps : Int) (m' : SM) (hm : toTNF m maxSteps = .ok m') :
    (∀ t, HaltsAt m'.table init t ↔ HaltsAt m.table init t) ∧ (NeverHalts m'.table init ↔ NeverHalts m.table init) := by
  obtain ⟨-, -, -, ρ, h0, h1, -, hr⟩ := C41_isomorphic m h hd maxSteps m' hm
  have := halts_renamed ρ (table_fits h) hr (inRange_init h.states h.syms)
  rwa [config_init ρ h0 h1] at this

/-- **C41.** The result is in tree normal form. -/
theorem C41_tree_normal (m : SM) (h : m.WF) (hd : m.Moves) (hk : 1 < m.nSyms) (maxSteps : Int) (m' : SM)
    (hm : toTNF m maxSteps = .ok m') : TreeNormal m'.table := by
  rcases toTNF_cases h hd maxSteps with ⟨t, h1, h2, h3⟩ | ⟨h1, -⟩
  · rw [h3] at hm
    cases hm
    exact treeNormal h hd hk h1 fun s hs => (h2 s hs).2.2
  · rw [h1] at hm; cases hm

/-- **C41, partial.** Isomorphic machines are converted to the same machine, if they do not halt within the step limit.
Missing: machines that halt within the step limit, see `C41_not_idempotent`. -/
theorem C41_canonical_partial (m : SM) (h : m.WF) (hd : m.Moves) (hk : 1 < m.nSyms) (so syo : List Nat)
    (hso : so.Perm (List.range m.nStates)) (hsyo : syo.Perm (List.range m.nSyms)) (h0 : so.head? = some 0)
    (h1 : syo.head? = some 0) (swap : Bool) (maxSteps : Int) (hh : (run m.table (maxSteps.toNat + 1) init).state ≠ none)
    (m2 : SM) (h2 : permuteTable m so syo swap = some m2) : toTNF m2 maxSteps = toTNF m maxSteps := by
  rw [permuteTable_eq h hd hso hsyo] at h2
  cases h2
  exact toTNF_permuted h hd hk hso hsyo h0 h1 swap hh

/-- **C41, partial.** Converting twice gives the same machine, if it does not halt within the step limit.
Missing: machines that halt within the step limit, see `C41_not_idempotent`. -/
theorem C41_idempotent_partial (m : SM) (h : m.WF) (hd : m.Moves) (hk : 1 < m.nSyms) (maxSteps : Int)
    (hh : (run m.table (maxSteps.toNat + 1) init).state ≠ none) (m' : SM) (hm : toTNF m maxSteps = .ok m') :
    toTNF m' maxSteps = .ok m' := by
  rcases toTNF_cases h hd maxSteps with ⟨t, h1, h2, h3⟩ | ⟨h1, -⟩
  · have e : m' = permuted m (ordS m.nStates m.table t).order (ordY m.nSyms m.table t).order (decide ((cell m 0 0).dir = 0)) := by
      rw [h3] at hm; cases hm; rfl
    have := toTNF_permuted (maxSteps := maxSteps) h hd hk (ordS_done_perm h.states h1.1) (ordY_done_perm h.syms h1.2)
      (ordS_head t) (ordY_head t) (decide ((cell m 0 0).dir = 0)) hh
    rw [← e, hm] at this
    exact this
  · rw [h1] at hm; cases hm

/-- A machine whose halting transition moves to a symbol that has not been read before -/
def lateSymbol : SM := SM.ofTable (tbl [[.go 2 .R 1, .undef, .undef], [.halt 1 .L, .undef, .undef]]) 2 3

/-- **C41, negative.** A conversion can succeed such that converting the result again fails. -/
theorem C41_not_idempotent : lateSymbol.WF ∧ lateSymbol.Moves ∧
    ∃ m', toTNF lateSymbol 1000 = .ok m' ∧ toTNF m' 1000 = .failed := by
  have hw := ofTable_wf (T := tbl [[.go 2 .R 1, .undef, .undef], [.halt 1 .L, .undef, .undef]]) (n := 2) (k := 3) (by decide)
    (by decide) (by decide)
  refine ⟨hw.1, hw.2, SM.ofTable (tbl [[.go 1 .R 1, .undef, .undef], [.halt 1 .R, .undef, .undef]]) 2 3, ?_, ?_⟩
  · decide +kernel
  · decide +kernel

-- a machine that needs everything: mirrored, states and symbols in the wrong order
def unsorted : SM := SM.ofTable (tbl [[.go 2 .L 2, .go 1 .R 1, .go 1 .L 0], [.go 1 .L 0, .undef, .go 2 .R 1], [.go 1 .R 0, .go 2 .L 1, .go 0 .L 2]]) 3 3

example : unsorted.WF ∧ unsorted.Moves ∧ 1 < unsorted.nSyms ∧
    (∃ m', toTNF unsorted 3 = .ok m' ∧ m'.toStr = some "1RB2RA2LC_2LA0RB1RC_2RA1LC---".toList) ∧
    (run unsorted.table 4 init).state ≠ none :=
  ⟨(ofTable_wf (by decide) (by decide) (by decide)).1, (ofTable_wf (by decide) (by decide) (by decide)).2, by decide,
    ⟨SM.ofTable (tbl [[.go 1 .R 1, .go 2 .R 0, .go 2 .L 2], [.go 2 .L 0, .go 0 .R 1, .go 1 .R 2], [.go 2 .R 0, .go 1 .L 2, .undef]]) 3 3,
      by decide +kernel, by decide +kernel⟩, by decide +kernel⟩
-- not enough steps
example : toTNF unsorted 0 = .failed := by decide +kernel

/-- **C41.** Listing the machines with the other start states: for each state `i` there is one machine, which behaves from the
blank tape as the original does when started in state `i`. -/
theorem C41_start_states (m : SM) (h : m.WF) (hd : m.Moves) (hk : 1 < m.nSyms) (maxSteps : Int) :
    ∃ ms, permuteStartState m maxSteps = some ms ∧ ms.length = m.nStates ∧
      ∀ i m', ms[i]? = some m' →
        (∀ t, HaltsAt m'.table init t ↔ HaltsAt m.table { init with state := some i } t) ∧
        (NeverHalts m'.table init ↔ NeverHalts m.table { init with state := some i }) := by
  have hperm : ∀ i < m.nStates, (swapOrder m.nStates i).Perm (List.range m.nStates) := by
    intro i hi
    unfold swapOrder
    by_cases e : i = 0
    · subst e
      have : ((List.range m.nStates).set 0 0).set 0 0 = List.range m.nStates := by
        apply List.ext_getElem
        · simp
        · intro j h1 h2
          by_cases hj : j = 0
          · subst hj; simp
          · simp [List.getElem_set, Ne.symm hj]
      rw [this]
    · have hnd : (((List.range m.nStates).set i 0).set 0 i).Nodup := by
        rw [List.nodup_iff_injective_getElem]
        intro a b hab
        have ha := a.2
        have hb := b.2
        simp only [List.length_set, List.length_range] at ha hb
        simp only [List.getElem_set, List.getElem_range] at hab
        apply Fin.ext
        split at hab <;> split at hab <;> (try split at hab) <;> (try split at hab) <;> omega
      refine List.Subperm.perm_of_length_le (List.subperm_of_subset hnd ?_) (by simp)
      intro x hx
      obtain ⟨j, hj, rfl⟩ := List.getElem_of_mem hx
      simp only [List.length_set, List.length_range] at hj
      rw [List.mem_range]
      simp only [List.getElem_set, List.getElem_range]
      split
      · exact hi
      · split <;> omega
  have hsy : (List.range m.nSyms).Perm (List.range m.nSyms) := List.Perm.refl _
  have hidx : ∀ i < m.nStates, (swapOrder m.nStates i).idxOf i = 0 := by
    intro i hi
    unfold swapOrder
    have h1 : 0 < (((List.range m.nStates).set i 0).set 0 i).length := by simp; exact h.states
    have h2 : (((List.range m.nStates).set i 0).set 0 i)[0] = i := by simp
    have := (perm_nodup (hperm i hi)).idxOf_getElem 0 h1
    unfold swapOrder at this
    rwa [h2] at this
  have hsy0 : (List.range m.nSyms).idxOf 0 = 0 := by
    have := (List.nodup_range (n := m.nSyms)).idxOf_getElem 0 (by simpa using h.syms)
    simpa using this
  have key : ∀ i, ∃ m', i < m.nStates →
      ((permuteTable m (swapOrder m.nStates i) (List.range m.nSyms) false).bind (tryTNF · maxSteps) = some m' ∧
      (∀ t, HaltsAt m'.table init t ↔ HaltsAt m.table { init with state := some i } t) ∧
      (NeverHalts m'.table init ↔ NeverHalts m.table { init with state := some i })) := by
    intro i
    by_cases hi : i < m.nStates
    · have hw := permuted_wf (swap := false) h hd hk (hperm i hi) hsy
      have hr := permuted_renamed (swap := false) h hd (hperm i hi) hsy
      have hin : InRange m.nStates m.nSyms { init with state := some i } :=
        ⟨fun q hq => by cases hq; exact hi, fun _ => h.syms⟩
      have e := halts_renamed _ (table_fits h) hr hin
      have hc : (Renaming.ofOrders (swapOrder m.nStates i) (List.range m.nSyms) false (hperm i hi) hsy).config
          { init with state := some i } = init := by
        have g1 : (Renaming.ofOrders (swapOrder m.nStates i) (List.range m.nSyms) false (hperm i hi) hsy).st i = 0 := hidx i hi
        have g2 : (Renaming.ofOrders (swapOrder m.nStates i) (List.range m.nSyms) false (hperm i hi) hsy).sy 0 = 0 := hsy0
        unfold Renaming.config init
        simp only [Option.map_some, g1, g2]
        rfl
      rw [hc] at e
      rcases C41_total _ hw.1 hw.2 maxSteps with h3 | ⟨m', h3⟩
      · refine ⟨permuted m (swapOrder m.nStates i) (List.range m.nSyms) false, fun _ => ⟨?_, e⟩⟩
        rw [permuteTable_eq h hd (hperm i hi) hsy, Option.bind_some]
        unfold permuted at h3
        unfold tryTNF
        rw [h3]
        rfl
      · refine ⟨m', fun _ => ⟨?_, ?_⟩⟩
        · rw [permuteTable_eq h hd (hperm i hi) hsy, Option.bind_some]
          unfold permuted at h3
          unfold tryTNF
          rw [h3]
        · have e' := C41_halting _ hw.1 hw.2 maxSteps m' h3
          exact ⟨fun t => (e'.1 t).trans (e.1 t), e'.2.trans e.2⟩
    · exact ⟨m, fun hx => absurd hx hi⟩
  choose g hg using key
  refine ⟨(List.range m.nStates).map g, ?_, by simp, ?_⟩
  · unfold permuteStartState
    apply mapO_eq_some
    intro i hi
    exact (hg i (List.mem_range.1 hi)).1
  · intro i m' hm
    rw [List.getElem?_map, Option.map_eq_some_iff] at hm
    obtain ⟨j, h1, h2⟩ := hm
    obtain ⟨h3, h4⟩ := List.getElem?_eq_some_iff.1 h1
    simp only [List.length_range] at h3
    simp only [List.getElem_range] at h4
    subst h4
    rw [← h2]
    exact (hg i h3).2

example : permuteStartState bb5m 1000 = (Py.mapO (fun s => parseTM s.toList)
    ["1RB1LC_1RC1RB_1RD0LE_1LA1LD_1RZ0LA", "1RB1RA_1RC0LE_1LD1LC_1RA1LB_1RZ0LD", "1RB0LE_1LC1LB_1RD1LA_1RA1RD_1RZ0LC",
      "1RB1RA_1LC1RD_1LD1LC_1LA0RE_1RZ0RB", "1RZ0LE_1RC1RB_1RD0LA_1LE1LD_1RB1LC"]) := by
  decide +kernel

/-! ## C42 -/

/-- What a user sees of a machine: its text. -/
def text (m : SM) : List Char := tableText m.table m.nStates m.nSyms

/-- **C42.** The normal form exists; it is the machine itself or one of the renamings, and no renaming, nor the machine itself,
has a smaller text. -/
theorem C42_minimal (m : SM) (h : m.WF) (hd : m.Moves) (hk : 1 < m.nSyms) (hn : m.nStates < 25) (hk' : m.nSyms < 10) :
    ∃ r, bruteLnf m = some r ∧
      (r = { tm := m, state := 0, sym := 0 } ∨ ∃ so syo, so.Perm (List.range m.nStates) ∧ syo.Perm (List.range m.nSyms) ∧
        lnfPermute m so syo = some r) ∧
      ¬ text m < text r.tm ∧
      ∀ so syo, so.Perm (List.range m.nStates) → syo.Perm (List.range m.nSyms) →
        ∃ p, lnfPermute m so syo = some p ∧ ¬ text p.tm < text r.tm := by
  have htext : ∀ p : SM, p.WF → p.Moves → p.nStates = m.nStates → p.nSyms = m.nSyms → p.toStr = some (text p) := by
    intro p h1 h2 h3 h4
    rw [toStr_eq h1 h2 (by omega) (by omega), tableText_eq h1]
    rfl
  obtain ⟨r, s, h1, h2, h3, h4, h5⟩ := bruteLnf_spec h hd hk
  have hp : ∀ so syo, so.Perm (List.range m.nStates) → syo.Perm (List.range m.nSyms) → ∀ p, lnfPermute m so syo = some p →
      p.tm.toStr = some (text p.tm) := by
    intro so syo p1 p2 p e
    rw [lnfPermute_eq h hd p1 p2] at e
    cases e
    have hw := permuted_wf (swap := lnfSwap m so) h hd hk p1 p2
    exact htext _ hw.1 hw.2 rfl rfl
  have hs : s = text r.tm := by
    rcases h3 with rfl | ⟨so, syo, p1, p2, e⟩
    · rw [htext m h hd rfl rfl] at h2; exact (Option.some.inj h2).symm
    · rw [hp so syo p1 p2 r e] at h2; exact (Option.some.inj h2).symm
  subst hs
  refine ⟨r, h1, h3, h4 _ (htext m h hd rfl rfl), ?_⟩
  intro so syo p1 p2
  exact ⟨_, lnfPermute_eq h hd p1 p2, h5 so syo p1 p2 _ _ (lnfPermute_eq h hd p1 p2) (hp so syo p1 p2 _ (lnfPermute_eq h hd p1 p2))⟩

/-- **C42.** The renamings considered are: any orders of states and symbols, mirrored or not.  The initial state and symbol are
renamed as well. -/
theorem C42_considered (m : SM) (h : m.WF) (hd : m.Moves) (so syo : List Nat) (hso : so.Perm (List.range m.nStates))
    (hsyo : syo.Perm (List.range m.nSyms)) :
    ∃ p, lnfPermute m so syo = some p ∧ ∃ swap, permuteTable m so syo swap = some p.tm ∧
      ∃ ρ : Renaming m.nStates m.nSyms, OrdersOf ρ so syo swap ∧ Renamed ρ m.table p.tm.table ∧ p.state = ρ.st 0 ∧ p.sym = ρ.sy 0 :=
  ⟨_, lnfPermute_eq h hd hso hsyo, lnfSwap m so, permuteTable_eq h hd hso hsyo _, Renaming.ofOrders so syo _ hso hsyo,
    ordersOf hso hsyo, permuted_renamed h hd hso hsyo, rfl, rfl⟩

/-- **C42.** The normal form, started in its initial state on a tape filled with its initial symbol, halts at the same step as
the machine started as usual, or neither halts. -/
theorem C42_halting (m : SM) (h : m.WF) (hd : m.Moves) (hk : 1 < m.nSyms) :
    ∃ r, bruteLnf m = some r ∧
      (∀ t, HaltsAt r.tm.table { state := some r.state, pos := 0, tape := fun _ => r.sym } t ↔ HaltsAt m.table init t) ∧
      (NeverHalts r.tm.table { state := some r.state, pos := 0, tape := fun _ => r.sym } ↔ NeverHalts m.table init) := by
  obtain ⟨r, s, h1, h2, h3, h4, h5⟩ := bruteLnf_spec h hd hk
  refine ⟨r, h1, ?_⟩
  rcases h3 with rfl | ⟨so, syo, p1, p2, e⟩
  · exact ⟨fun _ => Iff.rfl, Iff.rfl⟩
  · rw [lnfPermute_eq h hd p1 p2] at e
    cases e
    have := halts_renamed _ (table_fits h) (permuted_renamed (swap := lnfSwap m so) h hd p1 p2) (inRange_init h.states h.syms)
    have hc : (Renaming.ofOrders so syo (lnfSwap m so) p1 p2).config init =
        { state := some (so.idxOf 0), pos := 0, tape := fun _ => syo.idxOf 0 } := by
      unfold Renaming.config init Renaming.pos
      simp only [Option.map_some]
      congr 1
      split <;> rfl
    rwa [hc] at this

/-- **C42, partial.** Two machines related by renaming the states and the non-blank symbols, mirrored or not, have the same
normal form, if every transition on the blank is a running one and the halting transitions are in standard form.
Missing: other machines, and renamings that move the blank, see `C42_not_canonical`. -/
theorem C42_canonical_partial (m : SM) (h : m.WF) (hd : m.Moves) (hk : 1 < m.nSyms) (hn : m.nStates < 25) (hk' : m.nSyms < 10)
    (hrun : ∀ q < m.nStates, ∃ w d q', m.table q 0 = .go w d q')
    (hstd : ∀ q < m.nStates, ∀ a < m.nSyms, ∀ w d, m.table q a = .halt w d → w = 1 ∧ d = .R)
    (so syo : List Nat) (hso : so.Perm (List.range m.nStates)) (hsyo : syo.Perm (List.range m.nSyms)) (h1 : syo.head? = some 0)
    (swap : Bool) (m2 : SM) (h2 : permuteTable m so syo swap = some m2) :
    ∃ r r', bruteLnf m = some r ∧ bruteLnf m2 = some r' ∧ r'.tm = r.tm := by
  rw [permuteTable_eq h hd hso hsyo] at h2
  cases h2
  refine bruteLnf_canonical h hd hk hn hk' ⟨?_, ?_⟩ hso hsyo h1 swap
  · intro q hq
    obtain ⟨w, d, q', e⟩ := hrun q hq
    rw [table_cell] at e
    unfold BTrans.instr at e
    cases hc : (cell m q 0).cond with
    | running => rfl
    | halt => rw [hc] at e; cases e
    | undefined => rw [hc] at e; cases e
  · intro q hq a ha hc
    have e := table_cell (m := m) q a
    have hw := cell_wf h hq ha
    have hmv := cell_moves h hd hq ha
    unfold BTrans.WF at hw
    rw [hc] at hw
    unfold BTrans.instr at e
    rw [hc] at e
    obtain ⟨e1, e2⟩ := hstd q hq a ha _ _ e
    refine ⟨by have := hw.1; omega, ?_⟩
    rcases hmv with g | g
    · rw [g] at e2; cases e2
    · exact g

/-- one state: "0LA0RA" -/
def shuttle : SM := SM.ofTable (tbl [[.go 0 .L 0, .go 0 .R 0]]) 1 2

/-- **C42, negative.** A machine and one of its considered renamings with different normal forms: the direction is chosen by
the transition on symbol 0, not on the symbol that becomes 0. -/
theorem C42_not_canonical : shuttle.WF ∧ shuttle.Moves ∧
    ∃ p r r', lnfPermute shuttle [0] [1, 0] = some p ∧ bruteLnf shuttle = some r ∧ bruteLnf p.tm = some r' ∧
      text r.tm = "0LA0RA".toList ∧ text r'.tm = "0RA0LA".toList := by
  have hw := ofTable_wf (T := tbl [[.go 0 .L 0, .go 0 .R 0]]) (n := 1) (k := 2) (by decide) (by decide) (by decide)
  refine ⟨hw.1, hw.2, ⟨SM.ofTable (tbl [[.go 1 .R 0, .go 1 .L 0]]) 1 2, 0, 1⟩, ⟨shuttle, 0, 0⟩,
    ⟨SM.ofTable (tbl [[.go 0 .R 0, .go 0 .L 0]]) 1 2, 0, 1⟩, ?_, ?_, ?_, ?_, ?_⟩ <;> decide +kernel

/-- **C42, negative.** The normal form of a normal form can be a different machine. -/
theorem C42_not_idempotent : ∃ m r r' : SM, m.WF ∧ m.Moves ∧ ((bruteLnf m).map (·.tm)) = some r ∧ ((bruteLnf r).map (·.tm)) = some r' ∧
    r' ≠ r := by
  have hw := ofTable_wf (T := tbl [[.go 1 .R 0, .go 1 .L 0]]) (n := 1) (k := 2) (by decide) (by decide) (by decide)
  refine ⟨SM.ofTable (tbl [[.go 1 .R 0, .go 1 .L 0]]) 1 2, SM.ofTable (tbl [[.go 0 .R 0, .go 0 .L 0]]) 1 2, shuttle, hw.1, hw.2, ?_, ?_, ?_⟩ <;>
    decide +kernel

-- a regular machine, renamed and mirrored
def regular3 : SM := SM.ofTable (tbl [[.go 1 .R 1, .go 1 .L 2], [.go 1 .L 0, .go 1 .R 1], [.go 1 .L 1, .halt 1 .R]]) 3 2

example : regular3.WF ∧ regular3.Moves ∧ (∀ q < regular3.nStates, ∃ w d q', regular3.table q 0 = .go w d q') ∧
    (∀ q < regular3.nStates, ∀ a < regular3.nSyms, ∀ w d, regular3.table q a = .halt w d → w = 1 ∧ d = .R) ∧
    (∃ r, bruteLnf regular3 = some r ∧ text r.tm = "0RA0LB_0LC0RA_1RZ0LA".toList ∧ r.state = 1 ∧ r.sym = 1) := by
  have hw := ofTable_wf (T := tbl [[.go 1 .R 1, .go 1 .L 2], [.go 1 .L 0, .go 1 .R 1], [.go 1 .L 1, .halt 1 .R]]) (n := 3) (k := 2)
    (by decide) (by decide) (by decide)
  refine ⟨hw.1, hw.2, ?_, ?_, ?_⟩
  · intro q hq
    have : q < 3 := hq
    interval_cases q <;> exact ⟨_, _, _, rfl⟩
  · intro q hq a ha w d e
    have h1 : q < 3 := hq
    have h2 : a < 2 := ha
    interval_cases q <;> interval_cases a <;> cases e
    exact ⟨rfl, rfl⟩
  · refine ⟨⟨SM.ofTable (tbl [[.go 0 .R 0, .go 0 .L 1], [.go 0 .L 2, .go 0 .R 0], [.halt 1 .R, .go 0 .L 0]]) 3 2, 1, 1⟩, ?_⟩
    decide +kernel

end Props

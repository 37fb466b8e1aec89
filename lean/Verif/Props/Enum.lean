import Verif.Lemmas.Tree
import Verif.Props.Formats

/-!
# C33 and C34: enumeration in tree normal form
-/

namespace Props
open Spec Model Model.IO

/-! ## C33 -/

/-- **C33.** If another halting cell remains possible (or machines without one are wanted), the children at a cell are
the machines in which this cell is filled with an allowed transition, each exactly once, ordered by state, then symbol,
then direction (left first). -/
theorem C33_children (e : TMEnum) (h : e.tm.Sane) (q a : Nat) (hq : q < e.tm.nStates) (ha : a < e.tm.nSyms)
    (hmore : e.allowNoHalt = true ∨ TwoUndefined e.tm.table e.tm.nStates e.tm.nSyms) :
    ∃ ts : List (Nat × Nat × Dir),
      e.enumChildren q a = some (ts.map fun x => { e with tm := e.tm.fill q a (.go x.2.1 x.2.2 x.1) }) ∧
      (ts.map fun x => ({ e with tm := e.tm.fill q a (.go x.2.1 x.2.2 x.1) } : TMEnum)).Nodup ∧
      (∀ q' w d, (q', w, d) ∈ ts ↔ AllowedNext e.tm.table e.tm.nStates e.tm.nSyms w d q') ∧
      ts.Pairwise (fun x y => x.1 < y.1 ∨ x.1 = y.1 ∧ (x.2.1 < y.2.1 ∨ x.2.1 = y.2.1 ∧ x.2.2 = .L ∧ y.2.2 = .R)) := by
  obtain ⟨xs, hp, hm, hc, -⟩ := enumChildren_eq h hq ha
  let f : Nat × Nat × Nat → Nat × Nat × Dir := fun x => (x.1, x.2.1, if x.2.2 = 0 then .L else .R)
  have hpw : (xs.map f).Pairwise (fun x y => x.1 < y.1 ∨ x.1 = y.1 ∧ (x.2.1 < y.2.1 ∨ x.2.1 = y.2.1 ∧ x.2.2 = .L ∧ y.2.2 = .R)) := by
    rw [List.pairwise_map]
    refine List.Pairwise.imp_of_mem ?_ hp
    rintro x y hx hy (h1 | ⟨h1, h2 | ⟨h2, h3⟩⟩)
    · exact Or.inl h1
    · exact Or.inr ⟨h1, Or.inl h2⟩
    · have hx1 := ((hm x).1 hx).1
      have hy1 := ((hm y).1 hy).1
      refine Or.inr ⟨h1, Or.inr ⟨h2, ?_, ?_⟩⟩
      · show (if x.2.2 = 0 then Dir.L else Dir.R) = .L
        rw [if_pos (by omega)]
      · show (if y.2.2 = 0 then Dir.L else Dir.R) = .R
        rw [if_neg (by omega)]
  refine ⟨xs.map f, ?_, ?_, ?_, hpw⟩
  · rw [hc hmore, List.map_map]; rfl
  · rw [List.nodup_map_iff_inj_on]
    · rintro ⟨q1, w1, d1⟩ - ⟨q2, w2, d2⟩ - he
      have := fill_inj h hq ha (congrArg TMEnum.tm he)
      simp only [Instr.go.injEq] at this
      obtain ⟨rfl, rfl, rfl⟩ := this
      rfl
    · refine List.Pairwise.imp ?_ hpw
      rintro ⟨q1, w1, d1⟩ ⟨q2, w2, d2⟩ hlt he
      simp only [Prod.mk.injEq] at he
      obtain ⟨rfl, rfl, rfl⟩ := he
      rcases hlt with h1 | ⟨-, h1 | ⟨-, h1, h2⟩⟩
      · exact absurd h1 (lt_irrefl _)
      · exact absurd h1 (lt_irrefl _)
      · simp only at h1 h2; rw [h1] at h2; cases h2
  · intro q' w d
    constructor
    · intro hx
      obtain ⟨x, hx', he⟩ := List.mem_map.1 hx
      simp only [f, Prod.mk.injEq] at he
      obtain ⟨rfl, rfl, rfl⟩ := he
      exact ((hm x).1 hx').2
    · intro hall
      refine List.mem_map.2 ⟨(q', w, if d = .L then 0 else 1), ?_, ?_⟩
      · rw [hm]
        cases d
        · exact ⟨Nat.zero_le 1, hall⟩
        · exact ⟨Nat.le_refl 1, hall⟩
      · cases d <;> rfl

/-- **C33.** Otherwise the last undefined cell has to halt: there are no children. -/
theorem C33_no_children (e : TMEnum) (h : e.tm.Sane) (q a : Nat) (hq : q < e.tm.nStates) (ha : a < e.tm.nSyms)
    (hmore : e.allowNoHalt = false) (hone : ¬ TwoUndefined e.tm.table e.tm.nStates e.tm.nSyms) : e.enumChildren q a = some [] := by
  obtain ⟨xs, -, -, -, hc⟩ := enumChildren_eq h hq ha
  exact hc (by simp [hmore, hone])

/-- **C33.** Filling a cell changes this cell only. -/
theorem C33_fill (m : SM) (h : m.Sane) (q a : Nat) (hq : q < m.nStates) (ha : a < m.nSyms) (w : Nat) (d : Dir) (q' : Nat) :
    (m.fill q a (.go w d q')).table q a = .go w d q' ∧
    (∀ q1 a1, (q1, a1) ≠ (q, a) → (m.fill q a (.go w d q')).table q1 a1 = m.table q1 a1) ∧
    (m.fill q a (.go w d q')).nStates = m.nStates ∧ (m.fill q a (.go w d q')).nSyms = m.nSyms := by
  rw [sm_fill_table h hq ha]
  refine ⟨by simp [Table.fill], fun q1 a1 hne => ?_, rfl, rfl⟩
  unfold Table.fill
  rw [if_neg]
  rintro ⟨rfl, rfl⟩
  exact hne rfl

/-- The parent `1RB---_------` (2 states, 2 symbols) at B0: 2 states, 2 symbols, 2 directions. -/
example : (blankTMEnum 2 2 true false).bind (·.enumChildren 1 0) =
    some (([(0, 0, Dir.L), (0, 0, .R), (0, 1, .L), (0, 1, .R), (1, 0, .L), (1, 0, .R), (1, 1, .L), (1, 1, .R)] : List (Nat × Nat × Dir)).map
      fun x => { tm := SM.ofTable (tbl [[.go 1 .R 1, .undef], [.go x.2.1 x.2.2 x.1, .undef]]) 2 2, allowNoHalt := false }) := by
  decide +kernel

/-- ... and with 4 states and 3 symbols only the third state and third symbol are allowed additionally. -/
example : ((blankTMEnum 4 3 true false).bind (·.enumChildren 1 0)).map List.length = some 18 := by decide +kernel

/-- the hypotheses hold for this parent -/
example : ∃ e, blankTMEnum 2 2 true false = some e ∧ e.tm.Sane ∧ TwoUndefined e.tm.table 2 2 :=
  ⟨{ tm := SM.ofTable (tbl [[.go 1 .R 1, .undef], [.undef, .undef]]) 2 2, allowNoHalt := false }, by decide +kernel,
    (ofTable_wf (by decide) (by decide) (by decide)).1.sane (ofTable_wf (by decide) (by decide) (by decide)).2,
    1, 0, 1, 1, by decide, by decide, by decide, by decide, by decide, by decide, by decide⟩

/-! ## C34 -/

/-- **C34.** Without the option `first_1rb` (the whole tree): for every machine with a full table -- in which at least one
transition halts unless `allow_no_halt` is given -- a machine in the tree is a restriction of a renaming (possibly
mirrored) of it, and either runs in step with it forever, or in step until the given machine halts, at which point it
gets stuck. -/
theorem C34_complete (n k : Nat) (allow : Bool) (M : Table) (hf : Fits M n k) (hn : 0 < n) (hk : 0 < k)
    (total : ∀ q < n, ∀ a < k, M q a ≠ .undef)
    (hh : allow = true ∨ ∃ q < n, ∃ a < k, ∃ w d, M q a = .halt w d) :
    ∃ root, blankTMEnum n k false allow = some root ∧ ∃ e, InTree root e ∧
      ∃ ρ : Renaming n k, ρ.st 0 = 0 ∧ ρ.sy 0 = 0 ∧ RestrictsTo ρ M e.tm.table ∧
        ((∀ t, (run e.tm.table t init).state ≠ none ∧ run e.tm.table t init = ρ.config (run M t init)) ∨
          ∃ t q a, StuckAt e.tm.table t q a ∧ HaltsAt M init (t + 1) ∧
            ∀ s ≤ t, run e.tm.table s init = ρ.config (run M s init)) := by
  refine ⟨_, blank_root n k allow, ?_⟩
  refine complete_of_root hf hn hk total hh
    (Renaming.flip n k (decide ((M 0 0).dir = .L))) (blank_sane hn hk) rfl rfl ?_
  refine ⟨rfl, rfl, fun q _ a _ => Or.inl (blank_table n k _ _), ?_, ?_, Or.inr ?_⟩
  · intro q _ a _ w d
    rw [blank_table]
    simp
  · rintro q a ⟨-, -, h3⟩
    exact absurd (blank_table n k _ _) h3
  · cases hd : (M 0 0).dir <;> rfl

/-- **C34.** With the option `first_1rb`: the same for machines whose first transition goes to another state and writes
a symbol other than 0. -/
theorem C34_complete_1rb (n k : Nat) (allow : Bool) (M : Table) (hf : Fits M n k) (hn : 0 < n) (hk : 0 < k)
    (total : ∀ q < n, ∀ a < k, M q a ≠ .undef)
    (hh : allow = true ∨ ∃ q < n, ∃ a < k, ∃ w d, M q a = .halt w d)
    (w : Nat) (d : Dir) (q' : Nat) (h1 : M 0 0 = .go w d q') (hw : w ≠ 0) (hq : q' ≠ 0) :
    ∃ root, blankTMEnum n k true allow = some root ∧ ∃ e, InTree root e ∧
      ∃ ρ : Renaming n k, ρ.st 0 = 0 ∧ ρ.sy 0 = 0 ∧ RestrictsTo ρ M e.tm.table ∧
        ((∀ t, (run e.tm.table t init).state ≠ none ∧ run e.tm.table t init = ρ.config (run M t init)) ∨
          ∃ t q a, StuckAt e.tm.table t q a ∧ HaltsAt M init (t + 1) ∧
            ∀ s ≤ t, run e.tm.table s init = ρ.config (run M s init)) := by
  have hb := hf 0 hn 0 hk
  rw [h1] at hb
  simp only at hb
  have hn2 : 1 < n := by omega
  have hk2 : 1 < k := by omega
  refine ⟨_, blank_root_1rb allow hn2 hk2, ?_⟩
  refine complete_of_root hf hn hk total hh
    (Renaming.swap (Renaming.flip n k (decide (d = .L))) q' 1 w 1 hb.2 hn2 hb.1 hk2)
    (fill_sane (blank_sane hn hk) hk2 hn2) rfl rfl ?_
  exact root_inv hn2 hk2 h1 hw hq hb.2 hb.1

/-- **C34.** In particular the step count of every halting machine, and the absence of one, appears in the tree. -/
theorem C34_halting_times (n k : Nat) (allow : Bool) (M : Table) (hf : Fits M n k) (hn : 0 < n) (hk : 0 < k)
    (total : ∀ q < n, ∀ a < k, M q a ≠ .undef)
    (hh : allow = true ∨ ∃ q < n, ∃ a < k, ∃ w d, M q a = .halt w d) :
    ∃ root, blankTMEnum n k false allow = some root ∧ ∃ e, InTree root e ∧
      (NeverHalts M init ↔ NeverHalts e.tm.table init) ∧ ∀ t, HaltsAt M init t ↔ HaltsAt e.tm.table init t := by
  obtain ⟨root, h1, e, h2, ρ, -, -, -, h3⟩ := C34_complete n k allow M hf hn hk total hh
  refine ⟨root, h1, e, h2, ?_⟩
  rcases h3 with h3 | ⟨t, q, a, h3, h4, h5⟩
  · have hM : NeverHalts M init := by
      intro t ht
      obtain ⟨g1, g2⟩ := h3 t
      rw [g2] at g1
      exact g1 (by show (run M t init).state.map ρ.st = none; rw [ht]; rfl)
    have hE : NeverHalts e.tm.table init := fun t => (h3 t).1
    exact ⟨⟨fun _ => hE, fun _ => hM⟩, fun t => ⟨fun h => absurd hM h.not_neverHalts, fun h => absurd hE h.not_neverHalts⟩⟩
  · have hE : HaltsAt e.tm.table init (t + 1) := by
      constructor
      · rw [run_succ', step_state h3.1.1, h3.1.2, h3.2]; rfl
      · intro m hm hnone
        have := run_none_mono (n := t) (by omega) hnone
        rw [h3.1.1] at this
        cases this
    refine ⟨⟨fun h => absurd h h4.not_neverHalts, fun h => absurd h hE.not_neverHalts⟩, fun s => ⟨fun h => ?_, fun h => ?_⟩⟩
    · rw [h.unique h4]; exact hE
    · rw [h.unique hE]; exact h4

/-- the five-state champion satisfies the hypotheses -/
example : ∃ root, blankTMEnum 5 2 true false = some root ∧ ∃ e, InTree root e ∧
      ∃ ρ : Renaming 5 2, ρ.st 0 = 0 ∧ ρ.sy 0 = 0 ∧ RestrictsTo ρ bb5 e.tm.table ∧
        ((∀ t, (run e.tm.table t init).state ≠ none ∧ run e.tm.table t init = ρ.config (run bb5 t init)) ∨
          ∃ t q a, StuckAt e.tm.table t q a ∧ HaltsAt bb5 init (t + 1) ∧
            ∀ s ≤ t, run e.tm.table s init = ρ.config (run bb5 s init)) :=
  C34_complete_1rb 5 2 false bb5 bb5_fits (by decide) (by decide) (by decide)
    (Or.inr ⟨4, by decide, 0, by decide, 1, .R, by decide⟩) 1 .R 1 (by decide) (by decide) (by decide)

end Props

import Verif.Model.Enum
import Verif.Spec.Enum
import Verif.Lemmas.Records
import Verif.Lemmas.Rename

/-!
# Lemmas about the enumeration of children
-/

set_option linter.unusedSectionVars false

namespace Model.IO
open Spec (Dir Instr Table DefinedCell AllowedNext TwoUndefined)

theorem SM.WF.sane {m : SM} (h : m.WF) (hd : m.Moves) : m.Sane :=
  ⟨h.states, h.syms, h.height, h.width, fun r hr t ht _ => ⟨h.cells r hr t ht, hd r hr t ht⟩⟩

variable {m : SM}

/-- the transition object in a cell -/
theorem SM.Sane.cell (h : m.Sane) {q a : Nat} (hq : q < m.nStates) (ha : a < m.nSyms) :
    ∃ r t, m.rows[q]? = some r ∧ r ∈ m.rows ∧ r[a]? = some t ∧ t ∈ r ∧ m.table q a = t.instr := by
  have hq' : q < m.rows.length := by rw [h.height]; exact hq
  have hr := List.getElem_mem hq'
  have ha' : a < m.rows[q].length := by rw [h.width _ hr]; exact ha
  refine ⟨m.rows[q], m.rows[q][a], List.getElem?_eq_getElem hq', hr, List.getElem?_eq_getElem ha', List.getElem_mem ha', ?_⟩
  unfold SM.table
  rw [List.getElem?_eq_getElem hq', Option.bind_some, List.getElem?_eq_getElem ha']
  rfl

theorem instr_undef {t : BTrans} : t.instr = .undef ↔ t.cond = .undefined := by
  unfold BTrans.instr
  cases t.cond <;> simp

/-- the cells in order -/
theorem SM.Sane.cells_eq (h : m.Sane) : ∃ f : Nat × Nat → BTrans,
    m.cells = some (((List.range m.nStates).flatMap fun q => (List.range m.nSyms).map fun a => (q, a)).map f) ∧
    ∀ q < m.nStates, ∀ a < m.nSyms, (f (q, a)).instr = m.table q a ∧ ∃ r ∈ m.rows, f (q, a) ∈ r := by
  refine ⟨fun x => (((m.rows[x.1]?).bind (·[x.2]?))).getD undefTrans, ?_, ?_⟩
  · unfold SM.cells
    have key : Py.mapO (fun q => Py.mapO (fun a => (m.rows[q]?).bind (·[a]?)) (List.range m.nSyms)) (List.range m.nStates) =
        some ((List.range m.nStates).map fun q => (List.range m.nSyms).map fun a => (((m.rows[q]?).bind (·[a]?))).getD undefTrans) := by
      apply mapO_eq_some
      intro q hq
      apply mapO_eq_some
      intro a ha
      obtain ⟨r, t, h1, -, h2, -⟩ := h.cell (List.mem_range.1 hq) (List.mem_range.1 ha)
      rw [h1, Option.bind_some, h2]
      rfl
    rw [key]
    simp only [Option.map_some, Option.some.injEq]
    rw [List.map_flatMap, List.flatMap_def]
    simp only [List.map_map]
    rfl
  · intro q hq a ha
    obtain ⟨r, t, h1, h1', h2, h2', h3⟩ := h.cell hq ha
    simp only
    rw [h1, Option.bind_some, h2]
    exact ⟨h3.symm, r, h1', h2'⟩

theorem mem_pairs {n k : Nat} {x : Nat × Nat} :
    x ∈ ((List.range n).flatMap fun q => (List.range k).map fun a => (q, a)) ↔ x.1 < n ∧ x.2 < k := by
  obtain ⟨q, a⟩ := x
  simp only [List.mem_flatMap, List.mem_map, List.mem_range, Prod.mk.injEq]
  constructor
  · rintro ⟨q', h1, a', h2, rfl, rfl⟩; exact ⟨h1, h2⟩
  · rintro ⟨h1, h2⟩; exact ⟨q, h1, a, h2, rfl, rfl⟩

theorem nodup_pairs (n k : Nat) : ((List.range n).flatMap fun q => (List.range k).map fun a => (q, a)).Nodup := by
  rw [List.nodup_flatMap]
  refine ⟨fun q _ => ?_, ?_⟩
  · exact List.Nodup.map (fun a b h => by simpa using h) List.nodup_range
  · refine List.Pairwise.imp ?_ List.nodup_range
    intro q q' hne x hx hx'
    obtain ⟨a, -, rfl⟩ := List.mem_map.1 hx
    obtain ⟨a', -, h⟩ := List.mem_map.1 hx'
    simp only [Prod.mk.injEq] at h
    exact hne h.1.symm

theorem foldl_metrics (l : List BTrans) (s : Metrics) :
    (l.foldl Metrics.add s).numUndef = s.numUndef + (l.filter (·.cond = .undefined)).length ∧
    ((l.foldl Metrics.add s).defined = true ↔ s.defined = true ∨ ∃ t ∈ l, t.cond ≠ .undefined) ∧
    (∀ x : Int, x ≤ (l.foldl Metrics.add s).maxState ↔ x ≤ s.maxState ∨ ∃ t ∈ l, t.cond ≠ .undefined ∧ x ≤ t.st) ∧
    (∀ x : Int, x ≤ (l.foldl Metrics.add s).maxSym ↔ x ≤ s.maxSym ∨ ∃ t ∈ l, t.cond ≠ .undefined ∧ x ≤ t.sym) := by
  induction l generalizing s with
  | nil => simp
  | cons t l ih =>
    rw [List.foldl_cons]
    obtain ⟨h1, h2, h3, h4⟩ := ih (s.add t)
    by_cases hu : t.cond = .undefined
    · have e : s.add t = { s with numUndef := s.numUndef + 1 } := by unfold Metrics.add; rw [if_pos hu]
      rw [e] at h1 h2 h3 h4 ⊢
      refine ⟨?_, ?_, ?_, ?_⟩
      · rw [h1, List.filter_cons_of_pos (by simp [hu])]
        simp only [List.length_cons]; omega
      · rw [h2]; simp [hu]
      · intro x; rw [h3]; simp [hu]
      · intro x; rw [h4]; simp [hu]
    · have e : s.add t = { s with defined := true, maxState := max s.maxState t.st, maxSym := max s.maxSym t.sym } := by
        unfold Metrics.add; rw [if_neg hu]
      rw [e] at h1 h2 h3 h4 ⊢
      refine ⟨?_, ?_, ?_, ?_⟩
      · rw [h1, List.filter_cons_of_neg (by simp [hu])]
      · rw [h2]; simp [hu]
      · intro x; rw [h3]; simp [hu, or_assoc]
      · intro x; rw [h4]; simp [hu, or_assoc]

theorem one_lt_length {α : Type} {l : List α} (hnd : l.Nodup) : 1 < l.length ↔ ∃ x ∈ l, ∃ y ∈ l, x ≠ y := by
  constructor
  · intro h
    exact ⟨l[0], List.getElem_mem _, l[1], List.getElem_mem _, fun he => by
      have := (List.Nodup.getElem_inj_iff hnd).1 he
      omega⟩
  · rintro ⟨x, hx, y, hy, hne⟩
    by_contra hl
    match l, hx, hy with
    | [z], hx, hy =>
      simp only [List.mem_singleton] at hx hy
      exact hne (hx.trans hy.symm)
    | _ :: _ :: _, _, _ => simp at hl

/-- what the metrics mean -/
theorem metrics_spec (h : m.Sane) : ∃ s, m.metrics = some s ∧
    (s.numUndef > 1 ↔ TwoUndefined m.table m.nStates m.nSyms) ∧
    (s.defined = true ↔ ∃ q a, DefinedCell m.table m.nStates m.nSyms q a) ∧
    (∀ x : Nat, (x : Int) < min (m.nStates : Int) (s.maxState + 2) ↔ x < m.nStates ∧
      (x ≤ 1 ∨ ∃ q a s, DefinedCell m.table m.nStates m.nSyms q a ∧ (m.table q a).next = some s ∧ x ≤ s + 1)) ∧
    (∀ x : Nat, (x : Int) < min (m.nSyms : Int) (s.maxSym + 2) ↔ x < m.nSyms ∧
      (x ≤ 1 ∨ ∃ q a, DefinedCell m.table m.nStates m.nSyms q a ∧ x ≤ (m.table q a).write + 1)) := by
  obtain ⟨f, hc, hf⟩ := h.cells_eq
  unfold SM.metrics
  rw [hc, Option.map_some]
  refine ⟨_, rfl, ?_⟩
  beta_reduce
  set ps := ((List.range m.nStates).flatMap fun q => (List.range m.nSyms).map fun a => (q, a)) with hps
  obtain ⟨h1, h2, h3, h4⟩ := foldl_metrics (ps.map f) { maxState := 0, maxSym := 0, numUndef := 0, defined := false }
  have hcell : ∀ P : BTrans → Prop, (∃ t ∈ ps.map f, t.cond ≠ .undefined ∧ P t) ↔
      ∃ q a, DefinedCell m.table m.nStates m.nSyms q a ∧ P (f (q, a)) := by
    intro P
    constructor
    · rintro ⟨t, ht, hu, hp⟩
      obtain ⟨⟨q, a⟩, hx, rfl⟩ := List.mem_map.1 ht
      obtain ⟨hq, ha⟩ := mem_pairs.1 hx
      refine ⟨q, a, ⟨hq, ha, ?_⟩, hp⟩
      rw [← (hf q hq a ha).1, ne_eq, instr_undef]
      exact hu
    · rintro ⟨q, a, ⟨hq, ha, hne⟩, hp⟩
      refine ⟨f (q, a), List.mem_map.2 ⟨(q, a), mem_pairs.2 ⟨hq, ha⟩, rfl⟩, ?_, hp⟩
      rw [← (hf q hq a ha).1, ne_eq, instr_undef] at hne
      exact hne
  refine ⟨?_, ?_, ?_, ?_⟩
  · rw [h1]
    simp only [zero_add]
    rw [List.filter_map, List.length_map, gt_iff_lt, one_lt_length ((nodup_pairs _ _).filter _)]
    unfold TwoUndefined
    constructor
    · rintro ⟨⟨q, a⟩, hx, ⟨q', a'⟩, hy, hne⟩
      obtain ⟨hx1, hx2⟩ := List.mem_filter.1 hx
      obtain ⟨hy1, hy2⟩ := List.mem_filter.1 hy
      obtain ⟨hq, ha⟩ := mem_pairs.1 hx1
      obtain ⟨hq', ha'⟩ := mem_pairs.1 hy1
      simp only [Function.comp, decide_eq_true_eq] at hx2 hy2
      refine ⟨q, a, q', a', hq, ha, hq', ha', hne, ?_, ?_⟩
      · rw [← (hf q hq a ha).1, instr_undef]; exact hx2
      · rw [← (hf q' hq' a' ha').1, instr_undef]; exact hy2
    · rintro ⟨q, a, q', a', hq, ha, hq', ha', hne, g1, g2⟩
      rw [← (hf q hq a ha).1, instr_undef] at g1
      rw [← (hf q' hq' a' ha').1, instr_undef] at g2
      refine ⟨(q, a), List.mem_filter.2 ⟨mem_pairs.2 ⟨hq, ha⟩, by simpa using g1⟩, (q', a'),
        List.mem_filter.2 ⟨mem_pairs.2 ⟨hq', ha'⟩, by simpa using g2⟩, hne⟩
  · rw [h2]
    have := hcell (fun _ => True)
    simp only [and_true] at this
    simp only [Bool.false_eq_true, false_or]
    exact this
  · intro x
    rw [lt_min_iff]
    refine and_congr (by omega) ?_
    have := h3 ((x : Int) - 1)
    rw [hcell] at this
    simp only at this
    constructor
    · intro hx
      rcases this.1 (by omega) with hx | ⟨q, a, hd, hx⟩
      · left; omega
      · by_cases h1x : x ≤ 1
        · exact Or.inl h1x
        · right
          obtain ⟨hq, ha, hne⟩ := hd
          obtain ⟨hi, r, hr, ht⟩ := hf q hq a ha
          have hne' := hne
          rw [← hi, ne_eq, instr_undef] at hne'
          have hwf := (h.cells r hr _ ht hne').1
          refine ⟨q, a, (f (q, a)).st.toNat, ⟨hq, ha, hne⟩, ?_, by omega⟩
          rw [← hi]
          unfold BTrans.WF at hwf
          unfold BTrans.instr
          cases hcd : (f (q, a)).cond with
          | undefined => exact absurd hcd hne'
          | halt => rw [hcd] at hwf; simp only at hwf; omega
          | running => rfl
    · rintro (hx | ⟨q, a, s', ⟨hq, ha, hne⟩, hs, hx⟩)
      · have := this.2 (Or.inl (by omega)); omega
      · have := this.2 (Or.inr ⟨q, a, ⟨hq, ha, hne⟩, ?_⟩)
        · omega
        · obtain ⟨hi, r, hr, ht⟩ := hf q hq a ha
          have hne' := hne
          rw [← hi, ne_eq, instr_undef] at hne'
          have hwf := (h.cells r hr _ ht hne').1
          rw [← hi] at hs
          unfold BTrans.WF at hwf
          unfold BTrans.instr at hs
          cases hcd : (f (q, a)).cond with
          | undefined => exact absurd hcd hne'
          | halt => rw [hcd] at hs; simp [Spec.Instr.next] at hs
          | running =>
            rw [hcd] at hs hwf
            simp only [Spec.Instr.next, Option.some.injEq] at hs hwf
            omega
  · intro x
    rw [lt_min_iff]
    refine and_congr (by omega) ?_
    have := h4 ((x : Int) - 1)
    rw [hcell] at this
    simp only at this
    have hsy : ∀ q a, DefinedCell m.table m.nStates m.nSyms q a → 0 ≤ (f (q, a)).sym ∧ (m.table q a).write = (f (q, a)).sym.toNat := by
      rintro q a ⟨hq, ha, hne⟩
      obtain ⟨hi, r, hr, ht⟩ := hf q hq a ha
      have hne' := hne
      rw [← hi, ne_eq, instr_undef] at hne'
      have hwf := (h.cells r hr _ ht hne').1
      refine ⟨(wf_sym hwf hne').1, ?_⟩
      rw [← hi]
      unfold BTrans.instr
      cases hcd : (f (q, a)).cond with
      | undefined => exact absurd hcd hne'
      | halt => rfl
      | running => rfl
    constructor
    · intro hx
      rcases this.1 (by omega) with hx | ⟨q, a, hd, hx⟩
      · left; omega
      · have := hsy q a hd
        exact Or.inr ⟨q, a, hd, by omega⟩
    · rintro (hx | ⟨q, a, hd, hx⟩)
      · have := this.2 (Or.inl (by omega)); omega
      · have h5 := hsy q a hd
        have := this.2 (Or.inr ⟨q, a, hd, by omega⟩)
        omega

/-! ## Filling a cell -/

theorem setCell_fill (h : m.Sane) {q a : Nat} (hq : q < m.nStates) (ha : a < m.nSyms) (i : Instr) :
    m.setCell q a (BTrans.ofInstr i) = some (m.fill q a i) := by
  obtain ⟨r, t, h1, h2, -⟩ := h.cell hq ha
  have hq' : q < m.rows.length := by rw [h.height]; exact hq
  unfold SM.setCell SM.fill
  rw [h1]
  simp only
  rw [if_pos (by rw [h.width r h2]; exact ha), List.modify_eq_set_getElem?, h1]
  rfl

theorem sm_fill_table (h : m.Sane) {q a : Nat} (hq : q < m.nStates) (ha : a < m.nSyms) (i : Instr) :
    (m.fill q a i).table = Table.fill m.table q a i := by
  obtain ⟨r, t, h1, h2, h3, -⟩ := h.cell hq ha
  have ha' : a < r.length := by rw [h.width r h2]; exact ha
  funext q' a'
  unfold SM.table SM.fill Table.fill
  simp only
  rw [List.getElem?_modify]
  by_cases hqq : q = q'
  · subst hqq
    rw [h1]
    simp only [if_true, Option.map_eq_map, Option.map_some, Option.bind_some, true_and]
    rw [List.getElem?_set]
    by_cases haa : a = a'
    · subst haa
      rw [if_pos rfl, if_pos ha', if_pos rfl]
      simp only [Option.map_some, Option.getD_some]
      cases i with
      | undef => rfl
      | halt w d => cases d <;> rfl
      | go w d q => cases d <;> rfl
    · rw [if_neg haa, if_neg (fun h => haa h.symm)]
  · rw [if_neg (c := q' = q ∧ a' = a) (fun h => hqq h.1.symm)]
    simp only [if_neg hqq, Option.map_eq_map, Option.map_id_fun', id]

theorem fill_sane (h : m.Sane) {q a : Nat} {w : Nat} {d : Dir} {q' : Nat} (hw : w < m.nSyms) (hq' : q' < m.nStates) :
    (m.fill q a (.go w d q')).Sane := by
  refine ⟨h.states, h.syms, by simp [SM.fill, h.height], ?_, ?_⟩
  · intro r hr
    unfold SM.fill at hr
    simp only at hr
    obtain ⟨j, hj, rfl⟩ := List.mem_iff_getElem.1 hr
    rw [List.getElem_modify]
    have hj' : j < m.rows.length := by simpa using hj
    split
    · simp [SM.fill, h.width _ (List.getElem_mem hj')]
    · exact h.width _ (List.getElem_mem hj')
  · intro r hr t ht hu
    unfold SM.fill at hr
    simp only at hr
    obtain ⟨j, hj, rfl⟩ := List.mem_iff_getElem.1 hr
    rw [List.getElem_modify] at ht
    have hj' : j < m.rows.length := by simpa using hj
    have key : ∀ t ∈ m.rows[j], t.cond ≠ .undefined → t.WF m.nStates m.nSyms ∧ (t.dir = 0 ∨ t.dir = 1) :=
      h.cells _ (List.getElem_mem hj')
    split at ht
    · rcases List.mem_or_eq_of_mem_set ht with ht | rfl
      · exact key t ht hu
      · refine ⟨?_, ?_⟩
        · unfold BTrans.WF
          simp only [BTrans.ofInstr]
          exact ⟨by omega, by simp [SM.fill]; omega, by omega, by simp [SM.fill]; omega⟩
        · simp only [BTrans.ofInstr]
          split <;> simp
    · exact key t ht hu

/-! ## Children -/

/-- the instruction of a triple -/
def tripleInstr (x : Nat × Nat × Nat) : Instr := .go x.2.1 (if x.2.2 = 0 then .L else .R) x.1

theorem mem_childTriples {N K : Int} {D : Nat} (hD : D = 1 ∨ D = 2) {x : Nat × Nat × Nat} :
    x ∈ childTriples N K D ↔ (x.1 : Int) < N ∧ (x.2.1 : Int) < K ∧ x.2.2 ≤ 1 ∧ (x.2.2 = 1 ∨ D = 2) := by
  obtain ⟨q', w, d⟩ := x
  unfold childTriples
  simp only [List.mem_flatMap, List.mem_map, List.mem_range, List.mem_range', Prod.mk.injEq]
  constructor
  · rintro ⟨q1, h1, w1, h2, d1, ⟨i, hi, rfl⟩, rfl, rfl, rfl⟩
    omega
  · rintro ⟨h1, h2, h3, h4⟩
    exact ⟨q', by omega, w, by omega, d, ⟨d - (2 - D), by omega, by omega⟩, rfl, rfl, rfl⟩

/-- lexicographic order: state, then symbol, then direction (left first) -/
def TripleLt (x y : Nat × Nat × Nat) : Prop :=
  x.1 < y.1 ∨ x.1 = y.1 ∧ (x.2.1 < y.2.1 ∨ x.2.1 = y.2.1 ∧ x.2.2 < y.2.2)

theorem pairwise_childTriples (N K : Int) (D : Nat) : (childTriples N K D).Pairwise TripleLt := by
  unfold childTriples
  rw [List.pairwise_flatMap]
  refine ⟨fun q' _ => ?_, ?_⟩
  · rw [List.pairwise_flatMap]
    refine ⟨fun w _ => ?_, ?_⟩
    · rw [List.pairwise_map]
      refine List.Pairwise.imp ?_ (List.pairwise_lt_range' (step := 1))
      intro d d' hlt
      exact Or.inr ⟨rfl, Or.inr ⟨rfl, hlt⟩⟩
    · refine List.Pairwise.imp ?_ List.pairwise_lt_range
      intro w w' hlt x hx y hy
      obtain ⟨d, -, rfl⟩ := List.mem_map.1 hx
      obtain ⟨d', -, rfl⟩ := List.mem_map.1 hy
      exact Or.inr ⟨rfl, Or.inl hlt⟩
  · refine List.Pairwise.imp ?_ List.pairwise_lt_range
    intro q' q'' hlt x hx y hy
    obtain ⟨w, -, hx⟩ := List.mem_flatMap.1 hx
    obtain ⟨w', -, hy⟩ := List.mem_flatMap.1 hy
    obtain ⟨d, -, rfl⟩ := List.mem_map.1 hx
    obtain ⟨d', -, rfl⟩ := List.mem_map.1 hy
    exact Or.inl hlt

/-- the children, listed -/
theorem enumChildren_eq {e : TMEnum} (h : e.tm.Sane) {q a : Nat} (hq : q < e.tm.nStates) (ha : a < e.tm.nSyms) :
    ∃ xs : List (Nat × Nat × Nat), xs.Pairwise TripleLt ∧
      (∀ x, x ∈ xs ↔ x.2.2 ≤ 1 ∧ AllowedNext e.tm.table e.tm.nStates e.tm.nSyms x.2.1 (if x.2.2 = 0 then .L else .R) x.1) ∧
      ((e.allowNoHalt = true ∨ TwoUndefined e.tm.table e.tm.nStates e.tm.nSyms) →
        e.enumChildren q a = some (xs.map fun x => { e with tm := e.tm.fill q a (tripleInstr x) })) ∧
      (¬ (e.allowNoHalt = true ∨ TwoUndefined e.tm.table e.tm.nStates e.tm.nSyms) → e.enumChildren q a = some []) := by
  obtain ⟨s, h1, h2, h3, h4, h5⟩ := metrics_spec h
  refine ⟨childTriples (min (e.tm.nStates : Int) (s.maxState + 2)) (min (e.tm.nSyms : Int) (s.maxSym + 2)) (if s.defined then 2 else 1),
    pairwise_childTriples _ _ _, ?_, ?_, ?_⟩
  · intro x
    rw [mem_childTriples (by split <;> simp), h4, h5]
    have hdir : (x.2.2 = 1 ∨ (if s.defined = true then 2 else 1) = 2) ↔ (x.2.2 = 1 ∨ ∃ q a, DefinedCell e.tm.table e.tm.nStates e.tm.nSyms q a) := by
      rw [← h3]
      by_cases hd : s.defined = true <;> simp [hd]
    rw [hdir]
    constructor
    · rintro ⟨⟨g1, g2⟩, ⟨g3, g4⟩, g5, g6⟩
      refine ⟨g5, g3, g1, g4, g2, ?_⟩
      rcases g6 with g6 | g6
      · left; rw [if_neg (by omega)]
      · exact Or.inr g6
    · rintro ⟨g5, ⟨g3, g1, g4, g2, g6⟩⟩
      refine ⟨⟨g1, g2⟩, ⟨g3, g4⟩, g5, ?_⟩
      rcases g6 with g6 | g6
      · left
        by_contra hne
        rw [if_pos (by omega)] at g6
        cases g6
      · exact Or.inr g6
  · intro hc
    unfold TMEnum.enumChildren
    rw [h1]
    simp only
    rw [if_pos (by rw [h2]; exact hc)]
    apply mapO_eq_some
    intro x hx
    have hd := ((mem_childTriples (by split <;> simp)).1 hx).2.2.1
    unfold TMEnum.setTrans
    have e1 : ({ cond := .running, sym := (x.2.1 : Int), dir := (x.2.2 : Int), st := (x.1 : Int) } : BTrans) = BTrans.ofInstr (tripleInstr x) := by
      unfold tripleInstr BTrans.ofInstr
      simp only [BTrans.mk.injEq, true_and]
      refine ⟨?_, trivial⟩
      by_cases h0 : x.2.2 = 0
      · simp [h0]
      · have : x.2.2 = 1 := by omega
        simp [this]
    rw [e1, setCell_fill h hq ha]
    rfl
  · intro hc
    unfold TMEnum.enumChildren
    rw [h1]
    simp only
    rw [if_neg (by rw [h2]; exact hc)]

theorem fill_inj (h : m.Sane) {q a : Nat} (hq : q < m.nStates) (ha : a < m.nSyms) {i i' : Instr} (he : m.fill q a i = m.fill q a i') :
    i = i' := by
  have h1 := sm_fill_table h hq ha i
  have h2 := sm_fill_table h hq ha i'
  rw [he, h2] at h1
  have := congrFun (congrFun h1 q) a
  simp only [Table.fill, and_self, if_true] at this
  exact this.symm

end Model.IO

import Verif.Lemmas.CppSim
import Verif.Lemmas.TreeGen

/-!
# The C++ enumerator
-/

namespace Model.Cpp
open Spec

/-! ### Counting undecided cells -/

/-- the number of undecided cells -/
def undecCount (rows : List (List Trans)) : Nat := (rows.map fun r => r.countP (·.undecided)).sum

theorem sum_set (l : List Nat) (i x : Nat) (h : i < l.length) : (l.set i x).sum + l[i] = l.sum + x := by
  induction l generalizing i with
  | nil => simp at h
  | cons y l ih =>
    cases i with
    | zero => simp; omega
    | succ i =>
      have := ih i (by simpa using h)
      simp only [List.set_cons_succ, List.sum_cons, List.getElem_cons_succ]
      omega

theorem undecCount_set {rows : List (List Trans)} {q a : Nat} {r : List Trans} {t t' : Trans} (h1 : rows[q]? = some r)
    (h2 : r[a]? = some t) (hu : t.undecided = true) (hd : t'.undecided = false) :
    undecCount (rows.set q (r.set a t')) + 1 = undecCount rows := by
  obtain ⟨hq, rfl⟩ := List.getElem?_eq_some_iff.1 h1
  obtain ⟨ha, rfl⟩ := List.getElem?_eq_some_iff.1 h2
  unfold undecCount
  rw [List.map_set]
  have := sum_set (rows.map fun r => r.countP (·.undecided)) q ((rows[q].set a t').countP (·.undecided)) (by simpa using hq)
  rw [List.getElem_map, List.countP_set ha] at this
  simp only [hu, hd, if_true, Bool.false_eq_true, if_false, Nat.add_zero] at this
  have hpos : 0 < rows[q].countP (·.undecided) := List.countP_pos_iff.2 ⟨_, List.getElem_mem ha, hu⟩
  rw [List.countP_set ha]
  simp only [hu, hd, if_true, Bool.false_eq_true, if_false, Nat.add_zero]
  omega

theorem undecCount_pos {rows : List (List Trans)} {q a : Nat} {r : List Trans} {t : Trans} (h1 : rows[q]? = some r)
    (h2 : r[a]? = some t) (hu : t.undecided = true) : 0 < undecCount rows := by
  have := undecCount_set (t' := ⟨0, 1, 0, false⟩) h1 h2 hu rfl
  omega

theorem undecCount_replicate (n m : Nat) : undecCount (List.replicate n (List.replicate m emptyTrans)) = n * m := by
  unfold undecCount
  rw [List.map_replicate, List.sum_replicate, List.countP_replicate]
  simp [emptyTrans]

/-! ### Machines of the enumeration -/

/-- a machine of the enumeration with `n` states and `m` symbols -/
structure TM.Good (tm : TM) (n m : Nat) : Prop extends tm.Shaped n m where
  run : ∀ r ∈ tm.transitions, ∀ t ∈ r, t.undecided = false → 0 ≤ t.state
  stMax : tm.maxNextState < n
  syMax : tm.maxNextSymbol < m
  next : ∀ w d q', AllowedNext tm.table n m w d q' → (q' : Int) ≤ tm.maxNextState ∧ (w : Int) ≤ tm.maxNextSymbol
  left : (∃ q a, DefinedCell tm.table n m q a) → tm.nextMoveLeftOk = true
  halts : tm.numHalts = undecCount tm.transitions

theorem instr_undef {t : Trans} : t.instr = .undef ↔ t.undecided = true := by
  unfold Trans.instr
  constructor
  · intro h
    by_contra hu
    rw [if_neg hu] at h
    split at h <;> cases h
  · intro h; rw [if_pos h]

theorem good_noHalt {tm : TM} {n m : Nat} (h : tm.Good n m) (q a : Nat) (hq : q < n) (ha : a < m) (w : Nat) (d : Dir) :
    tm.table q a ≠ .halt w d := by
  obtain ⟨r, t, -, -, h1, h2, hf, ht, -⟩ := shaped_cell h.toShaped hq ha
  rw [ht]
  unfold Trans.instr
  intro hc
  split at hc
  · cases hc
  · next hu =>
    split at hc
    · next h0 => have := h.run r h1 t h2 (by simpa using hu); omega
    · cases hc

theorem empty_table (n m : Nat) : (TM.empty n m).table = fun _ _ => .undef := by
  funext q a
  unfold TM.table TM.empty
  simp only [List.getElem?_replicate]
  split
  · rfl
  · next r hr =>
    split at hr
    · rw [← Option.some.inj hr]
      simp only [List.getElem?_replicate]
      split
      · rfl
      · next t ht =>
        split at ht
        · rw [← Option.some.inj ht]; rfl
        · cases ht
    · cases hr

theorem empty_shaped {n m : Nat} (hm : 1 < m) : (TM.empty n m).Shaped n m := by
  refine ⟨rfl, rfl, by simp [TM.empty], ?_, ?_⟩
  · intro r hr
    rw [List.eq_of_mem_replicate hr]; simp
  · intro r hr t ht
    rw [List.eq_of_mem_replicate hr] at ht
    rw [List.eq_of_mem_replicate ht]
    refine ⟨fun _ => rfl, ?_, Or.inl rfl, le_refl _, ?_⟩
    · show 1 < m; exact hm
    · show (-1 : Int) < n; omega

theorem empty_good {n m : Nat} (hn : 1 < n) (hm : 1 < m) : (TM.empty n m).Good n m := by
  refine { toShaped := empty_shaped hm, run := ?_, stMax := ?_, syMax := ?_, next := ?_, left := ?_, halts := ?_ }
  · intro r hr t ht hu
    rw [List.eq_of_mem_replicate hr] at ht
    rw [List.eq_of_mem_replicate ht] at hu
    cases hu
  · show (1 : Int) < n; omega
  · show (1 : Int) < m; omega
  · intro w d q' hall
    rw [empty_table] at hall
    refine ⟨?_, ?_⟩
    · rcases hall.stUsed with h | ⟨_, _, _, ⟨_, _, h⟩, _⟩
      · show (q' : Int) ≤ 1; omega
      · exact absurd rfl h
    · rcases hall.symUsed with h | ⟨_, _, ⟨_, _, h⟩, _⟩
      · show (w : Int) ≤ 1; omega
      · exact absurd rfl h
  · rintro ⟨q, a, _, _, h⟩
    rw [empty_table] at h
    exact absurd rfl h
  · show ((n : Int) * m) = _
    rw [show (TM.empty n m).transitions = List.replicate n (List.replicate m emptyTrans) from rfl, undecCount_replicate]
    push_cast
    rfl

/-! ### Children -/

theorem copyTable_shaped {tm : TM} {n m : Nat} (h : tm.Shaped n m) :
    copyTable tm.transitions tm.numStates tm.numSymbols = .ok tm.transitions := by
  unfold copyTable
  rw [h.states, h.symbols]
  have e : tm.transitions.take n = tm.transitions := List.take_of_length_le (by rw [h.height])
  rw [e, if_pos ⟨by rw [h.height], fun r hr => by rw [h.width r hr]⟩]
  congr 1
  conv_rhs => rw [← List.map_id tm.transitions]
  refine List.map_congr_left fun r hr => ?_
  rw [List.take_of_length_le (by rw [h.width r hr])]
  rfl

/-- the child -/
def childTM (tm : TM) (n m q a : Nat) (r : List Trans) (t : Trans) : TM :=
  ⟨n, m, max tm.maxNextState (min (n - 1) (t.state + 1)), max tm.maxNextSymbol (min (m - 1) (t.symbol + 1)), true,
    tm.numHalts - 1, tm.transitions.set q (r.set a t)⟩

theorem child_eq {tm : TM} {n m : Nat} (h : tm.Shaped n m) {q a : Nat} {r : List Trans} {t0 : Trans} (h1 : tm.transitions[q]? = some r)
    (h2 : r[a]? = some t0) (t : Trans) :
    tm.child q a t = .ok (childTM tm n m q a r t) := by
  have ha : a < r.length := (List.getElem?_eq_some_iff.1 h2).1
  unfold TM.child
  rw [copyTable_shaped h, ok_bind]
  have : setCell tm.transitions q a t = .ok (tm.transitions.set q (r.set a t)) := by
    unfold setCell
    rw [if_neg (by omega), Int.toNat_natCast, h1]
    simp only
    rw [if_pos ha]
  rw [this, ok_bind, h.states, h.symbols]
  rfl

theorem set_table {tm tm' : TM} {q a : Nat} {r : List Trans} {t0 : Trans} (h1 : tm.transitions[q]? = some r) (h2 : r[a]? = some t0)
    (t : Trans) (h : tm'.transitions = tm.transitions.set q (r.set a t)) : tm'.table = Table.fill tm.table q a t.instr := by
  obtain ⟨hq, hr⟩ := List.getElem?_eq_some_iff.1 h1
  obtain ⟨ha, -⟩ := List.getElem?_eq_some_iff.1 h2
  funext q' a'
  unfold TM.table Table.fill
  rw [h, List.getElem?_set]
  by_cases hqq : q = q'
  · subst hqq
    rw [if_pos rfl, if_pos hq]
    simp only [List.getElem?_set, true_and]
    by_cases haa : a = a'
    · subst haa
      rw [if_pos rfl, if_pos ha, if_pos rfl]
    · rw [if_neg haa, if_neg (fun e => haa e.symm), h1]
  · rw [if_neg hqq, if_neg (fun e => hqq e.1.symm)]

/-- The transitions tried are those within the two bounds. -/
theorem mem_nextTrans {tm : TM} {t : Trans} : t ∈ nextTrans tm ↔ t.undecided = false ∧ 0 ≤ t.state ∧ t.state ≤ tm.maxNextState ∧
    (t.symbol : Int) ≤ tm.maxNextSymbol ∧ (t.move = 1 ∨ t.move = -1 ∧ tm.nextMoveLeftOk = true) := by
  unfold nextTrans
  simp only [List.mem_flatMap, List.mem_range]
  constructor
  · rintro ⟨q, hq, a, ha, d, hd, h⟩
    split at h
    · next hc =>
      rw [List.mem_singleton] at h
      subst h
      refine ⟨rfl, by simp, by simp only; omega, by simp only; omega, ?_⟩
      simp only [List.mem_cons, List.not_mem_nil, or_false] at hd
      rcases hd with rfl | rfl
      · exact Or.inl rfl
      · refine Or.inr ⟨rfl, ?_⟩
        rcases hc with hc | hc
        · exact absurd hc (by decide)
        · exact hc
    · cases h
  · rintro ⟨h1, h2, h3, h4, h5⟩
    refine ⟨t.state.toNat, by omega, t.symbol, by omega, t.move, ?_, ?_⟩
    · rcases h5 with h5 | ⟨h5, -⟩ <;> rw [h5] <;> decide
    · rw [if_pos (h5.imp id And.right), List.mem_singleton]
      cases t
      simp only at h1 h2 ⊢
      rw [h1, Int.toNat_of_nonneg h2]

theorem child_good {tm : TM} {n m : Nat} (h : tm.Good n m) {q a : Nat} (hq : q < n) (ha : a < m) (hu : tm.table q a = .undef)
    {t : Trans} (ht : t ∈ nextTrans tm) :
    ∃ c, tm.child q a t = .ok c ∧ c.Good n m ∧ c.table = Table.fill tm.table q a t.instr ∧
      undecCount c.transitions + 1 = undecCount tm.transitions := by
  obtain ⟨g1, g2, g3, g4, g5⟩ := mem_nextTrans.1 ht
  obtain ⟨r, t0, h1, h2, hr, ht0, hf0, htab, -⟩ := shaped_cell h.toShaped hq ha
  rw [htab, instr_undef] at hu
  have hcnt := undecCount_set h1 h2 hu g1
  have hst := h.stMax
  have hsy := h.syMax
  have htf : t.Fits n m := ⟨fun hc => (by rw [g1] at hc; cases hc), by omega, g5.imp id And.left, by omega, by omega⟩
  have hins : t.instr = .go t.symbol (if t.move = 1 then .R else .L) t.state.toNat := by
    unfold Trans.instr
    rw [if_neg (by rw [g1]; simp), if_neg (by omega)]
  have hmem : ∀ r' ∈ tm.transitions.set q (r.set a t), r'.length = m ∧ ∀ t' ∈ r', t' = t ∨ ∃ r'' ∈ tm.transitions, t' ∈ r'' := by
    intro r' hr'
    rcases List.mem_or_eq_of_mem_set hr' with hr' | rfl
    · exact ⟨h.width r' hr', fun t' ht' => Or.inr ⟨r', hr', ht'⟩⟩
    · refine ⟨by rw [List.length_set]; exact h.width r hr, fun t' ht' => ?_⟩
      rcases List.mem_or_eq_of_mem_set ht' with ht' | rfl
      · exact Or.inr ⟨r, hr, ht'⟩
      · exact Or.inl rfl
  refine ⟨_, child_eq h.toShaped h1 h2 t, ?_, set_table h1 h2 t rfl, hcnt⟩
  have htab' := set_table (tm' := childTM tm n m q a r t) h1 h2 t rfl
  have hdef : ∀ q1 a1, DefinedCell (Table.fill tm.table q a t.instr) n m q1 a1 →
      (q1 = q ∧ a1 = a) ∨ (¬ (q1 = q ∧ a1 = a) ∧ DefinedCell tm.table n m q1 a1) := by
    rintro q1 a1 ⟨d1, d2, d3⟩
    by_cases hc : q1 = q ∧ a1 = a
    · exact Or.inl hc
    · refine Or.inr ⟨hc, d1, d2, ?_⟩
      unfold Table.fill at d3
      rwa [if_neg hc] at d3
  refine { states := rfl, symbols := rfl, height := ?_, width := fun r' hr' => (hmem r' hr').1, cells := ?_, run := ?_,
           stMax := ?_, syMax := ?_, next := ?_, left := fun _ => rfl, halts := ?_ }
  · show (tm.transitions.set q _).length = n
    rw [List.length_set]; exact h.height
  · intro r' hr' t' ht'
    rcases (hmem r' hr').2 t' ht' with rfl | ⟨r'', h3, h4⟩
    · exact htf
    · exact h.cells r'' h3 t' h4
  · intro r' hr' t' ht' hud
    rcases (hmem r' hr').2 t' ht' with rfl | ⟨r'', h3, h4⟩
    · exact g2
    · exact h.run r'' h3 t' h4 hud
  · show max tm.maxNextState (min ((n : Int) - 1) (t.state + 1)) < n
    omega
  · show max tm.maxNextSymbol (min ((m : Int) - 1) (t.symbol + 1)) < m
    omega
  · intro w d q' hall
    rw [htab'] at hall
    show (q' : Int) ≤ max tm.maxNextState (min ((n : Int) - 1) (t.state + 1)) ∧ (w : Int) ≤ max tm.maxNextSymbol (min ((m : Int) - 1) (t.symbol + 1))
    have a1 := hall.sym
    have a2 := hall.st
    -- the allowed names in the parent
    have low : ∀ w q', w < m → q' < n →
        (w ≤ 1 ∨ ∃ q a, DefinedCell tm.table n m q a ∧ w ≤ (tm.table q a).write + 1) →
        (q' ≤ 1 ∨ ∃ q a s, DefinedCell tm.table n m q a ∧ (tm.table q a).next = some s ∧ q' ≤ s + 1) →
        (q' : Int) ≤ tm.maxNextState ∧ (w : Int) ≤ tm.maxNextSymbol := fun w q' b1 b2 b3 b4 =>
      h.next w .R q' ⟨b1, b2, b3, b4, Or.inl rfl⟩
    constructor
    · rcases hall.stUsed with b | ⟨q1, a1, s, b1, b2, b3⟩
      · have := (low 0 q' (by omega) a2 (Or.inl (by omega)) (Or.inl b)).1; omega
      · rcases hdef q1 a1 b1 with ⟨rfl, rfl⟩ | ⟨hne, b4⟩
        · have : Table.fill tm.table q1 a1 t.instr q1 a1 = t.instr := by simp [Table.fill]
          rw [this, hins] at b2
          simp only [Instr.next, Option.some.injEq] at b2
          omega
        · have : Table.fill tm.table q a t.instr q1 a1 = tm.table q1 a1 := by unfold Table.fill; rw [if_neg hne]
          rw [this] at b2
          have := (low 0 q' (by omega) a2 (Or.inl (by omega)) (Or.inr ⟨q1, a1, s, b4, b2, b3⟩)).1; omega
    · rcases hall.symUsed with b | ⟨q1, a1, b1, b3⟩
      · have := (low w 0 a1 (by omega) (Or.inl b) (Or.inl (by omega))).2; omega
      · rcases hdef q1 a1 b1 with ⟨rfl, rfl⟩ | ⟨hne, b4⟩
        · have : Table.fill tm.table q1 a1 t.instr q1 a1 = t.instr := by simp [Table.fill]
          rw [this, hins] at b3
          simp only [Instr.write] at b3
          omega
        · have : Table.fill tm.table q a t.instr q1 a1 = tm.table q1 a1 := by unfold Table.fill; rw [if_neg hne]
          rw [this] at b3
          have := (low w 0 (by omega) (by omega) (Or.inr ⟨q1, a1, b4, b3⟩) (Or.inl (by omega))).2; omega
  · show tm.numHalts - 1 = _
    rw [h.halts]
    show _ = ((undecCount (tm.transitions.set q (r.set a t)) : Nat) : Int)
    omega

theorem two_undefined {tm : TM} {n m : Nat} (h : tm.Good n m) (h2 : TwoUndefined tm.table n m) : tm.numHalts > 1 := by
  obtain ⟨q, a, q', a', hq, ha, hq', ha', hne, hu, hu'⟩ := h2
  obtain ⟨r, t, e1, e2, -, -, -, htab, -⟩ := shaped_cell h.toShaped hq ha
  obtain ⟨r', t', e1', e2', -, -, -, htab', -⟩ := shaped_cell h.toShaped hq' ha'
  rw [htab, instr_undef] at hu
  rw [htab', instr_undef] at hu'
  have hc := undecCount_set (t' := ⟨0, 1, 0, false⟩) e1 e2 hu rfl
  have hpos : 0 < undecCount (tm.transitions.set q (r.set a ⟨0, 1, 0, false⟩)) := by
    obtain ⟨hq1, -⟩ := List.getElem?_eq_some_iff.1 e1
    by_cases hqq : q = q'
    · subst hqq
      rw [e1] at e1'
      obtain rfl := Option.some.inj e1'
      have haa : a ≠ a' := fun e => hne (by rw [e])
      refine undecCount_pos (q := q) (a := a') (r := r.set a ⟨0, 1, 0, false⟩) (t := t') ?_ ?_ hu'
      · rw [List.getElem?_set, if_pos rfl, if_pos hq1]
      · rw [List.getElem?_set, if_neg haa]; exact e2'
    · refine undecCount_pos (q := q') (a := a') (r := r') (t := t') ?_ e2' hu'
      rw [List.getElem?_set, if_neg hqq]; exact e1'
  rw [h.halts]
  omega

/-! ### The loop -/

theorem mapOut_ok {α β : Type} {f : α → Out β} {l : List α} (h : ∀ a ∈ l, ∃ b, f a = .ok b) :
    ∃ r, mapOut f l = .ok r ∧ (∀ b ∈ r, ∃ a ∈ l, f a = .ok b) ∧ ∀ a ∈ l, ∃ b ∈ r, f a = .ok b := by
  induction l with
  | nil => exact ⟨[], rfl, by simp, by simp⟩
  | cons x l ih =>
    obtain ⟨b, hb⟩ := h x (by simp)
    obtain ⟨r, h1, h2, h3⟩ := ih fun a ha => h a (by simp [ha])
    refine ⟨b :: r, ?_, ?_, ?_⟩
    · unfold mapOut; rw [hb, ok_bind, h1, ok_bind]
    · intro y hy
      rcases List.mem_cons.1 hy with rfl | hy
      · exact ⟨x, by simp, hb⟩
      · obtain ⟨a, ha, e⟩ := h2 y hy
        exact ⟨a, by simp [ha], e⟩
    · intro a ha
      rcases List.mem_cons.1 ha with rfl | ha
      · exact ⟨b, by simp, hb⟩
      · obtain ⟨y, hy, e⟩ := h3 a ha
        exact ⟨y, by simp [hy], e⟩

/-- The filter says that the machine gets stuck in an undecided cell only if it does, and says where. -/
def ResultRight (n m : Nat) (tm : TM) (r : Expand) : Prop :=
  r.reachedUndecided = true → ∃ t q a, q < n ∧ a < m ∧ StuckAt tm.table t q a ∧ r.lastState = some (q : Int) ∧ r.lastSymbol = some a

theorem expand_spec {tm : TM} {n m : Nat} (allow : Bool) (h : tm.Good n m) {r : Expand} {t q a : Nat} (hq : q < n) (ha : a < m)
    (hst : StuckAt tm.table t q a) (h1 : r.lastState = some (q : Int)) (h2 : r.lastSymbol = some a) :
    ∃ cs, expandTM allow tm r = .ok cs ∧
      (∀ c ∈ cs, c.Good n m ∧ undecCount c.transitions < undecCount tm.transitions) ∧
      ((allow = true ∨ TwoUndefined tm.table n m) → ∀ w d q', AllowedNext tm.table n m w d q' →
        ∃ c ∈ cs, c.table = Table.fill tm.table q a (.go w d q')) := by
  unfold expandTM
  by_cases hc : allow = true ∨ tm.numHalts > 1
  · rw [if_pos hc, h1, h2]
    simp only
    obtain ⟨cs, e, g1, g2⟩ := mapOut_ok (f := fun t => tm.child q a t) (l := nextTrans tm)
      fun t ht => by obtain ⟨c, hc, -⟩ := child_good h hq ha hst.2 ht; exact ⟨c, hc⟩
    refine ⟨cs, e, ?_, ?_⟩
    · intro c hc
      obtain ⟨t', ht', e'⟩ := g1 c hc
      obtain ⟨c', e'', k1, -, k2⟩ := child_good h hq ha hst.2 ht'
      rw [e''] at e'
      obtain rfl := Out.ok.inj e'
      exact ⟨k1, by omega⟩
    · intro _ w d q' hall
      obtain ⟨b1, b2⟩ := h.next w d q' hall
      have hmem : (⟨w, d.delta, q', false⟩ : Trans) ∈ nextTrans tm := by
        rw [mem_nextTrans]
        refine ⟨rfl, by simp, b1, b2, ?_⟩
        rcases hall.dir with hd | hd
        · left; rw [hd]; rfl
        · cases d
          · exact Or.inr ⟨rfl, h.left hd⟩
          · exact Or.inl rfl
      obtain ⟨c, hc, e'⟩ := g2 _ hmem
      obtain ⟨c', e'', -, k1, -⟩ := child_good h hq ha hst.2 hmem
      rw [e''] at e'
      obtain rfl := Out.ok.inj e'
      refine ⟨c', hc, ?_⟩
      rw [k1]
      congr 1
      unfold Trans.instr
      rw [if_neg (by simp), if_neg (by simp)]
      cases d <;> rfl
  · rw [if_neg hc]
    refine ⟨[], rfl, by simp, fun h2 => ?_⟩
    rcases h2 with h2 | h2
    · exact absurd (Or.inl h2) hc
    · exact absurd (Or.inr (two_undefined h h2)) hc

variable {σ : Type}

/-- the filter applied to a list of machines one after the other -/
inductive Folds (filter : σ → TM → Out (σ × Expand)) : List TM → σ → σ → Prop
  | nil (s : σ) : Folds filter [] s s
  | cons {tm : TM} {tr : List TM} {s s' s'' : σ} {r : Expand} : filter s tm = .ok (s', r) → Folds filter tr s' s'' →
      Folds filter (tm :: tr) s s''

theorem folds_append {filter : σ → TM → Out (σ × Expand)} {tr tr' : List TM} {s s' s'' : σ} (h : Folds filter tr s s')
    (h' : Folds filter tr' s' s'') : Folds filter (tr ++ tr') s s'' := by
  induction h with
  | nil s => exact h'
  | cons h1 _ ih => exact .cons h1 (ih h')

/-- What an enumeration does: it applies the filter to some machines, all of them good, among them those it is started
with; and if the filter says that the machine gets stuck, to all its children. -/
theorem enumLoop_trace {n m : Nat} {allow : Bool} {filter : σ → TM → Out (σ × Expand)} (res : TM → Expand)
    (hres : ∀ s tm s' r, tm.Good n m → filter s tm = .ok (s', r) → r = res tm ∧ ResultRight n m tm r) (fuel : Nat) :
    ∀ (todos : List TM) (s s' : σ), (∀ tm ∈ todos, tm.Good n m) → enumLoop allow filter fuel todos s = .ok s' →
      ∃ tr, Folds filter tr s s' ∧ (∀ tm ∈ todos, tm ∈ tr) ∧ (∀ tm ∈ tr, tm.Good n m) ∧
        ∀ tm ∈ tr, (res tm).reachedUndecided = true → ∃ cs, expandTM allow tm (res tm) = .ok cs ∧ ∀ c ∈ cs, c ∈ tr := by
  induction fuel with
  | zero =>
    intro todos s s' hg h
    cases todos with
    | nil =>
      rw [enumLoop] at h
      obtain rfl := Out.ok.inj h
      exact ⟨[], .nil _, by simp, by simp, by simp⟩
    | cons tm todos => cases h
  | succ k ih =>
    intro todos s s' hg h
    cases todos with
    | nil =>
      rw [enumLoop] at h
      obtain rfl := Out.ok.inj h
      exact ⟨[], .nil _, by simp, by simp, by simp⟩
    | cons tm todos =>
      rw [enumLoop] at h
      obtain ⟨⟨s1, r⟩, hf, h⟩ := bind_ok h
      have hgt := hg tm (by simp)
      obtain ⟨hr, hrr⟩ := hres _ _ _ _ hgt hf
      simp only at h
      by_cases hu : r.reachedUndecided = true
      · rw [if_pos hu] at h
        obtain ⟨t, q, a, hq, ha, hst, e1, e2⟩ := hrr hu
        obtain ⟨cs, he, hcs, -⟩ := expand_spec allow hgt hq ha hst e1 e2
        rw [he, ok_bind] at h
        obtain ⟨tr, g1, g2, g3, g4⟩ := ih _ _ _ (fun c hc => by
          rcases List.mem_append.1 hc with hc | hc
          · exact (hcs c (List.mem_reverse.1 hc)).1
          · exact hg c (by simp [hc])) h
        refine ⟨tm :: tr, .cons hf g1, ?_, ?_, ?_⟩
        · intro x hx
          rcases List.mem_cons.1 hx with rfl | hx
          · simp
          · simp [g2 x (by simp [hx])]
        · intro x hx
          rcases List.mem_cons.1 hx with rfl | hx
          · exact hgt
          · exact g3 x hx
        · intro x hx hxu
          rcases List.mem_cons.1 hx with rfl | hx
          · rw [← hr]
            exact ⟨cs, he, fun c hc => by simp [g2 c (by simp [hc])]⟩
          · obtain ⟨cs', e, k⟩ := g4 x hx hxu
            exact ⟨cs', e, fun c hc => by simp [k c hc]⟩
      · rw [if_neg hu] at h
        obtain ⟨tr, g1, g2, g3, g4⟩ := ih _ _ _ (fun c hc => hg c (by simp [hc])) h
        refine ⟨tm :: tr, .cons hf g1, ?_, ?_, ?_⟩
        · intro x hx
          rcases List.mem_cons.1 hx with rfl | hx
          · simp
          · simp [g2 x hx]
        · intro x hx
          rcases List.mem_cons.1 hx with rfl | hx
          · exact hgt
          · exact g3 x hx
        · intro x hx hxu
          rcases List.mem_cons.1 hx with rfl | hx
          · rw [← hr] at hxu
            exact absurd hxu hu
          · obtain ⟨cs', e, k⟩ := g4 x hx hxu
            exact ⟨cs', e, fun c hc => by simp [k c hc]⟩

/-- The enumeration comes to an end if the filter never fails. -/
theorem enumLoop_ends {n m : Nat} {allow : Bool} {filter : σ → TM → Out (σ × Expand)} (res : TM → Expand)
    (hok : ∀ s tm, tm.Good n m → ∃ s', filter s tm = .ok (s', res tm))
    (hres : ∀ tm, tm.Good n m → ResultRight n m tm (res tm)) (todos : List TM) (hg : ∀ tm ∈ todos, tm.Good n m) :
    ∃ f, ∀ s, ∃ s', ∀ k, enumLoop allow filter (f + k) todos s = .ok s' := by
  have one : ∀ u tm, tm.Good n m → undecCount tm.transitions ≤ u →
      ∃ f, ∀ rest s, ∃ s', ∀ k, enumLoop allow filter (f + k) (tm :: rest) s = enumLoop allow filter k rest s' := by
    intro u
    induction u with
    | zero =>
      intro tm hgt hu
      exact body tm hgt fun c hc hlt => absurd hlt (by omega)
    | succ u ih =>
      intro tm hgt hu
      exact body tm hgt fun c hc hlt => ih c hc (by omega)
  obtain ⟨f, hf⟩ := many todos fun tm htm => one _ tm (hg tm htm) (le_refl _)
  refine ⟨f, fun s => ?_⟩
  obtain ⟨s', h⟩ := hf [] s
  refine ⟨s', fun k => ?_⟩
  have := h k
  rw [List.append_nil] at this
  rw [this, enumLoop]
where
  many (cs : List TM) (h : ∀ c ∈ cs, ∃ f, ∀ rest s, ∃ s', ∀ k,
      enumLoop allow filter (f + k) (c :: rest) s = enumLoop allow filter k rest s') :
      ∃ f, ∀ rest s, ∃ s', ∀ k, enumLoop allow filter (f + k) (cs ++ rest) s = enumLoop allow filter k rest s' := by
    induction cs with
    | nil => exact ⟨0, fun rest s => ⟨s, fun k => by rw [Nat.zero_add]; rfl⟩⟩
    | cons c cs ih =>
      obtain ⟨f1, h1⟩ := h c (by simp)
      obtain ⟨f2, h2⟩ := ih fun c hc => h c (by simp [hc])
      refine ⟨f1 + f2, fun rest s => ?_⟩
      obtain ⟨s1, e1⟩ := h1 (cs ++ rest) s
      obtain ⟨s2, e2⟩ := h2 rest s1
      exact ⟨s2, fun k => by rw [Nat.add_assoc, List.cons_append, e1, e2]⟩
  body (tm : TM) (hgt : tm.Good n m)
      (rec : ∀ c : TM, c.Good n m → undecCount c.transitions < undecCount tm.transitions →
        ∃ f, ∀ rest s, ∃ s', ∀ k, enumLoop allow filter (f + k) (c :: rest) s = enumLoop allow filter k rest s') :
      ∃ f, ∀ rest s, ∃ s', ∀ k, enumLoop allow filter (f + k) (tm :: rest) s = enumLoop allow filter k rest s' := by
    by_cases hu : (res tm).reachedUndecided = true
    · obtain ⟨t, q, a, hq, ha, hst, e1, e2⟩ := hres tm hgt hu
      obtain ⟨cs, he, hcs, -⟩ := expand_spec allow hgt hq ha hst e1 e2
      obtain ⟨f, hf⟩ := many cs.reverse fun c hc =>
        rec c (hcs c (List.mem_reverse.1 hc)).1 (hcs c (List.mem_reverse.1 hc)).2
      refine ⟨f + 1, fun rest s => ?_⟩
      obtain ⟨s1, e3⟩ := hok s tm hgt
      obtain ⟨s2, e4⟩ := hf rest s1
      refine ⟨s2, fun k => ?_⟩
      rw [show f + 1 + k = (f + k) + 1 by omega, enumLoop, e3, ok_bind]
      simp only
      rw [if_pos hu, he, ok_bind, e4]
    · refine ⟨1, fun rest s => ?_⟩
      obtain ⟨s1, e3⟩ := hok s tm hgt
      refine ⟨s1, fun k => ?_⟩
      rw [Nat.add_comm, enumLoop, e3, ok_bind]
      simp only
      rw [if_neg hu]

end Model.Cpp

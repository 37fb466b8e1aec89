import Verif.Lemmas.CppEnum

/-!
# Writing and reading machines in C++
-/

namespace Model.Cpp
open Spec

theorem digit_facts : ∀ a < 10, Nat.toDigits 10 a = [Char.ofNat (a + 48)] ∧ ('0' ≤ Char.ofNat (a + 48) ∧ Char.ofNat (a + 48) ≤ '9') ∧
    (Char.ofNat (a + 48)).toNat - 48 = a ∧ Char.ofNat (a + 48) ≠ '_' ∧ Char.ofNat (a + 48) ≠ '-' ∧
    lineEnds.contains (Char.ofNat (a + 48)) = false := by decide

theorem letter_facts : ∀ q < 25, Char.ofNat (q + 65) ≠ 'Z' ∧ ('A' ≤ Char.ofNat (q + 65) ∧ Char.ofNat (q + 65) ≤ 'Z') ∧
    (Char.ofNat (q + 65)).toNat = q + 65 ∧ lineEnds.contains (Char.ofNat (q + 65)) = false := by decide

/-- a transition is written as three characters, from which it is read back -/
theorem writeTrans_spec {n m : Nat} {t : Trans} (h : t.Fits n m) (hn : n < 26) (hm : m < 10) :
    ∃ c d e, writeTrans t = .ok [c, d, e] ∧ c ≠ '_' ∧ (t.undecided = true → c = '-') ∧
      (t.undecided = false → c ≠ '-' ∧ readTrans c d e = .ok t) ∧
      lineEnds.contains c = false ∧ lineEnds.contains d = false ∧ lineEnds.contains e = false := by
  unfold writeTrans
  cases hu : t.undecided with
  | true => exact ⟨'-', '-', '-', rfl, by decide, fun _ => rfl, ⟨fun h => absurd h (by simp), by decide, by decide, by decide⟩⟩
  | false =>
    have hsym := h.sym
    have hlow := h.low
    have hhigh := h.high
    obtain ⟨d1, d2, d3, d4, d5, d6⟩ := digit_facts t.symbol (by omega)
    simp only [Bool.false_eq_true, if_false]
    rw [d1]
    have key : ∀ d : Char, (d = 'R' ∧ t.move = 1 ∨ d = 'L' ∧ t.move = -1) → lineEnds.contains d = false →
        ∃ c d' e, Out.ok ([Char.ofNat (t.symbol + 48)] ++ [d, if 0 ≤ t.state then Char.ofNat (t.state.toNat + 65) else 'Z']) = .ok [c, d', e] ∧
          c ≠ '_' ∧ (False → c = '-') ∧ (True → c ≠ '-' ∧ readTrans c d' e = .ok t) ∧
          lineEnds.contains c = false ∧ lineEnds.contains d' = false ∧ lineEnds.contains e = false := by
      intro d hd hdl
      refine ⟨_, d, _, rfl, d4, False.elim, fun _ => ⟨d5, ?_⟩, d6, hdl, ?_⟩
      · unfold readTrans
        rw [if_neg (not_not.2 d2), if_neg (by rcases hd with ⟨rfl, -⟩ | ⟨rfl, -⟩ <;> decide)]
        have hmv : (if d = 'R' then (1 : Int) else -1) = t.move := by
          rcases hd with ⟨rfl, e⟩ | ⟨rfl, e⟩
          · rw [e]; rfl
          · rw [e]; rfl
        simp only [hmv, d3]
        by_cases h0 : 0 ≤ t.state
        · obtain ⟨l1, l2, l3, -⟩ := letter_facts t.state.toNat (by omega)
          rw [if_pos h0, if_neg l1, if_pos l2, l3]
          cases t
          simp only at hu h0 ⊢
          congr 2
          · omega
          · exact hu.symm
        · rw [if_neg h0, if_pos rfl]
          cases t
          simp only at hu h0 hlow ⊢
          congr 2
          · omega
          · exact hu.symm
      · by_cases h0 : 0 ≤ t.state
        · rw [if_pos h0]
          exact (letter_facts t.state.toNat (by omega)).2.2.2
        · rw [if_neg h0]; decide
    rcases h.dir with hd | hd
    · rw [if_pos hd, ok_bind]
      obtain ⟨c, d, e, k1, k2, k3, k4, k5⟩ := key 'R' (Or.inl ⟨rfl, hd⟩) (by decide)
      exact ⟨c, d, e, k1, k2, fun h => by simp at h, fun _ => k4 trivial, k5⟩
    · rw [if_neg (by omega), if_pos hd, ok_bind]
      obtain ⟨c, d, e, k1, k2, k3, k4, k5⟩ := key 'L' (Or.inr ⟨rfl, hd⟩) (by decide)
      exact ⟨c, d, e, k1, k2, fun h => by simp at h, fun _ => k4 trivial, k5⟩

theorem readRows_bar (f : Bool) (row : List Trans) (s : List Char) :
    readRows f row ('_' :: s) = (readRows true [] s >>= fun rs => .ok (row :: rs)) := by
  cases s with
  | nil => simp [readRows]
  | cons c s =>
    cases s with
    | nil => simp [readRows]
    | cons d s =>
      conv_lhs => rw [readRows]
      rw [if_pos rfl]

theorem readRows_cell {n m : Nat} {t : Trans} (h : t.Fits n m) (hn : n < 26) (hm : m < 10) {l : List Char} (hl : writeTrans t = .ok l)
    (f : Bool) (row : List Trans) (s : List Char) : readRows f row (l ++ s) = readRows false (row ++ [t]) s := by
  obtain ⟨c, d, e, h1, h2, h3, h4, -⟩ := writeTrans_spec h hn hm
  rw [hl] at h1
  obtain rfl := Out.ok.inj h1
  show readRows f row (c :: d :: e :: s) = _
  conv_lhs => rw [readRows]
  rw [if_neg h2]
  cases hu : t.undecided with
  | true =>
    rw [if_pos (h3 hu), h.undec hu]
  | false =>
    obtain ⟨h5, h6⟩ := h4 hu
    rw [if_neg h5, h6, ok_bind]

/-- the text of a row -/
def rowText (r : List Trans) : Out (List Char) := do
  let cells ← mapOut writeTrans r
  .ok cells.flatten

theorem mapOut_congr {α β γ : Type} {f : α → Out β} {g : γ → Out β} : ∀ {l : List α} {l' : List γ}, l.length = l'.length →
    (∀ i (h : i < l.length) (h' : i < l'.length), f l[i] = g l'[i]) → mapOut f l = mapOut g l'
  | [], [], _, _ => rfl
  | [], _ :: _, h, _ => by simp at h
  | _ :: _, [], h, _ => by simp at h
  | a :: l, b :: l', h, hi => by
    unfold mapOut
    have h0 := hi 0 (by simp) (by simp)
    simp only [List.getElem_cons_zero] at h0
    rw [h0, mapOut_congr (f := f) (g := g) (l := l) (l' := l') (by simpa using h) fun i h1 h2 => by
      have := hi (i + 1) (by simpa using h1) (by simpa using h2)
      simpa using this]

/-- the written text, row by row -/
theorem write_eq {tm : TM} {n m : Nat} (h : tm.Shaped n m) (hn : n < 26) (hm : m < 10) :
    tm.write = (mapOut (fun (x : List Trans × Nat) => do
      let s ← rowText x.1
      .ok ((if x.2 ≠ 0 then ['_'] else []) ++ s)) tm.transitions.zipIdx >>= fun rows => .ok rows.flatten) := by
  unfold TM.write
  rw [h.states, h.symbols, if_neg (not_not.2 hn), if_neg (not_not.2 hm)]
  congr 1
  refine mapOut_congr (by simp [h.height]) fun q h1 h2 => ?_
  simp only [List.getElem_range, List.getElem_zipIdx, Nat.zero_add]
  have hq : q < n := by simpa using h1
  unfold rowText
  have hq' : q < tm.transitions.length := by rw [h.height]; exact hq
  have : mapOut (fun a => tm.lookup q a >>= fun t => writeTrans t) (List.range m) = mapOut writeTrans tm.transitions[q] := by
    refine mapOut_congr (by simp [h.width _ (List.getElem_mem hq')]) fun a h3 h4 => ?_
    obtain ⟨r, t, e1, e2, -, -, -, -, e3⟩ := shaped_cell h hq (show a < m by simpa using h3)
    rw [List.getElem_range, e3, ok_bind]
    rw [List.getElem?_eq_getElem hq'] at e1
    obtain rfl := Option.some.inj e1
    rw [List.getElem?_eq_getElem h4] at e2
    obtain rfl := Option.some.inj e2
    rfl
  rw [this]
  cases mapOut writeTrans tm.transitions[q] <;> rfl

theorem rowText_read {n m : Nat} (hn : n < 26) (hm : m < 10) {r : List Trans} (h : ∀ t ∈ r, t.Fits n m) :
    ∃ s, rowText r = .ok s ∧ s.length = 3 * r.length ∧ (∀ c ∈ s, lineEnds.contains c = false) ∧
      (∀ f row s', r ≠ [] → readRows f row (s ++ s') = readRows false (row ++ r) s') := by
  induction r with
  | nil => exact ⟨[], rfl, rfl, by simp, fun _ _ _ h => absurd rfl h⟩
  | cons t r ih =>
    obtain ⟨s, e, hl, hc, hr⟩ := ih fun x hx => h x (by simp [hx])
    have ht := h t (by simp)
    obtain ⟨c, d, e', k1, -, -, -, k2, k3, k4⟩ := writeTrans_spec ht hn hm
    refine ⟨[c, d, e'] ++ s, ?_, ?_, ?_, ?_⟩
    · unfold rowText at e ⊢
      obtain ⟨cells, e1, e2⟩ := bind_ok e
      unfold mapOut
      rw [k1, ok_bind, e1, ok_bind, ok_bind, ← Out.ok.inj e2]
      rfl
    · simp [hl]; omega
    · intro x hx
      rcases List.mem_append.1 hx with hx | hx
      · simp only [List.mem_cons, List.not_mem_nil, or_false] at hx
        rcases hx with rfl | rfl | rfl <;> assumption
      · exact hc x hx
    · intro f row s' _
      rw [List.append_assoc, readRows_cell ht hn hm k1]
      cases r with
      | nil =>
        have : s = [] := List.length_eq_zero_iff.1 (by rw [hl]; rfl)
        rw [this]; rfl
      | cons t' r => rw [hr _ _ _ (by simp), List.append_assoc]; rfl

theorem rows_read {n m : Nat} (hn : n < 26) (hm : m < 10) (hm0 : 0 < m) : ∀ (rows : List (List Trans)) (k : Nat),
    (∀ r ∈ rows, r.length = m) → (∀ r ∈ rows, ∀ t ∈ r, t.Fits n m) →
    ∃ ss, mapOut (fun (x : List Trans × Nat) => do
        let s ← rowText x.1
        .ok ((if x.2 ≠ 0 then ['_'] else []) ++ s)) (rows.zipIdx k) = .ok ss ∧
      (∀ c ∈ ss.flatten, lineEnds.contains c = false) ∧
      (k = 0 → readRows true [] ss.flatten = .ok rows) ∧
      (k ≠ 0 → ∀ row, readRows false row ss.flatten = .ok (row :: rows)) := by
  intro rows
  induction rows with
  | nil =>
    intro k _ _
    exact ⟨[], rfl, by simp, fun _ => rfl, fun _ _ => rfl⟩
  | cons r rows ih =>
    intro k hw hf
    obtain ⟨ss, e, hc, -, hr⟩ := ih (k + 1) (fun x hx => hw x (by simp [hx])) fun x hx => hf x (by simp [hx])
    have hr := hr (by omega)
    obtain ⟨s, e1, -, hc1, hr1⟩ := rowText_read hn hm (hf r (by simp))
    have hne : r ≠ [] := by
      intro h
      have := hw r (by simp)
      rw [h] at this
      simp at this
      omega
    refine ⟨((if k ≠ 0 then ['_'] else []) ++ s) :: ss, ?_, ?_, ?_, ?_⟩
    · rw [List.zipIdx_cons]
      unfold mapOut
      simp only
      rw [e1, ok_bind, ok_bind, e, ok_bind]
    · intro c hcm
      rw [List.flatten_cons] at hcm
      rcases List.mem_append.1 hcm with hcm | hcm
      · rcases List.mem_append.1 hcm with hcm | hcm
        · split at hcm
          · rw [List.mem_singleton.1 hcm]; decide
          · cases hcm
        · exact hc1 c hcm
      · exact hc c hcm
    · intro hk
      rw [hk, if_neg (by simp), List.nil_append, List.flatten_cons, hr1 _ _ _ hne, hr]
      rfl
    · intro hk row
      rw [if_pos hk, List.flatten_cons]
      show readRows false row ('_' :: (s ++ ss.flatten)) = _
      rw [readRows_bar, hr1 _ _ _ hne, hr, ok_bind]
      rfl

/-- **Round trip.** A machine with fewer than 26 states and 10 symbols can be written, and reading the text gives its table. -/
theorem write_read {tm : TM} {n m : Nat} (h : tm.Shaped n m) (hn : n < 26) (hm : m < 10) (hm0 : 0 < m) :
    ∃ s, tm.write = .ok s ∧ (∀ c ∈ s, lineEnds.contains c = false) ∧ readRows true [] s = .ok tm.transitions := by
  obtain ⟨ss, e, hc, hr, -⟩ := rows_read hn hm hm0 tm.transitions 0 h.width h.cells
  refine ⟨ss.flatten, ?_, hc, hr rfl⟩
  rw [write_eq h hn hm, e, ok_bind]

theorem readTM_write {tm : TM} {n m : Nat} (h : tm.Shaped n m) (hn : n < 26) (hm : m < 10) (hm0 : 0 < m) (rest : List Char)
    (hrest : rest = [] ∨ ∃ c r, rest = c :: r ∧ lineEnds.contains c = true) :
    ∃ s, tm.write = .ok s ∧ readTM (s ++ rest) = TM.ofTable tm.transitions := by
  obtain ⟨s, e, hc, hr⟩ := write_read h hn hm hm0
  refine ⟨s, e, ?_⟩
  unfold readTM
  have : (s ++ rest).takeWhile (fun c => !lineEnds.contains c) = s := by
    rw [List.takeWhile_append_of_pos fun c hcm => by rw [hc c hcm]; rfl]
    rcases hrest with rfl | ⟨c, r, rfl, hcc⟩
    · simp
    · rw [List.takeWhile_cons, hcc]; simp
  rw [this, hr, ok_bind]

/-! ### The machine read -/

theorem foldl_max_le {α : Type} (f : α → Int) (l : List α) (x : Int) :
    x ≤ l.foldl (fun x t => max x (f t)) x ∧ (∀ t ∈ l, f t ≤ l.foldl (fun x t => max x (f t)) x) := by
  induction l generalizing x with
  | nil => exact ⟨le_refl _, by simp⟩
  | cons t l ih =>
    obtain ⟨h1, h2⟩ := ih (max x (f t))
    refine ⟨by rw [List.foldl_cons]; exact le_trans (le_max_left _ _) h1, fun u hu => ?_⟩
    rw [List.foldl_cons]
    rcases List.mem_cons.1 hu with rfl | hu
    · exact le_trans (le_max_right _ _) h1
    · exact h2 u hu

theorem foldl_halts (l : List Trans) (x : Int) :
    l.foldl (fun x t => if t.state < 0 then x + 1 else x) x = x + (l.countP fun t => decide (t.state < 0) : Nat) := by
  induction l generalizing x with
  | nil => simp
  | cons t l ih =>
    rw [List.foldl_cons, ih, List.countP_cons]
    by_cases h : t.state < 0
    · simp only [h, if_true, decide_true]; push_cast; omega
    · simp only [h, if_false, decide_false]; simp

theorem ofTable_good {tm : TM} {n m : Nat} (h : tm.Good n m) (hn : 1 < n) (hm : 1 < m) :
    ∃ tm', TM.ofTable tm.transitions = .ok tm' ∧ tm'.transitions = tm.transitions ∧ tm'.Good n m := by
  cases hrows : tm.transitions with
  | nil => have := h.height; rw [hrows] at this; simp at this; omega
  | cons r0 rows =>
    have hw0 : r0.length = m := h.width r0 (by rw [hrows]; simp)
    have hh := h.height
    refine ⟨_, rfl, rfl, ?_⟩
    rw [hrows] at hh
    have hcells := h.cells
    have hrun := h.run
    have hwidth := h.width
    rw [hrows] at hcells hrun hwidth
    set all := (r0 :: rows).flatten with hall
    obtain ⟨s1, s2⟩ := foldl_max_le (fun t : Trans => t.state) all 0
    obtain ⟨y1, y2⟩ := foldl_max_le (fun t : Trans => (t.symbol : Int)) all 0
    have hsh : TM.Shaped { numStates := (r0 :: rows).length, numSymbols := r0.length,
                           maxNextState := min (all.foldl (fun x t => max x t.state) 0 + 1) ((r0 :: rows).length - 1),
                           maxNextSymbol := min (all.foldl (fun (x : Int) t => max x t.symbol) 0 + 1) (r0.length - 1),
                           nextMoveLeftOk := true, numHalts := all.foldl (fun x t => if t.state < 0 then x + 1 else x) 0,
                           transitions := r0 :: rows } n m :=
      ⟨hh, hw0, hh, hwidth, hcells⟩
    refine { toShaped := hsh, run := hrun, stMax := ?_, syMax := ?_, next := ?_, left := fun _ => rfl, halts := ?_ }
    · show min _ (((r0 :: rows).length : Int) - 1) < n
      rw [hh]; omega
    · show min _ ((r0.length : Int) - 1) < m
      rw [hw0]; omega
    · intro w d q' hal
      have a1 := hal.sym
      have a2 := hal.st
      show (q' : Int) ≤ min (all.foldl (fun x t => max x t.state) 0 + 1) ((r0 :: rows).length - 1) ∧
        (w : Int) ≤ min (all.foldl (fun (x : Int) t => max x t.symbol) 0 + 1) (r0.length - 1)
      rw [hh, hw0]
      constructor
      · rcases hal.stUsed with b | ⟨q1, a1, s, b1, b2, b3⟩
        · omega
        · obtain ⟨r, t, -, -, m1, m2, tf, e, -⟩ := shaped_cell hsh b1.1 b1.2.1
          rw [e] at b2
          have := instr_next_num tf
          rw [b2, stNum_some] at this
          have := s2 t (List.mem_flatten.2 ⟨r, m1, m2⟩)
          omega
      · rcases hal.symUsed with b | ⟨q1, a1, b1, b3⟩
        · omega
        · obtain ⟨r, t, -, -, m1, m2, tf, e, -⟩ := shaped_cell hsh b1.1 b1.2.1
          rw [e, instr_write tf] at b3
          have := y2 t (List.mem_flatten.2 ⟨r, m1, m2⟩)
          omega
    · show all.foldl (fun x t => if t.state < 0 then x + 1 else x) 0 = ((undecCount (r0 :: rows) : Nat) : Int)
      rw [foldl_halts, Int.zero_add]
      unfold undecCount
      rw [hall, List.countP_flatten]
      congr 2
      refine List.map_congr_left fun r hr => List.countP_congr fun t ht => ?_
      have hf := hcells r hr t ht
      rw [decide_eq_true_iff]
      constructor
      · intro h0
        by_contra hu
        have := hrun r hr t ht (by simpa using hu)
        omega
      · intro hu
        rw [hf.undec hu]; decide

end Model.Cpp

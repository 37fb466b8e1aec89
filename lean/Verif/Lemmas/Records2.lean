import Verif.Lemmas.Records

set_option linter.unusedSectionVars false

/-!
# Lemmas about parsers: what they return is a sensible machine
-/

namespace Model.IO
open Spec (Dir Instr Table)

/-! ## The standard text parser -/

theorem split_ne_nil (c : Char) (l : List Char) : Py.split c l ≠ [] := by
  induction l with
  | nil => simp [Py.split]
  | cons x l ih =>
    unfold Py.split
    split
    · simp
    · split <;> simp

theorem parseRow_dirs (n q : Nat) : ∀ (fuel a : Nat) (row : List Char) (qs : List (Quint Int Int)),
    parseRow n q fuel a row = some qs → ∀ x ∈ qs, x.2.2.2.1 = 0 ∨ x.2.2.2.1 = 1 := by
  intro fuel
  induction fuel with
  | zero =>
    intro a row qs h
    cases row with
    | nil => cases h; simp
    | cons x row => simp [parseRow] at h
  | succ fuel ih =>
    intro a row qs h
    match row, h with
    | [], h => cases h; simp
    | [_], h => simp [parseRow] at h
    | [_, _], h => simp [parseRow] at h
    | x :: y :: z :: rest, h =>
      unfold parseRow at h
      split at h
      · exact ih _ _ _ h
      · simp only at h
        generalize (if Py.find Py.uppercase z ≥ (n : Int) then (-1 : Int) else Py.find Py.uppercase z) = so at h
        split at h
        · cases h
        · split at h
          · cases h
          · next hd =>
            split at h
            · cases h
            · rw [Option.map_eq_some_iff] at h
              obtain ⟨qs', h', rfl⟩ := h
              intro p hp
              rcases List.mem_cons.1 hp with rfl | hp
              · exact not_not.1 hd
              · exact ih _ _ _ h' p hp

theorem parseRows_dirs (n : Nat) (rows : List (List Char)) : ∀ (q : Nat) (qs : List (Quint Int Int)),
    parseRows n q rows = some qs → ∀ x ∈ qs, x.2.2.2.1 = 0 ∨ x.2.2.2.1 = 1 := by
  induction rows with
  | nil => intro q qs h; cases h; simp
  | cons r rows ih =>
    intro q qs h
    unfold parseRows at h
    split at h
    · next q1 q2 h1 h2 =>
      cases h
      intro x hx
      rcases List.mem_append.1 hx with hx | hx
      · exact parseRow_dirs _ _ _ _ _ _ h1 x hx
      · exact ih _ _ h2 x hx
    · cases h

theorem parseTM_wf {s : List Char} {m : SM} (h : parseTM s = some m) : m.WF ∧ m.Moves := by
  unfold parseTM at h
  split at h
  · cases h
  · simp only at h
    split at h
    · cases h
    · next qs hq =>
      have hl : 0 < (Py.split '_' (Py.strip s)).length := List.length_pos_iff.2 (split_ne_nil _ _)
      obtain ⟨h1, -, -, h4⟩ := tmFromQuints_wf (by rw [length_irange]; exact hl) (by rw [length_irange]; omega) h
      exact ⟨h1, h4 (parseRows_dirs _ _ _ _ hq)⟩

/-! ## The unpacker -/

theorem unpackLoop_dirs (bs : List Nat) : ∀ (st : Int) (sym : Option Nat) (qs : List (Quint Int Int)) st' sym' qs',
    (∀ x ∈ qs, x.2.2.2.1 = 0 ∨ x.2.2.2.1 = 1) → (sym ≠ none → 0 ≤ st) → -1 ≤ st → (∀ a, sym = some a → 0 < a) →
    unpackLoop bs st sym qs = some (st', sym', qs') →
    (∀ x ∈ qs', x.2.2.2.1 = 0 ∨ x.2.2.2.1 = 1) ∧ (sym' ≠ none → 0 ≤ st') ∧ (∀ a, sym' = some a → 0 < a) := by
  induction bs with
  | nil =>
    intro st sym qs st' sym' qs' h1 h2 h3 h4 h
    unfold unpackLoop at h
    cases h
    exact ⟨h1, h2, h4⟩
  | cons b bs ih =>
    intro st sym qs st' sym' qs' h1 h2 h3 h4 h
    unfold unpackLoop at h
    generalize hu : unpackTransInts b = u at h
    obtain ⟨symbol, dir, stt, new⟩ := u
    have hdir : dir = 0 ∨ dir = 1 := by
      have : dir = ((b >>> 6 &&& 1 : Nat) : Int) := by
        have := congrArg (·.2.1) hu
        exact this.symm
      rw [this]
      have : b >>> 6 &&& 1 ≤ 1 := Nat.and_le_right
      omega
    simp only at h
    split at h
    · cases h
    · next a ha =>
      have hst : 0 ≤ (if new = true then st + 1 else st) := by
        cases new with
        | true => simp only [if_true]; omega
        | false =>
          simp only [Bool.false_eq_true, if_false] at ha ⊢
          exact h2 (by rw [ha]; simp)
      refine ih _ _ _ _ _ _ ?_ (fun _ => hst) (by omega) (by intro a' ha'; cases ha'; omega) h
      split
      · intro x hx
        rcases List.mem_append.1 hx with hx | hx
        · exact h1 x hx
        · rw [List.mem_singleton] at hx
          subst hx
          exact hdir
      · exact h1

theorem unpackTM_wf {b : List Nat} {m : SM} (h : unpackTM b = some m) : m.WF ∧ m.Moves := by
  unfold unpackTM at h
  split at h
  · cases h
  · cases h
  · next st sym qs hl =>
    obtain ⟨h1, h2, h3⟩ := unpackLoop_dirs b _ _ _ _ _ _ (by simp) (by simp) (by omega) (by simp) hl
    have := h2 (by simp)
    have := h3 _ rfl
    obtain ⟨w1, -, -, w4⟩ := tmFromQuints_wf (by rw [length_irange]; omega) (by rw [length_irange]; omega) h
    exact ⟨w1, w4 h1⟩

/-! ## The list message reader -/

theorem rowQuints_replicate (q a k : Nat) (t : BTrans) :
    rowQuints q a (List.replicate k t) = ((List.range' a k).map fun a => cellQuint q a t).flatten := by
  induction k generalizing a with
  | zero => rfl
  | succ k ih =>
    rw [List.replicate_succ, List.range'_succ, List.map_cons, List.flatten_cons, ← ih]
    rfl

theorem tableQuints_replicate (q n : Nat) (r : List BTrans) :
    tableQuints q (List.replicate n r) = ((List.range' q n).map fun q => rowQuints q 0 r).flatten := by
  induction n generalizing q with
  | zero => rfl
  | succ n ih =>
    rw [List.replicate_succ, List.range'_succ, List.map_cons, List.flatten_cons, ← ih]
    rfl

theorem mapO_none {α β : Type} {f : α → Option β} {l : List α} {x : α} (hx : x ∈ l) (h : f x = none) :
    Py.mapO f l = none := by
  induction l with
  | nil => simp at hx
  | cons y l ih =>
    unfold Py.mapO
    rcases List.mem_cons.1 hx with rfl | hx
    · rw [h]
    · rw [ih hx]
      cases f y <;> rfl

theorem table_replicate (n k : Nat) (t : BTrans) {q a : Nat} (hq : q < n) (ha : a < k) :
    ({ rows := List.replicate n (List.replicate k t), nStates := n, nSyms := k } : SM).table q a = t.instr := by
  unfold SM.table
  simp [hq, ha]

theorem tmFromList_const {l : TMList} {m : SM} (hn : 0 < l.nStates) (hk : 0 < l.nSyms) (h : tmFromList l = some m) :
    ∃ t, m = { rows := List.replicate l.nStates.toNat (List.replicate l.nSyms.toNat t)
               nStates := l.nStates.toNat, nSyms := l.nSyms.toNat } ∧
      ∃ w d s rest, l.ttable = w :: d :: s :: rest := by
  obtain ⟨n, k, tt⟩ := l
  simp only at hn hk
  unfold tmFromList at h
  simp only at h
  obtain ⟨n, rfl⟩ := Int.eq_ofNat_of_zero_le hn.le
  obtain ⟨k, rfl⟩ := Int.eq_ofNat_of_zero_le hk.le
  simp only [Int.toNat_natCast] at h ⊢
  have hn' : 0 < n := by omega
  have hk' : 0 < k := by omega
  have h3 : ∃ w d s rest, tt = w :: d :: s :: rest := by
    by_contra hc
    have hno : ∀ q a, listQuint { nStates := (n : Int), nSyms := (k : Int), ttable := tt } q a = none := by
      intro q a
      unfold listQuint
      simp only
      match tt, hc with
      | [], _ => rfl
      | [_], _ => rfl
      | [_, _], _ => rfl
      | w :: d :: s :: rest, hc => exact absurd ⟨w, d, s, rest, rfl⟩ hc
    split at h
    · cases h
    · next quints hq =>
      obtain ⟨n, rfl⟩ : ∃ n', n = n' + 1 := ⟨n - 1, by omega⟩
      obtain ⟨k, rfl⟩ : ∃ k', k = k' + 1 := ⟨k - 1, by omega⟩
      rw [mapO_none (x := 0) (List.mem_range.2 (by omega)) (by
        rw [mapO_none (x := 0) (List.mem_range.2 (by omega)) (hno _ _)]; rfl)] at hq
      cases hq
  suffices hh : ∃ t, m = { rows := List.replicate n (List.replicate k t), nStates := n, nSyms := k } by
    obtain ⟨t, ht⟩ := hh
    exact ⟨t, ht, h3⟩
  obtain ⟨w, d, s, rest, rfl⟩ := h3
  have hq : ∀ q a, listQuint { nStates := (n : Int), nSyms := (k : Int), ttable := w :: d :: s :: rest } q a =
      some (if w ≠ -1 then [((q : Int), (a : Int), some w, d, haltOr s)] else []) := fun q a => rfl
  have hm : Py.mapO (fun q => (Py.mapO (fun a => listQuint
      { nStates := (n : Int), nSyms := (k : Int), ttable := w :: d :: s :: rest } q a) (List.range k)).map List.flatten)
      (List.range n) = some ((List.range n).map fun (q : Nat) => ((List.range k).map fun (a : Nat) =>
        if w ≠ -1 then [((q : Int), (a : Int), some w, d, haltOr s)] else []).flatten) :=
    mapO_eq_some fun q _ => by
      rw [mapO_eq_some (fun a _ => hq q a)]
      rfl
  rw [hm] at h
  simp only at h
  by_cases hw : w = -1
  · subst hw
    have hflat : ((List.range n).map fun (q : Nat) => ((List.range k).map fun (a : Nat) =>
      if (-1 : Int) ≠ -1 then [((q : Int), (a : Int), some (-1 : Int), d, haltOr s)] else []).flatten).flatten = [] := by
      simp
    rw [hflat] at h
    refine ⟨undefTrans, ?_⟩
    unfold tmFromQuints fillQuints at h
    simp only [length_irange, Option.map_some, Option.some.injEq] at h
    rw [← h]
    simp
  · simp only [ne_eq, hw, not_false_eq_true, if_true] at h
    -- the first quintuple gives the bounds
    obtain ⟨t, ht, htq⟩ : ∃ t : BTrans, t.WF n k ∧ t.cond ≠ .undefined ∧ t.sym = w ∧ t.dir = d ∧
        haltOr t.st = haltOr s := by
      unfold tmFromQuints at h
      rw [Option.map_eq_some_iff] at h
      obtain ⟨tt, htt, -⟩ := h
      obtain ⟨n, rfl⟩ : ∃ n', n = n' + 1 := ⟨n - 1, by omega⟩
      obtain ⟨k, rfl⟩ : ∃ k', k = k' + 1 := ⟨k - 1, by omega⟩
      rw [List.range_succ_eq_map (n := n), List.range_succ_eq_map (n := k)] at htt
      simp only [List.map_cons, List.flatten_cons, List.cons_append] at htt
      unfold fillQuints at htt
      simp only [idxOf_irange] at htt
      split at htt
      · next i j kk h1 h2 h3 =>
        split at h3
        · next hwb =>
          cases h3
          split at htt
          · cases htt
          · next tr htr =>
            unfold haltOr at htr
            split at htr
            · next hs =>
              refine ⟨{ cond := .halt, sym := w, dir := d, st := -1 }, ⟨hwb.1, hwb.2, rfl⟩, by simp, rfl, rfl, ?_⟩
              rw [hs]
            · next hs =>
              unfold quintTrans at htr
              simp only [idxOf_irange] at htr
              split at htr
              · cases htr
              · next i' hi' =>
                split at hi'
                · next hsb =>
                  exact ⟨{ cond := .running, sym := w, dir := d, st := s }, ⟨hwb.1, hwb.2, hsb.1, hsb.2⟩, by simp, rfl, rfl, rfl⟩
                · cases hi'
        · cases h3
      · cases htt
    obtain ⟨hc, rfl, rfl, hst⟩ := htq
    refine ⟨t, ?_⟩
    have hwf : ({ rows := List.replicate n (List.replicate k t), nStates := n, nSyms := k } : SM).WF := by
      refine ⟨hn', hk', by simp, ?_, ?_⟩
      · intro r hr; rw [List.eq_of_mem_replicate hr]; simp
      · intro r hr x hx
        rw [List.eq_of_mem_replicate hr] at hx
        rw [List.eq_of_mem_replicate hx]; exact ht
    have hq := tmFromQuints_table hwf
    simp only at hq
    rw [tableQuints_replicate] at hq
    have e : ((List.range' 0 n).map fun q => rowQuints q 0 (List.replicate k t)) =
        (List.range n).map fun (q : Nat) => ((List.range k).map fun (a : Nat) =>
          [((q : Int), (a : Int), some t.sym, t.dir, haltOr s)]).flatten := by
      rw [← List.range_eq_range']
      apply List.map_congr_left
      intro q _
      rw [rowQuints_replicate, ← List.range_eq_range']
      congr 1
      apply List.map_congr_left
      intro a _
      unfold cellQuint
      rw [if_neg hc, hst]
    rw [e] at hq
    rw [hq] at h
    cases h
    rfl

/-! ## bbchallenge -/

/-- the machine that the database reader returns: a halting transition that writes 0 becomes undefined -/
def bbcSeen (T : Table) : Table := fun q a =>
  match T q a with
  | .halt 0 _ => .undef
  | i => i

/-- what the reader makes of a cell -/
def bbcQuad (i : Instr) : Option Int × Int × Int :=
  match i with
  | .undef => (none, 0, 0)
  | .halt 0 _ => (none, 0, 0)
  | .halt (w + 1) d => (some ((w + 1 : Nat) : Int), if d = .L then 0 else 1, -1)
  | .go w d q => (some (w : Int), if d = .L then 0 else 1, q)

theorem bbcTrans_cell (i : Instr) : bbcTrans (Spec.bbcCell i) = some (bbcQuad i) := by
  cases i with
  | undef => rfl
  | halt w d =>
    cases w with
    | zero => cases d <;> rfl
    | succ w =>
      cases d <;> simp [Spec.bbcCell, bbcTrans, bbcQuad, Spec.dirBit] <;> omega
  | go w d q =>
    cases d <;> simp [Spec.bbcCell, bbcTrans, bbcQuad, Spec.dirBit]

theorem bbcCell_length (i : Instr) : (Spec.bbcCell i).length = 3 := by cases i <;> rfl

theorem bbcBytes_eq (T : Table) : Spec.bbcBytes T = Spec.bbcCell (T 0 0) ++ (Spec.bbcCell (T 0 1) ++
    (Spec.bbcCell (T 1 0) ++ (Spec.bbcCell (T 1 1) ++ (Spec.bbcCell (T 2 0) ++ (Spec.bbcCell (T 2 1) ++
    (Spec.bbcCell (T 3 0) ++ (Spec.bbcCell (T 3 1) ++ (Spec.bbcCell (T 4 0) ++ (Spec.bbcCell (T 4 1) ++ []))))))))) := by
  simp [Spec.bbcBytes, List.range_succ]

theorem bbcBytes_length (T : Table) : (Spec.bbcBytes T).length = 30 := by
  rw [bbcBytes_eq]; simp [bbcCell_length]

theorem drop_cell (i : Instr) (rest : List Nat) (n : Nat) : (Spec.bbcCell i ++ rest).drop (n + 3) = rest.drop n := by
  rw [Nat.add_comm, ← List.drop_drop, List.drop_left' (bbcCell_length i)]

theorem take_cell (i : Instr) (rest : List Nat) : (Spec.bbcCell i ++ rest).take 3 = Spec.bbcCell i :=
  List.take_left' (bbcCell_length i)

theorem fill_none (states symbols : List Int) (qs : List (Quint Int Int)) :
    ∀ t, fillQuints states symbols qs t = fillQuints states symbols (qs.filter (·.2.2.1.isSome)) t := by
  induction qs with
  | nil => intro t; rfl
  | cons x qs ih =>
    intro t
    obtain ⟨q, a, w, d, q'⟩ := x
    cases w with
    | none =>
      rw [List.filter_cons_of_neg (by simp)]
      unfold fillQuints
      simp only
      rw [ih]
      cases h : qs.filter (·.2.2.1.isSome) with
      | nil => rfl
      | cons y ys => rfl
    | some w =>
      rw [List.filter_cons_of_pos (by simp)]
      unfold fillQuints
      simp only
      split
      · split
        · rfl
        · exact ih _
      · rfl

theorem bbcSeen_quint (T : Table) (q a : Nat) :
    ([((q : Int), (a : Int), (bbcQuad (T q a)).1, (bbcQuad (T q a)).2.1, haltOr (bbcQuad (T q a)).2.2)] :
      List (Quint Int Int)).filter (·.2.2.1.isSome) = cellQuint q a (BTrans.ofInstr (bbcSeen T q a)) := by
  unfold bbcSeen
  cases T q a with
  | undef => rfl
  | halt w d =>
    cases w with
    | zero => rfl
    | succ w => cases d <;> rfl
  | go w d q' => cases d <;> rfl

theorem bbcSeen_fits {T : Table} {n k : Nat} (h : Spec.Fits T n k) : Spec.Fits (bbcSeen T) n k := by
  intro q hq a ha
  have := h q hq a ha
  unfold bbcSeen
  cases hT : T q a with
  | undef => trivial
  | halt w d =>
    rw [hT] at this
    cases w with
    | zero => trivial
    | succ w => exact this
  | go w d q' => rw [hT] at this; exact this

theorem bbcUnpack_bytes {T : Table} (h : Spec.Fits T 5 2) :
    bbcUnpack (Spec.bbcBytes T) = some (SM.ofTable (bbcSeen T) 5 2) := by
  have hm : Py.mapO (fun i => bbcTrans (((Spec.bbcBytes T).drop (3 * i)).take 3)) (List.range 10) =
      some [bbcQuad (T 0 0), bbcQuad (T 0 1), bbcQuad (T 1 0), bbcQuad (T 1 1), bbcQuad (T 2 0), bbcQuad (T 2 1),
        bbcQuad (T 3 0), bbcQuad (T 3 1), bbcQuad (T 4 0), bbcQuad (T 4 1)] := by
    rw [bbcBytes_eq]
    have hr : List.range 10 = [0, 1, 2, 3, 4, 5, 6, 7, 8, 9] := rfl
    rw [hr]
    simp only [Py.mapO, Nat.mul_zero, Nat.mul_one, Nat.reduceMul, List.drop_zero, take_cell, bbcTrans_cell,
      drop_cell _ _ 0, drop_cell _ _ 3, drop_cell _ _ 6, drop_cell _ _ 9, drop_cell _ _ 12, drop_cell _ _ 15,
      drop_cell _ _ 18, drop_cell _ _ 21, drop_cell _ _ 24]
  unfold bbcUnpack
  rw [hm]
  simp only
  have hq := tmFromQuints_table (ofTable_wf (by omega) (by omega) (bbcSeen_fits h)).1
  unfold tmFromQuints at hq ⊢
  rw [fill_none]
  refine Eq.trans ?_ hq
  congr 2
  have hfl : ∀ (x y : Quint Int Int) (l : List (Quint Int Int)),
    (x :: y :: l).filter (·.2.2.1.isSome) = [x].filter (·.2.2.1.isSome) ++ (y :: l).filter (·.2.2.1.isSome) := by
    intro x y l
    rw [← List.filter_append]; rfl
  have ht : tableQuints 0 (SM.ofTable (bbcSeen T) 5 2).rows =
      cellQuint 0 0 (BTrans.ofInstr (bbcSeen T 0 0)) ++ (cellQuint 0 1 (BTrans.ofInstr (bbcSeen T 0 1)) ++
      (cellQuint 1 0 (BTrans.ofInstr (bbcSeen T 1 0)) ++ (cellQuint 1 1 (BTrans.ofInstr (bbcSeen T 1 1)) ++
      (cellQuint 2 0 (BTrans.ofInstr (bbcSeen T 2 0)) ++ (cellQuint 2 1 (BTrans.ofInstr (bbcSeen T 2 1)) ++
      (cellQuint 3 0 (BTrans.ofInstr (bbcSeen T 3 0)) ++ (cellQuint 3 1 (BTrans.ofInstr (bbcSeen T 3 1)) ++
      (cellQuint 4 0 (BTrans.ofInstr (bbcSeen T 4 0)) ++ (cellQuint 4 1 (BTrans.ofInstr (bbcSeen T 4 1)) ++ []))))))))) := by
    simp [SM.ofTable, List.range_succ, tableQuints, rowQuints]
  rw [ht]
  simp only [List.zipIdx_cons, List.zipIdx_nil, List.map_cons, List.map_nil]
  iterate 9 rw [hfl]
  simp only [← bbcSeen_quint, List.append_nil]

theorem mkRecord_small {m : SM} (hw : m.WF) (hd : m.Moves) (hn : m.nStates ≤ 7) (hk : m.nSyms ≤ 7) :
    ∃ p, mkRecord m = some (p, m) := by
  obtain ⟨p', m', h1, h2, -, h4⟩ := writeTM_ok hw hd ⟨by omega, by omega⟩ (fun _ r hr t ht hu => by
    have := wf_sym (hw.cells r hr t ht) hu
    omega) { ttable := .unset, allowNoHalt := false }
  obtain ⟨rfl, -⟩ := h4 ⟨hn, by omega⟩
  exact ⟨p', h1⟩

theorem bbcRead_at {T : Table} (h : Spec.Fits T 5 2) (pre rest : List Nat) :
    bbcRead (pre ++ (Spec.bbcBytes T ++ rest)) pre.length = .got (SM.ofTable (bbcSeen T) 5 2) (pre.length + 30) := by
  unfold bbcRead
  rw [fread_append, List.take_left' (bbcBytes_length T)]
  have hl := bbcBytes_length T
  have hw := ofTable_wf (T := bbcSeen T) (n := 5) (k := 2) (by omega) (by omega) (bbcSeen_fits h)
  obtain ⟨p, hp⟩ := mkRecord_small hw.1 hw.2 (by simp [SM.ofTable]) (by simp [SM.ofTable])
  simp only
  rw [if_neg (by intro hc; rw [hc] at hl; simp at hl), if_neg (by simp [hl]), bbcUnpack_bytes h]
  simp only
  rw [hp]
  simp only [hl]

theorem bbc_prefix {Ts : List Table} : ∀ n, n ≤ Ts.length →
    (((Ts.take n).map Spec.bbcBytes).flatten).length = 30 * n := by
  intro n hn
  rw [flatten_length_const (k := 30)]
  · simp only [List.length_map, List.length_take]
    rw [Nat.min_eq_left hn]
    omega
  · intro l hl
    obtain ⟨T, -, rfl⟩ := List.mem_map.1 hl
    exact bbcBytes_length T

theorem bbcRead_end (pre : List Nat) : bbcRead pre pre.length = .eof := by
  have := fread_append pre [] 30
  rw [List.append_nil] at this
  unfold bbcRead
  rw [this]
  simp

end Model.IO

namespace Model.IO
open Spec (Dir Instr Table)

/-! ## Whole text files -/

theorem textFile (rs : List TextRec) (h : ∀ r ∈ rs, r.OK) :
    ∃ s ms, writeText rs = some s ∧ ms.length = rs.length ∧
      (∀ (i : Nat) (hi : i < rs.length) (hi' : i < ms.length), rs[i].m.Same ms[i] ∧
        (rs[i].m.nStates ≤ 7 ∧ rs[i].m.nSyms ≤ 8 → ms[i] = rs[i].m)) ∧
      (∀ fuel, rs.length < fuel → readAllText fuel s = some ms) ∧ ∀ n, loadText n s = some ms[n]? := by
  induction rs with
  | nil =>
    refine ⟨[], [], rfl, rfl, ?_, ?_, ?_⟩
    · intro i hi; simp at hi
    · intro fuel hf
      cases fuel with
      | zero => simp at hf
      | succ fuel => rfl
    · intro n
      induction n with
      | zero => rfl
      | succ n ih =>
        show loadText n [] = _
        rw [ih]; rfl
  | cons r rs ih =>
    obtain ⟨s1, m1, w1, hne, hsame, hsm, hread⟩ := readText_write (h r (by simp))
    obtain ⟨s, ms, hw, hlen, hms, hall, hload⟩ := ih (fun x hx => h x (List.mem_cons_of_mem _ hx))
    refine ⟨s1 ++ s, m1 :: ms, ?_, by simp [hlen], ?_, ?_, ?_⟩
    · unfold writeText at hw ⊢
      rw [Option.map_eq_some_iff] at hw
      obtain ⟨l, hl, rfl⟩ := hw
      unfold Py.mapO
      rw [w1, hl]
      rfl
    · intro i hi hi'
      cases i with
      | zero => exact ⟨hsame, hsm⟩
      | succ i => exact hms i (by simpa using hi) (by simpa using hi')
    · intro fuel hf
      cases fuel with
      | zero => simp at hf
      | succ fuel =>
        unfold readAllText
        rw [(hread s).2]
        simp only
        rw [hall fuel (by simpa using hf)]
        rfl
    · intro n
      cases n with
      | zero =>
        unfold loadText
        rw [(hread s).2]
        rfl
      | succ n =>
        unfold loadText
        rw [(hread s).1, hload]
        simp

/-! ## The whole database -/

theorem bbcAll_spec (Ts : List Table) (h : ∀ T ∈ Ts, Spec.Fits T 5 2) : ∀ (pre : List Nat) (fuel : Nat), Ts.length < fuel →
    bbcAll (pre ++ (Ts.map Spec.bbcBytes).flatten) fuel pre.length =
      (Ts.map fun T => SM.ofTable (bbcSeen T) 5 2, .eof) := by
  induction Ts with
  | nil =>
    intro pre fuel hf
    cases fuel with
    | zero => simp at hf
    | succ fuel =>
      unfold bbcAll
      simp only [List.map_nil, List.flatten_nil, List.append_nil]
      rw [bbcRead_end]
  | cons T Ts ih =>
    intro pre fuel hf
    cases fuel with
    | zero => simp at hf
    | succ fuel =>
      unfold bbcAll
      simp only [List.map_cons, List.flatten_cons]
      rw [bbcRead_at (h T (by simp))]
      simp only
      have := ih (fun T hT => h T (List.mem_cons_of_mem _ hT)) (pre ++ Spec.bbcBytes T) fuel (by simpa using hf)
      rw [List.append_assoc, List.length_append, bbcBytes_length] at this
      rw [this]

theorem bbcGet_spec (Ts : List Table) (h : ∀ T ∈ Ts, Spec.Fits T 5 2) (hdr : List Nat) (hh : hdr.length = 30) (n : Nat) :
    (∀ hn : n < Ts.length, bbcGet (hdr ++ (Ts.map Spec.bbcBytes).flatten) n =
      .got (SM.ofTable (bbcSeen Ts[n]) 5 2) (30 + (n + 1) * 30)) ∧
    (Ts.length ≤ n → bbcGet (hdr ++ (Ts.map Spec.bbcBytes).flatten) n = .eof) := by
  constructor
  · intro hn
    unfold bbcGet
    have e : (Ts.map Spec.bbcBytes).flatten = ((Ts.take n).map Spec.bbcBytes).flatten ++
        (Spec.bbcBytes Ts[n] ++ ((Ts.drop (n + 1)).map Spec.bbcBytes).flatten) := by
      conv_lhs => rw [← List.take_append_drop n Ts]
      rw [List.map_append, List.flatten_append, List.drop_eq_getElem_cons hn, List.map_cons, List.flatten_cons]
    have hp := bbc_prefix (Ts := Ts) n hn.le
    have hl : 30 + n * 30 = (hdr ++ ((Ts.take n).map Spec.bbcBytes).flatten).length := by
      rw [List.length_append, hp, hh]; omega
    rw [e, ← List.append_assoc, hl, bbcRead_at (h _ (List.getElem_mem hn)), ← hl]
    congr 1
    omega
  · intro hn
    unfold bbcGet bbcRead
    have hp := bbc_prefix (Ts := Ts) Ts.length (le_refl _)
    rw [List.take_length] at hp
    have : fread (hdr ++ (Ts.map Spec.bbcBytes).flatten) (30 + n * 30) 30 = ([], 30 + n * 30) := by
      unfold fread
      rw [List.drop_eq_nil_of_le (by rw [List.length_append, hp, hh]; omega)]
      simp
    rw [this]
    simp

theorem bbcLoad_eq (data : List Nat) (n : Nat) : bbcLoad data n = bbcGet data n := by
  unfold bbcLoad bbcGet
  congr 1
  have : ∀ (l : List Nat) p, l.foldl (fun pos _ => (bbcSkip pos).2) p = p + l.length * 30 := by
    intro l
    induction l with
    | nil => intro p; simp
    | cons x l ih =>
      intro p
      rw [List.foldl_cons, ih]
      simp only [bbcSkip, List.length_cons]
      omega
  rw [this]
  simp

end Model.IO

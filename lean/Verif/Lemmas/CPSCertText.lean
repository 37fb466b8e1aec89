import Verif.Lemmas.CPSCertInv

/-!
# Reading the printed certificate
-/

namespace Model.CPS
open Spec Spec.CPSCert

theorem digit_facts : ∀ a : Nat, a < 10 → Nat.toDigits 10 a = [Nat.digitChar a] ∧
    "0123456789".toList.idxOf? (Nat.digitChar a) = some a ∧ Nat.digitChar a ∉ ['<', '>', ' '] := by decide

theorem name_facts : ∀ q : Nat, q < 70 → ∃ ch ∈ Model.Print.STATES[q]?,
    Spec.Print.stateNames.idxOf? ch = some q ∧ ch ∉ ['<', '>', ' '] := by
  decide +kernel

theorem blockStr_cons (a : Nat) (b : List Nat) : blockStr (a :: b) = Nat.toDigits 10 a ++ blockStr b := rfl

theorem blockStr_digits {b : List Nat} (h : Digit b) : ∀ c ∈ blockStr b, c ∉ ['<', '>', ' '] := by
  intro c hc
  unfold blockStr at hc
  rw [List.mem_flatMap] at hc
  obtain ⟨a, ha, hc⟩ := hc
  obtain ⟨h1, -, h3⟩ := digit_facts a (h a ha)
  rw [h1, List.mem_singleton] at hc
  rw [hc]; exact h3

theorem readBlock_str {b : List Nat} (h : Digit b) : readBlock (blockStr b) = some b := by
  induction b with
  | nil => rfl
  | cons a b ih =>
    have ih := ih (fun x hx => h x (List.mem_cons_of_mem _ hx))
    obtain ⟨h1, h2, -⟩ := digit_facts a (h a List.mem_cons_self)
    unfold readBlock at ih ⊢
    rw [blockStr_cons, h1, List.singleton_append, List.mapM_cons, h2, ih]
    rfl

theorem isDigit_facts (c : Char) (h : c.isDigit = true) :
    "0123456789".toList.idxOf? c = some (c.toNat - '0'.toNat) ∧ c ∉ ['<', '>', ' '] := by
  have h1 : 48 ≤ c.toNat ∧ c.toNat ≤ 57 := by
    simp only [Char.isDigit, Bool.and_eq_true, decide_eq_true_eq] at h
    exact ⟨h.1, h.2⟩
  obtain ⟨n, hn, rfl⟩ : ∃ n, n < 10 ∧ c = Char.ofNat (48 + n) :=
    ⟨c.toNat - 48, by omega, by rw [show 48 + (c.toNat - 48) = c.toNat by omega, Char.ofNat_toNat]⟩
  have : ∀ n < 10, "0123456789".toList.idxOf? (Char.ofNat (48 + n)) = some ((Char.ofNat (48 + n)).toNat - '0'.toNat) ∧
      Char.ofNat (48 + n) ∉ ['<', '>', ' '] := by decide
  exact this n hn

theorem readBlock_all {l : List Char} (h : ∀ c ∈ l, c.isDigit = true) :
    readBlock l = some (l.map fun c => c.toNat - '0'.toNat) := by
  induction l with
  | nil => rfl
  | cons c l ih =>
    have ih := ih (fun x hx => h x (List.mem_cons_of_mem _ hx))
    unfold readBlock at ih ⊢
    rw [List.mapM_cons, (isDigit_facts c (h c List.mem_cons_self)).1, ih]
    rfl

theorem readNumber_digits (n : Nat) : readNumber (Nat.toDigits 10 n) = some n := by
  unfold readNumber
  rw [readBlock_all (fun c hc => Nat.isDigit_of_mem_toDigits (by decide) (by decide) hc), Option.map_some,
    List.foldl_map, ← Nat.ofDigitChars_eq_foldl, Nat.ofDigitChars_toDigits (by decide) (by decide)]

theorem digits_space (n : Nat) : ' ' ∉ Nat.toDigits 10 n := by
  intro h
  have := (isDigit_facts ' ' (Nat.isDigit_of_mem_toDigits (by decide) (by decide) h)).2
  simp at this

/-! ## Windows -/

/-- where the window is cut -/
def Cfg.cut (c : Cfg Nat (Option Nat)) : Nat := (match c.dir with | .R => c.pos | .L => c.pos + 1).toNat

def Cfg.win (c : Cfg Nat (Option Nat)) : Window :=
  ⟨c.window.take c.cut, c.st.getD 0, c.dir, c.window.drop c.cut⟩

theorem slice_take {xs : List Nat} {i : Int} (h0 : 0 ≤ i) (h1 : i ≤ xs.length) :
    pySlice xs 0 i = xs.take i.toNat := by
  have := slice_nat xs (s := 0) (e := i.toNat) (by omega) (by omega)
  rw [show ((i.toNat : Nat) : Int) = i by omega] at this
  simpa using this

theorem slice_drop {xs : List Nat} {i : Int} (h0 : 0 ≤ i) (h1 : i ≤ xs.length) :
    pySlice xs i xs.length = xs.drop i.toNat := by
  have := slice_nat xs (s := i.toNat) (e := xs.length) (by omega) (by omega)
  rw [show ((i.toNat : Nat) : Int) = i by omega] at this
  rw [this, List.take_of_length_le (by rw [List.length_drop])]

theorem text_read {w : Nat} {c : Cfg Nat (Option Nat)} (h : CertC w c) :
    ∃ t, c.text = some t ∧ ' ' ∉ t ∧ readWindow t = some c.win := by
  obtain ⟨q, hq, hq70⟩ := h.st
  obtain ⟨ch, hch, hidx, hpl⟩ := name_facts q hq70
  have hch : Model.Print.STATES[q]? = some ch := hch
  have hlen := h.len
  have hlo := h.lo
  have hhi := h.hi
  have hL : Digit (c.window.take c.cut) := fun a ha => h.sym a (List.mem_of_mem_take ha)
  have hR : Digit (c.window.drop c.cut) := fun a ha => h.sym a (List.mem_of_mem_drop ha)
  have hL' := blockStr_digits hL
  have hR' := blockStr_digits hR
  have rL := readBlock_str hL
  have rR := readBlock_str hR
  simp only [List.mem_cons, List.not_mem_nil, or_false, not_or] at hL' hR' hpl
  cases hd : c.dir with
  | L =>
    have e1 : pySlice c.window 0 (c.pos + 1) = c.window.take c.cut := by
      rw [slice_take (by omega) (by omega)]; simp only [Cfg.cut, hd]
    have e2 : pySlice c.window (c.pos + 1) c.window.length = c.window.drop c.cut := by
      rw [slice_drop (by omega) (by omega)]; simp only [Cfg.cut, hd]
    refine ⟨_, by unfold Cfg.text; rw [hq]; simp only [stateStr, hch, hd, e1, e2]; rfl, ?_, ?_⟩
    · intro hm
      rcases List.mem_append.1 hm with hm | hm
      · exact (hL' _ hm).2.2 rfl
      · rcases List.mem_cons.1 hm with hm | hm
        · exact absurd hm (by decide)
        · rcases List.mem_cons.1 hm with hm | hm
          · exact hpl.2.2 hm.symm
          · exact (hR' _ hm).2.2 rfl
    · unfold readWindow
      rw [List.span_eq_takeWhile_dropWhile, List.takeWhile_append_of_pos (by
        intro a ha; simpa using ⟨(hL' a ha).1, (hL' a ha).2.1⟩), List.dropWhile_append_of_pos (by
        intro a ha; simpa using ⟨(hL' a ha).1, (hL' a ha).2.1⟩)]
      simp [rL, rR, hidx, Cfg.win, hq, hd]
  | R =>
    have e1 : pySlice c.window 0 c.pos = c.window.take c.cut := by
      rw [slice_take (by omega) (by omega)]; simp only [Cfg.cut, hd]
    have e2 : pySlice c.window c.pos c.window.length = c.window.drop c.cut := by
      rw [slice_drop (by omega) (by omega)]; simp only [Cfg.cut, hd]
    refine ⟨_, by unfold Cfg.text; rw [hq]; simp only [stateStr, hch, hd, e1, e2]; rfl, ?_, ?_⟩
    · intro hm
      rcases List.mem_append.1 hm with hm | hm
      · exact (hL' _ hm).2.2 rfl
      · rcases List.mem_cons.1 hm with hm | hm
        · exact hpl.2.2 hm.symm
        · rcases List.mem_cons.1 hm with hm | hm
          · exact absurd hm (by decide)
          · exact (hR' _ hm).2.2 rfl
    · unfold readWindow
      rw [show ∀ (a b : List Char), a ++ ch :: '>' :: b = (a ++ [ch]) ++ '>' :: b by simp]
      have hall : ∀ a ∈ blockStr (c.window.take c.cut) ++ [ch], decide (a ≠ '<' ∧ a ≠ '>') = true := by
        intro a ha
        rcases List.mem_append.1 ha with ha | ha
        · simpa using ⟨(hL' a ha).1, (hL' a ha).2.1⟩
        · rw [List.mem_singleton.1 ha]; simpa using ⟨hpl.1, hpl.2.1⟩
      rw [List.span_eq_takeWhile_dropWhile, List.takeWhile_append_of_pos hall, List.dropWhile_append_of_pos hall]
      simp [rL, rR, hidx, Cfg.win, hq, hd]

/-! ## Lists -/

theorem mem_insertBy {α : Type} (le : α → α → Bool) (x y : α) (l : List α) : y ∈ insertBy le x l ↔ y = x ∨ y ∈ l := by
  induction l with
  | nil => simp [insertBy]
  | cons z l ih =>
    unfold insertBy
    split
    · simp
    · simp only [List.mem_cons, ih]; tauto

theorem mem_sortBy {α : Type} (le : α → α → Bool) (y : α) (l : List α) : y ∈ sortBy le l ↔ y ∈ l := by
  induction l with
  | nil => simp [sortBy]
  | cons x l ih => simp [sortBy, mem_insertBy, ih]

theorem mapO_mem {α β : Type} (f : α → Option β) (l : List α) (h : ∀ x ∈ l, ∃ y, f x = some y) :
    ∃ ys, Py.mapO f l = some ys ∧ ∀ y, y ∈ ys ↔ ∃ x ∈ l, f x = some y := by
  induction l with
  | nil => exact ⟨[], rfl, by simp⟩
  | cons x l ih =>
    obtain ⟨y, hy⟩ := h x List.mem_cons_self
    obtain ⟨ys, h1, h2⟩ := ih (fun z hz => h z (List.mem_cons_of_mem _ hz))
    refine ⟨y :: ys, by simp [Py.mapO, hy, h1], fun z => ?_⟩
    simp only [List.mem_cons, h2, exists_eq_or_imp, hy, Option.some.injEq]
    exact or_congr ⟨Eq.symm, Eq.symm⟩ Iff.rfl

theorem mapM_mem {α β : Type} (f : α → Option β) (l : List α) (h : ∀ x ∈ l, ∃ y, f x = some y) :
    ∃ ys, l.mapM f = some ys ∧ ∀ y, y ∈ ys ↔ ∃ x ∈ l, f x = some y := by
  induction l with
  | nil => exact ⟨[], rfl, by simp⟩
  | cons x l ih =>
    obtain ⟨y, hy⟩ := h x List.mem_cons_self
    obtain ⟨ys, h1, h2⟩ := ih (fun z hz => h z (List.mem_cons_of_mem _ hz))
    refine ⟨y :: ys, by rw [List.mapM_cons, hy, h1]; rfl, fun z => ?_⟩
    simp only [List.mem_cons, h2, exists_eq_or_imp, hy, Option.some.injEq]
    exact or_congr ⟨Eq.symm, Eq.symm⟩ Iff.rfl

theorem mapO_length {α β : Type} (f : α → Option β) (l : List α) (ys : List β) (h : Py.mapO f l = some ys) :
    ys.length = l.length := by
  induction l generalizing ys with
  | nil => cases h; rfl
  | cons x l ih =>
    unfold Py.mapO at h
    cases hx : f x with
    | none => simp [hx] at h
    | some y =>
      cases hl : Py.mapO f l with
      | none => simp [hx, hl] at h
      | some zs =>
        simp only [hx, hl, Option.some.injEq] at h
        subst h
        simp [ih zs hl]

theorem mapM_length {α β : Type} (f : α → Option β) (l : List α) (ys : List β) (h : l.mapM f = some ys) :
    ys.length = l.length := by
  induction l generalizing ys with
  | nil => cases h; rfl
  | cons x l ih =>
    rw [List.mapM_cons] at h
    cases hx : f x with
    | none => simp [hx] at h
    | some y =>
      cases hl : l.mapM f with
      | none => simp [hx, hl] at h
      | some zs =>
        simp only [hx, hl, Option.pure_def, Option.bind_eq_bind, Option.bind_some, Option.some.injEq] at h
        subst h
        simp [ih zs hl]

theorem sortBy_length {α : Type} (le : α → α → Bool) (l : List α) : (sortBy le l).length = l.length := by
  have ins : ∀ (x : α) (l : List α), (insertBy le x l).length = l.length + 1 := by
    intro x l
    induction l with
    | nil => rfl
    | cons y l ih => unfold insertBy; split <;> simp [ih]
  induction l with
  | nil => rfl
  | cons x l ih => rw [sortBy, ins, ih, List.length_cons]

/-- the words of a list of edges -/
def edgeWords (es : List (List Nat × List Nat)) : List (List Char) := es.flatMap fun e => [blockStr e.1, blockStr e.2]

theorem split_edges {es : List (List Nat × List Nat)} (hne : es ≠ []) (h : ∀ e ∈ es, Digit e.1 ∧ Digit e.2)
    (rest : List Char) : (edgesStr es ++ ' ' :: rest).splitOn ' ' = edgeWords es ++ rest.splitOn ' ' := by
  have nosp : ∀ {b : List Nat}, Digit b → ' ' ∉ blockStr b := fun hb hm => by
    have := blockStr_digits hb _ hm
    simp at this
  induction es with
  | nil => exact absurd rfl hne
  | cons e es ih =>
    obtain ⟨h1, h2⟩ := h e List.mem_cons_self
    cases es with
    | nil =>
      show ((blockStr e.1 ++ ' ' :: blockStr e.2) ++ ' ' :: rest).splitOn ' ' = _
      rw [List.append_assoc, List.cons_append, List.splitOn_append_cons_self_of_not_mem (nosp h1),
        List.splitOn_append_cons_self_of_not_mem (nosp h2)]
      rfl
    | cons e' es =>
      have := ih (by simp) (fun x hx => h x (List.mem_cons_of_mem _ hx))
      show (((blockStr e.1 ++ ' ' :: blockStr e.2) ++ ' ' :: edgesStr (e' :: es)) ++ ' ' :: rest).splitOn ' ' = _
      rw [List.append_assoc, List.append_assoc, List.cons_append, List.cons_append,
        List.splitOn_append_cons_self_of_not_mem (nosp h1), List.splitOn_append_cons_self_of_not_mem (nosp h2), this]
      rfl

theorem split_words {ws : List (List Char)} (hne : ws ≠ []) (h : ∀ x ∈ ws, ' ' ∉ x) :
    (Py.join ' ' ws).splitOn ' ' = ws := by
  induction ws with
  | nil => exact absurd rfl hne
  | cons x ws ih =>
    cases ws with
    | nil => exact List.splitOn_eq_singleton (h x List.mem_cons_self)
    | cons y ws =>
      show (x ++ ' ' :: Py.join ' ' (y :: ws)).splitOn ' ' = _
      rw [List.splitOn_append_cons_self_of_not_mem (h x List.mem_cons_self), ih (by simp)
        (fun z hz => h z (List.mem_cons_of_mem _ hz))]

theorem readPairs_words (es : List (List Nat × List Nat)) (h : ∀ e ∈ es, Digit e.1 ∧ Digit e.2)
    (rest : List (List Char)) : readPairs es.length (edgeWords es ++ rest) = some (es, rest) := by
  induction es with
  | nil => rfl
  | cons e es ih =>
    obtain ⟨h1, h2⟩ := h e List.mem_cons_self
    have := ih (fun x hx => h x (List.mem_cons_of_mem _ hx))
    show readPairs (es.length + 1) (blockStr e.1 :: blockStr e.2 :: (edgeWords es ++ rest)) = _
    unfold readPairs
    rw [readBlock_str h1, readBlock_str h2, this]
    rfl

theorem mem_edgeList {k w : Nat} {g : G} (h : CertG k w g) (d : Dir) (src dst : List Nat) :
    (src, dst) ∈ g.edgeList d ↔ dst ∈ g.dsts d src := by
  unfold CGS.edgeList CGS.dsts
  rw [mem_sortBy, List.mem_flatMap]
  constructor
  · rintro ⟨⟨s, v⟩, he, hm⟩
    rw [List.mem_map] at hm
    obtain ⟨x, hx, hxe⟩ := hm
    simp only [Prod.mk.injEq] at hxe
    obtain ⟨rfl, rfl⟩ := hxe
    rw [(Py.mem_iff_dget (h.keys d) s v).1 he]
    exact hx
  · intro hm
    cases hg : Py.dget (g.cont d) src with
    | none => rw [hg] at hm; cases hm
    | some v =>
      rw [hg] at hm
      exact ⟨(src, v), (Py.mem_iff_dget (h.keys d) src v).2 hg, List.mem_map.2 ⟨dst, hm, rfl⟩⟩

theorem edgeList_digit {k w : Nat} {g : G} (h : CertG k w g) (d : Dir) :
    ∀ e ∈ g.edgeList d, Digit e.1 ∧ Digit e.2 := by
  intro e he
  unfold CGS.edgeList at he
  rw [mem_sortBy, List.mem_flatMap] at he
  obtain ⟨p, hp, hm⟩ := he
  obtain ⟨x, hx, rfl⟩ := List.mem_map.1 hm
  exact ⟨(h.cont d p hp).1, ((h.cont d p hp).2 x hx).1⟩

/-- the certificate is read as it was meant -/
theorem cert_read {T : Table} {k w : Nat} {g : G} (S : Success T k w g) :
    ∃ text C, savaskCert g true = some text ∧ readCert text = some C ∧
      C.left = g.edgeList .L ∧ C.right = g.edgeList .R ∧
      (∀ win, win ∈ C.windows ↔ ∃ e ∈ g.trans, e.1.win = win) ∧ C.windows.length = g.trans.length := by
  have hG := S.cert
  obtain ⟨ts, m1, m2⟩ := mapO_mem (fun e : Cfg Nat (Option Nat) × Trans (List Nat) (Option Nat) => e.1.text) g.trans
    (fun e he => by obtain ⟨t, h, -⟩ := text_read (hG.trans e he).1; exact ⟨t, h⟩)
  generalize hcs : sortBy (seqLe fun x y : Char => decide (x.toNat < y.toNat)) ts = cs
  have hct : g.configTexts = some cs := by unfold CGS.configTexts; rw [m1, Option.map_some, hcs]
  have hmem : ∀ t, t ∈ cs ↔ ∃ e ∈ g.trans, e.1.text = some t := fun t => by rw [← hcs, mem_sortBy, m2]
  have hread : ∀ t ∈ cs, ' ' ∉ t ∧ ∃ win, readWindow t = some win := by
    intro t ht
    obtain ⟨e, he, het⟩ := (hmem t).1 ht
    obtain ⟨t', h1, h2, h3⟩ := text_read (hG.trans e he).1
    rw [h1] at het; cases het
    exact ⟨h2, _, h3⟩
  obtain ⟨ws, n1, n2⟩ := mapM_mem readWindow cs (fun t ht => (hread t ht).2)
  have hcne : cs ≠ [] := by
    obtain ⟨t, ht⟩ := S.start
    unfold Py.dget at ht
    rw [Option.map_eq_some_iff] at ht
    obtain ⟨e, he, -⟩ := ht
    have he := List.mem_of_find?_eq_some he
    obtain ⟨t', h1, -⟩ := text_read (hG.trans e he).1
    intro h0
    have := (hmem t').2 ⟨e, he, h1⟩
    rw [h0] at this; cases this
  have hene : ∀ d, g.edgeList d ≠ [] := by
    intro d h0
    have := (mem_edgeList hG d _ _).2 (S.inv.blank d)
    rw [h0] at this; cases this
  refine ⟨_, ⟨g.edgeList .L, g.edgeList .R, ws⟩, by unfold savaskCert; rw [hct]; rfl, ?_, rfl, rfl, fun win => ?_, by
    show ws.length = _
    rw [mapM_length _ _ _ n1, ← hcs, sortBy_length, mapO_length _ _ _ m1]⟩
  · have hR : ("Result".toList : List Char) = ['R', 'e', 's', 'u', 'l', 't'] := by decide
    have hsp : ' ' ∉ ['R', 'e', 's', 'u', 'l', 't'] := by decide
    unfold readCert
    simp only [List.append_assoc, List.cons_append]
    rw [show ∀ x : List Char, 'R' :: 'e' :: 's' :: 'u' :: 'l' :: 't' :: ([] ++ ' ' :: x) =
      ['R', 'e', 's', 'u', 'l', 't'] ++ ' ' :: x from fun _ => rfl]
    rw [List.splitOn_append_cons_self_of_not_mem hsp, List.splitOn_append_cons_self_of_not_mem (digits_space _),
      split_edges (hene .L) (edgeList_digit hG .L), List.splitOn_append_cons_self_of_not_mem (digits_space _),
      split_edges (hene .R) (edgeList_digit hG .R), List.splitOn_append_cons_self_of_not_mem (digits_space _),
      split_words hcne (fun t ht => (hread t ht).1)]
    simp only
    rw [if_pos hR.symm]
    have r1 : ∀ d rest, readEdges (Nat.toDigits 10 (g.edgeList d).length :: (edgeWords (g.edgeList d) ++ rest)) =
        some (g.edgeList d, rest) := by
      intro d rest
      unfold readEdges
      simp only [readNumber_digits]
      exact readPairs_words _ (edgeList_digit hG d) rest
    have r2 : readWindows (Nat.toDigits 10 cs.length :: cs) = some ws := by
      unfold readWindows
      simp [readNumber_digits, n1]
    rw [r1]
    simp only [Option.bind_eq_bind, Option.bind_some]
    rw [r1]
    simp only [Option.bind_some]
    rw [r2]
    rfl
  · rw [n2]
    constructor
    · rintro ⟨t, ht, hw⟩
      obtain ⟨e, he, het⟩ := (hmem t).1 ht
      obtain ⟨t', h1, -, h3⟩ := text_read (hG.trans e he).1
      rw [h1] at het; cases het
      rw [hw] at h3
      exact ⟨e, he, (Option.some.inj h3).symm⟩
    · rintro ⟨e, he, rfl⟩
      obtain ⟨t', h1, -, h3⟩ := text_read (hG.trans e he).1
      exact ⟨t', (hmem t').2 ⟨e, he, h1⟩, h3⟩

end Model.CPS

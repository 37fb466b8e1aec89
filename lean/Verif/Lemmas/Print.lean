import Verif.Model.Print
import Verif.Spec.Print
import Verif.Lemmas.Table

/-!
# Lemmas about printed tables
-/

namespace Model.Print
open Model.IO Spec.Print

/-! ## Cells between bars -/

/-- cells, each with a bar after it -/
def bars (cells : List (List Char)) : List Char := (cells.map (· ++ ['|'])).flatten

theorem bars_cons (c : List Char) (cs : List (List Char)) : bars (c :: cs) = c ++ '|' :: bars cs := by
  simp [bars]

theorem splitOn_bars : ∀ (cells : List (List Char)), (∀ c ∈ cells, '|' ∉ c) → (bars cells).splitOn '|' = cells ++ [[]]
  | [], _ => by simp [bars]
  | c :: cs, h => by
    rw [bars_cons, List.splitOn_append_cons_self_of_not_mem (h c (by simp)), splitOn_bars cs fun x hx => h x (by simp [hx]),
      List.cons_append]

theorem flatten_bars (cells : List (List Char)) : (cells.map ('|' :: ·)).flatten ++ ['|'] = '|' :: bars cells := by
  induction cells with
  | nil => rfl
  | cons c cs ih =>
    rw [bars_cons, List.map_cons, List.flatten_cons, List.append_assoc, ih, List.cons_append]

theorem lineCells_bars (pre : List Char) (cells : List (List Char)) (hp : '|' ∉ pre) (h : ∀ c ∈ cells, '|' ∉ c) :
    lineCells (pre ++ '|' :: bars cells) = cells.map trim := by
  unfold lineCells
  rw [List.splitOn_append_cons_self_of_not_mem hp, splitOn_bars _ h, List.tail_cons, List.dropLast_concat]

theorem dropWhile_spaces (n : Nat) (w : List Char) (h : ' ' ∉ w) :
    (List.replicate n ' ' ++ w).dropWhile (· = ' ') = w := by
  rw [List.dropWhile_append_of_pos (fun x hx => by simp [List.eq_of_mem_replicate hx])]
  cases w with
  | nil => rfl
  | cons c w =>
    rw [List.dropWhile_cons_of_neg]
    simp only [List.mem_cons, not_or] at h
    simpa using fun hc => h.1 hc.symm

theorem trim_spaces (a b : Nat) (w : List Char) (h : ' ' ∉ w) :
    trim (List.replicate a ' ' ++ w ++ List.replicate b ' ') = w := by
  unfold trim
  rcases eq_or_ne w [] with rfl | hw
  · rw [List.append_nil, ← List.replicate_add]
    have := dropWhile_spaces (a + b) [] (by simp)
    rw [List.append_nil] at this
    rw [this]; rfl
  · have h1 : (List.replicate a ' ' ++ w ++ List.replicate b ' ').dropWhile (· = ' ') = w ++ List.replicate b ' ' := by
      rw [List.append_assoc, List.dropWhile_append_of_pos (fun x hx => by simp [List.eq_of_mem_replicate hx])]
      cases w with
      | nil => exact absurd rfl hw
      | cons c w =>
        rw [List.cons_append, List.dropWhile_cons_of_neg]
        simp only [List.mem_cons, not_or] at h
        simpa using fun hc => h.1 hc.symm
    rw [h1, List.reverse_append, List.reverse_replicate, dropWhile_spaces _ _ (by simpa using h), List.reverse_reverse]

/-! ## Lines -/

/-- lines, each with its newline -/
def unlines (ls : List (List Char)) : List Char := (ls.map (· ++ ['\n'])).flatten

theorem unlines_cons (l : List Char) (ls : List (List Char)) : unlines (l :: ls) = l ++ '\n' :: unlines ls := by
  simp [unlines]

theorem unlines_append (a b : List (List Char)) : unlines (a ++ b) = unlines a ++ unlines b := by
  simp [unlines]

theorem splitOn_unlines : ∀ (ls : List (List Char)), (∀ l ∈ ls, '\n' ∉ l) → (unlines ls).splitOn '\n' = ls ++ [[]]
  | [], _ => by simp [unlines]
  | l :: ls, h => by
    rw [unlines_cons, List.splitOn_append_cons_self_of_not_mem (h l (by simp)), splitOn_unlines ls fun x hx => h x (by simp [hx]),
      List.cons_append]

theorem tableCells_unlines (ls : List (List Char)) (h : ∀ l ∈ ls, '\n' ∉ l) :
    tableCells (unlines ls) = (ls.filter fun l => decide ('|' ∈ l)).map lineCells := by
  unfold tableCells
  rw [splitOn_unlines ls h, List.filter_append]
  simp

/-! ## Cells -/

/-- the transitions that have a printable text -/
structure CellOK (t : BTrans) : Prop where
  sym : t.cond ≠ .undefined → 0 ≤ t.sym ∧ t.sym ≤ 10
  dir : t.cond ≠ .undefined → t.dir = 0 ∨ t.dir = 1 ∨ t.dir = 2
  st : match t.cond with
    | .undefined => True
    | .halt => t.st = -1
    | .running => 0 ≤ t.st ∧ t.st < 70

theorem get_nat {α : Type} (l : List α) (i : Nat) : Py.get l (i : Int) = l[i]? := by
  unfold Py.get Py.pyIdx
  simp only [Int.natCast_nonneg, if_true, Int.toNat_natCast, Int.ofNat_lt]
  split
  · rfl
  · rw [Option.bind_none, eq_comm, List.getElem?_eq_none_iff]; omega

theorem nameAt_nat (l : List Char) (i : Nat) : nameAt l (i : Int) = (l[i]?).toList := by
  unfold nameAt
  simp

theorem states_name : ∀ q < 70, STATES[q]? = stateNames[q]? := by decide +kernel

theorem symbols_eq : SYMBOLS = symbolNames := by decide

theorem dirs_name : ∀ d < 3, DIRS[d]? = ['L', 'R', 'S'][d]? := by decide

/-- neither space nor bar nor newline -/
def plain (c : Char) : Prop := c ≠ ' ' ∧ c ≠ '|' ∧ c ≠ '\n'

instance (c : Char) : Decidable (plain c) := inferInstanceAs (Decidable (_ ∧ _))

theorem stateNames_plain : ∀ c ∈ stateNames, plain c := by decide +kernel
theorem symbolNames_plain : ∀ c ∈ symbolNames, plain c := by decide +kernel
theorem dirNames_plain : ∀ c ∈ ['L', 'R', 'S'], plain c := by decide

theorem name_some {l : List Char} {i : Nat} (h : i < l.length) : ∃ c ∈ l, l[i]? = some c :=
  ⟨l[i], List.getElem_mem h, List.getElem?_eq_getElem h⟩

theorem cellStr_ok {t : BTrans} (h : CellOK t) : cellStr t = some (cell t) ∧ (cell t).length = 3 ∧ ∀ c ∈ cell t, plain c := by
  obtain ⟨c, s, d, q⟩ := t
  obtain ⟨h1, h2, h3⟩ := h
  simp only at h1 h2 h3
  cases c with
  | undefined => exact ⟨rfl, rfl, (by decide : ∀ c ∈ ['-', '-', '-'], plain c)⟩
  | halt =>
    obtain ⟨s0, s1⟩ := h1 (by simp)
    obtain ⟨s, rfl⟩ := Int.eq_ofNat_of_zero_le s0
    obtain ⟨d, hd, rfl⟩ : ∃ n : Nat, n < 3 ∧ d = (n : Int) := by
      rcases h2 (by simp) with rfl | rfl | rfl
      · exact ⟨0, by decide, rfl⟩
      · exact ⟨1, by decide, rfl⟩
      · exact ⟨2, by decide, rfl⟩
    simp only at h3
    subst h3
    obtain ⟨x, hx, ex⟩ := name_some (l := symbolNames) (i := s) (by show s < 11; omega)
    obtain ⟨y, hy, ey⟩ := name_some (l := ['L', 'R', 'S']) (i := d) hd
    refine ⟨?_, ?_, ?_⟩
    · unfold cellStr cell
      rw [if_neg (by simp)]
      simp only
      rw [get_nat, get_nat, symbols_eq, ex, dirs_name d hd, ey, nameAt_nat, nameAt_nat, ex, ey]
      have : Py.get STATES (-1) = some 'Z' := by decide +kernel
      rw [this]
      rfl
    · unfold cell
      simp only
      rw [nameAt_nat, nameAt_nat, ex, ey]; rfl
    · unfold cell
      simp only
      rw [nameAt_nat, nameAt_nat, ex, ey]
      intro c hc
      simp at hc
      rcases hc with rfl | rfl | rfl
      · exact symbolNames_plain _ hx
      · exact dirNames_plain _ hy
      · decide
  | running =>
    obtain ⟨s0, s1⟩ := h1 (by simp)
    obtain ⟨s, rfl⟩ := Int.eq_ofNat_of_zero_le s0
    obtain ⟨d, hd, rfl⟩ : ∃ n : Nat, n < 3 ∧ d = (n : Int) := by
      rcases h2 (by simp) with rfl | rfl | rfl
      · exact ⟨0, by decide, rfl⟩
      · exact ⟨1, by decide, rfl⟩
      · exact ⟨2, by decide, rfl⟩
    simp only at h3
    obtain ⟨q, rfl⟩ := Int.eq_ofNat_of_zero_le h3.1
    obtain ⟨x, hx, ex⟩ := name_some (l := symbolNames) (i := s) (by show s < 11; omega)
    obtain ⟨y, hy, ey⟩ := name_some (l := ['L', 'R', 'S']) (i := d) hd
    have hl : stateNames.length = 70 := by decide +kernel
    obtain ⟨z, hz, ez⟩ := name_some (l := stateNames) (i := q) (by rw [hl]; omega)
    refine ⟨?_, ?_, ?_⟩
    · unfold cellStr cell
      rw [if_neg (by simp)]
      simp only
      rw [get_nat, get_nat, get_nat, symbols_eq, ex, dirs_name d hd, ey, states_name q (by omega), ez, nameAt_nat, nameAt_nat,
        nameAt_nat, ex, ey, ez]
      rfl
    · unfold cell
      simp only
      rw [nameAt_nat, nameAt_nat, nameAt_nat, ex, ey, ez]; rfl
    · unfold cell
      simp only
      rw [nameAt_nat, nameAt_nat, nameAt_nat, ex, ey, ez]
      intro c hc
      simp at hc
      rcases hc with rfl | rfl | rfl
      · exact symbolNames_plain _ hx
      · exact dirNames_plain _ hy
      · exact stateNames_plain _ hz

theorem cellOK_of {m : SM} (hw : m.WF) (hd : Dirs m) (hn : m.nStates ≤ 70)
    (hs : ∀ r ∈ m.rows, ∀ t ∈ r, t.cond ≠ .undefined → t.sym ≤ 10) : ∀ r ∈ m.rows, ∀ t ∈ r, CellOK t := by
  intro r hr t ht
  have hwf := hw.cells r hr t ht
  unfold BTrans.WF at hwf
  refine ⟨fun hu => ?_, hd r hr t ht, ?_⟩
  · refine ⟨?_, hs r hr t ht hu⟩
    cases hc : t.cond <;> rw [hc] at hwf <;> simp only at hwf
    · exact hwf.1
    · exact hwf.1
    · exact absurd hc hu
  · cases hc : t.cond <;> rw [hc] at hwf <;> simp only at hwf ⊢
    · exact ⟨hwf.2.2.1, by omega⟩
    · exact hwf.2.2

/-- two transitions with the same text -/
theorem cell_inj {t t' : BTrans} {n k n' k' : Nat} (h : t.WF n k) (h' : t'.WF n' k') (ho : CellOK t) (ho' : CellOK t')
    (hz : t.cond = .running → t.st ≠ 25) (hz' : t'.cond = .running → t'.st ≠ 25) (he : cell t = cell t') : t = t' := by
  have hsn : ∀ i < 11, ∀ j < 11, symbolNames[i]? = symbolNames[j]? → i = j := by decide +kernel
  have hqn : ∀ i < 70, ∀ j < 70, stateNames[i]? = stateNames[j]? → i = j := by
    intro i hi j hj hij
    have hnd : stateNames.Nodup := by decide +kernel
    have hl : stateNames.length = 70 := by decide +kernel
    exact (List.getElem?_inj (by omega) hnd).1 hij
  have hZ : stateNames[25]? = some 'Z' := by decide +kernel
  have hdash : ∀ d < 3, ['L', 'R', 'S'][d]? ≠ some '-' := by decide
  have hdn : ∀ i < 3, ∀ j < 3, ['L', 'R', 'S'][i]? = ['L', 'R', 'S'][j]? → i = j := by decide
  -- what a defined cell is
  have shape : ∀ {t : BTrans} {n k : Nat}, t.WF n k → CellOK t → t.cond ≠ .undefined → ∃ (s d q : Nat) (x y z : Char),
      t.sym = s ∧ s < 11 ∧ t.dir = d ∧ d < 3 ∧ symbolNames[s]? = some x ∧ ['L', 'R', 'S'][d]? = some y ∧ cell t = [x, y, z] ∧
      ((t.cond = .halt ∧ t.st = -1 ∧ z = 'Z') ∨ (t.cond = .running ∧ t.st = q ∧ q < 70 ∧ stateNames[q]? = some z)) := by
    intro t n k hwf ho hu
    obtain ⟨c, s, d, q⟩ := t
    obtain ⟨h1, h2, h3⟩ := ho
    simp only at h1 h2 h3 hu
    obtain ⟨s0, s1⟩ := h1 hu
    obtain ⟨s, rfl⟩ := Int.eq_ofNat_of_zero_le s0
    obtain ⟨d, hd, rfl⟩ : ∃ n : Nat, n < 3 ∧ d = (n : Int) := by
      rcases h2 hu with rfl | rfl | rfl
      · exact ⟨0, by decide, rfl⟩
      · exact ⟨1, by decide, rfl⟩
      · exact ⟨2, by decide, rfl⟩
    obtain ⟨x, hx, ex⟩ := name_some (l := symbolNames) (i := s) (by show s < 11; omega)
    obtain ⟨y, hy, ey⟩ := name_some (l := ['L', 'R', 'S']) (i := d) hd
    cases c with
    | undefined => exact absurd rfl hu
    | halt =>
      simp only at h3
      refine ⟨s, d, 0, x, y, 'Z', rfl, by omega, rfl, hd, ex, ey, ?_, Or.inl ⟨rfl, h3, rfl⟩⟩
      unfold cell
      simp only
      rw [nameAt_nat, nameAt_nat, ex, ey]; rfl
    | running =>
      simp only at h3
      obtain ⟨q, rfl⟩ := Int.eq_ofNat_of_zero_le h3.1
      have hl : stateNames.length = 70 := by decide +kernel
      obtain ⟨z, hz, ez⟩ := name_some (l := stateNames) (i := q) (by rw [hl]; omega)
      refine ⟨s, d, q, x, y, z, rfl, by omega, rfl, hd, ex, ey, ?_, Or.inr ⟨rfl, rfl, by omega, ez⟩⟩
      unfold cell
      simp only
      rw [nameAt_nat, nameAt_nat, nameAt_nat, ex, ey, ez]; rfl
  by_cases hu : t.cond = .undefined <;> by_cases hu' : t'.cond = .undefined
  · unfold BTrans.WF at h h'
    rw [hu] at h
    rw [hu'] at h'
    exact Eq.trans h h'.symm
  · exfalso
    obtain ⟨s, d, q, x, y, z, -, -, -, hd, -, ey, ec, -⟩ := shape h' ho' hu'
    have : cell t = ['-', '-', '-'] := by unfold cell; rw [hu]; rfl
    rw [this, ec] at he
    simp only [List.cons.injEq] at he
    exact hdash d hd (by rw [ey, he.2.1])
  · exfalso
    obtain ⟨s, d, q, x, y, z, -, -, -, hd, -, ey, ec, -⟩ := shape h ho hu
    have : cell t' = ['-', '-', '-'] := by unfold cell; rw [hu']; rfl
    rw [this, ec] at he
    simp only [List.cons.injEq] at he
    exact hdash d hd (by rw [ey, he.2.1])
  · obtain ⟨s, d, q, x, y, z, a1, a2, a3, a4, a5, a6, a7, a8⟩ := shape h ho hu
    obtain ⟨s', d', q', x', y', z', b1, b2, b3, b4, b5, b6, b7, b8⟩ := shape h' ho' hu'
    rw [a7, b7] at he
    simp only [List.cons.injEq, and_true] at he
    obtain ⟨rfl, rfl, rfl⟩ := he
    have e1 := hsn s a2 s' b2 (by rw [a5, b5])
    have e2 := hdn d a4 d' b4 (by rw [a6, b6])
    have e3 : t.cond = t'.cond ∧ t.st = t'.st := by
      rcases a8 with ⟨c1, c2, c3⟩ | ⟨c1, c2, c3, c4⟩ <;> rcases b8 with ⟨c1', c2', c3'⟩ | ⟨c1', c2', c3', c4'⟩
      · exact ⟨by rw [c1, c1'], by rw [c2, c2']⟩
      · exfalso
        have := hqn q' c3' 25 (by omega) (by rw [c4', hZ, c3])
        exact hz' c1' (by rw [c2', this]; rfl)
      · exfalso
        have := hqn q c3 25 (by omega) (by rw [c4, hZ, c3'])
        exact hz c1 (by rw [c2, this]; rfl)
      · have := hqn q c3 q' c3' (by rw [c4, c4'])
        exact ⟨by rw [c1, c1'], by rw [c2, c2', this]⟩
    obtain ⟨c, s1, d1, q1⟩ := t
    obtain ⟨c', s1', d1', q1'⟩ := t'
    simp only at a1 a3 b1 b3 e3
    obtain ⟨rfl, rfl⟩ := e3
    rw [a1, b1, a3, b3, e1, e2]

/-! ## The lines of the two texts -/

theorem map_range_mapIdx {α β : Type} (l : List α) (g : Nat → β) (f : Nat → α → β)
    (h : ∀ q x, l[q]? = some x → g q = f q x) : (List.range l.length).map g = l.mapIdx f := by
  apply List.ext_getElem
  · simp
  · intro i h1 h2
    simp only [List.getElem_map, List.getElem_range, List.getElem_mapIdx]
    exact h _ _ (List.getElem?_eq_getElem _)

theorem map_mapIdx' {α β γ : Type} (l : List α) (f : Nat → α → β) (g : β → γ) :
    (l.mapIdx f).map g = l.mapIdx fun i x => g (f i x) := by
  apply List.ext_getElem
  · simp
  · intro i h1 h2
    simp

/-- the name of a state -/
theorem state_get {q : Nat} (h : q < 70) : ∃ c, Py.get STATES q = some c ∧ nameAt stateNames q = [c] ∧ plain c := by
  have hl : stateNames.length = 70 := by decide +kernel
  obtain ⟨c, hc, e⟩ := name_some (l := stateNames) (i := q) (by omega)
  exact ⟨c, by rw [get_nat, states_name q h, e], by rw [nameAt_nat, e]; rfl, stateNames_plain _ hc⟩

/-- a cell with spaces -/
def pad (a b : Nat) (w : List Char) : List Char := List.replicate a ' ' ++ w ++ List.replicate b ' '

/-- a line of the markdown table -/
def mdLine (cells : List (List Char)) : List Char := '|' :: bars cells

/-- the cells of a row with their spaces -/
def rowCells' (a : Nat) (q : Nat) (r : List BTrans) : List (List Char) :=
  pad a a (nameAt stateNames q) :: r.map fun t => pad 1 1 (cell t)

/-- the lines of the markdown table -/
def mdLines (m : SM) : List (List Char) :=
  mdLine (pad 5 0 [] :: (columns m.nSyms).map (pad 2 2)) :: mdLine (List.replicate (m.nSyms + 1) (pad 1 1 ":-:".toList)) ::
    m.rows.mapIdx fun q r => mdLine (rowCells' 2 q r)

theorem mapO_row {r : List BTrans} (h : ∀ t ∈ r, CellOK t) (f : List Char → List Char) :
    Py.mapO (fun a => ((r[a]?).bind cellStr).map f) (List.range r.length) = some (r.map fun t => f (cell t)) := by
  have hne : ∀ a ∈ List.range r.length, ((r[a]?).bind cellStr).map f =
      some (match r[a]? with | some t => f (cell t) | none => []) := by
    intro a ha
    rw [List.mem_range] at ha
    rw [List.getElem?_eq_getElem ha, Option.bind_some, (cellStr_ok (h _ (List.getElem_mem ha))).1]
    rfl
  rw [mapO_eq_some hne]
  congr 1
  apply List.ext_getElem
  · simp
  · intro i h1 h2
    simp only [List.length_map, List.length_range] at h1
    simp [List.getElem?_eq_getElem h1]

theorem toMarkdown_lines {m : SM} (hw : m.WF) (hn : m.nStates ≤ 70) (hc : ∀ r ∈ m.rows, ∀ t ∈ r, CellOK t) :
    toMarkdown m = some (unlines (mdLines m)) := by
  have hrow : ∀ q ∈ List.range m.nStates, mdRow m q =
      some (match m.rows[q]? with | some r => mdLine (rowCells' 2 q r) ++ ['\n'] | none => []) := by
    intro q hq
    rw [List.mem_range, ← hw.height] at hq
    obtain ⟨c, h1, h2, -⟩ := state_get (q := q) (by rw [hw.height] at hq; omega)
    unfold mdRow
    have hr := List.getElem?_eq_getElem hq
    rw [h1, hr]
    have := mapO_row (hc _ (List.getElem_mem hq)) (fun s => [' '] ++ s ++ [' ', '|'])
    rw [hw.width _ (List.getElem_mem hq)] at this
    simp only [Option.bind_some]
    rw [this]
    simp only
    unfold mdLine rowCells' bars pad
    rw [h2]
    simp [Function.comp_def]
  unfold toMarkdown
  rw [mapO_eq_some hrow, Option.map_some]
  congr 1
  have e1 : ((List.range m.nStates).map fun q => match m.rows[q]? with
      | some r => mdLine (rowCells' 2 q r) ++ ['\n'] | none => []) = (m.rows.mapIdx fun q r => mdLine (rowCells' 2 q r) ++ ['\n']) := by
    rw [← hw.height]
    exact map_range_mapIdx _ _ _ fun q x h => by simp [h]
  have e2 : times "| :-: ".toList (m.nSyms + 1) ++ "|\n".toList =
      mdLine (List.replicate (m.nSyms + 1) (pad 1 1 ":-:".toList)) ++ ['\n'] := by
    unfold mdLine times
    rw [← flatten_bars, List.map_replicate]
    have : '|' :: pad 1 1 ":-:".toList = "| :-: ".toList := by decide
    rw [this, List.append_assoc]
    rfl
  have e3 : "|     |".toList ++ ((List.range m.nSyms).map fun a => "  ".toList ++ Nat.toDigits 10 a ++ "  |".toList).flatten =
      mdLine (pad 5 0 [] :: (columns m.nSyms).map (pad 2 2)) := by
    unfold mdLine bars columns pad
    simp [Function.comp_def]
  rw [e1]
  unfold mdLines
  rw [unlines_cons, unlines_cons, ← e3]
  have e4 : unlines (m.rows.mapIdx fun q r => mdLine (rowCells' 2 q r)) =
      (m.rows.mapIdx fun q r => mdLine (rowCells' 2 q r) ++ ['\n']).flatten := by
    unfold unlines
    rw [map_mapIdx']
  rw [e4]
  have e5 : ∀ (a b c : List Char), a ++ ['\n'] ++ times "| :-: ".toList (m.nSyms + 1) ++ "|\n".toList ++ c =
      a ++ '\n' :: (mdLine (List.replicate (m.nSyms + 1) (pad 1 1 ":-:".toList)) ++ '\n' :: c) := by
    intro a b c
    rw [List.append_assoc _ (times _ _), e2]
    simp
  exact e5 _ [] _

theorem pad_not_mem {c : Char} (hc : c ≠ ' ') {a b : Nat} {w : List Char} (h : c ∉ w) : c ∉ pad a b w := by
  unfold pad
  simp only [List.mem_append, not_or, List.mem_replicate, not_and]
  exact ⟨⟨fun _ => hc, h⟩, fun _ => hc⟩

theorem bars_not_mem {c : Char} (hc : c ≠ '|') {cells : List (List Char)} (h : ∀ x ∈ cells, c ∉ x) : c ∉ bars cells := by
  induction cells with
  | nil => simp [bars]
  | cons x xs ih =>
    rw [bars_cons]
    simp only [List.mem_append, List.mem_cons, not_or]
    exact ⟨h x (by simp), hc, ih fun y hy => h y (by simp [hy])⟩

theorem trim_pad {a b : Nat} {w : List Char} (h : ' ' ∉ w) : trim (pad a b w) = w := trim_spaces a b w h

theorem digits_plain (n : Nat) : ∀ c ∈ Nat.toDigits 10 n, plain c := by
  intro c hc
  have := Nat.isDigit_of_mem_toDigits (by decide) (by decide) hc
  refine ⟨?_, ?_, ?_⟩ <;> rintro rfl <;> exact absurd this (by decide)

/-- cells that can stand between bars -/
def Good (cells : List (List Char)) : Prop := ∀ w ∈ cells, ∀ c ∈ w, plain c

theorem good_columns (k : Nat) : Good (columns k) := by
  intro w hw
  unfold columns at hw
  obtain ⟨a, -, rfl⟩ := List.mem_map.1 hw
  exact digits_plain a

theorem good_row {q : Nat} (hq : q < 70) {r : List BTrans} (h : ∀ t ∈ r, CellOK t) :
    Good (nameAt stateNames q :: r.map cell) := by
  intro w hw
  rcases List.mem_cons.1 hw with rfl | hw
  · obtain ⟨c, -, h2, h3⟩ := state_get hq
    rw [h2]; simpa using h3
  · obtain ⟨t, ht, rfl⟩ := List.mem_map.1 hw
    exact (cellStr_ok (h t ht)).2.2

/-- what is read from a line of padded cells -/
theorem line_read (pre : List Char) (hp : '|' ∉ pre) (hp' : '\n' ∉ pre) (cells padded : List (List Char)) (hg : Good cells)
    (h : List.Forall₂ (fun w p => ∃ a b, p = pad a b w) cells padded) :
    lineCells (pre ++ '|' :: bars padded) = cells ∧ '\n' ∉ pre ++ '|' :: bars padded := by
  have key : ∀ c, c = '|' ∨ c = '\n' → ∀ p ∈ padded, c ∉ p := by
    intro c hc p hpm
    obtain ⟨i, hi, rfl⟩ := List.getElem_of_mem hpm
    have hl := h.length_eq
    obtain ⟨a, b, e⟩ := (List.forall₂_iff_get.1 h).2 i (by omega) hi
    simp only [List.get_eq_getElem] at e
    rw [e]
    refine pad_not_mem (by rcases hc with rfl | rfl <;> decide) fun hcm => ?_
    have := hg _ (List.getElem_mem (show i < cells.length by omega)) c hcm
    rcases hc with rfl | rfl
    · exact this.2.1 rfl
    · exact this.2.2 rfl
  constructor
  · rw [lineCells_bars pre padded hp (key '|' (Or.inl rfl))]
    clear key
    induction h with
    | nil => rfl
    | cons hab _ ih =>
      rename_i w p ws ps h1
      obtain ⟨a, b, rfl⟩ := hab
      rw [List.map_cons, trim_pad fun hc => (hg w (by simp) _ hc).1 rfl, ih fun x hx => hg x (by simp [hx])]
  · simp only [List.mem_append, List.mem_cons, not_or]
    exact ⟨hp', by decide, bars_not_mem (by decide) (key '\n' (Or.inr rfl))⟩

theorem forall2_pads (cells : List (List Char)) (a b : Nat) :
    List.Forall₂ (fun w p => ∃ a b, p = pad a b w) cells (cells.map (pad a b)) := by
  induction cells with
  | nil => exact .nil
  | cons w ws ih => exact .cons ⟨a, b, rfl⟩ ih

theorem forall2_row (a q : Nat) (r : List BTrans) :
    List.Forall₂ (fun w p => ∃ a b, p = pad a b w) (nameAt stateNames q :: r.map cell) (rowCells' a q r) := by
  refine .cons ⟨a, a, rfl⟩ ?_
  have := forall2_pads (r.map cell) 1 1
  rwa [List.map_map] at this

theorem toMarkdown_cells {m : SM} (hw : m.WF) (hn : m.nStates ≤ 70) (hc : ∀ r ∈ m.rows, ∀ t ∈ r, CellOK t) :
    tableCells (unlines (mdLines m)) =
      ([] :: columns m.nSyms) :: List.replicate (m.nSyms + 1) ":-:".toList :: rows m := by
  have h1 := line_read [] (by simp) (by simp) ([] :: columns m.nSyms) (pad 5 0 [] :: (columns m.nSyms).map (pad 2 2))
    (by
      intro w hw
      rcases List.mem_cons.1 hw with rfl | hw
      · simp
      · exact good_columns _ w hw)
    (.cons ⟨5, 0, rfl⟩ (forall2_pads _ 2 2))
  have h2 := line_read [] (by simp) (by simp) (List.replicate (m.nSyms + 1) ":-:".toList)
    (List.replicate (m.nSyms + 1) (pad 1 1 ":-:".toList))
    (by
      intro w hw
      rw [List.eq_of_mem_replicate hw]
      decide)
    (by
      have := forall2_pads (List.replicate (m.nSyms + 1) ":-:".toList) 1 1
      rwa [List.map_replicate] at this)
  have h3 : ∀ q (hq : q < m.rows.length), lineCells (mdLine (rowCells' 2 q m.rows[q])) = nameAt stateNames q :: m.rows[q].map cell ∧
      '\n' ∉ mdLine (rowCells' 2 q m.rows[q]) := by
    intro q hq
    exact line_read [] (by simp) (by simp) _ _ (good_row (by rw [hw.height] at hq; omega) (hc _ (List.getElem_mem hq)))
      (forall2_row 2 q _)
  have hbar : ∀ l ∈ mdLines m, '|' ∈ l := by
    intro l hl
    unfold mdLines at hl
    rcases List.mem_cons.1 hl with rfl | hl
    · simp [mdLine]
    rcases List.mem_cons.1 hl with rfl | hl
    · simp [mdLine]
    obtain ⟨i, hi, rfl⟩ := List.getElem_of_mem hl
    simp [mdLine]
  rw [tableCells_unlines]
  · rw [List.filter_eq_self.2 fun l hl => by simpa using hbar l hl]
    unfold mdLines
    rw [List.map_cons, List.map_cons]
    unfold mdLine
    rw [show ∀ x, lineCells ('|' :: bars x) = lineCells ([] ++ '|' :: bars x) from fun _ => rfl, h1.1]
    rw [show ∀ x, lineCells ('|' :: bars x) = lineCells ([] ++ '|' :: bars x) from fun _ => rfl, h2.1]
    congr 2
    unfold rows
    rw [map_mapIdx']
    apply List.ext_getElem
    · simp
    · intro i hi hi'
      simp only [List.length_mapIdx] at hi
      simp only [List.getElem_mapIdx]
      exact (h3 i hi).1
  · intro l hl
    unfold mdLines at hl
    rcases List.mem_cons.1 hl with rfl | hl
    · exact h1.2
    rcases List.mem_cons.1 hl with rfl | hl
    · exact h2.2
    obtain ⟨i, hi, rfl⟩ := List.getElem_of_mem hl
    simp only [List.length_mapIdx] at hi
    simp only [List.getElem_mapIdx]
    exact (h3 i hi).2

/-! ## The box -/

/-- a line between rows -/
def ruleLine (start : List Char) (k : Nat) : List Char := start ++ times "+-----".toList k ++ ['+']

/-- the line of a row -/
def boxLine (q : Nat) (r : List BTrans) : List Char := "   ".toList ++ '|' :: bars (rowCells' 1 q r)

/-- the lines of the rows -/
def boxBody (k : Nat) : Nat → List (List BTrans) → List (List Char)
  | _, [] => []
  | q, r :: rs => boxLine q r :: ruleLine "   +---".toList k :: boxBody k (q + 1) rs

/-- the lines of the box -/
def boxLines (k : Nat) (rs : List (List BTrans)) : List (List Char) :=
  [] :: "Transition table:".toList :: [] :: ruleLine "       ".toList k ::
    ("       ".toList ++ '|' :: bars ((columns k).map (pad 2 2))) :: ruleLine "   +---".toList k :: (boxBody k 0 rs ++ [[]])

theorem boxRow_ok {q : Nat} (hq : q < 70) {r : List BTrans} (h : ∀ t ∈ r, CellOK t) :
    boxRow q r = some (boxLine q r ++ ['\n']) := by
  obtain ⟨c, h1, h2, -⟩ := state_get hq
  unfold boxRow
  rw [h1, mapO_eq_some (g := fun t => ['|', ' '] ++ cell t ++ [' ']) fun t ht => by rw [(cellStr_ok (h t ht)).1]; rfl]
  simp only
  unfold boxLine rowCells'
  rw [h2, bars_cons]
  have := flatten_bars (r.map fun t => pad 1 1 (cell t))
  rw [List.map_map] at this
  have e : '|' :: bars (r.map fun t => pad 1 1 (cell t)) = (r.map fun t => ['|', ' '] ++ cell t ++ [' ']).flatten ++ ['|'] := by
    rw [← this]
    congr 2
  rw [e]
  simp [pad]

theorem boxRule_eq (s : List Char) (k : Nat) : boxRule s k = ruleLine s k ++ ['\n'] := by
  unfold boxRule ruleLine
  rw [List.append_assoc _ ['+']]
  rfl

theorem boxRows_ok (k : Nat) (rs : List (List BTrans)) : ∀ (q : Nat), q + rs.length ≤ 70 → (∀ r ∈ rs, ∀ t ∈ r, CellOK t) →
    boxRows k q rs = some (unlines (boxBody k q rs)) := by
  induction rs with
  | nil => intro _ _ _; rfl
  | cons r rs ih =>
    intro q hq h
    rw [List.length_cons] at hq
    have h1 : boxRow q r = some (boxLine q r ++ ['\n']) := boxRow_ok (by omega) (h r (by simp))
    have h2 : boxRows k (q + 1) rs = some (unlines (boxBody k (q + 1) rs)) := ih (q + 1) (by omega) fun x hx => h x (by simp [hx])
    show (match boxRow q r, boxRows k (q + 1) rs with
      | some s, some r => some (s ++ boxRule "   +---".toList k ++ r)
      | _, _ => none) = some (unlines (boxLine q r :: ruleLine "   +---".toList k :: boxBody k (q + 1) rs))
    rw [h1, h2, unlines_cons, unlines_cons]
    simp only
    rw [boxRule_eq]
    simp

theorem toBox_lines {m : SM} (hw : m.WF) (hn : m.nStates ≤ 70) (hc : ∀ r ∈ m.rows, ∀ t ∈ r, CellOK t) :
    toBox m = some (unlines (boxLines m.nSyms m.rows)) := by
  have h0 : 0 < m.rows.length := by rw [hw.height]; exact hw.states
  unfold toBox
  rw [List.getElem?_eq_getElem h0]
  simp only
  rw [hw.width _ (List.getElem_mem h0), boxRows_ok _ _ _ (by rw [hw.height]; omega) hc, Option.map_some]
  congr 1
  unfold boxLines
  simp only [unlines_cons, unlines_append, boxRule_eq]
  have e : ((List.range m.nSyms).map fun j => "|  ".toList ++ Nat.toDigits 10 j ++ "  ".toList).flatten ++ "|\n".toList =
      '|' :: bars ((columns m.nSyms).map (pad 2 2)) ++ ['\n'] := by
    rw [← flatten_bars, List.append_assoc]
    unfold columns
    rw [List.map_map, List.map_map]
    congr 2
  have e2 : ∀ (a b c d : List Char), a ++ b ++ "       ".toList ++ ((List.range m.nSyms).map fun j =>
      "|  ".toList ++ Nat.toDigits 10 j ++ "  ".toList).flatten ++ "|\n".toList ++ c ++ d ++ ['\n'] =
      a ++ b ++ "       ".toList ++ ('|' :: bars ((columns m.nSyms).map (pad 2 2)) ++ ['\n']) ++ c ++ d ++ ['\n'] := by
    intro a b c d
    rw [← e]
    simp only [List.append_assoc]
  rw [e2]
  have e3 : "\nTransition table:\n\n".toList = '\n' :: ("Transition table:".toList ++ ['\n', '\n']) := by decide
  rw [e3]
  simp [unlines]

theorem filter_bar {l : List Char} (h : '|' ∈ l) (ls : List (List Char)) :
    (l :: ls).filter (fun l => decide ('|' ∈ l)) = l :: ls.filter (fun l => decide ('|' ∈ l)) :=
  List.filter_cons_of_pos (by simpa using h)

theorem filter_no_bar {l : List Char} (h : '|' ∉ l) (ls : List (List Char)) :
    (l :: ls).filter (fun l => decide ('|' ∈ l)) = ls.filter (fun l => decide ('|' ∈ l)) :=
  List.filter_cons_of_neg (by simpa using h)

/-- the lines of the box that have bars -/
theorem box_filter (k : Nat) : ∀ (rs : List (List BTrans)) (q : Nat),
    (boxBody k q rs).filter (fun l => decide ('|' ∈ l)) = rs.mapIdx fun i r => boxLine (q + i) r
  | [], _ => rfl
  | r :: rs, q => by
    have h1 : '|' ∈ boxLine q r := by unfold boxLine; simp
    have h2 : '|' ∉ ruleLine "   +---".toList k := by
      unfold ruleLine times
      simp
    unfold boxBody
    rw [List.filter_cons_of_pos (by simpa using h1), List.filter_cons_of_neg (by simpa using h2), box_filter k rs (q + 1),
      List.mapIdx_cons]
    congr 2
    funext i x
    congr 1
    omega

theorem rule_no_bar (s : List Char) (hs : '|' ∉ s) (k : Nat) : '|' ∉ ruleLine s k := by
  unfold ruleLine times
  simp [hs]

theorem rule_no_newline (s : List Char) (hs : '\n' ∉ s) (k : Nat) : '\n' ∉ ruleLine s k := by
  unfold ruleLine times
  simp [hs]

theorem mem_boxBody {k : Nat} : ∀ {rs : List (List BTrans)} {q : Nat} {l : List Char}, l ∈ boxBody k q rs →
    l = ruleLine "   +---".toList k ∨ ∃ i, ∃ h : i < rs.length, l = boxLine (q + i) rs[i]
  | [], _, _, h => by simp [boxBody] at h
  | r :: rs, q, l, h => by
    unfold boxBody at h
    rcases List.mem_cons.1 h with rfl | h
    · exact Or.inr ⟨0, by simp, rfl⟩
    rcases List.mem_cons.1 h with rfl | h
    · exact Or.inl rfl
    rcases mem_boxBody h with h | ⟨i, hi, rfl⟩
    · exact Or.inl h
    · refine Or.inr ⟨i + 1, by simpa using hi, ?_⟩
      rw [show q + 1 + i = q + (i + 1) by omega]
      rfl

theorem toBox_no_newline {m : SM} (hw : m.WF) (hn : m.nStates ≤ 70) (hc : ∀ r ∈ m.rows, ∀ t ∈ r, CellOK t) :
    ∀ l ∈ boxLines m.nSyms m.rows, '\n' ∉ l := by
  intro l hl
  unfold boxLines at hl
  simp only [List.mem_cons, List.mem_append, List.not_mem_nil, or_false] at hl
  rcases hl with rfl | rfl | rfl | rfl | rfl | rfl | hl | rfl
  · simp
  · decide
  · simp
  · exact rule_no_newline _ (by decide) _
  · exact (line_read "       ".toList (by decide) (by decide) _ _ (good_columns _) (forall2_pads _ 2 2)).2
  · exact rule_no_newline _ (by decide) _
  · rcases mem_boxBody hl with rfl | ⟨i, hi, rfl⟩
    · exact rule_no_newline _ (by decide) _
    · exact (line_read "   ".toList (by decide) (by decide) _ _
        (good_row (by rw [hw.height] at hi; omega) (hc _ (List.getElem_mem hi))) (forall2_row 1 _ _)).2
  · simp

theorem toBox_cells {m : SM} (hw : m.WF) (hn : m.nStates ≤ 70) (hc : ∀ r ∈ m.rows, ∀ t ∈ r, CellOK t) :
    tableCells (unlines (boxLines m.nSyms m.rows)) = columns m.nSyms :: rows m := by
  rw [tableCells_unlines _ (toBox_no_newline hw hn hc)]
  unfold boxLines
  have hb : '|' ∈ "       ".toList ++ '|' :: bars ((columns m.nSyms).map (pad 2 2)) := by simp
  have n1 : '|' ∉ ([] : List Char) := by simp
  have n2 : '|' ∉ "Transition table:".toList := by decide
  have n3 := rule_no_bar "       ".toList (by decide) m.nSyms
  have n4 := rule_no_bar "   +---".toList (by decide) m.nSyms
  rw [filter_no_bar n1, filter_no_bar n2, filter_no_bar n1, filter_no_bar n3, filter_bar hb, filter_no_bar n4, List.filter_append,
    box_filter, filter_no_bar n1, List.filter_nil, List.append_nil, List.map_cons,
    (line_read "       ".toList (by decide) (by decide) _ _ (good_columns _) (forall2_pads _ 2 2)).1]
  congr 1
  unfold rows
  rw [map_mapIdx']
  apply List.ext_getElem
  · simp
  · intro i hi hi'
    simp only [List.length_mapIdx] at hi
    simp only [List.getElem_mapIdx, Nat.zero_add]
    exact (line_read "   ".toList (by decide) (by decide) _ _
        (good_row (by rw [hw.height] at hi; omega) (hc _ (List.getElem_mem hi))) (forall2_row 1 _ _)).1

theorem times_length (s : List Char) (k : Nat) : (times s k).length = s.length * k := by
  unfold times
  simp [Nat.mul_comm]

theorem bars_length {cells : List (List Char)} {n : Nat} (h : ∀ c ∈ cells, c.length = n) :
    (bars cells).length = (n + 1) * cells.length := by
  induction cells with
  | nil => rfl
  | cons c cs ih =>
    rw [bars_cons, List.length_append, List.length_cons, h c (by simp), ih fun x hx => h x (by simp [hx]), List.length_cons]
    ring

theorem pad_length (a b : Nat) (w : List Char) : (pad a b w).length = a + w.length + b := by
  simp [pad]
  omega

theorem box_aligned {m : SM} (hw : m.WF) (hn : m.nStates ≤ 70) (hk : m.nSyms ≤ 10) (hc : ∀ r ∈ m.rows, ∀ t ∈ r, CellOK t) :
    ∀ l ∈ boxLines m.nSyms m.rows, l = [] ∨ l = "Transition table:".toList ∨ l.length = 8 + 6 * m.nSyms := by
  have hrule : ∀ s : List Char, s.length = 7 → (ruleLine s m.nSyms).length = 8 + 6 * m.nSyms := by
    intro s hs
    unfold ruleLine
    rw [List.length_append, List.length_append, times_length, hs]
    simp
    omega
  intro l hl
  unfold boxLines at hl
  simp only [List.mem_cons, List.mem_append, List.not_mem_nil, or_false] at hl
  rcases hl with rfl | rfl | rfl | rfl | rfl | rfl | hl | rfl
  · exact Or.inl rfl
  · exact Or.inr (Or.inl rfl)
  · exact Or.inl rfl
  · exact Or.inr (Or.inr (hrule _ rfl))
  · refine Or.inr (Or.inr ?_)
    rw [List.length_append, List.length_cons, bars_length (n := 5)]
    · simp [columns]; omega
    · intro c h
      obtain ⟨w, hw', rfl⟩ := List.mem_map.1 h
      unfold columns at hw'
      obtain ⟨a, ha, rfl⟩ := List.mem_map.1 hw'
      rw [List.mem_range] at ha
      rw [pad_length]
      have : ∀ a < 10, (Nat.toDigits 10 a).length = 1 := by decide
      rw [this a (by omega)]
  · exact Or.inr (Or.inr (hrule _ rfl))
  · refine Or.inr (Or.inr ?_)
    rcases mem_boxBody hl with rfl | ⟨i, hi, rfl⟩
    · exact hrule _ rfl
    · unfold boxLine rowCells'
      obtain ⟨c, -, e, -⟩ := state_get (q := 0 + i) (by rw [hw.height] at hi; omega)
      rw [e, bars_cons, List.length_append, List.length_cons, List.length_append, List.length_cons, bars_length (n := 5)]
      · rw [List.length_map, hw.width _ (List.getElem_mem hi), pad_length]
        simp
        omega
      · intro w h
        obtain ⟨t, ht, rfl⟩ := List.mem_map.1 h
        rw [pad_length, (cellStr_ok (hc _ (List.getElem_mem hi) t ht)).2.1]
  · exact Or.inl rfl

/-! ## The table determines the machine -/

theorem rows_inj {m m' : SM} (hw : m.WF) (hw' : m'.WF) (hn : m.nStates ≤ 70) (hn' : m'.nStates ≤ 70)
    (hc : ∀ r ∈ m.rows, ∀ t ∈ r, CellOK t) (hc' : ∀ r ∈ m'.rows, ∀ t ∈ r, CellOK t) (hz : NoZ m) (hz' : NoZ m')
    (he : rows m = rows m') (hk : columns m.nSyms = columns m'.nSyms) : m = m' := by
  have hk' : m.nSyms = m'.nSyms := by
    have := congrArg List.length hk
    simpa [columns] using this
  have hl : m.rows.length = m'.rows.length := by
    have := congrArg List.length he
    simpa [rows] using this
  have hr : m.rows = m'.rows := by
    apply List.ext_getElem hl
    intro i hi hi'
    have h1 : (rows m)[i]? = (rows m')[i]? := by rw [he]
    unfold rows at h1
    rw [List.getElem?_mapIdx, List.getElem?_mapIdx, List.getElem?_eq_getElem hi, List.getElem?_eq_getElem hi'] at h1
    simp only [Option.map_some, Option.some.injEq, List.cons.injEq, true_and] at h1
    have hlen : m.rows[i].length = m'.rows[i].length := by
      have := congrArg List.length h1
      simpa using this
    apply List.ext_getElem hlen
    intro j hj hj'
    have h2 : (m.rows[i].map cell)[j]? = (m'.rows[i].map cell)[j]? := by rw [h1]
    rw [List.getElem?_map, List.getElem?_map, List.getElem?_eq_getElem hj, List.getElem?_eq_getElem hj'] at h2
    simp only [Option.map_some, Option.some.injEq] at h2
    have m1 := List.getElem_mem hi
    have m2 := List.getElem_mem hi'
    have t1 := List.getElem_mem hj
    have t2 := List.getElem_mem hj'
    exact cell_inj (hw.cells _ m1 _ t1) (hw'.cells _ m2 _ t2) (hc _ m1 _ t1) (hc' _ m2 _ t2) (hz _ m1 _ t1) (hz' _ m2 _ t2) h2
  have hs : m.nStates = m'.nStates := by rw [← hw.height, ← hw'.height, hl]
  obtain ⟨r, n, k⟩ := m
  obtain ⟨r', n', k'⟩ := m'
  simp only at hr hs hk'
  rw [hr, hs, hk']

end Model.Print

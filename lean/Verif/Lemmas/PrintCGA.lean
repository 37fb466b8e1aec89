import Verif.Lemmas.Print
import Verif.Lemmas.Morphett

/-!
# Lemmas about `IO_CGA_to_Morphett.py` and `Convert_Format.py`
-/

namespace Model.Print
open Model.IO Spec.Print Spec

/-! ## Words -/

theorem blank_space {c : Char} (h : blank c) : Py.isSpace c = true := by
  rcases h with rfl | rfl <;> decide

theorem words_lead (pre s : List Char) (h : ∀ c ∈ pre, Py.isSpace c = true) : Py.words (pre ++ s) = Py.words s := by
  induction pre with
  | nil => rfl
  | cons c pre ih =>
    have := ih fun x hx => h x (by simp [hx])
    rw [← this]
    unfold Py.words
    rw [List.cons_append]
    conv_lhs => unfold Py.wordsAux
    simp [h c (by simp)]

theorem words_cons_blank (w rest : List Char) (b : Char) (hb : Py.isSpace b = true) (hw : w ≠ []) (h : ∀ c ∈ w, Py.isSpace c = false) :
    Py.words (w ++ b :: rest) = w :: Py.words rest := by
  unfold Py.words
  rw [wordsAux_noSpace w _ [] h, List.nil_append]
  conv_lhs => unfold Py.wordsAux
  simp [hb, hw]

theorem words_spaced {ws : List (List Char)} {s : List Char} (h : Spaced ws s)
    (hw : ∀ w ∈ ws, w ≠ [] ∧ ∀ c ∈ w, Py.isSpace c = false) : Py.words s = ws := by
  induction h with
  | nil h => exact wordsAux_spaces _ (fun c hc => blank_space (h c hc)) []
  | last h1 h2 =>
    rename_i pre w post
    obtain ⟨g1, g2⟩ := hw w (by simp)
    rw [List.append_assoc, words_lead _ _ fun c hc => blank_space (h1 c hc)]
    have := wordsAux_append_spaces w post (fun c hc => blank_space (h2 c hc)) []
    unfold Py.words
    rw [this]
    exact words_one w g1 g2
  | cons h1 hb hne _ ih =>
    rename_i pre w b ws s _
    obtain ⟨g1, g2⟩ := hw w (by simp)
    rw [List.append_assoc, words_lead _ _ fun c hc => blank_space (h1 c hc), words_cons_blank _ _ _ (blank_space hb) g1 g2,
      ih fun x hx => hw x (by simp [hx])]

theorem spaced_not_mem {ws : List (List Char)} {s : List Char} (h : Spaced ws s) {c : Char} (hc : ¬ blank c)
    (hw : ∀ w ∈ ws, c ∉ w) : c ∉ s := by
  induction h with
  | nil h => exact fun hx => hc (h c hx)
  | last h1 h2 =>
    simp only [List.mem_append, not_or]
    exact ⟨⟨fun hx => hc (h1 c hx), hw _ (by simp)⟩, fun hx => hc (h2 c hx)⟩
  | cons h1 hb _ _ ih =>
    simp only [List.mem_append, List.mem_cons, not_or]
    exact ⟨⟨fun hx => hc (h1 c hx), hw _ (by simp)⟩, fun e => hc (e ▸ hb), ih fun x hx => hw x (by simp [hx])⟩

theorem nospace_newline {w : List Char} (h : ∀ c ∈ w, Py.isSpace c = false) : '\n' ∉ w :=
  fun hc => absurd (h _ hc) (by decide)

/-! ## Lines -/

/-- every word of the row is a word -/
theorem row_words {rs : List Row} (h : Sheet rs) {r : Row} (hr : r ∈ rs) : ∀ w ∈ r.words, StateWord w := by
  have act : ∀ a, (a = r.on0 ∨ a = r.on1) → ∀ w ∈ a.words, StateWord w := by
    intro a ha w hw
    unfold Act.words at hw
    cases a with
    | undef =>
      obtain rfl : w = ['-'] := by simpa using hw
      exact ⟨by simp, by decide⟩
    | halt =>
      obtain rfl : w = ['H'] := by simpa using hw
      exact ⟨by simp, by decide⟩
    | go x d q =>
      simp only [List.mem_cons, List.not_mem_nil, or_false] at hw
      rcases hw with rfl | rfl | rfl
      · refine ⟨by simp, ?_⟩
        split <;> decide
      · refine ⟨by simp, ?_⟩
        cases d <;> decide
      · obtain ⟨r', hr', rfl⟩ := List.mem_map.1 (h.closed r hr _ ha x d w rfl)
        exact h.words r' hr'
  intro w hw
  unfold Row.words at hw
  rcases List.mem_cons.1 hw with rfl | hw
  · exact h.words r hr
  rcases List.mem_append.1 hw with hw | hw
  · exact act _ (Or.inl rfl) w hw
  · exact act _ (Or.inr rfl) w hw

theorem words_length (r : Row) : r.words.length = 7 := by
  have : ∀ a : Act, a.words.length = 3 := by intro a; cases a <;> rfl
  unfold Row.words
  rw [List.length_cons, List.length_append, this, this]

theorem body_comment (s c : List Char) (hs : '#' ∉ s) (hc : Comment c) : (Py.split '#' (s ++ c)).headD [] = s := by
  rcases hc with rfl | ⟨t, rfl, -⟩
  · rw [List.append_nil, split_noSep _ _ hs]; rfl
  · rw [split_append _ _ _ hs]; rfl

theorem comment_newline {c : List Char} (h : Comment c) : '\n' ∉ c := by
  rcases h with rfl | ⟨t, rfl, h⟩
  · simp
  · simp [h]

theorem cgaRow_says {rs : List Row} (h : Sheet rs) {o : Option Row} (ho : ∀ r, o = some r → r ∈ rs) {line : List Char}
    (hl : Says o line) : cgaRow line = some (o.map Row.words) ∧ '\n' ∉ line := by
  cases o with
  | none =>
    obtain ⟨s, c, h1, h2, rfl⟩ := hl
    have hash : '#' ∉ s := fun hc => by rcases h1 _ hc with h | h <;> exact absurd h (by decide)
    have nl : '\n' ∉ s := fun hc => by rcases h1 _ hc with h | h <;> exact absurd h (by decide)
    refine ⟨?_, by simp only [List.mem_append, not_or]; exact ⟨nl, comment_newline h2⟩⟩
    unfold cgaRow
    rw [body_comment _ _ hash h2, words_strip, words_spaced (.nil h1) (by simp)]
    rfl
  | some r =>
    obtain ⟨s, c, h1, h2, rfl⟩ := hl
    have hw := row_words h (ho r rfl)
    have hash : '#' ∉ s := spaced_not_mem h1 (by rintro (h | h) <;> exact absurd h (by decide))
      fun w hw' hc => ((hw w hw').2 _ hc).2 rfl
    have nl : '\n' ∉ s := spaced_not_mem h1 (by rintro (h | h) <;> exact absurd h (by decide))
      fun w hw' => nospace_newline fun c hc => ((hw w hw').2 c hc).1
    refine ⟨?_, by simp only [List.mem_append, not_or]; exact ⟨nl, comment_newline h2⟩⟩
    unfold cgaRow
    rw [body_comment _ _ hash h2, words_strip, words_spaced h1 fun w hw' => ⟨(hw w hw').1, fun c hc => ((hw w hw').2 c hc).1⟩]
    have hl := words_length r
    have : r.words ≠ [] := by intro e; rw [e] at hl; simp at hl
    simp only [this, if_false, hl, if_true, Option.map_some]

/-! ## Quintuples -/

/-- what `parse_trans` gives for an action -/
def actQuint : Act → Option Int × Int × Option Name
  | .undef => (none, 0, none)
  | .halt => (some 1, 1, none)
  | .go w d q => (some (if w = 0 then 0 else 1), if d = .L then 0 else 1, some q)

theorem cgaTrans_act (states : List Name) (a : Act) (h : ∀ w d q, a = .go w d q → q ∈ states) :
    ∃ x y z, a.words = [x, y, z] ∧ cgaTrans states x y z = some (actQuint a) := by
  cases a with
  | undef => exact ⟨_, _, _, rfl, rfl⟩
  | halt => exact ⟨_, _, _, rfl, rfl⟩
  | go w d q =>
    refine ⟨_, _, _, rfl, ?_⟩
    have hq := h w d q rfl
    have i0 : ExprText.intOf ['0'] = some 0 := by decide +kernel
    have i1 : ExprText.intOf ['1'] = some 1 := by decide +kernel
    unfold cgaTrans actQuint
    have hw : w = 0 ∨ w = 1 := by omega
    rcases hw with rfl | rfl <;> cases d <;> simp [i0, i1, hq, cgaDir, dirChar]

theorem cgaQuints_row {states : List Name} (r : Row) (h : ∀ a, (a = r.on0 ∨ a = r.on1) → ∀ w d q, a = .go w d q → q ∈ states) :
    cgaQuints states r.words = some [(r.state, 0, actQuint r.on0), (r.state, 1, actQuint r.on1)] := by
  obtain ⟨x, y, z, e, h1⟩ := cgaTrans_act states r.on0 (h _ (Or.inl rfl))
  obtain ⟨x', y', z', e', h1'⟩ := cgaTrans_act states r.on1 (h _ (Or.inr rfl))
  unfold Row.words
  rw [e, e']
  show cgaQuints states [r.state, x, y, z, x', y', z'] = _
  unfold cgaQuints
  simp only
  rw [h1, h1']

/-- a quintuple with names for the states -/
def renS (f : Int → Name) (x : Quint Int Int) : Quint Name Int := (f x.1, x.2.1, x.2.2.1, x.2.2.2.1, x.2.2.2.2.map f)

theorem fill_renameS (f : Int → Name) (n k : Nat) (hf : ∀ x y, x ∈ irange n → y ∈ irange n → f x = f y → x = y)
    (qs : List (Quint Int Int)) :
    (∀ x ∈ qs, x.1 ∈ irange n ∧ ∀ q, x.2.2.2.2 = some q → q ∈ irange n) →
    ∀ t, fillQuints ((irange n).map f) (irange k) (qs.map (renS f)) t = fillQuints (irange n) (irange k) qs t := by
  induction qs with
  | nil => intro _ t; rfl
  | cons x qs ih =>
    intro h t
    have ih := ih (fun y hy => h y (List.mem_cons_of_mem _ hy))
    obtain ⟨h1, h4⟩ := h x (by simp)
    obtain ⟨q, a, w, d, q'⟩ := x
    simp only at h1 h4
    rw [List.map_cons]
    cases w with
    | none =>
      show fillQuints _ _ (qs.map (renS f)) t = fillQuints _ _ qs t
      exact ih t
    | some w =>
      have e1 := idxOf_map f (irange n) q (fun y hy => hf y q hy h1)
      have e4 : ∀ s d, quintTrans ((irange n).map f) s d (q'.map f) = quintTrans (irange n) s d q' := by
        intro s d
        cases q' with
        | none => rfl
        | some q' =>
          simp only [Option.map_some, quintTrans]
          rw [idxOf_map f (irange n) q' (fun y hy => hf y q' hy (h4 q' rfl))]
      simp only [renS]
      conv_lhs => unfold fillQuints
      conv_rhs => unfold fillQuints
      simp only
      rw [e1]
      split
      · rw [e4]
        split
        · rfl
        · exact ih _
      · rfl

/-- quintuples without a symbol are skipped -/
theorem fill_skip {α β : Type} [DecidableEq α] [DecidableEq β] (S : List α) (Y : List β) (qs : List (Quint α β)) :
    ∀ t, fillQuints S Y (qs.filter fun x => x.2.2.1.isSome) t = fillQuints S Y qs t := by
  induction qs with
  | nil => intro t; rfl
  | cons x qs ih =>
    intro t
    obtain ⟨q, a, w, d, q'⟩ := x
    cases w with
    | none =>
      rw [List.filter_cons_of_neg (by simp), ih]
      rfl
    | some w =>
      rw [List.filter_cons_of_pos (by simp)]
      conv_lhs => unfold fillQuints
      conv_rhs => unfold fillQuints
      simp only
      split
      · split
        · rfl
        · exact ih _
      · rfl

/-- the transitions of a row -/
def rowTrans (names : List Name) (r : Row) : List BTrans :=
  [BTrans.ofInstr (r.on0.instr names), BTrans.ofInstr (r.on1.instr names)]

theorem ofTable_rows (rs : List Row) :
    (SM.ofTable (rowsTable rs) rs.length 2).rows = rs.map (rowTrans (rs.map (·.state))) := by
  unfold SM.ofTable
  simp only
  apply List.ext_getElem
  · simp
  · intro i h1 h2
    simp only [List.length_map, List.length_range] at h1
    simp only [List.getElem_map, List.getElem_range]
    have : List.range 2 = [0, 1] := rfl
    rw [this]
    unfold rowsTable rowTrans
    rw [List.getElem?_eq_getElem h1]
    rfl

theorem cell_quint {names : List Name} {f : Int → Name} (q a : Nat) (act : Act) (nm : Name)
    (hq : f q = nm) (hn : ∀ i < names.length, f (i : Nat) = (names[i]?).getD [])
    (hg : ∀ w d q', act = .go w d q' → q' ∈ names) :
    (cellQuint q a (BTrans.ofInstr (act.instr names))).map (renS f) =
      ([((nm, (a : Int), actQuint act) : Quint Name Int)].filter fun x => x.2.2.1.isSome) := by
  cases act with
  | undef => rfl
  | halt => simp [Act.instr, BTrans.ofInstr, cellQuint, renS, actQuint, haltOr, hq]
  | go w d q' =>
    have hm := hg w d q' rfl
    have hlt : names.idxOf q' < names.length := List.idxOf_lt_length_of_mem hm
    have hf := hn _ hlt
    rw [List.getElem?_eq_getElem hlt, Option.getD_some, List.getElem_idxOf] at hf
    have hne : ¬ ((names.idxOf q' : Nat) : Int) = -1 := by omega
    have hw : w = 0 ∨ w = 1 := by omega
    rcases hw with rfl | rfl <;> cases d <;>
      simp [Act.instr, BTrans.ofInstr, cellQuint, renS, actQuint, haltOr, hq, hne, hf]

theorem table_quints {names : List Name} {f : Int → Name} (hn : ∀ i < names.length, f (i : Nat) = (names[i]?).getD []) :
    ∀ (rs : List Row) (q : Nat), (∀ i r, rs[i]? = some r → f ((q + i : Nat) : Int) = r.state) →
      (∀ r ∈ rs, ∀ a, (a = r.on0 ∨ a = r.on1) → ∀ w d q, a = .go w d q → q ∈ names) →
      (tableQuints q (rs.map (rowTrans names))).map (renS f) =
        (rs.map fun r => ([(r.state, 0, actQuint r.on0), (r.state, 1, actQuint r.on1)] : List (Quint Name Int))).flatten.filter
          fun x => x.2.2.1.isSome
  | [], _, _, _ => rfl
  | r :: rs, q, h, hg => by
    have ih := table_quints hn rs (q + 1) (fun i r' hr' => by
      have := h (i + 1) r' (by simpa using hr')
      rwa [show q + (i + 1) = q + 1 + i by omega] at this) fun x hx => hg x (by simp [hx])
    have h0 := h 0 r rfl
    rw [List.map_cons, List.map_cons, List.flatten_cons, List.filter_append, ← ih]
    show ((rowQuints q 0 (rowTrans names r)) ++ tableQuints (q + 1) (rs.map (rowTrans names))).map (renS f) = _
    rw [List.map_append]
    congr 1
    show ((cellQuint q 0 _) ++ ((cellQuint q 1 _) ++ [])).map (renS f) = _
    rw [List.append_nil, List.map_append, cell_quint q 0 r.on0 r.state h0 hn (hg r (by simp) _ (Or.inl rfl)),
      cell_quint q 1 r.on1 r.state h0 hn (hg r (by simp) _ (Or.inr rfl)), ← List.filter_append]
    rfl

theorem rowsTable_fits {rs : List Row} (h : Sheet rs) : Spec.Fits (rowsTable rs) rs.length 2 := by
  have act : ∀ r ∈ rs, ∀ a : Act, (a = r.on0 ∨ a = r.on1) → match a.instr (rs.map (·.state)) with
      | .undef => True
      | .halt w _ => w < 2
      | .go w _ q' => w < 2 ∧ q' < rs.length := by
    intro r hr a ha
    cases a with
    | undef => trivial
    | halt => exact Nat.one_lt_two
    | go w d q =>
      have := List.idxOf_lt_length_of_mem (h.closed r hr _ ha w d q rfl)
      rw [List.length_map] at this
      exact ⟨w.2, this⟩
  intro q hq a ha
  unfold rowsTable
  rw [List.getElem?_eq_getElem hq]
  have hm := List.getElem_mem hq
  match a, ha with
  | 0, _ => exact act _ hm _ (Or.inl rfl)
  | 1, _ => exact act _ hm _ (Or.inr rfl)

theorem tm_of_rows {rs : List Row} (h : Sheet rs) :
    tmFromQuints ((rs.map fun r => ([(r.state, 0, actQuint r.on0), (r.state, 1, actQuint r.on1)] : List (Quint Name Int))).flatten)
      (rs.map (·.state)) [0, 1] = some (SM.ofTable (rowsTable rs) rs.length 2) := by
  have hpos : 0 < rs.length := List.length_pos_of_ne_nil h.rows
  obtain ⟨hw, hd⟩ := ofTable_wf hpos (by decide : 0 < 2) (rowsTable_fits h)
  have hbase := tmFromQuints_table hw
  have hfacts := tableQuints_facts hw hd
  rw [ofTable_rows] at hbase hfacts
  have hN : (SM.ofTable (rowsTable rs) rs.length 2).nStates = rs.length := rfl
  have hK : (SM.ofTable (rowsTable rs) rs.length 2).nSyms = 2 := rfl
  rw [hN, hK] at hbase hfacts
  set names := rs.map (·.state) with hnames
  have hnl : names.length = rs.length := by rw [hnames, List.length_map]
  have hname : ∀ i < names.length, nameOf names ((i : Nat) : Int) = (names[i]?).getD [] := fun i _ => by simp [nameOf]
  have hmap : (irange rs.length).map (nameOf names) = names := by
    apply List.ext_getElem
    · simp [irange, hnl]
    · intro i h1 h2
      simp [irange, nameOf, List.getElem?_eq_getElem h2]
  have hq := table_quints (names := names) (f := nameOf names) hname rs 0 (fun i r hr => by
    rw [Nat.zero_add]
    unfold nameOf
    rw [Int.toNat_natCast, hnames, List.getElem?_map, hr]
    rfl) h.closed
  have hren := fill_renameS (nameOf names) rs.length 2 (nameOf_inj hnl h.distinct) (tableQuints 0 (rs.map (rowTrans names)))
    (fun x hx => ⟨(hfacts x hx).1, (hfacts x hx).2.2.2.2⟩)
  have h01 : ([0, 1] : List Int) = irange 2 := by decide
  unfold tmFromQuints at hbase ⊢
  rw [hmap] at hren
  have hil : (irange rs.length).length = rs.length := by simp [irange]
  rw [h01, ← fill_skip, ← hq, hren, hnl]
  rw [hil] at hbase
  exact hbase

theorem filterMap_says {rs : List Row} {os : List (Option Row)} (h : os.filterMap id = rs) :
    (os.map (·.map Row.words)).filterMap id = rs.map Row.words := by
  subst h
  induction os with
  | nil => rfl
  | cons o os ih =>
    cases o with
    | none => exact ih
    | some r => exact congrArg (r.words :: ·) ih

theorem cgaParse_sheet {rs : List Row} (h : Sheet rs) {os : List (Option Row)} (ho : os.filterMap id = rs)
    {lines : List (List Char)} (hl : List.Forall₂ Says os lines) :
    cgaParse (Py.join '\n' lines) = some (SM.ofTable (rowsTable rs) rs.length 2, rs.map (·.state)) := by
  have hmem : ∀ r, some r ∈ os → r ∈ rs := fun r hr => by
    rw [← ho]; exact List.mem_filterMap.2 ⟨_, hr, rfl⟩
  have hne : lines ≠ [] := by
    rintro rfl
    cases hl
    exact h.rows (by rw [← ho]; rfl)
  have hlines : ∀ (os : List (Option Row)) (lines : List (List Char)), (∀ r, some r ∈ os → r ∈ rs) →
      List.Forall₂ Says os lines → Py.mapO cgaRow lines = some (os.map (·.map Row.words)) ∧ ∀ l ∈ lines, '\n' ∉ l := by
    intro os lines hm hl
    induction hl with
    | nil => exact ⟨rfl, by simp⟩
    | cons h1 _ ih =>
      rename_i o line os ls h2
      obtain ⟨e1, e2⟩ := cgaRow_says h (o := o) (fun r hr => hm r (by simp [hr])) h1
      obtain ⟨e3, e4⟩ := ih fun r hr => hm r (by simp [hr])
      constructor
      · unfold Py.mapO
        rw [e1, e3]
        rfl
      · intro l hl'
        rcases List.mem_cons.1 hl' with rfl | hl'
        · exact e2
        · exact e4 l hl'
  obtain ⟨e1, e2⟩ := hlines os lines hmem hl
  unfold cgaParse
  rw [split_join _ _ hne e2, e1]
  simp only
  rw [filterMap_says ho]
  have hst : (rs.map Row.words).map (·.headD []) = rs.map (·.state) := by
    rw [List.map_map]
    rfl
  rw [hst, mapO_eq_some (g := fun ws => (cgaQuints (rs.map (·.state)) ws).getD [])]
  · simp only
    have : ((rs.map Row.words).map fun ws => (cgaQuints (rs.map (·.state)) ws).getD []) =
        rs.map fun r => ([(r.state, 0, actQuint r.on0), (r.state, 1, actQuint r.on1)] : List (Quint Name Int)) := by
      rw [List.map_map]
      apply List.map_congr_left
      intro r hr
      simp only [Function.comp]
      rw [cgaQuints_row r (h.closed r hr)]
      rfl
    rw [this, tm_of_rows h]
    rfl
  · intro ws hws
    obtain ⟨r, hr, rfl⟩ := List.mem_map.1 hws
    rw [cgaQuints_row r (h.closed r hr)]
    rfl

/-! ## Writing -/

theorem morphCell_list (S Y : List Name) (q a : Nat) (t : BTrans) : morphCell S Y q a (listTrans t) = morphCell S Y q a t := by
  unfold listTrans
  split
  · rename_i h
    unfold morphCell
    simp [h]
  · rfl

theorem morphWrite_record {m m' : SM} {p : ProtoTM} {S Y : List Name} (h : mkRecord m = some (p, m')) :
    morphWrite m' S Y = morphWrite m S Y := by
  unfold mkRecord writeTM at h
  split at h
  · rw [Option.map_eq_some_iff] at h
    obtain ⟨b, -, hb⟩ := h
    cases hb
    rfl
  · rw [Option.map_eq_some_iff] at h
    obtain ⟨⟨l, m2⟩, h1, h2⟩ := h
    cases h2
    unfold tmToList at h1
    split at h1
    · exact absurd h1 (by simp)
    · dsimp only at h1
      split at h1
      · simp only [Option.some.injEq, Prod.mk.injEq] at h1
        obtain ⟨-, rfl⟩ := h1
        unfold morphWrite
        simp only
        have : ∀ q a, (((m.rows.map (·.map listTrans))[q]?).bind (·[a]?)).bind (morphCell S (blankFirst Y) q a) =
            ((m.rows[q]?).bind (·[a]?)).bind (morphCell S (blankFirst Y) q a) := by
          intro q a
          rw [List.getElem?_map]
          cases m.rows[q]? with
          | none => rfl
          | some r =>
            simp only [Option.map_some, Option.bind_some, List.getElem?_map]
            cases r[a]? with
            | none => rfl
            | some t => simp only [Option.map_some, Option.bind_some, morphCell_list]
        simp only [this]
      · exact absurd h1 (by simp)

/-! ## `Convert_Format.py` -/

theorem words_before (w b : List Char) (c : Char) (hc : Py.isSpace c = true) (hw : w ≠ []) (h : ∀ c ∈ w, Py.isSpace c = false) :
    Py.words (w ++ c :: b) = w :: Py.words (c :: b) := by
  rw [words_cons_blank w b c hc hw h]
  have := words_lead [c] b (by simpa using hc)
  rw [List.singleton_append] at this
  rw [this]

theorem words_rules : ∀ (rules : List (List Char)), (∀ w ∈ rules, w ≠ [] ∧ ∀ c ∈ w, Py.isSpace c = false) →
    Py.words ((rules.map (' ' :: ·)).flatten ++ ['\n']) = rules
  | [], _ => rfl
  | w :: ws, h => by
    have ih := words_rules ws fun x hx => h x (by simp [hx])
    obtain ⟨h1, h2⟩ := h w (by simp)
    rw [List.map_cons, List.flatten_cons, List.append_assoc]
    show Py.words ([' '] ++ (w ++ ((ws.map (' ' :: ·)).flatten ++ ['\n']))) = _
    rw [words_lead _ _ (by decide)]
    cases ws with
    | nil => exact (words_before w [] '\n' (by decide) h1 h2).trans rfl
    | cons v vs =>
      rw [List.map_cons, List.flatten_cons, List.append_assoc, List.cons_append] at ih ⊢
      rw [words_before w _ ' ' (by decide) h1 h2, ih]

/-- an instruction with one digit and one letter -/
def Short : Instr → Prop
  | .undef => True
  | .halt w _ => w < 10
  | .go w _ q => w < 10 ∧ q < 25

theorem convRule_rule {i : Instr} (hu : i ≠ .undef) (h : Short i) :
    convRule (marxenRule i) = some (triple i) ∧ marxenRule i ≠ [] ∧ ∀ c ∈ marxenRule i, Py.isSpace c = false := by
  have f1 : ∀ w < 10, Py.find Py.digits (Char.ofNat (48 + w)) = w ∧ Py.isSpace (Char.ofNat (48 + w)) = false := by decide
  have f2 : ∀ q < 25, Py.find Py.uppercase (Char.ofNat (65 + q)) = q ∧ Char.ofNat (65 + q) ≠ 'Z' ∧
      Py.isSpace (Char.ofNat (65 + q)) = false := by decide
  have f3 : ∀ d : Dir, Py.find ['L', 'R'] (dirChar d) = dirBit d ∧ Py.isSpace (dirChar d) = false := by
    intro d; cases d <;> decide
  cases i with
  | undef => exact absurd rfl hu
  | halt w d =>
    simp only [Short] at h
    refine ⟨?_, by simp [marxenRule], ?_⟩
    · simp [marxenRule, convRule, triple, (f1 w h).1, (f3 d).1]
    · intro c hc
      simp only [marxenRule, List.mem_cons, List.not_mem_nil, or_false] at hc
      rcases hc with rfl | rfl | rfl
      · decide
      · exact (f1 w h).2
      · exact (f3 d).2
  | go w d q =>
    simp only [Short] at h
    refine ⟨?_, by simp [marxenRule], ?_⟩
    · simp [marxenRule, convRule, triple, (f1 w h.1).1, (f3 d).1, (f2 q h.2).1, (f2 q h.2).2.1]
    · intro c hc
      simp only [marxenRule, List.mem_cons, List.not_mem_nil, or_false] at hc
      rcases hc with rfl | rfl | rfl
      · exact (f2 q h.2).2.2
      · exact (f1 w h.1).2
      · exact (f3 d).2

theorem marxen_words {T : Table} {k q : Nat} (hq : q < 25) (hr : ∀ a < k, marxenRule (T q a) ≠ [] ∧
    ∀ c ∈ marxenRule (T q a), Py.isSpace c = false) :
    (Py.words (marxenLine T k q)).tail = (List.range k).map fun a => marxenRule (T q a) := by
  have f2 : ∀ q < 25, Py.isSpace (Char.ofNat (65 + q)) = false := by decide
  have hrules : ∀ w ∈ (List.range k).map fun a => marxenRule (T q a), w ≠ [] ∧ ∀ c ∈ w, Py.isSpace c = false := by
    intro w hw
    obtain ⟨a, ha, rfl⟩ := List.mem_map.1 hw
    exact hr a (List.mem_range.1 ha)
  have key := words_rules _ hrules
  rw [List.map_map] at key
  unfold marxenLine
  rw [List.append_assoc]
  have hhead : ∀ c ∈ [Char.ofNat (65 + q), ':'], Py.isSpace c = false := by
    intro c hc
    simp only [List.mem_cons, List.not_mem_nil, or_false] at hc
    rcases hc with rfl | rfl
    · exact f2 q hq
    · decide
  have hcases : ∃ c b, Py.isSpace c = true ∧
      ((List.range k).map fun a => ' ' :: marxenRule (T q a)).flatten ++ ['\n'] = c :: b := by
    cases k with
    | zero => exact ⟨'\n', [], by decide, rfl⟩
    | succ k =>
      rw [List.range_succ_eq_map, List.map_cons, List.flatten_cons, List.append_assoc, List.cons_append]
      exact ⟨' ', _, by decide, rfl⟩
  obtain ⟨c, b, hc, e⟩ := hcases
  have e' : ((List.range k).map ((' ' :: ·) ∘ fun a => marxenRule (T q a))).flatten ++ ['\n'] = c :: b := e
  rw [e, words_before _ _ _ hc (by simp) hhead, List.tail_cons]
  rw [e'] at key
  exact key

theorem convRows_file (T : Table) (n k : Nat) (hn : n ≤ 25) (hk : k ≤ 10) (hf : Spec.Fits T n k)
    (ht : ∀ q < n, ∀ a < k, T q a ≠ .undef) :
    ∀ qs : List Nat, (∀ q ∈ qs, q < n) → convRows (qs.map (marxenLine T k)) =
      some (qs.map fun q => (List.range k).map fun a => triple (T q a))
  | [], _ => rfl
  | q :: qs, h => by
    have ih := convRows_file T n k hn hk hf ht qs fun x hx => h x (by simp [hx])
    have hq := h q (by simp)
    have hrule : ∀ a < k, convRule (marxenRule (T q a)) = some (triple (T q a)) ∧ marxenRule (T q a) ≠ [] ∧
        ∀ c ∈ marxenRule (T q a), Py.isSpace c = false := by
      intro a ha
      have h1 := ht q hq a ha
      have := hf q hq a ha
      generalize T q a = i at h1 this ⊢
      refine convRule_rule h1 ?_
      cases i with
      | undef => trivial
      | halt w d => simp only [Short] at this ⊢; omega
      | go w d q' => simp only [Short] at this ⊢; omega
    rw [List.map_cons, List.map_cons]
    unfold convRows
    rw [ih, marxen_words (by omega) fun a ha => (hrule a ha).2]
    have : Py.mapO convRule ((List.range k).map fun a => marxenRule (T q a)) = some ((List.range k).map fun a => triple (T q a)) := by
      have hm : ∀ (l : List Nat), (∀ a ∈ l, a < k) →
          Py.mapO convRule (l.map fun a => marxenRule (T q a)) = some (l.map fun a => triple (T q a)) := by
        intro l hl
        induction l with
        | nil => rfl
        | cons a l ih' =>
          rw [List.map_cons, List.map_cons]
          unfold Py.mapO
          rw [(hrule a (hl a (by simp))).1, ih' fun x hx => hl x (by simp [hx])]
      exact hm _ fun a ha => List.mem_range.1 ha
    rw [this]

theorem convSkip_info (info rest : List (List Char)) (h : ∀ l ∈ info, l.take 3 ≠ ['A', ':', ' ']) :
    convSkip (info ++ rest) = convSkip rest := by
  induction info with
  | nil => rfl
  | cons l info ih =>
    rw [← ih fun x hx => h x (by simp [hx]), List.cons_append]
    exact if_neg (h l (by simp))

/-- a file without a line that begins with "A: " -/
theorem convSkip_nil (ls : List (List Char)) (h : ∀ l ∈ ls, l.take 3 ≠ ['A', ':', ' ']) : convSkip ls = [] := by
  have := convSkip_info ls [] h
  rwa [List.append_nil] at this

/-! ## When printing fails -/

theorem mapO_isSome {α β : Type} {f : α → Option β} : ∀ {l : List α}, (∀ x ∈ l, ∃ y, f x = some y) → ∃ r, Py.mapO f l = some r
  | [], _ => ⟨[], rfl⟩
  | x :: l, h => by
    obtain ⟨y, hy⟩ := h x (by simp)
    obtain ⟨r, hr⟩ := mapO_isSome (f := f) (l := l) fun z hz => h z (by simp [hz])
    exact ⟨y :: r, by unfold Py.mapO; rw [hy, hr]⟩

theorem mapO_isNone {α β : Type} {f : α → Option β} : ∀ {l : List α} {x : α}, x ∈ l → f x = none → Py.mapO f l = none
  | y :: l, x, hx, h => by
    unfold Py.mapO
    rcases List.mem_cons.1 hx with rfl | hx
    · rw [h]
    · rw [mapO_isNone hx h]
      cases f y <;> rfl

theorem states_length : STATES.length = 71 := by decide +kernel

theorem get_some {l : List Char} {i : Int} (h : -(l.length : Int) ≤ i) (h' : i < l.length) : ∃ c, Py.get l i = some c := by
  unfold Py.get Py.pyIdx
  by_cases h0 : 0 ≤ i
  · rw [if_pos h0, if_pos h', Option.bind_some]
    exact ⟨_, List.getElem?_eq_getElem (by omega)⟩
  · rw [if_neg h0, if_pos h, Option.bind_some]
    exact ⟨_, List.getElem?_eq_getElem (by omega)⟩

theorem get_none {l : List Char} {i : Int} (h' : (l.length : Int) ≤ i) : Py.get l i = none := by
  unfold Py.get Py.pyIdx
  rw [if_pos (by omega), if_neg (by omega)]
  rfl

theorem cellStr_some {t : BTrans} {n k : Nat} (h : t.WF n k) (hd : t.cond ≠ .undefined → t.dir = 0 ∨ t.dir = 1 ∨ t.dir = 2)
    (hn : n ≤ 71) (hs : t.cond ≠ .undefined → t.sym ≤ 10) : ∃ s, cellStr t = some s := by
  unfold cellStr
  split
  · exact ⟨_, rfl⟩
  · rename_i hu
    have hs := hs hu
    have hd := hd hu
    unfold BTrans.WF at h
    have hst : 0 ≤ t.sym ∧ -1 ≤ t.st ∧ t.st < n ∨ 0 ≤ t.sym ∧ t.st = -1 := by
      cases hc : t.cond <;> rw [hc] at h <;> simp only at h
      · exact Or.inl ⟨h.1, by omega, h.2.2.2⟩
      · exact Or.inr ⟨h.1, h.2.2⟩
      · exact absurd hc hu
    obtain ⟨x, hx⟩ := get_some (l := SYMBOLS) (i := t.sym) (by show -11 ≤ t.sym; omega) (by show t.sym < 11; omega)
    obtain ⟨y, hy⟩ := get_some (l := DIRS) (i := t.dir) (by show -4 ≤ t.dir; omega) (by show t.dir < 4; omega)
    obtain ⟨z, hz⟩ := get_some (l := STATES) (i := t.st) (by rw [states_length]; omega) (by rw [states_length]; omega)
    rw [hx, hy, hz]
    exact ⟨_, rfl⟩

theorem cellStr_none {t : BTrans} (hu : t.cond ≠ .undefined) (hs : 11 ≤ t.sym) : cellStr t = none := by
  unfold cellStr
  rw [if_neg hu, get_none (l := SYMBOLS) hs]

theorem toMarkdown_some {m : SM} (hw : m.WF) (hd : Dirs m) (hn : m.nStates ≤ 71)
    (hs : ∀ r ∈ m.rows, ∀ t ∈ r, t.cond ≠ .undefined → t.sym ≤ 10) : ∃ text, toMarkdown m = some text := by
  have : ∃ r, Py.mapO (mdRow m) (List.range m.nStates) = some r := by
    refine mapO_isSome fun q hq => ?_
    rw [List.mem_range] at hq
    have hq' : q < m.rows.length := by rw [hw.height]; exact hq
    unfold mdRow
    obtain ⟨c, hc⟩ := get_some (l := STATES) (i := (q : Int)) (by omega) (by rw [states_length]; omega)
    rw [hc, List.getElem?_eq_getElem hq']
    have hm := List.getElem_mem hq'
    obtain ⟨cells, h⟩ := mapO_isSome (l := List.range m.nSyms)
      (f := fun a => (((some m.rows[q]).bind (·[a]?)).bind cellStr).map fun s => [' '] ++ s ++ [' ', '|']) fun a ha => by
        rw [List.mem_range] at ha
        have ha' : a < m.rows[q].length := by rw [hw.width _ hm]; exact ha
        have hm' := List.getElem_mem ha'
        obtain ⟨s, e⟩ := cellStr_some (hw.cells _ hm _ hm') (hd _ hm _ hm') hn (hs _ hm _ hm')
        simp only [Option.bind_some]
        rw [List.getElem?_eq_getElem ha', Option.bind_some, e]
        exact ⟨_, rfl⟩
    rw [h]
    exact ⟨_, rfl⟩
  obtain ⟨r, hr⟩ := this
  unfold toMarkdown
  rw [hr]
  exact ⟨_, rfl⟩

theorem toMarkdown_none {m : SM} (hw : m.WF)
    (h : 71 < m.nStates ∨ ∃ r ∈ m.rows, ∃ t ∈ r, t.cond ≠ .undefined ∧ 11 ≤ t.sym) : toMarkdown m = none := by
  have : ∃ q ∈ List.range m.nStates, mdRow m q = none := by
    rcases h with h | ⟨r, hr, t, ht, hu, hs⟩
    · refine ⟨71, List.mem_range.2 h, ?_⟩
      unfold mdRow
      rw [get_none (by rw [states_length])]
    · obtain ⟨q, hq, rfl⟩ := List.getElem_of_mem hr
      obtain ⟨a, ha, rfl⟩ := List.getElem_of_mem ht
      refine ⟨q, List.mem_range.2 (by rw [← hw.height]; exact hq), ?_⟩
      unfold mdRow
      rw [List.getElem?_eq_getElem hq, mapO_isNone (x := a) (List.mem_range.2 (by rw [← hw.width _ hr]; exact ha))]
      · cases Py.get STATES (q : Int) <;> rfl
      · simp only [Option.bind_some]
        rw [List.getElem?_eq_getElem ha, Option.bind_some, cellStr_none hu hs]
        rfl
  obtain ⟨q, hq, e⟩ := this
  unfold toMarkdown
  rw [mapO_isNone hq e]
  rfl

theorem boxRows_cons (k q : Nat) (r : List BTrans) (rs : List (List BTrans)) : boxRows k q (r :: rs) =
    (boxRow q r).bind fun s => (boxRows k (q + 1) rs).map fun x => s ++ boxRule "   +---".toList k ++ x := by
  show (match boxRow q r, boxRows k (q + 1) rs with
      | some s, some r => some (s ++ boxRule "   +---".toList k ++ r)
      | _, _ => none) = _
  generalize boxRow q r = a
  generalize boxRows k (q + 1) rs = b
  cases a <;> cases b <;> rfl

theorem boxRows_some (k : Nat) (rs : List (List BTrans)) : ∀ (q : Nat), q + rs.length ≤ 71 →
    (∀ r ∈ rs, ∀ t ∈ r, ∃ s, cellStr t = some s) → ∃ s, boxRows k q rs = some s := by
  induction rs with
  | nil => exact fun _ _ _ => ⟨_, rfl⟩
  | cons r rs ih =>
    intro q hq h
    rw [List.length_cons] at hq
    obtain ⟨s, hs⟩ := ih (q + 1) (by omega) fun x hx => h x (by simp [hx])
    obtain ⟨c, hc⟩ := get_some (l := STATES) (i := (q : Int)) (by omega) (by rw [states_length]; omega)
    obtain ⟨cells, hcells⟩ := mapO_isSome (l := r) (f := fun t => (cellStr t).map fun s => ['|', ' '] ++ s ++ [' ']) fun t ht => by
      obtain ⟨s, e⟩ := h r (by simp) t ht
      rw [e]
      exact ⟨_, rfl⟩
    have hrow : ∃ s, boxRow q r = some s := by
      unfold boxRow
      rw [hc, hcells]
      exact ⟨_, rfl⟩
    obtain ⟨s', hs'⟩ := hrow
    exact ⟨s' ++ boxRule "   +---".toList k ++ s, by rw [boxRows_cons, hs', hs]; rfl⟩

theorem boxRows_none (k : Nat) (rs : List (List BTrans)) : ∀ (q : Nat), q ≤ 71 →
    (71 < q + rs.length ∨ ∃ r ∈ rs, ∃ t ∈ r, cellStr t = none) → boxRows k q rs = none := by
  induction rs with
  | nil =>
    intro q hq h
    rcases h with h | ⟨r, hr, -⟩
    · simp at h; omega
    · simp at hr
  | cons r rs ih0 =>
    intro q hq h
    by_cases hrow : boxRow q r = none
    · rw [boxRows_cons, hrow]
      rfl
    · have h71 : q ≠ 71 := by
        rintro rfl
        apply hrow
        unfold boxRow
        rw [get_none (by rw [states_length])]
      have ih := ih0 (q + 1) (by omega) (by
        rcases h with h | ⟨r', hr', t, ht, e⟩
        · left; rw [List.length_cons] at h; omega
        · right
          rcases List.mem_cons.1 hr' with rfl | hr'
          · exfalso
            apply hrow
            unfold boxRow
            rw [mapO_isNone ht (by rw [e]; rfl)]
            cases Py.get STATES (q : Int) <;> rfl
          · exact ⟨r', hr', t, ht, e⟩)
      rw [boxRows_cons, ih]
      generalize boxRow q r = a
      cases a <;> rfl

theorem toBox_none_iff {m : SM} (hw : m.WF) (hd : Dirs m) : toBox m = none ↔
    71 < m.nStates ∨ ∃ r ∈ m.rows, ∃ t ∈ r, t.cond ≠ .undefined ∧ 11 ≤ t.sym := by
  have h0 : 0 < m.rows.length := by rw [hw.height]; exact hw.states
  unfold toBox
  rw [List.getElem?_eq_getElem h0]
  simp only [Option.map_eq_none_iff]
  constructor
  · intro h
    by_contra hc
    push Not at hc
    obtain ⟨h1, h2⟩ := hc
    obtain ⟨s, hs⟩ := boxRows_some m.rows[0].length m.rows 0 (by rw [hw.height]; omega) fun r hr t ht =>
      cellStr_some (hw.cells r hr t ht) (hd r hr t ht) h1 fun hu => by have := h2 r hr t ht hu; omega
    rw [hs] at h
    exact absurd h (by simp)
  · intro h
    refine boxRows_none _ _ _ (by decide) ?_
    rcases h with h | ⟨r, hr, t, ht, hu, hs⟩
    · left; rw [hw.height]; omega
    · exact Or.inr ⟨r, hr, t, ht, cellStr_none hu hs⟩

end Model.Print

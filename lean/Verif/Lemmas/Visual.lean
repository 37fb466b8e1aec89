import Verif.Model.Visual
import Verif.Spec.Visual
import Verif.Lemmas.DirectSim
import Verif.Lemmas.ExprText

/-!
# Lemmas on the visual simulator
-/

namespace Model.Visual
open Spec (Table Dir Config)
open Spec.Visual

/-! ## The terminal -/

/-- The text `t` arriving in colour `bg` shows the cells and leaves the colour `bg'`. -/
def Draw (bg : Nat) (t : List Char) (cells : List Cell) (bg' : Nat) : Prop :=
  ∀ rest, shown .plain bg (t ++ rest) = cells ++ shown .plain bg' rest

theorem Draw.append {b b' b'' : Nat} {t t' : List Char} {c c' : List Cell} (h : Draw b t c b') (h' : Draw b' t' c' b'') :
    Draw b (t ++ t') (c ++ c') b'' := fun rest => by
  rw [List.append_assoc, h, h', List.append_assoc]

theorem draw_nil (b : Nat) : Draw b [] [] b := fun _ => rfl

theorem draw_plain (b : Nat) : ∀ {t : List Char}, (∀ c ∈ t, c ≠ ESC) → Draw b t (t.map fun c => ⟨c, b⟩) b
  | [], _ => draw_nil b
  | c :: t, h => fun rest => by
    have hc : c ≠ Char.ofNat 27 := h c (by simp)
    have ih := draw_plain b (t := t) (fun x hx => h x (by simp [hx])) rest
    show (receive .plain b c).2.2 ++ shown (receive .plain b c).1 (receive .plain b c).2.1 (t ++ rest) = _
    unfold receive
    simp only [if_neg hc]
    rw [ih]
    rfl

theorem draw_reset (b : Nat) : Draw b [ESC, '[', '0', 'm'] [] 49 := fun _ => rfl

theorem draw_colour (b : Nat) {v c : Nat} (h : COLOR[v]? = some c) :
    Draw b ([ESC, '['] ++ Nat.toDigits 10 c ++ ['m']) [] c ∧ Draw b ([ESC, '[', '1', ';'] ++ Nat.toDigits 10 c ++ ['m']) [] c ∧
      colour v = c := by
  match v with
  | 0 | 1 | 2 | 3 | 4 | 5 | 6 => injection h with h; subst h; exact ⟨fun _ => rfl, fun _ => rfl, rfl⟩
  | n + 7 => cases h

theorem color_some {v : Nat} (h : v < 7) : ∃ c, COLOR[v]? = some c := by
  match v with
  | 0 | 1 | 2 | 3 | 4 | 5 | 6 => exact ⟨_, rfl⟩
  | n + 7 => omega

theorem states_length : STATES.length = 53 := rfl

theorem states_letter : ∀ q < 52, STATES[q]? = some (letter q) := by decide

theorem letter_ne : ∀ q < 52, letter q ≠ ESC := by decide

theorem digits_ne {n : Nat} : ∀ c ∈ Nat.toDigits 10 n, c ≠ ESC := fun c hc => by
  have : ∀ c ∈ Py.digits, c ≠ ESC := by decide
  exact this c (ExprText.digits_tok hc)

theorem padNum_eq (w n : Nat) : padNum w n = aligned w n := rfl

theorem aligned_ne (w n : Nat) : ∀ c ∈ aligned w n, c ≠ ESC := fun c hc => by
  rcases List.mem_append.1 hc with h | h
  · rw [List.eq_of_mem_replicate h]; decide
  · exact digits_ne c h

/-! ## A line -/

theorem cell_draw {names : List (List Char)} {s : DirectSim} {c : Config} (h : s.Sim c) (hf : Fits names c) (b : Nat) (p : Int) :
    ∃ t, printCell s p = some t ∧ ∃ b', Draw b t [look c p] b' := by
  unfold printCell
  rw [DirectTape.readPos_eq, h.tape, h.pos, Option.bind_some]
  obtain ⟨col, hcol⟩ := color_some (hf.syms p)
  obtain ⟨d1, d2, d3⟩ := draw_colour b hcol
  by_cases hp : c.pos = p
  · subst hp
    rw [if_pos rfl, hcol, Option.bind_some]
    have : ∃ ch, stateChar s.state = some ch ∧ ch ≠ ESC ∧ ch = (match c.state with | some q => letter q | none => '!') := by
      rw [h.state]
      cases hq : c.state with
      | none => exact ⟨'!', rfl, by decide, rfl⟩
      | some q =>
        have := (hf.state q hq).1
        exact ⟨letter q, states_letter q this, letter_ne q this, rfl⟩
    obtain ⟨ch, e, hne, hch⟩ := this
    rw [e]
    refine ⟨_, rfl, col, ?_⟩
    have := d2.append (draw_plain col (t := [ch]) (by simpa using hne))
    have e2 : look c c.pos = ⟨ch, col⟩ := by unfold look; rw [if_pos rfl, d3, hch]; cases c.state <;> rfl
    rw [e2]
    simpa using this
  · rw [if_neg hp, hcol]
    refine ⟨_, rfl, col, ?_⟩
    have := d1.append (draw_plain col (t := [' ']) (by decide))
    have e2 : look c p = ⟨' ', col⟩ := by unfold look; rw [if_neg (Ne.symm hp), d3]
    rw [e2]
    simpa using this

theorem cells_draw {names : List (List Char)} {s : DirectSim} {c : Config} (h : s.Sim c) (hf : Fits names c) : ∀ (ps : List Int) (b : Nat),
    ∃ t, Py.mapO (printCell s) ps = some t ∧ ∃ b', Draw b t.flatten (ps.map (look c)) b'
  | [], b => ⟨[], rfl, b, draw_nil b⟩
  | p :: ps, b => by
    obtain ⟨t, e, b', d⟩ := cell_draw h hf b p
    obtain ⟨t', e', b'', d'⟩ := cells_draw h hf ps b'
    refine ⟨t :: t', ?_, b'', ?_⟩
    · unfold Py.mapO; rw [e, e']
    · have := d.append d'
      simpa using this

theorem range_interval (lo hi : Int) : range lo (hi + 1) = interval lo hi := by
  unfold range interval
  rw [show hi + 1 - lo = hi - lo + 1 by omega]

theorem printRange_eq {o : Opts} {s : DirectSim} {c : Config} (h : s.Sim c) :
    printRange o s = interval (bounds o c).1 (bounds o c).2 := by
  unfold printRange bounds
  rw [h.pos]
  dsimp only
  split
  · rw [range_interval]
  · rw [range_interval]

theorem print_draw {o : Opts} {s : DirectSim} {c : Config} (h : s.Sim c) (hf : Fits o.names c)
    (hn : ∀ n ∈ o.names, ∀ ch ∈ n, ch ≠ ESC) (hp : shouldPrint o s = true) (b : Nat) :
    ∃ t, printTape o s = some t ∧
      Draw b t (line s.stepNum (bounds o c).1 (bounds o c).2 (nameOf o.names c.state) c) 49 := by
  unfold printTape
  rw [if_pos hp, printRange_eq h]
  obtain ⟨t, e, b', d⟩ := cells_draw h hf (interval (bounds o c).1 (bounds o c).2) 49
  rw [e, Option.bind_some]
  have hname : stateName o s = some (nameOf o.names c.state) ∧ ∀ ch ∈ nameOf o.names c.state, ch ≠ ESC := by
    unfold stateName
    rw [h.halted, h.state]
    cases hq : c.state with
    | none =>
      have : ∀ ch ∈ ['H', 'A', 'L', 'T'], ch ≠ ESC := by decide
      exact ⟨rfl, this⟩
    | some q =>
      have hlt := (hf.state q hq).2
      refine ⟨?_, ?_⟩
      · show o.names[q]? = some (o.names.getD q [])
        rw [List.getD_eq_getElem?_getD, List.getElem?_eq_getElem hlt]; rfl
      · show ∀ ch ∈ o.names.getD q [], ch ≠ ESC
        rw [List.getD_eq_getElem?_getD, List.getElem?_eq_getElem hlt]
        exact hn _ (List.getElem_mem hlt)
  rw [hname.1, Option.bind_some, DirectTape.read_eq h.wf, h.tape, h.pos, Option.bind_some]
  obtain ⟨col, hcol⟩ := color_some (hf.syms c.pos)
  obtain ⟨d1, _, d3⟩ := draw_colour 49 hcol
  rw [hcol]
  refine ⟨_, rfl, ?_⟩
  have h1 := (draw_reset b).append (draw_plain 49 (t := aligned 10 s.stepNum ++ [':', ' ']) (by
    intro ch hc
    rcases List.mem_append.1 hc with hc | hc
    · exact aligned_ne _ _ ch hc
    · have : ∀ ch ∈ [':', ' '], ch ≠ ESC := by decide
      exact this ch hc))
  have h2 := (h1.append d).append ((draw_reset b').append (draw_plain 49 (t := nameOf o.names c.state ++ [' ']) (by
    intro ch hc
    rcases List.mem_append.1 hc with hc | hc
    · exact hname.2 ch hc
    · have : ∀ ch ∈ [' '], ch ≠ ESC := by decide
      exact this ch hc)))
  have h3 := (h2.append (d1.append (draw_plain col (aligned_ne 2 (c.tape c.pos))))).append
    ((draw_reset col).append (draw_plain 49 (t := ['\n']) (by decide)))
  unfold line plainText
  rw [d3]
  simpa [padNum_eq] using h3

/-! ## Reading a start configuration -/

theorem spaced_join : ∀ ws : List (List Char), spaced ws = Py.join ' ' ws
  | [] => rfl
  | [_] => rfl
  | w :: w' :: ws => by
    show w ++ ' ' :: spaced (w' :: ws) = w ++ ' ' :: Py.join ' ' (w' :: ws)
    rw [spaced_join (w' :: ws)]

theorem digit_char : ∀ a < 10, Char.ofNat (48 + a) ∈ Py.digits ∧ (Char.ofNat (48 + a)).toNat - '0'.toNat = a := by decide

/-- the characters of the words -/
def Ink (c : Char) : Prop := c ∈ Py.digits ∨ c = '^'

theorem run_ink {r : Run} (h : r.Ok) : ∀ c ∈ r.text, Ink c := fun c hc => by
  rcases List.mem_append.1 hc with hc | hc
  · obtain ⟨a, ha, rfl⟩ := List.mem_map.1 hc
    exact Or.inl (digit_char a (h.2 a ha)).1
  · cases he : r.exp with
    | none => rw [he] at hc; cases hc
    | some n =>
      rw [he] at hc
      rcases List.mem_cons.1 hc with rfl | hc
      · exact Or.inr rfl
      · exact Or.inl (ExprText.digits_tok hc)

theorem ink_facts {c : Char} (h : Ink c) : Py.isSpace c = false ∧ c ≠ '<' ∧ c ≠ '>' := by
  rcases h with h | h
  · have : ∀ c ∈ Py.digits, Py.isSpace c = false ∧ c ≠ '<' ∧ c ≠ '>' := by decide
    exact this c h
  · subst h; decide

theorem run_ne {r : Run} (h : r.Ok) : r.text ≠ [] := by
  unfold Run.text
  intro e
  exact h.1 (by simpa using (List.append_eq_nil_iff.1 e).1)

theorem parse_syms {r : Run} (h : r.Ok) : parseSyms r.text = some r.syms := by
  have hall : ∀ c ∈ r.base.map (fun a => Char.ofNat (48 + a)), decide (c ∈ Py.digits) = true := by
    intro c hc
    obtain ⟨a, ha, rfl⟩ := List.mem_map.1 hc
    simpa using (digit_char a (h.2 a ha)).1
  have hbase : (r.base.map (fun a => Char.ofNat (48 + a))).map (fun c => c.toNat - '0'.toNat) = r.base := by
    rw [List.map_map]
    conv_rhs => rw [← List.map_id r.base]
    exact List.map_congr_left fun a ha => (digit_char a (h.2 a ha)).2
  have hne : r.base.map (fun a => Char.ofNat (48 + a)) ≠ [] := by simpa using h.1
  unfold parseSyms Run.text
  rw [List.takeWhile_append_of_pos hall, List.dropWhile_append_of_pos hall]
  cases he : r.exp with
  | none =>
    simp only [List.takeWhile_nil, List.append_nil, List.dropWhile_nil, if_neg hne, hbase]
    unfold Run.syms
    rw [he]
    simp
  | some n =>
    have hc : decide ('^' ∈ Py.digits) = false := by decide
    rw [List.takeWhile_cons, List.dropWhile_cons, hc]
    simp only [Bool.false_eq_true, if_false, List.append_nil, if_neg hne, hbase, ExprText.natOf_digits]
    unfold Run.syms
    rw [he]
    rfl

theorem parse_run {r : Run} (h : r.Ok) : parseBlock r.text = some (.syms r.syms) := by
  have hi := run_ink h
  have hs := parse_syms h
  generalize r.text = t at hi hs
  unfold parseBlock
  split
  · exact absurd rfl (ink_facts (hi '<' (by simp))).2.1
  · exact absurd rfl (ink_facts (hi '>' (by simp))).2.2
  · rw [hs]; rfl

theorem parse_left : ∀ q < 52, parseBlock ['<', letter q] = some (.head true q) := by decide

theorem parse_right : ∀ q < 52, parseBlock [letter q, '>'] = some (.head false q) := by decide

theorem letter_space : ∀ q < 52, Py.isSpace (letter q) = false := by decide

theorem loop_runs : ∀ (rs : List Run) (ws : List (List Char)) (s : PState), (∀ r ∈ rs, r.Ok) →
    parseLoop (rs.map Run.text ++ ws) s = parseLoop ws
      (if s.inLeft then { s with left := s.left ++ (rs.map Run.syms).flatten }
       else { s with right := s.right ++ (rs.map Run.syms).flatten })
  | [], ws, s, _ => by rcases s with ⟨l, r, i, d, q⟩; cases i <;> simp
  | r :: rs, ws, s, h => by
    show (parseBlock r.text).bind (fun x => parseLoop (rs.map Run.text ++ ws) (s.add x)) = _
    rw [parse_run (h r (by simp)), Option.bind_some, loop_runs rs ws _ (fun x hx => h x (by simp [hx]))]
    unfold PState.add
    cases hi : s.inLeft <;> simp

theorem start_words {s : Start} (h : s.Ok) : Py.words s.text = s.words := by
  unfold Start.text
  rw [spaced_join]
  have key := ExprText.words_join s.words (by unfold Start.words; simp) (fun w hw => by
    unfold Start.words at hw
    rcases List.mem_append.1 hw with hw | hw
    · obtain ⟨r, hr, rfl⟩ := List.mem_map.1 hw
      exact ⟨run_ne (h.1 r hr), fun c hc => (ink_facts (run_ink (h.1 r hr) c hc)).1⟩
    · rcases List.mem_cons.1 hw with hw | hw
      · have hl := letter_space s.state h.2.2
        subst hw
        cases s.dir
        · refine ⟨by simp, fun c hc => ?_⟩
          rcases List.mem_cons.1 hc with rfl | hc
          · decide
          · rw [List.mem_singleton.1 hc]; exact hl
        · refine ⟨by simp, fun c hc => ?_⟩
          rcases List.mem_cons.1 hc with rfl | hc
          · exact hl
          · rw [List.mem_singleton.1 hc]; decide
      · obtain ⟨r, hr, rfl⟩ := List.mem_map.1 hw
        exact ⟨run_ne (h.2.1 r hr), fun c hc => (ink_facts (run_ink (h.2.1 r hr) c hc)).1⟩) [] (Or.inl rfl)
  rw [List.append_nil] at key
  rw [key]
  show s.words ++ [] = s.words
  simp

theorem twoSided_shift (l r : List Nat) (a : Nat) (p : Int) : twoSided l (a :: r) p = twoSided (l ++ [a]) r (p - 1) := by
  unfold twoSided
  rcases lt_trichotomy p 0 with h | h | h
  · rw [if_neg (by omega), if_neg (by omega), List.reverse_append]
    have : (-(p - 1) - 1).toNat = (-p - 1).toNat + 1 := by omega
    rw [this]
    rfl
  · subst h
    rw [if_pos (le_refl _), if_neg (by omega), List.reverse_append]
    rfl
  · rw [if_pos (by omega), if_pos (by omega)]
    have : p.toNat = (p - 1).toNat + 1 := by omega
    rw [this]
    rfl

theorem twoSided_empty (r : List Nat) (p : Int) : twoSided [] (0 :: r) p = twoSided [] r (p - 1) := by
  rw [twoSided_shift]
  unfold twoSided
  by_cases h : 0 ≤ p - 1
  · rw [if_pos h, if_pos h]
  · rw [if_neg h, if_neg h]
    generalize (-(p - 1) - 1).toNat = k
    cases k <;> rfl

theorem parse_start {s : Start} (h : s.Ok) : ∃ L R, parseConfig s.text = some (some s.state, L, R) ∧
    s.config = ⟨some s.state, 0, twoSided L R⟩ ∧
    L = (match s.dir with | .L => ((s.left.map Run.syms).flatten).dropLast | .R => (s.left.map Run.syms).flatten) ∧
    R.length = ((s.right.map Run.syms).flatten).length + (match s.dir with | .L => 1 | .R => 0) := by
  unfold parseConfig
  rw [start_words h]
  unfold Start.words
  rw [loop_runs _ _ _ h.1]
  unfold Start.config
  generalize hl : (s.left.map Run.syms).flatten = l
  have hrest : ∀ (st : PState), parseLoop (s.right.map Run.text) st = parseLoop (s.right.map Run.text ++ []) st := by
    intro st; rw [List.append_nil]
  generalize hr : (s.right.map Run.syms).flatten = r
  cases hd : s.dir with
  | L =>
    show ∃ L R, Option.map _ ((parseBlock ['<', letter s.state]).bind _) = _ ∧ _
    rw [parse_left _ h.2.2, Option.bind_some, hrest, loop_runs _ _ _ h.2.1, hr]
    cases hlast : l.getLast? with
    | none =>
      have : l = [] := List.getLast?_eq_none_iff.1 hlast
      subst this
      refine ⟨[], 0 :: r, ?_, ?_, rfl, by simp⟩
      · simp [PState.add, parseLoop]
      · simp only [Config.mk.injEq, true_and]
        exact funext fun p => (twoSided_empty r p).symm
    | some top =>
      refine ⟨l.dropLast, top :: r, ?_, ?_, rfl, by simp⟩
      · simp [PState.add, parseLoop, hlast]
      · simp only [Config.mk.injEq, true_and]
        refine funext fun p => ?_
        rw [twoSided_shift, List.dropLast_append_getLast? _ hlast]
  | R =>
    show ∃ L R, Option.map _ ((parseBlock [letter s.state, '>']).bind _) = _ ∧ _
    rw [parse_right _ h.2.2, Option.bind_some, hrest, loop_runs _ _ _ h.2.1, hr]
    exact ⟨l, r, by simp [PState.add, parseLoop], rfl, rfl, by simp⟩

/-! ## The start -/

theorem writeAll_eq : ∀ (l : List Nat) (p : Int) (t : DirectTape Nat), t.WF →
    ∃ t', writeAll l p t = some t' ∧ t'.WF ∧ t'.position = t.position ∧ t'.initSymbol = t.initSymbol ∧
      (∀ x, t'.abs x = if p ≤ x ∧ x < p + l.length then l.getD (x - p).toNat 0 else t.abs x) ∧
      t'.posLeftmost = (if l = [] then t.posLeftmost else min t.posLeftmost p) ∧
      t'.posRightmost = (if l = [] then t.posRightmost else max t.posRightmost (p + l.length - 1))
  | [], p, t, h => ⟨t, rfl, h, rfl, rfl, fun x => by rw [if_neg (by simp)], rfl, rfl⟩
  | a :: l, p, t, h => by
    obtain ⟨t1, e1, w1, p1, i1, a1, l1, r1⟩ := DirectTape.writePos_eq h a p
    obtain ⟨t2, e2, w2, p2, i2, a2, l2, r2⟩ := writeAll_eq l (p + 1) t1 w1
    refine ⟨t2, ?_, w2, by rw [p2, p1], by rw [i2, i1], fun x => ?_, ?_, ?_⟩
    · show (t.writePos a p).bind _ = _
      rw [e1]; exact e2
    · rw [a2, a1, List.length_cons]
      by_cases hx : x = p
      · subst hx
        rw [if_neg (by omega), Function.update_self, if_pos (by omega)]
        simp
      · rw [Function.update_of_ne hx]
        by_cases hin : p + 1 ≤ x ∧ x < p + 1 + l.length
        · rw [if_pos hin, if_pos (by omega)]
          have : (x - p).toNat = (x - (p + 1)).toNat + 1 := by omega
          rw [this]; rfl
        · rw [if_neg hin, if_neg (by omega)]
    · rw [if_neg (List.cons_ne_nil a l), l2, l1]
      split
      · rfl
      · omega
    · rw [if_neg (List.cons_ne_nil a l), r2, r1]
      split
      · rename_i hl; subst hl; simp
      · rw [List.length_cons]
        have : 0 < l.length := List.length_pos_of_ne_nil (by assumption)
        omega

/-- the first and the last cell of the start -/
def firstCell (left : List Nat) : Int := -(left.length : Int)
def lastCell (right : List Nat) : Int := max 0 ((right.length : Int) - 1)

theorem start_eq (q : Nat) (left right : List Nat) :
    ∃ s, start q left right = some s ∧ s.Sim ⟨some q, 0, twoSided left right⟩ ∧ s.stepNum = 0 ∧
      s.tape.posLeftmost = firstCell left ∧ s.tape.posRightmost = lastCell right := by
  obtain ⟨t1, e1, w1, p1, i1, a1, l1, r1⟩ := writeAll_eq left (-(left.length : Int)) DirectSim.new.tape (DirectTape.wf_new _)
  obtain ⟨t2, e2, w2, p2, i2, a2, l2, r2⟩ := writeAll_eq right 0 t1 w1
  refine ⟨{ DirectSim.new with state := some q, tape := t2 }, ?_, ⟨w2, by rw [i2, i1]; rfl, ?_, by rw [p2, p1]; rfl, rfl, rfl⟩, rfl, ?_, ?_⟩
  · unfold start; rw [e1, Option.bind_some, e2]; rfl
  · funext x
    show t2.abs x = twoSided left right x
    rw [a2, a1, show DirectSim.new.tape.abs x = 0 from congrFun (DirectTape.abs_new 0) x]
    unfold twoSided
    by_cases hx : 0 ≤ x
    · rw [if_pos hx]
      by_cases hr : x < right.length
      · rw [if_pos (by omega), show x - 0 = x by omega]
      · rw [if_neg (by omega), if_neg (by omega), List.getD_eq_getElem?_getD, List.getElem?_eq_none (by omega)]; rfl
    · rw [if_neg (by omega), if_neg hx]
      by_cases hl : -(left.length : Int) ≤ x
      · rw [if_pos (by omega), List.getD_eq_getElem?_getD, List.getD_eq_getElem?_getD,
          List.getElem?_reverse (by omega)]
        congr 2
        omega
      · rw [if_neg (by omega), List.getD_eq_getElem?_getD, List.getElem?_eq_none (by simp; omega)]; rfl
  · show t2.posLeftmost = _
    have h0 : DirectSim.new.tape.posLeftmost = 0 := rfl
    rw [l2, l1, h0]
    unfold firstCell
    cases left <;> cases right <;> simp
  · show t2.posRightmost = _
    have h0 : DirectSim.new.tape.posRightmost = 0 := rfl
    rw [r2, r1, h0]
    unfold lastCell
    cases left <;> cases right <;> simp

/-! ## The run -/

/-- the simulator at time `k` of the run from `c0`, where the cells `lo` to `hi` were written before -/
structure At (M : Table) (c0 : Config) (lo hi : Int) (k : Nat) (s : DirectSim) : Prop where
  sim : s.Sim (Spec.run M k c0)
  num : s.stepNum = k
  left : s.tape.posLeftmost ≤ lo ∧ (∀ j ≤ k, s.tape.posLeftmost ≤ (Spec.run M j c0).pos) ∧
    (s.tape.posLeftmost = lo ∨ ∃ j ≤ k, s.tape.posLeftmost = (Spec.run M j c0).pos)
  right : hi ≤ s.tape.posRightmost ∧ (∀ j ≤ k, (Spec.run M j c0).pos ≤ s.tape.posRightmost) ∧
    (s.tape.posRightmost = hi ∨ ∃ j ≤ k, s.tape.posRightmost = (Spec.run M j c0).pos)

theorem At.step {M : Table} {c0 : Config} {lo hi : Int} {k : Nat} {s : DirectSim} (h : At M c0 lo hi k s)
    (hr : s.halted = false) : ∃ s', s.step M = some s' ∧ At M c0 lo hi (k + 1) s' := by
  obtain ⟨s', e, hs, hn, hl, hrr, _, _⟩ := DirectSim.sim_step (M := M) h.sim
  rw [← Spec.run_succ'] at hs
  refine ⟨s', e, hs, by rw [hn, hr, h.num]; simp, ?_, ?_⟩
  · rw [hl, hs.pos]
    obtain ⟨h1, h2, h3⟩ := h.left
    refine ⟨le_trans (min_le_left _ _) h1, fun j hj => ?_, ?_⟩
    · rcases Nat.lt_or_ge k j with hk | hk
      · rw [show j = k + 1 by omega]; exact min_le_right _ _
      · exact le_trans (min_le_left _ _) (h2 j hk)
    · rcases le_total s.tape.posLeftmost (Spec.run M (k + 1) c0).pos with hle | hle
      · rw [min_eq_left hle]
        rcases h3 with h3 | ⟨j, hj, h3⟩
        · exact Or.inl h3
        · exact Or.inr ⟨j, by omega, h3⟩
      · rw [min_eq_right hle]
        exact Or.inr ⟨k + 1, le_refl _, rfl⟩
  · rw [hrr, hs.pos]
    obtain ⟨h1, h2, h3⟩ := h.right
    refine ⟨le_trans h1 (le_max_left _ _), fun j hj => ?_, ?_⟩
    · rcases Nat.lt_or_ge k j with hk | hk
      · rw [show j = k + 1 by omega]; exact le_max_right _ _
      · exact le_trans (h2 j hk) (le_max_left _ _)
    · rcases le_total (Spec.run M (k + 1) c0).pos s.tape.posRightmost with hle | hle
      · rw [max_eq_left hle]
        rcases h3 with h3 | ⟨j, hj, h3⟩
        · exact Or.inl h3
        · exact Or.inr ⟨j, by omega, h3⟩
      · rw [max_eq_right hle]
        exact Or.inr ⟨k + 1, le_refl _, rfl⟩

theorem At.start {M : Table} {q : Nat} {L R : List Nat} : ∃ s, start q L R = some s ∧
    At M ⟨some q, 0, twoSided L R⟩ (firstCell L) (lastCell R) 0 s := by
  obtain ⟨s, e, hs, hn, hl, hr⟩ := start_eq q L R
  refine ⟨s, e, hs, hn, ⟨hl.le, fun j hj => ?_, Or.inl hl⟩, ⟨hr.ge, fun j hj => ?_, Or.inl hr⟩⟩
  · rw [show j = 0 by omega, hl]
    show firstCell L ≤ 0
    unfold firstCell; omega
  · rw [show j = 0 by omega, hr]
    show 0 ≤ lastCell R
    unfold lastCell; omega

theorem At.wanted {o : Opts} {M : Table} {c0 : Config} {lo hi : Int} {k : Nat} {s : DirectSim} (h : At M c0 lo hi k s) :
    shouldPrint o s = true ↔ Wanted o M c0 lo hi k := by
  have hL : s.tape.posLeftmost = s.tape.position ↔ Leftmost M c0 lo k := by
    rw [h.sim.pos]
    obtain ⟨h1, h2, h3⟩ := h.left
    constructor
    · intro e
      exact ⟨e ▸ h1, fun j hj => e ▸ h2 j hj⟩
    · rintro ⟨g1, g2⟩
      refine le_antisymm (h2 k (le_refl _)) ?_
      rcases h3 with h3 | ⟨j, hj, h3⟩
      · rw [h3]; exact g1
      · rw [h3]; exact g2 j hj
  have hR : s.tape.posRightmost = s.tape.position ↔ Rightmost M c0 hi k := by
    rw [h.sim.pos]
    obtain ⟨h1, h2, h3⟩ := h.right
    constructor
    · intro e
      exact ⟨e ▸ h1, fun j hj => e ▸ h2 j hj⟩
    · rintro ⟨g1, g2⟩
      refine le_antisymm ?_ (h2 k (le_refl _))
      rcases h3 with h3 | ⟨j, hj, h3⟩
      · rw [h3]; exact g1
      · rw [h3]; exact g2 j hj
  unfold shouldPrint Wanted
  rw [Bool.or_eq_true, Bool.or_eq_true, Bool.and_eq_true, Bool.and_eq_true, beq_iff_eq, beq_iff_eq, hL, hR, or_assoc]

theorem At.print {o : Opts} {M : Table} {c0 : Config} {lo hi : Int} {k : Nat} {s : DirectSim} (h : At M c0 lo hi k s)
    (hf : Fits o.names (Spec.run M k c0)) (hn : ∀ n ∈ o.names, ∀ ch ∈ n, ch ≠ ESC) :
    ∃ t, printTape o s = some t ∧ Draw 49 t (shownAt o M c0 lo hi k) 49 := by
  by_cases hw : Wanted o M c0 lo hi k
  · obtain ⟨t, e, d⟩ := print_draw h.sim hf hn (h.wanted.2 hw) 49
    refine ⟨t, e, ?_⟩
    unfold shownAt
    rw [if_pos hw]
    rw [h.num] at d
    exact d
  · have : shouldPrint o s ≠ true := fun hs => hw (h.wanted.1 hs)
    refine ⟨[], ?_, ?_⟩
    · unfold printTape; rw [if_neg this]
    · unfold shownAt
      rw [if_neg hw]
      exact draw_nil 49

theorem message_draw (n : Nat) : Draw 49 (message n) (plainText (message n)) 49 :=
  draw_plain 49 fun c hc => by
    unfold message at hc
    rcases List.mem_append.1 hc with hc | hc
    · rcases List.mem_append.1 hc with hc | hc
      · have : ∀ c ∈ "TM Halted on step ".toList, c ≠ ESC := by decide
        exact this c hc
      · exact digits_ne c hc
    · rw [List.mem_singleton.1 hc]; decide

theorem loop_draw {o : Opts} {M : Table} {c0 : Config} {lo hi : Int}
    (hf : ∀ k, Fits o.names (Spec.run M k c0)) (hn : ∀ n ∈ o.names, ∀ ch ∈ n, ch ≠ ESC) :
    ∀ (f k : Nat) (s : DirectSim), At M c0 lo hi k s → (∀ m < k, (Spec.run M m c0).state ≠ none) →
    ∃ out fin N, loop o M f s = some (out, fin) ∧ k ≤ N ∧ N ≤ k + f ∧
      (∀ m < N, (Spec.run M m c0).state ≠ none) ∧
      (fin = true ↔ (Spec.run M N c0).state = none) ∧ (fin = false → N = k + f) ∧
      Draw 49 out ((List.range' (k + 1) (N - k)).flatMap (shownAt o M c0 lo hi) ++ if fin then plainText (message N) else []) 49
  | f, k, s, h, hk => by
    cases hh : s.halted with
    | true =>
      refine ⟨message k, true, k, ?_, le_refl _, by omega, hk, ?_, by simp, ?_⟩
      · unfold loop; rw [if_pos hh, h.num]; rfl
      · have := h.sim.halted
        rw [hh] at this
        simpa using this.symm
      · rw [Nat.sub_self, if_pos rfl]
        exact message_draw k
    | false =>
      have hrun : (Spec.run M k c0).state ≠ none := by
        have := h.sim.halted
        rw [hh] at this
        intro e
        rw [e] at this
        cases this
      cases f with
      | zero =>
        refine ⟨[], false, k, ?_, le_refl _, by omega, hk, ?_, by simp, ?_⟩
        · unfold loop; rw [hh]; rfl
        · simpa using hrun
        · rw [Nat.sub_self]; exact draw_nil 49
      | succ f =>
        obtain ⟨s', e, h'⟩ := h.step hh
        obtain ⟨t, et, dt⟩ := h'.print (hf _) hn
        obtain ⟨out, fin, N, eo, h1, h2, h3, h4, h5, d⟩ := loop_draw hf hn f (k + 1) s' h' (fun m hm => by
          rcases Nat.lt_or_ge m k with hlt | hge
          · exact hk m hlt
          · rw [show m = k by omega]; exact hrun)
        refine ⟨t ++ out, fin, N, ?_, by omega, by omega, h3, h4, fun hfin => by have := h5 hfin; omega, ?_⟩
        · unfold loop
          rw [hh]
          simp only [Bool.false_eq_true, if_false]
          rw [e, Option.bind_some, et, Option.bind_some, eo]
          rfl
        · have := dt.append d
          rw [← List.append_assoc] at this
          rw [show N - k = (N - (k + 1)) + 1 by omega, List.range'_succ, List.flatMap_cons]
          exact this

theorem run_draw {o : Opts} {M : Table} {c0 : Config} {lo hi : Int}
    (hf : ∀ k, Fits o.names (Spec.run M k c0)) (hn : ∀ n ∈ o.names, ∀ ch ∈ n, ch ≠ ESC) (f : Nat) {s : DirectSim}
    (h : At M c0 lo hi 0 s) :
    ∃ out fin N, runVisual o M f s = some (out, fin) ∧ N ≤ f ∧ (∀ m < N, (Spec.run M m c0).state ≠ none) ∧
      (fin = true ↔ (Spec.run M N c0).state = none) ∧ (fin = false → N = f) ∧
      shown .plain 49 out = (List.range (N + 1)).flatMap (shownAt o M c0 lo hi) ++ if fin then plainText (message N) else [] := by
  obtain ⟨t, et, dt⟩ := h.print (hf 0) hn
  obtain ⟨out, fin, N, eo, _, h2, h3, h4, h5, d⟩ := loop_draw hf hn f 0 s h (fun m hm => absurd hm (by omega))
  refine ⟨t ++ out, fin, N, ?_, by omega, h3, h4, fun hfin => by have := h5 hfin; omega, ?_⟩
  · unfold runVisual; rw [et, Option.bind_some, eo]; rfl
  · have := dt.append d []
    rw [List.append_nil] at this
    rw [this, List.range_eq_range', List.range'_succ, List.flatMap_cons]
    simp [shown]

theorem main_start {o : Opts} {M : Table} {f : Nat} {st : Start} (h : st.Ok) :
    ∃ s, main o M f st.text = runVisual o M f s ∧ At M st.config st.lo st.hi 0 s := by
  obtain ⟨L, R, e, hc, hL, hR⟩ := parse_start h
  obtain ⟨s, es, hs⟩ := At.start (M := M) (q := st.state) (L := L) (R := R)
  rw [← hc] at hs
  have e1 : firstCell L = st.lo := by
    subst hL
    unfold firstCell Start.lo
    cases st.dir <;> simp
  have e2 : lastCell R = st.hi := by
    unfold lastCell Start.hi
    rw [hR]
    generalize ((st.right.map Run.syms).flatten).length = n
    cases st.dir
    · show max 0 (((n + 1 : Nat) : Int) - 1) = (n : Int)
      omega
    · show max 0 (((n + 0 : Nat) : Int) - 1) = ((n - 1 : Nat) : Int)
      omega
  rw [e1, e2] at hs
  refine ⟨s, ?_, hs⟩
  have hne : st.text ≠ [] := by
    intro e0
    rw [e0] at e
    have : parseConfig [] = some (none, [], []) := rfl
    rw [this] at e
    cases e
  unfold main
  rw [if_neg hne, e, Option.bind_some]
  simp only [es, Option.bind_some]

end Model.Visual

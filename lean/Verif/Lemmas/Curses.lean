import Verif.Model.Curses
import Verif.Lemmas.Visual

/-!
# Lemmas on the curses simulator
-/

namespace Model.Curses
open Spec (Table Dir Config init run)
open Spec.Visual Model.Visual

theorem upper_letter : ∀ q < 26, Py.uppercase[q]? = some (letter q) := by decide

theorem stateChar_ok {q : Nat} {ch : Char} (h : stateChar (some q) = some ch) : q < 26 ∧ ch = letter q := by
  have hlt : q < 26 := by
    by_contra hge
    have : Py.uppercase[q]? = none := List.getElem?_eq_none (by show 26 ≤ q; omega)
    rw [show stateChar (some q) = Py.uppercase[q]? from rfl, this] at h
    cases h
  refine ⟨hlt, ?_⟩
  rw [show stateChar (some q) = Py.uppercase[q]? from rfl, upper_letter q hlt] at h
  injection h with h
  exact h.symm

/-! ## A line of the pad -/

/-- the cell that is written -/
theorem writeCols_ok {s : DirectSim} {c : Config} {q : Nat} (h : s.Sim c) (hq : c.state = some q) (line : Nat) :
    ∀ (cols : List Int) (v v' : Vis), writeCols s.tape s.state line cols v = .ok v' →
      v' = { v with pad := fun r x => if r = line ∧ (x : Int) ∈ cols then pairLook c (x - v.offset) else v.pad r x } ∧
      (line + 1 = v.height → ∀ x ∈ cols, x + 1 ≠ (v.width : Int))
  | [], v, v', e => by
    injection e with e
    subst e
    exact ⟨by simp, by simp⟩
  | col :: cols, v, v', e => by
    unfold writeCols at e
    simp only [DirectTape.readPos_eq, h.tape, h.pos, h.state, hq] at e
    generalize hch : (if col - v.offset = c.pos then stateChar (some q) else some ' ') = o at e
    cases o with
    | none => cases e
    | some ch =>
      have hcell : (⟨ch, c.tape (col - v.offset) + 1⟩ : Cell) = pairLook c (col - v.offset) := by
        unfold pairLook
        by_cases hp : col - v.offset = c.pos
        · rw [if_pos hp] at hch ⊢
          rw [(stateChar_ok hch).2, hq]
        · rw [if_neg hp] at hch ⊢
          injection hch with hch
          rw [← hch]
      simp only [hcell] at e
      unfold Vis.addstr at e
      by_cases h1 : col < 0 ∨ (v.width : Int) ≤ col ∨ v.height ≤ line
      · rw [if_pos h1] at e; cases e
      · rw [if_neg h1] at e
        by_cases h2 : line + 1 = v.height ∧ col + 1 = v.width
        · rw [if_pos h2] at e; cases e
        · rw [if_neg h2] at e
          simp only at e
          have := writeCols_ok h hq line cols _ v' (by rw [h.state, hq]; exact e)
          refine ⟨?_, ?_⟩
          · rw [this.1]
            congr 1
            funext r x
            show (if r = line ∧ (x : Int) ∈ cols then pairLook c (x - v.offset)
              else if r = line ∧ (x : Int) = col then pairLook c (col - v.offset) else v.pad r x) =
              if r = line ∧ (x : Int) ∈ col :: cols then pairLook c (x - v.offset) else v.pad r x
            by_cases hr : r = line
            · by_cases hx : (x : Int) ∈ cols
              · rw [if_pos ⟨hr, hx⟩, if_pos ⟨hr, by simp [hx]⟩]
              · rw [if_neg (by tauto)]
                by_cases hxc : (x : Int) = col
                · rw [if_pos ⟨hr, hxc⟩, if_pos ⟨hr, by simp [hxc]⟩, hxc]
                · rw [if_neg (by tauto), if_neg (by simp [hx, hxc])]
            · rw [if_neg (by tauto), if_neg (by tauto), if_neg (by tauto)]
          · intro hl x hx
            rcases List.mem_cons.1 hx with rfl | hx
            · intro hw; exact h2 ⟨hl, hw⟩
            · exact this.2 hl x hx

theorem writeCols_some {s : DirectSim} {c : Config} {q : Nat} (h : s.Sim c) (hq : c.state = some q) (hq26 : q < 26) (line : Nat) :
    ∀ (cols : List Int) (v : Vis), line < v.height → (∀ x ∈ cols, 0 ≤ x ∧ x + 1 < (v.width : Int)) →
      ∃ v', writeCols s.tape s.state line cols v = .ok v'
  | [], v, _, _ => ⟨v, rfl⟩
  | col :: cols, v, hl, hx => by
    unfold writeCols
    simp only [DirectTape.readPos_eq, h.tape, h.pos, h.state, hq]
    have : ∃ ch, (if col - v.offset = c.pos then stateChar (some q) else some ' ') = some ch := by
      split
      · exact ⟨_, upper_letter q hq26⟩
      · exact ⟨_, rfl⟩
    obtain ⟨ch, e⟩ := this
    rw [e]
    have hc := hx col (by simp)
    simp only
    unfold Vis.addstr
    rw [if_neg (by omega), if_neg (by omega)]
    simp only
    have := writeCols_some h hq hq26 line cols
      { v with pad := fun r c_1 => if r = line ∧ (c_1 : Int) = col then ⟨ch, c.tape (col - v.offset) + 1⟩ else v.pad r c_1 }
      hl (fun x hx' => hx x (by simp [hx']))
    rw [h.state, hq] at this
    exact this

theorem mem_range {a b x : Int} : x ∈ Visual.range a b ↔ a ≤ x ∧ x < b := by
  unfold Visual.range
  rw [List.mem_map]
  constructor
  · rintro ⟨i, hi, rfl⟩
    have := List.mem_range.1 hi
    omega
  · rintro ⟨h1, h2⟩
    exact ⟨(x - a).toNat, List.mem_range.2 (by omega), by omega⟩

theorem abs_outside {t : DirectTape Nat} {p : Int} (h : p < t.posLeftmost ∨ t.posRightmost < p) : t.abs p = t.initSymbol := by
  unfold DirectTape.abs DirectTape.cell
  unfold DirectTape.posLeftmost DirectTape.posRightmost DirectTape.index2pos at h
  by_cases h0 : 0 ≤ p - t.position + t.index
  · rw [if_pos h0, List.getD_eq_getElem?_getD, List.getElem?_eq_none (by omega)]; rfl
  · rw [if_neg h0]

theorem writeTape_ok {s : DirectSim} {c : Config} {q : Nat} (h : s.Sim c) (hq : c.state = some q) {line : Nat} {v v' : Vis}
    (e : v.writeTape line s.tape s.state = .ok v') (hb : ∀ x < v.width, v.pad line x = background) (hw : 0 < v.width) :
    ∃ pad, v' = { v with pad := pad } ∧ (∀ r x, r ≠ line → pad r x = v.pad r x) ∧
      (∀ x < v.width, pad line x = pairLook c (x - v.offset)) ∧
      (line + 1 = v.height → s.tape.posLeftmost + v.offset < v.width → s.tape.posRightmost + 1 + v.offset + 1 < v.width) := by
  unfold Vis.writeTape at e
  obtain ⟨e1, e2⟩ := writeCols_ok h hq line _ _ _ e
  refine ⟨_, e1, fun r x hr => if_neg (by tauto), fun x hx => ?_, fun hl hleft => ?_⟩
  · simp only [mem_range]
    split
    · rfl
    · rename_i hn
      have hout : ((x : Int) - v.offset) < s.tape.posLeftmost ∨ s.tape.posRightmost < (x : Int) - v.offset := by
        unfold DirectTape.posLeftmost DirectTape.posRightmost DirectTape.index2pos
        by_contra hcon
        apply hn
        refine ⟨trivial, ?_⟩
        omega
      rw [hb x hx]
      have htape : c.tape (x - v.offset) = 0 := by
        rw [← h.tape, abs_outside hout, h.blank]
      have hpos : (x : Int) - v.offset ≠ c.pos := by
        have := DirectTape.wf_iff.1 h.wf
        rw [h.pos] at this
        intro hc
        omega
      unfold pairLook
      rw [htape, if_neg hpos]
      rfl
  · have := e2 hl
    by_contra hcon
    have hmem := this ((v.width : Int) - 1) (mem_range.2 (by
      unfold DirectTape.posLeftmost DirectTape.posRightmost DirectTape.index2pos at *
      have h1 := h.wf.1
      have h2 := h.wf.2
      omega))
    omega

theorem writeTape_some {s : DirectSim} {c : Config} {q : Nat} (h : s.Sim c) (hq : c.state = some q) (hq26 : q < 26) {line : Nat} {v : Vis}
    (hl : line < v.height) (hr : s.tape.posRightmost + 1 + v.offset + 1 < v.width) :
    ∃ v', v.writeTape line s.tape s.state = .ok v' := by
  unfold Vis.writeTape
  refine writeCols_some h hq hq26 line _ _ hl (fun x hx => ?_)
  have := mem_range.1 hx
  unfold DirectTape.posRightmost DirectTape.index2pos at hr
  omega

/-! ## The pad -/

/-- The pad shows the first steps. -/
structure Inv (M : Table) (v : Vis) : Prop where
  sim : At M init 0 0 v.sim.stepNum v.sim
  before : ∀ m < v.sim.stepNum, (run M m init).state ≠ none
  height : v.sim.stepNum ≤ v.height
  width : 0 < v.width
  offset : v.offset = ((v.width / 2 : Nat) : Int)
  pad : ∀ r < v.height, ∀ x < v.width, v.pad r x =
    if r < v.sim.stepNum then pairLook (run M r init) (x - v.offset) else background

/-- What `expand_pad` does not change -/
def Same (v v' : Vis) : Prop :=
  v'.height = v.height ∧ v'.width = v.width ∧ v'.offset = v.offset ∧ v'.curLine = v.curLine ∧ v'.curPos = v.curPos ∧ v'.screen = v.screen

/-- nothing more to draw -/
def Full (v : Vis) : Prop := v.sim.halted = true ∨ v.sim.stepNum = v.height

theorem left_le {M : Table} {k : Nat} {s : DirectSim} (h : At M init 0 0 k s) : s.tape.posLeftmost ≤ 0 := h.left.1

/-- One round of the loop -/
theorem round_ok {M : Table} {v v1 : Vis} (h : Inv M v) (hh : v.sim.halted = false) (hlt : v.sim.stepNum < v.height)
    (e : v.writeTape v.sim.stepNum v.sim.tape v.sim.state = .ok v1) :
    ∃ s', v1.sim.step M = some s' ∧ Inv M { v1 with sim := s' } ∧ Same v { v1 with sim := s' } ∧ s'.stepNum = v.sim.stepNum + 1 ∧
      (v.sim.stepNum + 1 = v.height → ∀ j ≤ v.sim.stepNum, (run M j init).pos + 1 + v.offset + 1 < v.width) := by
  have hrun : (run M v.sim.stepNum init).state ≠ none := by
    have := h.sim.sim.halted
    rw [hh] at this
    intro e
    rw [e] at this
    cases this
  obtain ⟨q, hq⟩ := Option.ne_none_iff_exists'.1 hrun
  obtain ⟨pad, e1, hpad, hline, hcorner⟩ := writeTape_ok h.sim.sim hq e (fun x hx => by
    rw [h.pad _ hlt x hx, if_neg (lt_irrefl _)]) h.width
  obtain ⟨s', es, hs'⟩ := h.sim.step hh
  subst e1
  have hn : s'.stepNum = v.sim.stepNum + 1 := hs'.num
  refine ⟨s', es, ⟨?_, ?_, ?_, h.width, h.offset, ?_⟩, ⟨rfl, rfl, rfl, rfl, rfl, rfl⟩, hn, ?_⟩
  · show At M init 0 0 s'.stepNum s'
    rw [hn]; exact hs'
  · show ∀ m < s'.stepNum, _
    rw [hn]
    intro m hm
    rcases Nat.lt_or_ge m v.sim.stepNum with hl | hl
    · exact h.before m hl
    · rw [show m = v.sim.stepNum by omega]; exact hrun
  · show s'.stepNum ≤ v.height
    omega
  · show ∀ r < v.height, ∀ x < v.width, pad r x = if r < s'.stepNum then pairLook (run M r init) (x - v.offset) else background
    intro r hr x hx
    rw [hn]
    by_cases hrl : r = v.sim.stepNum
    · subst hrl
      rw [hline x hx, if_pos (by omega)]
    · rw [hpad r x hrl, h.pad r hr x hx]
      by_cases hlt' : r < v.sim.stepNum
      · rw [if_pos hlt', if_pos (by omega)]
      · rw [if_neg hlt', if_neg (by omega)]
  · intro hl j hj
    have h1 := h.sim.right.2.1 j hj
    have h2 := left_le h.sim
    have h3 := h.offset
    have h4 := h.width
    have := hcorner hl (by omega)
    omega

theorem expandLoop_ok {M : Table} : ∀ (n : Nat) (v v' : Vis), Inv M v → v.height - v.sim.stepNum ≤ n → expandLoop M n v = .ok v' →
    Inv M v' ∧ Same v v' ∧ Full v' ∧ v.sim.stepNum ≤ v'.sim.stepNum ∧
      (v.sim.stepNum < v.height → v'.sim.stepNum = v.height →
        ∀ j < v.height, (run M j init).pos + 1 + v.offset + 1 < v.width)
  | 0, v, v', h, hn, e => by
    injection e with e
    subst e
    exact ⟨h, ⟨rfl, rfl, rfl, rfl, rfl, rfl⟩, Or.inr (by have := h.height; omega), le_refl _, fun h1 h2 => by omega⟩
  | n + 1, v, v', h, hn, e => by
    unfold expandLoop at e
    by_cases hc : (!v.sim.halted && decide (v.sim.stepNum < v.height)) = true
    · rw [if_pos hc] at e
      simp only [Bool.and_eq_true, Bool.not_eq_true', decide_eq_true_eq] at hc
      cases e1 : v.writeTape v.sim.stepNum v.sim.tape v.sim.state with
      | error x => rw [e1] at e; cases e
      | ok v1 =>
        rw [e1] at e
        simp only at e
        obtain ⟨s', es, hi, hsame, hnum, hcor⟩ := round_ok h hc.1 hc.2 e1
        rw [es] at e
        obtain ⟨g1, g2, g3, g4, g5⟩ := expandLoop_ok n _ v' hi (by
          show v1.height - s'.stepNum ≤ n
          rw [hsame.1]
          omega) e
        obtain ⟨s1, s2, s3, s4, s5, s6⟩ := hsame
        obtain ⟨t1, t2, t3, t4, t5, t6⟩ := g2
        refine ⟨g1, ⟨t1.trans s1, t2.trans s2, t3.trans s3, t4.trans s4, t5.trans s5, t6.trans s6⟩, g3, ?_, ?_⟩
        · have : s'.stepNum ≤ v'.sim.stepNum := g4
          omega
        · intro _ hfin
          rcases Nat.lt_or_ge s'.stepNum v.height with hlt | hge
          · have s1' : v1.height = v.height := s1
            have s2' : v1.width = v.width := s2
            have s3' : v1.offset = v.offset := s3
            have := g5 (by show s'.stepNum < v1.height; rw [s1']; exact hlt) (by show _ = v1.height; rw [s1']; exact hfin)
            simp only at this
            rw [s1', s2', s3'] at this
            exact this
          · intro j hj
            exact hcor (by omega) j (by omega)
    · rw [if_neg hc] at e
      injection e with e
      subst e
      have : v.sim.halted = true ∨ v.height ≤ v.sim.stepNum := by
        simp only [Bool.and_eq_true, Bool.not_eq_true', decide_eq_true_eq] at hc
        by_cases hh : v.sim.halted = true
        · exact Or.inl hh
        · right
          by_contra hcon
          exact hc ⟨by simpa using hh, by omega⟩
      refine ⟨h, ⟨rfl, rfl, rfl, rfl, rfl, rfl⟩, ?_, le_refl _, fun h1 h2 => by omega⟩
      rcases this with hh | hh
      · exact Or.inl hh
      · exact Or.inr (by have := h.height; omega)

/-- The head never comes near the right edge of the pad and the states have letters. -/
structure Tame (M : Table) (w : Nat) : Prop where
  state : ∀ k q, (run M k init).state = some q → q < 26
  right : ∀ k, (run M k init).pos + 3 ≤ ((w - w / 2 : Nat) : Int)

theorem tame_mono {M : Table} {w w' : Nat} (h : Tame M w) (hw : w ≤ w') : Tame M w' :=
  ⟨h.state, fun k => by have := h.right k; omega⟩

theorem expandLoop_some {M : Table} : ∀ (n : Nat) (v : Vis), Inv M v → Tame M v.width → ∃ v', expandLoop M n v = .ok v'
  | 0, v, _, _ => ⟨v, rfl⟩
  | n + 1, v, h, ht => by
    unfold expandLoop
    by_cases hc : (!v.sim.halted && decide (v.sim.stepNum < v.height)) = true
    · rw [if_pos hc]
      simp only [Bool.and_eq_true, Bool.not_eq_true', decide_eq_true_eq] at hc
      have hrun : (run M v.sim.stepNum init).state ≠ none := by
        have := h.sim.sim.halted
        rw [hc.1] at this
        intro e
        rw [e] at this
        cases this
      obtain ⟨q, hq⟩ := Option.ne_none_iff_exists'.1 hrun
      have hedge : v.sim.tape.posRightmost + 1 + v.offset + 1 < v.width := by
        rw [h.offset]
        rcases h.sim.right.2.2 with hr | ⟨j, _, hr⟩
        · have h0 := ht.right 0
          have : (run M 0 init).pos = 0 := rfl
          rw [this] at h0
          omega
        · have := ht.right j
          omega
      obtain ⟨v1, e1⟩ := writeTape_some h.sim.sim hq (ht.state _ q hq) (v := v) hc.2 hedge
      rw [e1]
      obtain ⟨s', es, hi, hsame, _, _⟩ := round_ok h hc.1 hc.2 e1
      simp only [es]
      exact expandLoop_some n _ hi (by
        have : v1.width = v.width := hsame.2.1
        show Tame M v1.width
        rw [this]; exact ht)
    · rw [if_neg hc]
      exact ⟨v, rfl⟩

/-- The pad before the loop of `expand_pad` -/
theorem resized {M : Table} {v : Vis} {h w : Nat} (hw : 0 < w) (hv : Inv M v ∧ v.height ≤ h ∨ v.width ≠ w) :
    ∃ v2, v.expandPad M h w = expandLoop M (h - v2.sim.stepNum) v2 ∧ Inv M v2 ∧ v2.height = h ∧ v2.width = w ∧
      v2.curLine = v.curLine ∧ v2.curPos = v.curPos ∧ v2.screen = v.screen ∧
      (v.width = w → v2.sim = v.sim) ∧ (v.width ≠ w → v2.sim.stepNum = 0) := by
  unfold Vis.expandPad
  by_cases hne : v.width ≠ w
  · refine ⟨_, rfl, ?_⟩
    simp only [if_pos hne]
    refine ⟨⟨?_, ?_, Nat.zero_le _, hw, rfl, ?_⟩, rfl, rfl, rfl, rfl, rfl, fun e => absurd e hne, fun _ => rfl⟩
    · show At M init 0 0 0 DirectSim.new
      refine ⟨DirectSim.sim_new, rfl, ⟨le_refl _, fun j hj => ?_, Or.inl rfl⟩, ⟨le_refl _, fun j hj => ?_, Or.inl rfl⟩⟩
      · rw [show j = 0 by omega]; exact le_refl _
      · rw [show j = 0 by omega]; exact le_refl _
    · intro m hm
      exact absurd hm (Nat.not_lt_zero m)
    · intro r _ x _
      show background = if r < 0 then _ else background
      rw [if_neg (Nat.not_lt_zero r)]
  · rcases hv with ⟨hi, hh⟩ | hv
    · refine ⟨_, rfl, ?_⟩
      simp only [if_neg hne]
      have hww : v.width = w := not_not.1 hne
      refine ⟨⟨hi.sim, hi.before, le_trans hi.height hh, hw, ?_, ?_⟩, rfl, rfl, rfl, rfl, rfl, fun _ => rfl, fun e => absurd e hne⟩
      · show v.offset = _
        rw [hi.offset, hww]
        rfl
      · intro r _ x hx
        have hx' : x < v.width := by rw [hww]; exact hx
        show (if r < v.height ∧ x < v.width then v.pad r x else background) = if r < v.sim.stepNum then _ else _
        by_cases hr : r < v.height
        · rw [if_pos ⟨hr, hx'⟩, hi.pad r hr x hx']
          rfl
        · rw [if_neg (by tauto), if_neg (by have := hi.height; omega)]
    · exact absurd hv hne

theorem expandPad_ok {M : Table} {v v' : Vis} {h w : Nat} (hw : 0 < w) (hv : Inv M v ∧ v.height ≤ h ∨ v.width ≠ w)
    (e : v.expandPad M h w = .ok v') :
    Inv M v' ∧ Full v' ∧ v'.height = h ∧ v'.width = w ∧ v'.curLine = v.curLine ∧ v'.curPos = v.curPos ∧ v'.screen = v.screen := by
  obtain ⟨v2, e2, hi, h1, h2, h3, h4, h5, _⟩ := resized hw hv
  rw [e2] at e
  obtain ⟨g1, ⟨s1, s2, s3, s4, s5, s6⟩, g3, _, _⟩ := expandLoop_ok _ v2 v' hi (by rw [h1]) e
  exact ⟨g1, g3, s1.trans h1, s2.trans h2, s4.trans h3, s5.trans h4, s6.trans h5⟩

theorem expandPad_some {M : Table} {v : Vis} {h w : Nat} (hw : 0 < w) (hv : Inv M v ∧ v.height ≤ h ∨ v.width ≠ w)
    (ht : Tame M w) : ∃ v', v.expandPad M h w = .ok v' := by
  obtain ⟨v2, e2, hi, h1, h2, _⟩ := resized hw hv
  rw [e2]
  exact expandLoop_some _ v2 hi (by rw [h2]; exact ht)

/-! ## The screen and the keys -/

/-- The screen is not larger than the buffer. -/
structure Roomy (e : Env) : Prop where
  bs : 2 ≤ e.bs
  lines : e.lines ≤ e.bs
  cols : 2 * e.cols ≤ e.bs

/-- The part of the pad that is to be shown exists. -/
structure Placed (M : Table) (e : Env) (v : Vis) : Prop where
  inv : Inv M v
  full : Full v
  width : e.bs ≤ v.width
  height : e.bs ≤ v.height
  line0 : 0 ≤ v.curLine
  lines : v.curLine + e.lines ≤ v.height
  left : 0 ≤ v.curPos - ((e.cols / 2 : Nat) : Int) + v.offset
  right : v.curPos - ((e.cols / 2 : Nat) : Int) + v.offset + e.cols ≤ v.width

/-- The screen shows the run. -/
def Shown (M : Table) (e : Env) (v : Vis) : Prop :=
  ∀ r < e.lines, ∀ x < e.cols, v.screen r x =
    if v.curLine.toNat + r < v.sim.stepNum then
      pairLook (run M (v.curLine.toNat + r) init) (v.curPos - ((e.cols / 2 : Nat) : Int) + x)
    else background

theorem draw_placed {M : Table} {e : Env} {v : Vis} (h : Placed M e v) :
    ∃ v', v.draw e = .ok v' ∧ Placed M e v' ∧ Shown M e v' ∧ v'.curLine = v.curLine ∧ v'.curPos = v.curPos ∧ v'.sim = v.sim := by
  unfold Vis.draw
  have h1 := h.left
  have h2 := h.right
  have h3 := h.line0
  have h4 := h.lines
  rw [if_pos ⟨h.line0, by omega, h1, by omega⟩]
  refine ⟨_, rfl, ⟨⟨h.inv.sim, h.inv.before, h.inv.height, h.inv.width, h.inv.offset, h.inv.pad⟩, h.full, h.width, h.height, h.line0,
    h.lines, h.left, h.right⟩, ?_, rfl, rfl, rfl⟩
  intro r hr x hx
  show (if r < e.lines ∧ x < e.cols ∧ v.curLine + r < v.height ∧ v.curPos - ((e.cols / 2 : Nat) : Int) + v.offset + x < v.width then
      v.pad (v.curLine + r).toNat (v.curPos - ((e.cols / 2 : Nat) : Int) + v.offset + x).toNat else v.screen r x) =
    if v.curLine.toNat + r < v.sim.stepNum then _ else _
  rw [if_pos ⟨hr, hx, by omega, by omega⟩, h.inv.pad _ (by omega) _ (by omega)]
  have e1 : (v.curLine + r).toNat = v.curLine.toNat + r := by omega
  have e2 : (((v.curPos - ((e.cols / 2 : Nat) : Int) + v.offset + x).toNat : Nat) : Int) - v.offset =
      v.curPos - ((e.cols / 2 : Nat) : Int) + x := by omega
  rw [e1, e2]

theorem initPad_ok {M : Table} {e : Env} (he : Roomy e) {screen : Nat → Nat → Cell} {v : Vis} (h : initPad M e screen = .ok v) :
    Placed M e v ∧ Shown M e v ∧ v.curLine = 0 ∧ v.curPos = 0 := by
  unfold initPad at h
  have hbs := he.bs
  rw [if_neg (by omega)] at h
  generalize hv0 : Vis.empty screen = v0 at h
  cases e1 : v0.expandPad M e.bs e.bs with
  | error x => rw [e1] at h; cases h
  | ok v1 =>
    rw [e1] at h
    simp only at h
    obtain ⟨g1, g2, g3, g4, g5, g6, g7⟩ := expandPad_ok (by omega) (Or.inr (by subst hv0; show 1 ≠ e.bs; omega)) e1
    have l0 : v0.curLine = 0 := by subst hv0; rfl
    have p0 : v0.curPos = 0 := by subst hv0; rfl
    rw [l0] at g5
    rw [p0] at g6
    have ho := g1.offset
    have hc := he.cols
    have hl := he.lines
    obtain ⟨v2, e2, k1, k2, k3, k4, _⟩ := draw_placed (M := M) (e := e) (v := v1)
      ⟨g1, g2, by omega, by omega, by omega, by omega, by omega, by omega⟩
    rw [e2] at h
    injection h with h
    subst h
    exact ⟨k1, k2, by omega, by omega⟩

theorem vertLoop_ok {M : Table} {e : Env} : ∀ (f : Nat) (v v' : Vis), Inv M v → Full v → vertLoop M e f v = some (.ok v') →
    Inv M v' ∧ Full v' ∧ v.height ≤ v'.height ∧ v'.width = v.width ∧ v'.curLine = v.curLine ∧ v'.curPos = v.curPos ∧
      v'.curLine + e.lines ≤ v'.sim.stepNum
  | f, v, v', h, hf, hv => by
    unfold vertLoop at hv
    by_cases hc : v.curLine + e.lines > v.sim.stepNum
    · rw [if_pos hc] at hv
      cases f with
      | zero => cases hv
      | succ f =>
        simp only at hv
        cases e1 : v.expandPad M (v.height + e.bs) v.width with
        | error x => rw [e1] at hv; cases hv
        | ok v1 =>
          rw [e1] at hv
          obtain ⟨g1, g2, g3, g4, g5, g6, g7⟩ := expandPad_ok h.width (Or.inl ⟨h, by omega⟩) e1
          obtain ⟨k1, k2, k3, k4, k5, k6, k7⟩ := vertLoop_ok f v1 v' g1 g2 hv
          exact ⟨k1, k2, by omega, by omega, k5.trans g5, k6.trans g6, k7⟩
    · rw [if_neg hc] at hv
      injection hv with hv
      injection hv with hv
      subst hv
      exact ⟨h, hf, le_refl _, rfl, rfl, rfl, by omega⟩

theorem horLoop_ok {M : Table} {e : Env} (hbs : 1 ≤ e.bs) : ∀ (f : Nat) (v v' : Vis), Inv M v → Full v → horLoop M e f v = some (.ok v') →
    Inv M v' ∧ Full v' ∧ v'.height = v.height ∧ v.width ≤ v'.width ∧ v'.curLine = v.curLine ∧ v'.curPos = v.curPos ∧
      0 ≤ v'.curPos + v'.offset - e.cols ∧ v'.curPos + v'.offset + v'.curPos ≤ v'.width
  | f, v, v', h, hf, hv => by
    unfold horLoop at hv
    by_cases hc : v.curPos + v.offset - e.cols < 0 ∨ v.curPos + v.offset + v.curPos > v.width
    · rw [if_pos hc] at hv
      cases f with
      | zero => cases hv
      | succ f =>
        simp only at hv
        cases e1 : v.expandPad M v.height (v.width + e.bs) with
        | error x => rw [e1] at hv; cases hv
        | ok v1 =>
          rw [e1] at hv
          obtain ⟨g1, g2, g3, g4, g5, g6, g7⟩ := expandPad_ok (by omega) (Or.inr (by omega)) e1
          obtain ⟨k1, k2, k3, k4, k5, k6, k7⟩ := horLoop_ok hbs f v1 v' g1 g2 hv
          exact ⟨k1, k2, by omega, by omega, k5.trans g5, k6.trans g6, k7⟩
    · rw [if_neg hc] at hv
      injection hv with hv
      injection hv with hv
      subst hv
      exact ⟨h, hf, rfl, le_refl _, rfl, rfl, by omega, by omega⟩

theorem moveVert_ok {M : Table} {e : Env} {f : Nat} {v v' : Vis} {d : Int} (h : Placed M e v)
    (hv : moveVert M e f v d = some (.ok v')) :
    Placed M e v' ∧ Shown M e v' ∧ v'.curLine = max 0 (v.curLine + d) ∧ v'.curPos = v.curPos := by
  unfold moveVert at hv
  generalize hl : (if v.curLine + d < 0 then 0 else v.curLine + d) = line at hv
  have hl' : line = max 0 (v.curLine + d) := by
    rw [← hl]; split <;> omega
  simp only at hv
  cases e1 : vertLoop M e f { v with curLine := line } with
  | none => rw [e1] at hv; cases hv
  | some r =>
    rw [e1] at hv
    cases r with
    | error x => cases hv
    | ok v1 =>
      obtain ⟨k1, k2, k3, k4, k5, k6, k7⟩ := vertLoop_ok f { v with curLine := line } v1 ⟨h.inv.sim, h.inv.before, h.inv.height, h.inv.width, h.inv.offset, h.inv.pad⟩
        h.full e1
      simp only at k3 k4 k5 k6
      have ho : v1.offset = v.offset := by rw [k1.offset, h.inv.offset, k4]
      have hh := k1.height
      have := h.left
      have := h.right
      have := h.width
      have := h.height
      obtain ⟨v2, e2, p1, p2, p3, p4, _⟩ := draw_placed (M := M) (e := e) (v := v1)
        ⟨k1, k2, by omega, by omega, by omega, by omega, by rw [ho, k6]; omega, by rw [ho, k6, k4]; omega⟩
      have hv' : v2 = v' := by
        have : (some (v1.draw e) : Option (Except Exn Vis)) = some (.ok v') := hv
        rw [e2] at this
        injection this with this
        injection this
      subst hv'
      exact ⟨p1, p2, by rw [p3, k5, hl'], by rw [p4, k6]⟩

theorem moveHor_ok {M : Table} {e : Env} (he : Roomy e) {f : Nat} {v v' : Vis} {d : Int} (h : Placed M e v)
    (hv : moveHor M e f v d = some (.ok v')) :
    Placed M e v' ∧ Shown M e v' ∧ v'.curLine = v.curLine ∧ v'.curPos = v.curPos + d := by
  unfold moveHor at hv
  cases e1 : horLoop M e f { v with curPos := v.curPos + d } with
  | none => rw [e1] at hv; cases hv
  | some r =>
    rw [e1] at hv
    cases r with
    | error x => cases hv
    | ok v1 =>
      obtain ⟨k1, k2, k3, k4, k5, k6, k7, k8⟩ := horLoop_ok (e := e) (by have := he.bs; omega) f { v with curPos := v.curPos + d } v1
        ⟨h.inv.sim, h.inv.before, h.inv.height, h.inv.width, h.inv.offset, h.inv.pad⟩ h.full e1
      simp only at k3 k4 k5 k6
      have ho := k1.offset
      have := h.lines
      have := h.line0
      have := h.width
      have := h.height
      have hcols := he.cols
      obtain ⟨v2, e2, p1, p2, p3, p4, _⟩ := draw_placed (M := M) (e := e) (v := v1)
        ⟨k1, k2, by omega, by omega, by omega, by omega, by omega, by omega⟩
      have hv' : v2 = v' := by
        have : (some (v1.draw e) : Option (Except Exn Vis)) = some (.ok v') := hv
        rw [e2] at this
        injection this with this
        injection this
      subst hv'
      exact ⟨p1, p2, by rw [p3, k5], by rw [p4, k6]⟩

theorem press_ok {M : Table} {e : Env} (he : Roomy e) {f : Nat} {v v' : Vis} (k : Key) (h : Placed M e v) (hs : Shown M e v)
    (hv : press M e f v k = some (.ok v')) : Placed M e v' ∧ Shown M e v' := by
  cases k with
  | other =>
    injection hv with hv
    injection hv with hv
    subst hv
    exact ⟨h, hs⟩
  | down | up | pageDown | pageUp | top => exact ⟨(moveVert_ok h hv).1, (moveVert_ok h hv).2.1⟩
  | right | left | center => exact ⟨(moveHor_ok he h hv).1, (moveHor_ok he h hv).2.1⟩

theorem inputLoop_ok {M : Table} {e : Env} (he : Roomy e) {f : Nat} : ∀ (ks : List Key) (v v' : Vis), Placed M e v → Shown M e v →
    inputLoop M e f ks v = some (.ok v') → Placed M e v' ∧ Shown M e v'
  | [], v, v', h, hs, hv => by
    injection hv with hv
    injection hv with hv
    subst hv
    exact ⟨h, hs⟩
  | k :: ks, v, v', h, hs, hv => by
    unfold inputLoop at hv
    cases e1 : press M e f v k with
    | none => rw [e1] at hv; cases hv
    | some r =>
      rw [e1] at hv
      cases r with
      | error x => cases hv
      | ok v1 =>
        obtain ⟨g1, g2⟩ := press_ok he k h hs e1
        exact inputLoop_ok he ks v1 v' g1 g2 hv

/-! ## The loops end -/

theorem vertLoop_mono {M : Table} {e : Env} : ∀ (f f' : Nat) (v : Vis) {r : Except Exn Vis}, f ≤ f' → vertLoop M e f v = some r →
    vertLoop M e f' v = some r
  | f, f', v, r, hle, h => by
    unfold vertLoop at h ⊢
    by_cases hc : v.curLine + e.lines > v.sim.stepNum
    · rw [if_pos hc] at h ⊢
      cases f with
      | zero => cases h
      | succ f =>
        obtain ⟨g, rfl⟩ : ∃ g, f' = g + 1 := ⟨f' - 1, by omega⟩
        simp only at h ⊢
        cases e1 : v.expandPad M (v.height + e.bs) v.width with
        | error x => rw [e1] at h; exact h
        | ok v1 => rw [e1] at h; exact vertLoop_mono f g v1 (by omega) h
    · rw [if_neg hc] at h ⊢
      exact h

theorem horLoop_mono {M : Table} {e : Env} : ∀ (f f' : Nat) (v : Vis) {r : Except Exn Vis}, f ≤ f' → horLoop M e f v = some r →
    horLoop M e f' v = some r
  | f, f', v, r, hle, h => by
    unfold horLoop at h ⊢
    by_cases hc : v.curPos + v.offset - e.cols < 0 ∨ v.curPos + v.offset + v.curPos > v.width
    · rw [if_pos hc] at h ⊢
      cases f with
      | zero => cases h
      | succ f =>
        obtain ⟨g, rfl⟩ : ∃ g, f' = g + 1 := ⟨f' - 1, by omega⟩
        simp only at h ⊢
        cases e1 : v.expandPad M v.height (v.width + e.bs) with
        | error x => rw [e1] at h; exact h
        | ok v1 => rw [e1] at h; exact horLoop_mono f g v1 (by omega) h
    · rw [if_neg hc] at h ⊢
      exact h

theorem moveVert_mono {M : Table} {e : Env} {f f' : Nat} {v : Vis} {d : Int} {r : Except Exn Vis} (hle : f ≤ f')
    (h : moveVert M e f v d = some r) : moveVert M e f' v d = some r := by
  unfold moveVert at h ⊢
  simp only at h ⊢
  generalize ({ v with curLine := if v.curLine + d < 0 then 0 else v.curLine + d } : Vis) = v0 at h ⊢
  cases e1 : vertLoop M e f v0 with
  | none => rw [e1] at h; cases h
  | some x => rw [vertLoop_mono f f' v0 hle e1, ← e1]; exact h

theorem moveHor_mono {M : Table} {e : Env} {f f' : Nat} {v : Vis} {d : Int} {r : Except Exn Vis} (hle : f ≤ f')
    (h : moveHor M e f v d = some r) : moveHor M e f' v d = some r := by
  unfold moveHor at h ⊢
  generalize ({ v with curPos := v.curPos + d } : Vis) = v0 at h ⊢
  cases e1 : horLoop M e f v0 with
  | none => rw [e1] at h; cases h
  | some x => rw [horLoop_mono f f' v0 hle e1, ← e1]; exact h

theorem press_mono {M : Table} {e : Env} {f f' : Nat} {v : Vis} {k : Key} {r : Except Exn Vis} (hle : f ≤ f')
    (h : press M e f v k = some r) : press M e f' v k = some r := by
  cases k with
  | other => exact h
  | down | up | pageDown | pageUp | top => exact moveVert_mono hle h
  | right | left | center => exact moveHor_mono hle h

theorem vertLoop_ends {M : Table} {e : Env} (hbs : 1 ≤ e.bs) : ∀ (f : Nat) (v : Vis), Inv M v → Full v →
    (∀ m : Nat, (m : Int) < v.curLine + e.lines → (run M m init).state ≠ none) → v.curLine + e.lines ≤ v.height + f →
    ∃ r, vertLoop M e f v = some r
  | f, v, h, hf, hrun, hle => by
    unfold vertLoop
    by_cases hc : v.curLine + e.lines > v.sim.stepNum
    · rw [if_pos hc]
      have hnum : v.sim.stepNum = v.height := by
        rcases hf with hh | hh
        · have := h.sim.sim.halted
          rw [hh] at this
          exact absurd (by simpa using this.symm) (hrun v.sim.stepNum (by omega))
        · exact hh
      cases f with
      | zero => omega
      | succ f =>
        simp only
        cases e1 : v.expandPad M (v.height + e.bs) v.width with
        | error x => exact ⟨_, rfl⟩
        | ok v1 =>
          obtain ⟨g1, g2, g3, g4, g5, g6, g7⟩ := expandPad_ok h.width (Or.inl ⟨h, by omega⟩) e1
          exact vertLoop_ends hbs f v1 g1 g2 (by rw [g5]; exact hrun) (by rw [g5, g3]; push_cast at *; omega)
    · rw [if_neg hc]
      exact ⟨_, rfl⟩

theorem horLoop_ends {M : Table} {e : Env} (hbs : 1 ≤ e.bs) : ∀ (f : Nat) (v : Vis), Inv M v → Full v →
    4 * |v.curPos| + 2 * e.cols + 2 ≤ v.width + f → ∃ r, horLoop M e f v = some r
  | f, v, h, hf, hle => by
    unfold horLoop
    by_cases hc : v.curPos + v.offset - e.cols < 0 ∨ v.curPos + v.offset + v.curPos > v.width
    · rw [if_pos hc]
      cases f with
      | zero =>
        have ho := h.offset
        have h1 := le_abs_self v.curPos
        have h2 := neg_abs_le v.curPos
        omega
      | succ f =>
        simp only
        cases e1 : v.expandPad M v.height (v.width + e.bs) with
        | error x => exact ⟨_, rfl⟩
        | ok v1 =>
          obtain ⟨g1, g2, g3, g4, g5, g6, g7⟩ := expandPad_ok (by omega) (Or.inr (by omega)) e1
          exact horLoop_ends hbs f v1 g1 g2 (by rw [g6, g4]; push_cast at *; omega)
    · rw [if_neg hc]
      exact ⟨_, rfl⟩

theorem moveVert_ends {M : Table} {e : Env} (hbs : 1 ≤ e.bs) {v : Vis} (d : Int) (h : Placed M e v)
    (hrun : ∀ m : Nat, (m : Int) < max 0 (v.curLine + d) + e.lines → (run M m init).state ≠ none) :
    ∃ F r, moveVert M e F v d = some r := by
  have hl' : (if v.curLine + d < 0 then 0 else v.curLine + d) = max 0 (v.curLine + d) := by split <;> omega
  obtain ⟨r, hr⟩ := vertLoop_ends hbs (max 0 (v.curLine + d) + e.lines).toNat { v with curLine := max 0 (v.curLine + d) }
    ⟨h.inv.sim, h.inv.before, h.inv.height, h.inv.width, h.inv.offset, h.inv.pad⟩ h.full hrun (by simp only; omega)
  refine ⟨(max 0 (v.curLine + d) + e.lines).toNat, r.bind (·.draw e), ?_⟩
  unfold moveVert
  simp only [hl']
  rw [hr]
  rfl

theorem moveHor_ends {M : Table} {e : Env} (hbs : 1 ≤ e.bs) {v : Vis} (d : Int) (h : Placed M e v) :
    ∃ F r, moveHor M e F v d = some r := by
  obtain ⟨r, hr⟩ := horLoop_ends hbs (4 * |v.curPos + d| + 2 * e.cols + 2).toNat { v with curPos := v.curPos + d }
    ⟨h.inv.sim, h.inv.before, h.inv.height, h.inv.width, h.inv.offset, h.inv.pad⟩ h.full (by simp only; omega)
  refine ⟨(4 * |v.curPos + d| + 2 * e.cols + 2).toNat, r.bind (·.draw e), ?_⟩
  unfold moveHor
  rw [hr]
  rfl

theorem press_ends {M : Table} {e : Env} (he : Roomy e) {v : Vis} (k : Key) (h : Placed M e v)
    (hrun : ∀ m, (run M m init).state ≠ none) : ∃ F r, press M e F v k = some r := by
  have hbs : 1 ≤ e.bs := by have := he.bs; omega
  cases k with
  | other => exact ⟨0, _, rfl⟩
  | down | up | pageDown | pageUp | top => exact moveVert_ends hbs _ h (fun m _ => hrun m)
  | right | left | center => exact moveHor_ends hbs _ h

theorem inputLoop_ends {M : Table} {e : Env} (he : Roomy e) (hrun : ∀ m, (run M m init).state ≠ none) :
    ∀ (ks : List Key) (v : Vis), Placed M e v → Shown M e v → ∃ F, ∀ f ≥ F, ∃ r, inputLoop M e f ks v = some r
  | [], v, _, _ => ⟨0, fun _ _ => ⟨_, rfl⟩⟩
  | k :: ks, v, h, hs => by
    obtain ⟨F1, r, e1⟩ := press_ends he k h hrun
    cases r with
    | error x =>
      refine ⟨F1, fun f hf => ⟨.error x, ?_⟩⟩
      unfold inputLoop
      rw [press_mono hf e1]
    | ok v1 =>
      obtain ⟨g1, g2⟩ := press_ok he k h hs e1
      obtain ⟨F2, h2⟩ := inputLoop_ends he hrun ks v1 g1 g2
      refine ⟨max F1 F2, fun f hf => ?_⟩
      obtain ⟨r, hr⟩ := h2 f (le_trans (le_max_right _ _) hf)
      refine ⟨r, ?_⟩
      unfold inputLoop
      rw [press_mono (le_trans (le_max_left _ _) hf) e1]
      exact hr

/-! ## No exceptions -/

theorem vertLoop_tame {M : Table} {e : Env} : ∀ (f : Nat) (v : Vis) (x : Exn), Inv M v → Tame M v.width →
    vertLoop M e f v ≠ some (.error x)
  | f, v, x, h, ht => by
    unfold vertLoop
    by_cases hc : v.curLine + e.lines > v.sim.stepNum
    · rw [if_pos hc]
      cases f with
      | zero => simp
      | succ f =>
        obtain ⟨v1, e1⟩ := expandPad_some (v := v) (h := v.height + e.bs) h.width (Or.inl ⟨h, by omega⟩) ht
        obtain ⟨g1, g2, g3, g4, _⟩ := expandPad_ok h.width (Or.inl ⟨h, by omega⟩) e1
        simp only [e1]
        exact vertLoop_tame f v1 x g1 (by rw [g4]; exact ht)
    · rw [if_neg hc]
      simp

theorem horLoop_tame {M : Table} {e : Env} (hbs : 1 ≤ e.bs) : ∀ (f : Nat) (v : Vis) (x : Exn), Inv M v → Tame M v.width →
    horLoop M e f v ≠ some (.error x)
  | f, v, x, h, ht => by
    unfold horLoop
    by_cases hc : v.curPos + v.offset - e.cols < 0 ∨ v.curPos + v.offset + v.curPos > v.width
    · rw [if_pos hc]
      cases f with
      | zero => simp
      | succ f =>
        have ht' := tame_mono ht (show v.width ≤ v.width + e.bs by omega)
        obtain ⟨v1, e1⟩ := expandPad_some (v := v) (h := v.height) (w := v.width + e.bs) (by omega) (Or.inr (by omega)) ht'
        obtain ⟨g1, g2, g3, g4, _⟩ := expandPad_ok (by omega) (Or.inr (by omega)) e1
        simp only [e1]
        exact horLoop_tame hbs f v1 x g1 (by rw [g4]; exact ht')
    · rw [if_neg hc]
      simp

theorem moveVert_tame {M : Table} {e : Env} {f : Nat} {v : Vis} {d : Int} {x : Exn} (h : Placed M e v) (ht : Tame M e.bs) :
    moveVert M e f v d ≠ some (.error x) := by
  unfold moveVert
  simp only
  have hi : Inv M { v with curLine := if v.curLine + d < 0 then 0 else v.curLine + d } :=
    ⟨h.inv.sim, h.inv.before, h.inv.height, h.inv.width, h.inv.offset, h.inv.pad⟩
  have hno := vertLoop_tame (e := e) f _ x hi (tame_mono ht h.width)
  cases e1 : vertLoop M e f { v with curLine := if v.curLine + d < 0 then 0 else v.curLine + d } with
  | none => simp
  | some r =>
    cases r with
    | error y =>
      intro hv
      rw [e1] at hno
      have : (Except.error y : Except Exn Vis) = .error x := Option.some.inj hv
      exact hno (by rw [this])
    | ok v1 =>
      obtain ⟨k1, k2, k3, k4, k5, k6, k7⟩ := vertLoop_ok f { v with curLine := if v.curLine + d < 0 then 0 else v.curLine + d } v1 hi h.full e1
      simp only at k3 k4 k5 k6
      have ho : v1.offset = v.offset := by rw [k1.offset, h.inv.offset, k4]
      have hh := k1.height
      have h1 := h.left
      have h2 := h.right
      have h3 := h.width
      have h4 := h.height
      have hl : 0 ≤ v1.curLine := by rw [k5]; split <;> omega
      obtain ⟨v2, e2, _⟩ := draw_placed (M := M) (e := e) (v := v1)
        ⟨k1, k2, by omega, by omega, hl, by omega, by rw [ho, k6]; omega, by rw [ho, k6, k4]; omega⟩
      show (some (v1.draw e) : Option (Except Exn Vis)) ≠ _
      rw [e2]
      simp

theorem moveHor_tame {M : Table} {e : Env} (he : Roomy e) {f : Nat} {v : Vis} {d : Int} {x : Exn} (h : Placed M e v) (ht : Tame M e.bs) :
    moveHor M e f v d ≠ some (.error x) := by
  unfold moveHor
  have hbs : 1 ≤ e.bs := by have := he.bs; omega
  have hi : Inv M { v with curPos := v.curPos + d } :=
    ⟨h.inv.sim, h.inv.before, h.inv.height, h.inv.width, h.inv.offset, h.inv.pad⟩
  have hno := horLoop_tame (e := e) hbs f _ x hi (tame_mono ht h.width)
  cases e1 : horLoop M e f { v with curPos := v.curPos + d } with
  | none => simp
  | some r =>
    cases r with
    | error y =>
      intro hv
      rw [e1] at hno
      have : (Except.error y : Except Exn Vis) = .error x := Option.some.inj hv
      exact hno (by rw [this])
    | ok v1 =>
      obtain ⟨k1, k2, k3, k4, k5, k6, k7, k8⟩ := horLoop_ok hbs f { v with curPos := v.curPos + d } v1 hi h.full e1
      simp only at k3 k4 k5 k6
      have ho := k1.offset
      have h1 := h.lines
      have h2 := h.line0
      have h3 := h.width
      have h4 := h.height
      have hcols := he.cols
      obtain ⟨v2, e2, _⟩ := draw_placed (M := M) (e := e) (v := v1)
        ⟨k1, k2, by omega, by omega, by omega, by omega, by omega, by omega⟩
      show (some (v1.draw e) : Option (Except Exn Vis)) ≠ _
      rw [e2]
      simp

theorem inputLoop_tame {M : Table} {e : Env} (he : Roomy e) (ht : Tame M e.bs) {f : Nat} {x : Exn} : ∀ (ks : List Key) (v : Vis),
    Placed M e v → Shown M e v → inputLoop M e f ks v ≠ some (.error x)
  | [], v, _, _ => by unfold inputLoop; simp
  | k :: ks, v, h, hs => by
    unfold inputLoop
    have hno : press M e f v k ≠ some (.error x) := by
      cases k with
      | other => unfold press; simp
      | down | up | pageDown | pageUp | top => exact moveVert_tame h ht
      | right | left | center => exact moveHor_tame he h ht
    cases e1 : press M e f v k with
    | none => simp
    | some r =>
      cases r with
      | error y => rw [e1] at hno; exact hno
      | ok v1 =>
        obtain ⟨g1, g2⟩ := press_ok he k h hs e1
        exact inputLoop_tame he ht ks v1 g1 g2

theorem initPad_some {M : Table} {e : Env} (he : Roomy e) (ht : Tame M e.bs) (screen : Nat → Nat → Cell) :
    ∃ v, initPad M e screen = .ok v := by
  unfold initPad
  have hbs := he.bs
  rw [if_neg (by omega)]
  obtain ⟨v1, e1⟩ := expandPad_some (v := Vis.empty screen) (h := e.bs) (w := e.bs) (by omega)
    (Or.inr (by show 1 ≠ e.bs; omega)) ht
  obtain ⟨g1, g2, g3, g4, g5, g6, g7⟩ := expandPad_ok (by omega) (Or.inr (by show 1 ≠ e.bs; omega)) e1
  have l0 : (Vis.empty screen).curLine = 0 := rfl
  have p0 : (Vis.empty screen).curPos = 0 := rfl
  rw [l0] at g5
  rw [p0] at g6
  have ho := g1.offset
  have hc := he.cols
  have hl := he.lines
  obtain ⟨v2, e2, _⟩ := draw_placed (M := M) (e := e) (v := v1)
    ⟨g1, g2, by omega, by omega, by omega, by omega, by omega, by omega⟩
  rw [e1]
  exact ⟨v2, e2⟩

/-! ## Where it goes wrong -/

/-- once the machine has halted `expand_pad` changes the size of the pad only -/
theorem expandPad_halted {M : Table} {v : Vis} (hh : v.sim.halted = true) (h : Nat) :
    ∃ v', v.expandPad M h v.width = .ok v' ∧ v'.sim = v.sim ∧ v'.curLine = v.curLine := by
  refine ⟨v.resize h v.width, ?_, rfl, rfl⟩
  unfold Vis.expandPad
  simp only [ne_eq, not_true_eq_false, if_false]
  generalize h - (v.resize h v.width).sim.stepNum = n
  cases n with
  | zero => rfl
  | succ n =>
    unfold expandLoop
    have : (v.resize h v.width).sim.halted = true := hh
    rw [this]
    rfl

theorem vertLoop_hangs {M : Table} {e : Env} : ∀ (f : Nat) (v : Vis), v.sim.halted = true → v.curLine + e.lines > v.sim.stepNum →
    vertLoop M e f v = none
  | f, v, hh, hc => by
    unfold vertLoop
    rw [if_pos hc]
    cases f with
    | zero => rfl
    | succ f =>
      obtain ⟨v1, e1, h1, h2⟩ := expandPad_halted (M := M) hh (v.height + e.bs)
      simp only [e1]
      exact vertLoop_hangs f v1 (by rw [h1]; exact hh) (by rw [h1, h2]; exact hc)

theorem initPad_corner {M : Table} {e : Env} {screen : Nat → Nat → Cell} {v : Vis} (h : initPad M e screen = .ok v)
    (hrun : (run M (e.bs - 1) init).state ≠ none) : ∀ j < e.bs, (run M j init).pos + 1 + ((e.bs / 2 : Nat) : Int) + 1 < e.bs := by
  unfold initPad at h
  by_cases hbs : e.bs ≤ 1
  · rw [if_pos hbs] at h; cases h
  · rw [if_neg hbs] at h
    cases e1 : (Vis.empty screen).expandPad M e.bs e.bs with
    | error x => rw [e1] at h; cases h
    | ok v1 =>
      obtain ⟨v2, e2, hi, h1, h2, h3, h4, h5, _, h6⟩ := resized (M := M) (v := Vis.empty screen) (h := e.bs) (w := e.bs) (by omega)
        (Or.inr (by show 1 ≠ e.bs; omega))
      rw [e2] at e1
      have h0 := h6 (by show 1 ≠ e.bs; omega)
      obtain ⟨g1, g2, g3, g4, g5⟩ := expandLoop_ok _ v2 v1 hi (by rw [h1]) e1
      have hfull : v1.sim.stepNum = v2.height := by
        rcases g3 with hh | hh
        · have := g1.sim.sim.halted
          rw [hh] at this
          have hnone : (run M v1.sim.stepNum init).state = none := by simpa using this.symm
          have hle := g1.height
          rw [g2.1, h1] at hle
          rcases Nat.lt_or_ge (e.bs - 1) v1.sim.stepNum with hlt | hge
          · omega
          · exact absurd (Spec.run_none_mono hge hnone) hrun
        · rw [hh, g2.1]
      have := g5 (by omega) hfull
      rw [h1, h2, hi.offset, h2] at this
      exact this

end Model.Curses
